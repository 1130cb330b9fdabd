import Verif.Lemmas.SystemLM
import Verif.Lemmas.RoundedLM
import Verif.Lemmas.Blame
import Verif.Props.DoubleMat
/-
The numbers that a step of the Levenberg-Marquardt method computes with doubles, for a system: the damped normal equations and the two sides of the
test of the line search.
-/
set_option linter.unusedSectionVars false
namespace Tom
namespace Double
open Finset Matrix
variable {L : Libm} {n : ℕ}

/-- the relative error of a sum of `n` products -/
def gam (n : ℕ) : ℚ := (1 + 1 / 2 ^ 53) ^ n - 1

theorem gam_nonneg (n : ℕ) : 0 ≤ gam n := by
  unfold gam
  have : (1 : ℚ) ≤ (1 + 1 / 2 ^ 53) ^ n := one_le_pow₀ (by norm_num)
  linarith

theorem gam_succ (n : ℕ) : gam (n + 1) = (1 + gam n) * (1 + 1 / 2 ^ 53) - 1 := by
  unfold gam; rw [pow_succ]; ring

theorem gam_ge (hn : 0 < n) : 1 / 2 ^ 53 ≤ gam n := by
  unfold gam
  have h1 : (1 : ℚ) + 1 / 2 ^ 53 ≤ (1 + 1 / 2 ^ 53) ^ n := le_self_pow₀ (by norm_num) (by omega)
  linarith

theorem gam_solve (n : ℕ) : 6 * gam n ≤ solveError n := by
  unfold solveError
  have h1 : (1 : ℚ) ≤ growth ^ n := one_le_pow₀ (by norm_num [growth])
  have h2 := gam_nonneg n
  have : 6 * gam n * 1 ≤ 6 * gam n * growth ^ n := mul_le_mul_of_nonneg_left h1 (by positivity)
  rw [mul_one] at this
  exact this

theorem small_unit : (1 : ℚ) / 2 ^ 1022 ≤ 1 / 2 ^ 250 := one_div_pow_le_one_div_pow_of_le (by norm_num) (by norm_num)

theorem big_lt : (2 : ℚ) ^ 1000 < 2 ^ 1023 := pow_lt_pow_right₀ (by norm_num) (by norm_num)

theorem two_900 : (2 : ℚ) * 2 ^ 900 < 2 ^ 1023 := by
  have h := pow_succ' (2 : ℚ) 900
  rw [← h]
  exact pow_lt_pow_right₀ (by norm_num) (by norm_num)

theorem sixteen_300 : (2 : ℚ) ^ 300 * 16 ≤ 2 ^ 1000 := by
  have h : (2 : ℚ) ^ 304 = 2 ^ 300 * 16 := by rw [show 304 = 300 + 4 from rfl, pow_add]; norm_num
  rw [← h]
  exact pow_le_pow_right₀ (by norm_num) (by norm_num)

theorem sum_const_le {g : Fin n → ℚ} {C : ℚ} (h : ∀ k, g k ≤ C) : ∑ k, g k ≤ n * C := by
  calc ∑ k, g k ≤ ∑ _k : Fin n, C := sum_le_sum fun k _ => h k
    _ = n * C := by simp

/-- the product of matrices whose entries are bounded by `P` and `Q` -/
theorem mul_bounded {r c : ℕ} (hr : 0 < r) (hn : 0 < n) (hc : 0 < c) (A : Matrix (Fin r) (Fin n) (Double L)) (B : Matrix (Fin n) (Fin c) (Double L)) {P Q : ℚ}
    (hP : 0 ≤ P) (hA : ∀ i k, (A i k).Finite ∧ |(A i k).rat| ≤ P) (hB : ∀ k j, (B k j).Finite ∧ |(B k j).rat| ≤ Q)
    (hg : gam (n + 1) ≤ 1) (hbig : n * (P * Q + 1 / 2 ^ 250) ≤ 2 ^ 900) :
    ∃ C : Matrix (Fin r) (Fin c) (Double L), (ofEntries A).mul (ofEntries B) = .ok (ofEntries C) ∧ ∀ i j, (C i j).Finite ∧
      |(C i j).rat - ∑ k, (A i k).rat * (B k j).rat| ≤ gam n * (n * (P * Q + 1 / 2 ^ 250)) ∧
      |∑ k, (A i k).rat * (B k j).rat| ≤ n * (P * Q + 1 / 2 ^ 250) := by
  have hterm : ∀ i j k, |(A i k).rat * (B k j).rat| ≤ P * Q := fun i j k => by
    rw [abs_mul]; exact mul_le_mul (hA i k).2 (hB k j).2 (abs_nonneg _) hP
  have hsum : ∀ i j, ∑ k, (|(A i k).rat * (B k j).rat| + 1 / 2 ^ 1022) ≤ n * (P * Q + 1 / 2 ^ 250) := fun i j =>
    sum_const_le fun k => add_le_add (hterm i j k) small_unit
  choose C hC using fun (i : Fin r) (j : Fin c) => sumV_ofFn hn fun k => Arith.mul (A i k) (B k j)
  have hfin : ∀ i j, (C i j).Finite := fun i j => by
    refine C77_no_overflow (A i) (fun k => B k j) _ (sumV_someOrder (hC i j)) (fun k => ⟨(hA i k).1, (hB k j).1⟩) ?_
    have h1 : (1 + 1 / 2 ^ 53 : ℚ) ^ (n + 1) ≤ 2 := by unfold gam at hg; linarith
    have h2 : (0 : ℚ) ≤ ∑ k, (|(A i k).rat * (B k j).rat| + 1 / 2 ^ 1022) := sum_nonneg fun k _ => by positivity
    refine lt_of_le_of_lt ((mul_le_mul_of_nonneg_right h1 h2).trans (mul_le_mul_of_nonneg_left ((hsum i j).trans hbig) (by norm_num))) ?_
    exact two_900
  refine ⟨C, ?_, fun i j => ⟨hfin i j, ?_, ?_⟩⟩
  · rw [ofEntries_eq, ofEntries_eq, mul_mk' hr hc _ _ (extE (Matrix.of C)), ← ofEntries_eq]
    · rfl
    clear hbig
    intro i j hi hj
    have := hC ⟨i, hi⟩ ⟨j, hj⟩
    rw [show extE (Matrix.of C) i j = C ⟨i, hi⟩ ⟨j, hj⟩ by simp [extE, hi, hj], ← this]
    congr 1
    apply List.ext_getElem
    · simp
    · intro k h1 h2
      simp only [List.length_map, List.length_range] at h1
      simp [extE, hi, hj, h1]
  · exact ((C77_any_order (A i) (fun k => B k j) _ (sumV_someOrder (hC i j)) (hfin i j)).2).trans (mul_le_mul_of_nonneg_left (hsum i j) (gam_nonneg n))
  · refine (abs_sum_le_sum_abs _ _).trans (le_trans (sum_le_sum fun k _ => ?_) (hsum i j))
    have : (0 : ℚ) ≤ 1 / 2 ^ 1022 := by positivity
    linarith

/-- `Norm2` of a vector bounded by `P` -/
theorem norm2_bounded (hn : 0 < n) (a : Fin n → Double L) {P : ℚ} (hP : 0 ≤ P) (ha : ∀ k, (a k).Finite ∧ |(a k).rat| ≤ P)
    (hg : gam (n + 1) ≤ 1) (hbig : n * (P * P + 1 / 2 ^ 250) ≤ 2 ^ 900) :
    ∃ s : Double L, (vec a).norm2 = .ok s ∧ s.Finite ∧ |s.rat - ∑ k, (a k).rat ^ 2| ≤ gam n * (∑ k, (a k).rat ^ 2 + n * (1 / 2 ^ 250)) := by
  obtain ⟨s, hs⟩ := sumV_ofFn hn fun k => Arith.mul (a k) (a k)
  have hterm : ∀ k, |(a k).rat * (a k).rat| ≤ P * P := fun k => by
    rw [abs_mul]; exact mul_le_mul (ha k).2 (ha k).2 (abs_nonneg _) hP
  have hsum : ∑ k, (|(a k).rat * (a k).rat| + 1 / 2 ^ 1022) ≤ n * (P * P + 1 / 2 ^ 250) := sum_const_le fun k => add_le_add (hterm k) small_unit
  have hfin : s.Finite := by
    refine C77_no_overflow a a _ (sumV_someOrder hs) (fun k => ⟨(ha k).1, (ha k).1⟩) ?_
    have h1 : (1 + 1 / 2 ^ 53 : ℚ) ^ (n + 1) ≤ 2 := by unfold gam at hg; linarith
    have h2 : (0 : ℚ) ≤ ∑ k, (|(a k).rat * (a k).rat| + 1 / 2 ^ 1022) := sum_nonneg fun k _ => by positivity
    refine lt_of_le_of_lt ((mul_le_mul_of_nonneg_right h1 h2).trans (mul_le_mul_of_nonneg_left (hsum.trans hbig) (by norm_num))) ?_
    exact two_900
  refine ⟨s, ?_, hfin, ?_⟩
  · rw [← hs, ← dot_sum]
    simp [dot, zipV, Mat.norm2, vec]
  · have h1 := (C77_any_order a a _ (sumV_someOrder hs) hfin).2
    have e1 : ∀ k, (a k).rat * (a k).rat = (a k).rat ^ 2 := fun k => (pow_two _).symm
    simp only [e1, abs_sq] at h1
    refine h1.trans (mul_le_mul_of_nonneg_left ?_ (gam_nonneg n))
    rw [sum_add_distrib]
    have := sum_const_le (n := n) (g := fun _ => (1 : ℚ) / 2 ^ 1022) (fun _ => small_unit)
    linarith

theorem mu_small : 0 ≤ rnd (1 / 10 ^ 5) ∧ rnd (1 / 10 ^ 5) ≤ 1 / 50000 := by
  have h := rnd_rel7 (q := 1 / 10 ^ 5) (by
    rw [abs_of_pos (by norm_num)]
    exact le_trans (one_div_pow_le_one_div_pow_of_le (by norm_num) (by norm_num : 100 ≤ 1000)) (by norm_num))
  rw [abs_of_pos (by norm_num : (0 : ℚ) < 1 / 10 ^ 5)] at h
  have h1 := abs_le.mp h
  constructor <;> linarith

/-- the exact damped normal matrix -/
def normalMat (B : Matrix (Fin n) (Fin n) ℚ) : Matrix (Fin n) (Fin n) ℚ := fun i j => ∑ k, B k i * B k j + if i = j then rnd (1 / 10 ^ 5) else 0

theorem vec_of (v : Fin n → Double L) : (vec v : Mat (Double L)) = ofEntries (Matrix.of fun i (_ : Fin 1) => v i) := (vec_entries (Matrix.of fun i (_ : Fin 1) => v i)).symm

/-- the damped normal equations as computed -/
theorem normal_numbers (hn : 0 < n) (cfg : Config (Double L)) {J : SymMat (Double L)} {t : VarsTable (Double L)} (B : Matrix (Fin n) (Fin n) (Double L))
    (phi : Fin n → Double L) (hJ : evalMat cfg J t = .ok (ofEntries B)) {a p : ℚ} (ha : 1 ≤ a) (hp : 1 / 2 ^ 200 ≤ p)
    (hB : ∀ i j, (B i j).Finite ∧ |(B i j).rat| ≤ a) (hphi : ∀ i, (phi i).Finite ∧ |(phi i).rat| ≤ p) (hg : gam (n + 1) ≤ 1 / 4)
    (hbig : n * a ^ 2 ≤ 2 ^ 300) (hbig2 : n * (a * p) ≤ 2 ^ 300) :
    ∃ (G : Matrix (Fin n) (Fin n) (Double L)) (h : Fin n → Double L),
      lmDirection cfg J (vec phi) (lit 1 (-5)) t = solveLinear cfg (ofEntries G) (vec h) ∧
      (∀ i j, (G i j).Finite ∧ |(G i j).rat| ≤ 2 * n * a ^ 2 ∧ |(G i j).rat - normalMat (ratMatrix B) i j| ≤ gam (n + 1) * (2 * n * a ^ 2)) ∧
      (∀ i, (h i).Finite ∧ |(h i).rat| ≤ 2 * n * a * p ∧ |(h i).rat + ∑ k, (B k i).rat * (phi k).rat| ≤ gam n * (2 * n * a * p)) := by
  have hn1 : (1 : ℚ) ≤ n := by exact_mod_cast hn
  have ha0 : 0 ≤ a := by linarith
  have hp0 : 0 ≤ p := le_trans (by positivity) hp
  have hg0 := gam_nonneg n
  have hg1 : gam n ≤ gam (n + 1) := by
    rw [gam_succ]
    have : (0 : ℚ) ≤ (1 + gam n) * (1 / 2 ^ 53) := by positivity
    linarith
  have ha2 : 1 ≤ a ^ 2 := one_le_pow₀ ha
  have hna : 1 ≤ n * a ^ 2 := by nlinarith
  have hu : (0 : ℚ) < 1 / 2 ^ 250 := by positivity
  have hu2 : (1 : ℚ) / 2 ^ 250 ≤ 1 / 4 := by norm_num
  have hS : n * (a * a + 1 / 2 ^ 250) ≤ 5 / 4 * (n * a ^ 2) := by nlinarith
  have hS2 : n * (a * p + 1 / 2 ^ 250) ≤ 3 / 2 * (n * a * p) := by
    have k1 : (1 : ℚ) / 2 ^ 200 ≤ a * p := hp.trans (le_mul_of_one_le_left hp0 ha)
    have k3 : (1 : ℚ) / 2 ^ 250 ≤ 1 / 2 * (1 / 2 ^ 200) := by norm_num
    have k2 := mul_le_mul_of_nonneg_left (k3.trans (mul_le_mul_of_nonneg_left k1 (by norm_num))) (by linarith : (0 : ℚ) ≤ n)
    linarith
  have big3 : (2 : ℚ) ^ 300 * 2 ≤ 2 ^ 900 := by
    rw [← pow_succ]; exact pow_le_pow_right₀ (by norm_num) (by norm_num)
  obtain ⟨C, c1, c2⟩ := mul_bounded hn hn hn Bᵀ B (P := a) (Q := a) ha0 (fun i k => hB k i) hB (by linarith) (by
    generalize (2 : ℚ) ^ 300 = Y at *
    generalize (2 : ℚ) ^ 900 = Z at *
    linarith)
  obtain ⟨Q, q1, q2⟩ := mul_bounded hn hn Nat.one_pos Bᵀ (Matrix.of fun i (_ : Fin 1) => phi i) (P := a) (Q := p) ha0 (fun i k => hB k i) (fun k _ => hphi k)
    (by linarith) (by
    generalize (2 : ℚ) ^ 300 = Y at *
    generalize (2 : ℚ) ^ 900 = Z at *
    linarith)
  set mu := rnd (1 / 10 ^ 5) with hmu
  obtain ⟨mu0, mu1⟩ := mu_small
  rw [← hmu] at mu0 mu1
  set E : Matrix (Fin n) (Fin n) (Double L) := Matrix.of fun i j => Arith.mul (if (i : ℕ) = j then Arith.one else Arith.zero) (lit 1 (-5)) with hE
  have hEis : ∀ i j, (E i j).Is (if i = j then mu else 0) := by
    intro i j
    have hmuD := is_double (is_mu (L := L))
    by_cases hij : i = j
    · subst hij
      have := mul_is (is_one (L := L)) is_mu (by rw [_root_.one_mul, rnd_of_isDouble hmuD]; exact isDouble_lt hmuD)
      rw [_root_.one_mul, rnd_of_isDouble hmuD] at this
      show (Arith.mul (if (i : ℕ) = i then Arith.one else Arith.zero) (lit 1 (-5)) : Double L).Is (if i = i then mu else 0)
      rw [if_pos rfl, if_pos rfl]; exact this
    · have := mul_is (is_zero' (L := L)) is_mu (by rw [MulZeroClass.zero_mul, rnd_zero, abs_zero]; positivity)
      rw [MulZeroClass.zero_mul, rnd_zero] at this
      have hij' : ¬ (i : ℕ) = j := fun h => hij (Fin.ext h)
      show (Arith.mul (if (i : ℕ) = j then Arith.one else Arith.zero) (lit 1 (-5)) : Double L).Is (if i = j then mu else 0)
      rw [if_neg hij', if_neg hij]; exact this
  have hCb : ∀ i j, |(C i j).rat + (if i = j then mu else 0)| ≤ (1 + gam n) * (n * (a * a + 1 / 2 ^ 250)) + mu := by
    intro i j
    obtain ⟨k1, k2, k3⟩ := c2 i j
    have k4 : |(if i = j then mu else 0)| ≤ mu := by
      split
      · rw [abs_of_nonneg mu0]
      · rw [abs_zero]; exact mu0
    have k5 := abs_sub_abs_le_abs_sub (C i j).rat (∑ k, (Bᵀ i k).rat * (B k j).rat)
    have := abs_add_le (C i j).rat (if i = j then mu else 0)
    linarith
  have hS0 : 0 ≤ n * (a * a + 1 / 2 ^ 250) := by positivity
  have hCb2 : ∀ i j, |(C i j).rat + (if i = j then mu else 0)| ≤ 2 ^ 1000 := fun i j => by
    refine (hCb i j).trans ?_
    have k1 := mul_le_mul (by linarith : 1 + gam n ≤ 5 / 4) hS hS0 (by norm_num)
    have k2 : (2 : ℚ) ^ 300 * 2 ≤ 2 ^ 1000 := by
      rw [← pow_succ]; exact pow_le_pow_right₀ (by norm_num) (by norm_num)
    have k3 : (1 : ℚ) ≤ 2 ^ 300 := one_le_pow₀ (by norm_num)
    generalize (2 : ℚ) ^ 300 = Y at *
    generalize (2 : ℚ) ^ 1000 = Z at *
    nlinarith
  have hG : ∀ i j, (Arith.add (C i j) (E i j)).Is (rnd ((C i j).rat + if i = j then mu else 0)) := fun i j =>
    add_is ⟨(c2 i j).1, rfl⟩ (hEis i j) (small_rnd (hCb2 i j))
  have herr : ∀ i j, |(Arith.add (C i j) (E i j) : Double L).rat - normalMat (ratMatrix B) i j| ≤ gam (n + 1) * (n * (a * a + 1 / 2 ^ 250) + mu) := by
    intro i j
    have e1 : (Arith.add (C i j) (E i j) : Double L).rat = _ := (hG i j).2
    rw [e1]
    have k1 := rnd_add_rel (is_double (⟨(c2 i j).1, rfl⟩ : (C i j).Is (C i j).rat)) (is_double (hEis i j))
    have k2 := hCb i j
    have k3 := (c2 i j).2.1
    have k4 : (C i j).rat + (if i = j then mu else 0) - normalMat (ratMatrix B) i j = (C i j).rat - ∑ k, (Bᵀ i k).rat * (B k j).rat := by
      unfold normalMat ratMatrix
      simp only [Matrix.map_apply, Matrix.transpose_apply]
      ring
    have k5 := abs_sub_le (rnd ((C i j).rat + if i = j then mu else 0)) ((C i j).rat + if i = j then mu else 0) (normalMat (ratMatrix B) i j)
    rw [k4] at k5
    rw [gam_succ]
    have k6 := mul_le_mul_of_nonneg_left k2 (by norm_num : (0 : ℚ) ≤ 1 / 2 ^ 53)
    have k7 : ((1 + gam n) * (1 + 1 / 2 ^ 53) - 1) * (n * (a * a + 1 / 2 ^ 250) + mu) =
      gam n * (n * (a * a + 1 / 2 ^ 250)) + 1 / 2 ^ 53 * ((1 + gam n) * (n * (a * a + 1 / 2 ^ 250)) + mu) + (gam n + 1 / 2 ^ 53 * gam n) * mu := by ring
    rw [k7]
    have k8 : 0 ≤ (gam n + 1 / 2 ^ 53 * gam n) * mu := by positivity
    linarith
  have hSm : n * (a * a + 1 / 2 ^ 250) + mu ≤ 3 / 2 * (n * a ^ 2) := by linarith
  have hSm0 : 0 ≤ n * (a * a + 1 / 2 ^ 250) + mu := by positivity
  have hnormal : ∀ i j, |normalMat (ratMatrix B) i j| ≤ n * (a * a + 1 / 2 ^ 250) + mu := by
    intro i j
    have k3 := (c2 i j).2.2
    have e : normalMat (ratMatrix B) i j = (∑ k, (Bᵀ i k).rat * (B k j).rat) + if i = j then mu else 0 := by
      unfold normalMat ratMatrix
      simp only [Matrix.map_apply, Matrix.transpose_apply]
      rfl
    rw [e]
    have k4 : |(if i = j then mu else 0)| ≤ mu := by
      split
      · rw [abs_of_nonneg mu0]
      · rw [abs_zero]; exact mu0
    exact (abs_add_le _ _).trans (add_le_add k3 k4)
  have hneg : ∀ i, (Arith.neg (Q i 0) : Double L).Is (-(Q i 0).rat) := fun i => neg_is ⟨(q2 i 0).1, rfl⟩
  refine ⟨Matrix.of fun i j => Arith.add (C i j) (E i j), fun i => Arith.neg (Q i 0), ?_, fun i j => ⟨(hG i j).1, ?_, ?_⟩, fun i => ⟨(hneg i).1, ?_, ?_⟩⟩
  · rw [lmDirection_normal]
    unfold lmNormal
    have e1 : (ofEntries B).rows = n := rfl
    have e2 : (ofEntries B).cols = n := rfl
    rw [hJ, Res.bind_ok, C33_transpose hn hn, Res.bind_ok, c1, Res.bind_ok, e1, e2, new_mk' hn hn, Res.bind_ok, ones_mk', Res.bind_ok, mk'_eq, (C33_scale _ _).2,
      C33_add, Res.bind_ok, vec_of, q1, Res.bind_ok, toVec_entries hn, Res.bind_ok, C33_neg, vec_entries]
    rfl
  · have k1 := abs_sub_abs_le_abs_sub ((Matrix.of fun i j => Arith.add (C i j) (E i j)) i j : Double L).rat (normalMat (ratMatrix B) i j)
    have k2 := herr i j
    have k3 := hnormal i j
    have k4 := mul_le_mul_of_nonneg_right hg hSm0
    simp only [Matrix.of_apply] at *
    linarith
  · refine (herr i j).trans ?_
    apply mul_le_mul_of_nonneg_left _ (gam_nonneg _)
    linarith
  · have e : (Arith.neg (Q i 0) : Double L).rat = -(Q i 0).rat := (hneg i).2
    rw [e, abs_neg]
    have k1 := abs_sub_abs_le_abs_sub (Q i 0).rat (∑ k, (Bᵀ i k).rat * ((Matrix.of fun i (_ : Fin 1) => phi i) k 0).rat)
    have k2 := (q2 i 0).2.1
    have k3 := (q2 i 0).2.2
    have k4 := mul_le_mul_of_nonneg_right (hg1.trans hg) (by positivity : 0 ≤ n * (a * p + 1 / 2 ^ 250))
    linarith
  · have e : (Arith.neg (Q i 0) : Double L).rat = -(Q i 0).rat := (hneg i).2
    rw [e]
    have k2 := (q2 i 0).2.1
    have k3 : -(Q i 0).rat + ∑ k, (B k i).rat * (phi k).rat = -((Q i 0).rat - ∑ k, (Bᵀ i k).rat * ((Matrix.of fun i (_ : Fin 1) => phi i) k 0).rat) := by
      simp only [Matrix.transpose_apply, Matrix.of_apply]; ring
    rw [k3, abs_neg]
    refine k2.trans (mul_le_mul_of_nonneg_left ?_ hg0)
    linarith

theorem gamma_close : |rnd (4 / 10) - 2 / 5| ≤ 1 / 2 ^ 53 * (2 / 5) := by
  have h := rnd_rel (4 / 10) (by
    rw [abs_of_pos (by norm_num)]
    exact le_trans (one_div_pow_le_one_div_pow_of_le (by norm_num) (by norm_num : 100 ≤ 1022)) (by norm_num))
  rw [abs_of_pos (by norm_num : (0 : ℚ) < 4 / 10)] at h
  have e : (4 : ℚ) / 10 = 2 / 5 := by norm_num
  rw [e] at h ⊢
  exact h

/-- the right-hand side of the test of the line search, as computed -/
theorem search_numbers (hn : 0 < n) (B : Matrix (Fin n) (Fin n) (Double L)) (phi d : Fin n → Double L) {a p D : ℚ} (ha : 1 ≤ a) (hn2 : (n : ℚ) ≤ 2 ^ 50)
    (hp : 1 / 2 ^ 200 ≤ p) (hp2 : p ≤ 2 ^ 300) (hD : 0 ≤ D) (hB : ∀ i j, (B i j).Finite ∧ |(B i j).rat| ≤ a) (hphi : ∀ i, (phi i).Finite ∧ |(phi i).rat| ≤ p)
    (hd : ∀ i, (d i).Finite ∧ |(d i).rat| ≤ D) (hg : gam (n + 1) ≤ 1 / 4) (ha2 : a ≤ 2 ^ 300) (hbig : n * (a * D) ≤ 2 ^ 300) :
    ∃ P s : Fin n → Double L, (Mat.scaleLeft (Arith.mul (lit 4 (-1)) (Dbl.ofInt 1)) (ofEntries Bᵀ)).mul (vec d) = .ok (vec P) ∧
      (vec phi).add (vec P) = .ok (vec s) ∧
      ∀ i, (s i).Finite ∧ |(s i).rat - ((phi i).rat + 2 / 5 * ∑ k, (B k i).rat * (d k).rat)| ≤ 6 * gam n * (n * (a * D) + p) := by
  have hn1 : (1 : ℚ) ≤ n := by exact_mod_cast hn
  have ha0 : 0 ≤ a := by linarith
  have hp0 : 0 ≤ p := le_trans (by positivity) hp
  have hg0 := gam_nonneg n
  have hgu := gam_ge hn
  have hg1 : gam n ≤ gam (n + 1) := by
    rw [gam_succ]
    have : (0 : ℚ) ≤ (1 + gam n) * (1 / 2 ^ 53) := by positivity
    linarith
  have hga : (Arith.mul (lit 4 (-1)) (Dbl.ofInt 1) : Double L).Is (rnd (4 / 10)) := by
    have hgD := is_double (is_gamma (L := L))
    have := mul_is (is_gamma (L := L)) one_is (by rw [_root_.mul_one, rnd_of_isDouble hgD]; exact isDouble_lt hgD)
    rwa [_root_.mul_one, rnd_of_isDouble hgD] at this
  have hgc := gamma_close
  set γ := rnd (4 / 10) with hγ
  set S : Matrix (Fin n) (Fin n) (Double L) := Bᵀ.map fun x => Arith.mul x (Arith.mul (lit 4 (-1)) (Dbl.ofInt 1)) with hS
  have hγb : |γ| ≤ 41 / 100 := by
    have := abs_sub_abs_le_abs_sub γ (2 / 5)
    rw [abs_of_pos (by norm_num : (0 : ℚ) < 2 / 5)] at this
    have e : (1 : ℚ) / 2 ^ 53 * (2 / 5) ≤ 1 / 100 := by norm_num
    linarith
  have hprod : ∀ i j, |(B j i).rat * γ| ≤ 41 / 100 * a := fun i j => by
    rw [abs_mul]
    have := mul_le_mul (hB j i).2 hγb (abs_nonneg _) ha0
    linarith
  have hSis : ∀ i j, (S i j).Is (rnd ((B j i).rat * γ)) := fun i j =>
    mul_is ⟨(hB j i).1, rfl⟩ hga (small_rnd (by
      have k1 := hprod i j
      have k2 : (2 : ℚ) ^ 300 ≤ 2 ^ 1000 := pow_le_pow_right₀ (by norm_num) (by norm_num)
      generalize (2 : ℚ) ^ 300 = Y at *
      generalize (2 : ℚ) ^ 1000 = Z at *
      linarith))
  have hSe : ∀ i j, |(S i j).rat - 2 / 5 * (B j i).rat| ≤ 1 / 2 ^ 53 * a := by
    intro i j
    have e : (S i j).rat = _ := (hSis i j).2
    rw [e]
    have k1 := rnd_mixed' ((B j i).rat * γ)
    have k2 := hprod i j
    have k3 : |(B j i).rat * γ - 2 / 5 * (B j i).rat| ≤ 1 / 2 ^ 53 * (2 / 5) * a := by
      have e2 : (B j i).rat * γ - 2 / 5 * (B j i).rat = (γ - 2 / 5) * (B j i).rat := by ring
      rw [e2, abs_mul]
      exact mul_le_mul hgc (hB j i).2 (abs_nonneg _) (by positivity)
    have k4 := abs_sub_le (rnd ((B j i).rat * γ)) ((B j i).rat * γ) (2 / 5 * (B j i).rat)
    have k5 := small_unit
    have k6 : (1 : ℚ) / 2 ^ 250 ≤ 1 / 100 := by norm_num
    have k7 : 1 / 2 ^ 53 * (|(B j i).rat * γ| + 1 / 2 ^ 1022) ≤ 1 / 2 ^ 53 * (42 / 100 * a) :=
      mul_le_mul_of_nonneg_left (by generalize (1 : ℚ) / 2 ^ 1022 = Y at *; linarith) (by positivity)
    linarith
  have hSb : ∀ i j, (S i j).Finite ∧ |(S i j).rat| ≤ a := fun i j => by
    refine ⟨(hSis i j).1, ?_⟩
    have k1 := hSe i j
    have k2 := abs_sub_abs_le_abs_sub (S i j).rat (2 / 5 * (B j i).rat)
    rw [abs_mul, abs_of_pos (by norm_num : (0 : ℚ) < 2 / 5)] at k2
    have k3 := (hB j i).2
    have k4 : (1 : ℚ) / 2 ^ 53 * a ≤ 1 / 100 * a := mul_le_mul_of_nonneg_right (by norm_num) ha0
    linarith
  have hnt : n * (1 / 2 ^ 250) ≤ p := by
    have := mul_le_mul_of_nonneg_right hn2 (by positivity : (0 : ℚ) ≤ 1 / 2 ^ 250)
    refine this.trans (le_trans ?_ hp)
    norm_num
  have big : (2 : ℚ) ^ 300 * 2 ≤ 2 ^ 900 := by
    rw [← pow_succ]; exact pow_le_pow_right₀ (by norm_num) (by norm_num)
  obtain ⟨Q, q1, q2⟩ := mul_bounded hn hn Nat.one_pos S (Matrix.of fun i (_ : Fin 1) => d i) (P := a) (Q := D) ha0 hSb (fun k _ => hd k) (by linarith) (by
    generalize (2 : ℚ) ^ 300 = Y at *
    generalize (2 : ℚ) ^ 900 = Z at *
    linarith)
  have hT0 : 0 ≤ n * (a * D + 1 / 2 ^ 250) := by positivity
  have hQb : ∀ i, |(Q i 0).rat| ≤ 5 / 4 * (n * (a * D + 1 / 2 ^ 250)) := fun i => by
    have k1 := abs_sub_abs_le_abs_sub (Q i 0).rat (∑ k, (S i k).rat * ((Matrix.of fun i (_ : Fin 1) => d i) k 0).rat)
    have k2 := (q2 i 0).2.1
    have k3 := (q2 i 0).2.2
    have k4 := mul_le_mul_of_nonneg_right (hg1.trans hg) hT0
    linarith
  have hsum : ∀ i, |(phi i).rat + (Q i 0).rat| ≤ p + 5 / 4 * (n * (a * D + 1 / 2 ^ 250)) := fun i =>
    (abs_add_le _ _).trans (add_le_add (hphi i).2 (hQb i))
  have hs : ∀ i, (Arith.add (phi i) (Q i 0)).Is (rnd ((phi i).rat + (Q i 0).rat)) := fun i =>
    add_is ⟨(hphi i).1, rfl⟩ ⟨(q2 i 0).1, rfl⟩ (small_rnd (by
      have k1 := hsum i
      have k2 := sixteen_300
      generalize (2 : ℚ) ^ 300 = Y at *
      generalize (2 : ℚ) ^ 1000 = Z at *
      linarith))
  refine ⟨fun i => Q i 0, fun i => Arith.add (phi i) (Q i 0), ?_, add_vec _ _, fun i => ⟨(hs i).1, ?_⟩⟩
  · rw [(C33_scale _ _).2, vec_of, ← vec_entries]
    exact q1
  · have e : (Arith.add (phi i) (Q i 0) : Double L).rat = _ := (hs i).2
    rw [e]
    have k1 := rnd_add_rel (is_double (⟨(hphi i).1, rfl⟩ : (phi i).Is (phi i).rat)) (is_double (⟨(q2 i 0).1, rfl⟩ : (Q i 0).Is (Q i 0).rat))
    have k2 := (q2 i 0).2.1
    have k3 : |∑ k, (S i k).rat * ((Matrix.of fun i (_ : Fin 1) => d i) k 0).rat - 2 / 5 * ∑ k, (B k i).rat * (d k).rat| ≤ n * (1 / 2 ^ 53 * a * D) := by
      rw [mul_sum, ← sum_sub_distrib]
      refine (abs_sum_le_sum_abs _ _).trans (sum_const_le fun k => ?_)
      have e2 : (S i k).rat * ((Matrix.of fun i (_ : Fin 1) => d i) k 0).rat - 2 / 5 * ((B k i).rat * (d k).rat) =
        ((S i k).rat - 2 / 5 * (B k i).rat) * (d k).rat := by simp only [Matrix.of_apply]; ring
      rw [e2, abs_mul]
      exact mul_le_mul (hSe i k) (hd k).2 (abs_nonneg _) (by positivity)
    have k4 := hsum i
    have k5 := mul_le_mul hgu k4 (abs_nonneg _) hg0
    have k6 : n * (1 / 2 ^ 53 * a * D) ≤ gam n * (n * (a * D)) := by
      have := mul_le_mul_of_nonneg_right hgu (by positivity : 0 ≤ n * (a * D))
      linarith
    have k7 := mul_le_mul_of_nonneg_left hnt hg0
    set x := (phi i).rat with hx
    set y := (Q i 0).rat with hy
    set w := ∑ k, (S i k).rat * ((Matrix.of fun i (_ : Fin 1) => d i) k 0).rat with hw
    set v := 2 / 5 * ∑ k, (B k i).rat * (d k).rat with hv
    have e3 : rnd (x + y) - (x + v) = (rnd (x + y) - (x + y)) + ((y - w) + (w - v)) := by ring
    rw [e3]
    have k8 := abs_add_le (rnd (x + y) - (x + y)) ((y - w) + (w - v))
    have k9 := abs_add_le (y - w) (w - v)
    have k10 : 0 ≤ gam n * (n * (a * D)) := by positivity
    have k11 : 0 ≤ gam n * p := by positivity
    linarith

end Double
end Tom
