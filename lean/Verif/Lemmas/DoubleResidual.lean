import Verif.Lemmas.DoubleBack
import Verif.Props.DoubleMat
import Mathlib.Algebra.Order.Ring.Pow
/-
The residual of the solution computed by `SolveLinear` with doubles.
-/
namespace Tom
namespace Double
open Finset
variable {L : Libm}

/-- the weights of the columns: `a` for the matrix, `β` for the right-hand side -/
def weight (n : ℕ) (a β : ℚ) (j : ℕ) : ℚ := if j < n then a else β

theorem aug_lt {n : ℕ} {f : ℕ → ℕ → Double L} {b : ℕ → Double L} {i j : ℕ} (h : j < n) : aug n f b i j = f i j := if_pos h
theorem aug_n {n : ℕ} {f : ℕ → ℕ → Double L} {b : ℕ → Double L} {i : ℕ} : aug n f b i n = b i := if_neg (lt_irrefl n)
theorem weight_lt {n : ℕ} {a β : ℚ} {j : ℕ} (h : j < n) : weight n a β j = a := if_pos h
theorem weight_n {n : ℕ} {a β : ℚ} : weight n a β n = β := if_neg (lt_irrefl n)

theorem resid_aug {n y : ℕ} (hy : y ≤ n) (f : ℕ → ℕ → Double L) (b : ℕ → Double L) (i : ℕ) (x : ℕ → ℚ) (t : ℚ) :
    resid n (aug n f b) y i (fun j => if j < n then x j else t) = ∑ j ∈ Ico y n, (f i j).rat * x j + (b i).rat * t := by
  unfold resid
  rw [sum_Ico_succ_top hy, aug_n]
  simp only [lt_irrefl, if_false]
  congr 1
  apply sum_congr rfl
  intro j hj
  rw [mem_Ico] at hj
  rw [aug_lt hj.2, if_pos hj.2]

theorem wsum_eq {n : ℕ} (a β : ℚ) (x : ℕ → ℚ) (t : ℚ) :
    ∑ j ∈ Ico 0 (n + 1), weight n a β j * |if j < n then x j else t| = a * ∑ j ∈ range n, |x j| + β * |t| := by
  rw [← range_eq_Ico, sum_range_succ, weight_n, if_neg (lt_irrefl n), mul_sum]
  congr 1
  apply sum_congr rfl
  intro j hj
  rw [mem_range] at hj
  rw [weight_lt hj, if_pos hj]

theorem geom_le (n : ℕ) : ∑ k ∈ range n, stepGrowth ^ k ≤ stepGrowth ^ n := by
  induction n with
  | zero => simp
  | succ n ih =>
    rw [sum_range_succ, pow_succ]
    have h1 := one_le_stepGrowth n
    have h2 := stepGrowth_ge
    nlinarith

theorem residual_nat {n : ℕ} (hn : 0 < n) {ε a β : ℚ} (ha : 0 ≤ a) (hβ : n * a * (1 / 2 ^ 1000) ≤ β)
    {f f' : ℕ → ℕ → Double L} {b b' : ℕ → Double L} {p : ℕ → ℚ}
    (hd : Done n ε (weight n a β) 0 (aug n f b) (aug n f' b') p) {x : ℕ → Double L} (hx : ∀ i, i < n → BackRow n f' b' x i)
    (hf : ∀ i, i < n → (x i).Finite) (i : ℕ) (hi : i < n) :
    |∑ j ∈ range n, (f i j).rat * (x j).rat - (b i).rat| ≤ ε * ∑ j ∈ range n, |(x j).rat| +
      6 * ((1 + unitRound) ^ n - 1) * stepGrowth ^ n * (a * ∑ j ∈ range n, |(x j).rat| + β) := by
  have hu := u_nonneg
  have hu1 : unitRound ≤ 1 / 100 := by norm_num [unitRound]
  set X := ∑ j ∈ range n, |(x j).rat| with hX
  have hX0 : 0 ≤ X := sum_nonneg fun _ _ => abs_nonneg _
  have hβ0 : 0 ≤ β := le_trans (by positivity) hβ
  have hη : n * a * (1 / 2 ^ 1022) ≤ 1 / 2 * β := by
    have e : (1 : ℚ) / 2 ^ 1022 ≤ 1 / 2 * (1 / 2 ^ 1000) := by
      rw [div_mul_div_comm, one_mul, ← pow_succ']
      exact one_div_le_one_div_of_le (by positivity) (pow_le_pow_right₀ (by norm_num) (by norm_num))
    have := mul_le_mul_of_nonneg_left e (by positivity : 0 ≤ (n : ℚ) * a)
    generalize (1 : ℚ) / 2 ^ 1022 = η at *
    generalize (1 : ℚ) / 2 ^ 1000 = θ at *
    linarith
  set z : ℕ → ℚ := fun j => if j < n then (x j).rat else -1 with hz
  have h1 := hd.res z i (Nat.zero_le _) hi
  rw [hz, resid_aug (Nat.zero_le _), ← range_eq_Ico, mul_neg_one, ← sub_eq_add_neg] at h1
  refine h1.trans ?_
  have hg1 := one_le_growth n
  have hgu : unitRound ≤ (1 + unitRound) ^ n - 1 := by
    have : (1 + unitRound) ^ 1 ≤ (1 + unitRound) ^ n := pow_le_pow_right₀ (by linarith) hn
    rw [pow_one] at this
    linarith
  have hterm : ∀ k ∈ range n, |p k| * |resid n (aug n f' b') k k z| + stepErr n ε (weight n a β) 0 z k ≤
      stepGrowth ^ k * (6 * ((1 + unitRound) ^ n - 1) * (a * X + β)) + ε * |(x k).rat| := by
    intro k hk
    rw [mem_range] at hk
    have hr : resid n (aug n f' b') k k z = (x k).rat + ∑ j ∈ Ico (k + 1) n, (f' k j).rat * (x j).rat - (b' k).rat := by
      rw [hz, resid_aug hk.le, sum_eq_sum_Ico_succ_bot hk]
      have := hd.one k (Nat.zero_le _) hk
      rw [aug_lt hk] at this
      rw [this]
      ring
    have hb := backRow_bound (hx k hk) hk (hf k hk)
    rw [← hr] at hb
    have hgk : (1 + unitRound) ^ (n - k) ≤ (1 + unitRound) ^ n := pow_le_pow_right₀ (by linarith) (by omega)
    have hS0 : 0 ≤ |(b' k).rat| + ∑ j ∈ Ico (k + 1) n, (|(f' k j).rat * (x j).rat| + 1 / 2 ^ 1022) :=
      add_nonneg (abs_nonneg _) (sum_nonneg fun j _ => by positivity)
    have hb2 : |resid n (aug n f' b') k k z| ≤ ((1 + unitRound) ^ n - 1) * (|(b' k).rat| + ∑ j ∈ Ico (k + 1) n, (|(f' k j).rat * (x j).rat| + 1 / 2 ^ 1022)) :=
      hb.trans (mul_le_mul_of_nonneg_right (by linarith) hS0)
    have hg0 := le_trans zero_le_one (one_le_stepGrowth k)
    have hpS : |p k| * (|(b' k).rat| + ∑ j ∈ Ico (k + 1) n, (|(f' k j).rat * (x j).rat| + 1 / 2 ^ 1022)) ≤
        stepGrowth ^ k * ((1 + 2 * unitRound) * β + ((1 + 2 * unitRound) * (a * X) + 1 / 2 * β)) := by
      rw [mul_add, mul_add (stepGrowth ^ k)]
      apply add_le_add
      · have := (hd.row k (Nat.zero_le _) hk n hk.le le_rfl).2
        rw [aug_n, weight_n, abs_mul] at this
        linarith
      · rw [mul_sum]
        have e1 : ∀ j ∈ Ico (k + 1) n, |p k| * (|(f' k j).rat * (x j).rat| + 1 / 2 ^ 1022) ≤
            stepGrowth ^ k * ((1 + 2 * unitRound) * a * |(x j).rat| + a * (1 / 2 ^ 1022)) := by
          intro j hj
          rw [mem_Ico] at hj
          have r1 := (hd.row k (Nat.zero_le _) hk j (by omega) (by omega)).2
          rw [aug_lt hj.2, weight_lt hj.2, abs_mul] at r1
          have r2 := hd.pivot k (Nat.zero_le _) hk
          rw [weight_lt hk] at r2
          rw [abs_mul, mul_add, ← mul_assoc]
          have r3 := mul_le_mul_of_nonneg_right r1 (abs_nonneg (x j).rat)
          have r4 := mul_le_mul_of_nonneg_right r2 (by positivity : (0 : ℚ) ≤ 1 / 2 ^ 1022)
          generalize (1 : ℚ) / 2 ^ 1022 = η at *
          linarith
        refine (sum_le_sum e1).trans ?_
        rw [← mul_sum, sum_add_distrib, ← mul_sum]
        have e2 : ∑ j ∈ Ico (k + 1) n, |(x j).rat| ≤ X := by
          rw [hX, range_eq_Ico]
          exact sum_le_sum_of_subset_of_nonneg (Ico_subset_Ico (Nat.zero_le _) le_rfl) fun _ _ _ => abs_nonneg _
        have e3 : ∑ _j ∈ Ico (k + 1) n, a * (1 / 2 ^ 1022) ≤ n * a * (1 / 2 ^ 1022) := by
          rw [sum_const, Nat.card_Ico, nsmul_eq_mul, mul_assoc]
          apply mul_le_mul_of_nonneg_right _ (by positivity)
          exact_mod_cast (by omega : n - (k + 1) ≤ n)
        apply mul_le_mul_of_nonneg_left _ hg0
        have e4 := mul_le_mul_of_nonneg_left e2 (by positivity : 0 ≤ (1 + 2 * unitRound) * a)
        generalize (1 : ℚ) / 2 ^ 1022 = η at *
        linarith
    have h2 : |p k| * |resid n (aug n f' b') k k z| ≤ ((1 + unitRound) ^ n - 1) *
        (stepGrowth ^ k * ((1 + 2 * unitRound) * β + ((1 + 2 * unitRound) * (a * X) + 1 / 2 * β))) := by
      have := mul_le_mul_of_nonneg_left hb2 (abs_nonneg (p k))
      have h3 := mul_le_mul_of_nonneg_left hpS (by linarith : 0 ≤ (1 + unitRound) ^ n - 1)
      generalize |(b' k).rat| + ∑ j ∈ Ico (k + 1) n, (|(f' k j).rat * (x j).rat| + 1 / 2 ^ 1022) = S at *
      linarith
    have h3 : stepErr n ε (weight n a β) 0 z k = 4 * unitRound * (stepGrowth ^ k * (a * X + β)) + ε * |(x k).rat| := by
      unfold stepErr
      rw [hz, wsum_eq]
      simp only [hk, if_true, abs_neg, abs_one, mul_one]
      rfl
    rw [h3]
    have h4 : 4 * unitRound * (stepGrowth ^ k * (a * X + β)) ≤ 4 * ((1 + unitRound) ^ n - 1) * (stepGrowth ^ k * (a * X + β)) := by
      apply mul_le_mul_of_nonneg_right (by linarith)
      exact mul_nonneg hg0 (by positivity)
    have h5 : (1 + 2 * unitRound) * β + ((1 + 2 * unitRound) * (a * X) + 1 / 2 * β) ≤ 2 * (a * X + β) := by
      have := mul_nonneg ha hX0
      nlinarith
    have h6 := mul_le_mul_of_nonneg_left (mul_le_mul_of_nonneg_left h5 hg0) (by linarith : 0 ≤ (1 + unitRound) ^ n - 1)
    linarith
  refine (sum_le_sum hterm).trans ?_
  rw [sum_add_distrib, ← sum_mul, ← mul_sum]
  have h7 := mul_le_mul_of_nonneg_right (geom_le n) (by
    have := mul_nonneg ha hX0
    exact mul_nonneg (by linarith) (by linarith) : 0 ≤ 6 * ((1 + unitRound) ^ n - 1) * (a * X + β))
  linarith

theorem growth_le {n : ℕ} (hn : n ≤ 2 ^ 20) : (1 + unitRound) ^ n ≤ 101 / 100 := by
  have hu := u_nonneg
  have h1 : (1 : ℚ) + n * (-unitRound) ≤ (1 + -unitRound) ^ n := one_add_mul_le_pow (by norm_num [unitRound]) n
  have h2 : (1 + unitRound) ^ n * (1 + -unitRound) ^ n ≤ 1 := by
    rw [← mul_pow]
    apply pow_le_one₀
    · norm_num [unitRound]
    · nlinarith
  have h3 : (n : ℚ) ≤ 2 ^ 20 := by exact_mod_cast hn
  have h4 : (n : ℚ) * unitRound ≤ 1 / 200 := by
    have := mul_le_mul_of_nonneg_right h3 hu
    refine this.trans ?_
    norm_num [unitRound]
  have h5 := one_le_growth n
  have h6 := mul_le_mul_of_nonneg_left h1 (by linarith : 0 ≤ (1 + unitRound) ^ n)
  generalize (1 + unitRound) ^ n = g at *
  nlinarith

theorem Room.size {n : ℕ} {ε : ℚ} {w : ℕ → ℚ} (h : Room n ε w) : n ≤ 1898 := by
  have h1 := h.over n le_rfl
  have h2 : (2 : ℚ) ^ n ≤ stepGrowth ^ n := pow_le_pow_left₀ (by norm_num) stepGrowth_ge n
  have h3 := mul_le_mul h2 (h.under n le_rfl) (by positivity) (le_trans zero_le_one (one_le_stepGrowth n))
  have h4 : ε * 2 ^ 998 ≤ (2 : ℚ) ^ 998 := mul_le_of_le_one_left (by positivity) h.eps_le
  have h5 := h3.trans (h1.trans h4)
  rw [mul_one_div, div_le_iff₀ (by positivity), ← pow_add] at h5
  exact (pow_le_pow_iff_right₀ (by norm_num : (1 : ℚ) < 2)).mp h5

theorem finite_nat {n : ℕ} {ε a β : ℚ} (hr : Room n ε (weight n a β)) (ha : 0 ≤ a)
    {G : ℕ → ℕ → Double L} {f' : ℕ → ℕ → Double L} {b' : ℕ → Double L} {p : ℕ → ℚ}
    (hd : Done n ε (weight n a β) 0 G (aug n f' b') p) {x : ℕ → Double L} (hx : ∀ i, i < n → BackRow n f' b' x i)
    {c D : ℚ} (hc : c = 2 * stepGrowth ^ n * a / ε) (hD : D = 2 * stepGrowth ^ n * β / ε) (hroom : D * (1 + c) ^ n ≤ 2 ^ 998) :
    ∀ m, m ≤ n → ∀ i, n - m ≤ i → i < n → (x i).Finite ∧ |(x i).rat| ≤ D * (1 + c) ^ (n - 1 - i) := by
  have hu := u_nonneg
  have hu1 : unitRound ≤ 1 / 100 := by norm_num [unitRound]
  have hε := hr.eps_pos
  have hn := hr.size
  have hβ : 1 / 2 ^ 900 ≤ β := by have := hr.under n le_rfl; rwa [weight_n] at this
  have hβ0 : 0 < β := lt_of_lt_of_le (by positivity) hβ
  have hg0 := one_le_stepGrowth n
  have hc0 : 0 ≤ c := by rw [hc]; positivity
  have hD0 : 0 < D := by rw [hD]; positivity
  have hDβ : β ≤ D := by
    rw [hD, le_div_iff₀ hε]
    have h1 : β * ε ≤ β * 1 := mul_le_mul_of_nonneg_left hr.eps_le hβ0.le
    have h2 := mul_le_mul_of_nonneg_right hg0 hβ0.le
    linarith
  have hη : (n : ℚ) * (1 / 2 ^ 1022) ≤ 1 / 200 * D := by
    have h1 : (n : ℚ) ≤ 2 ^ 11 := by exact_mod_cast (by omega : n ≤ 2 ^ 11)
    have h2 : (n : ℚ) * (1 / 2 ^ 1022) ≤ 2 ^ 11 * (1 / 2 ^ 1022) := mul_le_mul_of_nonneg_right h1 (by positivity)
    have h3 : (2 : ℚ) ^ 11 * (1 / 2 ^ 1022) ≤ 1 / 200 * (1 / 2 ^ 900) := by
      have e : (1 : ℚ) / 2 ^ 1022 = 1 / 2 ^ 900 * (1 / 2 ^ 122) := by rw [div_mul_div_comm, one_mul, ← pow_add]
      rw [e]
      have : (0 : ℚ) < 1 / 2 ^ 900 := by positivity
      generalize (1 : ℚ) / 2 ^ 900 = θ at *
      norm_num
      linarith
    generalize (1 : ℚ) / 2 ^ 1022 = η at *
    generalize (1 : ℚ) / 2 ^ 900 = θ at *
    linarith
  -- the entries of the triangular matrix
  have hent : ∀ i, i < n → ∀ j, i ≤ j → j ≤ n → (aug n f' b' i j).Finite ∧
      |(aug n f' b' i j).rat| ≤ (1 + 2 * unitRound) / 2 * (2 * stepGrowth ^ n * weight n a β j / ε) := by
    intro i hi j hij hjn
    obtain ⟨h1, h2⟩ := hd.row i (Nat.zero_le _) hi j hij hjn
    refine ⟨h1, ?_⟩
    have h3 := hd.low i (Nat.zero_le _) hi
    rw [abs_mul] at h2
    have h4 := mul_le_mul_of_nonneg_right h3 (abs_nonneg (aug n f' b' i j).rat)
    have h5 : stepGrowth ^ i ≤ stepGrowth ^ n := pow_le_pow_right₀ (by linarith [stepGrowth_ge]) hi.le
    have h6 := mul_le_mul_of_nonneg_right h5 (hr.pos hjn).le
    have h7 := mul_le_mul_of_nonneg_left h6 (by linarith : 0 ≤ 1 + 2 * unitRound)
    have e : (1 + 2 * unitRound) / 2 * (2 * stepGrowth ^ n * weight n a β j / ε) = (1 + 2 * unitRound) * (stepGrowth ^ n * weight n a β j) / ε := by
      field_simp
    rw [e, le_div_iff₀ hε]
    linarith
  intro m
  induction m with
  | zero => intro _ i h1 h2; omega
  | succ m ih =>
    intro hm i hi hin
    by_cases hlt : n - m ≤ i
    · exact ih (by omega) i hlt hin
    · have ih' : ∀ j, i < j → j < n → (x j).Finite ∧ |(x j).rat| ≤ D * (1 + c) ^ (n - 1 - j) := fun j h1 h2 => ih (by omega) j (by omega) h2
      obtain ⟨s, hs, he⟩ := hx i hin
      have hb := hent i hin n hin.le le_rfl
      rw [aug_n, weight_n, ← hD] at hb
      -- the sum of the products
      have hfj : ∀ j, i + 1 ≤ j → j < n → (f' i j).Finite ∧ |(f' i j).rat * (x j).rat| ≤ (1 + 2 * unitRound) / 2 * (c * (D * (1 + c) ^ (n - 1 - j))) := by
        intro j h1 h2
        have h3 := hent i hin j (by omega) h2.le
        rw [aug_lt h2, weight_lt h2, ← hc] at h3
        refine ⟨h3.1, ?_⟩
        rw [abs_mul]
        have := mul_le_mul h3.2 (ih' j h1 h2).2 (abs_nonneg _) (by positivity)
        linarith
      have hgeo : ∑ j ∈ Ico (i + 1) n, c * (D * (1 + c) ^ (n - 1 - j)) = D * ((1 + c) ^ (n - 1 - i) - 1) := by
        have key : ∀ l, ∑ j ∈ range l, c * (D * (1 + c) ^ (l - 1 - j)) = D * ((1 + c) ^ l - 1) := by
          intro l
          rw [sum_range_reflect (fun j => c * (D * (1 + c) ^ j)) l]
          induction l with
          | zero => simp
          | succ l ih => rw [sum_range_succ, ih, pow_succ]; ring
        rw [sum_Ico_eq_sum_range, show n - 1 - i = n - (i + 1) by omega, ← key]
        apply sum_congr rfl
        intro j _
        rw [show n - 1 - (i + 1 + j) = n - (i + 1) - 1 - j by omega]
      set S := ∑ j ∈ Ico (i + 1) n, (|(f' i j).rat * (x j).rat| + 1 / 2 ^ 1022) with hS
      set M := (1 + c) ^ (n - 1 - i) with hM
      have hM1 : 1 ≤ M := one_le_pow₀ (by linarith)
      have hMn : D * M ≤ 2 ^ 998 := by
        refine le_trans (mul_le_mul_of_nonneg_left ?_ hD0.le) hroom
        exact pow_le_pow_right₀ (by linarith) (by omega)
      have hSb : S ≤ (1 + 2 * unitRound) / 2 * (D * (M - 1)) + 1 / 200 * D := by
        rw [hS, sum_add_distrib]
        apply add_le_add
        · rw [← hgeo, mul_sum]
          apply sum_le_sum
          intro j hj
          rw [mem_Ico] at hj
          exact (hfj j hj.1 hj.2).2
        · refine le_trans ?_ hη
          rw [sum_const, Nat.card_Ico, nsmul_eq_mul]
          apply mul_le_mul_of_nonneg_right _ (by positivity)
          exact_mod_cast (by omega : n - (i + 1) ≤ n)
      have hS0 : 0 ≤ S := sum_nonneg fun j _ => by positivity
      have hDM : D ≤ D * M := le_mul_of_one_le_right hD0.le hM1
      have hS1 : S ≤ 52 / 100 * (D * M) - 1 / 2 * D := by
        have h1 : unitRound * (D * (M - 1)) ≤ 1 / 100 * (D * (M - 1)) := mul_le_mul_of_nonneg_right hu1 (mul_nonneg hD0.le (by linarith))
        clear hη hroom hMn hβ
        linarith
      have hgl := growth_le (n := n - (i + 1) + 1) (by omega)
      have hgl1 := one_le_growth (n - (i + 1) + 1)
      -- the sum is finite
      have hsum : ∀ F : ℕ → ℚ, ∑ k : Fin (n - (i + 1)), F (i + 1 + k) = ∑ j ∈ Ico (i + 1) n, F j := by
        intro F
        rw [sum_Ico_eq_sum_range, ← Fin.sum_univ_eq_sum_range (fun k => F (i + 1 + k))]
      have hlist : List.zipWith Arith.mul ((List.range (n - (i + 1))).map fun j => f' i (i + 1 + j)) ((List.range (n - (i + 1))).map fun j => x (i + 1 + j))
          = List.ofFn fun k : Fin (n - (i + 1)) => Arith.mul (f' i (i + 1 + k)) (x (i + 1 + k)) := by
        apply List.ext_getElem <;> simp
      rw [hlist] at hs
      have hsf : s.Finite := by
        refine C77_no_overflow (fun k : Fin (n - (i + 1)) => f' i (i + 1 + k)) (fun k => x (i + 1 + k)) s hs
          (fun k => ⟨(hfj _ (by omega) (by omega)).1, (ih' _ (by omega) (by omega)).1⟩) ?_
        rw [hsum (fun j => |(f' i j).rat * (x j).rat| + 1 / 2 ^ 1022)]
        change (1 + unitRound) ^ (n - (i + 1) + 1) * S < 2 ^ 1023
        have h1 := mul_le_mul_of_nonneg_right hgl hS0
        have h2 : (2 : ℚ) ^ 1023 = 2 ^ 25 * 2 ^ 998 := by rw [← pow_add]
        have h3 : (0 : ℚ) < 2 ^ 998 := by positivity
        rw [h2]
        clear hroom h2 hη
        generalize (2 : ℚ) ^ 998 = B at *
        generalize (1 + unitRound) ^ (n - (i + 1) + 1) * S = q at *
        norm_num
        linarith
      have hsb := (C77_any_order (fun k : Fin (n - (i + 1)) => f' i (i + 1 + k)) (fun k => x (i + 1 + k)) s hs hsf).2
      rw [hsum (fun j => |(f' i j).rat * (x j).rat| + 1 / 2 ^ 1022), hsum (fun j => (f' i j).rat * (x j).rat)] at hsb
      change _ ≤ ((1 + unitRound) ^ (n - (i + 1)) - 1) * S at hsb
      have hT : |∑ j ∈ Ico (i + 1) n, (f' i j).rat * (x j).rat| ≤ S := by
        refine (abs_sum_le_sum_abs _ _).trans (sum_le_sum fun j _ => ?_)
        have : (0 : ℚ) ≤ 1 / 2 ^ 1022 := by positivity
        generalize (1 : ℚ) / 2 ^ 1022 = η at *
        linarith
      have hgl' := growth_le (n := n - (i + 1)) (by omega)
      have hgl1' := one_le_growth (n - (i + 1))
      have hs2 : |s.rat| ≤ 101 / 100 * S := by
        have h1 := abs_sub_abs_le_abs_sub s.rat (∑ j ∈ Ico (i + 1) n, (f' i j).rat * (x j).rat)
        have h2 := mul_le_mul_of_nonneg_right hgl' hS0
        generalize (1 + unitRound) ^ (n - (i + 1)) = g at *
        linarith
      have hb2 : |(b' i).rat| ≤ 51 / 100 * D := by
        have := mul_le_mul_of_nonneg_right hu1 hD0.le
        linarith [hb.2]
      have hsub : |(b' i).rat - s.rat| ≤ 9 / 10 * (D * M) := by
        have := abs_sub (b' i).rat s.rat
        linarith
      have hfin := sub_is hb.1.is hsf.is (rnd_ok (by
        refine hsub.trans ?_
        have h2 : (2 : ℚ) ^ 1001 = 8 * 2 ^ 998 := by rw [show 1001 = 998 + 3 from rfl, pow_add]; ring
        rw [h2]
        have h3 : (0 : ℚ) < 2 ^ 998 := by positivity
        clear hroom h2 hη
        generalize (2 : ℚ) ^ 998 = B at *
        linarith))
      rw [he]
      refine ⟨hfin.finite, ?_⟩
      rw [hfin.rat]
      have h6 : |rnd ((b' i).rat - s.rat) - ((b' i).rat - s.rat)| ≤ unitRound * |(b' i).rat - s.rat| := by
        have := rnd_add_rel (is_double hb.1.is) (isDouble_neg (is_double hsf.is))
        rw [← sub_eq_add_neg] at this
        exact this
      have h7 := abs_sub_abs_le_abs_sub (rnd ((b' i).rat - s.rat)) ((b' i).rat - s.rat)
      have h8 := mul_le_mul_of_nonneg_right hu1 (abs_nonneg ((b' i).rat - s.rat))
      linarith

end Double
end Tom
