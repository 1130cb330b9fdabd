import Verif.Spec.RoundedLM
import Verif.Lemmas.ComputedNewton
import Verif.Lemmas.Contract
import Verif.Props.IeeeUnderflow
/-
One step of the Levenberg-Marquardt method with doubles, for one equation in one unknown.
-/
set_option linter.unusedSectionVars false
namespace Tom
namespace Double
variable {L : Libm}

section one
variable {α : Type} [Dbl α]

theorem one_transpose (a : α) : (⟨1, 1, [a]⟩ : Mat α).transpose = .ok ⟨1, 1, [a]⟩ := rfl
theorem one_mul (a b : α) : (⟨1, 1, [a]⟩ : Mat α).mul ⟨1, 1, [b]⟩ = .ok ⟨1, 1, [Arith.mul a b]⟩ := rfl
theorem one_norm2 (a : α) : (⟨1, 1, [a]⟩ : Mat α).norm2 = .ok (Arith.mul a a) := rfl
theorem one_add (a b : α) : (⟨1, 1, [a]⟩ : Mat α).add ⟨1, 1, [b]⟩ = .ok ⟨1, 1, [Arith.add a b]⟩ := rfl
theorem one_scale (k a : α) : Mat.scaleLeft k (⟨1, 1, [a]⟩ : Mat α) = ⟨1, 1, [Arith.mul a k]⟩ := rfl

/-- the direction of the method, for one equation in one unknown -/
theorem one_direction (cfg : Config α) (ja : SymMat α) (mu : α) (t : VarsTable α) (j p : α) (hj : evalMat cfg ja t = .ok ⟨1, 1, [j]⟩) :
    lmDirection cfg ja ⟨1, 1, [p]⟩ mu t =
      solveLinear cfg ⟨1, 1, [Arith.add (Arith.mul j j) (Arith.mul Arith.one mu)]⟩ ⟨1, 1, [Arith.neg (Arith.mul j p)]⟩ := by
  unfold lmDirection
  rw [hj]
  rfl

/-- the line search accepts the full step -/
theorem one_armijo (fuel : ℕ) (f df : Mat α → Res (Mat α)) (x d j p p' : α)
    (h1 : f ⟨1, 1, [Arith.add x (Arith.mul d (Dbl.ofInt 1))]⟩ = .ok ⟨1, 1, [p']⟩) (h2 : f ⟨1, 1, [x]⟩ = .ok ⟨1, 1, [p]⟩)
    (h3 : df ⟨1, 1, [x]⟩ = .ok ⟨1, 1, [j]⟩)
    (h4 : Arith.le (Arith.mul p' p') (Arith.mul (Arith.add p (Arith.mul (Arith.mul j (Arith.mul (lit 4 (-1)) (Dbl.ofInt 1))) d))
      (Arith.add p (Arith.mul (Arith.mul j (Arith.mul (lit 4 (-1)) (Dbl.ofInt 1))) d))) = true) :
    armijo (fuel + 1) ⟨1, 1, [x]⟩ ⟨1, 1, [d]⟩ f df = .ok (Dbl.ofInt 1) := by
  unfold armijo armijoLoop
  rw [one_scale, one_add, Res.bind_ok, h1, Res.bind_ok, one_norm2, Res.bind_ok, h2, Res.bind_ok, h3, Res.bind_ok, one_transpose, Res.bind_ok,
    one_scale, one_mul, Res.bind_ok, one_add, Res.bind_ok, one_norm2, Res.bind_ok, if_pos h4]
end one

theorem is_one : (Arith.one : Double L).Is 1 := by
  have h : IsDouble 1 := is_double (one_is (L := L))
  have := is_round (x := (Arith.one : Double L)) (z := false) (q := 1) rfl (by rw [rnd_of_isDouble h]; exact isDouble_lt h)
  rwa [rnd_of_isDouble h] at this
theorem is_zero' : (Arith.zero : Double L).Is 0 := ⟨rfl, rfl⟩

theorem small_rnd {q : ℚ} (h : |q| ≤ 2 ^ 1000) : |rnd q| < 2 ^ 1024 := by
  have h1 : (2 : ℚ) ^ 1000 < 2 ^ 1023 := pow_lt_pow_right₀ (by norm_num) (by norm_num)
  apply rnd_bound
  have h2 := (Rat.cast_lt (K := ℝ)).mpr (lt_of_le_of_lt h h1)
  push_cast at h2
  exact h2

theorem is_mu : (lit 1 (-5) : Double L).Is (rnd (1 / 10 ^ 5)) := by
  have h : F64.ofNumeral (decRat 1 (-5)) = some (F64.round false (1 / 10 ^ 5)) := by decide +kernel
  obtain ⟨x, h1, h2⟩ := ofDec_some (L := L) h
  have e : (lit 1 (-5) : Double L) = x := by
    unfold lit; rw [h1]; rfl
  rw [e]
  exact is_round h2 (small_rnd (le_trans (by norm_num) (one_le_pow₀ (by norm_num) : (1 : ℚ) ≤ 2 ^ 1000)))

theorem is_gamma : (lit 4 (-1) : Double L).Is (rnd (4 / 10)) := by
  have h : F64.ofNumeral (decRat 4 (-1)) = some (F64.round false (4 / 10)) := by decide +kernel
  obtain ⟨x, h1, h2⟩ := ofDec_some (L := L) h
  have e : (lit 4 (-1) : Double L) = x := by
    unfold lit; rw [h1]; rfl
  rw [e]
  exact is_round h2 (small_rnd (le_trans (by norm_num) (one_le_pow₀ (by norm_num) : (1 : ℚ) ≤ 2 ^ 1000)))

theorem rnd_rel7 {q : ℚ} (h : 1 / 2 ^ 1000 ≤ |q|) : |rnd q - q| ≤ 1 / 10 ^ 7 * |q| := by
  have h1 : (1 : ℚ) / 2 ^ 1022 ≤ 1 / 2 ^ 1000 := one_div_pow_le_one_div_pow_of_le (by norm_num) (by norm_num)
  exact (rnd_rel q (h1.trans h)).trans (mul_le_mul_of_nonneg_right (by norm_num) (abs_nonneg _))

/-- the direction with rounding errors -/
theorem direction_err {b p mu s m g d mu0 t : ℚ} (ht0 : 0 ≤ t) (ht : t ≤ 1 / 10 ^ 7) (hb : 0 < b ^ 2) (hmu0 : 0 ≤ mu0)
    (hs : |s - b ^ 2| ≤ t * b ^ 2) (hmu : |mu - mu0| ≤ t * mu0) (hm : |m - (s + mu)| ≤ t * |s + mu|) (hg : |g - b * p| ≤ t * |b * p|)
    (hd : |d - -g / m| ≤ t * |-g / m|) :
    b ^ 2 / 2 ≤ m ∧ |d * (b ^ 2 + mu0) + b * p| ≤ 1 / 10 ^ 5 * |b * p| := by
  set m0 := b ^ 2 + mu0 with hm0
  have hm0pos : 0 < m0 := by linarith
  have h1 : |(s + mu) - m0| ≤ t * m0 := by
    have e : (s + mu) - m0 = (s - b ^ 2) + (mu - mu0) := by rw [hm0]; ring
    rw [e]
    refine (abs_add_le _ _).trans ?_
    rw [hm0, mul_add]; linarith
  have h2 : |s + mu| ≤ 2 * m0 := by
    have := abs_sub_abs_le_abs_sub (s + mu) m0
    rw [abs_of_pos hm0pos] at this
    nlinarith
  have h3 : |m - m0| ≤ 3 * t * m0 := by
    have e : m - m0 = (m - (s + mu)) + ((s + mu) - m0) := by ring
    rw [e]
    refine (abs_add_le _ _).trans ?_
    nlinarith
  have h3' : |m - m0| ≤ 1 / 2 * m0 := h3.trans (mul_le_mul_of_nonneg_right (by linarith) hm0pos.le)
  have hmpos : m0 / 2 ≤ m := by have := (abs_le.mp h3').1; linarith
  have hmp : 0 < m := by linarith
  refine ⟨by linarith, ?_⟩
  set B := |b * p| with hB
  have hB0 : 0 ≤ B := abs_nonneg _
  have h4 : |g| ≤ 2 * B := by
    have := abs_sub_abs_le_abs_sub g (b * p)
    nlinarith
  have h5 : |d * m + g| ≤ t * |g| := by
    have e : d * m + g = (d - -g / m) * m := by field_simp; ring
    rw [e, abs_mul, abs_of_pos hmp]
    refine (mul_le_mul_of_nonneg_right hd hmp.le).trans (le_of_eq ?_)
    rw [abs_div, abs_neg, abs_of_pos hmp]
    field_simp
  have h6 : |d * m + b * p| ≤ 3 * t * B := by
    have e : d * m + b * p = (d * m + g) - (g - b * p) := by ring
    rw [e]
    refine (abs_sub _ _).trans ?_
    nlinarith
  have h7 : |d * m| ≤ 2 * B := by
    have e : d * m = (d * m + b * p) - b * p := by ring
    rw [e]
    refine (abs_sub _ _).trans ?_
    nlinarith
  have h8 : |d| * m0 ≤ 4 * B := by
    rw [abs_mul, abs_of_pos hmp] at h7
    have := mul_le_mul_of_nonneg_left hmpos (abs_nonneg d)
    linarith
  have h9 : |d * (m0 - m)| ≤ 3 * t * (4 * B) := by
    rw [abs_mul, abs_sub_comm]
    refine (mul_le_mul_of_nonneg_left h3 (abs_nonneg _)).trans ?_
    have := mul_le_mul_of_nonneg_left h8 (by linarith : 0 ≤ 3 * t)
    linarith
  have e : d * m0 + b * p = (d * m + b * p) + d * (m0 - m) := by ring
  rw [e]
  refine (abs_add_le _ _).trans ?_
  have : 15 * t * B ≤ 15 * (1 / 10 ^ 7) * B := mul_le_mul_of_nonneg_right (by linarith) hB0
  linarith

/-- what the exact step with such a direction achieves -/
theorem step_err {A e F p b d mu : ℝ} (hF : |F - A * e| ≤ 1 / 10 * |A * e|) (hp : |p - F| ≤ 1 / 1000 * |p|) (hb : |b - A| ≤ 1 / 1000 * |A|)
    (hb0 : b ≠ 0) (hmu0 : 0 ≤ mu) (hmu : 20 * mu ≤ b ^ 2) (hd : |d * (b ^ 2 + mu) + b * p| ≤ 1 / 10 ^ 5 * |b * p|) :
    |A * (e + d)| ≤ 17 / 100 * |p| ∧ 88 / 100 * |p| ≤ |A * e| ∧ 55 / 100 * |p| ≤ |p + 2 / 5 * (b * d)| ∧ |b * d| ≤ 105 / 100 * |p| ∧ 9 / 10 * |p| ≤ |b * d| := by
  have hb2 : 0 < b ^ 2 := by positivity
  have hbp : 0 < |b| := abs_pos.mpr hb0
  have hP := abs_nonneg p
  -- the direction, as a multiple of p
  have h1 : |b * d + p| ≤ 48 / 1000 * |p| := by
    have e1 : (b * d + p) * (b ^ 2 + mu) = b * (d * (b ^ 2 + mu) + b * p) + mu * p := by ring
    have h2 : |b * d + p| * (b ^ 2 + mu) ≤ (b ^ 2 * (1 / 10 ^ 5) + mu) * |p| := by
      rw [← abs_of_pos (by positivity : 0 < b ^ 2 + mu), ← abs_mul, e1]
      refine (abs_add_le _ _).trans ?_
      rw [abs_mul, abs_mul mu, abs_of_nonneg hmu0]
      have h3 := mul_le_mul_of_nonneg_left hd hbp.le
      have h4 : |b| * (1 / 10 ^ 5 * |b * p|) = b ^ 2 * (1 / 10 ^ 5) * |p| := by
        rw [abs_mul, ← sq_abs b]; ring
      rw [h4] at h3
      linarith
    have h5 : (b ^ 2 * (1 / 10 ^ 5) + mu) * |p| ≤ 48 / 1000 * |p| * (b ^ 2 + mu) := by
      have : b ^ 2 * (1 / 10 ^ 5) + mu ≤ 48 / 1000 * (b ^ 2 + mu) := by nlinarith
      have := mul_le_mul_of_nonneg_right this hP
      linarith
    exact le_of_mul_le_mul_right (h2.trans h5) (by positivity)
  have h2 : |b * d| ≤ 105 / 100 * |p| := by
    have e : b * d = (b * d + p) - p := by ring
    rw [e]
    refine (abs_sub _ _).trans ?_
    linarith
  have hX := abs_nonneg (A * e)
  have h3 : |A * e - p| ≤ 1 / 10 * |A * e| + 1 / 1000 * |p| := by
    have e1 : A * e - p = -(F - A * e) - (p - F) := by ring
    rw [e1]
    refine (abs_sub _ _).trans ?_
    rw [abs_neg]; linarith
  have h4 : |A * e| ≤ 1113 / 1000 * |p| := by
    have := abs_sub_abs_le_abs_sub (A * e) p
    linarith
  have h5 : 88 / 100 * |p| ≤ |A * e| := by
    have := abs_sub_abs_le_abs_sub p (A * e)
    rw [abs_sub_comm] at this
    linarith
  have h6 : |(b - A) * e| ≤ 1 / 1000 * |A * e| := by
    rw [abs_mul, abs_mul]
    have := mul_le_mul_of_nonneg_right hb (abs_nonneg e)
    linarith
  have h7 : |b * (e + d)| ≤ 163 / 1000 * |p| := by
    have e1 : b * (e + d) = (A * e - p) + ((b - A) * e + (b * d + p)) := by ring
    rw [e1]
    refine (abs_add_le _ _).trans ?_
    have := abs_add_le ((b - A) * e) (b * d + p)
    linarith
  have h8 : |A * (e + d)| ≤ 17 / 100 * |p| := by
    rw [abs_mul] at h7 ⊢
    have e1 : |A| ≤ 1002 / 1000 * |b| := by
      have := abs_sub_abs_le_abs_sub A b
      rw [abs_sub_comm] at this
      linarith
    have := mul_le_mul_of_nonneg_right e1 (abs_nonneg (e + d))
    linarith
  have h9 : 9 / 10 * |p| ≤ |b * d| := by
    have := abs_sub_abs_le_abs_sub p (-(b * d))
    rw [abs_neg, sub_neg_eq_add, add_comm p] at this
    linarith
  refine ⟨h8, h5, ?_, h2, h9⟩
  have e1 : p + 2 / 5 * (b * d) = 3 / 5 * p - -(2 / 5 * (b * d + p)) := by ring
  have := abs_sub_abs_le_abs_sub (3 / 5 * p) (-(2 / 5 * (b * d + p)))
  rw [← e1, abs_neg, abs_mul, abs_mul, abs_of_pos (by norm_num : (0 : ℝ) < 3 / 5), abs_of_pos (by norm_num : (0 : ℝ) < 2 / 5)] at this
  linarith

/-- The numbers of one step: the slope `j` and the value `p` are not too large or small. -/
theorem step_numbers (cfg : Config (Double L)) {ε : ℚ} (he : cfg.epsilon.Is ε) {J P : Double L} {b p : ℚ} (hJ : J.Is b) (hP : P.Is p)
    (hb1 : 1 / 5000 ≤ b ^ 2) (hb2 : |b| ≤ 2 ^ 100) (hbe : ε ≤ b ^ 2 / 2) (hp1 : 1 / 2 ^ 100 ≤ |p|) (hp2 : |p| ≤ 2 ^ 100) :
    ∃ (d : Double L) (dr : ℚ), d.Is dr ∧ |dr| ≤ 2 ^ 250 ∧ |dr * (b ^ 2 + 1 / 10 ^ 5) + b * p| ≤ 1 / 10 ^ 5 * |b * p| ∧
      solveLinear cfg ⟨1, 1, [Arith.add (Arith.mul J J) (Arith.mul Arith.one (lit 1 (-5)))]⟩ ⟨1, 1, [Arith.neg (Arith.mul J P)]⟩ = .ok ⟨1, 1, [d]⟩ := by
  have hle : ∀ {k : ℕ}, k ≤ 1000 → (2 : ℚ) ^ k ≤ 2 ^ 1000 := fun hk => pow_le_pow_right₀ (by norm_num) hk
  have hsm : ∀ {k : ℕ}, k ≤ 1000 → (1 : ℚ) / 2 ^ 1000 ≤ 1 / 2 ^ k := fun hk => one_div_pow_le_one_div_pow_of_le (by norm_num) hk
  have hb0 : 0 < b ^ 2 := lt_of_lt_of_le (by norm_num) hb1
  have hbl : (1 : ℚ) / 100 ≤ |b| := by
    refine le_of_sq_le_sq ?_ (abs_nonneg b)
    rw [sq_abs]; exact le_trans (by norm_num) hb1
  have hb3 : b ^ 2 ≤ 2 ^ 200 := by
    have := pow_le_pow_left₀ (abs_nonneg b) hb2 2
    rw [sq_abs, ← pow_mul] at this
    exact this
  set S := rnd (b * b) with hS
  set mu := rnd (1 / 10 ^ 5) with hmu
  set m := rnd (S + mu) with hm
  set g := rnd (b * p) with hg
  have hbb : b * b = b ^ 2 := by ring
  -- the square of the slope
  have s1 : (Arith.mul J J).Is S := mul_is hJ hJ (small_rnd (by rw [hbb, abs_of_pos hb0]; exact hb3.trans (hle (by norm_num))))
  have s2 : |S - b ^ 2| ≤ 1 / 10 ^ 7 * b ^ 2 := by
    have := rnd_rel7 (q := b * b) (by
      rw [hbb, abs_of_pos hb0]
      exact (hsm (k := 20) (by norm_num)).trans (le_trans (by norm_num) hb1))
    rwa [← hS, hbb, abs_of_pos hb0] at this
  -- the damping
  have hmud : rnd mu = mu := rnd_of_isDouble (is_double (is_mu (L := L)))
  have s3 : (Arith.mul Arith.one (lit 1 (-5)) : Double L).Is mu := by
    have := mul_is (L := L) is_one is_mu (by rw [_root_.one_mul, ← hmu, hmud]; exact isDouble_lt (is_double (is_mu (L := L))))
    rwa [_root_.one_mul, ← hmu, hmud] at this
  have s4 : |mu - 1 / 10 ^ 5| ≤ 1 / 10 ^ 7 * (1 / 10 ^ 5) := by
    have := rnd_rel7 (q := 1 / 10 ^ 5) (by
      rw [abs_of_pos (by norm_num)]
      exact (hsm (k := 20) (by norm_num)).trans (by norm_num))
    rwa [abs_of_pos (by norm_num : (0 : ℚ) < 1 / 10 ^ 5)] at this
  have hSl := (abs_le.mp s2).1
  have hSu := (abs_le.mp s2).2
  have hml := (abs_le.mp s4).1
  have hmu' := (abs_le.mp s4).2
  have hsum : 0 < S + mu := by linarith [(by norm_num : (1 : ℚ) / 10 ^ 7 * (1 / 10 ^ 5) ≤ 1 / 10 ^ 5)]
  have hsumu : S + mu ≤ 2 * 2 ^ 200 := by linarith [(by norm_num : (1 : ℚ) / 10 ^ 7 * (1 / 10 ^ 5) ≤ 1 / 10 ^ 5), (by norm_num : (1 : ℚ) ≤ 1 / 10 * 2 ^ 200)]
  have s5 : (Arith.add (Arith.mul J J) (Arith.mul Arith.one (lit 1 (-5)))).Is m := add_is s1 s3 (small_rnd (by
    rw [abs_of_pos hsum]
    exact hsumu.trans (le_trans (by norm_num) (hle (k := 201) (by norm_num)))))
  have s6 : |m - (S + mu)| ≤ 1 / 10 ^ 7 * |S + mu| :=
    (rnd_add_rel (is_double s1) (is_double s3)).trans (mul_le_mul_of_nonneg_right (by norm_num) (abs_nonneg _))
  -- the gradient
  have hbp1 : (1 : ℚ) / 2 ^ 107 ≤ |b * p| := by
    rw [abs_mul]
    refine le_trans ?_ (mul_le_mul hbl hp1 (by positivity) (abs_nonneg b))
    norm_num
  have hbp2 : |b * p| ≤ 2 ^ 200 := by
    rw [abs_mul]
    refine (mul_le_mul hb2 hp2 (abs_nonneg p) (by positivity)).trans ?_
    norm_num
  have s7 : (Arith.mul J P).Is g := mul_is hJ hP (small_rnd (hbp2.trans (hle (by norm_num))))
  have s8 : |g - b * p| ≤ 1 / 10 ^ 7 * |b * p| := rnd_rel7 ((hsm (by norm_num)).trans hbp1)
  have hg1 : 1 / 2 * |b * p| ≤ |g| := by
    have := abs_sub_abs_le_abs_sub (b * p) g
    rw [abs_sub_comm] at this
    linarith [abs_nonneg (b * p)]
  have hg2 : |g| ≤ 2 * |b * p| := by
    have := abs_sub_abs_le_abs_sub g (b * p)
    linarith [abs_nonneg (b * p)]
  have hm1 : b ^ 2 / 2 ≤ m := (direction_err (d := -g / m) (by norm_num) le_rfl hb0 (by norm_num) s2 s4 s6 s8 (by
    rw [sub_self, abs_zero]; positivity)).1
  have hmpos : 0 < m := by linarith
  have hm2 : m ≤ 4 * 2 ^ 200 := by
    rw [abs_of_pos hsum] at s6
    have := (abs_le.mp s6).2
    linarith
  -- the direction
  have hq : |-g / m| = |g| / m := by rw [abs_div, abs_neg, abs_of_pos hmpos]
  have hq1 : (1 : ℚ) / 2 ^ 1000 ≤ |-g / m| := by
    refine (hsm (k := 200 + 110) (by norm_num)).trans ?_
    rw [hq, le_div_iff₀ hmpos, pow_add]
    calc 1 / (2 ^ 200 * 2 ^ 110) * m ≤ 1 / (2 ^ 200 * 2 ^ 110) * (4 * 2 ^ 200) := mul_le_mul_of_nonneg_left hm2 (by positivity)
      _ ≤ 1 / 2 * (1 / 2 ^ 107) := by norm_num
      _ ≤ |g| := by linarith
  have hq2 : |-g / m| ≤ 2 ^ 220 := by
    rw [hq, div_le_iff₀ hmpos]
    calc |g| ≤ 2 * 2 ^ 200 := by linarith
      _ ≤ 2 ^ 220 * (1 / 10000) := by norm_num
      _ ≤ 2 ^ 220 * m := mul_le_mul_of_nonneg_left (by linarith) (by positivity)
  have s9 : (Arith.div (Arith.neg (Arith.mul J P)) (Arith.add (Arith.mul J J) (Arith.mul Arith.one (lit 1 (-5))))).Is (rnd (-g / m)) :=
    div_is (neg_is s7) s5 hmpos.ne' (small_rnd (hq2.trans (hle (by norm_num))))
  have s10 : |rnd (-g / m) - -g / m| ≤ 1 / 10 ^ 7 * |-g / m| := rnd_rel7 hq1
  have hdd := is_double s9
  have s11 := sub_is s9 is_zero' (by rw [sub_zero, rnd_of_isDouble hdd]; exact isDouble_lt hdd)
  rw [sub_zero, rnd_of_isDouble hdd] at s11
  refine ⟨_, _, s11, ?_, ?_, ?_⟩
  · have := abs_sub_abs_le_abs_sub (rnd (-g / m)) (-g / m)
    have h1 : |rnd (-g / m)| ≤ 2 * 2 ^ 220 := by linarith
    exact h1.trans (by norm_num)
  · exact (direction_err (by norm_num) le_rfl hb0 (by norm_num) s2 s4 s6 s8 s10).2
  · rw [solveLinear_one _ _ _ (by rw [eq_is (abs_is s5) (abs_is s5)]; exact decide_eq_true rfl), if_neg]
    rw [lt_is (abs_is s5) he, abs_of_pos hmpos, decide_eq_true_iff]
    exact not_lt.mpr (hbe.trans hm1)

/-- The two tests of one step: the test of the line search, for the full step, and the test that the value has become smaller. -/
theorem step_tests {J P P' d : Double L} {b p p' dr : ℚ} (hJ : J.Is b) (hP : P.Is p) (hP' : P'.Is p') (hd : d.Is dr)
    (hb1 : 1 / 5000 ≤ b ^ 2) (hb2 : |b| ≤ 2 ^ 100) (hp1 : 1 / 2 ^ 100 ≤ |p|) (hp2 : |p| ≤ 2 ^ 100)
    (hbd : |b * dr| ≤ 105 / 100 * |p|) (hbd' : 1 / 2 ^ 110 ≤ |b * dr|) (hs : 55 / 100 * |p| ≤ |p + 2 / 5 * (b * dr)|) (hp' : |p'| ≤ 1 / 4 * |p|) :
    Arith.le (Arith.mul P' P') (Arith.mul (Arith.add P (Arith.mul (Arith.mul J (Arith.mul (lit 4 (-1)) (Dbl.ofInt 1))) d))
      (Arith.add P (Arith.mul (Arith.mul J (Arith.mul (lit 4 (-1)) (Dbl.ofInt 1))) d))) = true ∧
    Arith.lt (Arith.mul P' P') (Arith.mul P P) = true := by
  have hle : ∀ {k : ℕ}, k ≤ 1000 → (2 : ℚ) ^ k ≤ 2 ^ 1000 := fun hk => pow_le_pow_right₀ (by norm_num) hk
  have hsm : ∀ {k : ℕ}, k ≤ 1000 → (1 : ℚ) / 2 ^ 1000 ≤ 1 / 2 ^ k := fun hk => one_div_pow_le_one_div_pow_of_le (by norm_num) hk
  have hbl : (1 : ℚ) / 100 ≤ |b| := by
    refine le_of_sq_le_sq ?_ (abs_nonneg b)
    rw [sq_abs]; exact le_trans (by norm_num) hb1
  set γ := rnd (4 / 10) with hγ
  set h := rnd (b * γ) with hh
  set k := rnd (h * dr) with hk
  set s := rnd (p + k) with hsd
  have hpos := abs_nonneg p
  have hγd : rnd γ = γ := rnd_of_isDouble (is_double (is_gamma (L := L)))
  have s1 : (Arith.mul (lit 4 (-1)) (Dbl.ofInt 1) : Double L).Is γ := by
    have := mul_is (L := L) is_gamma one_is (by rw [_root_.mul_one, ← hγ, hγd]; exact isDouble_lt (is_double (is_gamma (L := L))))
    rwa [_root_.mul_one, ← hγ, hγd] at this
  have s2 : |γ - 2 / 5| ≤ 1 / 10 ^ 7 := by
    have := rnd_rel7 (q := 4 / 10) (by
      rw [abs_of_pos (by norm_num)]
      exact (hsm (k := 20) (by norm_num)).trans (by norm_num))
    rw [abs_of_pos (by norm_num : (0 : ℚ) < 4 / 10), ← hγ] at this
    rw [show (2 / 5 : ℚ) = 4 / 10 by norm_num]
    exact this.trans (by norm_num)
  obtain ⟨g1, g2⟩ := abs_le.mp s2
  have hγ0 : 0 < γ := by linarith [(by norm_num : (1 : ℚ) / 10 ^ 7 ≤ 1 / 10)]
  have hbγ : |b * γ| = |b| * γ := by rw [abs_mul, abs_of_pos hγ0]
  have hbγ2 : |b * γ| ≤ |b| := by
    rw [hbγ]
    exact mul_le_of_le_one_right (abs_nonneg b) (by linarith [(by norm_num : (1 : ℚ) / 10 ^ 7 ≤ 1 / 10)])
  have hbγ1 : 3 / 10 * |b| ≤ |b * γ| := by
    rw [hbγ, mul_comm]
    exact mul_le_mul_of_nonneg_left (by linarith [(by norm_num : (1 : ℚ) / 10 ^ 7 ≤ 1 / 10)]) (abs_nonneg b)
  have s3 : (Arith.mul J (Arith.mul (lit 4 (-1)) (Dbl.ofInt 1))).Is h :=
    mul_is hJ s1 (small_rnd (hbγ2.trans (hb2.trans (hle (by norm_num)))))
  have s4 : |h - b * γ| ≤ 1 / 10 ^ 7 * |b * γ| := rnd_rel7 ((hsm (k := 20) (by norm_num)).trans (by
    refine le_trans ?_ hbγ1
    linarith [(by norm_num : (1 : ℚ) / 2 ^ 20 ≤ 3 / 10 * (1 / 100))]))
  -- the product with the direction
  set X := b * dr with hX
  have hX0 := abs_nonneg X
  have s5 : |h * dr - γ * X| ≤ 1 / 10 ^ 7 * |X| := by
    have e : h * dr - γ * X = (h - b * γ) * dr := by rw [hX]; ring
    rw [e, abs_mul]
    have := mul_le_mul_of_nonneg_right s4 (abs_nonneg dr)
    refine this.trans ?_
    rw [hX, abs_mul b dr]
    have := mul_le_mul_of_nonneg_right hbγ2 (abs_nonneg dr)
    linarith
  have s6 : |h * dr - 2 / 5 * X| ≤ 2 / 10 ^ 7 * |X| := by
    have e : h * dr - 2 / 5 * X = (h * dr - γ * X) + (γ - 2 / 5) * X := by ring
    rw [e]
    refine (abs_add_le _ _).trans ?_
    rw [abs_mul (γ - 2 / 5)]
    have := mul_le_mul_of_nonneg_right s2 hX0
    linarith
  have hhd1 : 3 / 10 * |X| ≤ |h * dr| := by
    have := abs_sub_abs_le_abs_sub (2 / 5 * X) (h * dr)
    rw [abs_sub_comm, abs_mul, abs_of_pos (by norm_num : (0 : ℚ) < 2 / 5)] at this
    linarith
  have hhd2 : |h * dr| ≤ 1 / 2 * |X| := by
    have := abs_sub_abs_le_abs_sub (h * dr) (2 / 5 * X)
    rw [abs_mul (2 / 5), abs_of_pos (by norm_num : (0 : ℚ) < 2 / 5)] at this
    linarith
  have s7 : (Arith.mul (Arith.mul J (Arith.mul (lit 4 (-1)) (Dbl.ofInt 1))) d).Is k :=
    mul_is s3 hd (small_rnd (le_trans (by linarith) (hle (k := 100) (by norm_num))))
  have s8 : |k - h * dr| ≤ 1 / 10 ^ 7 * |h * dr| := rnd_rel7 ((hsm (k := 120) (by norm_num)).trans (by
    refine le_trans ?_ hhd1
    linarith [(by norm_num : (1 : ℚ) / 2 ^ 120 ≤ 3 / 10 * (1 / 2 ^ 110))]))
  have s9 : |k - 2 / 5 * X| ≤ 1 / 1000 * |p| := by
    have e : k - 2 / 5 * X = (k - h * dr) + (h * dr - 2 / 5 * X) := by ring
    rw [e]
    refine (abs_add_le _ _).trans ?_
    linarith
  have s10 : 54 / 100 * |p| ≤ |p + k| := by
    have e : p + k - (p + 2 / 5 * X) = k - 2 / 5 * X := by ring
    have := abs_sub_abs_le_abs_sub (p + 2 / 5 * X) (p + k)
    rw [abs_sub_comm, e] at this
    linarith
  have s11 : |p + k| ≤ 2 * |p| := by
    have e : p + k = p + 2 / 5 * X + (k - 2 / 5 * X) := by ring
    have h1 := abs_add_le (p + 2 / 5 * X) (k - 2 / 5 * X)
    have h2 := abs_add_le p (2 / 5 * X)
    rw [abs_mul, abs_of_pos (by norm_num : (0 : ℚ) < 2 / 5)] at h2
    rw [e]; linarith
  have s12 : (Arith.add P (Arith.mul (Arith.mul J (Arith.mul (lit 4 (-1)) (Dbl.ofInt 1))) d)).Is s :=
    add_is hP s7 (small_rnd (le_trans (by linarith : |p + k| ≤ 2 * 2 ^ 100) (le_trans (by norm_num) (hle (k := 101) (by norm_num)))))
  have s13 : |s - (p + k)| ≤ 1 / 100 * |p + k| :=
    (rnd_add_rel (is_double hP) (is_double s7)).trans (mul_le_mul_of_nonneg_right (by norm_num) (abs_nonneg _))
  have s14 : 1 / 4 * |p| ≤ |s| := by
    have := abs_sub_abs_le_abs_sub (p + k) s
    rw [abs_sub_comm] at this
    linarith
  have s15 : |s| ≤ 3 * |p| := by
    have := abs_sub_abs_le_abs_sub s (p + k)
    linarith
  have sqb : ∀ {v : ℚ}, |v| ≤ 3 * |p| → |v * v| ≤ 2 ^ 1000 := by
    intro v hv
    have h1 : |v| ≤ 3 * 2 ^ 100 := by linarith
    rw [abs_mul]
    refine (mul_le_mul h1 h1 (abs_nonneg _) (by positivity)).trans (le_trans (by norm_num) (hle (k := 204) (by norm_num)))
  have t1 : (Arith.mul P' P').Is (rnd (p' * p')) := mul_is hP' hP' (small_rnd (sqb (by linarith)))
  have t2 := mul_is s12 s12 (small_rnd (sqb s15))
  have t3 : (Arith.mul P P).Is (rnd (p * p)) := mul_is hP hP (small_rnd (sqb (by linarith)))
  have hsq : p' * p' ≤ 1 / 16 * (p * p) := by
    have := pow_le_pow_left₀ (abs_nonneg p') hp' 2
    rw [mul_pow, sq_abs, sq_abs] at this
    linarith
  refine ⟨?_, ?_⟩
  · rw [le_is t1 t2, decide_eq_true_iff]
    apply rnd_mono
    have := pow_le_pow_left₀ (by positivity) s14 2
    rw [mul_pow, sq_abs, sq_abs] at this
    linarith
  · rw [lt_is t1 t3, decide_eq_true_iff]
    have hpp : (1 : ℚ) / 2 ^ 200 ≤ p * p := by
      have := pow_le_pow_left₀ (by positivity) hp1 2
      rw [sq_abs] at this
      refine le_trans (by norm_num) (this.trans (le_of_eq (by ring)))
    have hpp0 : 0 < p * p := lt_of_lt_of_le (by positivity) hpp
    refine lt_of_le_of_lt (rnd_mono hsq) ?_
    have u1 := rnd_rel7 (q := 1 / 16 * (p * p)) (by
      rw [abs_of_pos (by positivity)]
      refine (hsm (k := 204) (by norm_num)).trans ?_
      linarith [(by norm_num : (1 : ℚ) / 2 ^ 204 ≤ 1 / 16 * (1 / 2 ^ 200))])
    have u2 := rnd_rel7 (q := p * p) (by rw [abs_of_pos hpp0]; exact (hsm (by norm_num)).trans hpp)
    rw [abs_of_pos (by positivity : 0 < 1 / 16 * (p * p))] at u1
    rw [abs_of_pos hpp0] at u2
    have v1 := (abs_le.mp u1).2
    have v2 := (abs_le.mp u2).1
    linarith

theorem norm_one (x : Fin 1 → ℝ) : ‖x‖ = |x 0| :=
  le_antisymm ((pi_norm_le_iff_of_nonneg (abs_nonneg _)).mpr fun i => by rw [Fin.fin_one_eq_zero i]; rfl) (norm_le_pi_norm x 0)

theorem mulVec_one (A : Matrix (Fin 1) (Fin 1) ℝ) (v : Fin 1 → ℝ) : A.mulVec v 0 = A 0 0 * v 0 := by
  simp [Matrix.mulVec, dotProduct]

variable {x : Str} {f : Matrix (Fin 1) (Fin 1) (Expr (Double L))} {g : Matrix (Fin 1) (Fin 1) (Expr (XNum ℝ))} {z : Fin 1 → ℝ} {r M change a eF eA : ℝ}

/-- one step of the method, from a point of the region that is not accepted -/
theorem region_step (hR : ComputedRegion [x] f g z r M change a eF eA)
    (cfg : Config (Double L)) (hs : cfg.throwOnInvalidValue = true) {ε : ℚ} (he : cfg.epsilon.Is ε) (hroom : LMRoom z r M change a eF eA ε)
    {J : SymMat (Double L)} (hJ : (symOf f).jacobian cfg [x] = .ok J)
    {t : VarsTable (Double L)} {w : Fin 1 → Double L} (ht : DoubleTable t [x] w) (hw : ∀ j, (w j).Finite)
    (hwz : ‖realVec w - z‖ ≤ r) {phi : Fin 1 → Double L} (hphi : evalVec cfg (symOf f) t = .ok (vec phi))
    (hns : ¬ (vec phi).eqNum cfg.epsilon (Dbl.ofInt 0) = true) :
    ∃ (dq : Mat (Double L)) (FN : Mat (Double L)) (t1 : VarsTable (Double L)) (w1 : Fin 1 → Double L), 
      (∀ lsFuel innerFuel it, lmInner cfg (lsFuel + 1) (symOf f) J (vec w) (vec phi) (innerFuel + 1) t (lit 1 (-5)) it = .ok (dq, FN, t1, it)) ∧
      (vec w).add dq = .ok (vec w1) ∧ DoubleTable t1 [x] w1 ∧ (∀ j, (w1 j).Finite) ∧ ‖realVec w1 - z‖ ≤ 1 / 4 * ‖realVec w - z‖ := by
  have hn : 0 < [x].length := by simp
  obtain ⟨phi0, Fv, h1, h2, h3⟩ := hR.value cfg ht hw hwz
  obtain rfl : phi = phi0 := by
    rw [hphi] at h1
    have h1' := congrArg Mat.data (Res.ok.inj h1)
    exact List.ofFn_injective h1'
  obtain ⟨B, A, h4, h5, h6⟩ := hR.deriv cfg hs hJ ht hw hwz
  have hr0 : 0 ≤ r := (norm_nonneg _).trans hwz
  have hzz : ‖z - z‖ ≤ r := by rw [sub_self, norm_zero]; exact hr0
  have hch0 : 0 ≤ change := (abs_nonneg _).trans (hR.steady _ _ hwz hwz A A h5 h5 0 0)
  have hM := hroom.M_pos
  -- the numbers, as real numbers
  obtain ⟨hpf, hpe⟩ := h3 0
  obtain ⟨hbf, hbe⟩ := h6 0 0
  set p := (phi 0).rat with hp
  set b := (B 0 0).rat with hb
  have hPis : (phi 0).Is p := ⟨hpf, rfl⟩
  have hJis : (B 0 0).Is b := ⟨hbf, rfl⟩
  set A0 : ℝ := A 0 0 with hA0
  set e : ℝ := (realVec w - z) 0 with hed
  have hen : ‖realVec w - z‖ = |e| := norm_one _
  have hεp : (ε : ℝ) ≤ |(p : ℝ)| := by
    by_contra hc
    push Not at hc
    apply hns
    refine eqNum_vec phi he (fun i => (h3 i).1) fun i => ?_
    rw [Fin.fin_one_eq_zero i]
    exact_mod_cast hc
  have hA1 : 1 ≤ M * |A0| := by
    have := hR.stretch _ hwz A h5 (fun _ => 1)
    rw [norm_one, norm_one, mulVec_one, abs_one, mul_one] at this
    exact this
  have hAa : |A0| ≤ a := hR.bounded _ hwz A h5 0 0
  have hApos : 0 < |A0| := by
    by_contra hc
    have : |A0| = 0 := le_antisymm (not_lt.mp hc) (abs_nonneg _)
    rw [this, mul_zero] at hA1
    linarith
  -- the mean value inequality with the slope at the point
  have hmv : ∀ {w' : Fin 1 → ℝ}, ‖w' - z‖ ≤ r → ∀ {V : Fin 1 → ℝ}, IsValue g [x] w' V →
      |V 0 - A0 * (w' - z) 0| ≤ 1 / 10 * |A0 * (w' - z) 0| := by
    intro w' hw' V hV
    have := mean_value (DoubleTable.nodup ht) hch0 hR.smooth A (fun w' hw' A' hA' i j => hR.steady _ _ hw' hwz A' A hA' h5 i j) hw' hzz hV hR.root
    have h7 := (norm_le_pi_norm _ (0 : Fin 1)).trans this
    rw [Real.norm_eq_abs, Pi.sub_apply, Pi.sub_apply, mulVec_one, Pi.zero_apply, sub_zero, norm_one] at h7
    refine h7.trans ?_
    rw [abs_mul]
    have h8 : change ≤ 1 / 10 * |A0| := by
      have k1 : change ≤ change * (M * |A0|) := le_mul_of_one_le_right hch0 hA1
      have k2 := mul_le_mul_of_nonneg_right hroom.steady hApos.le
      linarith
    have h9 := mul_le_mul_of_nonneg_right h8 (abs_nonneg ((w' - z) 0))
    simp only [List.length_singleton, Nat.cast_one, _root_.one_mul]
    linarith
  have hεpos : (0 : ℝ) < ε := lt_of_lt_of_le (by positivity) hroom.eps
  have hF1 := hmv hwz h2
  have hp1 : |(p : ℝ) - Fv 0| ≤ 1 / 1000 * |(p : ℝ)| := hpe.trans (by have := hroom.value; linarith)
  have heA : 0 ≤ eA := (abs_nonneg _).trans hbe
  have hb1 : |(b : ℝ) - A0| ≤ 1 / 1000 * |A0| := by
    have k1 : eA ≤ eA * (M * |A0|) := le_mul_of_one_le_right heA hA1
    have k2 := mul_le_mul_of_nonneg_right hroom.slope hApos.le
    linarith
  have hbl : 999 / 1000 * |A0| ≤ |(b : ℝ)| := by
    have := abs_sub_abs_le_abs_sub A0 (b : ℝ)
    rw [abs_sub_comm] at this
    linarith
  have hbu : |(b : ℝ)| ≤ 2 ^ 100 := by
    have := abs_sub_abs_le_abs_sub (b : ℝ) A0
    linarith [hroom.big.1]
  have hb2 : 998 / 1000 ≤ M ^ 2 * (b : ℝ) ^ 2 := by
    have k1 : 999 / 1000 ≤ M * |(b : ℝ)| := by
      have := mul_le_mul_of_nonneg_left hbl hM.le
      linarith
    have k2 := pow_le_pow_left₀ (by norm_num) k1 2
    rw [mul_pow, sq_abs] at k2
    exact le_trans (by norm_num) k2
  have hM2 : 0 < M ^ 2 := by positivity
  have hb3 : 1 / 5000 ≤ (b : ℝ) ^ 2 := by
    have := hroom.damping
    nlinarith [sq_nonneg (b : ℝ)]
  have hbε : (ε : ℝ) ≤ (b : ℝ) ^ 2 / 2 := by
    have := hroom.pivot
    have k : M ^ 2 * ε ≤ M ^ 2 * ((b : ℝ) ^ 2 / 2) := by linarith
    exact le_of_mul_le_mul_left k hM2
  have hpu : |(p : ℝ)| ≤ 2 ^ 100 := by
    have ha0 : 0 ≤ a := hApos.le.trans hAa
    have := mean_value (DoubleTable.nodup ht) ha0 hR.smooth 0 (fun w' hw' A' hA' i j => by
      rw [Matrix.zero_apply, sub_zero]; exact hR.bounded w' hw' A' hA' i j) hwz hzz h2 hR.root
    rw [Matrix.zero_mulVec, sub_zero, sub_zero] at this
    have h7 := (norm_le_pi_norm Fv 0).trans this
    rw [Real.norm_eq_abs] at h7
    simp only [List.length_singleton, Nat.cast_one, _root_.one_mul] at h7
    have h8 := mul_le_mul_of_nonneg_left hwz ha0
    have h9 := abs_sub_abs_le_abs_sub (p : ℝ) (Fv 0)
    linarith [hroom.big.2.1]
  have hpl : 1 / 2 ^ 100 ≤ |(p : ℝ)| := hroom.eps.trans hεp
  -- back to rational numbers
  have hb3' : (1 : ℚ) / 5000 ≤ b ^ 2 := by
    have : ((1 / 5000 : ℚ) : ℝ) ≤ ((b ^ 2 : ℚ) : ℝ) := by push_cast; exact hb3
    exact_mod_cast this
  have hbu' : |b| ≤ 2 ^ 100 := by
    have : ((|b| : ℚ) : ℝ) ≤ ((2 ^ 100 : ℚ) : ℝ) := by push_cast; exact hbu
    exact_mod_cast this
  have hbε' : ε ≤ b ^ 2 / 2 := by
    have : (ε : ℝ) ≤ ((b ^ 2 / 2 : ℚ) : ℝ) := by push_cast; exact hbε
    exact_mod_cast this
  have hpl' : 1 / 2 ^ 100 ≤ |p| := by
    have : ((1 / 2 ^ 100 : ℚ) : ℝ) ≤ ((|p| : ℚ) : ℝ) := by push_cast; exact hpl
    exact_mod_cast this
  have hpu' : |p| ≤ 2 ^ 100 := by
    have : ((|p| : ℚ) : ℝ) ≤ ((2 ^ 100 : ℚ) : ℝ) := by push_cast; exact hpu
    exact_mod_cast this
  obtain ⟨d, dr, d1, d2, d3, d4⟩ := step_numbers cfg he hJis hPis hb3' hbu' hbε' hpl' hpu'
  have d3' : |(dr : ℝ) * ((b : ℝ) ^ 2 + 1 / 10 ^ 5) + (b : ℝ) * p| ≤ 1 / 10 ^ 5 * |(b : ℝ) * p| := by
    have := (Rat.cast_le (K := ℝ)).mpr d3
    push_cast at this
    exact this
  have hb0 : (b : ℝ) ≠ 0 := by
    intro h0
    rw [h0] at hb3
    norm_num at hb3
  obtain ⟨q1, q2, q3, q4, q5⟩ := step_err hF1 hp1 hb1 hb0 (by norm_num) (by linarith [(by norm_num : 20 * ((1 : ℝ) / 10 ^ 5) ≤ 1 / 5000)]) d3'
  -- the new point
  have hone : (Arith.mul d (Dbl.ofInt 1)).Is dr := by
    have hdd := is_double d1
    have := mul_is d1 one_is (by rw [_root_.mul_one, rnd_of_isDouble hdd]; exact isDouble_lt hdd)
    rwa [_root_.mul_one, rnd_of_isDouble hdd] at this
  have hwis : (w 0).Is (w 0).rat := ⟨hw 0, rfl⟩
  have hz0 : |z 0| = ‖z‖ := (norm_one z).symm
  have hw0 : ((w 0).rat : ℝ) = e + z 0 := by
    rw [hed, Pi.sub_apply]; unfold realVec; ring
  have hwb : |(w 0).rat| ≤ 2 ^ 100 := by
    have k : |((w 0).rat : ℝ)| ≤ 2 ^ 100 := by
      rw [hw0]
      have := abs_add_le e (z 0)
      rw [← hen, hz0] at this
      linarith [hroom.big.2.2]
    have : ((|(w 0).rat| : ℚ) : ℝ) ≤ ((2 ^ 100 : ℚ) : ℝ) := by push_cast; exact k
    exact_mod_cast this
  set w1 : Fin 1 → Double L := fun _ => Arith.add (w 0) (Arith.mul d (Dbl.ofInt 1)) with hw1
  have hw1is : (w1 0).Is (rnd ((w 0).rat + dr)) := add_is hwis hone (small_rnd (by
    have k1 := abs_add_le (w 0).rat dr
    have k2 : (2 : ℚ) ^ 100 + 2 ^ 250 ≤ 2 ^ 251 := by norm_num
    exact k1.trans ((add_le_add hwb d2).trans (k2.trans (pow_le_pow_right₀ (by norm_num) (by norm_num))))))
  have hw1f : ∀ j, (w1 j).Finite := fun j => hw1is.1
  set e2 : ℝ := (realVec w1 - z) 0 with he2
  have he1 : |e + dr| ≤ 1 / 5 * |e| := by
    rw [abs_mul] at q1 q2
    have : |A0| * |e + dr| ≤ |A0| * (1 / 5 * |e|) := by linarith [abs_nonneg (p : ℝ)]
    exact le_of_mul_le_mul_left this hApos
  have hrd : |e2 - (e + dr)| ≤ (‖z‖ + r) / 2 ^ 53 := by
    have k1 := rnd_add_rel (is_double hwis) (is_double hone)
    have k2 := (Rat.cast_le (K := ℝ)).mpr k1
    push_cast at k2
    rw [hw0] at k2
    have k3 : e2 = ((rnd ((w 0).rat + dr) : ℚ) : ℝ) - z 0 := by
      rw [he2, Pi.sub_apply]
      unfold realVec
      have : (w1 0).rat = rnd ((w 0).rat + dr) := hw1is.2
      rw [this]
    have k4 : e2 - (e + dr) = ((rnd ((w 0).rat + dr) : ℚ) : ℝ) - (e + z 0 + dr) := by rw [k3]; ring
    rw [k4]
    refine k2.trans ?_
    have k5 : |e + z 0 + dr| ≤ ‖z‖ + r := by
      have k6 : e + z 0 + dr = z 0 + (e + dr) := by ring
      rw [k6]
      refine (abs_add_le _ _).trans ?_
      rw [hz0]
      linarith [abs_nonneg e]
    have := mul_le_mul_of_nonneg_left k5 (by positivity : (0 : ℝ) ≤ 1 / 2 ^ 53)
    linarith
  have hA2 : |A0 * e2| ≤ 171 / 1000 * |(p : ℝ)| := by
    have k1 : A0 * e2 = A0 * (e + dr) + A0 * (e2 - (e + dr)) := by ring
    have k2 : |A0 * (e2 - (e + dr))| ≤ ε / 1000 := by
      rw [abs_mul]
      have hzr : 0 ≤ (‖z‖ + r) / 2 ^ 53 := (abs_nonneg _).trans hrd
      exact (mul_le_mul hAa hrd (abs_nonneg _) (hApos.le.trans hAa)).trans hroom.point
    rw [k1]
    refine (abs_add_le _ _).trans ?_
    linarith
  have he3 : |e2| ≤ 1 / 4 * |e| := by
    rw [abs_mul] at hA2 q2
    have : |A0| * |e2| ≤ |A0| * (1 / 4 * |e|) := by linarith [abs_nonneg (p : ℝ)]
    exact le_of_mul_le_mul_left this hApos
  have hen2 : ‖realVec w1 - z‖ = |e2| := norm_one _
  have hw1z : ‖realVec w1 - z‖ ≤ r := by rw [hen2]; linarith [abs_nonneg e]
  obtain ⟨t1, k1, k2⟩ := DoubleTable.setValues ht w1
  obtain ⟨phi', F', m1, m2, m3⟩ := hR.value cfg k2 hw1f hw1z
  obtain ⟨hp'f, hp'e⟩ := m3 0
  have hF2 := hmv hw1z m2
  have hp'b : |((phi' 0).rat : ℝ)| ≤ 1 / 4 * |(p : ℝ)| := by
    have j1 := abs_sub_abs_le_abs_sub ((phi' 0).rat : ℝ) (F' 0)
    have j2 := abs_sub_abs_le_abs_sub (F' 0) (A0 * e2)
    have := hroom.value
    linarith
  have hp'b' : |(phi' 0).rat| ≤ 1 / 4 * |p| := by
    have : ((|(phi' 0).rat| : ℚ) : ℝ) ≤ ((1 / 4 * |p| : ℚ) : ℝ) := by push_cast; exact hp'b
    exact_mod_cast this
  have hbd1 : |b * dr| ≤ 105 / 100 * |p| := by
    have : ((|b * dr| : ℚ) : ℝ) ≤ ((105 / 100 * |p| : ℚ) : ℝ) := by push_cast; exact q4
    exact_mod_cast this
  have hbd2 : 9 / 10 * |p| ≤ |b * dr| := by
    have : ((9 / 10 * |p| : ℚ) : ℝ) ≤ ((|b * dr| : ℚ) : ℝ) := by push_cast; exact q5
    exact_mod_cast this
  have hbd3 : 55 / 100 * |p| ≤ |p + 2 / 5 * (b * dr)| := by
    have : ((55 / 100 * |p| : ℚ) : ℝ) ≤ ((|p + 2 / 5 * (b * dr)| : ℚ) : ℝ) := by push_cast; exact q3
    exact_mod_cast this
  obtain ⟨g1, g2⟩ := step_tests hJis hPis ⟨hp'f, rfl⟩ d1 hb3' hbu' hpl' hpu' hbd1
    (le_trans (by linarith [(by norm_num : (1 : ℚ) / 2 ^ 110 ≤ 9 / 10 * (1 / 2 ^ 100))]) hbd2) hbd3 hp'b'
  -- the run
  have hv : ∀ u : Fin 1 → Double L, (vec u : Mat (Double L)) = ⟨1, 1, [u 0]⟩ := fun _ => rfl
  have h4' : evalMat cfg J t = .ok ⟨1, 1, [B 0 0]⟩ := by rw [h4]; exact congrArg Res.ok (vec_entries (n := 1) B)
  obtain ⟨t2, n1, n2⟩ := DoubleTable.setValues ht w
  obtain rfl : t2 = t := n2.1.good.ext ht.1.good (n2.2.1.trans ht.2.1.symm) (n2.2.2.trans ht.2.2.symm)
  have hdir : lmDirection cfg J (vec phi) (lit 1 (-5)) t2 = .ok ⟨1, 1, [d]⟩ := by
    rw [hv, one_direction cfg J _ t2 (B 0 0) (phi 0) h4']
    exact d4
  have harm : ∀ lsFuel, armijo (lsFuel + 1) (vec w) ⟨1, 1, [d]⟩ (lmF cfg (symOf f) t2) (lmDF cfg J t2) = .ok (Dbl.ofInt 1) := by
    intro lsFuel
    rw [hv]
    refine one_armijo lsFuel _ _ (w 0) d (B 0 0) (phi 0) (phi' 0) ?_ ?_ ?_ g1
    · show (t2.setValues (vec w1) >>= _) = _
      rw [k1, Res.bind_ok, m1]; rfl
    · show (t2.setValues (vec w) >>= _) = _
      rw [n1, Res.bind_ok, hphi]; rfl
    · show (t2.setValues (vec w) >>= _) = _
      rw [n1, Res.bind_ok, h4']
  have hadd : (vec w).add (Mat.scaleLeft (Dbl.ofInt 1) ⟨1, 1, [d]⟩) = .ok (vec w1) := by
    rw [hv, one_scale, one_add]; rfl
  refine ⟨Mat.scaleLeft (Dbl.ofInt 1) ⟨1, 1, [d]⟩, vec phi', t1, w1, fun lsFuel innerFuel it => ?_, hadd, k2, hw1f, by rw [hen2, hen]; exact he3⟩
  rw [lmInner_succ, hdir, Res.bind_ok, harm, Res.bind_ok, hadd, Res.bind_ok, k1, Res.bind_ok, m1, Res.bind_ok, hv phi', hv phi, one_norm2, Res.bind_ok,
    one_norm2, Res.bind_ok, if_pos g2]

end Double
end Tom
