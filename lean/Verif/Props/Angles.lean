import Verif.Model.Angles
import Verif.Props.IeeeOps
import Mathlib.Analysis.Real.Pi.Bounds
/-
C90: `radians` and `degrees`.
-/
set_option linter.unusedSectionVars false
namespace Tom
variable {L : Libm}
open Double

/-- `M_PI` as a number -/
def piRat : ℚ := 884279719003555 / 281474976710656

theorem pi_is : (piConst : Double L).Is piRat := by
  have h : F64.ofNumeral (decRat 314159265358979323846 (-20)) = some (.num piRat) := by decide +kernel
  obtain ⟨x, h1, h2⟩ := ofDec_some (L := L) h
  have : (piConst : Double L) = x := by unfold piConst lit; rw [h1]; rfl
  rw [this]
  exact is_num h2

theorem c180_is : (Dbl.ofInt 180 : Double L).Is 180 := by
  have := is_ofInt (L := L) (i := 180) (by norm_num)
  exact_mod_cast this

theorem rnd_mixed (q : ℚ) : |rnd q - q| ≤ 1 / 2 ^ 53 * |q| + 1 / 2 ^ 1075 := by
  rcases le_or_gt (1 / 2 ^ 1022) |q| with h | h
  · have := rnd_rel q h
    have h2 : (0 : ℚ) ≤ 1 / 2 ^ 1075 := by positivity
    linarith
  · have := rnd_abs q h
    have h2 : 0 ≤ 1 / 2 ^ 53 * |q| := by positivity
    linarith

theorem rnd_factor (q : ℚ) (h : 1 / 2 ^ 1022 ≤ |q|) : ∃ d : ℚ, |d| ≤ 1 / 2 ^ 53 ∧ rnd q = q * (1 + d) := by
  have hq : q ≠ 0 := by
    rintro rfl
    rw [abs_zero] at h
    exact absurd h (by norm_num)
  refine ⟨(rnd q - q) / q, ?_, by field_simp; ring⟩
  rw [abs_div, div_le_iff₀ (abs_pos.mpr hq)]
  exact rnd_rel q h

theorem isFloat_pow2 (k : ℕ) : IsFloat ((2 : ℚ) ^ k) := ⟨1, k, by norm_num, by omega, by simp⟩

theorem rnd_lt_of_le (q : ℚ) (h : |q| ≤ 2 ^ 1023) : |rnd q| < 2 ^ 1024 :=
  lt_of_le_of_lt (abs_rnd_le q _ (isFloat_pow2 1023) h) (pow_lt_pow_right₀ (by norm_num) (by norm_num))

/-- the rounding errors of `a * b` with a rounded factor, without reference to sizes -/
theorem two_roundings {u η s P a r : ℝ} (hu : 0 ≤ u) (hη : 0 ≤ η) (hP0 : 0 ≤ P) (hP : P ≤ 4) (hu1 : u ≤ 1 / 2 ^ 53)
    (ha : |a - s| ≤ u * |s| + η) (hr : |r - a * P| ≤ u * |a * P| + η) : |r - s * P| ≤ (2 * u + u ^ 2) * |s * P| + 6 * η := by
  have h1 : |a| ≤ |s| + (u * |s| + η) := by
    have := abs_sub_abs_le_abs_sub a s
    linarith
  have h2 : |a * P| ≤ (|s| + (u * |s| + η)) * P := by
    rw [abs_mul, abs_of_nonneg hP0]
    exact mul_le_mul_of_nonneg_right h1 hP0
  have h3 : |a * P - s * P| ≤ (u * |s| + η) * P := by
    rw [← sub_mul, abs_mul, abs_of_nonneg hP0]
    exact mul_le_mul_of_nonneg_right ha hP0
  have h4 : |r - s * P| ≤ |r - a * P| + |a * P - s * P| := abs_sub_le _ _ _
  have h5 : |s * P| = |s| * P := by rw [abs_mul, abs_of_nonneg hP0]
  have h6 : u * |a * P| ≤ u * ((|s| + (u * |s| + η)) * P) := mul_le_mul_of_nonneg_left h2 hu
  have h7 : u * (η * P) ≤ 1 / 2 ^ 53 * (η * 4) :=
    mul_le_mul hu1 (mul_le_mul_of_nonneg_left hP hη) (by positivity) (by positivity)
  have h8 : η * P ≤ η * 4 := mul_le_mul_of_nonneg_left hP hη
  have h9 : (1 : ℝ) / 2 ^ 53 * (η * 4) ≤ 1 * η := by
    have : (1 : ℝ) / 2 ^ 53 * 4 ≤ 1 := by norm_num
    nlinarith
  rw [h5]
  nlinarith

/-- `M_PI` is π to 53 places -/
theorem pi_near : |(piRat : ℝ) - Real.pi| ≤ 2 / 5 * (1 / 2 ^ 53) * Real.pi ∧ (piRat : ℝ) ≤ Real.pi ∧ 0 < (piRat : ℝ) := by
  have h1 := Real.pi_gt_d20
  have h2 := Real.pi_lt_d20
  have e : (piRat : ℝ) = 884279719003555 / 281474976710656 := by unfold piRat; push_cast; rfl
  rw [e]
  refine ⟨?_, ?_, by norm_num⟩
  · rw [abs_le]
    constructor
    · norm_num at h1 h2 ⊢
      linarith
    · norm_num at h1 h2 ⊢
      linarith
  · norm_num at h1 h2 ⊢
    linarith

theorem radians_value {x : Double L} {p : ℚ} (hx : x.Is p) : (radians x).Is (rnd (rnd (p / 180) * piRat)) := by
  have hp := isDouble_lt (is_double hx)
  have h1 : |rnd (p / 180)| ≤ 2 ^ 1020 := by
    refine abs_rnd_le _ _ (isFloat_pow2 1020) ?_
    rw [abs_div, abs_of_nonneg (by norm_num : (0 : ℚ) ≤ 180), div_le_iff₀ (by norm_num)]
    have e : (2 : ℚ) ^ 1024 = 2 ^ 1020 * 16 := by rw [show (16 : ℚ) = 2 ^ 4 by norm_num, ← pow_add]
    have h0 : (0 : ℚ) ≤ 2 ^ 1020 := by positivity
    rw [e] at hp
    clear e
    generalize (2 : ℚ) ^ 1020 = N at *
    linarith
  have h2 : |rnd (p / 180) * piRat| ≤ 2 ^ 1023 := by
    rw [abs_mul, abs_of_nonneg (by norm_num [piRat] : (0 : ℚ) ≤ piRat)]
    have e : (2 : ℚ) ^ 1023 = 2 ^ 1020 * 8 := by rw [show (8 : ℚ) = 2 ^ 3 by norm_num, ← pow_add]
    rw [e]
    exact mul_le_mul h1 (by norm_num [piRat]) (by norm_num [piRat]) (by positivity)
  refine mul_is (div_is hx c180_is (by norm_num) ?_) pi_is (rnd_lt_of_le _ h2)
  exact lt_of_le_of_lt h1 (pow_lt_pow_right₀ (by norm_num) (by norm_num))

theorem degrees_value {x : Double L} {p : ℚ} (hx : x.Is p) (hp : |p| ≤ 2 ^ 1015) :
    (degrees x).Is (rnd (rnd (p * 180) / piRat)) := by
  have h1 : |rnd (p * 180)| ≤ 2 ^ 1023 := by
    refine abs_rnd_le _ _ (isFloat_pow2 1023) ?_
    rw [abs_mul, abs_of_nonneg (by norm_num : (0 : ℚ) ≤ 180)]
    have e : (2 : ℚ) ^ 1023 = 2 ^ 1015 * 256 := by rw [show (256 : ℚ) = 2 ^ 8 by norm_num, ← pow_add]
    rw [e]
    exact mul_le_mul hp (by norm_num) (by norm_num) (by positivity)
  have h2 : |rnd (p * 180) / piRat| ≤ 2 ^ 1023 := by
    rw [abs_div, abs_of_nonneg (by norm_num [piRat] : (0 : ℚ) ≤ piRat), div_le_iff₀ (by norm_num [piRat])]
    exact le_trans h1 (le_mul_of_one_le_right (by positivity) (by norm_num [piRat]))
  refine div_is (mul_is hx c180_is ?_) pi_is (by norm_num [piRat]) (rnd_lt_of_le _ h2)
  exact lt_of_le_of_lt h1 (pow_lt_pow_right₀ (by norm_num) (by norm_num))

theorem rnd_mixed_real (q : ℚ) : |((rnd q : ℚ) : ℝ) - q| ≤ 1 / 2 ^ 53 * |(q : ℝ)| + 1 / 2 ^ 1075 := by
  have := (Rat.cast_le (K := ℝ)).mpr (rnd_mixed q)
  simpa only [Rat.cast_abs, Rat.cast_sub, Rat.cast_add, Rat.cast_mul, Rat.cast_div, Rat.cast_one, Rat.cast_pow, Rat.cast_ofNat]
    using this

/-- C90: for every finite number of degrees `radians` returns a finite number within 3 * 2^-53 (relative) of the angle in radians, with
the real number π. -/
theorem C90_radians (x : Double L) (p : ℚ) (hx : x.Is p) :
    ∃ r : ℚ, (radians x).Is r ∧ |(r : ℝ) - p * Real.pi / 180| ≤ 3 / 2 ^ 53 * |p * Real.pi / 180| + 1 / 2 ^ 1072 := by
  refine ⟨_, radians_value hx, ?_⟩
  obtain ⟨n1, n2, n3⟩ := pi_near
  have hπ := Real.pi_pos
  have h1 := rnd_mixed_real (p / 180)
  have h2 := rnd_mixed_real (rnd (p / 180) * piRat)
  rw [Rat.cast_mul] at h2
  have key := two_roundings (u := 1 / 2 ^ 53) (η := 1 / 2 ^ 1075) (s := ((p / 180 : ℚ) : ℝ)) (P := (piRat : ℝ)) (by positivity)
    (by positivity) n3.le (by linarith [Real.pi_le_four]) (le_refl _) h1 h2
  generalize ((rnd (rnd (p / 180) * piRat) : ℚ) : ℝ) = r at key ⊢
  have es : ((p / 180 : ℚ) : ℝ) = (p : ℝ) / 180 := by push_cast; rfl
  rw [es] at key
  have e8 : (1 : ℝ) / 2 ^ 1072 = 8 * (1 / 2 ^ 1075) := by
    rw [show (2 : ℝ) ^ 1075 = 2 ^ 1072 * 8 by rw [show (8 : ℝ) = 2 ^ 3 by norm_num, ← pow_add]]
    field_simp
  have hη : (0 : ℝ) ≤ 1 / 2 ^ 1075 := by positivity
  rw [e8]
  generalize (1 : ℝ) / 2 ^ 1075 = η at key hη ⊢
  clear h1 h2 es e8
  set s := (p : ℝ) / 180
  have e1 : (p : ℝ) * Real.pi / 180 = s * Real.pi := by simp only [s]; ring
  rw [e1]
  have h3 : |s * piRat - s * Real.pi| ≤ 2 / 5 * (1 / 2 ^ 53) * |s * Real.pi| := by
    rw [← mul_sub, abs_mul, abs_mul, abs_of_pos hπ]
    have := mul_le_mul_of_nonneg_left n1 (abs_nonneg s)
    linarith
  have h4 : |s * piRat| ≤ |s * Real.pi| := by
    rw [abs_mul, abs_mul, abs_of_pos hπ, abs_of_pos n3]
    exact mul_le_mul_of_nonneg_left n2 (abs_nonneg s)
  have h5 : |r - s * Real.pi| ≤ |r - s * piRat| + |s * piRat - s * Real.pi| := abs_sub_le _ _ _
  have h6 : (2 * (1 / 2 ^ 53) + (1 / 2 ^ 53) ^ 2) * |s * (piRat : ℝ)| ≤ (2 * (1 / 2 ^ 53) + (1 / 2 ^ 53) ^ 2) * |s * Real.pi| :=
    mul_le_mul_of_nonneg_left h4 (by positivity)
  have h7 : 0 ≤ |s * Real.pi| := abs_nonneg _
  clear n1
  generalize |s * Real.pi| = A at *
  generalize |s * (piRat : ℝ)| = B at *
  norm_num at key h6 h5 h3 h4 ⊢
  linarith

/-- C90: for every number of radians up to 2^1015 `degrees` returns a finite number within 3 * 2^-53 (relative) of the angle in degrees. -/
theorem C90_degrees (x : Double L) (p : ℚ) (hx : x.Is p) (hp : |p| ≤ 2 ^ 1015) :
    ∃ r : ℚ, (degrees x).Is r ∧ |(r : ℝ) - p * 180 / Real.pi| ≤ 3 / 2 ^ 53 * |p * 180 / Real.pi| + 1 / 2 ^ 1072 := by
  refine ⟨_, degrees_value hx hp, ?_⟩
  obtain ⟨n1, n2, n3⟩ := pi_near
  have hπ := Real.pi_pos
  have h1 := rnd_mixed_real (p * 180)
  have h2 := rnd_mixed_real (rnd (p * 180) / piRat)
  rw [Rat.cast_div, div_eq_mul_inv ((rnd (p * 180) : ℚ) : ℝ)] at h2
  have i0 : 0 ≤ ((piRat : ℝ))⁻¹ := inv_nonneg.mpr n3.le
  have p3 : (3 : ℝ) ≤ piRat := by unfold piRat; norm_num
  have i1 : ((piRat : ℝ))⁻¹ ≤ 4 := le_trans (inv_anti₀ (by norm_num) p3) (by norm_num)
  have key := two_roundings (u := 1 / 2 ^ 53) (η := 1 / 2 ^ 1075) (s := ((p * 180 : ℚ) : ℝ)) (P := ((piRat : ℝ))⁻¹) (by positivity)
    (by positivity) i0 i1 (le_refl _) h1 h2
  generalize ((rnd (rnd (p * 180) / piRat) : ℚ) : ℝ) = r at key ⊢
  have es : ((p * 180 : ℚ) : ℝ) = (p : ℝ) * 180 := by push_cast; rfl
  rw [es] at key
  have e8 : (1 : ℝ) / 2 ^ 1072 = 8 * (1 / 2 ^ 1075) := by
    rw [show (2 : ℝ) ^ 1075 = 2 ^ 1072 * 8 by rw [show (8 : ℝ) = 2 ^ 3 by norm_num, ← pow_add]]
    field_simp
  have hη : (0 : ℝ) ≤ 1 / 2 ^ 1075 := by positivity
  rw [e8]
  generalize (1 : ℝ) / 2 ^ 1075 = η at key hη ⊢
  clear h1 h2 es e8
  generalize (p : ℝ) * 180 = s at *
  rw [div_eq_mul_inv]
  have d1 : |((piRat : ℝ))⁻¹ - Real.pi⁻¹| ≤ 41 / 100 * (1 / 2 ^ 53) * Real.pi⁻¹ := by
    rw [inv_sub_inv n3.ne' hπ.ne', abs_div, abs_of_pos (mul_pos n3 hπ), div_le_iff₀ (mul_pos n3 hπ), abs_sub_comm]
    have e : 41 / 100 * (1 / 2 ^ 53) * Real.pi⁻¹ * ((piRat : ℝ) * Real.pi) = 41 / 100 * (1 / 2 ^ 53) * piRat := by
      field_simp
    rw [e]
    have h9 := (abs_le.mp n1).1
    refine le_trans n1 ?_
    norm_num at *
    nlinarith
  have h3 : |s * ((piRat : ℝ))⁻¹ - s * Real.pi⁻¹| ≤ 41 / 100 * (1 / 2 ^ 53) * |s * Real.pi⁻¹| := by
    rw [← mul_sub, abs_mul, abs_mul, abs_of_pos (inv_pos.mpr hπ)]
    have := mul_le_mul_of_nonneg_left d1 (abs_nonneg s)
    linarith
  have h4 : |s * ((piRat : ℝ))⁻¹| ≤ (1 + 41 / 100 * (1 / 2 ^ 53)) * |s * Real.pi⁻¹| := by
    have := abs_sub_abs_le_abs_sub (s * ((piRat : ℝ))⁻¹) (s * Real.pi⁻¹)
    linarith
  have h5 : |r - s * Real.pi⁻¹| ≤ |r - s * ((piRat : ℝ))⁻¹| + |s * ((piRat : ℝ))⁻¹ - s * Real.pi⁻¹| := abs_sub_le _ _ _
  have h6 := mul_le_mul_of_nonneg_left h4 (by positivity : (0 : ℝ) ≤ 2 * (1 / 2 ^ 53) + (1 / 2 ^ 53) ^ 2)
  have h7 : 0 ≤ |s * Real.pi⁻¹| := abs_nonneg _
  generalize |s * Real.pi⁻¹| = A at *
  generalize |s * ((piRat : ℝ))⁻¹| = B at *
  norm_num at key h6 h5 h3 h4 ⊢
  linarith

theorem factor_bounds {d : ℚ} (h : |d| ≤ 1 / 2 ^ 53) : 1 / 2 ≤ 1 + d ∧ 1 + d ≤ 2 := by
  have := abs_le.mp h
  norm_num at this
  constructor <;> linarith

theorem four_roundings {a b c d : ℚ} (ha : |a| ≤ 1 / 2 ^ 53) (hb : |b| ≤ 1 / 2 ^ 53) (hc : |c| ≤ 1 / 2 ^ 53) (hd : |d| ≤ 1 / 2 ^ 53) :
    |(1 + a) * (1 + b) * (1 + c) * (1 + d) - 1| ≤ 5 / 2 ^ 53 := by
  have one : ∀ {x y : ℚ} {k : ℚ}, |x - 1| ≤ k → |y| ≤ 1 / 2 ^ 53 → |x * (1 + y) - 1| ≤ k + (1 + k) * (1 / 2 ^ 53) := by
    intro x y k hx hy
    have e : x * (1 + y) - 1 = (x - 1) + x * y := by ring
    have hx' : |x| ≤ 1 + k := by
      have := abs_sub_abs_le_abs_sub x 1
      rw [abs_one] at this
      linarith
    rw [e]
    refine le_trans (abs_add_le _ _) ?_
    rw [abs_mul]
    have := mul_le_mul hx' hy (abs_nonneg _) (le_trans (abs_nonneg _) hx')
    linarith
  have h1 : |(1 + a) - 1| ≤ 1 / 2 ^ 53 := by simpa using ha
  have h4 := one (one (one h1 hb) hc) hd
  refine le_trans h4 ?_
  norm_num

theorem normal_le {q r k : ℚ} (hk : 0 < k) (hq : 1 / 2 ^ 1000 ≤ q) (h : q * k ≤ r) (hk' : 1 / 2 ^ 22 ≤ k) : 1 / 2 ^ 1022 ≤ r := by
  refine le_trans ?_ h
  have e : (1 : ℚ) / 2 ^ 1022 = 1 / 2 ^ 1000 * (1 / 2 ^ 22) := by
    rw [div_mul_div_comm, one_mul, ← pow_add]
  rw [e]
  exact mul_le_mul hq hk' (by positivity) (le_trans (by positivity) hq)

/-- C90: converting to radians and back, or to degrees and back, gives the angle again up to 5 * 2^-53 (relative), for every double
between 2^-1000 and 2^1000. -/
theorem C90_roundtrip (x : Double L) (p : ℚ) (hx : x.Is p) (h0 : 1 / 2 ^ 1000 ≤ |p|) (h1 : |p| ≤ 2 ^ 1000) :
    (∃ r : ℚ, (degrees (radians x)).Is r ∧ |r - p| ≤ 5 / 2 ^ 53 * |p|) ∧
    (∃ r : ℚ, (radians (degrees x)).Is r ∧ |r - p| ≤ 5 / 2 ^ 53 * |p|) := by
  have hP : piRat ≠ 0 := by norm_num [piRat]
  have hP1 : |piRat| = piRat := abs_of_nonneg (by norm_num [piRat])
  have hP3 : 3 ≤ piRat ∧ piRat ≤ 4 := by constructor <;> norm_num [piRat]
  have a180 : |(180 : ℚ)| = 180 := by norm_num
  have hp0 : 0 ≤ |p| := abs_nonneg p
  have ab : ∀ {d : ℚ}, |d| ≤ 1 / 2 ^ 53 → |1 + d| = 1 + d := fun h => abs_of_nonneg (by linarith [(factor_bounds h).1])
  constructor
  · -- p / 180, * pi, * 180, / pi
    obtain ⟨d1, b1, e1⟩ := rnd_factor (p / 180) (by
      rw [abs_div, a180]
      exact normal_le (k := 1 / 180) (by norm_num) h0 (by linarith) (by norm_num))
    obtain ⟨l1, u1⟩ := factor_bounds b1
    obtain ⟨d2, b2, e2⟩ := rnd_factor (rnd (p / 180) * piRat) (by
      rw [e1, abs_mul, abs_mul, abs_div, a180, hP1, ab b1]
      refine normal_le (k := 1 / 180 * (1 / 2) * 3) (by norm_num) h0 ?_ (by norm_num)
      have : |p| / 180 * (1 / 2) * 3 ≤ |p| / 180 * (1 + d1) * piRat :=
        mul_le_mul (mul_le_mul_of_nonneg_left l1 (by positivity)) hP3.1 (by norm_num) (by have : 0 ≤ 1 + d1 := by linarith
                                                                                          positivity)
      linarith)
    obtain ⟨l2, u2⟩ := factor_bounds b2
    set r := rnd (rnd (p / 180) * piRat) with hr
    have er : r = p / 180 * (1 + d1) * piRat * (1 + d2) := by rw [e2, e1]
    have n1 : 0 ≤ 1 + d1 := by linarith
    have n2 : 0 ≤ 1 + d2 := by linarith
    have ar : |r| = |p| / 180 * (1 + d1) * piRat * (1 + d2) := by
      rw [er, abs_mul, abs_mul, abs_mul, abs_div, a180, hP1, ab b1, ab b2]
    have lr : |p| / 180 * (1 / 2) * 3 * (1 / 2) ≤ |r| := by
      rw [ar]
      have h2 := hP3.1
      gcongr
    have ur : |r| ≤ 2 ^ 1015 := by
      rw [ar]
      have h2 : |p| / 180 * (1 + d1) * piRat * (1 + d2) ≤ |p| / 180 * 2 * 4 * 2 := by
        have h2 := hP3.2
        clear h0 h1
        have : 0 ≤ piRat := by linarith
        have k1 : |p| / 180 * (1 + d1) ≤ |p| / 180 * 2 := mul_le_mul_of_nonneg_left u1 (by linarith)
        have k2 : |p| / 180 * (1 + d1) * piRat ≤ |p| / 180 * 2 * 4 := mul_le_mul k1 h2 this (by linarith)
        exact mul_le_mul k2 u2 n2 (by linarith)
      have h3 : (2 : ℚ) ^ 1000 ≤ 2 ^ 1015 := pow_le_pow_right₀ (by norm_num) (by norm_num)
      refine le_trans h2 (le_trans ?_ (le_trans h1 h3))
      clear h0 h1 h2 h3
      linarith
    have hxr : (radians x).Is r := radians_value hx
    refine ⟨_, degrees_value hxr ur, ?_⟩
    obtain ⟨d3, b3, e3⟩ := rnd_factor (r * 180) (by
      rw [abs_mul, a180]
      exact normal_le (k := 1 / 2 * 3 * (1 / 2)) (by norm_num) h0 (by linarith) (by norm_num))
    obtain ⟨l3, u3⟩ := factor_bounds b3
    obtain ⟨d4, b4, e4⟩ := rnd_factor (rnd (r * 180) / piRat) (by
      rw [e3, abs_div, hP1, abs_mul, abs_mul, a180, ab b3]
      refine normal_le (k := 1 / 2 * 3 * (1 / 2) * (1 / 2) / 4) (by norm_num) h0 ?_ (by norm_num)
      have n3 : 0 ≤ 1 + d3 := by linarith
      have : (|p| / 180 * (1 / 2) * 3 * (1 / 2)) * 180 * (1 / 2) / 4 ≤ |r| * 180 * (1 + d3) / piRat := by
        have h2 := hP3.2
        have h4 := hP3.1
        have : 0 < piRat := by linarith
        gcongr
      linarith)
    rw [e4, e3, er]
    have e : p / 180 * (1 + d1) * piRat * (1 + d2) * 180 * (1 + d3) / piRat * (1 + d4) - p =
        p * ((1 + d1) * (1 + d2) * (1 + d3) * (1 + d4) - 1) := by
      field_simp
    rw [e, abs_mul, mul_comm]
    exact mul_le_mul_of_nonneg_right (four_roundings b1 b2 b3 b4) hp0
  · obtain ⟨d1, b1, e1⟩ := rnd_factor (p * 180) (by
      rw [abs_mul, a180]
      exact normal_le (k := 180) (by norm_num) h0 (le_refl _) (by norm_num))
    obtain ⟨l1, u1⟩ := factor_bounds b1
    have n1 : 0 ≤ 1 + d1 := by linarith
    have pp : 0 < piRat := by linarith
    obtain ⟨d2, b2, e2⟩ := rnd_factor (rnd (p * 180) / piRat) (by
      rw [e1, abs_div, abs_mul, abs_mul, a180, hP1, ab b1]
      refine normal_le (k := 180 * (1 / 2) / 4) (by norm_num) h0 ?_ (by norm_num)
      have : |p| * 180 * (1 / 2) / 4 ≤ |p| * 180 * (1 + d1) / piRat := by
        have h2 := hP3.2
        gcongr
      linarith)
    obtain ⟨l2, u2⟩ := factor_bounds b2
    set r := rnd (rnd (p * 180) / piRat) with hr
    have er : r = p * 180 * (1 + d1) / piRat * (1 + d2) := by rw [e2, e1]
    have n2 : 0 ≤ 1 + d2 := by linarith
    have ar : |r| = |p| * 180 * (1 + d1) / piRat * (1 + d2) := by
      rw [er, abs_mul, abs_div, abs_mul, abs_mul, a180, hP1, ab b1, ab b2]
    have lr : |p| * 180 * (1 / 2) / 4 * (1 / 2) ≤ |r| := by
      rw [ar]
      have h2 := hP3.2
      gcongr
    have up : |p| ≤ 2 ^ 1015 := le_trans h1 (pow_le_pow_right₀ (by norm_num) (by norm_num))
    have hxr : (degrees x).Is r := degrees_value hx up
    refine ⟨_, radians_value hxr, ?_⟩
    obtain ⟨d3, b3, e3⟩ := rnd_factor (r / 180) (by
      rw [abs_div, a180]
      exact normal_le (k := 1 / 2 / 4 * (1 / 2)) (by norm_num) h0 (by linarith) (by norm_num))
    obtain ⟨l3, u3⟩ := factor_bounds b3
    have n3 : 0 ≤ 1 + d3 := by linarith
    obtain ⟨d4, b4, e4⟩ := rnd_factor (rnd (r / 180) * piRat) (by
      rw [e3, abs_mul, hP1, abs_mul, abs_div, a180, ab b3]
      refine normal_le (k := 1 / 2 / 4 * (1 / 2) * (1 / 2) * 3) (by norm_num) h0 ?_ (by norm_num)
      have : (|p| * 180 * (1 / 2) / 4 * (1 / 2)) / 180 * (1 / 2) * 3 ≤ |r| / 180 * (1 + d3) * piRat := by
        have h2 := hP3.1
        gcongr
      linarith)
    rw [e4, e3, er]
    have e : p * 180 * (1 + d1) / piRat * (1 + d2) / 180 * (1 + d3) * piRat * (1 + d4) - p =
        p * ((1 + d1) * (1 + d2) * (1 + d3) * (1 + d4) - 1) := by
      field_simp
    rw [e, abs_mul, mul_comm]
    exact mul_le_mul_of_nonneg_right (four_roundings b1 b2 b3 b4) hp0

/-- C90: a larger angle is not converted to a smaller one. -/
theorem C90_mono (x y : Double L) (p q : ℚ) (hx : x.Is p) (hy : y.Is q) (h : Arith.le x y = true) :
    Arith.le (radians x) (radians y) = true ∧
      (|p| ≤ 2 ^ 1015 → |q| ≤ 2 ^ 1015 → Arith.le (degrees x) (degrees y) = true) := by
  rw [le_is hx hy, decide_eq_true_iff] at h
  have pp : 0 ≤ piRat := by norm_num [piRat]
  constructor
  · rw [le_is (radians_value hx) (radians_value hy), decide_eq_true_iff]
    exact rnd_mono (mul_le_mul_of_nonneg_right (rnd_mono (by linarith)) pp)
  · intro h1 h2
    rw [le_is (degrees_value hx h1) (degrees_value hy h2), decide_eq_true_iff]
    exact rnd_mono (div_le_div_of_nonneg_right (rnd_mono (by linarith)) pp)

/-- a concrete case of C90: 30 degrees and back -/
example : (Dbl.ofInt 30 : Double L).Is 30 ∧ (1 : ℚ) / 2 ^ 1000 ≤ |30| ∧ |(30 : ℚ)| ≤ 2 ^ 1000 ∧ |(30 : ℚ)| ≤ 2 ^ 1015 := by
  refine ⟨by have := is_ofInt (L := L) (i := 30) (by norm_num); exact_mod_cast this, ?_, ?_, ?_⟩
  · rw [abs_of_nonneg (by norm_num)]
    exact le_trans (div_le_one_of_le₀ (one_le_pow₀ (by norm_num)) (by positivity)) (by norm_num)
  · rw [abs_of_nonneg (by norm_num)]
    exact le_trans (by norm_num : (30 : ℚ) ≤ 2 ^ 5) (pow_le_pow_right₀ (by norm_num) (by norm_num))
  · rw [abs_of_nonneg (by norm_num)]
    exact le_trans (by norm_num : (30 : ℚ) ≤ 2 ^ 5) (pow_le_pow_right₀ (by norm_num) (by norm_num))

/-- C90: `radians(180.0) == PI` and `degrees(PI) == 180.0` -/
theorem C90_half_turn : radians (Dbl.ofInt 180 : Double L) = piConst ∧ degrees (piConst : Double L) = Dbl.ofInt 180 := by
  constructor <;> apply Double.ext
  · have e1 : (piConst : Double L).raw = .num piRat := by
      rcases is_cases (pi_is (L := L)) with ⟨h, _⟩ | ⟨_, h⟩
      · exact absurd h (by norm_num [piRat])
      · exact h
    have e2 : (Dbl.ofInt 180 : Double L).raw = F64.ofInt 180 := rfl
    show F64.mul (F64.div (Dbl.ofInt 180 : Double L).raw (Dbl.ofInt 180 : Double L).raw) (piConst : Double L).raw = (piConst : Double L).raw
    rw [e1, e2]
    decide +kernel
  · have e1 : (piConst : Double L).raw = .num piRat := by
      rcases is_cases (pi_is (L := L)) with ⟨h, _⟩ | ⟨_, h⟩
      · exact absurd h (by norm_num [piRat])
      · exact h
    have e2 : (Dbl.ofInt 180 : Double L).raw = F64.ofInt 180 := rfl
    show F64.div (F64.mul (piConst : Double L).raw (Dbl.ofInt 180 : Double L).raw) (piConst : Double L).raw = (Dbl.ofInt 180 : Double L).raw
    rw [e1, e2]
    decide +kernel

/-- C90 is false for `int` arguments: the template returns the type of its argument, so that `radians(90)` is 1 and `degrees(1)` is
57, and `radians` of every angle up to 57 degrees is 0. -/
theorem C90_false_int : radiansInt (Double L) 90 = .ok 1 ∧ degreesInt (Double L) 1 = .ok 57 ∧
    ∀ t : ℤ, 0 ≤ t → t ≤ 57 → radiansInt (Double L) t = .ok 0 := by
  have e1 : (piConst : Double L).raw = .num piRat := by
    rcases is_cases (pi_is (L := L)) with ⟨h, _⟩ | ⟨_, h⟩
    · exact absurd h (by norm_num [piRat])
    · exact h
  have r : ∀ t : ℤ, radiansInt (Double L) t = match F64.toInt32 (F64.mul (F64.div (F64.ofInt t) (F64.ofInt 180)) (.num piRat)) with
      | some i => .ok i | none => .ub := by
    intro t
    rw [← e1]
    rfl
  have d : ∀ t : ℤ, degreesInt (Double L) t = match F64.toInt32 (F64.div (F64.mul (F64.ofInt t) (F64.ofInt 180)) (.num piRat)) with
      | some i => .ok i | none => .ub := by
    intro t
    rw [← e1]
    rfl
  refine ⟨?_, ?_, ?_⟩
  · rw [r]; decide +kernel
  · rw [d]; decide +kernel
  · intro t h0 h1
    rw [r]
    obtain ⟨n, rfl⟩ := Int.eq_ofNat_of_zero_le h0
    have : ∀ n : Fin 58, (match F64.toInt32 (F64.mul (F64.div (F64.ofInt (n.val : ℤ)) (F64.ofInt 180)) (.num piRat)) with
      | some i => Res.ok i | none => .ub) = .ok 0 := by decide +kernel
    exact this ⟨n, by omega⟩

end Tom
