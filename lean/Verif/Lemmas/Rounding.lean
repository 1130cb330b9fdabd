import Verif.Spec.Rounding
import Verif.Lemmas.Double
import Mathlib.Analysis.Calculus.MeanValue
import Mathlib.Analysis.SpecialFunctions.Trigonometric.ArctanDeriv
import Mathlib.Analysis.SpecialFunctions.Trigonometric.Deriv
import Mathlib.Analysis.SpecialFunctions.Trigonometric.InverseDeriv
/-
The bounds of Spec/Rounding are right.
-/
namespace Tom

theorem abs_sin_sub_le (x v : ℝ) : |Real.sin x - Real.sin v| ≤ |x - v| := by
  have := Convex.norm_image_sub_le_of_norm_deriv_le (𝕜 := ℝ) (f := Real.sin) (C := 1) (s := Set.univ) (x := v) (y := x)
    (fun _ _ => Real.differentiable_sin _) (fun t _ => by rw [Real.deriv_sin]; exact Real.abs_cos_le_one t) convex_univ trivial trivial
  simpa using this

theorem abs_cos_sub_le (x v : ℝ) : |Real.cos x - Real.cos v| ≤ |x - v| := by
  have := Convex.norm_image_sub_le_of_norm_deriv_le (𝕜 := ℝ) (f := Real.cos) (C := 1) (s := Set.univ) (x := v) (y := x)
    (fun _ _ => Real.differentiable_cos _) (fun t _ => by
      rw [Real.deriv_cos, norm_neg]; exact Real.abs_sin_le_one t) convex_univ trivial trivial
  simpa using this

theorem abs_arctan_sub_le (x v : ℝ) : |Real.arctan x - Real.arctan v| ≤ |x - v| := by
  have := Convex.norm_image_sub_le_of_norm_deriv_le (𝕜 := ℝ) (f := Real.arctan) (C := 1) (s := Set.univ) (x := v) (y := x)
    (fun _ _ => Real.differentiable_arctan _) (fun t _ => by
      rw [(Real.hasDerivAt_arctan t).deriv, Real.norm_eq_abs, abs_of_pos (by positivity), div_le_one (by positivity)]
      nlinarith) convex_univ trivial trivial
  simpa using this

theorem abs_exp_sub_le {x v E : ℝ} (h : |x - v| ≤ E) : |Real.exp x - Real.exp v| ≤ Real.exp v * (Real.exp E - 1) := by
  obtain ⟨h1, h2⟩ := abs_le.mp h
  have e : Real.exp x - Real.exp v = Real.exp v * (Real.exp (x - v) - 1) := by
    rw [mul_sub, ← Real.exp_add]; ring_nf
  rw [e, abs_mul, abs_of_pos (Real.exp_pos v)]
  refine mul_le_mul_of_nonneg_left ?_ (le_of_lt (Real.exp_pos v))
  rw [abs_le]
  have h3 : Real.exp (x - v) ≤ Real.exp E := Real.exp_le_exp.mpr h2
  have h4 : Real.exp (-E) ≤ Real.exp (x - v) := Real.exp_le_exp.mpr h1
  have h5 : 2 ≤ Real.exp E + Real.exp (-E) := by
    rw [Real.exp_neg]
    have hp := Real.exp_pos E
    have : 0 ≤ (Real.exp E - 1) ^ 2 / Real.exp E := by positivity
    have e2 : (Real.exp E - 1) ^ 2 / Real.exp E = Real.exp E + (Real.exp E)⁻¹ - 2 := by field_simp; ring
    linarith
  constructor <;> linarith

theorem abs_log_sub_le {x v E : ℝ} (h : |x - v| ≤ E) (hE : E < v) : 0 < x ∧ |Real.log x - Real.log v| ≤ E / (v - E) := by
  obtain ⟨h1, h2⟩ := abs_le.mp h
  have hE0 : 0 ≤ E := le_trans (abs_nonneg _) h
  have hx : 0 < x := by linarith
  have hv : 0 < v := by linarith
  have hd : 0 < v - E := by linarith
  refine ⟨hx, ?_⟩
  have key : ∀ a b : ℝ, 0 < a → 0 < b → v - E ≤ b → a - b ≤ E → Real.log a - Real.log b ≤ E / (v - E) := by
    intro a b ha hb hb2 hab
    rw [← Real.log_div (ne_of_gt ha) (ne_of_gt hb)]
    have := Real.log_le_sub_one_of_pos (div_pos ha hb)
    refine le_trans this ?_
    have e : a / b - 1 = (a - b) / b := by field_simp
    rw [e]
    refine le_trans (div_le_div_of_nonneg_right hab (le_of_lt hb)) ?_
    exact div_le_div_of_nonneg_left hE0 hd hb2
  rw [abs_le]
  have k1 := key x v hx hv (by linarith) h2
  have k2 := key v x hv hx (by linarith) (by linarith)
  constructor <;> linarith

theorem abs_sqrt_sub_le {x v E : ℝ} (h : |x - v| ≤ E) (hE : E < v) : 0 < x ∧ |Real.sqrt x - Real.sqrt v| ≤ E / Real.sqrt v := by
  obtain ⟨h1, h2⟩ := abs_le.mp h
  have hE0 : 0 ≤ E := le_trans (abs_nonneg _) h
  have hx : 0 < x := by linarith
  have hv : 0 < v := by linarith
  refine ⟨hx, ?_⟩
  have hsx := Real.sqrt_pos.mpr hx
  have hsv := Real.sqrt_pos.mpr hv
  rw [le_div_iff₀ hsv]
  have e : x - v = (Real.sqrt x - Real.sqrt v) * (Real.sqrt x + Real.sqrt v) := by
    have h3 := Real.mul_self_sqrt (le_of_lt hx)
    have h4 := Real.mul_self_sqrt (le_of_lt hv)
    nlinarith
  rw [e, abs_mul, abs_of_pos (by linarith : 0 < Real.sqrt x + Real.sqrt v)] at h
  have := abs_nonneg (Real.sqrt x - Real.sqrt v)
  nlinarith

theorem abs_pow_sub_le {x v E : ℝ} (h : |x - v| ≤ E) (n : ℕ) : |x ^ n - v ^ n| ≤ (|v| + E) ^ n - |v| ^ n := by
  have hE0 : 0 ≤ E := le_trans (abs_nonneg _) h
  have hx : |x| ≤ |v| + E := by
    have := abs_sub_abs_le_abs_sub x v
    linarith
  induction n with
  | zero => simp
  | succ n ih =>
    have e : x ^ (n + 1) - v ^ (n + 1) = (x ^ n - v ^ n) * x + v ^ n * (x - v) := by ring
    rw [e]
    refine le_trans (abs_add_le _ _) ?_
    rw [abs_mul, abs_mul, abs_pow]
    have h1 : |x ^ n - v ^ n| * |x| ≤ ((|v| + E) ^ n - |v| ^ n) * (|v| + E) :=
      mul_le_mul ih hx (abs_nonneg _) (le_trans (abs_nonneg _) ih)
    have h2 : |v| ^ n * |x - v| ≤ |v| ^ n * E := mul_le_mul_of_nonneg_left h (by positivity)
    have e2 : (|v| + E) ^ (n + 1) - |v| ^ (n + 1) = ((|v| + E) ^ n - |v| ^ n) * (|v| + E) + |v| ^ n * E := by ring
    linarith

theorem abs_tan_sub_le {x v E : ℝ} (h : |x - v| ≤ E) (hE : E < |Real.cos v|) :
    Real.cos x ≠ 0 ∧ |Real.tan x - Real.tan v| ≤ E / (|Real.cos v| * (|Real.cos v| - E)) := by
  have hE0 : 0 ≤ E := le_trans (abs_nonneg _) h
  have h1 : |Real.cos v| - E ≤ |Real.cos x| := by
    have h2 := abs_cos_sub_le x v
    have h3 := abs_sub_abs_le_abs_sub (Real.cos v) (Real.cos x)
    rw [abs_sub_comm] at h3
    linarith
  have hx : 0 < |Real.cos x| := by linarith
  have hv : 0 < |Real.cos v| := by linarith
  have hx0 : Real.cos x ≠ 0 := abs_pos.mp hx
  have hv0 : Real.cos v ≠ 0 := abs_pos.mp hv
  refine ⟨hx0, ?_⟩
  have e : Real.tan x - Real.tan v = Real.sin (x - v) / (Real.cos v * Real.cos x) := by
    rw [Real.tan_eq_sin_div_cos, Real.tan_eq_sin_div_cos, Real.sin_sub]
    field_simp
  rw [e, abs_div, abs_mul]
  have hs : |Real.sin (x - v)| ≤ E := le_trans (by simpa using abs_sin_sub_le (x - v) 0) h
  refine le_trans (div_le_div_of_nonneg_right hs (by positivity)) ?_
  refine div_le_div_of_nonneg_left hE0 (mul_pos hv (by linarith)) ?_
  exact mul_le_mul_of_nonneg_left h1 (le_of_lt hv)

theorem abs_arcsin_sub_le {x v E : ℝ} (h : |x - v| ≤ E) (hE : |v| + E < 1) :
    -1 ≤ x ∧ x ≤ 1 ∧ |Real.arcsin x - Real.arcsin v| ≤ E / Real.sqrt (1 - (|v| + E) ^ 2) := by
  have hE0 : 0 ≤ E := le_trans (abs_nonneg _) h
  have hx : |x| ≤ |v| + E := by
    have := abs_sub_abs_le_abs_sub x v
    linarith
  have hb : 0 ≤ |v| + E := by positivity
  have hpos : 0 < 1 - (|v| + E) ^ 2 := by nlinarith
  obtain ⟨x1, x2⟩ := abs_le.mp hx
  refine ⟨by linarith, by linarith, ?_⟩
  have hd : ∀ t ∈ Set.Icc (-(|v| + E)) (|v| + E), t ≠ -1 ∧ t ≠ 1 := by
    intro t ht
    constructor
    · intro hc; rw [hc] at ht; linarith [ht.1]
    · intro hc; rw [hc] at ht; linarith [ht.2]
  have := Convex.norm_image_sub_le_of_norm_deriv_le (𝕜 := ℝ) (f := Real.arcsin) (C := 1 / Real.sqrt (1 - (|v| + E) ^ 2))
    (s := Set.Icc (-(|v| + E)) (|v| + E)) (x := v) (y := x)
    (fun t ht => (Real.hasDerivAt_arcsin (hd t ht).1 (hd t ht).2).differentiableAt)
    (fun t ht => by
      rw [(Real.hasDerivAt_arcsin (hd t ht).1 (hd t ht).2).deriv, Real.norm_eq_abs, abs_of_nonneg (by positivity)]
      refine div_le_div_of_nonneg_left (by norm_num) (Real.sqrt_pos.mpr hpos) (Real.sqrt_le_sqrt ?_)
      have := sq_le_sq' ht.1 ht.2
      linarith)
    (convex_Icc _ _) (by
      have := abs_le.mp (le_of_eq (rfl : |v| = |v|))
      exact ⟨by linarith [this.1], by linarith [this.2]⟩) (abs_le.mp hx)
  rw [Real.norm_eq_abs, Real.norm_eq_abs] at this
  refine le_trans this ?_
  rw [one_div, inv_mul_eq_div]
  exact div_le_div_of_nonneg_right h (Real.sqrt_nonneg _)

theorem abs_rpow_sub_le {x v E y w F : ℝ} (hx : |x - v| ≤ E) (hy : |y - w| ≤ F) (hE : E < v) :
    0 < x ∧ |x ^ y - v ^ w| ≤ v ^ w * (Real.exp ((|w| + F) * (E / (v - E)) + F * |Real.log v|) - 1) := by
  have hE0 : 0 ≤ E := le_trans (abs_nonneg _) hx
  have hF0 : 0 ≤ F := le_trans (abs_nonneg _) hy
  have hv : 0 < v := by linarith
  obtain ⟨hx0, hl⟩ := abs_log_sub_le hx hE
  refine ⟨hx0, ?_⟩
  rw [Real.rpow_def_of_pos hx0, Real.rpow_def_of_pos hv]
  refine abs_exp_sub_le ?_
  have hy2 : |y| ≤ |w| + F := by
    have := abs_sub_abs_le_abs_sub y w
    linarith
  rw [show Real.log x * y - Real.log v * w = y * (Real.log x - Real.log v) + (y - w) * Real.log v by ring]
  refine le_trans (abs_add_le _ _) (add_le_add ?_ ?_)
  · rw [abs_mul]; exact mul_le_mul hy2 hl (abs_nonneg _) (by positivity)
  · rw [abs_mul]; exact mul_le_mul_of_nonneg_right hy (abs_nonneg _)

/-- the bound for unary functions is right -/
theorem un_spread {o : UnOp} {v E r D x : ℝ} (hr : o.real v = some r) (hD : o.spread v E = some D) (hx : |x - v| ≤ E) :
    ∃ r', o.real x = some r' ∧ |r' - r| ≤ D := by
  have zero : E = 0 → x = v := by
    rintro rfl
    have := abs_nonneg (x - v)
    have h0 : |x - v| = 0 := le_antisymm hx this
    exact sub_eq_zero.mp (abs_eq_zero.mp h0)
  have ofZero : (if E = 0 then some (0 : ℝ) else none) = some D → ∃ r', o.real x = some r' ∧ |r' - r| ≤ D := by
    intro h
    split at h
    · rename_i h0
      rw [zero h0]
      exact ⟨r, hr, by simpa using le_of_eq (Option.some.inj h)⟩
    · cases h
  cases o with
  | pos => simp only [UnOp.real, UnOp.spread, Option.some.injEq] at *; exact ⟨_, rfl, by rw [← hr, ← hD]; exact hx⟩
  | neg =>
    simp only [UnOp.real, UnOp.spread, Option.some.injEq] at *
    refine ⟨_, rfl, ?_⟩
    rw [← hr, ← hD, show -x - -v = -(x - v) by ring, abs_neg]; exact hx
  | sin => simp only [UnOp.real, UnOp.spread, Option.some.injEq] at *; exact ⟨_, rfl, by rw [← hr, ← hD]; exact le_trans (abs_sin_sub_le x v) hx⟩
  | cos => simp only [UnOp.real, UnOp.spread, Option.some.injEq] at *; exact ⟨_, rfl, by rw [← hr, ← hD]; exact le_trans (abs_cos_sub_le x v) hx⟩
  | atan => simp only [UnOp.real, UnOp.spread, Option.some.injEq] at *; exact ⟨_, rfl, by rw [← hr, ← hD]; exact le_trans (abs_arctan_sub_le x v) hx⟩
  | exp => simp only [UnOp.real, UnOp.spread, Option.some.injEq] at *; exact ⟨_, rfl, by rw [← hr, ← hD]; exact abs_exp_sub_le hx⟩
  | tan =>
    simp only [UnOp.spread] at hD
    by_cases h0 : E = 0
    · exact ofZero (by rw [if_pos h0] at hD ⊢; exact hD)
    · rw [if_neg h0] at hD
      split at hD
      · rename_i hlt
        obtain ⟨h1, h2⟩ := abs_tan_sub_le hx hlt
        simp only [UnOp.real] at hr ⊢
        split at hr
        · cases hr
        · refine ⟨_, if_neg h1, ?_⟩
          rw [← Option.some.inj hr, ← Option.some.inj hD]; exact h2
      · cases hD
  | asin =>
    simp only [UnOp.spread] at hD
    by_cases h0 : E = 0
    · exact ofZero (by rw [if_pos h0] at hD ⊢; exact hD)
    · rw [if_neg h0] at hD
      split at hD
      · rename_i hlt
        obtain ⟨h1, h1', h2⟩ := abs_arcsin_sub_le hx hlt
        simp only [UnOp.real] at hr ⊢
        split at hr
        · refine ⟨_, if_pos ⟨h1, h1'⟩, ?_⟩
          rw [← Option.some.inj hr, ← Option.some.inj hD]; exact h2
        · cases hr
      · cases hD
  | acos =>
    simp only [UnOp.spread] at hD
    by_cases h0 : E = 0
    · exact ofZero (by rw [if_pos h0] at hD ⊢; exact hD)
    · rw [if_neg h0] at hD
      split at hD
      · rename_i hlt
        obtain ⟨h1, h1', h2⟩ := abs_arcsin_sub_le hx hlt
        simp only [UnOp.real] at hr ⊢
        split at hr
        · refine ⟨_, if_pos ⟨h1, h1'⟩, ?_⟩
          rw [← Option.some.inj hr, ← Option.some.inj hD, Real.arccos, Real.arccos,
            show Real.pi / 2 - Real.arcsin x - (Real.pi / 2 - Real.arcsin v) = -(Real.arcsin x - Real.arcsin v) by ring, abs_neg]
          exact h2
        · cases hr
      · cases hD
  | sqrt =>
    simp only [UnOp.spread] at hD
    by_cases h0 : E = 0
    · rw [if_pos h0] at hD
      rw [zero h0]
      exact ⟨r, hr, by simpa using le_of_eq (Option.some.inj hD)⟩
    · rw [if_neg h0] at hD
      split at hD
      · rename_i hlt
        obtain ⟨h1, h2⟩ := abs_sqrt_sub_le hx hlt
        simp only [UnOp.real] at hr ⊢
        split at hr
        · refine ⟨_, if_pos (le_of_lt h1), ?_⟩
          rw [← Option.some.inj hr, ← Option.some.inj hD]; exact h2
        · cases hr
      · cases hD
  | log =>
    simp only [UnOp.spread] at hD
    split at hD
    · rename_i hlt
      obtain ⟨h1, h2⟩ := abs_log_sub_le hx hlt
      simp only [UnOp.real] at hr ⊢
      split at hr
      · refine ⟨_, if_pos h1, ?_⟩
        rw [← Option.some.inj hr, ← Option.some.inj hD]; exact h2
      · cases hr
    · cases hD
  | log2 =>
    simp only [UnOp.spread] at hD
    split at hD
    · rename_i hlt
      obtain ⟨h1, h2⟩ := abs_log_sub_le hx hlt
      simp only [UnOp.real] at hr ⊢
      split at hr
      · refine ⟨_, if_pos h1, ?_⟩
        have hl : 0 < Real.log 2 := Real.log_pos (by norm_num)
        rw [← Option.some.inj hr, ← Option.some.inj hD, Real.logb, Real.logb, ← sub_div, abs_div, abs_of_pos hl]
        exact div_le_div_of_nonneg_right h2 (le_of_lt hl)
      · cases hr
    · cases hD
  | log10 =>
    simp only [UnOp.spread] at hD
    split at hD
    · rename_i hlt
      obtain ⟨h1, h2⟩ := abs_log_sub_le hx hlt
      simp only [UnOp.real] at hr ⊢
      split at hr
      · refine ⟨_, if_pos h1, ?_⟩
        have hl : 0 < Real.log 10 := Real.log_pos (by norm_num)
        rw [← Option.some.inj hr, ← Option.some.inj hD, Real.logb, Real.logb, ← sub_div, abs_div, abs_of_pos hl]
        exact div_le_div_of_nonneg_right h2 (le_of_lt hl)
      · cases hr
    · cases hD

theorem realPow_nat (x : ℝ) (n : ℕ) : realPow x n = some (x ^ n) := by
  unfold realPow
  rw [if_pos]
  · rw [Real.rpow_natCast]
  · rcases lt_trichotomy x 0 with h | h | h
    · exact .inr (.inr ⟨h, n, by simp⟩)
    · exact .inr (.inl ⟨h, by positivity⟩)
    · exact .inl h

/-- the bound for binary operations is right -/
theorem bin_spread {o : BinOp} {v E w F r D x y : ℝ} (hr : o.real v w = some r) (hD : o.spread v E w F = some D) (hx : |x - v| ≤ E)
    (hy : |y - w| ≤ F) : ∃ r', o.real x y = some r' ∧ |r' - r| ≤ D := by
  have hE0 : 0 ≤ E := le_trans (abs_nonneg _) hx
  have hF0 : 0 ≤ F := le_trans (abs_nonneg _) hy
  have zero : ∀ {x v E : ℝ}, |x - v| ≤ E → E = 0 → x = v := by
    rintro x v E h rfl
    exact sub_eq_zero.mp (abs_eq_zero.mp (le_antisymm h (abs_nonneg _)))
  have ofZero : E = 0 ∧ F = 0 → some (0 : ℝ) = some D → ∃ r', o.real x y = some r' ∧ |r' - r| ≤ D := by
    rintro ⟨h1, h2⟩ h
    rw [zero hx h1, zero hy h2]
    exact ⟨r, hr, by simpa using le_of_eq (Option.some.inj h)⟩
  cases o with
  | add =>
    simp only [BinOp.real, BinOp.spread, Option.some.injEq] at *
    refine ⟨_, rfl, ?_⟩
    rw [← hr, ← hD, show x + y - (v + w) = (x - v) + (y - w) by ring]
    exact le_trans (abs_add_le _ _) (add_le_add hx hy)
  | sub =>
    simp only [BinOp.real, BinOp.spread, Option.some.injEq] at *
    refine ⟨_, rfl, ?_⟩
    rw [← hr, ← hD, show x - y - (v - w) = (x - v) - (y - w) by ring]
    exact le_trans (abs_sub _ _) (add_le_add hx hy)
  | mul =>
    simp only [BinOp.real, BinOp.spread, Option.some.injEq] at *
    refine ⟨_, rfl, ?_⟩
    rw [← hr, ← hD, show x * y - v * w = v * (y - w) + w * (x - v) + (x - v) * (y - w) by ring]
    refine le_trans (abs_add_le _ _) (add_le_add (le_trans (abs_add_le _ _) (add_le_add ?_ ?_)) ?_)
    · rw [abs_mul]; exact mul_le_mul_of_nonneg_left hy (abs_nonneg _)
    · rw [abs_mul]; exact mul_le_mul_of_nonneg_left hx (abs_nonneg _)
    · rw [abs_mul]; exact mul_le_mul hx hy (abs_nonneg _) hE0
  | div =>
    simp only [BinOp.spread] at hD
    split at hD
    · rename_i hlt
      have hy2 : |w| - F ≤ |y| := by
        have := abs_sub_abs_le_abs_sub w y
        rw [abs_sub_comm] at this
        linarith
      have hyp : 0 < |y| := by linarith
      have hy0 : y ≠ 0 := abs_pos.mp hyp
      simp only [BinOp.real] at hr ⊢
      split at hr
      · cases hr
      · rename_i hw0
        refine ⟨_, if_neg hy0, ?_⟩
        rw [← Option.some.inj hr, ← Option.some.inj hD]
        have e : x / y - v / w = ((x - v) - v / w * (y - w)) / y := by field_simp; ring
        rw [e, abs_div]
        refine le_trans (div_le_div_of_nonneg_right ?_ (le_of_lt hyp)) (div_le_div_of_nonneg_left ?_ (by linarith) hy2)
        · refine le_trans (abs_sub _ _) (add_le_add hx ?_)
          rw [abs_mul]; exact mul_le_mul_of_nonneg_left hy (abs_nonneg _)
        · positivity
    · cases hD
  | pow =>
    simp only [BinOp.spread] at hD
    split at hD
    · rename_i h0; exact ofZero h0 hD
    · split at hD
      · rename_i h0
        obtain ⟨hF, n, rfl⟩ := h0
        rw [zero hy hF]
        rw [Nat.floor_natCast] at hD
        simp only [BinOp.real, realPow_nat] at hr ⊢
        refine ⟨_, rfl, ?_⟩
        rw [← Option.some.inj hr, ← Option.some.inj hD]
        exact abs_pow_sub_le hx n
      · split at hD
        · rename_i h0
          obtain ⟨hlt, hdom⟩ := h0
          rcases hdom with hpos | ⟨hF, n, rfl⟩
          · rw [abs_of_pos hpos] at hlt hD
            obtain ⟨h1, h2⟩ := abs_rpow_sub_le hx hy hlt
            simp only [BinOp.real, realPow] at hr ⊢
            rw [if_pos (.inl hpos)] at hr
            refine ⟨_, if_pos (.inl h1), ?_⟩
            rw [← Option.some.inj hr, ← Option.some.inj hD]; exact h2
          · rw [zero hy hF]
            have hv0 : v ≠ 0 := abs_pos.mp (lt_of_le_of_lt hE0 hlt)
            have hxabs : |(|x|) - (|v|)| ≤ E := le_trans (abs_abs_sub_abs_le_abs_sub x v) hx
            obtain ⟨h1, h2⟩ := abs_rpow_sub_le (y := (n : ℝ)) (w := (n : ℝ)) hxabs (by simpa using hF0) hlt
            have hx0 : x ≠ 0 := abs_pos.mp h1
            have hreal : ∀ z : ℝ, z ≠ 0 → realPow z n = some (z ^ n) := by
              intro z hz
              unfold realPow
              rw [if_pos, Real.rpow_intCast]
              rcases lt_or_gt_of_ne hz with h | h
              · exact .inr (.inr ⟨h, n, rfl⟩)
              · exact .inl h
            simp only [BinOp.real, hreal _ hv0, hreal _ hx0] at hr ⊢
            refine ⟨_, rfl, ?_⟩
            rw [← Option.some.inj hr, ← Option.some.inj hD]
            have hsame : |x ^ n - v ^ n| = |(|x|) ^ n - (|v|) ^ n| := by
              have hs : (0 < x ∧ 0 < v) ∨ (x < 0 ∧ v < 0) := by
                obtain ⟨a1, a2⟩ := abs_le.mp hx
                rcases lt_or_gt_of_ne hv0 with h | h
                · rw [abs_of_neg h] at hlt; exact .inr ⟨by linarith, h⟩
                · rw [abs_of_pos h] at hlt; exact .inl ⟨by linarith, h⟩
              rcases hs with ⟨a, b⟩ | ⟨a, b⟩
              · rw [abs_of_pos a, abs_of_pos b]
              · rw [abs_of_neg a, abs_of_neg b, neg_eq_neg_one_mul x, neg_eq_neg_one_mul v, mul_zpow, mul_zpow, ← mul_sub, abs_mul]
                have : |(-1 : ℝ) ^ n| = 1 := by rw [abs_zpow]; simp
                rw [this, one_mul]
            rw [hsame]
            rw [Real.rpow_intCast, Real.rpow_intCast] at h2
            rw [Real.rpow_intCast]
            exact h2
        · cases hD
  | and =>
    simp only [BinOp.spread] at hD
    split at hD
    · rename_i h0; exact ofZero h0 hD
    · cases hD
  | or =>
    simp only [BinOp.spread] at hD
    split at hD
    · rename_i h0; exact ofZero h0 hD
    · cases hD
  | mod =>
    simp only [BinOp.spread] at hD
    split at hD
    · rename_i h0; exact ofZero h0 hD
    · cases hD

end Tom
