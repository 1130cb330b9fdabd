import Verif.Props.Rounding
/-
Cases for C75 and C76: an accurate libm exists, the hypotheses are met, and the relative error is not bounded.
-/
namespace Tom
namespace Double

/-! ### An accurate libm -/

theorem exists_near (r : ℝ) : ∃ q : ℚ, |(q : ℝ) - r| < 1 / 2 ^ 1100 := by
  have hp : (0 : ℝ) < 1 / 2 ^ 1100 := by positivity
  obtain ⟨q, h1, h2⟩ := exists_rat_btwn (by linarith : r < r + 1 / 2 ^ 1100)
  exact ⟨q, by rw [abs_of_pos (by linarith)]; linarith⟩

open Classical in
/-- a rational number next to a real one -/
noncomputable def ratNear (r : ℝ) : ℚ := if h : ∃ q : ℚ, (q : ℝ) = r then h.choose else (exists_near r).choose

theorem ratNear_cast (q : ℚ) : ratNear (q : ℝ) = q := by
  have h : ∃ q' : ℚ, (q' : ℝ) = q := ⟨q, rfl⟩
  rw [ratNear, dif_pos h]
  exact_mod_cast h.choose_spec

theorem ratNear_spec (r : ℝ) : |(ratNear r : ℝ) - r| < 1 / 2 ^ 1100 := by
  unfold ratNear
  split
  · rename_i h
    rw [h.choose_spec, sub_self, abs_zero]
    positivity
  · exact (exists_near r).choose_spec

/-- the double for a real number, nan for none -/
noncomputable def fromReal : Option ℝ → B64
  | some r => ⟨F64.round false (ratNear r), F64.ok_round _ _⟩
  | none => ⟨.nan, trivial⟩

/-- the libm that rounds the exact function -/
noncomputable def accurate : Libm where
  sin x := fromReal (UnOp.sin.real x.1.toRat)
  cos x := fromReal (UnOp.cos.real x.1.toRat)
  tan x := fromReal (UnOp.tan.real x.1.toRat)
  asin x := fromReal (UnOp.asin.real x.1.toRat)
  acos x := fromReal (UnOp.acos.real x.1.toRat)
  atan x := fromReal (UnOp.atan.real x.1.toRat)
  sqrt x := fromReal (UnOp.sqrt.real x.1.toRat)
  log x := fromReal (UnOp.log.real x.1.toRat)
  log2 x := fromReal (UnOp.log2.real x.1.toRat)
  log10 x := fromReal (UnOp.log10.real x.1.toRat)
  exp x := fromReal (UnOp.exp.real x.1.toRat)
  pow x y := fromReal (realPow x.1.toRat y.1.toRat)

theorem fromReal_is {z : Double accurate} {r : ℝ} (hz : z = fromReal (some r)) (hr : |r| < 2 ^ 1023) :
    ∃ q : ℚ, z.Is q ∧ |(q : ℝ) - r| ≤ 1 / 2 ^ 53 * |r| + 1 / 2 ^ 1074 := by
  have h1 := ratNear_spec r
  have h1100 : (1 : ℝ) / 2 ^ 1100 ≤ 1 / 2 ^ 1076 := one_div_pow_le_one_div_pow_of_le (by norm_num) (by norm_num)
  have hsmall : (1 : ℝ) / 2 ^ 1100 ≤ 1 := by
    rw [div_le_one (by positivity)]
    exact one_le_pow₀ (by norm_num)
  have hle : |(ratNear r : ℝ)| ≤ |r| + 1 / 2 ^ 1100 := by
    have := abs_sub_abs_le_abs_sub (ratNear r : ℝ) r
    linarith
  have hb : |rnd (ratNear r)| < 2 ^ 1024 := by
    have hf : IsFloat (3 * 2 ^ 1022) := ⟨3, 1022, by norm_num, by norm_num, by push_cast; rw [← zpow_natCast]; rfl⟩
    have e : (3 : ℝ) * 2 ^ 1022 = 2 ^ 1023 + 2 ^ 1022 := by rw [pow_succ (2 : ℝ) 1022]; ring
    have h2 : |(ratNear r : ℝ)| ≤ 3 * 2 ^ 1022 := by
      have : (1 : ℝ) ≤ 2 ^ 1022 := one_le_pow₀ (by norm_num)
      rw [e]
      generalize (2 : ℝ) ^ 1023 = A at hr
      generalize (2 : ℝ) ^ 1022 = B at this
      generalize (1 : ℝ) / 2 ^ 1100 = C at hle hsmall
      linarith
    have h3 : |ratNear r| ≤ 3 * 2 ^ 1022 := by
      have : ((|ratNear r| : ℚ) : ℝ) ≤ ((3 * 2 ^ 1022 : ℚ) : ℝ) := by push_cast; exact h2
      exact_mod_cast this
    refine lt_of_le_of_lt (abs_rnd_le _ _ hf h3) ?_
    have e2 : (2 : ℚ) ^ 1024 = 4 * 2 ^ 1022 := by rw [pow_succ (2 : ℚ) 1023, pow_succ (2 : ℚ) 1022]; ring
    rw [e2]
    have : (0 : ℚ) < 2 ^ 1022 := by positivity
    generalize (2 : ℚ) ^ 1022 = B at this
    linarith
  refine ⟨_, is_round (by rw [hz]; rfl) hb, ?_⟩
  have h4 := cast_le (rnd_mixed (ratNear r))
  push_cast at h4
  have h5 : |((rnd (ratNear r) : ℚ) : ℝ) - r| ≤ |((rnd (ratNear r) : ℚ) : ℝ) - ratNear r| + |(ratNear r : ℝ) - r| := abs_sub_le _ _ _
  have h6 : (1 : ℝ) / 2 ^ 53 * |(ratNear r : ℝ)| ≤ 1 / 2 ^ 53 * |r| + 1 / 2 ^ 1100 := by
    have := mul_le_mul_of_nonneg_left hle (by positivity : (0 : ℝ) ≤ 1 / 2 ^ 53)
    have h53 : (1 : ℝ) / 2 ^ 53 ≤ 1 := by norm_num
    have := mul_le_mul_of_nonneg_right h53 (by positivity : (0 : ℝ) ≤ 1 / 2 ^ 1100)
    linarith
  have e1 : (1 : ℝ) / 2 ^ 1074 = 1 / 2 ^ 1075 + 1 / 2 ^ 1076 + 1 / 2 ^ 1076 := by
    rw [pow_succ (2 : ℝ) 1075, pow_succ (2 : ℝ) 1074]; field_simp; ring
  linarith

/-- There is a libm of the accuracy C76 asks for, with `δ = 2^-53`. -/
theorem accurate_within : accurate.Within (1 / 2 ^ 53) where
  nonneg := by positivity
  un o hpos hneg x p r hx hr hb := by
    refine fromReal_is ?_ hb
    have hv : ((x.1.toRat : ℚ) : ℝ) = p := by rw [← hx.2]; rfl
    rw [← hr, ← hv]
    cases o <;> first | exact absurd rfl hpos | exact absurd rfl hneg | rfl
  pow x y p s r hx hy hr hb := by
    refine fromReal_is ?_ hb
    have hv : ((x.1.toRat : ℚ) : ℝ) = p := by rw [← hx.2]; rfl
    have hw : ((y.1.toRat : ℚ) : ℝ) = s := by rw [← hy.2]; rfl
    rw [← hr, ← hv, ← hw]
    rfl

/-! ### Concrete cases -/

variable {L : Libm}

/-- the double `2^53` -/
def big : Double L := ⟨F64.ofInt (2 ^ 53), F64.ok_round _ _⟩

/-- the double 1 -/
def unit : Double L := ⟨F64.ofInt 1, F64.ok_round _ _⟩

/-- `2^53 + 1 - 2^53` -/
def cancel : Expr (Double L) := .bin .sub (.bin .add (.num big) (.num unit)) (.num big)

/-- C76: no relative accuracy can be promised: `2^53 + 1 - 2^53` is computed as 0, in every configuration. -/
theorem C76_relative_false (cfg : Config (Double L)) : polyVal (fun _ => 0) (cancel : Expr (Double L)) = 1 ∧
    ∃ x : Double L, vpa cfg (embed cancel) = .ok x ∧ x.Is 0 := by
  have hb : (F64.ofInt (2 ^ 53)) = .num (2 ^ 53) := by decide +kernel
  have h1 : (F64.ofInt 1) = .num 1 := by decide +kernel
  have hbig : (big : Double L).Is (2 ^ 53) := is_num hb
  have hone : (unit : Double L).Is 1 := is_num h1
  have r1 : rnd (2 ^ 53 + 1 : ℚ) = 2 ^ 53 := by decide +kernel
  constructor
  · simp only [polyVal, cancel]
    rw [hbig.2, hone.2]; norm_num
  · have s1 := add_is hbig hone (by rw [r1, abs_of_pos (by norm_num)]; exact pow_lt_pow_right₀ (by norm_num) (by norm_num))
    rw [r1] at s1
    have s2 := sub_is s1 hbig (by rw [sub_self, rnd_zero, abs_zero]; positivity)
    rw [sub_self, rnd_zero] at s2
    refine ⟨_, ?_, s2⟩
    rw [C12_vpa]
    simp only [cancel, Expr.eval, Res.bind_ok, BinOp.apply, checked_is s1, checked_is s2]

/-- the same expression is within the bound of C76: two operations, absolute values `2^54 + 1` -/
example : (cancel : Expr (Double L)).Polynomial ∧ (cancel : Expr (Double L)).ops = 2 ∧
    absVal (fun _ => 0) (cancel : Expr (Double L)) = 2 ^ 54 + 1 := by
  have hb : (F64.ofInt (2 ^ 53)) = .num (2 ^ 53) := by decide +kernel
  have h1 : (F64.ofInt 1) = .num 1 := by decide +kernel
  have hbig : (big : Double L).Is (2 ^ 53) := is_num hb
  have hone : (unit : Double L).Is 1 := is_num h1
  refine ⟨by simp [cancel, Expr.Polynomial], rfl, ?_⟩
  simp only [absVal, cancel]
  rw [hbig.2, hone.2]; norm_num

/-- `(1 + x) * x - 1` is exact for the integer 5 -/
example : intVal (fun _ => 5) (.bin .sub (.bin .mul (.bin .add (.num unit) (.var ['x'])) (.var ['x'])) (.num unit) : Expr (Double L)) =
    some 29 := by
  have h1 : (F64.ofInt 1) = .num 1 := by decide +kernel
  have hone : (unit : Double L).Is 1 := is_num h1
  have e : intVal (fun _ => 5) (.num unit : Expr (Double L)) = some 1 := by
    simp only [intVal]
    rw [hone.2]
    rw [if_neg (by have := hone.1; intro h; exact absurd (this.symm.trans h) (by decide))]
    simp
  simp only [intVal] at e ⊢
  simp only [e, Option.bind_some]
  decide

/-- a case of C76 with a function: `sin(x) + 1` at a double of absolute value at most 1 is computed within `2^-51` -/
example (x : Double accurate) (p : ℚ) (hx : x.Is p) :
    ∃ y q, (Expr.bin .add (.un .sin (.var ['x'])) (.num unit) : Expr (Double accurate)).eval true (fun _ => .ok x) = .ok y ∧ y.Is q ∧
      |(q : ℝ) - (Real.sin p + 1)| ≤ 1 / 2 ^ 50 := by
  have h1 : (F64.ofInt 1) = .num 1 := by decide +kernel
  have hone : (unit : Double accurate).Is 1 := is_num h1
  have hbig : (2 : ℝ) ^ 10 ≤ 2 ^ 1023 := pow_le_pow_right₀ (by norm_num) (by norm_num)
  have hs : |Real.sin p| ≤ 1 := Real.abs_sin_le_one _
  have htiny : (1 : ℝ) / 2 ^ 1074 ≤ 1 / 2 ^ 53 := one_div_pow_le_one_div_pow_of_le (by norm_num) (by norm_num)
  have htp : (0 : ℝ) < 1 / 2 ^ 1074 := by positivity
  set E1 : ℝ := 0 + UnOp.roundoff (1 / 2 ^ 53) .sin (Real.sin p) 0 with hE1
  have hE1' : 0 ≤ E1 ∧ E1 ≤ 1 / 2 ^ 52 := by
    rw [hE1]
    simp only [UnOp.roundoff]
    have h53 : (0 : ℝ) < 1 / 2 ^ 53 := by norm_num
    have e52 : (1 : ℝ) / 2 ^ 52 = 1 / 2 ^ 53 + 1 / 2 ^ 53 := by norm_num
    constructor
    · have := abs_nonneg (Real.sin p); positivity
    · have := mul_le_mul_of_nonneg_left hs (le_of_lt h53)
      rw [e52]; linarith
  have hsum : |Real.sin p + 1| ≤ 2 := le_trans (abs_add_le _ _) (by rw [abs_one]; linarith)
  have enc1 : enclosure (1 / 2 ^ 53) (fun _ => (p : ℝ)) (.un .sin (.var ['x']) : Expr (Double accurate)) = some (Real.sin p, E1) := by
    simp only [enclosure, Option.bind_some, UnOp.real, UnOp.spread]
    rw [if_pos (lt_of_lt_of_le (by linarith [(by norm_num : (1 : ℝ) < 2 ^ 10)]) hbig)]
  have enc2 : enclosure (1 / 2 ^ 53) (fun _ => (p : ℝ)) (.num unit : Expr (Double accurate)) = some (1, 0) := by
    simp only [enclosure]
    rw [if_neg (by have := hone.1; intro h; exact absurd (this.symm.trans h) (by decide)), hone.2]
    norm_num
  have enc : enclosure (1 / 2 ^ 53) (fun _ => (p : ℝ)) (.bin .add (.un .sin (.var ['x'])) (.num unit) : Expr (Double accurate)) =
      some (Real.sin p + 1, (E1 + 0) + BinOp.roundoff (1 / 2 ^ 53) .add (Real.sin p + 1) (E1 + 0)) := by
    rw [enclosure, enc1, enc2]
    simp only [Option.bind_some, BinOp.real, BinOp.spread]
    rw [if_pos (lt_of_lt_of_le (by linarith [(by norm_num : (4 : ℝ) < 2 ^ 10), hE1'.2, (by norm_num : (1 : ℝ) / 2 ^ 52 < 1)]) hbig)]
  obtain ⟨y, q, g1, g2, g3⟩ := C76_enclosure _ accurate_within true (fun _ => .ok x) _ _ (fun s _ => ⟨x, p, rfl, hx, rfl⟩) _ _ enc
  refine ⟨y, q, g1, g2, le_trans g3 ?_⟩
  have hro : BinOp.roundoff (1 / 2 ^ 53) .add (Real.sin p + 1) (E1 + 0) ≤ 1 / 2 ^ 53 * (2 + 1 / 2 ^ 52) := by
    simp only [BinOp.roundoff]
    split
    · positivity
    · exact mul_le_mul_of_nonneg_left (by linarith [hE1'.2]) (by positivity)
  have : (1 : ℝ) / 2 ^ 52 + 1 / 2 ^ 53 * (2 + 1 / 2 ^ 52) ≤ 1 / 2 ^ 50 := by norm_num
  linarith [hE1'.2]

end Double
end Tom
