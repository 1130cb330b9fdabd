import Verif.Lemmas.Rounding
import Verif.Props.Tree
/-
Properties C75, C76: Vpa with IEEE doubles, exactness and rounding errors.
-/
namespace Tom
namespace Double
variable {L : Libm}

theorem floor_rat (q : ℚ) : ⌊q⌋ = q.num / q.den := Rat.floor_def q

theorem tdiv_trunc (q : ℚ) : q.num.tdiv q.den = if 0 ≤ (q : ℝ) then ⌊(q : ℝ)⌋ else ⌈(q : ℝ)⌉ := by
  by_cases h : 0 ≤ q
  · rw [if_pos (by exact_mod_cast h), Rat.floor_cast, floor_rat, Int.tdiv_eq_ediv_of_nonneg (Rat.num_nonneg.mpr h)]
  · rw [if_neg (by exact_mod_cast h), Rat.ceil_cast]
    have h' : 0 ≤ -q := by linarith [not_le.mp h]
    have e1 : ⌈q⌉ = -⌊-q⌋ := by rw [Int.floor_neg, neg_neg]
    rw [e1, floor_rat, Rat.num_neg_eq_neg_num, Rat.den_neg_eq_den]
    have h2 : 0 ≤ -q.num := by have := Rat.num_nonneg.mpr h'; rwa [Rat.num_neg_eq_neg_num] at this
    rw [← Int.tdiv_eq_ediv_of_nonneg h2, Int.neg_tdiv, neg_neg]

theorem toInt32_is {x : Double L} {p : ℚ} (h : x.Is p) : Dbl.toInt32 x = realTrunc (p : ℝ) := by
  show F64.toInt32 x.raw = _
  rcases is_cases h with ⟨h0, s, hs⟩ | ⟨_, hs⟩
  · rw [hs, h0]
    simp [F64.toInt32, realTrunc]
  · rw [hs]
    show (if _ then _ else _) = _
    simp only [realTrunc, ← tdiv_trunc]

theorem cAnd_range (a b : ℤ) : -2147483648 ≤ cAnd a b ∧ cAnd a b ≤ 2147483647 := by
  unfold cAnd
  generalize BitVec.ofInt 32 a &&& BitVec.ofInt 32 b = z
  have h1 := BitVec.le_toInt z
  have h2 := BitVec.toInt_lt (x := z)
  norm_num at h1 h2
  omega

theorem cOr_range (a b : ℤ) : -2147483648 ≤ cOr a b ∧ cOr a b ≤ 2147483647 := by
  unfold cOr
  generalize BitVec.ofInt 32 a ||| BitVec.ofInt 32 b = z
  have h1 := BitVec.le_toInt z
  have h2 := BitVec.toInt_lt (x := z)
  norm_num at h1 h2
  omega

theorem realTrunc_range {u : ℝ} {i : ℤ} (h : realTrunc u = some i) : -2147483648 ≤ i ∧ i ≤ 2147483647 := by
  unfold realTrunc at h
  simp only at h
  generalize (if 0 ≤ u then ⌊u⌋ else ⌈u⌉) = j at h
  split at h
  · rename_i h'; rw [← Option.some.inj h]; exact h'
  · cases h

theorem isInt {i : ℤ} (h : -2147483648 ≤ i ∧ i ≤ 2147483647) : (Dbl.ofInt i : Double L).Is i :=
  is_ofInt (by rw [abs_le]; constructor <;> linarith [h.1, h.2])

theorem rnd_bound {r : ℚ} (h : |(r : ℝ)| < 2 ^ 1023) : |rnd r| < 2 ^ 1024 := by
  have h' : |r| ≤ 2 ^ 1023 := by
    have : ((|r| : ℚ) : ℝ) < ((2 ^ 1023 : ℚ) : ℝ) := by push_cast; exact h
    exact le_of_lt (by exact_mod_cast this)
  have hf : IsFloat (2 ^ 1023) := ⟨1, 1023, by norm_num, by norm_num, by rw [Int.cast_one, one_mul]; exact (zpow_natCast (2 : ℚ) 1023).symm⟩
  refine lt_of_le_of_lt (abs_rnd_le r _ hf h') ?_
  exact pow_lt_pow_right₀ (by norm_num) (by norm_num)

theorem rnd_mixed (q : ℚ) : |rnd q - q| ≤ 1 / 2 ^ 53 * |q| + 1 / 2 ^ 1075 := by
  rcases le_or_gt (1 / 2 ^ 1022) |q| with h | h
  · exact le_trans (rnd_rel q h) (le_add_of_nonneg_right (by positivity))
  · exact le_trans (rnd_abs q h) (le_add_of_nonneg_left (by positivity))

theorem cast_le {a b : ℚ} (h : a ≤ b) : (a : ℝ) ≤ (b : ℝ) := by exact_mod_cast h

theorem exact_of {r D : ℝ} {t : ℚ} (ht : |(t : ℝ) - r| ≤ D) (h : D = 0 ∧ IsDoubleReal r) : rnd t = t ∧ (t : ℝ) = r := by
  obtain ⟨h0, q, hq, hqr⟩ := h
  have h1 : (t : ℝ) = r := sub_eq_zero.mp (abs_eq_zero.mp (le_antisymm (h0 ▸ ht) (abs_nonneg _)))
  have h2 : t = q := by rw [← hqr] at h1; exact_mod_cast h1
  exact ⟨by rw [h2]; exact rnd_of_isDouble hq, h1⟩

theorem roundoff_sub (δ r D : ℝ) : BinOp.roundoff δ .sub r D = BinOp.roundoff δ .add r D := by simp only [BinOp.roundoff]

theorem roundoff_div (δ r D : ℝ) : BinOp.roundoff δ .div r D = BinOp.roundoff δ .mul r D := by simp only [BinOp.roundoff]

theorem near_add (δ : ℝ) (t : ℚ) (hb : |rnd t - t| ≤ 1 / 2 ^ 53 * |t|) {r D : ℝ} (ht : |(t : ℝ) - r| ≤ D) :
    |((rnd t : ℚ) : ℝ) - r| ≤ D + BinOp.roundoff δ .add r D := by
  simp only [BinOp.roundoff]
  split
  · rename_i h
    obtain ⟨h1, h2⟩ := exact_of ht h
    rw [h1, h2, h.1]; simp
  · have h1 := cast_le hb
    push_cast at h1
    have h2 : |(t : ℝ)| ≤ |r| + D := by
      have := abs_sub_abs_le_abs_sub (t : ℝ) r
      linarith
    have h3 : |((rnd t : ℚ) : ℝ) - r| ≤ |((rnd t : ℚ) : ℝ) - t| + |(t : ℝ) - r| := abs_sub_le _ _ _
    have h4 : 1 / 2 ^ 53 * |(t : ℝ)| ≤ 1 / 2 ^ 53 * (|r| + D) := mul_le_mul_of_nonneg_left h2 (by positivity)
    linarith

theorem near_mul (δ : ℝ) (t : ℚ) {r D : ℝ} (ht : |(t : ℝ) - r| ≤ D) : |((rnd t : ℚ) : ℝ) - r| ≤ D + BinOp.roundoff δ .mul r D := by
  simp only [BinOp.roundoff]
  split
  · rename_i h
    obtain ⟨h1, h2⟩ := exact_of ht h
    rw [h1, h2, h.1]; simp
  · have h1 := cast_le (rnd_mixed t)
    push_cast at h1
    have h2 : |(t : ℝ)| ≤ |r| + D := by
      have := abs_sub_abs_le_abs_sub (t : ℝ) r
      linarith
    have h3 : |((rnd t : ℚ) : ℝ) - r| ≤ |((rnd t : ℚ) : ℝ) - t| + |(t : ℝ) - r| := abs_sub_le _ _ _
    have h4 : 1 / 2 ^ 53 * |(t : ℝ)| ≤ 1 / 2 ^ 53 * (|r| + D) := mul_le_mul_of_nonneg_left h2 (by positivity)
    linarith

/-- one binary operation on doubles near `v` and `w` -/
theorem bin_step {δ : ℝ} (hL : L.Within δ) {o : BinOp} {x y : Double L} {p s : ℚ} (hx : x.Is p) (hy : y.Is s) {r D r' : ℝ}
    (hr' : o.real p s = some r') (hD : |r' - r| ≤ D) (hb : |r| + D < 2 ^ 1023) :
    ∃ z q, o.apply x y = some z ∧ z.Is q ∧ |(q : ℝ) - r| ≤ D + o.roundoff δ r D := by
  have hbig : |r'| < 2 ^ 1023 := by
    have := abs_sub_abs_le_abs_sub r' r
    linarith
  have hle : |r'| ≤ |r| + D := by
    have := abs_sub_abs_le_abs_sub r' r
    linarith
  cases o with
  | add =>
    have e : r' = ((p + s : ℚ) : ℝ) := by simp only [BinOp.real, Option.some.injEq] at hr'; rw [← hr']; push_cast; rfl
    subst e
    exact ⟨_, _, rfl, add_is hx hy (rnd_bound hbig), near_add δ _ (rnd_add_rel (is_double hx) (is_double hy)) hD⟩
  | sub =>
    have e : r' = ((p - s : ℚ) : ℝ) := by simp only [BinOp.real, Option.some.injEq] at hr'; rw [← hr']; push_cast; rfl
    subst e
    rw [roundoff_sub]
    have h := rnd_add_rel (is_double hx) (isDouble_neg (is_double hy))
    rw [← sub_eq_add_neg] at h
    exact ⟨_, _, rfl, sub_is hx hy (rnd_bound hbig), near_add δ (p - s) h hD⟩
  | mul =>
    have e : r' = ((p * s : ℚ) : ℝ) := by simp only [BinOp.real, Option.some.injEq] at hr'; rw [← hr']; push_cast; rfl
    subst e
    exact ⟨_, _, rfl, mul_is hx hy (rnd_bound hbig), near_mul δ _ hD⟩
  | div =>
    simp only [BinOp.real] at hr'
    split at hr'
    · cases hr'
    · rename_i h0
      have hs0 : s ≠ 0 := by exact_mod_cast h0
      have e : r' = ((p / s : ℚ) : ℝ) := by rw [← Option.some.inj hr']; push_cast; rfl
      subst e
      rw [roundoff_div]
      exact ⟨_, _, rfl, div_is hx hy hs0 (rnd_bound hbig), near_mul δ _ hD⟩
  | pow =>
    obtain ⟨q, h1, h2⟩ := hL.pow x y p s r' hx hy hr' hbig
    refine ⟨_, q, rfl, h1, ?_⟩
    have h3 : |(q : ℝ) - r| ≤ |(q : ℝ) - r'| + |r' - r| := abs_sub_le _ _ _
    have h4 : δ * |r'| ≤ δ * (|r| + D) := mul_le_mul_of_nonneg_left hle hL.nonneg
    simp only [BinOp.roundoff]
    linarith
  | and =>
    simp only [BinOp.real] at hr'
    cases ha : realTrunc (p : ℝ) with
    | none => rw [ha] at hr'; cases hr'
    | some a =>
      cases hb' : realTrunc (s : ℝ) with
      | none => rw [ha, hb'] at hr'; cases hr'
      | some b =>
        rw [ha, hb'] at hr'
        have e : ((cAnd a b : ℤ) : ℝ) = r' := Option.some.inj hr'
        refine ⟨Dbl.ofInt (cAnd a b), _, ?_, isInt (cAnd_range a b), ?_⟩
        · simp only [BinOp.apply, toInt32_is hx, toInt32_is hy, ha, hb']; rfl
        · simp only [BinOp.roundoff, Rat.cast_intCast, e, add_zero]; exact hD
  | or =>
    simp only [BinOp.real] at hr'
    cases ha : realTrunc (p : ℝ) with
    | none => rw [ha] at hr'; cases hr'
    | some a =>
      cases hb' : realTrunc (s : ℝ) with
      | none => rw [ha, hb'] at hr'; cases hr'
      | some b =>
        rw [ha, hb'] at hr'
        have e : ((cOr a b : ℤ) : ℝ) = r' := Option.some.inj hr'
        refine ⟨Dbl.ofInt (cOr a b), _, ?_, isInt (cOr_range a b), ?_⟩
        · simp only [BinOp.apply, toInt32_is hx, toInt32_is hy, ha, hb']; rfl
        · simp only [BinOp.roundoff, Rat.cast_intCast, e, add_zero]; exact hD
  | mod =>
    simp only [BinOp.real] at hr'
    cases ha : realTrunc (p : ℝ) with
    | none => rw [ha] at hr'; cases hr'
    | some a =>
      cases hb' : realTrunc (s : ℝ) with
      | none => rw [ha, hb'] at hr'; cases hr'
      | some b =>
        rw [ha, hb'] at hr'
        simp only [Option.bind_eq_bind, Option.bind_some] at hr'
        split at hr'
        · cases hr'
        · rename_i hc
          have e : ((a.tmod b : ℤ) : ℝ) = r' := Option.some.inj hr'
          refine ⟨Dbl.ofInt (a.tmod b), ((a.tmod b : ℤ) : ℚ), ?_, ?_, ?_⟩
          · simp only [BinOp.apply, toInt32_is hx, toInt32_is hy, ha, hb', Option.bind_eq_bind, Option.bind_some, if_neg hc]
          · apply is_ofInt
            have h1 := realTrunc_range ha
            have h2 : |a.tmod b| ≤ |a| := by
              rw [Int.abs_eq_natAbs, Int.abs_eq_natAbs, Int.natAbs_tmod]
              exact_mod_cast Nat.mod_le _ _
            refine le_trans h2 ?_
            rw [abs_le]; constructor <;> linarith [h1.1, h1.2]
          · simp only [BinOp.roundoff, Rat.cast_intCast, e, add_zero]; exact hD
  
/-- one unary operation on a double near `v` -/
theorem un_step {δ : ℝ} (hL : L.Within δ) {o : UnOp} {x : Double L} {p : ℚ} (hx : x.Is p) {r D r' : ℝ}
    (hr' : o.real p = some r') (hD : |r' - r| ≤ D) (hb : |r| + D < 2 ^ 1023) :
    ∃ q, (o.apply x).Is q ∧ |(q : ℝ) - r| ≤ D + o.roundoff δ r D := by
  have hbig : |r'| < 2 ^ 1023 := by
    have := abs_sub_abs_le_abs_sub r' r
    linarith
  have hle : |r'| ≤ |r| + D := by
    have := abs_sub_abs_le_abs_sub r' r
    linarith
  by_cases hpos : o = .pos
  · subst hpos
    simp only [UnOp.real, Option.some.injEq] at hr'
    exact ⟨p, hx, by simp only [UnOp.roundoff, add_zero]; rw [hr']; exact hD⟩
  by_cases hneg : o = .neg
  · subst hneg
    simp only [UnOp.real, Option.some.injEq] at hr'
    exact ⟨-p, neg_is hx, by simp only [UnOp.roundoff, add_zero]; push_cast; rw [hr']; exact hD⟩
  obtain ⟨q, h1, h2⟩ := hL.un o hpos hneg x p r' hx hr' hbig
  refine ⟨q, h1, ?_⟩
  have h3 : |(q : ℝ) - r| ≤ |(q : ℝ) - r'| + |r' - r| := abs_sub_le _ _ _
  have h4 : δ * |r'| ≤ δ * (|r| + D) := mul_le_mul_of_nonneg_left hle hL.nonneg
  have h5 : o.roundoff δ r D = δ * (|r| + D) + 1 / 2 ^ 1074 := by
    cases o <;> first | rfl | exact absurd rfl hpos | exact absurd rfl hneg
  rw [h5]
  linarith

theorem checked_is {strict : Bool} {x : Double L} {p : ℚ} (h : x.Is p) : checked strict x = .ok x := by
  have : Dbl.isInvalid x = false := h.1
  simp [checked, this]

/-- C76: if the exact value `v` of an expression comes with the error bound `E`, then evaluating it with doubles succeeds, and the
number computed differs from `v` by at most `E`, for every libm of accuracy `δ`, every double values of the variables, and both
settings of `throwOnInvalidValue`. -/
theorem C76_enclosure (δ : ℝ) (hL : L.Within δ) (strict : Bool) (env : Str → Res (Double L)) (ρ : Str → ℝ) (e : Expr (Double L))
    (henv : ∀ s ∈ e.vars, ∃ x p, env s = .ok x ∧ x.Is p ∧ ρ s = ((p : ℚ) : ℝ)) (v E : ℝ) (h : enclosure δ ρ e = some (v, E)) :
    ∃ x p, e.eval strict env = .ok x ∧ x.Is p ∧ |((p : ℚ) : ℝ) - v| ≤ E := by
  induction e generalizing v E with
  | num x =>
    simp only [enclosure] at h
    split at h
    · cases h
    · rename_i hx
      obtain ⟨rfl, rfl⟩ := Prod.mk.inj (Option.some.inj h)
      exact ⟨x, _, rfl, is_of_valid (by simpa using hx), by simp⟩
  | var s =>
    simp only [enclosure] at h
    obtain ⟨rfl, rfl⟩ := Prod.mk.inj (Option.some.inj h)
    obtain ⟨x, p, h1, h2, h3⟩ := henv s (by simp [Expr.vars])
    exact ⟨x, p, h1, h2, by simp [h3]⟩
  | un o e ih =>
    simp only [enclosure] at h
    obtain ⟨⟨w, F⟩, h1, h⟩ := Option.bind_eq_some_iff.mp h
    obtain ⟨r, h2, h⟩ := Option.bind_eq_some_iff.mp h
    obtain ⟨D, h3, h⟩ := Option.bind_eq_some_iff.mp h
    split at h
    · rename_i hb
      obtain ⟨rfl, rfl⟩ := Prod.mk.inj (Option.some.inj h)
      obtain ⟨x, p, e1, e2, e3⟩ := ih (fun s hs => henv s (by simpa [Expr.vars] using hs)) w F h1
      obtain ⟨r', g1, g2⟩ := un_spread h2 h3 e3
      obtain ⟨q, g3, g4⟩ := un_step hL e2 g1 g2 hb
      exact ⟨_, q, by simp only [Expr.eval, e1, Res.bind_ok, checked_is g3], g3, g4⟩
    · cases h
  | bin o a b iha ihb =>
    simp only [enclosure] at h
    obtain ⟨⟨w, F⟩, h1, h⟩ := Option.bind_eq_some_iff.mp h
    obtain ⟨⟨w', F'⟩, h1', h⟩ := Option.bind_eq_some_iff.mp h
    obtain ⟨r, h2, h⟩ := Option.bind_eq_some_iff.mp h
    obtain ⟨D, h3, h⟩ := Option.bind_eq_some_iff.mp h
    split at h
    · rename_i hb
      obtain ⟨rfl, rfl⟩ := Prod.mk.inj (Option.some.inj h)
      obtain ⟨x, p, e1, e2, e3⟩ := iha (fun s hs => henv s (by simp [Expr.vars, hs])) w F h1
      obtain ⟨y, q, f1, f2, f3⟩ := ihb (fun s hs => henv s (by simp [Expr.vars, hs])) w' F' h1'
      obtain ⟨r', g1, g2⟩ := bin_spread h2 h3 e3 f3
      obtain ⟨z, t, g3, g4, g5⟩ := bin_step hL e2 f2 g1 g2 hb
      exact ⟨z, t, by simp only [Expr.eval, e1, f1, Res.bind_ok, g3, checked_is g4], g4, g5⟩
    · cases h

/-- C76: the exact value in the enclosure is the real value of the expression. -/
theorem C76_exact_value (δ : ℝ) (ρ : Str → ℝ) (e : Expr (Double L)) (v E : ℝ) (h : enclosure δ ρ e = some (v, E)) :
    realVal ρ (e.mapNum Double.toReal) = some v := by
  induction e generalizing v E with
  | num x =>
    simp only [enclosure] at h
    simp only [Expr.mapNum, realVal, toReal]
    split at h
    · cases h
    · rename_i hx
      rw [if_neg hx, ← (Prod.mk.inj (Option.some.inj h)).1]; rfl
  | var s =>
    simp only [enclosure] at h
    simp only [Expr.mapNum, realVal, (Prod.mk.inj (Option.some.inj h)).1]
  | un o e ih =>
    simp only [enclosure] at h
    obtain ⟨⟨w, F⟩, h1, h⟩ := Option.bind_eq_some_iff.mp h
    obtain ⟨r, h2, h⟩ := Option.bind_eq_some_iff.mp h
    obtain ⟨D, h3, h⟩ := Option.bind_eq_some_iff.mp h
    split at h
    · simp only [Expr.mapNum, realVal, ih w F h1, Option.bind_some, h2, (Prod.mk.inj (Option.some.inj h)).1]
    · cases h
  | bin o a b iha ihb =>
    simp only [enclosure] at h
    obtain ⟨⟨w, F⟩, h1, h⟩ := Option.bind_eq_some_iff.mp h
    obtain ⟨⟨w', F'⟩, h1', h⟩ := Option.bind_eq_some_iff.mp h
    obtain ⟨r, h2, h⟩ := Option.bind_eq_some_iff.mp h
    obtain ⟨D, h3, h⟩ := Option.bind_eq_some_iff.mp h
    split at h
    · simp only [Expr.mapNum, realVal, iha w F h1, ihb w' F' h1', Option.bind_some, h2, (Prod.mk.inj (Option.some.inj h)).1]
    · cases h

/-- C76 for `Vpa`: an expression without variables. -/
theorem C76_vpa (δ : ℝ) (hL : L.Within δ) (cfg : Config (Double L)) (e : Expr (Double L)) (hv : e.vars = []) (ρ : Str → ℝ) (v E : ℝ)
    (h : enclosure δ ρ e = some (v, E)) : ∃ x p, vpa cfg (embed e) = .ok x ∧ x.Is p ∧ |((p : ℚ) : ℝ) - v| ≤ E := by
  rw [C12_vpa]
  exact C76_enclosure δ hL _ _ ρ e (by simp [hv]) v E h

theorem rnd_mixed' (q : ℚ) : |rnd q - q| ≤ 1 / 2 ^ 53 * (|q| + 1 / 2 ^ 1022) := by
  refine le_trans (rnd_mixed q) (le_of_eq ?_)
  rw [mul_add]
  congr 1
  rw [one_div_mul_one_div, ← pow_add]

theorem absVal_nonneg (ρ : Str → ℚ) (e : Expr (Double L)) (hp : e.Polynomial) : 0 ≤ absVal ρ e := by
  induction e with
  | num x => exact abs_nonneg _
  | var s => exact abs_nonneg _
  | un o e ih => rcases hp with ⟨rfl | rfl, hp⟩ <;> exact ih hp
  | bin o a b iha ihb =>
    obtain ⟨ho, h1, h2⟩ := hp
    have := iha h1
    have := ihb h2
    rcases ho with rfl | rfl | rfl <;> simp only [absVal] <;> positivity

theorem polyVal_le_absVal (ρ : Str → ℚ) (e : Expr (Double L)) (hp : e.Polynomial) : |polyVal ρ e| ≤ absVal ρ e := by
  induction e with
  | num x => exact le_refl _
  | var s => exact le_refl _
  | un o e ih =>
    rcases hp with ⟨rfl | rfl, hp⟩
    · exact ih hp
    · simp only [polyVal, absVal, abs_neg]; exact ih hp
  | bin o a b iha ihb =>
    obtain ⟨ho, h1, h2⟩ := hp
    have iha := iha h1
    have ihb := ihb h2
    rcases ho with rfl | rfl | rfl
    · exact le_trans (abs_add_le _ _) (add_le_add iha ihb)
    · exact le_trans (abs_sub _ _) (add_le_add iha ihb)
    · simp only [polyVal, absVal, abs_mul]
      have h3 : |polyVal ρ a| * |polyVal ρ b| ≤ absVal ρ a * absVal ρ b := mul_le_mul iha ihb (abs_nonneg _) (absVal_nonneg ρ a h1)
      exact le_trans h3 (le_add_of_nonneg_right (by positivity))

/-- the growth factor of `n` roundings -/
theorem growth_ge (n : ℕ) : (1 : ℚ) ≤ (1 + 1 / 2 ^ 53) ^ n := one_le_pow₀ (by norm_num)

theorem add_growth {A B x y v w k l u : ℚ} (hk : 1 ≤ k) (hl : 1 ≤ l) (hu : 0 ≤ u) (hv : |v| ≤ A) (hw : |w| ≤ B)
    (hx : |x - v| ≤ (k - 1) * A) (hy : |y - w| ≤ (l - 1) * B) {z : ℚ} (hz : |z - (x + y)| ≤ u * |x + y|) :
    |z - (v + w)| ≤ (k * l * (1 + u) - 1) * (A + B) := by
  have hA : 0 ≤ A := le_trans (abs_nonneg _) hv
  have hB : 0 ≤ B := le_trans (abs_nonneg _) hw
  have h1 : |x + y - (v + w)| ≤ (k - 1) * A + (l - 1) * B := by
    rw [show x + y - (v + w) = (x - v) + (y - w) by ring]
    exact le_trans (abs_add_le _ _) (add_le_add hx hy)
  have h2 : |x + y| ≤ k * A + l * B := by
    have h3 := abs_sub_abs_le_abs_sub (x + y) (v + w)
    have h4 : |v + w| ≤ A + B := le_trans (abs_add_le _ _) (add_le_add hv hw)
    linarith
  have h3 : |z - (v + w)| ≤ |z - (x + y)| + |x + y - (v + w)| := abs_sub_le _ _ _
  have h4 : u * |x + y| ≤ u * (k * A + l * B) := mul_le_mul_of_nonneg_left h2 hu
  have h5 : 0 ≤ k * (l - 1) * (1 + u) * A := by
    have : 0 ≤ l - 1 := by linarith
    positivity
  have h6 : 0 ≤ l * (k - 1) * (1 + u) * B := by
    have : 0 ≤ k - 1 := by linarith
    positivity
  nlinarith

theorem mul_growth {A B x y v w k l u m : ℚ} (hk : 1 ≤ k) (hl : 1 ≤ l) (hu : 0 ≤ u) (hm : 0 ≤ m) (hv : |v| ≤ A) (hw : |w| ≤ B)
    (hx : |x - v| ≤ (k - 1) * A) (hy : |y - w| ≤ (l - 1) * B) {z : ℚ} (hz : |z - x * y| ≤ u * (|x * y| + m)) :
    |z - v * w| ≤ (k * l * (1 + u) - 1) * (A * B + m) := by
  have hA : 0 ≤ A := le_trans (abs_nonneg _) hv
  have hB : 0 ≤ B := le_trans (abs_nonneg _) hw
  have hxA : |x| ≤ k * A := by
    have := abs_sub_abs_le_abs_sub x v
    linarith
  have hyB : |y| ≤ l * B := by
    have := abs_sub_abs_le_abs_sub y w
    linarith
  have h1 : |x * y - v * w| ≤ (k * l - 1) * (A * B) := by
    rw [show x * y - v * w = x * (y - w) + (x - v) * w by ring]
    refine le_trans (abs_add_le _ _) ?_
    rw [abs_mul, abs_mul]
    have h2 : |x| * |y - w| ≤ (k * A) * ((l - 1) * B) := mul_le_mul hxA hy (abs_nonneg _) (by positivity)
    have h3 : |x - v| * |w| ≤ ((k - 1) * A) * B := mul_le_mul hx hw (abs_nonneg _) (le_trans (abs_nonneg _) hx)
    linarith
  have h2 : |x * y| ≤ k * l * (A * B) := by
    rw [abs_mul]
    have := mul_le_mul hxA hyB (abs_nonneg _) (by positivity)
    linarith
  have h3 : |z - v * w| ≤ |z - x * y| + |x * y - v * w| := abs_sub_le _ _ _
  have h4 : u * (|x * y| + m) ≤ u * (k * l * (A * B) + m) := mul_le_mul_of_nonneg_left (by linarith) hu
  have h5 : 0 ≤ (k * l - 1) * (1 + u) * m := by
    have : 0 ≤ k * l - 1 := by nlinarith
    positivity
  linarith

/-- C76, closed form: the value computed for a polynomial expression with `n` operations differs from the exact value by at most
`(1 + 2^-53)^n - 1` times the value of the expression with absolute values; whenever the computation ends with a finite number. -/
theorem C76_polynomial (strict : Bool) (env : Str → Res (Double L)) (ρ : Str → ℚ) (e : Expr (Double L)) (hp : e.Polynomial)
    (henv : ∀ s ∈ e.vars, ∃ x, env s = .ok x ∧ x.Is (ρ s)) (x : Double L) (p : ℚ) (h : e.eval strict env = .ok x) (hx : x.Is p) :
    |p - polyVal ρ e| ≤ ((1 + 1 / 2 ^ 53) ^ e.ops - 1) * absVal ρ e := by
  have chk : ∀ {y z : Double L}, checked strict y = .ok z → y = z := by
    intro y z h
    unfold checked at h
    split at h
    · cases h
    · exact Res.ok.inj h
  induction e generalizing x p with
  | num y =>
    simp only [Expr.eval, Res.ok.injEq] at h
    subst h
    rw [← hx.2]; simp [polyVal, Expr.ops]
  | var s =>
    obtain ⟨y, h1, h2⟩ := henv s (by simp [Expr.vars])
    simp only [Expr.eval, h1, Res.ok.injEq] at h
    subst h
    rw [is_unique hx h2]; simp [polyVal, Expr.ops]
  | un o e ih =>
    have ih := ih hp.2 (fun s hs => henv s (by simpa [Expr.vars] using hs))
    simp only [Expr.eval] at h
    obtain ⟨y, h1, h2⟩ := Res.bind_eq_ok.mp h
    have h2 := chk h2
    rcases hp with ⟨rfl | rfl, hp⟩
    · subst h2
      exact ih _ p h1 hx
    · subst h2
      have h3 := ih y (-p) h1 (neg_inv hx)
      simp only [polyVal, absVal, Expr.ops]
      rw [show p - -polyVal ρ e = -(-p - polyVal ρ e) by ring, abs_neg]
      exact h3
  | bin o a b iha ihb =>
    obtain ⟨ho, hpa, hpb⟩ := hp
    have iha := iha hpa (fun s hs => henv s (by simp [Expr.vars, hs]))
    have ihb := ihb hpb (fun s hs => henv s (by simp [Expr.vars, hs]))
    simp only [Expr.eval] at h
    obtain ⟨y, h1, h⟩ := Res.bind_eq_ok.mp h
    obtain ⟨z, h2, h⟩ := Res.bind_eq_ok.mp h
    have hops : ((1 : ℚ) + 1 / 2 ^ 53) ^ (Expr.bin o a b).ops = (1 + 1 / 2 ^ 53) ^ a.ops * (1 + 1 / 2 ^ 53) ^ b.ops * (1 + 1 / 2 ^ 53) := by
      simp only [Expr.ops, pow_add, pow_one]
    rw [hops]
    have hu : (0 : ℚ) ≤ 1 / 2 ^ 53 := by norm_num
    rcases ho with rfl | rfl | rfl
    · simp only [BinOp.apply] at h
      have h3 := chk h
      subst h3
      obtain ⟨p1, p2, e1, e2, e3, e4⟩ := add_inv hx
      rw [e3]
      exact add_growth (growth_ge _) (growth_ge _) hu (polyVal_le_absVal ρ a hpa) (polyVal_le_absVal ρ b hpb)
        (iha y p1 h1 e1) (ihb z p2 h2 e2) (rnd_add_rel (is_double e1) (is_double e2))
    · simp only [BinOp.apply] at h
      have h3 := chk h
      subst h3
      obtain ⟨p1, p2, e1, e2, e3, e4⟩ := sub_inv hx
      rw [e3]
      have hr := rnd_add_rel (is_double e1) (isDouble_neg (is_double e2))
      have hb := ihb z p2 h2 e2
      have := add_growth (growth_ge a.ops) (growth_ge b.ops) hu (polyVal_le_absVal ρ a hpa)
        (by rw [abs_neg]; exact polyVal_le_absVal ρ b hpb : |-polyVal ρ b| ≤ absVal ρ b)
        (iha y p1 h1 e1) (by rw [show -p2 - -polyVal ρ b = -(p2 - polyVal ρ b) by ring, abs_neg]; exact hb) hr
      simp only [polyVal, absVal, sub_eq_add_neg] at this ⊢
      exact this
    · simp only [BinOp.apply] at h
      have h3 := chk h
      subst h3
      obtain ⟨p1, p2, e1, e2, e3, e4⟩ := mul_inv hx
      rw [e3]
      exact mul_growth (growth_ge _) (growth_ge _) hu (by positivity) (polyVal_le_absVal ρ a hpa) (polyVal_le_absVal ρ b hpb)
        (iha y p1 h1 e1) (ihb z p2 h2 e2) (rnd_mixed' _)

/-! ### C75 -/

/-- C75: if the exact rational value of every subexpression is a double, `+ - * /` and signs are computed without any rounding error,
whatever the libm. -/
theorem C75_exact (strict : Bool) (env : Str → Res (Double L)) (ρ : Str → ℚ) (e : Expr (Double L))
    (henv : ∀ s ∈ e.vars, ∃ x, env s = .ok x ∧ x.Is (ρ s)) (q : ℚ) (h : exactRat ρ e = some q) :
    ∃ x, e.eval strict env = .ok x ∧ x.Is q := by
  have fits : ∀ {r q : ℚ}, ifDouble r = some q → r = q ∧ rnd r = r ∧ |rnd r| < 2 ^ 1024 := by
    intro r q h
    unfold ifDouble at h
    split at h
    · rename_i hd
      have h1 := rnd_of_isDouble hd
      exact ⟨Option.some.inj h, h1, by rw [h1]; exact isDouble_lt hd⟩
    · cases h
  induction e generalizing q with
  | num x =>
    simp only [exactRat] at h
    split at h
    · cases h
    · rename_i hx
      rw [← Option.some.inj h]
      exact ⟨x, rfl, is_of_valid (by simpa using hx)⟩
  | var s =>
    simp only [exactRat] at h
    rw [← Option.some.inj h]
    exact henv s (by simp [Expr.vars])
  | un o e ih =>
    have ih := ih (fun s hs => henv s (by simpa [Expr.vars] using hs))
    cases o with
    | pos =>
      simp only [exactRat] at h
      obtain ⟨x, h1, h2⟩ := ih q h
      exact ⟨x, by simp only [Expr.eval, h1, Res.bind_ok, UnOp.apply, checked_is h2], h2⟩
    | neg =>
      simp only [exactRat] at h
      obtain ⟨w, h1, rfl⟩ := Option.map_eq_some_iff.mp h
      obtain ⟨x, h1, h2⟩ := ih w h1
      exact ⟨_, by simp only [Expr.eval, h1, Res.bind_ok, UnOp.apply, checked_is (neg_is h2)], neg_is h2⟩
    | _ => simp [exactRat] at h
  | bin o a b iha ihb =>
    have iha := iha (fun s hs => henv s (by simp [Expr.vars, hs]))
    have ihb := ihb (fun s hs => henv s (by simp [Expr.vars, hs]))
    cases o with
    | add =>
      simp only [exactRat] at h
      obtain ⟨p, h1, h⟩ := Option.bind_eq_some_iff.mp h
      obtain ⟨s, h2, h⟩ := Option.bind_eq_some_iff.mp h
      obtain ⟨x, e1, e2⟩ := iha p h1
      obtain ⟨y, f1, f2⟩ := ihb s h2
      obtain ⟨rfl, g1, g2⟩ := fits h
      have := add_is e2 f2 g2
      rw [g1] at this
      exact ⟨_, by simp only [Expr.eval, e1, f1, Res.bind_ok, BinOp.apply, checked_is this], this⟩
    | sub =>
      simp only [exactRat] at h
      obtain ⟨p, h1, h⟩ := Option.bind_eq_some_iff.mp h
      obtain ⟨s, h2, h⟩ := Option.bind_eq_some_iff.mp h
      obtain ⟨x, e1, e2⟩ := iha p h1
      obtain ⟨y, f1, f2⟩ := ihb s h2
      obtain ⟨rfl, g1, g2⟩ := fits h
      have := sub_is e2 f2 g2
      rw [g1] at this
      exact ⟨_, by simp only [Expr.eval, e1, f1, Res.bind_ok, BinOp.apply, checked_is this], this⟩
    | mul =>
      simp only [exactRat] at h
      obtain ⟨p, h1, h⟩ := Option.bind_eq_some_iff.mp h
      obtain ⟨s, h2, h⟩ := Option.bind_eq_some_iff.mp h
      obtain ⟨x, e1, e2⟩ := iha p h1
      obtain ⟨y, f1, f2⟩ := ihb s h2
      obtain ⟨rfl, g1, g2⟩ := fits h
      have := mul_is e2 f2 g2
      rw [g1] at this
      exact ⟨_, by simp only [Expr.eval, e1, f1, Res.bind_ok, BinOp.apply, checked_is this], this⟩
    | div =>
      simp only [exactRat] at h
      obtain ⟨p, h1, h⟩ := Option.bind_eq_some_iff.mp h
      obtain ⟨s, h2, h⟩ := Option.bind_eq_some_iff.mp h
      split at h
      · cases h
      · rename_i hs0
        obtain ⟨x, e1, e2⟩ := iha p h1
        obtain ⟨y, f1, f2⟩ := ihb s h2
        obtain ⟨rfl, g1, g2⟩ := fits h
        have := div_is e2 f2 hs0 g2
        rw [g1] at this
        exact ⟨_, by simp only [Expr.eval, e1, f1, Res.bind_ok, BinOp.apply, checked_is this], this⟩
    | _ => simp [exactRat] at h

/-- the values of an expression without division over the integers are exact if they stay within `2^53` -/
theorem intVal_exactRat (ρ : Str → ℤ) (e : Expr (Double L)) (z : ℤ) (h : intVal ρ e = some z) :
    exactRat (fun s => (ρ s : ℚ)) e = some (z : ℚ) := by
  have fits : ∀ {r z : ℤ}, ifSmall r = some z → r = z ∧ ∀ q : ℚ, q = r → ifDouble q = some (z : ℚ) := by
    intro r z h
    unfold ifSmall at h
    split at h
    · rename_i hd
      obtain rfl := Option.some.inj h
      refine ⟨rfl, ?_⟩
      rintro q rfl
      unfold ifDouble
      rw [if_pos (isDouble_int r hd)]
    · cases h
  induction e generalizing z with
  | num x =>
    simp only [intVal] at h
    split at h
    · cases h
    · rename_i hx
      split at h
      · rename_i hd
        simp only [exactRat, if_neg hx, ← Option.some.inj h]
        congr 1
        exact (Rat.coe_int_num_of_den_eq_one hd).symm
      · cases h
  | var s => simp only [intVal] at h; simp only [exactRat, Option.some.inj h]
  | un o e ih =>
    cases o with
    | pos => simp only [intVal] at h; simp only [exactRat]; exact ih z h
    | neg =>
      simp only [intVal] at h
      obtain ⟨w, h1, rfl⟩ := Option.map_eq_some_iff.mp h
      simp only [exactRat, ih w h1, Option.map_some]; push_cast; rfl
    | _ => simp [intVal] at h
  | bin o a b iha ihb =>
    cases o with
    | add =>
      simp only [intVal] at h
      obtain ⟨p, h1, h⟩ := Option.bind_eq_some_iff.mp h
      obtain ⟨s, h2, h⟩ := Option.bind_eq_some_iff.mp h
      simp only [exactRat, iha p h1, ihb s h2, Option.bind_some]
      exact (fits h).2 _ (by push_cast; rfl)
    | sub =>
      simp only [intVal] at h
      obtain ⟨p, h1, h⟩ := Option.bind_eq_some_iff.mp h
      obtain ⟨s, h2, h⟩ := Option.bind_eq_some_iff.mp h
      simp only [exactRat, iha p h1, ihb s h2, Option.bind_some]
      exact (fits h).2 _ (by push_cast; rfl)
    | mul =>
      simp only [intVal] at h
      obtain ⟨p, h1, h⟩ := Option.bind_eq_some_iff.mp h
      obtain ⟨s, h2, h⟩ := Option.bind_eq_some_iff.mp h
      simp only [exactRat, iha p h1, ihb s h2, Option.bind_some]
      exact (fits h).2 _ (by push_cast; rfl)
    | _ => simp [intVal] at h

/-- C75: with integer literals and integer variables, `+ - *` and signs are exact as long as all numbers stay within `2^53`. -/
theorem C75_integers (strict : Bool) (env : Str → Res (Double L)) (ρ : Str → ℤ) (e : Expr (Double L))
    (henv : ∀ s ∈ e.vars, ∃ x, env s = .ok x ∧ x.Is (ρ s)) (z : ℤ) (h : intVal ρ e = some z) :
    ∃ x, e.eval strict env = .ok x ∧ x.Is z :=
  C75_exact strict env (fun s => (ρ s : ℚ)) e henv z (intVal_exactRat ρ e z h)

/-- C75 for `Vpa`. -/
theorem C75_vpa (cfg : Config (Double L)) (e : Expr (Double L)) (hv : e.vars = []) (ρ : Str → ℚ) (q : ℚ) (h : exactRat ρ e = some q) :
    ∃ x, vpa cfg (embed e) = .ok x ∧ x.Is q := by
  rw [C12_vpa]
  exact C75_exact _ _ ρ e (by simp [hv]) q h

end Double
end Tom
