import Verif.Props.NoSquare
import Verif.Spec.Side
import Verif.Props.RoundingCases
/-
C135: `Solve` invents no roots for equations that are bounded away from zero.
-/
set_option linter.unusedSectionVars false
namespace Tom
namespace Double
variable {L : Libm} {cfg : Config (Double L)} {ε : ℚ}

/-- the test is passed by finite numbers only -/
theorem passed_is (he : cfg.epsilon.Is ε) {x : Double L} (h : Arith.lt (Arith.abs (Arith.sub x (Dbl.ofInt 0))) cfg.epsilon = true) :
    ∃ p, x.Is p ∧ |p| < ε := by
  obtain ⟨r, hr⟩ : ∃ r, (Arith.abs (Arith.sub x (Dbl.ofInt 0)) : Double L).Is r := by
    set b : Double L := Arith.sub x (Dbl.ofInt 0)
    have h' : F64.lt (F64.abs b.raw) cfg.epsilon.raw = true := h
    have : (F64.abs b.raw).isInvalid = false := by
      cases hc : b.raw <;> rw [hc] at h' <;> first | rfl | (exfalso; revert h'; simp [F64.abs, F64.lt]; done) | skip
      exfalso
      rcases is_cases he with ⟨-, s, hs⟩ | ⟨-, hs⟩ <;> rw [hs] at h' <;> simp [F64.abs, F64.lt] at h'
    exact ⟨_, is_of_valid this⟩
  rw [lt_is hr he, decide_eq_true_eq] at h
  obtain ⟨p, hp, rfl⟩ := abs_inv hr
  have h0 : (Dbl.ofInt 0 : Double L).Is 0 := by exact_mod_cast is_ofInt (L := L) (i := 0) (by norm_num)
  obtain ⟨p1, p2, k1, k2, rfl, -⟩ := sub_inv hp
  obtain rfl := is_unique k2 h0
  rw [sub_zero, rnd_of_isDouble (is_double k1)] at h
  exact ⟨p1, k1, h⟩

theorem signed_not (s : Bool) (p : ℚ) : signed (!s) p = -signed s p := by cases s <;> simp [signed]

theorem signed_neg (s : Bool) (p : ℚ) : signed s (-p) = -signed s p := by cases s <;> simp [signed]

theorem signed_add (s : Bool) (p q : ℚ) : signed s (p + q) = signed s p + signed s q := by cases s <;> simp [signed]; ring

theorem signed_rnd (s : Bool) (p : ℚ) : signed s (rnd p) = rnd (signed s p) := by cases s <;> simp [signed, rnd_neg]

theorem checked_inv {α : Type} [Dbl α] {b : Bool} {z w : α} (hz : checked b z = .ok w) : z = w := by
  unfold checked at hz
  split at hz
  · cases hz
  · exact Res.ok.inj hz

theorem eval_bin_inv {α : Type} [Dbl α] {strict : Bool} {env : Str → Res α} {o : BinOp} {a b : Expr α} {z : α} (h : (Expr.bin o a b).eval strict env = .ok z) :
    ∃ x y, a.eval strict env = .ok x ∧ b.eval strict env = .ok y ∧ o.apply x y = some z := by
  simp only [Expr.eval] at h
  obtain ⟨x, h1, h⟩ := Res.bind_eq_ok.mp h
  obtain ⟨y, h2, h⟩ := Res.bind_eq_ok.mp h
  refine ⟨x, y, h1, h2, ?_⟩
  cases ho : o.apply x y with
  | none => rw [ho] at h; cases h
  | some w => rw [ho] at h; rw [checked_inv h]

theorem eval_un_inv {α : Type} [Dbl α] {strict : Bool} {env : Str → Res α} {o : UnOp} {a : Expr α} {z : α} (h : (Expr.un o a).eval strict env = .ok z) :
    ∃ x, a.eval strict env = .ok x ∧ o.apply x = z := by
  simp only [Expr.eval] at h
  obtain ⟨x, h1, h⟩ := Res.bind_eq_ok.mp h
  exact ⟨x, h1, checked_inv h⟩

theorem bound_rnd {q p : ℚ} (hq : IsDouble q) (h : q ≤ p) : q ≤ rnd p := le_rnd _ _ ((isDouble_iff q).mp hq).1 h

/-- **C135**, the values: an expression that is written as one that is at least `q` has no finite value below `q`, wherever it is evaluated. -/
theorem C135_value (hL : L.Signs) {s : Bool} {q : ℚ} {e : Expr (Double L)} (he : Side s q e) (hq : IsDouble q) (hq0 : 0 ≤ q) {strict : Bool}
    {env : Str → Res (Double L)} {z : Double L} (h : e.eval strict env = .ok z) {r : ℚ} (hz : z.Is r) : q ≤ signed s r := by
  have h0 : IsDouble 0 := isDouble_zero
  induction he generalizing z r with
  | num ha hle =>
    cases Res.ok.inj h
    rw [is_unique hz ha]
    exact hle
  | addLeft _ _ iha ihb =>
    obtain ⟨x, y, h1, h2, h3⟩ := eval_bin_inv h
    cases Option.some.inj h3
    obtain ⟨p1, p2, k1, k2, rfl, -⟩ := add_inv hz
    have := iha hq hq0 h1 k1
    have := ihb h0 le_rfl h2 k2
    rw [signed_rnd, signed_add]
    exact bound_rnd hq (by linarith)
  | addRight _ _ iha ihb =>
    obtain ⟨x, y, h1, h2, h3⟩ := eval_bin_inv h
    cases Option.some.inj h3
    obtain ⟨p1, p2, k1, k2, rfl, -⟩ := add_inv hz
    have := iha h0 le_rfl h1 k1
    have := ihb hq hq0 h2 k2
    rw [signed_rnd, signed_add]
    exact bound_rnd hq (by linarith)
  | subLeft _ _ iha ihb =>
    obtain ⟨x, y, h1, h2, h3⟩ := eval_bin_inv h
    cases Option.some.inj h3
    obtain ⟨p1, p2, k1, k2, rfl, -⟩ := sub_inv hz
    have := iha hq hq0 h1 k1
    have := ihb h0 le_rfl h2 k2
    rw [signed_not] at this
    rw [signed_rnd, sub_eq_add_neg, signed_add, signed_neg]
    exact bound_rnd hq (by linarith)
  | subRight _ _ iha ihb =>
    obtain ⟨x, y, h1, h2, h3⟩ := eval_bin_inv h
    cases Option.some.inj h3
    obtain ⟨p1, p2, k1, k2, rfl, -⟩ := sub_inv hz
    have := iha h0 le_rfl h1 k1
    have := ihb hq hq0 h2 k2
    rw [signed_not] at this
    rw [signed_rnd, sub_eq_add_neg, signed_add, signed_neg]
    exact bound_rnd hq (by linarith)
  | neg _ ih =>
    obtain ⟨x, h1, rfl⟩ := eval_un_inv h
    have := ih hq hq0 h1 (neg_inv hz)
    rw [signed_not, signed_neg, neg_neg] at this
    exact this
  | @mul s t a b _ _ iha ihb =>
    obtain ⟨x, y, h1, h2, h3⟩ := eval_bin_inv h
    cases Option.some.inj h3
    obtain ⟨p1, p2, k1, k2, rfl, -⟩ := mul_inv hz
    have u := iha h0 le_rfl h1 k1
    have w := ihb h0 le_rfl h2 k2
    rw [signed_rnd]
    have e : signed (s == t) (p1 * p2) = signed s p1 * signed t p2 := by cases s <;> cases t <;> simp [signed]
    rw [e]
    exact bound_rnd h0 (mul_nonneg u w)
  | mulSelf =>
    obtain ⟨x, y, h1, h2, h3⟩ := eval_bin_inv h
    cases Option.some.inj h3
    rw [h1] at h2
    cases Res.ok.inj h2
    obtain ⟨p1, p2, k1, k2, rfl, -⟩ := mul_inv hz
    rw [is_unique k2 k1, signed_rnd]
    exact bound_rnd h0 (mul_self_nonneg p1)
  | square h2 =>
    obtain ⟨x, y, h1, h4, h3⟩ := eval_bin_inv h
    cases Option.some.inj h3
    cases Res.ok.inj h4
    exact hL.square _ _ _ h2 hz
  | sqrt =>
    obtain ⟨x, h1, rfl⟩ := eval_un_inv h
    exact hL.sqrt _ _ hz
  | exp =>
    obtain ⟨x, h1, rfl⟩ := eval_un_inv h
    exact hL.exp _ _ hz

/-- **C135**: if one equation of a system is written as an expression that is at least epsilon everywhere, or at most minus epsilon everywhere, `Solve`
returns a table for no method, no initial table and no limit of the number of iterations. -/
theorem C135 (hL : L.Signs) (he : cfg.epsilon.Is ε) (hε : 0 ≤ ε) {r : ℕ} {f : Matrix (Fin r) (Fin 1) (Expr (Double L))} {i : Fin r} {s : Bool} (hf : Side s ε (f i 0))
    {t : VarsTable (Double L)} (ht : t.Reachable) (lsFuel fuel : ℕ) (t' : VarsTable (Double L)) : solve cfg lsFuel fuel (symOf f) t ≠ .ok t' := by
  intro h
  obtain ⟨F, h1, h2⟩ := C42 cfg lsFuel fuel _ ht h i
  have h3 := (C17_subsValues_vpa cfg (f i 0) t'.table).symm.trans h1
  obtain ⟨p, hp, hlt⟩ := passed_is he h2
  have h4 := C135_value hL hf (is_double he) hε h3 hp
  have h5 : signed s p ≤ |p| := by cases s <;> simp [signed, le_abs_self, neg_le_abs]
  linarith

/-- **C135** for texts -/
theorem C135_text (hL : L.Signs) (he : cfg.epsilon.Is ε) (hε : 0 ≤ ε) {n : ℕ} (hn : 0 < n) {texts : Fin n → Str} {e : Fin n → Expr (Double L)}
    (ht : ∀ i, parse (texts i) = .ok (embed (e i))) {i : Fin n} {s : Bool} (hf : Side s ε (e i)) (lsFuel fuel : ℕ) (t' : VarsTable (Double L)) :
    solveTexts cfg lsFuel fuel (List.ofFn texts) ≠ .ok t' := by
  intro h
  have heq := equationsOf_eq hn ht
  unfold solveTexts at h
  rw [heq, Res.bind_ok] at h
  obtain ⟨names, t, -, h2, h3⟩ := solveAuto_unfold h
  exact C135 hL he hε (f := Matrix.of fun i _ => e i) (i := i) hf (.ofVars h2) lsFuel fuel t' h3

/-! ### Cases -/

theorem fromReal_nonneg {z : Double accurate} {r : ℝ} (hz : z = fromReal (some r)) (hr : 0 ≤ r) {p : ℚ} (h : z.Is p) : 0 ≤ p := by
  subst hz
  obtain ⟨rfl, -⟩ := round_valid (L := accurate) (x := (fromReal (some r) : Double accurate)) (z := false) (q := ratNear r) rfl h
  rcases le_or_gt 0 (ratNear r) with h0 | h0
  · exact bound_rnd isDouble_zero h0
  · have h1 := ratNear_spec r
    have h2 : (ratNear r : ℝ) < 0 := by exact_mod_cast h0
    have h3 : |ratNear r| < 1 / 2 ^ 1100 := by
      have : |(ratNear r : ℝ)| < 1 / 2 ^ 1100 := by
        rw [abs_of_neg h2]
        rw [abs_of_neg (by linarith)] at h1
        linarith
      have e : ((|ratNear r| : ℚ) : ℝ) < ((1 / 2 ^ 1100 : ℚ) : ℝ) := by
        rw [Rat.cast_abs, Rat.cast_div, Rat.cast_one, Rat.cast_pow, Rat.cast_ofNat]; exact this
      exact Rat.cast_lt.mp e
    have h4 := rnd_nearest (ratNear r) 0 ((isDouble_iff 0).mp isDouble_zero).1
    rw [zero_sub, abs_neg] at h4
    have h5 : |rnd (ratNear r)| ≤ 2 * |ratNear r| := by
      have := abs_sub_abs_le_abs_sub (rnd (ratNear r)) (ratNear r)
      linarith
    obtain ⟨z, hz⟩ := isFloat_units (isFloat_rnd (ratNear r)) (-1074) (.inl rfl)
    by_contra hneg
    have hz0 : z ≠ 0 := by rintro rfl; simp at hz; linarith
    have hz1 : (1 : ℚ) ≤ |(z : ℚ)| := by exact_mod_cast Int.one_le_abs hz0
    have h6 : (2 : ℚ) ^ (-1074 : ℤ) ≤ |rnd (ratNear r)| := by
      rw [hz, abs_mul, abs_of_pos (show (0 : ℚ) < 2 ^ (-1074 : ℤ) by positivity)]
      exact le_mul_of_one_le_left (by positivity) hz1
    have h7 : 2 * ((1 : ℚ) / 2 ^ 1100) ≤ 2 ^ (-1074 : ℤ) := by
      rw [zpow_neg, ← one_div]
      have : (2 : ℚ) ^ (1074 : ℤ) = 2 ^ 1074 := zpow_natCast 2 1074
      rw [this, show (1100 : ℕ) = 1074 + 26 by norm_num, pow_add]
      rw [← mul_div_assoc, mul_one, div_le_div_iff₀ (by positivity) (by positivity), _root_.one_mul]
      have : (0 : ℚ) < 2 ^ 1074 := by positivity
      generalize (2 : ℚ) ^ 1074 = A at this
      nlinarith
    linarith

/-- a machine whose functions are rounded exactly meets the hypothesis on signs -/
theorem accurate_signs : accurate.Signs where
  sqrt x p h := by
    by_cases h0 : 0 ≤ ((x : B64).1.toRat : ℝ)
    · refine fromReal_nonneg (r := Real.sqrt ((x : B64).1.toRat : ℝ)) ?_ (Real.sqrt_nonneg _) h
      show fromReal (UnOp.sqrt.real _) = _
      rw [UnOp.real, if_pos h0]
    · have : (Dbl.sqrt x : Double accurate) = fromReal none := by
        show fromReal (UnOp.sqrt.real _) = _
        rw [UnOp.real, if_neg h0]
      rw [this] at h
      exact absurd h.1 (by decide)
  exp x p h := fromReal_nonneg (r := Real.exp ((x : B64).1.toRat : ℝ)) rfl (Real.exp_nonneg _) h
  square x two p h2 h := by
    have e2 : (two : B64).1.toRat = 2 := h2.2
    refine fromReal_nonneg (r := ((x : B64).1.toRat : ℝ) ^ 2) ?_ (sq_nonneg _) h
    show fromReal (realPow _ _) = _
    rw [e2, realPow, if_pos]
    · norm_num
    · rcases lt_trichotomy ((x : B64).1.toRat : ℝ) 0 with h | h | h
      · exact .inr (.inr ⟨h, 2, by norm_num⟩)
      · exact .inr (.inl ⟨h, by norm_num⟩)
      · exact .inl h

/-- C135_text applied to the system `x+y-3`, `x^2+sqrt(y)+exp(x*y)*y^2+0.001`, whatever the settings are (epsilon is the default) -/
example (cfg : Config (Double accurate)) (he : cfg.epsilon.Is defaultA.epsilon.raw.toRat) (lsFuel fuel : ℕ) (t' : VarsTable (Double accurate)) :
    solveTexts cfg lsFuel fuel ["x+y-3".toList, "x^2+sqrt(y)+exp(x*y)*y^2+0.001".toList] ≠ .ok t' := by
  have hb : 0 ≤ defaultA.epsilon.raw.toRat ∧ defaultA.epsilon.raw.toRat ≤ 1 / 10 ^ 4 := by decide +kernel
  have h2 : (lit 2 0 : Double accurate).Is 2 := ⟨by decide +kernel, by decide +kernel⟩
  have h3 : (lit 1 (-3) : Double accurate).Is (lit 1 (-3) : Double accurate).raw.toRat := ⟨by decide +kernel, rfl⟩
  have h4 : 1 / 10 ^ 4 ≤ (lit 1 (-3) : Double accurate).raw.toRat := by decide +kernel
  have hp : ∀ i : Fin 2, parse (![("x+y-3").toList, "x^2+sqrt(y)+exp(x*y)*y^2+0.001".toList] i) = .ok (embed
      (![.bin .sub (.bin .add (.var ['x']) (.var ['y'])) (.num (lit 3 0)),
        .bin .add (.bin .add (.bin .add (.bin .pow (.var ['x']) (.num (lit 2 0))) (.un .sqrt (.var ['y'])))
          (.bin .mul (.un .exp (.bin .mul (.var ['x']) (.var ['y']))) (.bin .pow (.var ['y']) (.num (lit 2 0))))) (.num (lit 1 (-3)))] i : Expr (Double accurate))) := by
    decide +kernel
  refine C135_text accurate_signs he hb.1 (n := 2) (by norm_num) hp (i := 1) (s := true) ?_ lsFuel fuel t'
  refine .addRight (.addLeft (.addLeft (.square h2) .sqrt) (.mul .exp (.square h2))) (.num h3 ?_)
  exact hb.2.trans h4

end Double
end Tom
