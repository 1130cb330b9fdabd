import Verif.Spec.Derivative
import Verif.Spec.Rounding
import Verif.Spec.DoubleSimplify
/-
What C96 asks of an expression.
-/
namespace Tom

/-- The rules of differentiation produce no rounded literal: literals are finite, there is no `log2`, `log10` (whose rules contain the
rounded constants `log(2)`, `log(10)`), and for every literal exponent `c`, `c - 1` is a double (all integers up to `2^53`, all
`c` between 1/2 and 2, ...). -/
def Expr.ExactRules {L : Libm} : Expr (Double L) → Prop
  | .num x => Dbl.isInvalid x = false
  | .var _ => True
  | .un o e => o ≠ .log2 ∧ o ≠ .log10 ∧ e.ExactRules
  | .bin o a b => a.ExactRules ∧ b.ExactRules ∧ (o = .pow → ∀ c, b = .num c → IsDouble (c.raw.toRat - 1))

open Classical in
/-- How far the double a rule of differentiation writes down may be from the literal `r` meant: the rules write integers, the literals
of the expression, `c - 1` for a literal exponent `c` (rounded), and `log(2)`, `log(10)` as libm computes them. -/
noncomputable def ruleLiteralError (δ r : ℝ) : ℝ :=
  if IsDoubleReal r ∧ r ≠ Real.log 2 ∧ r ≠ Real.log 10 then 0 else max δ (1 / 2 ^ 53) * |r| + 1 / 2 ^ 1074

open Classical in
/-- The exact value of a derivative written out over the reals, with a bound for the error of evaluating it with doubles, the rounding of
its literals included.  As `enclosure`, but for an expression over the reals. -/
noncomputable def ruleEnclosure (δ : ℝ) (ρ : Str → ℝ) : Expr (XNum ℝ) → Option (ℝ × ℝ)
  | .num v => v.val?.bind fun r => if IsDoubleReal r ∨ |r| < 2 ^ 1023 then some (r, ruleLiteralError δ r) else none
  | .var s => some (ρ s, 0)
  | .un o e => (ruleEnclosure δ ρ e).bind fun (v, E) => (o.real v).bind fun r => (o.spread v E).bind fun D =>
      if |r| + D < 2 ^ 1023 then some (r, D + o.roundoff δ r D) else none
  | .bin o a b => (ruleEnclosure δ ρ a).bind fun (v, E) => (ruleEnclosure δ ρ b).bind fun (w, F) => (o.real v w).bind fun r =>
      (o.spread v E w F).bind fun D => if |r| + D < 2 ^ 1023 then some (r, D + o.roundoff δ r D) else none

end Tom
