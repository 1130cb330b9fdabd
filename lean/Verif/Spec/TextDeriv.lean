import Verif.Spec.TextValue
import Verif.Spec.DoubleDiff
/-
The derivative of an expression as it is written in a text, with a bound for what reading the text, `Diff` and evaluating with doubles
make of it.  As `ruleEnclosure` in Spec/DoubleDiff.lean, but the literals of the text are real numbers too.
-/
namespace Tom

open Classical in
/-- How far the double that stands for the literal `r` of a derivative may be from `r`: the text's literals are rounded when they are read,
`c - 1` for a literal exponent `c` is rounded once more, `log(2)` and `log(10)` are computed by libm; nothing if `r` and `r + 1` are doubles. -/
noncomputable def writtenLiteralError (δ r : ℝ) : ℝ :=
  if IsDoubleReal r ∧ IsDoubleReal (r + 1) ∧ r ≠ Real.log 2 ∧ r ≠ Real.log 10 then 0 else 3 * max δ (1 / 2 ^ 53) * (|r| + 1)

open Classical in
/-- The exact value of a derivative written out over the reals, with a bound for the error of computing it from the text with doubles;
`none` if it has no value, if a number may reach `2^1023`, or if no bound is known. -/
noncomputable def writtenEnclosure (δ : ℝ) (ρ : Str → ℝ) : Expr (XNum ℝ) → Option (ℝ × ℝ)
  | .num v => v.val?.bind fun r => if |r| < 2 ^ 1022 then some (r, writtenLiteralError δ r) else none
  | .var s => some (ρ s, 0)
  | .un o e => (writtenEnclosure δ ρ e).bind fun (v, E) => (o.real v).bind fun r => (o.spread v E).bind fun D =>
      if |r| + D < 2 ^ 1023 then some (r, D + o.roundoff δ r D) else none
  | .bin o a b => (writtenEnclosure δ ρ a).bind fun (v, E) => (writtenEnclosure δ ρ b).bind fun (w, F) => (o.real v w).bind fun r =>
      (o.spread v E w F).bind fun D => if |r| + D < 2 ^ 1023 then some (r, D + o.roundoff δ r D) else none

/-- the literals of an expression are real numbers that are read with full precision -/
def Expr.NormalLiterals (e : Expr (XNum ℝ)) : Prop := ∀ v ∈ e.nums, ∃ r, v = .fin r ∧ NormalLiteral r

end Tom
