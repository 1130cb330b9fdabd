import Verif.Spec.Rounding
import Verif.Spec.Grammar
/-
The exact value of an expression as it is written, with a bound for what computing with doubles makes of it.  As `enclosure` in
Spec/Rounding.lean, but literals are the real numbers written in the text, and reading them as doubles is part of the error.
-/
namespace Tom

open Classical in
/-- the error of reading a literal of the value `r` as a double: half a unit of the last place, nothing if `r` is a double -/
noncomputable def literalError (r : ℝ) : ℝ := if IsDoubleReal r then 0 else 1 / 2 ^ 53 * |r|

/-- a literal that is neither too small nor too large for full precision -/
def NormalLiteral (r : ℝ) : Prop := r = 0 ∨ (1 / 2 ^ 1022 ≤ |r| ∧ |r| < 2 ^ 1023)

open Classical in
/-- The exact value of an expression, with a bound for the error of reading its literals as doubles and evaluating it with doubles; `none`
if it has no value, if a number may reach `2^1023`, if a literal is below `2^-1022`, or if no bound is known. -/
noncomputable def textEnclosure (δ : ℝ) (ρ : Str → ℝ) : Expr (XNum ℝ) → Option (ℝ × ℝ)
  | .num v => v.val?.bind fun r => if NormalLiteral r then some (r, literalError r) else none
  | .var s => some (ρ s, 0)
  | .un o e => (textEnclosure δ ρ e).bind fun (v, E) => (o.real v).bind fun r => (o.spread v E).bind fun D =>
      if |r| + D < 2 ^ 1023 then some (r, D + o.roundoff δ r D) else none
  | .bin o a b => (textEnclosure δ ρ a).bind fun (v, E) => (textEnclosure δ ρ b).bind fun (w, F) => (o.real v w).bind fun r =>
      (o.spread v E w F).bind fun D => if |r| + D < 2 ^ 1023 then some (r, D + o.roundoff δ r D) else none

end Tom
