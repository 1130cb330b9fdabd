import Verif.Spec.Rounding
import Verif.Spec.Printing
/-
What C130 says about an expression that is printed and read again, with IEEE doubles as literals.
-/
namespace Tom
variable {L : Libm}

/-- A literal that `ToString` writes in fixed-point notation: zero, or from `2e-16` up to `1e16` in absolute value. -/
def Double.FixedPoint (v : Double L) : Prop := ∃ p : ℚ, v.Is p ∧ (p = 0 ∨ 2 / 10 ^ 16 ≤ |p| ∧ |p| < 10 ^ 16)

/-- A literal before and after: the same number if it is zero or at least one half in absolute value; otherwise they differ by at most `1e-16`, and
the sign is the same. -/
def RereadLiteral (v v' : Double L) : Prop := ∃ p p' : ℚ, v.Is p ∧ v'.Is p' ∧ |p' - p| ≤ 1 / 10 ^ 16 ∧ (p < 0 ↔ p' < 0) ∧
  (0 < p ↔ 0 < p') ∧ (p = 0 ∨ 1 / 2 ≤ |p| → p' = p)

/-- The same expression, with literals related by `RereadLiteral`. -/
inductive Reread : Expr (Double L) → Expr (Double L) → Prop
  | num {v v' : Double L} : RereadLiteral v v' → Reread (.num v) (.num v')
  | var (x : Str) : Reread (.var x) (.var x)
  | un (o : UnOp) {a b : Expr (Double L)} : Reread a b → Reread (.un o a) (.un o b)
  | bin (o : BinOp) {a b c d : Expr (Double L)} : Reread a b → Reread c d → Reread (.bin o a c) (.bin o b d)

open Classical in
/-- The exact value of an expression, with a bound for the error when its literals are replaced as `RereadLiteral` says and it is then evaluated with
doubles; as `enclosure` (Spec/Rounding.lean), where literals have no error. -/
noncomputable def rereadEnclosure (δ : ℝ) (ρ : Str → ℝ) : Expr (Double L) → Option (ℝ × ℝ)
  | .num x => if Dbl.isInvalid x then none
      else some (x.raw.toRat, if x.raw.toRat = 0 ∨ 1 / 2 ≤ |x.raw.toRat| then 0 else 1 / 10 ^ 16)
  | .var s => some (ρ s, 0)
  | .un o e => (rereadEnclosure δ ρ e).bind fun (v, E) => (o.real v).bind fun r => (o.spread v E).bind fun D =>
      if |r| + D < 2 ^ 1023 then some (r, D + o.roundoff δ r D) else none
  | .bin o a b => (rereadEnclosure δ ρ a).bind fun (v, E) => (rereadEnclosure δ ρ b).bind fun (w, F) => (o.real v w).bind fun r =>
      (o.spread v E w F).bind fun D => if |r| + D < 2 ^ 1023 then some (r, D + o.roundoff δ r D) else none

end Tom
