import Verif.Model.Double
import Verif.Spec.Printing
import Verif.Spec.Tree
/-
What C82 asks of the mathematical library, and the points it leaves out.
-/
namespace Tom

/-- What the C standard (annex F) says of the functions of `<cmath>` at zeros and of `pow` at 1, as far as Simplify relies on it: where the
result is finite, it does not depend on the sign of a zero argument (up to the sign of a zero result); `pow(x, 1)` is `x`; `pow(0, y)`
is zero or not finite for `y ≠ 0`. -/
structure Libm.AnnexF (L : Libm) : Prop where
  un : ∀ (o : UnOp) (x x' : Double L) (p r : ℚ), o ≠ .pos → o ≠ .neg → x.Is p → x'.Is p → (o.apply x).Is r → (o.apply x').Is r
  pow : ∀ (x x' y y' : Double L) (p s r : ℚ), x.Is p → x'.Is p → y.Is s → y'.Is s → (Dbl.pow x y).Is r → (Dbl.pow x' y').Is r
  pow_one : ∀ (x y : Double L) (p : ℚ), x.Is p → y.Is 1 → (Dbl.pow x y).Is p
  zero_pow : ∀ (x y : Double L) (s r : ℚ), x.Is 0 → y.Is s → s ≠ 0 → (Dbl.pow x y).Is r → r = 0

/-- No subexpression `a ^ b` whose exponent contains a variable has a base and an exponent that both evaluate to zero. -/
def Expr.NoZeroPow {L : Libm} (env : Str → Res (Double L)) : Expr (Double L) → Prop
  | .num _ => True
  | .var _ => True
  | .un _ e => e.NoZeroPow env
  | .bin o a b => (o = .pow → b.vars ≠ [] → ¬ ∃ x y, a.eval true env = .ok x ∧ b.eval true env = .ok y ∧ x.Is 0 ∧ y.Is 0) ∧
      a.NoZeroPow env ∧ b.NoZeroPow env

/-- The environment of a table of values. -/
def tableEnv {α : Type} (values : List (Str × α)) : Str → Res α := fun x =>
  match values.lookup x with
  | some v => .ok v
  | none => .throw .runtime

end Tom
