import Verif.Spec.Printing
/-
Specification for property C112: where a minus sign of a literal meets another sign.
-/
namespace Tom
variable {α : Type}

/-- No negative literal is the operand of a sign, or the right operand of `-`. -/
def Expr.SignsApart [Dbl α] : Expr α → Prop
  | .num _ => True
  | .var _ => True
  | .un o e => e.SignsApart ∧ (o = .pos ∨ o = .neg → ∀ v, e = .num v → Arith.lt v (Dbl.ofInt 0) = false)
  | .bin o a b => a.SignsApart ∧ b.SignsApart ∧ (o = .sub → ∀ v, b = .num v → Arith.lt v (Dbl.ofInt 0) = false)

end Tom
