import Verif.Model.Double
import Verif.Spec.SymMatrix
/-
What C132 says: two machines whose `<cmath>` agree on some functions, and expressions that use only those.
-/
namespace Tom

/-- Two machines: the functions in `S` (and `pow`, if `P`) give the same results on both, and `valarray::sum` adds in the same order.
Nothing is said about the other functions. -/
structure Libm.Agree (L L' : Libm) (S : UnOp → Prop) (P : Prop) : Prop where
  un : ∀ o, S o → ∀ x : B64, (UnOp.apply (α := Double L) o x : B64) = UnOp.apply (α := Double L') o x
  pow : P → L.pow = L'.pow
  order : L.sumOrder = L'.sumOrder

/-- The expression calls only functions in `S`, and `^` only if `P`. -/
def Expr.OnlyUses {α : Type} (S : UnOp → Prop) (P : Prop) : Expr α → Prop
  | .num _ | .var _ => True
  | .un o e => (o = .pos ∨ o = .neg ∨ S o) ∧ e.OnlyUses S P
  | .bin o a b => (o = .pow → P) ∧ a.OnlyUses S P ∧ b.OnlyUses S P

/-- the functions the rule of differentiation of a function brings in -/
def UnOp.rule : UnOp → List UnOp
  | .sin => [.cos]
  | .cos => [.sin]
  | .tan => [.cos]
  | .asin | .acos => [.sqrt]
  | .log2 | .log10 => [.log]
  | _ => []

/-- the functions whose rule of differentiation brings in a square -/
def UnOp.ruleHasSquare : UnOp → Prop
  | .tan | .asin | .acos | .atan => True
  | _ => False

/-- The expression and its derivatives of first order call only functions in `S`, and `^` only if `P`. -/
def Expr.WithDerivOnlyUses {α : Type} (S : UnOp → Prop) (P : Prop) : Expr α → Prop
  | .num _ | .var _ => True
  | .un o e => (o = .pos ∨ o = .neg ∨ S o) ∧ (∀ o' ∈ o.rule, S o') ∧ (o.ruleHasSquare → P) ∧ e.WithDerivOnlyUses S P
  | .bin o a b => (o = .pow → P ∧ (b.isNum = true ∨ S .log)) ∧ (o = .div → b.isNum = true ∨ P) ∧
      a.WithDerivOnlyUses S P ∧ b.WithDerivOnlyUses S P

/-- The expression is written with literals, variables, signs, `+ - *`, `& | %`, and division by literals. -/
def Expr.Arithmetical {α : Type} (e : Expr α) : Prop := e.WithDerivOnlyUses (fun _ => False) False

end Tom
