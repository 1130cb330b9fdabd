import Verif.Spec.Expr
/-
Small specifications used by the properties about whole-tree operations.
-/
namespace Tom
variable {α : Type} [Dbl α]

/-- Same shape, same operators, same variable names, literals equal under IEEE `==`. -/
inductive SameExpr : Expr α → Expr α → Prop
  | num {v w : α} : Arith.eq v w = true → SameExpr (.num v) (.num w)
  | var (x : Str) : SameExpr (.var x) (.var x)
  | un (o : UnOp) {a b : Expr α} : SameExpr a b → SameExpr (.un o a) (.un o b)
  | bin (o : BinOp) {a b c d : Expr α} : SameExpr a b → SameExpr c d → SameExpr (.bin o a c) (.bin o b d)

/-- The literals of an expression. -/
def Expr.nums : Expr α → List α
  | .num v => [v]
  | .var _ => []
  | .un _ e => e.nums
  | .bin _ a b => a.nums ++ b.nums

/-- Does the expression contain one of `& | %`? -/
def Expr.hasIntOp : Expr α → Bool
  | .num _ => false
  | .var _ => false
  | .un _ e => e.hasIntOp
  | .bin o a b => (o == .and || o == .or || o == .mod) || a.hasIntOp || b.hasIntOp

/-- ASCII letter, digit or underscore, by character code. -/
def LegalNameChar (c : Char) : Prop :=
  (97 ≤ c.toNat ∧ c.toNat ≤ 122) ∨ (65 ≤ c.toNat ∧ c.toNat ≤ 90) ∨ (48 ≤ c.toNat ∧ c.toNat ≤ 57) ∨ c.toNat = 95

/-- A legal variable name. -/
def LegalName (s : Str) : Prop :=
  (∀ c ∈ s, LegalNameChar c) ∧ ∃ c cs, s = c :: cs ∧ ¬ (48 ≤ c.toNat ∧ c.toNat ≤ 57)

/-- The `i`-th binary digit of an integer in (infinite) two's complement is 1. -/
def bit1 (a : Int) (i : Nat) : Prop := (a / 2 ^ i) % 2 = 1

/-- No operator has only literal operands. -/
def Expr.NoConstOp : Expr α → Prop
  | .num _ => True
  | .var _ => True
  | .un _ e => e.isNum = false ∧ e.NoConstOp
  | .bin _ a b => ¬ (a.isNum = true ∧ b.isNum = true) ∧ a.NoConstOp ∧ b.NoConstOp

end Tom
