import Verif.Spec.Expr
/-
Measures of expressions, for the statements about how large results can become.
-/
namespace Tom
namespace Expr
variable {α : Type}

/-- Number of nodes on the longest path from the root to a leaf. -/
def height : Expr α → Nat
  | num _ => 1
  | var _ => 1
  | un _ e => e.height + 1
  | bin _ a b => max a.height b.height + 1

/-- The literals of an expression. -/
def literals : Expr α → List α
  | num v => [v]
  | var _ => []
  | un _ e => e.literals
  | bin _ a b => a.literals ++ b.literals

/-- How often a variable occurs. -/
def occurrences (x : Str) : Expr α → Nat
  | num _ => 0
  | var y => if y = x then 1 else 0
  | un _ e => e.occurrences x
  | bin _ a b => a.occurrences x + b.occurrences x

/-- The number of operators and functions in an expression. -/
def operators : Expr α → Nat
  | num _ => 0
  | var _ => 0
  | un _ e => e.operators + 1
  | bin _ a b => a.operators + b.operators + 1

end Expr
end Tom
