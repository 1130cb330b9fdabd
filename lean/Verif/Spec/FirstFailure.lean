import Verif.Spec.Printing
import Verif.Spec.Expr
/-
Which operation of an expression is the first one that fails, and how it is written.
-/
namespace Tom
variable {α : Type} [Dbl α]

/-- The parts of an expression (itself included) in the order of evaluation: first the parts of the left operand, then those of the right
operand, then the operation itself. -/
def Expr.parts : Expr α → List (Expr α)
  | .num v => [.num v]
  | .var x => [.var x]
  | .un o e => e.parts ++ [.un o e]
  | .bin o a b => a.parts ++ b.parts ++ [.bin o a b]

/-- The part has a value (all operations in it give finite numbers if `strict`). -/
def Expr.HasValue (strict : Bool) (e : Expr α) : Prop := ∃ v, e.eval strict noEnv = .ok v

/-- The operands of the operation have values (`strict`), but it gives inf or nan itself; `words` are the operation and the operands as
numbers, in the order of reading. -/
inductive Invalid : Expr α → List Str → Prop
  | un {o : UnOp} {e : Expr α} {v : α} : e.eval true noEnv = .ok v → Dbl.isInvalid (o.apply v) = true →
      Invalid (.un o e) [o.text, Dbl.toStr v]
  | bin {o : BinOp} {a b : Expr α} {x y v : α} : a.eval true noEnv = .ok x → b.eval true noEnv = .ok y → o.apply x y = some v →
      Dbl.isInvalid v = true → Invalid (.bin o a b) [Dbl.toStr x, [o.char], Dbl.toStr y]

/-- the words, separated by blanks -/
def sentence : List Str → Str
  | [] => []
  | [w] => w
  | w :: ws => w ++ ' ' :: sentence ws

end Tom
