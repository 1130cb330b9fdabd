import Verif.Spec.Session
/-
Several programs over `Node` variables, their statements interleaved in any way.
-/
namespace Tom
variable {α : Type}

/-- the `Node` variables a statement mentions -/
def Stmt.names : Stmt α → List Str
  | .num x _ => [x]
  | .var x _ => [x]
  | .parse x _ => [x]
  | .clone x y => [x, y]
  | .move x y => [x, y]
  | .unary x _ o => [x, o.source]
  | .binary x _ o1 o2 => [x, o1.source, o2.source]
  | .compound _ x o => [x, o.source]
  | .subs x o _ images => x :: o.source :: images
  | .subsValues x o _ => [x, o.source]
  | .simplify x => [x]
  | .diff x o _ _ => [x, o.source]

/-- A schedule lists which thread executes which statement next; this is the program of thread `i` in it. -/
def thread {ι : Type} [DecidableEq ι] (i : ι) (cs : List (ι × Stmt α)) : List (Stmt α) :=
  (cs.filter fun p => p.1 = i).map Prod.snd

end Tom
