import Verif.Model.Node
/-
Models tests/helper.cpp `CreateRandomExpresionTree`: an expression is built by the operator overloads while the same computation is made
with `double`s.  The random choices are a list.  (`num - v` etc. are the operations of `double`; the overloads are value-level, see
Model/Links for copies and moves.)
-/
namespace Tom
variable {α : Type} [Dbl α]

/-- helper.cpp:20-23 the operations chosen from -/
inductive HelperOp
  | positive | negative | add | sub | multiply | divide | sin | cos | tan | arcsin | arccos | arctan
  deriving DecidableEq, Repr

/-- helper.cpp:30-33 what is drawn in a round: an operation, a number, and on which side the number goes -/
structure HelperChoice (α : Type) where
  op : HelperOp
  num : α
  front : Bool

/-- helper.cpp:30-117 one round of the loop; `none` is `continue` (the round does not count) -/
def helperRound (s : Raw α × α) (c : HelperChoice α) : Option (Raw α × α) :=
  let node := s.1
  let v := s.2
  match c.op with
  | .positive => some (unaryNode .positive node, v)
  | .negative => some (unaryNode .negative node, Arith.neg v)
  | .add =>
    if c.front then some (binaryNode .add (mkNum c.num) node, Arith.add c.num v)
    else some (binaryNode .add node (mkNum c.num), Arith.add v c.num)
  | .sub =>
    if c.front then some (binaryNode .sub (mkNum c.num) node, Arith.sub c.num v)
    else some (binaryNode .sub node (mkNum c.num), Arith.sub v c.num)
  | .multiply =>
    if c.front then some (binaryNode .mul (mkNum c.num) node, Arith.mul c.num v)
    else some (binaryNode .mul node (mkNum c.num), Arith.mul v c.num)
  | .divide =>
    if c.front then
      if Arith.eq v (Dbl.ofInt 0) then none else some (binaryNode .div (mkNum c.num) node, Arith.div c.num v)
    else
      if Arith.eq c.num (Dbl.ofInt 0) then none else some (binaryNode .div node (mkNum c.num), Arith.div v c.num)
  | .sin => some (unaryNode .sin node, Dbl.sin v)
  | .cos => some (unaryNode .cos node, Dbl.cos v)
  | .tan => some (unaryNode .tan node, Dbl.tan v)
  | .arcsin =>
    if Arith.lt v (Dbl.ofInt (-1)) || Arith.lt (Dbl.ofInt 1) v then none else some (unaryNode .arcsin node, Dbl.asin v)
  | .arccos =>
    if Arith.lt v (Dbl.ofInt (-1)) || Arith.lt (Dbl.ofInt 1) v then none else some (unaryNode .arccos node, Dbl.acos v)
  | .arctan => some (unaryNode .arctan node, Dbl.atan v)

/-- helper.cpp:28-120: rounds until `len` of them have counted, or the choices are used up (in the program they never are) -/
def helperLoop : Nat → List (HelperChoice α) → Raw α × α → Raw α × α
  | 0, _, s => s
  | _, [], s => s
  | len + 1, c :: cs, s =>
    match helperRound s c with
    | none => helperLoop (len + 1) cs s
    | some s => helperLoop len cs s

/-- helper.cpp:15-122 `CreateRandomExpresionTree(len)`, with the first number and the choices drawn -/
def createRandomTree (len : Nat) (v : α) (choices : List (HelperChoice α)) : Raw α × α :=
  helperLoop len choices (mkNum v, v)

end Tom
