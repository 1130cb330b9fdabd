import Verif.Model.Ops
/-
Models the node representation and the constructors of src/tomsolver/node.h / node.cpp / functions.h.
-/
namespace Tom

/-- node.h:17 `enum class NodeType`. -/
inductive NodeType
  | number | operator | variable
  deriving DecidableEq, Repr

/-- `Node = std::unique_ptr<NodeImpl>` (node.h:28, 35-90).  `nil` is the null pointer.  The `parent` field
is left out here: it is a function of the position in the tree as long as the links are right, which
is the separate heap model (Model/Links) and property C52. -/
inductive Raw (α : Type) : Type
  | nil
  | mk (type : NodeType) (op : MathOp) (value : α) (varname : Str) (left right : Raw α)
  deriving Repr, DecidableEq

namespace Raw
variable {α : Type}

/-- `node != nullptr` -/
def isSome : Raw α → Bool
  | nil => false
  | mk .. => true

/-- `n->left` (of a non-null node; `nil` otherwise) -/
def left : Raw α → Raw α
  | nil => nil
  | mk _ _ _ _ l _ => l

/-- `n->right` -/
def right : Raw α → Raw α
  | nil => nil
  | mk _ _ _ _ _ r => r

/-- `n && n->type == NodeType::NUMBER` -/
def isNumber : Raw α → Bool
  | mk .number _ _ _ _ _ => true
  | _ => false

/-- `n && n->type == NodeType::VARIABLE` -/
def isVariable : Raw α → Bool
  | mk .variable _ _ _ _ _ => true
  | _ => false

/-- `n && n->type == NodeType::OPERATOR` -/
def isOperator : Raw α → Bool
  | mk .operator _ _ _ _ _ => true
  | _ => false

/-- `n->op` -/
def op : Raw α → MathOp
  | nil => .null
  | mk _ o _ _ _ _ => o

/-- number of nodes -/
def size : Raw α → Nat
  | nil => 0
  | mk _ _ _ _ l r => l.size + r.size + 1

end Raw

variable {α : Type} [Dbl α]

/-- node.cpp:652-654 `Num` -/
def mkNum (v : α) : Raw α := .mk .number .null v [] .nil .nil

/-- node.cpp:656-661 `Op`: throws for `MATH_NULL`, otherwise a childless operator node. -/
def mkOp (op : MathOp) : Res (Raw α) :=
  if op = .null then .throw .runtime else .ok (.mk .operator op (Dbl.ofInt 0) [] .nil .nil)

/-- node.cpp:663-665 `VarNameIsLegal`: the regex `(?=\w)\D\w*` matched against the whole name; `\w` is
`[A-Za-z0-9_]`, `\D` is anything but a digit (ECMAScript, classic locale). -/
def isWordChar (c : Char) : Bool :=
  ('a' ≤ c && c ≤ 'z') || ('A' ≤ c && c ≤ 'Z') || ('0' ≤ c && c ≤ '9') || c == '_'

/-- `\d` -/
def isDigitChar (c : Char) : Bool := '0' ≤ c && c ≤ '9'

/-- node.cpp:663-665 -/
def varNameIsLegal : Str → Bool
  | [] => false
  | c :: cs => isWordChar c && !isDigitChar c && cs.all isWordChar

/-- A variable node, as `std::make_unique<NodeImpl>(VARIABLE, MATH_NULL, 0, varname)` (node.cpp:671). -/
def varNode (name : Str) : Raw α := .mk .variable .null (Dbl.ofInt 0) name .nil .nil

/-- node.cpp:667-672 `Var` -/
def mkVar (name : Str) : Res (Raw α) :=
  if varNameIsLegal name then .ok (varNode name) else .throw .runtime

/-- node.h:173-177 `UnaryOperator` on values: the operand becomes the left child.  (Which operand object is
copied and which is moved-from is the subject of Model/Links.) -/
def unaryNode (op : MathOp) (l : Raw α) : Raw α := .mk .operator op (Dbl.ofInt 0) [] l .nil

/-- node.h:180-185 `BinaryOperator` on values. -/
def binaryNode (op : MathOp) (l r : Raw α) : Raw α := .mk .operator op (Dbl.ofInt 0) [] l r

end Tom
