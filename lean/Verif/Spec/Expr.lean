import Verif.Model.Node
/-
Specification side: well-formed expression trees and what it means to evaluate them.  Nothing here refers to
the algorithms of the model; `embed` says which node tree represents an expression.
-/
namespace Tom

/-- Prefix signs and the eleven functions. -/
inductive UnOp
  | pos | neg | sin | cos | tan | asin | acos | atan | sqrt | log | log2 | log10 | exp
  deriving DecidableEq, Repr

/-- Binary operators `+ - * / ^ & | %`. -/
inductive BinOp
  | add | sub | mul | div | pow | and | or | mod
  deriving DecidableEq, Repr

/-- Expressions. -/
inductive Expr (α : Type) : Type
  | num (v : α)
  | var (x : Str)
  | un (o : UnOp) (e : Expr α)
  | bin (o : BinOp) (a b : Expr α)
  deriving DecidableEq, Repr

/-- The enum value the code uses for a unary operator. -/
def UnOp.toMathOp : UnOp → MathOp
  | pos => .positive | neg => .negative | sin => .sin | cos => .cos | tan => .tan | asin => .arcsin
  | acos => .arccos | atan => .arctan | sqrt => .sqrt | log => .log | log2 => .log2 | log10 => .log10
  | exp => .exp

/-- The enum value the code uses for a binary operator. -/
def BinOp.toMathOp : BinOp → MathOp
  | add => .add | sub => .sub | mul => .mul | div => .div | pow => .pow | and => .and | or => .or | mod => .mod

variable {α : Type} [Dbl α]

/-- The node tree that represents an expression. -/
def embed : Expr α → Raw α
  | .num v => .mk .number .null v [] .nil .nil
  | .var x => .mk .variable .null (Dbl.ofInt 0) x .nil .nil
  | .un o e => .mk .operator o.toMathOp (Dbl.ofInt 0) [] (embed e) .nil
  | .bin o a b => .mk .operator o.toMathOp (Dbl.ofInt 0) [] (embed a) (embed b)

namespace Expr

/-- The variables of an expression, with repetitions. -/
def vars : Expr α → List Str
  | num _ => []
  | var x => [x]
  | un _ e => e.vars
  | bin _ a b => a.vars ++ b.vars

/-- Number of nodes. -/
def size : Expr α → Nat
  | num _ => 1
  | var _ => 1
  | un _ e => e.size + 1
  | bin _ a b => a.size + b.size + 1

/-- Is it a literal? -/
def isNum : Expr α → Bool
  | num _ => true
  | _ => false

/-- Is it a variable? -/
def isVar : Expr α → Bool
  | var _ => true
  | _ => false

end Expr

/-- Meaning of the unary operators as double functions. -/
def UnOp.apply : UnOp → α → α
  | pos, x => x
  | neg, x => Arith.neg x
  | sin, x => Dbl.sin x
  | cos, x => Dbl.cos x
  | tan, x => Dbl.tan x
  | asin, x => Dbl.asin x
  | acos, x => Dbl.acos x
  | atan, x => Dbl.atan x
  | sqrt, x => Dbl.sqrt x
  | log, x => Dbl.log x
  | log2, x => Dbl.log2 x
  | log10, x => Dbl.log10 x
  | exp, x => Dbl.exp x

/-- Meaning of the binary operators; `none` where C++ leaves the behaviour undefined (integer operators on
operands that do not fit in `int`, remainder by zero, `INT_MIN % -1`). -/
def BinOp.apply : BinOp → α → α → Option α
  | add, x, y => some (Arith.add x y)
  | sub, x, y => some (Arith.sub x y)
  | mul, x, y => some (Arith.mul x y)
  | div, x, y => some (Arith.div x y)
  | pow, x, y => some (Dbl.pow x y)
  | and, x, y => do
    let a ← Dbl.toInt32 x
    let b ← Dbl.toInt32 y
    return Dbl.ofInt (cAnd a b)
  | or, x, y => do
    let a ← Dbl.toInt32 x
    let b ← Dbl.toInt32 y
    return Dbl.ofInt (cOr a b)
  | mod, x, y => do
    let a ← Dbl.toInt32 x
    let b ← Dbl.toInt32 y
    if b = 0 ∨ (a = -2147483648 ∧ b = -1) then none else some (Dbl.ofInt (a.tmod b))

/-- A computed value: rejected with `INVALID_NUMBER` when it is inf/nan and the configuration asks for it. -/
def checked (strict : Bool) (v : α) : Res α :=
  if strict && Dbl.isInvalid v then .throw (.math .invalidNumber) else .ok v

/-- Recursive evaluation of an expression in an environment, left operand first. -/
def Expr.eval (strict : Bool) (env : Str → Res α) : Expr α → Res α
  | num v => .ok v
  | var x => env x
  | un o e => do
    let v ← e.eval strict env
    checked strict (o.apply v)
  | bin o a b => do
    let x ← a.eval strict env
    let y ← b.eval strict env
    match o.apply x y with
    | none => .ub
    | some v => checked strict v

/-- The environment in which no variable has a value. -/
def noEnv : Str → Res α := fun _ => .throw .runtime

/-- The expression contains no `exp(y)` applied to a bare variable other than `x`. -/
def Expr.NoForeignExp (x : Str) : Expr α → Prop
  | .num _ => True
  | .var _ => True
  | .un o e => (o = .exp → ∀ y, e = .var y → y = x) ∧ e.NoForeignExp x
  | .bin _ a b => a.NoForeignExp x ∧ b.NoForeignExp x

end Tom
