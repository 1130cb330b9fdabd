import Verif.Model.Session
import Verif.Spec.Links
import Verif.Spec.Expr
/-
What a program over `Node` variables means when variables hold expressions, not pointers: operands passed as lvalues are copied,
operands passed as rvalues are taken and leave an empty variable.
-/
namespace Tom
variable {α : Type}

/-- the variables without addresses and parent pointers -/
def eraseEnv (env : Env α) : VEnv α := fun x => (env x).erase

/-- Every variable holds a tree with right parent pointers and no parent; no object belongs to two places. -/
structure EnvSound (n : Nat) (env : Env α) : Prop where
  sound : ∀ x, Sound n (env x)
  apart : ∀ x y, x ≠ y → ∀ a, occurs a (env x) = 0 ∨ occurs a (env y) = 0

/-- every variable is empty or holds an expression -/
def Holds [Dbl α] (env : VEnv α) : Prop := ∀ x, env x = .nil ∨ ∃ e, env x = embed e

/-- the variable an operand is -/
def Operand.source : Operand → Str
  | .lvalue y => y
  | .rvalue y => y

/-- the variables after an operand has been used: `std::move(y)` leaves `y` empty -/
def Operand.leaves (o : Operand) (env : VEnv α) : VEnv α :=
  match o with
  | .lvalue _ => env
  | .rvalue y => fun x => if x = y then .nil else env x

/-- the meaning of a statement -/
def Stmt.value [Dbl α] (cfg : Config α) (env : VEnv α) : Stmt α → Res (VEnv α)
  | .num x v => .ok (env.set x (mkNum v))
  | .var x name => do
    let t ← mkVar name
    .ok (env.set x t)
  | .parse x text => do
    let t ← Tom.parse text
    .ok (env.set x t)
  | .clone x y => if (env y).isSome then .ok (env.set x (env y)) else .ub
  | .move x y => .ok ((env.set y .nil).set x (env y))
  | .unary x op o =>
    if (env o.source).isSome then .ok ((o.leaves env).set x (unaryNode op (env o.source))) else .ub
  | .binary x op o1 o2 =>
    if (env o1.source).isSome ∧ (o1.leaves env o2.source).isSome then
      .ok ((o2.leaves (o1.leaves env)).set x (binaryNode op (env o1.source) (o1.leaves env o2.source)))
    else .ub
  | .compound op x o =>
    if (env x).isSome ∧ (env.set x .nil o.source).isSome then
      .ok ((o.leaves (env.set x .nil)).set x (binaryNode op (env x) (env.set x .nil o.source)))
    else .ub
  | .subs x (.lvalue y) names images => do
    let t ← subsVecConst (env y) names (images.map env)
    .ok (env.set x t)
  | .subs x (.rvalue y) names images => do
    let t ← subsVec (env y) names (images.map env)
    .ok ((env.set y .nil).set x t)
  | .subsValues x (.lvalue y) values => do
    let t ← subsValuesConst (env y) values
    .ok (env.set x t)
  | .subsValues x (.rvalue y) values => do
    let t ← Tom.subsValues (env y) values
    .ok ((env.set y .nil).set x t)
  | .simplify x => do
    let t ← Tom.simplify cfg (env x)
    .ok (env.set x t)
  | .diff x (.lvalue y) name i => do
    let t ← diffConst cfg (env y) name i
    .ok (env.set x t)
  | .diff x (.rvalue y) name i => do
    let t ← Tom.diff cfg (env y) name i
    .ok ((env.set y .nil).set x t)

/-- the variables after a statement that throws: nothing is assigned; only `Diff(std::move(y), ...)` has already taken `y` -/
def Stmt.leaves (env : VEnv α) : Stmt α → VEnv α
  | .diff _ (.rvalue y) _ _ => fun x => if x = y then .nil else env x
  | _ => env

/-- the meaning of a program -/
def meaning [Dbl α] (cfg : Config α) : List (Stmt α) → VEnv α → Res (VEnv α)
  | [], env => .ok env
  | s :: ss, env =>
    match s.value cfg env with
    | .ok env' => meaning cfg ss env'
    | .throw _ => meaning cfg ss (s.leaves env)
    | .ub => .ub
    | .terminate => .terminate
    | .assertFail => .assertFail
    | .diverge => .diverge

/-- the operators of unary and binary statements have one and two operands -/
def Stmt.Proper : Stmt α → Prop
  | .unary _ op _ => ∃ f : UnOp, op = f.toMathOp
  | .binary _ op _ _ => ∃ f : BinOp, op = f.toMathOp
  | .compound op _ _ => ∃ f : BinOp, op = f.toMathOp
  | _ => True

end Tom
