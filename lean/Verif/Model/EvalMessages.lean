import Verif.Model.Messages
import Verif.Model.Tree
/-
Evaluation again with the texts of its exceptions: math_operator.cpp:273-371 `Calc` and node.cpp:428-494 `VpaNonRecursively`.
-/
namespace Tom

/-- an exception with its text: a `MathError`, or a `std::runtime_error` -/
inductive MExc
  | math (m : MathErrorObj)
  | runtime (what : Str)
  deriving DecidableEq

/-- `what()` -/
def MExc.what : MExc → Str
  | .math m => m.what
  | .runtime s => s

/-- the exception without its text, as the other models have it -/
def MExc.kind : MExc → Exc
  | .math m => .math m.getErrorType
  | .runtime _ => .runtime

/-- Outcome of an evaluation: an exception with its text, or anything else. -/
inductive MRes (β : Type) : Type
  | plain (r : Res β)
  | raised (e : MExc)
  deriving DecidableEq

namespace MRes

/-- sequencing -/
def bind {β γ : Type} (d : MRes β) (f : β → MRes γ) : MRes γ :=
  match d with
  | .plain (.ok b) => f b
  | .plain (.throw e) => .plain (.throw e)
  | .plain .ub => .plain .ub
  | .plain .terminate => .plain .terminate
  | .plain .assertFail => .plain .assertFail
  | .plain .diverge => .plain .diverge
  | .raised e => .raised e

instance : Monad MRes where
  pure b := .plain (.ok b)
  bind := bind

/-- the outcome without the texts -/
def forget {β : Type} : MRes β → Res β
  | .plain r => r
  | .raised e => .throw e.kind

end MRes

variable {α : Type} [Dbl α]

/-- math_operator.cpp:273-371 `Calc`: the `switch`, then lines 345-369 -/
def calcOpM (cfg : Config α) (op : MathOp) (v1 v2 : α) : MRes α := do
  let ret ← .plain (calcRaw op v1 v2)
  if cfg.throwOnInvalidValue = false then .plain (.ok ret)
  else if Dbl.isInvalid ret then .raised (.math (mathError .invalidNumber (calcInfo op v1 v2)))
  else .plain (.ok ret)

/-- node.cpp:458-489, one iteration of part II -/
def vpaStepM (cfg : Config α) (calcStk : List α) : Raw α → MRes (List α)
  | .nil => .plain .ub
  | .mk .number _ v _ _ _ => .plain (.ok (v :: calcStk))
  | .mk .operator op _ _ _ _ =>
    match operatorNum op with
    | 1 =>
      match calcStk with
      | [] => .plain .ub
      | l :: st => do
        let v ← calcOpM cfg op l Dbl.nan
        .plain (.ok (v :: st))
    | 2 =>
      match calcStk with
      | r :: l :: st => do
        let v ← calcOpM cfg op l r
        .plain (.ok (v :: st))
      | _ => .plain .ub
    | _ => .plain .assertFail
  | .mk .variable _ _ _ _ _ => .raised (.runtime "wrong".toList)

/-- node.cpp:458-489, part II: the range-for over `revertedPostOrder` -/
def vpaPartIIM (cfg : Config α) : List (Raw α) → List α → MRes (List α)
  | [], st => .plain (.ok st)
  | n :: ns, st => do
    let st ← vpaStepM cfg st n
    vpaPartIIM cfg ns st

/-- node.cpp:428-494 `VpaNonRecursively` (= `Vpa`, node.cpp:158-160) -/
def vpaM (cfg : Config α) (node : Raw α) : MRes α :=
  if node.isSome then do
    let order ← .plain (vpaPartI node.size [node] [])
    let st ← vpaPartIIM cfg order []
    match st with
    | [v] => .plain (.ok v)
    | _ => .plain .assertFail
  else .plain .ub

end Tom
