import Verif.Spec.Schedule
import Verif.Model.SharedConfig
/-
Specification for property C122: threads and the shared configuration.
-/
namespace Tom
variable {α : Type}

/-- The action leaves the treatment of inf and nan alone: it is no assignment to `throwOnInvalidValue`, and a `Reset` only if it starts as `true`. -/
def Action.keepsCheck (start : Bool) : Action α → Prop
  | .setting (.throwOnInvalidValue b) => b = start
  | .setting .reset => start = true
  | _ => True

/-- the `Node` variables an action mentions -/
def Action.names : Action α → List Str
  | .node s => s.names
  | .setting _ => []

/-- statements are proper (C52) -/
def Action.Proper : Action α → Prop
  | .node s => s.Proper
  | .setting _ => True

/-- the `Node` statement of an action -/
def Action.stmt? : Action α → Option (Stmt α)
  | .node s => some s
  | .setting _ => none

/-- the actions of thread `i` in a schedule -/
def actionsOf {ι : Type} [DecidableEq ι] (i : ι) (cs : List (ι × Action α)) : List (Action α) :=
  (cs.filter fun p => p.1 = i).map Prod.snd

end Tom
