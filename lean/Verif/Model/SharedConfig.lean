import Verif.Model.Session
import Verif.Model.Settings
/-
Programs that work on `Node` variables and change the configuration meanwhile.  `Config::Get()` (config.cpp:43-46) is one object for the whole
process, not one for each thread.
-/
namespace Tom
variable {α : Type}

/-- what a thread does next: a statement of the `Node` API, or an assignment to the configuration -/
inductive Action (α : Type)
  | node (s : Stmt α)
  | setting (c : SettingStmt α)

/-- The actions of all threads in the order in which they happen, on the one configuration; statements are executed with the settings there are at
this moment (simplification: a statement is atomic, so the settings do not change during it). -/
def executeShared [Dbl α] : Settings α → List (Action α) → Env α → LM (Env α)
  | _, [], env => pure env
  | s, .setting c :: as, env => executeShared (s.exec c) as env
  | s, .node st :: as, env => fun n =>
    match st.step s.toConfig env n with
    | .ok p => executeShared s as p.1 p.2
    | .throw _ => executeShared s as (st.thrown env) n
    | .ub => .ub
    | .terminate => .terminate
    | .assertFail => .assertFail
    | .diverge => .diverge

end Tom
