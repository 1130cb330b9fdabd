import Verif.Model.Logging
/-
The global configuration: config.h:13-46, config.cpp:41-49.  `Config::Get()` returns a reference to one static object; a program assigns to
its members.
-/
namespace Tom
variable {α : Type} [Dbl α]

/-- config.h:13-46 all members of `Config` -/
structure Settings (α : Type) extends Config α where
  logLevel : LogLevel

/-- config.h:17-43 the initial values of the members -/
def Settings.initial : Settings α where
  throwOnInvalidValue := true
  epsilon := lit 1 (-9)
  logLevel := .warn
  maxIterations := 100
  nonlinearMethod := .newtonRaphson
  initialValue := Dbl.ofInt 1
  allowIndeterminateEquation := false

/-- what a program does to the configuration -/
inductive SettingStmt (α : Type)
  | throwOnInvalidValue (b : Bool)
  | epsilon (x : α)
  | logLevel (l : LogLevel)
  | maxIterations (n : Int)
  | nonlinearMethod (m : NonlinearMethod)
  | initialValue (x : α)
  | allowIndeterminateEquation (b : Bool)
  | reset

/-- assignments to `Config::Get()`, and config.cpp:41-43 `Reset` (`*this = {}`) -/
def Settings.exec (s : Settings α) : SettingStmt α → Settings α
  | .throwOnInvalidValue b => { s with throwOnInvalidValue := b }
  | .epsilon x => { s with epsilon := x }
  | .logLevel l => { s with logLevel := l }
  | .maxIterations n => { s with maxIterations := n }
  | .nonlinearMethod m => { s with nonlinearMethod := m }
  | .initialValue x => { s with initialValue := x }
  | .allowIndeterminateEquation b => { s with allowIndeterminateEquation := b }
  | .reset => Settings.initial

/-- a history of the configuration -/
def Settings.run (s : Settings α) (cs : List (SettingStmt α)) : Settings α := cs.foldl Settings.exec s

end Tom
