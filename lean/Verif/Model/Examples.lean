import Verif.Model.Nonlinear
import Verif.Model.Parse
/-
Models the programs examples/set_initial_values/main.cpp, examples/solve/main.cpp and examples/solve2/main.cpp, without their printing.
-/
namespace Tom
variable {α : Type} [Dbl α]

/-- main.cpp:11-14: the equations `x^2+y^2-25`, `x^2-y^2-7` -/
def exampleEquations : Res (SymMat α) := do
  let e1 ← parse "x^2+y^2-25".toList
  let e2 ← parse "x^2-y^2-7".toList
  SymMat.ofList [e1, e2]

/-- main.cpp:18: the initial values -/
def exampleInitialValues : Res (VarsTable α) := VarsTable.ofList [(['x'], Dbl.ofInt 5), (['y'], Dbl.ofInt (-5))]

/-- main.cpp:8-32: the solution that is printed, and the equations at the solution, which are printed to verify it -/
def exampleSetInitialValues (cfg : Config α) (lsFuel fuel : Nat) : Res (VarsTable α × Mat α) := do
  let f ← exampleEquations
  let initialValues ← exampleInitialValues
  let ans ← solve cfg lsFuel fuel f initialValues
  let g ← f.subs ans.table
  let g ← g.calcChain cfg
  let m ← g.toMat
  .ok (ans, m)

/-- examples/solve/main.cpp:32-35, for any texts: `SymVec f = {"..."_f, "..."_f}`; the texts are parsed from the first to the last -/
def equationsOf (texts : List Str) : Res (SymMat α) := do
  let es ← mapRes parse texts
  SymMat.ofList es

/-- examples/solve/main.cpp:32-43, for any texts (the settings of lines 38-40 are in `cfg`): `Solve(f)` -/
def solveTexts (cfg : Config α) (lsFuel fuel : Nat) (texts : List Str) : Res (VarsTable α) := do
  let f ← equationsOf texts
  solveAuto cfg lsFuel fuel f

/-- examples/solve/main.cpp:32-54, for any texts: the solution, and the numbers printed to verify it (`f.Subs(ans).Calc()`) -/
def exampleSolve (cfg : Config α) (lsFuel fuel : Nat) (texts : List Str) : Res (VarsTable α × Mat α) := do
  let f ← equationsOf texts
  let ans ← solveAuto cfg lsFuel fuel f
  let g ← f.subs ans.table
  let g ← g.calcChain cfg
  let m ← g.toMat
  .ok (ans, m)

/-- examples/solve2/main.cpp:15-31, for any texts and any known quantities (the method chosen on line 10 is in `cfg`):
`f.Subs(VarsTable{{"pi", PI}, {"e", std::exp(1.0)}})`, then `Solve(f)` -/
def solveWith (cfg : Config α) (lsFuel fuel : Nat) (texts : List Str) (known : List (Str × α)) : Res (VarsTable α) := do
  let f ← equationsOf texts
  let t ← VarsTable.ofList known
  let f ← f.subs t.table
  solveAuto cfg lsFuel fuel f

end Tom
