import Verif.Model.Nonlinear
/-
The log of the solvers: src/tomsolver/nonlinear.cpp and linear.cpp once more, now with what they write to `std::cout`.
`Model/Nonlinear` is the same code without the log; C86 relates the two.
-/
namespace Tom
variable {α : Type} [Dbl α]

/-- config.h:7 `LogLevel` as its number -/
inductive LogLevel
  | off | fatal | error | warn | info | debug | trace | all
  deriving DecidableEq, Repr

/-- config.h:7: the order of the enumerators -/
def LogLevel.rank : LogLevel → Nat
  | .off => 0 | .fatal => 1 | .error => 2 | .warn => 3 | .info => 4 | .debug => 5 | .trace => 6 | .all => 7

/-- what an operation writes to the console, and how it ends -/
structure Out (β : Type) where
  text : Str
  res : Res β

namespace Out
variable {β γ : Type}

/-- sequencing: what is written comes one after the other; only a normal return continues -/
def bind (m : Out β) (f : β → Out γ) : Out γ :=
  match m.res with
  | .ok b => ⟨m.text ++ (f b).text, (f b).res⟩
  | .throw e => ⟨m.text, .throw e⟩
  | .ub => ⟨m.text, .ub⟩
  | .terminate => ⟨m.text, .terminate⟩
  | .assertFail => ⟨m.text, .assertFail⟩
  | .diverge => ⟨m.text, .diverge⟩

instance : Monad Out where
  pure b := ⟨[], .ok b⟩
  bind := bind

/-- an operation that writes nothing -/
def quiet (r : Res β) : Out β := ⟨[], r⟩

/-- `cout << s` -/
def say (s : Str) : Out Unit := ⟨s, .ok ()⟩

/-- `if (Config::Get().logLevel >= l) ...` -/
def atLevel (lvl l : LogLevel) (m : Out Unit) : Out Unit := if l.rank ≤ lvl.rank then m else ⟨[], .ok ()⟩

end Out

open Out

/-- `std::to_string(int)` and `cout << int` of a number that is not negative -/
def countText (n : Nat) : Str := Nat.toDigits 10 n

/-- linear.cpp:18-148 `SolveLinear` with its log (lines 19-23) -/
def solveLinearLog (lvl : LogLevel) (cfg : Config α) (A b : Mat α) : Out (Mat α) := do
  atLevel lvl .trace (do
    say "SolveLinear:Ax=b (x is the wanted)\n".toList
    say ("A=\n".toList ++ A.toString)
    say ("b=\n".toList ++ b.toString))
  quiet (solveLinear cfg A b)

/-- nonlinear.cpp:68-75 `PrintSolveStartInfo`; it is `noexcept` -/
def printSolveStartInfo (lvl : LogLevel) (eqs : SymMat α) (table : VarsTable α) : Out Unit :=
  atLevel lvl .info (do
    say "Solve start.\n".toList
    say "  Method: Newton Raphson\n".toList
    let e ← quiet eqs.toString.noexcept
    say ("Equations:\n".toList ++ e)
    say ("Inital Values:\n".toList ++ table.toString))

/-- nonlinear.cpp:76-80 `PrintJacobian`; it is `noexcept` -/
def printJacobian (lvl : LogLevel) (ja : SymMat α) : Out Unit :=
  atLevel lvl .trace (do
    let s ← quiet ja.toString.noexcept
    say ("Jacobian:\n".toList ++ s))

/-- nonlinear.cpp:81-86 `PrintAtIterationStart` -/
def printAtIterationStart (lvl : LogLevel) (it : Nat) : Out Unit :=
  atLevel lvl .info (do
    say "====================\n".toList
    say ("iteration times = ".toList ++ countText it ++ ['\n']))

/-- nonlinear.cpp:99-139, the loop of `SolveByNewtonRaphson` with its log -/
def newtonLoopLog (lvl : LogLevel) (cfg : Config α) (eqs ja : SymMat α) : Nat → Nat → VarsTable α → Mat α → Out (VarsTable α)
  | 0, _, _, _ => quiet .diverge
  | fuel + 1, it, table, q => do
    printAtIterationStart lvl it
    let phi ← quiet (evalVec cfg eqs table)
    atLevel lvl .info (say ("phi = \n".toList ++ phi.toString))
    if phi.eqNum cfg.epsilon (Dbl.ofInt 0) then quiet (.ok table)
    else if (it : Int) > cfg.maxIterations then quiet (.throw .runtime)
    else do
      let j ← quiet (evalMat cfg ja table)
      let dq ← solveLinearLog lvl cfg j phi.neg
      atLevel lvl .trace (say ("deltaq = ".toList ++ dq.toString ++ ['\n']))
      let q ← quiet (q.add dq)
      atLevel lvl .trace (do
        say ("ja = ".toList ++ j.toString ++ ['\n'])
        say ("q = ".toList ++ q.toString ++ ['\n']))
      let table ← quiet (table.setValues q)
      newtonLoopLog lvl cfg eqs ja fuel (it + 1) table q

/-- nonlinear.cpp:89-141 `SolveByNewtonRaphson` with its log -/
def solveByNewtonRaphsonLog (lvl : LogLevel) (cfg : Config α) (eqs : SymMat α) (table : VarsTable α) : Out (VarsTable α) := do
  let q ← quiet (Mat.new table.varNums 1 Arith.zero)
  printSolveStartInfo lvl eqs table
  let ja ← quiet (eqs.jacobian cfg table.vars)
  printJacobian lvl ja
  newtonLoopLog lvl cfg eqs ja ((cfg.maxIterations + 2).toNat + 1) 0 table q

/-- nonlinear.cpp:216-224: what `SolveByLM` logs after a step.  `fmt` is `cout << double` (the stream's format, not `ToString`). -/
def printLMStep (lvl : LogLevel) (fmt : α → Str) (it : Nat) (alpha mu : α) (F FNew : Mat α) : Out Unit :=
  atLevel lvl .trace (do
    say ("it=".toList ++ countText it ++ ['\n'])
    say ("\talpha=".toList ++ fmt alpha ++ ['\n'])
    say ("mu=".toList ++ fmt mu ++ ['\n'])
    let n0 ← quiet F.norm2
    say ("F.Norm2()=".toList ++ fmt n0 ++ ['\n'])
    let n1 ← quiet FNew.norm2
    say ("FNew.Norm2()=".toList ++ fmt n1 ++ ['\n'])
    say ("\tF(x k+1).Norm2()\t".toList ++ (if Arith.lt n1 n0 then ['<'] else ['>', '=']) ++ "\tF(x k).Norm2()\t\n".toList))

/-- nonlinear.cpp:170-236, the inner loop of `SolveByLM` with its log -/
def lmInnerLog (lvl : LogLevel) (fmt : α → Str) (cfg : Config α) (lsFuel : Nat) (eqs ja : SymMat α) (q F : Mat α) :
    Nat → VarsTable α → α → Nat → Out (Mat α × Mat α × VarsTable α × Nat)
  | 0, _, _, _ => quiet .diverge
  | fuel + 1, table, mu, it => do
    let j ← quiet (evalMat cfg ja table)
    atLevel lvl .trace (say ("J = ".toList ++ j.toString ++ ['\n']))
    let jt ← quiet j.transpose
    let jtj ← quiet (jt.mul j)
    let z ← quiet (Mat.new j.rows j.cols Arith.zero)
    let one ← quiet z.ones
    let m ← quiet (jtj.add (Mat.scaleLeft mu one))
    let g ← quiet (jt.mul F)
    let g ← quiet g.toVec
    let d ← solveLinearLog lvl cfg m g.neg
    atLevel lvl .trace (say ("d = ".toList ++ d.toString ++ ['\n']))
    let alpha ← quiet (armijo lsFuel q d
      (fun v => do
        let t ← table.setValues v
        evalVec cfg eqs t)
      (fun v => do
        let t ← table.setValues v
        evalMat cfg ja t))
    let dq := Mat.scaleLeft alpha d
    let qTemp ← quiet (q.add dq)
    let table ← quiet (table.setValues qTemp)
    let FNew ← quiet (evalVec cfg eqs table)
    printLMStep lvl fmt it alpha mu F FNew
    let nNew ← quiet FNew.norm2
    let nOld ← quiet F.norm2
    if Arith.lt nNew nOld then quiet (.ok (dq, FNew, table, it))
    else if (it : Int) = cfg.maxIterations then quiet (.throw .runtime)
    else lmInnerLog lvl fmt cfg lsFuel eqs ja q F fuel table (Arith.mul mu (Dbl.ofInt 10)) (it + 1)

/-- nonlinear.cpp:153-251, the outer loop of `SolveByLM` with its log -/
def lmOuterLog (lvl : LogLevel) (fmt : α → Str) (cfg : Config α) (lsFuel innerFuel : Nat) (eqs ja : SymMat α) :
    Nat → VarsTable α → Mat α → Nat → Out (VarsTable α)
  | 0, _, _, _ => quiet .diverge
  | fuel + 1, table, q, it => do
    printAtIterationStart lvl it
    let F ← quiet (evalVec cfg eqs table)
    atLevel lvl .trace (say ("F = ".toList ++ F.toString ++ ['\n']))
    if F.eqNum cfg.epsilon (Dbl.ofInt 0) then quiet (.ok table)
    else do
      let (dq, _, table, it) ← lmInnerLog lvl fmt cfg lsFuel eqs ja q F innerFuel table (lit 1 (-5)) it
      let q ← quiet (q.add dq)
      let table ← quiet (table.setValues q)
      if (it : Int) = cfg.maxIterations then quiet (.throw .runtime)
      else do
        atLevel lvl .trace (say "====================\n".toList)
        lmOuterLog lvl fmt cfg lsFuel innerFuel eqs ja fuel table q (it + 1)

/-- nonlinear.cpp:143-258 `SolveByLM` with its log -/
def solveByLMLog (lvl : LogLevel) (fmt : α → Str) (cfg : Config α) (lsFuel fuel : Nat) (eqs : SymMat α) (table : VarsTable α) :
    Out (VarsTable α) := do
  let _ ← quiet (Mat.new table.varNums 1 (Arith.zero : α))
  printSolveStartInfo lvl eqs table
  let ja ← quiet (eqs.jacobian cfg table.vars)
  printJacobian lvl ja
  let t ← lmOuterLog lvl fmt cfg lsFuel fuel eqs ja fuel table table.values 0
  atLevel lvl .trace (say "success\n".toList)
  quiet (.ok t)

/-- nonlinear.cpp:260-269 `Solve(equations, varsTable)` with its log -/
def solveLog (lvl : LogLevel) (fmt : α → Str) (cfg : Config α) (lsFuel fuel : Nat) (eqs : SymMat α) (table : VarsTable α) :
    Out (VarsTable α) :=
  match cfg.nonlinearMethod with
  | .newtonRaphson => solveByNewtonRaphsonLog lvl cfg eqs table
  | .lm => solveByLMLog lvl fmt cfg lsFuel fuel eqs table
  | .other => quiet (.throw .runtime)

/-- nonlinear.cpp:271-276 `Solve(equations)` with its log -/
def solveAutoLog (lvl : LogLevel) (fmt : α → Str) (cfg : Config α) (lsFuel fuel : Nat) (eqs : SymMat α) : Out (VarsTable α) := do
  let names ← quiet eqs.getAllVarNames
  let table ← quiet (VarsTable.ofVars names cfg.initialValue)
  solveLog lvl fmt cfg lsFuel fuel eqs table

end Tom
