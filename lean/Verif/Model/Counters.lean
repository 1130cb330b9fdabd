import Verif.Model.Nonlinear
/-
The iteration counters of src/tomsolver/nonlinear.cpp as they are declared: `int it` of 32 bits, whose increment is undefined
behaviour when it overflows.  Model/Nonlinear.lean has the same loops with a counter without bound.
-/
namespace Tom

/-- `INT_MAX` (32-bit `int`) -/
def intMax : Int := 2147483647

/-- nonlinear.cpp:137 `++it`, 233 and 245 `it++`: signed overflow is undefined -/
def increment (it : Int) : Res Int := if it < intMax then .ok (it + 1) else .ub

variable {α : Type} [Dbl α]

/-- nonlinear.cpp:99-139 as `newtonLoop`, with `int it` -/
def newtonLoopInt (cfg : Config α) (eqs ja : SymMat α) : Nat → Int → VarsTable α → Mat α → Res (VarsTable α)
  | 0, _, _, _ => .diverge
  | fuel + 1, it, table, q => do
    let phi ← evalVec cfg eqs table
    if phi.eqNum cfg.epsilon (Dbl.ofInt 0) then .ok table
    else if it > cfg.maxIterations then .throw .runtime
    else do
      let j ← evalMat cfg ja table
      let dq ← solveLinear cfg j phi.neg
      let q ← q.add dq
      let table ← table.setValues q
      let it ← increment it
      newtonLoopInt cfg eqs ja fuel it table q

/-- nonlinear.cpp:89-141 `SolveByNewtonRaphson` with `int it` -/
def solveByNewtonRaphsonInt (cfg : Config α) (eqs : SymMat α) (table : VarsTable α) : Res (VarsTable α) := do
  let q ← Mat.new table.varNums 1 Arith.zero
  let ja ← eqs.jacobian cfg table.vars
  newtonLoopInt cfg eqs ja ((cfg.maxIterations + 2).toNat + 1) 0 table q

/-- nonlinear.cpp:170-236 as `lmInner`, with `int it`: line 233 compares the old value and increments in any case -/
def lmInnerInt (cfg : Config α) (lsFuel : Nat) (eqs ja : SymMat α) (q F : Mat α) :
    Nat → VarsTable α → α → Int → Res (Mat α × Mat α × VarsTable α × Int)
  | 0, _, _, _ => .diverge
  | fuel + 1, table, mu, it => do
    let j ← evalMat cfg ja table
    let jt ← j.transpose
    let jtj ← jt.mul j
    let z ← Mat.new j.rows j.cols Arith.zero
    let one ← z.ones
    let m ← jtj.add (Mat.scaleLeft mu one)
    let g ← jt.mul F
    let g ← g.toVec
    let d ← solveLinear cfg m g.neg
    let alpha ← armijo lsFuel q d
      (fun v => do
        let t ← table.setValues v
        evalVec cfg eqs t)
      (fun v => do
        let t ← table.setValues v
        evalMat cfg ja t)
    let dq := Mat.scaleLeft alpha d
    let qTemp ← q.add dq
    let table ← table.setValues qTemp
    let FNew ← evalVec cfg eqs table
    let nNew ← FNew.norm2
    let nOld ← F.norm2
    if Arith.lt nNew nOld then .ok (dq, FNew, table, it)
    else do
      let it' ← increment it
      if it = cfg.maxIterations then .throw .runtime
      else lmInnerInt cfg lsFuel eqs ja q F fuel table (Arith.mul mu (Dbl.ofInt 10)) it'

/-- nonlinear.cpp:153-251 as `lmOuter`, with `int it` (line 245) -/
def lmOuterInt (cfg : Config α) (lsFuel innerFuel : Nat) (eqs ja : SymMat α) : Nat → VarsTable α → Mat α → Int → Res (VarsTable α)
  | 0, _, _, _ => .diverge
  | fuel + 1, table, q, it => do
    let F ← evalVec cfg eqs table
    if F.eqNum cfg.epsilon (Dbl.ofInt 0) then .ok table
    else do
      let (dq, _, table, it) ← lmInnerInt cfg lsFuel eqs ja q F innerFuel table (lit 1 (-5)) it
      let q ← q.add dq
      let table ← table.setValues q
      let it' ← increment it
      if it = cfg.maxIterations then .throw .runtime
      else lmOuterInt cfg lsFuel innerFuel eqs ja fuel table q it'

/-- nonlinear.cpp:143-258 `SolveByLM` with `int it` -/
def solveByLMInt (cfg : Config α) (lsFuel fuel : Nat) (eqs : SymMat α) (table : VarsTable α) : Res (VarsTable α) := do
  let _ ← Mat.new table.varNums 1 (Arith.zero : α)
  let ja ← eqs.jacobian cfg table.vars
  lmOuterInt cfg lsFuel fuel eqs ja fuel table table.values 0

/-- nonlinear.cpp:260-269 `Solve(equations, varsTable)` -/
def solveInt (cfg : Config α) (lsFuel fuel : Nat) (eqs : SymMat α) (table : VarsTable α) : Res (VarsTable α) :=
  match cfg.nonlinearMethod with
  | .newtonRaphson => solveByNewtonRaphsonInt cfg eqs table
  | .lm => solveByLMInt cfg lsFuel fuel eqs table
  | .other => .throw .runtime

/-- nonlinear.cpp:271-276 `Solve(equations)` -/
def solveAutoInt (cfg : Config α) (lsFuel fuel : Nat) (eqs : SymMat α) : Res (VarsTable α) := do
  let names ← eqs.getAllVarNames
  let table ← VarsTable.ofVars names cfg.initialValue
  solveInt cfg lsFuel fuel eqs table

end Tom
