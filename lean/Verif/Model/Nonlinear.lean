import Verif.Model.SymMat
/-
Models src/tomsolver/nonlinear.cpp.  Logging is omitted.  `std::function` arguments are functions `Mat α → Res (Mat α)`.
Loops get fuel; `diverge` means that the loop has not ended within it.
-/
namespace Tom
variable {α : Type} [Dbl α]

/-- a decimal floating literal `m * 10^e` of the source -/
def lit (m : Nat) (e : Int) : α := (Dbl.ofDec m e).getD Dbl.nan

/-- nonlinear.cpp:21-31, the loop of `Armijo` (gamma = 0.4, sigma = 0.5).  The two operands of `+` on line 25 are evaluated
left to right here (C++ leaves the order open). -/
def armijoLoop (f df : Mat α → Res (Mat α)) (x d : Mat α) : Nat → α → Res α
  | 0, _ => .diverge
  | fuel + 1, alpha => do
    let xNew ← x.add (Mat.scaleLeft alpha d)
    let fNew ← f xNew
    let l ← fNew.norm2
    let f0 ← f x
    let j ← df x
    let jt ← j.transpose
    let p ← (Mat.scaleLeft (Arith.mul (lit 4 (-1)) alpha) jt).mul d
    let s ← f0.add p
    let r ← s.norm2
    if Arith.le l r then .ok alpha else armijoLoop f df x d fuel (Arith.mul alpha (lit 5 (-1)))

/-- nonlinear.cpp:16-33 `Armijo` -/
def armijo (fuel : Nat) (x d : Mat α) (f df : Mat α → Res (Mat α)) : Res α := armijoLoop f df x d fuel (Dbl.ofInt 1)

/-- nonlinear.cpp:45-63, the loop of `FindAlpha` -/
def findAlphaLoop (f : Mat α → Res (Mat α)) (x d : Mat α) (uncert : α) : Nat → Nat → α → α → Mat α → Res α
  | 0, _, _, _, _ => .diverge
  | fuel + 1, it, alphaCur, alphaNew, gCur =>
    if Arith.lt (Arith.mul alphaCur uncert) (Arith.abs (Arith.sub alphaNew alphaCur)) then do
      let alphaOld := alphaCur
      let alphaCur := alphaNew
      let gOld := gCur
      let x' ← x.add (Mat.scaleLeft alphaCur d)
      let gCur ← f x'
      let less ← allIsLessThan gCur gOld
      if less then .ok alphaNew
      else do
        let num ← (gCur.scale alphaOld).sub (gOld.scale alphaCur)
        let den ← gCur.sub gOld
        let q ← eachDivide num den
        let alphaNew ← q.normNegInfinity
        if it > 100 then .ok alphaNew else findAlphaLoop f x d uncert fuel (it + 1) alphaCur alphaNew gCur
    else .ok alphaNew

/-- nonlinear.cpp:35-65 `FindAlpha`; the loop is left after at most 102 rounds (proved) -/
def findAlpha (x d : Mat α) (f : Mat α → Res (Mat α)) (uncert : α) : Res α := do
  let x' ← x.add (Mat.scaleLeft (Dbl.ofInt 0) d)
  let gCur ← f x'
  findAlphaLoop f x d uncert 103 0 (Dbl.ofInt 0) (Dbl.ofInt 1) gCur

/-- nonlinear.cpp:115, 172, 198: `X.Clone().Subs(table).Calc().ToMat()` -/
def evalMat (cfg : Config α) (m : SymMat α) (t : VarsTable α) : Res (Mat α) := do
  let c ← m.clone
  let s ← c.subs t.table
  let v ← s.calcChain cfg
  v.toMat

/-- nonlinear.cpp:102, 158, 194, 214: `equations.Clone().Subs(table).Calc().ToMat().ToVec()` -/
def evalVec (cfg : Config α) (eqs : SymMat α) (t : VarsTable α) : Res (Mat α) := do
  let m ← evalMat cfg eqs t
  m.toVec

/-- nonlinear.cpp:99-139, the loop of `SolveByNewtonRaphson`.  Lines 124-129 rethrow the exceptions of `SolveLinear` with the
same type. -/
def newtonLoop (cfg : Config α) (eqs ja : SymMat α) : Nat → Nat → VarsTable α → Mat α → Res (VarsTable α)
  | 0, _, _, _ => .diverge
  | fuel + 1, it, table, q => do
    let phi ← evalVec cfg eqs table
    if phi.eqNum cfg.epsilon (Dbl.ofInt 0) then .ok table
    else if (it : Int) > cfg.maxIterations then .throw .runtime
    else do
      let j ← evalMat cfg ja table
      let dq ← solveLinear cfg j phi.neg
      let q ← q.add dq
      let table ← table.setValues q
      newtonLoop cfg eqs ja fuel (it + 1) table q

/-- nonlinear.cpp:89-141 `SolveByNewtonRaphson` (`q` starts at zero, line 93).  The fuel suffices (proved). -/
def solveByNewtonRaphson (cfg : Config α) (eqs : SymMat α) (table : VarsTable α) : Res (VarsTable α) := do
  let q ← Mat.new table.varNums 1 Arith.zero
  let ja ← eqs.jacobian cfg table.vars
  newtonLoop cfg eqs ja ((cfg.maxIterations + 2).toNat + 1) 0 table q

/-- nonlinear.cpp:170-236, the inner loop of `SolveByLM`: returns deltaq, FNew, the table and `it`.  `table` is what the Jacobian
is evaluated at: after a rejected step it is the rejected point.  The callbacks of `Armijo` overwrite the values of `table`,
which are overwritten again on line 212, so the callbacks are modelled without that side effect. -/
def lmInner (cfg : Config α) (lsFuel : Nat) (eqs ja : SymMat α) (q F : Mat α) :
    Nat → VarsTable α → α → Nat → Res (Mat α × Mat α × VarsTable α × Nat)
  | 0, _, _, _ => .diverge
  | fuel + 1, table, mu, it => do
    let j ← evalMat cfg ja table
    let jt ← j.transpose
    let jtj ← jt.mul j
    let z ← Mat.new j.rows j.cols Arith.zero
    let one ← z.ones
    let m ← jtj.add (Mat.scaleLeft mu one)
    let g ← jt.mul F
    let g ← g.toVec
    let d ← solveLinear cfg m g.neg
    let alpha ← armijo lsFuel q d
      (fun v => do
        let t ← table.setValues v
        evalVec cfg eqs t)
      (fun v => do
        let t ← table.setValues v
        evalMat cfg ja t)
    let dq := Mat.scaleLeft alpha d
    let qTemp ← q.add dq
    let table ← table.setValues qTemp
    let FNew ← evalVec cfg eqs table
    let nNew ← FNew.norm2
    let nOld ← F.norm2
    if Arith.lt nNew nOld then .ok (dq, FNew, table, it)
    else if (it : Int) = cfg.maxIterations then .throw .runtime
    else lmInner cfg lsFuel eqs ja q F fuel table (Arith.mul mu (Dbl.ofInt 10)) (it + 1)

/-- nonlinear.cpp:153-251, the outer loop of `SolveByLM` -/
def lmOuter (cfg : Config α) (lsFuel innerFuel : Nat) (eqs ja : SymMat α) : Nat → VarsTable α → Mat α → Nat → Res (VarsTable α)
  | 0, _, _, _ => .diverge
  | fuel + 1, table, q, it => do
    let F ← evalVec cfg eqs table
    if F.eqNum cfg.epsilon (Dbl.ofInt 0) then .ok table
    else do
      let (dq, _, table, it) ← lmInner cfg lsFuel eqs ja q F innerFuel table (lit 1 (-5)) it
      let q ← q.add dq
      let table ← table.setValues q
      if (it : Int) = cfg.maxIterations then .throw .runtime
      else lmOuter cfg lsFuel innerFuel eqs ja fuel table q (it + 1)

/-- nonlinear.cpp:143-258 `SolveByLM` -/
def solveByLM (cfg : Config α) (lsFuel fuel : Nat) (eqs : SymMat α) (table : VarsTable α) : Res (VarsTable α) := do
  let _ ← Mat.new table.varNums 1 (Arith.zero : α)
  let ja ← eqs.jacobian cfg table.vars
  lmOuter cfg lsFuel fuel eqs ja fuel table table.values 0

/-- nonlinear.cpp:260-269 `Solve(equations, varsTable)`; the fuels are for the loops of `SolveByLM` -/
def solve (cfg : Config α) (lsFuel fuel : Nat) (eqs : SymMat α) (table : VarsTable α) : Res (VarsTable α) :=
  match cfg.nonlinearMethod with
  | .newtonRaphson => solveByNewtonRaphson cfg eqs table
  | .lm => solveByLM cfg lsFuel fuel eqs table
  | .other => .throw .runtime

/-- nonlinear.cpp:271-276 `Solve(equations)` -/
def solveAuto (cfg : Config α) (lsFuel fuel : Nat) (eqs : SymMat α) : Res (VarsTable α) := do
  let names ← eqs.getAllVarNames
  let table ← VarsTable.ofVars names cfg.initialValue
  solve cfg lsFuel fuel eqs table

end Tom
