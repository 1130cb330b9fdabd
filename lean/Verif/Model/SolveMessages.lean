import Verif.Model.EvalMessages
import Verif.Model.Nonlinear
/-
The solvers once more, with the texts of their exceptions: linear.cpp:18-148, nonlinear.cpp:16-33, 89-276, symmat.cpp:82-98, mat.cpp:124-133.
`Model/Nonlinear` is the same code without the texts; C106 relates the two.
-/
namespace Tom
variable {α : Type} [Dbl α]

/-- nonlinear.cpp:112, 234, 245: the text at the limit of iterations -/
def limitText : Str := "迭代次数超出限制".toList

/-- nonlinear.cpp:126: the advice of Newton's method -/
def tipText : Str := "tip: consider using different initial values".toList

/-- An operation whose exceptions are of type `MathError`, made without further text (error_type.h:31: `extInfo` is empty by default). -/
def bare {β : Type} : Res β → MRes β
  | .throw (.math e) => .raised (.math (mathError e []))
  | r => .plain r

/-- linear.cpp:18-148 `SolveLinear`: lines 41, 85 and 142 give no further text, lines 138-139 print the matrix and the right-hand side as they
are then: reduced, and filled up with zero rows -/
def solveLinearM (cfg : Config α) (A b : Mat α) : MRes (Mat α) :=
  if A.rows ≠ b.rows then .plain .assertFail
  else do
    let ret ← .plain (Mat.new A.rows 1 Arith.zero)
    if A.rows > A.cols then bare (.throw (.math .overDeterminedEquations))
    else do
      let ret ← .plain (if A.cols ≠ A.rows then ret.resize A.cols 1 else .ok ret)
      let s ← bare (elimLoop cfg.epsilon (A.rows + 1) ⟨A, b, List.replicate A.cols 0, A.rows, A.rows⟩ 0 0)
      if A.rows ≠ A.cols then do
        let A' ← .plain (s.A.resize A.cols A.cols)
        let b' ← .plain (s.b.resize A.cols 1)
        let Ab ← .plain (placeRows s.trn A' b')
        let ret ← .plain (backSubst Ab.1 Ab.2 ret)
        if s.rankA < A.cols ∧ s.rankA = s.rankAb then
          if cfg.allowIndeterminateEquation then .plain (.ok ret)
          else .raised (.math (mathError .indeterminateEquation ("A = ".toList ++ Ab.1.toString ++ "\nb = ".toList ++ Ab.2.toString)))
        else .plain (.ok ret)
      else do
        let ret ← .plain (backSubst s.A s.b ret)
        if s.rankA < A.cols ∧ s.rankA = s.rankAb then bare (.throw (.math .infinitySolutions)) else .plain (.ok ret)

/-- symmat.cpp:84-89 -/
def numberOfM : Raw α → MRes α
  | .nil => .plain .ub
  | .mk .number _ v _ _ _ => .plain (.ok v)
  | .mk .. => .raised (.runtime "ToMat error: node is not number".toList)

/-- the operation on all entries, in order -/
def mapResM {β γ : Type} (f : β → MRes γ) : List β → MRes (List γ)
  | [] => .plain (.ok [])
  | b :: bs => do
    let c ← f b
    let cs ← mapResM f bs
    .plain (.ok (c :: cs))

/-- symmat.cpp:82-91 `ToMat` -/
def toMatM (m : SymMat α) : MRes (Mat α) := do
  let d ← mapResM numberOfM m.data
  .plain (.ok ⟨m.rows, m.cols, d⟩)

/-- node.cpp:162-168 `Calc` in a chain of calls: the node afterwards -/
def calcNodeM (cfg : Config α) (node : Raw α) : MRes (Raw α) := do
  let d ← vpaM cfg node
  .plain (.ok (mkNum d))

/-- symmat.cpp:93-98 `Calc` in a chain of calls -/
def calcChainM (cfg : Config α) (m : SymMat α) : MRes (SymMat α) := do
  let d ← mapResM (calcNodeM cfg) m.data
  .plain (.ok { m with data := d })

/-- nonlinear.cpp:115, 172, 198: `X.Clone().Subs(table).Calc().ToMat()` -/
def evalMatM (cfg : Config α) (m : SymMat α) (t : VarsTable α) : MRes (Mat α) := do
  let c ← .plain m.clone
  let s ← .plain (c.subs t.table)
  let v ← calcChainM cfg s
  toMatM v

/-- mat.cpp:124-133 `ToVec` -/
def toVecM (m : Mat α) : MRes (Mat α) :=
  if m.rows = 0 then .plain .assertFail
  else if m.cols ≠ 1 then .raised (.runtime "Mat::ToVec fail. rows is not one".toList)
  else .plain (.ok ⟨m.rows, 1, m.data⟩)

/-- nonlinear.cpp:102, 158, 194, 214: `equations.Clone().Subs(table).Calc().ToMat().ToVec()` -/
def evalVecM (cfg : Config α) (eqs : SymMat α) (t : VarsTable α) : MRes (Mat α) := do
  let m ← evalMatM cfg eqs t
  toVecM m

/-- nonlinear.cpp:124-129: `catch (const MathError &err)` -/
def retell {β : Type} : MRes β → MRes β
  | .raised (.math m) =>
    if m.getErrorType = .singularMatrix then .raised (.math (mathError .singularMatrix tipText)) else .raised (.math m)
  | r => r

/-- nonlinear.cpp:99-139, the loop of `SolveByNewtonRaphson` -/
def newtonLoopM (cfg : Config α) (eqs ja : SymMat α) : Nat → Nat → VarsTable α → Mat α → MRes (VarsTable α)
  | 0, _, _, _ => .plain .diverge
  | fuel + 1, it, table, q => do
    let phi ← evalVecM cfg eqs table
    if phi.eqNum cfg.epsilon (Dbl.ofInt 0) then .plain (.ok table)
    else if (it : Int) > cfg.maxIterations then .raised (.runtime limitText)
    else do
      let j ← evalMatM cfg ja table
      let q ← retell (do
        let dq ← solveLinearM cfg j phi.neg
        .plain (q.add dq))
      let table ← .plain (table.setValues q)
      newtonLoopM cfg eqs ja fuel (it + 1) table q

/-- nonlinear.cpp:89-141 `SolveByNewtonRaphson` -/
def solveByNewtonRaphsonM (cfg : Config α) (eqs : SymMat α) (table : VarsTable α) : MRes (VarsTable α) := do
  let q ← .plain (Mat.new table.varNums 1 Arith.zero)
  let ja ← .plain (eqs.jacobian cfg table.vars)
  newtonLoopM cfg eqs ja ((cfg.maxIterations + 2).toNat + 1) 0 table q

/-- nonlinear.cpp:21-31, the loop of `Armijo` -/
def armijoLoopM (f df : Mat α → MRes (Mat α)) (x d : Mat α) : Nat → α → MRes α
  | 0, _ => .plain .diverge
  | fuel + 1, alpha => do
    let xNew ← .plain (x.add (Mat.scaleLeft alpha d))
    let fNew ← f xNew
    let l ← .plain fNew.norm2
    let f0 ← f x
    let j ← df x
    let jt ← .plain j.transpose
    let p ← .plain ((Mat.scaleLeft (Arith.mul (lit 4 (-1)) alpha) jt).mul d)
    let s ← .plain (f0.add p)
    let r ← .plain s.norm2
    if Arith.le l r then .plain (.ok alpha) else armijoLoopM f df x d fuel (Arith.mul alpha (lit 5 (-1)))

/-- nonlinear.cpp:170-236, the inner loop of `SolveByLM` -/
def lmInnerM (cfg : Config α) (lsFuel : Nat) (eqs ja : SymMat α) (q F : Mat α) :
    Nat → VarsTable α → α → Nat → MRes (Mat α × Mat α × VarsTable α × Nat)
  | 0, _, _, _ => .plain .diverge
  | fuel + 1, table, mu, it => do
    let j ← evalMatM cfg ja table
    let jt ← .plain j.transpose
    let jtj ← .plain (jt.mul j)
    let z ← .plain (Mat.new j.rows j.cols Arith.zero)
    let one ← .plain z.ones
    let m ← .plain (jtj.add (Mat.scaleLeft mu one))
    let g ← .plain (jt.mul F)
    let g ← toVecM g
    let d ← solveLinearM cfg m g.neg
    let alpha ← armijoLoopM
      (fun v => do
        let t ← .plain (table.setValues v)
        evalVecM cfg eqs t)
      (fun v => do
        let t ← .plain (table.setValues v)
        evalMatM cfg ja t) q d lsFuel (Dbl.ofInt 1)
    let dq := Mat.scaleLeft alpha d
    let qTemp ← .plain (q.add dq)
    let table ← .plain (table.setValues qTemp)
    let FNew ← evalVecM cfg eqs table
    let nNew ← .plain FNew.norm2
    let nOld ← .plain F.norm2
    if Arith.lt nNew nOld then .plain (.ok (dq, FNew, table, it))
    else if (it : Int) = cfg.maxIterations then .raised (.runtime limitText)
    else lmInnerM cfg lsFuel eqs ja q F fuel table (Arith.mul mu (Dbl.ofInt 10)) (it + 1)

/-- nonlinear.cpp:153-251, the outer loop of `SolveByLM` -/
def lmOuterM (cfg : Config α) (lsFuel innerFuel : Nat) (eqs ja : SymMat α) : Nat → VarsTable α → Mat α → Nat → MRes (VarsTable α)
  | 0, _, _, _ => .plain .diverge
  | fuel + 1, table, q, it => do
    let F ← evalVecM cfg eqs table
    if F.eqNum cfg.epsilon (Dbl.ofInt 0) then .plain (.ok table)
    else do
      let r ← lmInnerM cfg lsFuel eqs ja q F innerFuel table (lit 1 (-5)) it
      let q ← .plain (q.add r.1)
      let table ← .plain (r.2.2.1.setValues q)
      if (r.2.2.2 : Int) = cfg.maxIterations then .raised (.runtime limitText)
      else lmOuterM cfg lsFuel innerFuel eqs ja fuel table q (r.2.2.2 + 1)

/-- nonlinear.cpp:143-258 `SolveByLM` -/
def solveByLMM (cfg : Config α) (lsFuel fuel : Nat) (eqs : SymMat α) (table : VarsTable α) : MRes (VarsTable α) := do
  let _ ← .plain (Mat.new table.varNums 1 (Arith.zero : α))
  let ja ← .plain (eqs.jacobian cfg table.vars)
  lmOuterM cfg lsFuel fuel eqs ja fuel table table.values 0

/-- nonlinear.cpp:260-269 `Solve(equations, varsTable)`; `method` is the text of the number of a method that is neither of the two -/
def solveM (cfg : Config α) (method : Str) (lsFuel fuel : Nat) (eqs : SymMat α) (table : VarsTable α) : MRes (VarsTable α) :=
  match cfg.nonlinearMethod with
  | .newtonRaphson => solveByNewtonRaphsonM cfg eqs table
  | .lm => solveByLMM cfg lsFuel fuel eqs table
  | .other => .raised (.runtime ("invalid config.NonlinearMethod value: ".toList ++ method))

/-- nonlinear.cpp:271-276 `Solve(equations)` -/
def solveAutoM (cfg : Config α) (method : Str) (lsFuel fuel : Nat) (eqs : SymMat α) : MRes (VarsTable α) := do
  let names ← .plain eqs.getAllVarNames
  let table ← .plain (VarsTable.ofVars names cfg.initialValue)
  solveM cfg method lsFuel fuel eqs table

end Tom
