import Verif.Spec.SymMatrix
import Verif.Spec.Tables
import Mathlib.Logic.Relation
import Mathlib.Logic.Function.Iterate
import Mathlib.LinearAlgebra.Matrix.Defs
/-
Specification side of the nonlinear solvers.  A system is a column of expressions `f`; the library holds it as `symOf f`.
-/
namespace Tom
variable {α : Type} [Dbl α]

/-- Every equation, evaluated at the table (`Vpa(Subs(f_i, table))`), is a number whose distance from 0 is below epsilon. -/
def Satisfies {r : ℕ} (cfg : Config α) (f : Matrix (Fin r) (Fin 1) (Expr α)) (t : VarsTable α) : Prop :=
  ∀ i, ∃ v, (subsValues (embed (f i 0)) t.table >>= fun e => vpa cfg e) = .ok v ∧
    Arith.lt (Arith.abs (Arith.sub v (Dbl.ofInt 0))) cfg.epsilon = true

/-- `Diff(f_i, x_j)` returns normally for every equation and every variable. -/
def DiffReturns {r : ℕ} (cfg : Config α) (f : Matrix (Fin r) (Fin 1) (Expr α)) (vars : List Str) : Prop :=
  ∀ i, ∀ x ∈ vars, ∃ d, diffConst cfg (embed (f i 0)) x 1 = .ok d

/-- The Newton correction at `t`: `d` is what `SolveLinear(J(t), -f(t))` returns, where `J` is the symbolic Jacobian. -/
def NewtonCorrection (cfg : Config α) (eqs J : SymMat α) (t : VarsTable α) (d : Mat α) : Prop :=
  ∃ phi j, evalVec cfg eqs t = .ok phi ∧ evalMat cfg J t = .ok j ∧ solveLinear cfg j phi.neg = .ok d

/-- One Newton step: from the point `x` to `x + d`. -/
def NewtonStep (cfg : Config α) (eqs J : SymMat α) (t t' : VarsTable α) : Prop :=
  ∃ d, NewtonCorrection cfg eqs J t d ∧ t.values.add d = .ok t'.values ∧ t'.vars = t.vars

/-- The sum of squares of the equations is smaller at `t'` than at `t`. -/
def Descends (cfg : Config α) (eqs : SymMat α) (t t' : VarsTable α) : Prop :=
  ∃ F F' n n', evalVec cfg eqs t = .ok F ∧ evalVec cfg eqs t' = .ok F' ∧ F.norm2 = .ok n ∧ F'.norm2 = .ok n' ∧
    Arith.lt n' n = true

/-- The direction of the Levenberg-Marquardt method: the solution `d`, by `SolveLinear`, of `(JᵀJ + mu I) d = -Jᵀ F`, where `J` is the
Jacobian at `t`. -/
def lmDirection (cfg : Config α) (ja : SymMat α) (F : Mat α) (mu : α) (t : VarsTable α) : Res (Mat α) := do
  let j ← evalMat cfg ja t
  let jt ← j.transpose
  let jtj ← jt.mul j
  let z ← Mat.new j.rows j.cols Arith.zero
  let one ← z.ones
  let m ← jtj.add (Mat.scaleLeft mu one)
  let g ← jt.mul F
  let g ← g.toVec
  solveLinear cfg m g.neg

/-- The damping after `k` rejected steps: `1e-5 * 10 * 10 * ...`. -/
def lmDamping (k : ℕ) : α := (fun m => Arith.mul m (Dbl.ofInt 10))^[k] (lit 1 (-5))

/-- A line search that the Levenberg-Marquardt method may carry out: it starts at `t0`, in the direction `d` made, after `k` rejected
steps, from the equations at `t0` and the Jacobian at `t`; before the first rejected step, `t` is `t0`. -/
def LMSearch (cfg : Config α) (eqs ja : SymMat α) (t0 : VarsTable α) (k : ℕ) (t : VarsTable α) (d : Mat α) : Prop :=
  t0.Reachable ∧ t.Reachable ∧ t.vars = t0.vars ∧ (k = 0 → t = t0) ∧
    ∃ F, evalVec cfg eqs t0 = .ok F ∧ lmDirection cfg ja F (lmDamping k) t = .ok d

/-- The vector of `n` zeros. -/
def zeroVec (n : ℕ) : Mat α := ⟨n, 1, List.replicate n Arith.zero⟩

/-- The test of the line search for the step length `a`, written out: the sum of squares of `F` at `x + a d` is at most the sum of
squares of `F(x) + 0.4 a J(x)ᵀ d`. -/
def ArmijoTest {K : Type} [Field K] [LinearOrder K] {n : ℕ} (F : (Fin n → K) → Fin n → K)
    (J : (Fin n → K) → Matrix (Fin n) (Fin n) K) (x d : Fin n → K) (a : K) : Prop :=
  ∑ i, F (x + a • d) i ^ 2 ≤ ∑ i, (F x i + 2 / 5 * a * (∑ k, J x k i * d k)) ^ 2

end Tom
