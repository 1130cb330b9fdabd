import Verif.Spec.DoubleLinear
import Verif.Spec.LMSteps
import Verif.Spec.Safety
/-
Numbers small enough that elimination cannot overflow, and the points that Newton's iteration visits.
-/
namespace Tom
variable {L : Libm}

/-- a finite double of absolute value at most `M` -/
def Double.AtMost (M : ℚ) (v : Double L) : Prop := v.Finite ∧ |v.rat| ≤ M

/-- `M` leaves room for eliminating `r` rows with pivots of at least `ε`: each step multiplies the numbers by at most 2.000…, and one
division by a pivot follows. -/
structure ElimRoom (r : ℕ) (ε M : ℚ) : Prop where
  eps_pos : 0 < ε
  eps_le : ε ≤ 1
  one_le : 1 ≤ M
  room : growth ^ r * M ≤ ε * 2 ^ 998

/-- `t'` is a point at which Newton's iteration, started at `t`, evaluates the equations: `t` itself, or one reached by Newton steps after
the first step (which leads from `t` to the correction itself, not to `t` plus the correction, see C44). -/
def NewtonVisits {α : Type} [Dbl α] (cfg : Config α) (eqs J : SymMat α) (t t' : VarsTable α) : Prop :=
  t' = t ∨ ∃ d t1, NewtonCorrection cfg eqs J t d ∧ (zeroVec t.vars.length).add d = .ok t1.values ∧ t1.vars = t.vars ∧
    Relation.ReflTransGen (NewtonStep cfg eqs J) t1 t'

/-- The linear system of the Levenberg-Marquardt method: the matrix `JᵀJ + mu I` and the right-hand side `-JᵀF`, with the Jacobian at
`t`. -/
def lmNormal {α : Type} [Dbl α] (cfg : Config α) (ja : SymMat α) (F : Mat α) (mu : α) (t : VarsTable α) : Res (Mat α × Mat α) := do
  let j ← evalMat cfg ja t
  let jt ← j.transpose
  let jtj ← jt.mul j
  let z ← Mat.new j.rows j.cols Arith.zero
  let one ← z.ones
  let m ← jtj.add (Mat.scaleLeft mu one)
  let g ← jt.mul F
  let g ← g.toVec
  .ok (m, g.neg)

/-- `m d = b` is a linear system that the Levenberg-Marquardt method, started at `t`, has to solve: after some steps and some number of
rejected steps. -/
def LMSystem {α : Type} [Dbl α] (cfg : Config α) (eqs J : SymMat α) (t : VarsTable α) (m b : Mat α) : Prop :=
  ∃ t0 k s F, Relation.ReflTransGen (LMStep cfg eqs J) t t0 ∧ LMTrial cfg eqs J t0 k s ∧ evalVec cfg eqs t0 = .ok F ∧
    lmNormal cfg J F (lmDamping k) s = .ok (m, b)

end Tom
