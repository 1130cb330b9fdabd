import Verif.Spec.Solve
import Verif.Spec.Linear
import Verif.Spec.Real
import Mathlib.Data.Matrix.Mul
/-
Systems of equations over the real numbers: the points the solvers visit, seen as vectors of real numbers.
-/
namespace Tom

/-- The table holds the variables `vars`, with the real values `u`. -/
def TableAt (t : VarsTable (XNum ℝ)) (vars : List Str) (u : Fin vars.length → ℝ) : Prop :=
  t.Reachable ∧ t.vars = vars ∧ t.values = ofVec u

/-- The point whose coordinate `vars[j]` is `u j` (all other variables: 0). -/
def assign (vars : List Str) (u : Fin vars.length → ℝ) (x : Str) : ℝ :=
  if h : vars.idxOf x < vars.length then u ⟨vars.idxOf x, h⟩ else 0

/-- `F` is the value of the system at the point `u`: one real number for each equation. -/
def IsValue {r : ℕ} (f : Matrix (Fin r) (Fin 1) (Expr (XNum ℝ))) (vars : List Str) (u : Fin vars.length → ℝ) (F : Fin r → ℝ) : Prop :=
  ∀ i, realVal (assign vars u) (f i 0) = some (F i)

/-- `A` is the Jacobian of the system at the point `u`: its entries are the partial derivatives of the equations. -/
def IsJacobian {r : ℕ} (f : Matrix (Fin r) (Fin 1) (Expr (XNum ℝ))) (vars : List Str) (u : Fin vars.length → ℝ)
    (A : Matrix (Fin r) (Fin vars.length) ℝ) : Prop :=
  ∀ i j, HasPartialDeriv (assign vars u) vars[j] (f i 0) (A i j)

/-- The system mentions no other variables than `vars`, does not contain `exp` of a bare variable unless it is the only one (`Diff`
is wrong for it, C26), and every equation is smooth at the point `u` in the sense of the differentiation rules. -/
def SmoothAt {r : ℕ} (f : Matrix (Fin r) (Fin 1) (Expr (XNum ℝ))) (vars : List Str) (u : Fin vars.length → ℝ) : Prop :=
  (∀ i, ∀ x ∈ (f i 0).vars, x ∈ vars) ∧ (∀ i, ∀ x ∈ vars, (f i 0).NoForeignExp x) ∧ ∀ i, Smooth 1 (assign vars u) (f i 0)

end Tom
