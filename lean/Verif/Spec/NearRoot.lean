import Verif.Spec.RealSystem
import Mathlib.Analysis.Normed.Group.Constructions
import Mathlib.Analysis.Normed.Group.Real
/-
When a small residual implies a root nearby.  Norms of vectors are maximum norms.
-/
namespace Tom

/-- Around the point `u` (within the distance `r`) the equations are smooth, the Jacobian `A` at `u` stretches every vector at least by the
factor `1 / M`, and the entries of the Jacobian change so little that `n · change · M` stays below 1/2 (`n` the number of equations). -/
def WellConditioned (vars : List Str) (f : Matrix (Fin vars.length) (Fin 1) (Expr (XNum ℝ))) (u : Fin vars.length → ℝ) (M r : ℝ) : Prop :=
  0 < M ∧ (∀ i, ∀ x ∈ (f i 0).vars, x ∈ vars) ∧ (∀ w, ‖w - u‖ ≤ r → ∀ i, Smooth 1 (assign vars w) (f i 0)) ∧
    ∃ A : Matrix (Fin vars.length) (Fin vars.length) ℝ, IsJacobian f vars u A ∧ (∀ x, ‖x‖ ≤ M * ‖A.mulVec x‖) ∧
      ∃ change : ℝ, M * (vars.length * change) ≤ 1 / 2 ∧
        ∀ w, ‖w - u‖ ≤ r → ∀ A', IsJacobian f vars w A' → ∀ i j, |A' i j - A i j| ≤ change

/-- There is exactly one root of the equations within the distance `r` of `u`, and it is within the distance `d`. -/
def OneRootNear (vars : List Str) (f : Matrix (Fin vars.length) (Fin 1) (Expr (XNum ℝ))) (u : Fin vars.length → ℝ) (r d : ℝ) : Prop :=
  ∃ z, ‖z - u‖ ≤ d ∧ IsValue f vars z 0 ∧ ∀ z', ‖z' - u‖ ≤ r → IsValue f vars z' 0 → z' = z

end Tom
