import Verif.Spec.RealSystem
import Verif.Spec.DoubleDiff
import Verif.Spec.DoubleLinear
import Mathlib.Analysis.Normed.Group.Constructions
import Mathlib.Analysis.Normed.Group.Real
/-
What C105 asks of a system of equations around a root, to conclude that Newton's method with IEEE doubles finds the root.
Norms of vectors are maximum norms.
-/
namespace Tom
variable {L : Libm}

/-- The table holds the variables `vars`, with the doubles `w`. -/
def DoubleTable (t : VarsTable (Double L)) (vars : List Str) (w : Fin vars.length → Double L) : Prop :=
  t.Reachable ∧ t.vars = vars ∧ t.values = ⟨vars.length, 1, List.ofFn w⟩

/-- the real numbers stored in a vector of doubles -/
noncomputable def realVec {n : ℕ} (w : Fin n → Double L) : Fin n → ℝ := fun j => ((w j).rat : ℝ)

/-- the equations as functions of real numbers: the literals, which are doubles, are read as the real numbers they stand for -/
noncomputable def realSystem {r : ℕ} (f : Matrix (Fin r) (Fin 1) (Expr (Double L))) : Matrix (Fin r) (Fin 1) (Expr (XNum ℝ)) :=
  fun i j => (f i j).mapNum Double.toReal

/-- Around the root `z`, within the distance `r`: the equations are smooth, their Jacobian stretches every vector at least by the factor
`1 / M`, its entries are at most `a` and change by at most `change`; and in doubles the equations are evaluated with errors at most `eF`, the
partial derivatives, written out by the rules, with errors at most `eA`.  (`NoForeignExp` leaves out what `Diff` gets
wrong, C26_false.) -/
structure RoundedRegion (δ : ℝ) (vars : List Str) (f : Matrix (Fin vars.length) (Fin 1) (Expr (Double L))) (z : Fin vars.length → ℝ)
    (r M change a eF eA : ℝ) : Prop where
  root : IsValue (realSystem f) vars z 0
  closed : ∀ i, ∀ x ∈ (f i 0).vars, x ∈ vars
  noExp : ∀ i, ∀ x ∈ vars, (f i 0).NoForeignExp x
  smooth : ∀ w, ‖w - z‖ ≤ r → ∀ i, Smooth 1 (assign vars w) (realSystem f i 0)
  stretch : ∀ w, ‖w - z‖ ≤ r → ∀ A, IsJacobian (realSystem f) vars w A → ∀ x, ‖x‖ ≤ M * ‖A.mulVec x‖
  bounded : ∀ w, ‖w - z‖ ≤ r → ∀ A, IsJacobian (realSystem f) vars w A → ∀ i j, |A i j| ≤ a
  steady : ∀ w w', ‖w - z‖ ≤ r → ‖w' - z‖ ≤ r → ∀ A A', IsJacobian (realSystem f) vars w A → IsJacobian (realSystem f) vars w' A' →
    ∀ i j, |A i j - A' i j| ≤ change
  value : ∀ w : Fin vars.length → Double L, (∀ j, (w j).Finite) → ‖realVec w - z‖ ≤ r → ∀ i,
    ∃ v E, enclosure δ (assign vars (realVec w)) (f i 0) = some (v, E) ∧ E ≤ eF
  deriv : ∀ w : Fin vars.length → Double L, (∀ j, (w j).Finite) → ‖realVec w - z‖ ≤ r → ∀ i (j : Fin vars.length),
    ∃ v E, ruleEnclosure δ (assign vars (realVec w)) (dE vars[j] (realSystem f i 0)) = some (v, E) ∧ E ≤ eA

/-- The numbers that occur in solving a linear system of `n` equations with entries up to `a` (matrix) and `β` (right-hand side), with
epsilon `ε`, stay far from overflow and underflow. -/
structure RoundedRoom (n : ℕ) (ε a β : ℚ) : Prop where
  eps_pos : 0 < ε
  eps_le : ε ≤ 1
  a_small : 1 / 2 ^ 900 ≤ a
  β_small : 1 / 2 ^ 900 ≤ β
  balanced : n * a * (1 / 2 ^ 1000) ≤ β
  a_big : growth ^ n * a ≤ ε * 2 ^ 998
  β_big : growth ^ n * β ≤ ε * 2 ^ 998
  solution : 2 * growth ^ n * β / ε * (1 + 2 * growth ^ n * a / ε) ^ n ≤ 2 ^ 998

/-- the relative error of solving a linear system of `n` equations with doubles (see `residualBound`) -/
def solveError (n : ℕ) : ℚ := 6 * ((1 + 1 / 2 ^ 53) ^ n - 1) * growth ^ n

/-- What one step of Newton's method with doubles adds to the distance to the root `z`: the rounding errors of the linear system and of the
equations, enlarged by the conditioning `M`, and the rounding of the new point. -/
noncomputable def newtonNoise {n : ℕ} (z : Fin n → ℝ) (M eF : ℝ) (β : ℚ) : ℝ :=
  2 * M * (solveError n * β + eF) + 1 / 2 ^ 53 * ‖z‖

end Tom
