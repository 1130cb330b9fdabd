import Verif.Spec.RealSystem
/-
Systems of equations that have values everywhere, and their level sets.
-/
namespace Tom

/-- The equations `f` in the unknowns `vars` denote the map `F` of the real vectors, with the matrices of partial derivatives `J`, and are
smooth at every point in the sense of the differentiation rules. -/
def Everywhere (vars : List Str) (f : Matrix (Fin vars.length) (Fin 1) (Expr (XNum ℝ))) (F : (Fin vars.length → ℝ) → Fin vars.length → ℝ)
    (J : (Fin vars.length → ℝ) → Matrix (Fin vars.length) (Fin vars.length) ℝ) : Prop :=
  ∀ u, SmoothAt f vars u ∧ IsValue f vars u (F u) ∧ IsJacobian f vars u (J u)

/-- The points at which the sum of the squares of the residuals is at most `c`. -/
def levelSet {n : ℕ} (F : (Fin n → ℝ) → Fin n → ℝ) (c : ℝ) : Set (Fin n → ℝ) := {u | ∑ i, F u i ^ 2 ≤ c}

end Tom
