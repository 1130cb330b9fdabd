import Verif.Spec.RealSystem
/-
Specification for property C113: the points of Newton's method, in the mathematics of real numbers.
-/
namespace Tom

/-- `y 0, ..., y N` are the points Newton's method visits from `y 0` for the system `f` (in the order `vars` of the variables), as the library
runs it: up to `y N` the system is smooth, with the values `F k`, and up to `y (N-1)` its Jacobian `A k` is invertible; `y (k+1)` is the
solution `d` of `A k d = -F k`, added to `y k` (the first time: added to 0, C44). -/
structure NewtonPoints {vars : List Str} (f : Matrix (Fin vars.length) (Fin 1) (Expr (XNum ℝ))) (N : ℕ)
    (y : ℕ → Fin vars.length → ℝ) : Prop where
  smooth : ∀ k, k ≤ N → SmoothAt f vars (y k)
  step : ∀ k, k < N → ∃ F A, IsValue f vars (y k) F ∧ IsJacobian f vars (y k) A ∧ A.det ≠ 0 ∧
    A.mulVec (y (k + 1) - (if k = 0 then 0 else y k)) = -F

/-- All equations have at `u` a value below `eps` in absolute value. -/
def Small {vars : List Str} (f : Matrix (Fin vars.length) (Fin 1) (Expr (XNum ℝ))) (eps : ℝ) (u : Fin vars.length → ℝ) : Prop :=
  ∀ i, ∃ v, realVal (assign vars u) (f i 0) = some v ∧ |v| < eps

end Tom
