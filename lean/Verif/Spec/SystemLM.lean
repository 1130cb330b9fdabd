import Verif.Spec.RoundedNewton
/-
What C129 asks of a system of `n` equations in `n` unknowns around a root, beyond `RoundedRegion`, to conclude that the Levenberg-Marquardt method
with IEEE doubles finds the root.  Norms of vectors are maximum norms.
-/
namespace Tom

/-- The constants of the region (`M`: the Jacobian stretches every vector at least by `1 / M`; `change`: how much its entries change; `a`: a bound of
its entries; `eA`, `eF`: the errors of the computed derivatives and values; `ε`: epsilon; `M n a` is a condition number), compared with a small
number `θ`: the Jacobian changes little, derivatives and values are computed accurately, rounding the point changes the values by less than epsilon,
and the damping `1e-5` of the method, epsilon and the rounding errors of solving linear equations are small for the conditioning.  `c` is a
constant for the line search (see `SearchFactor`), and `a'`, `β` are rational bounds of the computed derivatives and values.  The numbers stay away
from overflow and underflow. -/
structure SystemLMRoom {n : ℕ} (z : Fin n → ℝ) (r M change a eF eA θ c : ℝ) (ε a' β : ℚ) : Prop where
  M_pos : 0 < M
  small : 0 ≤ θ ∧ θ ≤ 1 / 40 ∧ 40 * θ ≤ c
  search : 100 * n * θ ^ 2 ≤ c ^ 2 ∧ 100 * n * θ ^ 2 ≤ 1
  steady : M * (n * change) ≤ θ
  slope : M * (n * eA) ≤ θ
  value : M * (n * a) * eF ≤ θ * ε
  point : n * a * ((‖z‖ + r) / 2 ^ 53) ≤ θ * ε
  damping : 16 * (M * (n * a)) * (n * M ^ 2 * (n * ε + 3 * n ^ 2 * a' ^ 2 * solveError n + 1 / 50000)) ≤ θ
  entries : 1 ≤ a' ∧ a + eA ≤ a'
  values : n * a * r + eF ≤ β
  linear : RoundedRoom n ε (2 * n * a' ^ 2) (2 * n * a' * β)
  eps : 1 / 2 ^ 50 ≤ ε
  c_small : 1 / 2 ^ 20 ≤ c
  big : n ≤ 2 ^ 50 ∧ a' ≤ 2 ^ 100 ∧ β ≤ 2 ^ 100 ∧ ‖z‖ + r ≤ 2 ^ 100

/-- The line search of the method tests with the transposed Jacobian (nonlinear.cpp:25); `c` says how much of the length of `A x` is left when
`2/5 Aᵀ x` is subtracted.  (For a symmetric matrix `c = 3/5`.) -/
def SearchFactor {n : ℕ} (c : ℝ) (A : Matrix (Fin n) (Fin n) ℝ) : Prop :=
  ∀ x, c * ‖A.mulVec x‖ ≤ ‖A.mulVec x - (2 / 5 : ℝ) • A.transpose.mulVec x‖

end Tom
