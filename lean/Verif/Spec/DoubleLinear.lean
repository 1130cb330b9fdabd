import Verif.Spec.DoubleSum
import Mathlib.Data.Matrix.Basic
import Mathlib.Algebra.BigOperators.Group.Finset.Basic
import Mathlib.Algebra.Order.BigOperators.Group.Finset
import Mathlib.Data.Rat.Lemmas
/-
When `SolveLinear` can be trusted with doubles: the numbers are not too large and not too small, and the matrix is not too close to a
singular one.
-/
namespace Tom
variable {L : Libm}
open Finset

/-- The factor by which the numbers can grow in each step of the elimination. -/
def growth : ℚ := 2 + 1 / 2 ^ 50

/-- The entries of the system are finite doubles of absolute value at most `a` (matrix) and `β` (right-hand side), and with `n` steps of
elimination they stay far from overflow and underflow; `ε` is the configured epsilon. -/
structure WellScaled {n : ℕ} (ε a β : ℚ) (A : Matrix (Fin n) (Fin n) (Double L)) (b : Fin n → Double L) : Prop where
  eps_pos : 0 < ε
  eps_le : ε ≤ 1
  entries : ∀ i j, (A i j).Finite ∧ |(A i j).rat| ≤ a
  rhs : ∀ i, (b i).Finite ∧ |(b i).rat| ≤ β
  a_small : 1 / 2 ^ 900 ≤ a
  β_small : 1 / 2 ^ 900 ≤ β
  balanced : n * a * (1 / 2 ^ 1000) ≤ β
  a_big : growth ^ n * a ≤ ε * 2 ^ 998
  β_big : growth ^ n * β ≤ ε * 2 ^ 998

/-- The exact numbers stored in a matrix of doubles. -/
def ratMatrix {r c : ℕ} (A : Matrix (Fin r) (Fin c) (Double L)) : Matrix (Fin r) (Fin c) ℚ := A.map Double.rat

/-- `A` stretches every vector by more than `κ`: the largest entry of `A z` is more than `κ` times the sum of the absolute values of the
entries of `z` (`z ≠ 0`). -/
def Stretches {n : ℕ} (κ : ℚ) (A : Matrix (Fin n) (Fin n) ℚ) : Prop :=
  ∀ z : Fin n → ℚ, z ≠ 0 → ∃ i, κ * ∑ j, |z j| < |A.mulVec z i|

/-- The bound for the residuals of the computed solution `x`: the entries below epsilon that the elimination leaves out, and the rounding errors. -/
def residualBound {n : ℕ} (ε a β : ℚ) (x : Fin n → Double L) : ℚ :=
  ε * ∑ j, |(x j).rat| + 6 * ((1 + 1 / 2 ^ 53) ^ n - 1) * growth ^ n * (a * ∑ j, |(x j).rat| + β)

end Tom
