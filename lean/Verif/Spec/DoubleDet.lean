import Verif.Spec.DoubleSum
import Mathlib.LinearAlgebra.Matrix.Determinant.Basic
import Mathlib.Data.Fin.SuccPred
/-
What the rounding error of a determinant is measured against.
-/
namespace Tom

/-- The determinant with every sign replaced by plus and every entry by its absolute value, where each of the products of the expansion
is increased by `m` (the smallest normal double `2^-1022`, for products that underflow). -/
def absDet (m : ℚ) : (n : ℕ) → Matrix (Fin n) (Fin n) ℚ → ℚ
  | 0, _ => 1
  | 1, A => |A 0 0|
  | n + 2, A => ∑ k : Fin (n + 2), (|A 0 k| * absDet m (n + 1) (A.submatrix Fin.succ k.succAbove) + m)

/-- the number of roundings an entry of the matrix passes through on its way into the determinant -/
def detRoundings (n : ℕ) : ℕ := n * (n + 1) / 2 - 1

end Tom
