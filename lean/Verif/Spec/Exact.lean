import Verif.Model.Mat
import Verif.Spec.Real
import Mathlib.LinearAlgebra.Matrix.Determinant.Basic
/-
Exact arithmetic: the matrix theorems are about arithmetic without rounding.  `Exact α K` says that the numbers of `α`
include the field `K` and compute on it exactly (division by zero is left open).
-/
namespace Tom

class Exact (α : Type) (K : outParam Type) [Arith α] [Field K] [LinearOrder K] where
  /-- the embedding of exact numbers -/
  fin : K → α
  fin_inj : ∀ {a b : K}, fin a = fin b → a = b
  zero : (Arith.zero : α) = fin 0
  one : (Arith.one : α) = fin 1
  add : ∀ a b : K, Arith.add (fin a) (fin b) = fin (a + b)
  sub : ∀ a b : K, Arith.sub (fin a) (fin b) = fin (a - b)
  mul : ∀ a b : K, Arith.mul (fin a) (fin b) = fin (a * b)
  div : ∀ a b : K, b ≠ 0 → Arith.div (fin a) (fin b) = fin (a / b)
  neg : ∀ a : K, Arith.neg (fin a) = fin (-a)
  abs : ∀ a : K, Arith.abs (fin a) = fin |a|
  lt : ∀ a b : K, Arith.lt (fin a) (fin b) = decide (a < b)
  le : ∀ a b : K, Arith.le (fin a) (fin b) = decide (a ≤ b)
  eq : ∀ a b : K, Arith.eq (fin a) (fin b) = decide (a = b)

export Exact (fin)

noncomputable instance : Exact (XNum ℝ) ℝ where
  fin := .fin
  fin_inj h := by simpa using h
  zero := rfl
  one := rfl
  add _ _ := rfl
  sub _ _ := rfl
  mul _ _ := rfl
  div a b h := by simp [Arith.div, XNum.map2O, h]
  neg _ := rfl
  abs _ := rfl
  lt a b := by simp [Arith.lt, XNum.cmp]
  le a b := by simp [Arith.le, XNum.cmp]
  eq a b := by simp [Arith.eq, XNum.cmp]

instance : Exact (XNum Rat) Rat where
  fin := .fin
  fin_inj h := by simpa using h
  zero := rfl
  one := rfl
  add _ _ := rfl
  sub _ _ := rfl
  mul _ _ := rfl
  div a b h := by simp [Arith.div, XNum.map2O, h]
  neg _ := rfl
  abs a := by
    simp only [Arith.abs, XNum.map]
    congr 1
    split
    · rename_i h; exact (abs_of_neg h).symm
    · rename_i h; exact (abs_of_nonneg (not_lt.mp h)).symm
  lt a b := rfl
  le a b := rfl
  eq a b := rfl

/-- A matrix of numbers as a matrix of the library: the entries row by row. -/
def ofEntries {α : Type} {r c : ℕ} (A : Matrix (Fin r) (Fin c) α) : Mat α :=
  ⟨r, c, List.ofFn fun k : Fin (r * c) => A k.divNat k.modNat⟩

variable {α K : Type} [Arith α] [Field K] [LinearOrder K] [Exact α K]

/-- A matrix of mathematics as a matrix of the library: the exact entries row by row. -/
def ofMatrix {r c : ℕ} (A : Matrix (Fin r) (Fin c) K) : Mat α := ofEntries (A.map fin)

/-- A vector of mathematics as a vector of the library. -/
def ofVec {r : ℕ} (v : Fin r → K) : Mat α := ⟨r, 1, List.ofFn fun k => fin (v k)⟩

end Tom
