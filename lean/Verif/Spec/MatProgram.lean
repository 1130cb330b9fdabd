import Verif.Spec.Exact
import Verif.Spec.SymMatrix
import Verif.Model.Nonlinear
import Mathlib.LinearAlgebra.Matrix.NonsingularInverse
/-
Calculations with matrices: formulas of matrix algebra, what they mean in mathematics, and what a program that writes them with the
operators of `Mat` computes.
-/
namespace Tom

/-- a formula of matrix algebra, for matrices with `r` rows and `c` columns -/
inductive MatProg (K : Type) : ℕ → ℕ → Type
  | lit {r c : ℕ} (hr : 0 < r) (hc : 0 < c) (A : Matrix (Fin r) (Fin c) K) : MatProg K r c
  | add {r c : ℕ} (a b : MatProg K r c) : MatProg K r c
  | sub {r c : ℕ} (a b : MatProg K r c) : MatProg K r c
  | neg {r c : ℕ} (a : MatProg K r c) : MatProg K r c
  | scaleRight {r c : ℕ} (a : MatProg K r c) (k : K) : MatProg K r c
  | scaleLeft {r c : ℕ} (k : K) (a : MatProg K r c) : MatProg K r c
  | mul {r m c : ℕ} (a : MatProg K r m) (b : MatProg K m c) : MatProg K r c
  | transpose {r c : ℕ} (a : MatProg K r c) : MatProg K c r
  | inverse {n : ℕ} (a : MatProg K n n) : MatProg K n n

namespace MatProg
variable {K : Type} [Field K] [LinearOrder K]

/-- what the formula means in mathematics; nothing, if a matrix is to be inverted whose determinant is not larger than `eps` -/
noncomputable def meaning (eps : K) : {r c : ℕ} → MatProg K r c → Option (Matrix (Fin r) (Fin c) K)
  | _, _, lit _ _ A => some A
  | _, _, add a b => do some ((← a.meaning eps) + (← b.meaning eps))
  | _, _, sub a b => do some ((← a.meaning eps) - (← b.meaning eps))
  | _, _, neg a => do some (-(← a.meaning eps))
  | _, _, scaleRight a k => do some (k • (← a.meaning eps))
  | _, _, scaleLeft k a => do some (k • (← a.meaning eps))
  | _, _, mul a b => do some ((← a.meaning eps) * (← b.meaning eps))
  | _, _, transpose a => do some (← a.meaning eps).transpose
  | _, _, inverse a => do
    let A ← a.meaning eps
    if |A.det| ≤ eps then none else some A⁻¹

/-- what the program `a + b`, `a - b`, `-a`, `a * k`, `k * a`, `a * b`, `a.Transpose()`, `a.Inverse()` computes with matrices of the library -/
def run {α : Type} [Arith α] [Exact α K] (eps : α) : {r c : ℕ} → MatProg K r c → Res (Mat α)
  | _, _, lit _ _ A => .ok (ofMatrix A)
  | _, _, add a b => do
    let x ← a.run eps
    let y ← b.run eps
    x.add y
  | _, _, sub a b => do
    let x ← a.run eps
    let y ← b.run eps
    x.sub y
  | _, _, neg a => do
    let x ← a.run eps
    .ok x.neg
  | _, _, scaleRight a k => do
    let x ← a.run eps
    .ok (x.scale (fin k))
  | _, _, scaleLeft k a => do
    let x ← a.run eps
    .ok (Mat.scaleLeft (fin k) x)
  | _, _, mul a b => do
    let x ← a.run eps
    let y ← b.run eps
    x.mul y
  | _, _, transpose a => do
    let x ← a.run eps
    x.transpose
  | _, _, inverse a => do
    let x ← a.run eps
    x.inverse eps

end MatProg

/-- a formula for matrices of expressions: matrices, differences and products (the operations of `SymMat`) -/
inductive SymProg (α : Type) : ℕ → ℕ → Type
  | lit {r c : ℕ} (hr : 0 < r) (hc : 0 < c) (E : Matrix (Fin r) (Fin c) (Expr α)) : SymProg α r c
  | sub {r c : ℕ} (a b : SymProg α r c) : SymProg α r c
  | mul {r m c : ℕ} (a : SymProg α r m) (b : SymProg α m c) : SymProg α r c
namespace SymProg
variable {α : Type} [Dbl α]

/-- what the program computes with matrices of the library -/
def run : {r c : ℕ} → SymProg α r c → Res (SymMat α)
  | _, _, lit _ _ E => .ok (symOf E)
  | _, _, sub a b => do
    let x ← a.run
    let y ← b.run
    x.sub y
  | _, _, mul a b => do
    let x ← a.run
    let y ← b.run
    x.mul y

/-- `A` is what the formula means in mathematics when the matrices in it have the values they have for the variables in the table -/
def Means {K : Type} [Field K] [LinearOrder K] [Exact α K] (cfg : Config α) (t : VarsTable α) :
    {r c : ℕ} → SymProg α r c → Matrix (Fin r) (Fin c) K → Prop
  | _, _, lit _ _ E, A => evalMat cfg (symOf E) t = .ok (ofMatrix A)
  | _, _, sub a b, C => ∃ A B, a.Means cfg t A ∧ b.Means cfg t B ∧ C = A - B
  | _, _, mul a b, C => ∃ A B, a.Means cfg t A ∧ b.Means cfg t B ∧ C = A * B

end SymProg

end Tom
