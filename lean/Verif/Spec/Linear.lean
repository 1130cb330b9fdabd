import Verif.Spec.Exact
import Mathlib.Data.Matrix.Mul
/-
Vocabulary for linear systems.  `SolveLinear` treats numbers below `Config::epsilon` as zero; `Near eps A B` says that the
matrices `A` and `B` differ by less than `eps` in every entry.
-/
namespace Tom
variable {K : Type} [Field K] [LinearOrder K]

/-- the entries of `B` differ from those of `A` by less than `eps` -/
def Near {r c : ℕ} (eps : K) (A B : Matrix (Fin r) (Fin c) K) : Prop := ∀ i j, |A i j - B i j| < eps

/-- the system `A v = b` has a solution -/
def Solvable {r c : ℕ} (A : Matrix (Fin r) (Fin c) K) (b : Fin r → K) : Prop := ∃ v : Fin c → K, A.mulVec v = b

end Tom
