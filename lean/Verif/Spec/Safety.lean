import Verif.Spec.RealSystem
import Verif.Spec.Tree
/-
Outcomes a caller can handle.
-/
namespace Tom

/-- The call returns or throws an exception. -/
def Res.Handled {β : Type} (r : Res β) : Prop := (∃ b, r = .ok b) ∨ ∃ e, r = .throw e

/-- The call returns, throws an exception, or runs for ever; it does not run into undefined behaviour, nor a violated
assertion, nor `std::terminate`. -/
def Res.Defined {β : Type} (r : Res β) : Prop := (∃ b, r = .ok b) ∨ (∃ e, r = .throw e) ∨ r = .diverge

/-- all literals of the expression are numbers (no inf, no nan) -/
def Expr.Finite (e : Expr (XNum ℝ)) : Prop := ∀ v ∈ e.nums, v ≠ .bad

end Tom
