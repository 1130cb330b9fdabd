import Verif.Spec.TextValue
import Verif.Spec.NearRoot
/-
Specification for property C119: equations written as texts.
-/
namespace Tom

/-- The text `s` is the expression `e` of the grammar, with its literals as the real numbers written; its variables have names that are not
mistaken for functions (C07). -/
def Writes (s : Str) (e : Expr (XNum ℝ)) : Prop :=
  ∃ ts : List (Tok (XNum ℝ) × Nat), Lexed WordMeans 0 s ts ∧ Gram 0 (ts.map Prod.fst) e ∧ ∀ x, Tok.var x ∈ ts.map Prod.fst → NoCollision x

end Tom
