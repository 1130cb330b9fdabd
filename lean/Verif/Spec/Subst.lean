import Verif.Spec.Expr
/-
Specification of simultaneous substitution.
-/
namespace Tom
variable {α : Type}

/-- Simultaneous substitution: every mapped variable is replaced by its image; images are not rescanned. -/
def Expr.subst (σ : Str → Option (Expr α)) : Expr α → Expr α
  | num v => num v
  | var x => match σ x with
    | some e => e
    | none => var x
  | un o e => un o (e.subst σ)
  | bin o a b => bin o (a.subst σ) (b.subst σ)

end Tom
