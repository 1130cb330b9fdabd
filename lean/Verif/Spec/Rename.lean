import Verif.Spec.SymMatrix
import Verif.Spec.Tables
/-
Renaming of variables.  A renaming is an injective function on names; every injective assignment of new names to finitely many names is
part of one.
-/
namespace Tom
variable {α : Type} [Dbl α]

/-- The expression with every variable renamed. -/
def Expr.rename (f : Str → Str) : Expr α → Expr α
  | .num v => .num v
  | .var x => .var (f x)
  | .un o e => .un o (e.rename f)
  | .bin o a b => .bin o (a.rename f) (b.rename f)

/-- The matrix of expressions with every variable renamed. -/
def renameMat {r c : ℕ} (f : Str → Str) (E : Matrix (Fin r) (Fin c) (Expr α)) : Matrix (Fin r) (Fin c) (Expr α) := fun i j => (E i j).rename f

/-- `t'` is the table `t` with the variables renamed: the same variables in the same order under their new names, the same vector of
values, and under each new name the value that was under the old one (or nothing in both). -/
def VarsTable.Renamed (f : Str → Str) (t t' : VarsTable α) : Prop :=
  t'.vars = t.vars.map f ∧ t'.values = t.values ∧ t'.varNums = t.varNums ∧ ∀ x, t'.get (f x) = t.get x

/-- Two outcomes agree: both return, with results related by `R`, or both end in the same other way (the same exception). -/
inductive SameEnd {β γ : Type} (R : β → γ → Prop) : Res β → Res γ → Prop
  | ok {b : β} {c : γ} : R b c → SameEnd R (.ok b) (.ok c)
  | throw (e : Exc) : SameEnd R (.throw e) (.throw e)
  | ub : SameEnd R .ub .ub
  | terminate : SameEnd R .terminate .terminate
  | assertFail : SameEnd R .assertFail .assertFail
  | diverge : SameEnd R .diverge .diverge

end Tom
