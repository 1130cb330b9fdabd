import Verif.Model.SolveMessages
/-
The texts (`what()`) of the exceptions a solver may throw, for C106.
-/
namespace Tom
variable {α : Type} [Dbl α]

/-- One of the expressions in `m` raises `e` when it is evaluated, `Subs(Clone(n), table)->Vpa()`, with some values of the variables `vars`. -/
def RaisedIn (cfg : Config α) (vars : List Str) (m : SymMat α) (e : MExc) : Prop :=
  ∃ t : VarsTable α, t.vars = vars ∧ ∃ n ∈ m.data, ∃ c n', clone n = .ok c ∧ subsValues c t.table = .ok n' ∧ vpaM cfg n' = .raised e

/-- What `SolveLinear` may say.  `shown` is how the matrix and the right-hand side appear in the text. -/
inductive LinearText : MExc → Prop
  | overDetermined {e : MExc} : e.kind = .math .overDeterminedEquations → e.what = "overdetermined equations".toList → LinearText e
  | singular {e : MExc} : e.kind = .math .singularMatrix → e.what = "singular matrix".toList → LinearText e
  | infinite {e : MExc} : e.kind = .math .infinitySolutions → e.what = "infinite solutions".toList → LinearText e
  | indeterminate {e : MExc} (A b : Mat α) : e.kind = .math .indeterminateEquation →
      e.what = "indeterminate equation: \"A = ".toList ++ A.toString ++ "\nb = ".toList ++ b.toString ++ "\"".toList → LinearText e

/-- What Newton's method may say. -/
inductive NewtonText (cfg : Config α) (eqs : SymMat α) (vars : List Str) : MExc → Prop
  /-- an equation has no value at some point -/
  | equation {e : MExc} : RaisedIn cfg vars eqs e → NewtonText cfg eqs vars e
  /-- a partial derivative has no value at some point -/
  | derivative {e : MExc} {J : SymMat α} : eqs.jacobian cfg vars = .ok J → RaisedIn cfg vars J e → NewtonText cfg eqs vars e
  /-- the limit of iterations -/
  | limit {e : MExc} : e.kind = .runtime → e.what = "迭代次数超出限制".toList → NewtonText cfg eqs vars e
  /-- a singular Jacobian comes with advice -/
  | singular {e : MExc} : e.kind = .math .singularMatrix →
      e.what = "singular matrix: \"tip: consider using different initial values\"".toList → NewtonText cfg eqs vars e
  /-- the linear systems -/
  | linear {e : MExc} : LinearText (α := α) e → e.kind ≠ .math .singularMatrix → NewtonText cfg eqs vars e

/-- What the Levenberg-Marquardt method may say. -/
inductive LMText (cfg : Config α) (eqs : SymMat α) (vars : List Str) : MExc → Prop
  | equation {e : MExc} : RaisedIn cfg vars eqs e → LMText cfg eqs vars e
  | derivative {e : MExc} {J : SymMat α} : eqs.jacobian cfg vars = .ok J → RaisedIn cfg vars J e → LMText cfg eqs vars e
  | limit {e : MExc} : e.kind = .runtime → e.what = "迭代次数超出限制".toList → LMText cfg eqs vars e
  | singular {e : MExc} : e.kind = .math .singularMatrix → e.what = "singular matrix".toList → LMText cfg eqs vars e
  | infinite {e : MExc} : e.kind = .math .infinitySolutions → e.what = "infinite solutions".toList → LMText cfg eqs vars e

end Tom
