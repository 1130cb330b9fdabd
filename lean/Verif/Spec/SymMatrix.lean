import Verif.Model.Nonlinear
import Verif.Spec.Expr
import Verif.Spec.Exact
/-
Specification side of symbolic matrices.
-/
namespace Tom
variable {α : Type} [Dbl α]

/-- the entries of a matrix row by row -/
def entries {β : Type} {r c : ℕ} (E : Matrix (Fin r) (Fin c) β) : List β := List.ofFn fun k : Fin (r * c) => E k.divNat k.modNat

/-- A matrix of expressions as a matrix of the library. -/
def symOf {r c : ℕ} (E : Matrix (Fin r) (Fin c) (Expr α)) : SymMat α := ⟨r, c, (entries E).map embed⟩

/-- The environment given by a table of numbers: other variables have no value (`Vpa` throws `runtime_error`). -/
def envOf (values : List (Str × α)) (x : Str) : Res α :=
  match values.lookup x with
  | some v => .ok v
  | none => .throw .runtime

/-- The expression `a_0*b_0 + a_1*b_1 + ...`, associated to the left. -/
def dotExpr {n : ℕ} (a b : Fin (n + 1) → Expr α) : Expr α :=
  (List.ofFn fun k : Fin n => Expr.bin .mul (a k.succ) (b k.succ)).foldl (.bin .add) (.bin .mul (a 0) (b 0))

/-- Evaluating a list of expressions one after the other, stopping at the first that does not give a number. -/
def evalAll (strict : Bool) (env : Str → Res α) : List (Expr α) → Res (List α)
  | [] => .ok []
  | e :: es => do
    let v ← e.eval strict env
    let vs ← evalAll strict env es
    .ok (v :: vs)

end Tom
