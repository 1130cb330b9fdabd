import Verif.Spec.NewtonPoints
import Verif.Model.Nonlinear
import Verif.Spec.Subst
/-
Specification for property C121: the same system written in another way.
-/
namespace Tom

/-- `SolveByNewtonRaphson` follows the points `y 0, y 1, ...`: it returns the first of those the limit allows at which all equations are below
`eps`, and throws runtime_error if there is none. -/
def RunsAlong {vars : List Str} (cfg : Config (XNum ℝ)) (eps : ℝ) (f : Matrix (Fin vars.length) (Fin 1) (Expr (XNum ℝ)))
    (y : ℕ → Fin vars.length → ℝ) (t : VarsTable (XNum ℝ)) : Prop :=
  (∃ (k : ℕ) (s : VarsTable (XNum ℝ)), (k : ℤ) ≤ max (cfg.maxIterations + 1) 0 ∧ (∀ j < k, ¬ Small f eps (y j)) ∧ Small f eps (y k) ∧
    solveByNewtonRaphson cfg (symOf f) t = .ok s ∧ TableAt s vars (y k)) ∨
  ((∀ k : ℕ, (k : ℤ) ≤ max (cfg.maxIterations + 1) 0 → ¬ Small f eps (y k)) ∧ solveByNewtonRaphson cfg (symOf f) t = .throw .runtime)

/-- The equations multiplied by numbers: `c 0 * f 0 = 0, c 1 * f 1 = 0, ...` -/
def scaled {n : ℕ} (c : Fin n → ℝ) (f : Matrix (Fin n) (Fin 1) (Expr (XNum ℝ))) : Matrix (Fin n) (Fin 1) (Expr (XNum ℝ)) :=
  fun i j => .bin .mul (.num (.fin (c i))) (f i j)

/-- The `a`-th equation replaced by its sum with a multiple of the `b`-th one. -/
def rowAdded {n : ℕ} (a b : Fin n) (c : ℝ) (f : Matrix (Fin n) (Fin 1) (Expr (XNum ℝ))) : Matrix (Fin n) (Fin 1) (Expr (XNum ℝ)) :=
  fun i j => if i = a then .bin .add (f i j) (.bin .mul (.num (.fin c)) (f b j)) else f i j

/-- The equations in other units: every variable `vars[j]` replaced by `c j * vars[j]`. -/
def inUnits {n : ℕ} (vars : List Str) (c : Fin vars.length → ℝ) (f : Matrix (Fin n) (Fin 1) (Expr (XNum ℝ))) :
    Matrix (Fin n) (Fin 1) (Expr (XNum ℝ)) :=
  fun i j => (f i j).subst fun x => if x ∈ vars then some (.bin .mul (.num (.fin (assign vars c x))) (.var x)) else none

end Tom
