import Verif.Spec.Real
import Mathlib.Topology.Constructions
import Verif.Model.SubsSimplifyDiff
/-
Mixed partial derivatives, for C107.
-/
namespace Tom
open Topology

/-- Near `ρ`, `g'` is the partial derivative of `g` with respect to `x`. -/
def PartialNear (ρ : Str → ℝ) (x : Str) (g g' : (Str → ℝ) → ℝ) : Prop :=
  ∀ᶠ σ in 𝓝 ρ, HasDerivAt (fun t => g (at_ σ x t)) (g' σ) (σ x)

/-- `d` is the value at `ρ` of the partial derivative of `g` with respect to the first of the variables, then the second, and so on. -/
def HasMixedPartial (ρ : Str → ℝ) : List Str → ((Str → ℝ) → ℝ) → ℝ → Prop
  | [], g, d => g ρ = d
  | x :: xs, g, d => ∃ g', PartialNear ρ x g g' ∧ HasMixedPartial ρ xs g' d

/-- the same of the function an expression denotes -/
def Expr.HasMixedPartial (ρ : Str → ℝ) (xs : List Str) (e : Expr (XNum ℝ)) (d : ℝ) : Prop :=
  ∃ g : (Str → ℝ) → ℝ, (∀ᶠ σ in 𝓝 ρ, realVal σ e = some (g σ)) ∧ Tom.HasMixedPartial ρ xs g d

/-- `Diff(...Diff(Diff(e, x₁), x₂)..., xₖ)` -/
def diffs {α : Type} [Dbl α] (cfg : Config α) : List Str → Raw α → Res (Raw α)
  | [], t => .ok t
  | x :: xs, t => do
    let t ← diff cfg t x 1
    diffs cfg xs t

/-- the arguments of `exp` in an expression -/
def Expr.expArgs {α : Type} : Expr α → List (Expr α)
  | .num _ => []
  | .var _ => []
  | .un .exp e => e :: e.expArgs
  | .un _ e => e.expArgs
  | .bin _ a b => a.expArgs ++ b.expArgs

/-- `Simplify` makes no argument of `exp` a bare variable, unless it is the only variable of differentiation. -/
def ExpFit {α : Type} [Dbl α] (cfg : Config α) (xs : List Str) (e : Expr α) : Prop :=
  ∀ a ∈ e.expArgs, ∀ v, simplify cfg (embed a) = .ok (embed (.var v)) → ∀ x ∈ xs, x = v

end Tom
