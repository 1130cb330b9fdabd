import Verif.Spec.TextSolve
import Verif.Spec.TextDeriv
import Verif.Spec.RoundedNewton
import Verif.Spec.RoundedLM
/-
What C128 asks of equations written as texts, around a root of the equations as they are written, to conclude that `Solve` with IEEE doubles
finds this root.  As `RoundedRegion` (Spec/RoundedNewton.lean), but the equations are the written ones: literals such as `0.1` are the real
numbers written, and reading them as doubles is part of the errors.
-/
namespace Tom

/-- The texts write the expressions `g`, whose variables are, in alphabetical order, `vars`.  Around the root `z` of the written equations, within the
distance `r`: the written equations are smooth, their Jacobian stretches every vector at least by the factor `1 / M`, its entries are at most `a`
and change by at most `change`; and at points of doubles the errors of reading and evaluating the equations are at most `eF`, of reading,
differentiating and evaluating at most `eA`.  (`NoForeignExp` leaves out what `Diff` gets wrong, C26_false.) -/
structure WrittenRegion (δ : ℝ) (vars : List Str) (texts : Fin vars.length → Str) (g : Fin vars.length → Expr (XNum ℝ)) (z : Fin vars.length → ℝ)
    (r M change a eF eA : ℝ) : Prop where
  writes : ∀ i, Writes (texts i) (g i)
  literals : ∀ i, (g i).NormalLiterals
  sorted : vars.Pairwise fun x y => strLt x y = true
  names : ∀ x, x ∈ vars ↔ ∃ i, x ∈ (g i).vars
  noExp : ∀ i, ∀ x ∈ vars, (g i).NoForeignExp x
  root : IsValue (fun i _ => g i) vars z 0
  smooth : ∀ w, ‖w - z‖ ≤ r → ∀ i, Smooth 1 (assign vars w) (g i)
  stretch : ∀ w, ‖w - z‖ ≤ r → ∀ A, IsJacobian (fun i _ => g i) vars w A → ∀ x, ‖x‖ ≤ M * ‖A.mulVec x‖
  bounded : ∀ w, ‖w - z‖ ≤ r → ∀ A, IsJacobian (fun i _ => g i) vars w A → ∀ i j, |A i j| ≤ a
  steady : ∀ w w', ‖w - z‖ ≤ r → ‖w' - z‖ ≤ r → ∀ A A', IsJacobian (fun i _ => g i) vars w A → IsJacobian (fun i _ => g i) vars w' A' →
    ∀ i j, |A i j - A' i j| ≤ change
  value : ∀ w : Fin vars.length → ℝ, (∀ j, IsDoubleReal (w j)) → ‖w - z‖ ≤ r → ∀ i,
    ∃ v E, textEnclosure δ (assign vars w) (g i) = some (v, E) ∧ E ≤ eF
  deriv : ∀ w : Fin vars.length → ℝ, (∀ j, IsDoubleReal (w j)) → ‖w - z‖ ≤ r → ∀ i (j : Fin vars.length),
    ∃ v E, writtenEnclosure δ (assign vars w) (dE vars[j] (g i)) = some (v, E) ∧ E ≤ eA

end Tom
