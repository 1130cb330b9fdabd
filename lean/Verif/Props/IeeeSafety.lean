import Verif.Props.IeeeUnderflow
import Verif.Spec.DoubleLinear
import Verif.Props.DoubleMat
/-
Overflow inside `SolveLinear`: the checks for inf and nan are made when expressions are evaluated, not during elimination.
-/
namespace Tom
namespace Double

/-- `0.001 x + 1e308 y`, `0.001 x + y + z`, `0.001 x + y - z`: coefficients -/
def hugeMatrix : Matrix (Fin 3) (Fin 3) (Double libm0) :=
  !![lit 1 (-3), lit 1 308, Dbl.ofInt 0; lit 1 (-3), Dbl.ofInt 1, Dbl.ofInt 1; lit 1 (-3), Dbl.ofInt 1, Dbl.ofInt (-1)]

/-- the right-hand sides 1 -/
def hugeRhs : Fin 3 → Double libm0 := fun _ => Dbl.ofInt 1

/-- the equations, with the right-hand sides subtracted -/
def hugeSystem : Matrix (Fin 3) (Fin 1) (Expr (Double libm0)) := fun i _ =>
  .bin .sub (.bin .add (.bin .add (.bin .mul (.num (hugeMatrix i 0)) (.var ['x'])) (.bin .mul (.num (hugeMatrix i 1)) (.var ['y'])))
    (.bin .mul (.num (hugeMatrix i 2)) (.var ['z']))) (.num (hugeRhs i))

/-- initial values 1 -/
def ones : VarsTable (Double libm0) :=
  ⟨[['x'], ['y'], ['z']], ⟨3, 1, [Dbl.ofInt 1, Dbl.ofInt 1, Dbl.ofInt 1]⟩, [(['x'], Dbl.ofInt 1), (['y'], Dbl.ofInt 1), (['z'], Dbl.ofInt 1)]⟩

/-- the coefficients and right-hand sides are finite, and the matrix is invertible -/
theorem huge_regular : (∀ i j, (hugeMatrix i j).Finite) ∧ (∀ i, (hugeRhs i).Finite) ∧ (ratMatrix hugeMatrix).det ≠ 0 := by
  refine ⟨?_, ?_, ?_⟩
  · unfold Finite
    decide +kernel
  · unfold Finite
    decide +kernel
  · rw [Matrix.det_fin_three]
    decide +kernel

end Double
open Double

/-- C72 and C80 without their conditions on sizes: in the default configuration, `SolveLinear` with an invertible 3x3 matrix of finite doubles
(0.001 and 1e308 among them) violates an assertion: dividing by the pivot overflows, inf / inf is nan, and the search for a pivot
names a row that does not exist (without assertions, memory is overwritten). -/
theorem C80_false_overflow : (∀ i j, (hugeMatrix i j).Finite) ∧ (∀ i, (hugeRhs i).Finite) ∧ (ratMatrix hugeMatrix).det ≠ 0 ∧
    config.throwOnInvalidValue = true ∧ solveLinear config (ofEntries hugeMatrix) (vec hugeRhs) = .assertFail :=
  ⟨huge_regular.1, huge_regular.2.1, huge_regular.2.2, rfl, by decide +kernel⟩

/-- C72 fails with `double` even in the default configuration (inf and nan rejected): the same system written as equations makes
Newton-Raphson violate an assertion; all equations and derivatives have finite values. -/
theorem C72_false_overflow : ones.Reachable ∧ (∃ F, evalVec config (symOf hugeSystem) ones = .ok F ∧ ∀ v ∈ F.data, v.Finite) ∧
    solveByNewtonRaphson { config with nonlinearMethod := .newtonRaphson } (symOf hugeSystem) ones = .assertFail := by
  refine ⟨.ofList (l := [(['x'], Dbl.ofInt 1), (['y'], Dbl.ofInt 1), (['z'], Dbl.ofInt 1)]) (by decide +kernel), ?_, by decide +kernel⟩
  have h : ∃ F, evalVec config (symOf hugeSystem) ones = .ok F ∧ (F.data.all fun v => !v.raw.isInvalid) = true := by
    cases hF : evalVec config (symOf hugeSystem) ones with
    | ok F =>
      refine ⟨F, rfl, ?_⟩
      have : (match evalVec config (symOf hugeSystem) ones with | .ok F => F.data.all fun v => !v.raw.isInvalid | _ => false) = true := by
        decide +kernel
      rw [hF] at this
      exact this
    | _ =>
      exfalso
      have : (match evalVec config (symOf hugeSystem) ones with | .ok _ => true | _ => false) = true := by decide +kernel
      rw [hF] at this
      cases this
  obtain ⟨F, h1, h2⟩ := h
  refine ⟨F, h1, fun v hv => ?_⟩
  have := List.all_eq_true.mp h2 v hv
  unfold Double.Finite; simpa using this

end Tom
