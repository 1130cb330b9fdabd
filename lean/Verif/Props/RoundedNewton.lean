import Verif.Lemmas.ComputedNewton
/-
C105: Newton's method with IEEE doubles finds a well-conditioned root.
-/
set_option linter.unusedSectionVars false
namespace Tom
namespace Double
variable {L : Libm}
open Finset
variable {δ : ℝ} {vars : List Str} {f : Matrix (Fin vars.length) (Fin 1) (Expr (Double L))} {z : Fin vars.length → ℝ}
  {r M change a eF eA : ℝ}

/-- **C105**, the linear equations of one step: at a point `w` of the region, the correction `d` that `SolveLinear` returns for the computed
Jacobian and the computed values solves the exact Newton equations `A d = -F`, with the exact values `F` and the exact Jacobian `A`, up to an
explicit bound. -/
theorem C105_correction (hW : L.Within δ) (hF : L.AnnexF) (hR : RoundedRegion δ vars f z r M change a eF eA) (hn : 0 < vars.length)
    (cfg : Config (Double L)) (hs : cfg.throwOnInvalidValue = true) {ε a' β : ℚ} (he : cfg.epsilon.Is ε)
    (hroom : RoundedRoom vars.length ε a' β) (hM : 0 < M) (ha : a + eA ≤ a') (hβ : vars.length * a * r + eF ≤ β)
    (hc : M * (vars.length * (ε + solveError vars.length * a' + eA)) < 1)
    {J : SymMat (Double L)} (hJ : (symOf f).jacobian cfg vars = .ok J)
    {t : VarsTable (Double L)} {w : Fin vars.length → Double L} (ht : DoubleTable t vars w) (hw : ∀ j, (w j).Finite)
    (hwz : ‖realVec w - z‖ ≤ r) :
    ∃ (F : Fin vars.length → ℝ) (A : Matrix (Fin vars.length) (Fin vars.length) ℝ) (d : Fin vars.length → Double L),
      IsValue (realSystem f) vars (realVec w) F ∧ IsJacobian (realSystem f) vars (realVec w) A ∧
      NewtonCorrection cfg (symOf f) J t (vec d) ∧ (∀ j, (d j).Finite ∧ |(d j).rat| ≤ 2 ^ 998) ∧
      ∀ i, |A.mulVec (realVec d) i + F i| ≤
        (ε + solveError vars.length * a' + eA) * ∑ j, |realVec d j| + (solveError vars.length * β + eF) :=
  computed_correction (hR.computed hW hF hn) hn cfg hs he hroom hM ha hβ hc hJ ht hw hwz

/-- **C105**, one step: a Newton step with doubles from a point of the region at least halves the distance to the root, up to a noise floor. -/
theorem C105_step (hW : L.Within δ) (hF : L.AnnexF) (hR : RoundedRegion δ vars f z r M change a eF eA) (hn : 0 < vars.length)
    (cfg : Config (Double L)) (hs : cfg.throwOnInvalidValue = true) {ε a' β : ℚ} (he : cfg.epsilon.Is ε)
    (hroom : RoundedRoom vars.length ε a' β) (hM : 0 < M) (ha : a + eA ≤ a') (hβ : vars.length * a * r + eF ≤ β)
    (hc : M * (vars.length * (ε + solveError vars.length * a' + eA)) ≤ 1 / 12) (hch : M * (vars.length * change) ≤ 1 / 4)
    (hzr : ‖z‖ + r ≤ 2 ^ 1000)
    {J : SymMat (Double L)} (hJ : (symOf f).jacobian cfg vars = .ok J)
    {t : VarsTable (Double L)} {w : Fin vars.length → Double L} (ht : DoubleTable t vars w) (hw : ∀ j, (w j).Finite)
    (hwz : ‖realVec w - z‖ ≤ r) :
    ∃ t' w', NewtonStep cfg (symOf f) J t t' ∧ DoubleTable t' vars w' ∧ (∀ j, (w' j).Finite) ∧
      ‖realVec w' - z‖ ≤ 1 / 2 * ‖realVec w - z‖ + newtonNoise z M eF β :=
  computed_step (hR.computed hW hF hn) hn cfg hs he hroom hM ha hβ hc hch hzr hJ ht hw hwz

/-- **C105**, from initial values zero: if zero is in the region around the root `z`, and `N` steps suffice to get the bound for the computed values
below epsilon (`N ≤ maxIterations + 1`), then `SolveByNewtonRaphson` with doubles returns, and the point it returns is within
`4/3 M (epsilon + eF)` of the root. -/
theorem C105_zero (hW : L.Within δ) (hF : L.AnnexF) (hR : RoundedRegion δ vars f z r M change a eF eA) (hn : 0 < vars.length)
    (cfg : Config (Double L)) (hs : cfg.throwOnInvalidValue = true) {ε a' β : ℚ} (he : cfg.epsilon.Is ε)
    (hroom : RoundedRoom vars.length ε a' β) (hM : 0 < M) (ha : a + eA ≤ a') (hβ : vars.length * a * r + eF ≤ β)
    (hc : M * (vars.length * (ε + solveError vars.length * a' + eA)) ≤ 1 / 12) (hch : M * (vars.length * change) ≤ 1 / 4)
    (hzr : ‖z‖ + r ≤ 2 ^ 1000) (hnoise : newtonNoise z M eF β ≤ r / 2) (N : ℕ) (hN : (N : ℤ) ≤ cfg.maxIterations + 1)
    (hlast : vars.length * a * (r / 2 ^ N + 2 * newtonNoise z M eF β) + eF < ε)
    (t : VarsTable (Double L)) (ht : DoubleTable t vars fun _ => Arith.zero) (hz : ‖z‖ ≤ r) :
    ∃ t' w', solveByNewtonRaphson cfg (symOf f) t = .ok t' ∧ DoubleTable t' vars w' ∧ (∀ j, (w' j).Finite) ∧
      ‖realVec w' - z‖ ≤ 4 / 3 * M * (ε + eF) :=
  computed_zero (hR.computed hW hF hn) hn cfg hs he hroom hM ha hβ hc hch hzr hnoise N hN hlast t ht hz

/-- **C105**, from any initial values that are not accepted at once and whose first correction `d` is in the region around the root (the point
the iteration goes on from is the first correction, see C44 and `C73_false`). -/
theorem C105_first (hW : L.Within δ) (hF : L.AnnexF) (hR : RoundedRegion δ vars f z r M change a eF eA) (hn : 0 < vars.length)
    (cfg : Config (Double L)) (hs : cfg.throwOnInvalidValue = true) {ε a' β : ℚ} (he : cfg.epsilon.Is ε)
    (hroom : RoundedRoom vars.length ε a' β) (hM : 0 < M) (ha : a + eA ≤ a') (hβ : vars.length * a * r + eF ≤ β)
    (hc : M * (vars.length * (ε + solveError vars.length * a' + eA)) ≤ 1 / 12) (hch : M * (vars.length * change) ≤ 1 / 4)
    (hzr : ‖z‖ + r ≤ 2 ^ 1000) (hnoise : newtonNoise z M eF β ≤ r / 2) (N : ℕ) (hN : (N : ℤ) ≤ cfg.maxIterations)
    (hlast : vars.length * a * (r / 2 ^ N + 2 * newtonNoise z M eF β) + eF < ε)
    {J : SymMat (Double L)} (hJ : (symOf f).jacobian cfg vars = .ok J)
    (t : VarsTable (Double L)) (w d : Fin vars.length → Double L) (ht : DoubleTable t vars w) (hns : ¬ Satisfies cfg f t)
    (hcor : NewtonCorrection cfg (symOf f) J t ⟨vars.length, 1, List.ofFn d⟩) (hd : ∀ j, (d j).Finite) (hdz : ‖realVec d - z‖ ≤ r) :
    ∃ t' w', solveByNewtonRaphson cfg (symOf f) t = .ok t' ∧ DoubleTable t' vars w' ∧ (∀ j, (w' j).Finite) ∧
      ‖realVec w' - z‖ ≤ 4 / 3 * M * (ε + eF) :=
  computed_first (hR.computed hW hF hn) hn cfg hs he hroom hM ha hβ hc hch hzr hnoise N hN hlast hJ t w d ht hns hcor hd hdz

end Double
end Tom
