import Verif.Props.RoundedNewton
/-
C105 from initial values: Newton's method with IEEE doubles, started with values in the region.
-/
set_option linter.unusedSectionVars false
namespace Tom
namespace Double
variable {L : Libm}
open Finset
variable {δ : ℝ} {vars : List Str} {f : Matrix (Fin vars.length) (Fin 1) (Expr (Double L))} {z : Fin vars.length → ℝ}
  {r M change a eF eA : ℝ}

/-- **C105**, the first correction: from a point of the region it leads, before rounding, to a point at most half as far from the root, up to the noise. -/
theorem C105_firstCorrection (hW : L.Within δ) (hF : L.AnnexF) (hR : RoundedRegion δ vars f z r M change a eF eA) (hn : 0 < vars.length)
    (cfg : Config (Double L)) (hs : cfg.throwOnInvalidValue = true) {ε a' β : ℚ} (he : cfg.epsilon.Is ε)
    (hroom : RoundedRoom vars.length ε a' β) (hM : 0 < M) (ha : a + eA ≤ a') (hβ : vars.length * a * r + eF ≤ β)
    (hc : M * (vars.length * (ε + solveError vars.length * a' + eA)) ≤ 1 / 12) (hch : M * (vars.length * change) ≤ 1 / 4)
    {J : SymMat (Double L)} (hJ : (symOf f).jacobian cfg vars = .ok J)
    {t : VarsTable (Double L)} {w : Fin vars.length → Double L} (ht : DoubleTable t vars w) (hw : ∀ j, (w j).Finite)
    (hwz : ‖realVec w - z‖ ≤ r) :
    ∃ d : Fin vars.length → Double L, NewtonCorrection cfg (symOf f) J t ⟨vars.length, 1, List.ofFn d⟩ ∧ (∀ j, (d j).Finite) ∧
      ‖realVec w + realVec d - z‖ ≤ 1 / 2 * ‖realVec w - z‖ + newtonNoise z M eF β :=
  computed_firstCorrection (hR.computed hW hF hn) hn cfg hs he hroom hM ha hβ hc hch hJ ht hw hwz

/-- **C105**, from initial values in the region: if the region is so large that it also contains the first correction (the point the iteration
goes on from, see C44 and `C73_false`), for which `‖w‖ + ½ ‖w - z‖ + noise ≤ r` suffices, then `SolveByNewtonRaphson` with doubles returns, and the
point it returns is within `4/3 M (epsilon + eF)` of the root. -/
theorem C105_start (hW : L.Within δ) (hF : L.AnnexF) (hR : RoundedRegion δ vars f z r M change a eF eA) (hn : 0 < vars.length)
    (cfg : Config (Double L)) (hs : cfg.throwOnInvalidValue = true) {ε a' β : ℚ} (he : cfg.epsilon.Is ε)
    (hroom : RoundedRoom vars.length ε a' β) (hM : 0 < M) (ha : a + eA ≤ a') (hβ : vars.length * a * r + eF ≤ β)
    (hc : M * (vars.length * (ε + solveError vars.length * a' + eA)) ≤ 1 / 12) (hch : M * (vars.length * change) ≤ 1 / 4)
    (hzr : ‖z‖ + r ≤ 2 ^ 1000) (hnoise : newtonNoise z M eF β ≤ r / 2) (N : ℕ) (hN : (N : ℤ) ≤ cfg.maxIterations)
    (hlast : vars.length * a * (r / 2 ^ N + 2 * newtonNoise z M eF β) + eF < ε)
    (t : VarsTable (Double L)) (w : Fin vars.length → Double L) (ht : DoubleTable t vars w) (hw : ∀ j, (w j).Finite)
    (hwz : ‖realVec w - z‖ ≤ r) (hstart : ‖realVec w‖ + 1 / 2 * ‖realVec w - z‖ + newtonNoise z M eF β ≤ r) :
    ∃ t' w', solveByNewtonRaphson cfg (symOf f) t = .ok t' ∧ DoubleTable t' vars w' ∧ (∀ j, (w' j).Finite) ∧
      ‖realVec w' - z‖ ≤ 4 / 3 * M * (ε + eF) :=
  computed_start (hR.computed hW hF hn) hn cfg hs he hroom hM ha hβ hc hch hzr hnoise N hN hlast t w ht hw hwz hstart

end Double
end Tom
