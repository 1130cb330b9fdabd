import Verif.Lemmas.SystemLMLoop
/-
C129: the Levenberg-Marquardt method with IEEE doubles finds a well-conditioned root of a system of equations.
-/
namespace Tom
namespace Double
variable {L : Libm} {δ : ℝ} {vars : List Str} {f : Matrix (Fin vars.length) (Fin 1) (Expr (Double L))} {z : Fin vars.length → ℝ}
  {r M change a eF eA θ c : ℝ}

/-- **C129**, one step: from every point of the region that is not accepted yet, the first direction is accepted by the line search with the full step
and by the method, and the new point is at least four times closer to the root. -/
theorem C129_step (hW : L.Within δ) (hF : L.AnnexF) (hR : RoundedRegion δ vars f z r M change a eF eA) (hn : 0 < vars.length)
    (cfg : Config (Double L)) (hs : cfg.throwOnInvalidValue = true) {ε a' β : ℚ} (he : cfg.epsilon.Is ε) (hroom : SystemLMRoom z r M change a eF eA θ c ε a' β)
    (hls : ∀ w, ‖w - z‖ ≤ r → ∀ A, IsJacobian (realSystem f) vars w A → SearchFactor c A)
    {J : SymMat (Double L)} (hJ : (symOf f).jacobian cfg vars = .ok J)
    {t : VarsTable (Double L)} {w : Fin vars.length → Double L} (ht : DoubleTable t vars w) (hw : ∀ j, (w j).Finite)
    (hwz : ‖realVec w - z‖ ≤ r) (hns : ¬ Satisfies cfg f t) :
    ∃ (F dq F' : Mat (Double L)) (t1 : VarsTable (Double L)) (w1 : Fin vars.length → Double L), evalVec cfg (symOf f) t = .ok F ∧
      (∀ lsFuel innerFuel it, lmInner cfg (lsFuel + 1) (symOf f) J t.values F (innerFuel + 1) t (lit 1 (-5)) it = .ok (dq, F', t1, it)) ∧
      t.values.add dq = .ok t1.values ∧ DoubleTable t1 vars w1 ∧ (∀ j, (w1 j).Finite) ∧ ‖realVec w1 - z‖ ≤ 1 / 4 * ‖realVec w - z‖ :=
  systemLM_step (hR.computed hW hF hn) hn cfg hs he hroom hls hJ ht hw hwz hns

/-- **C129**: from every point of the region around the root `z`, if `N` steps suffice to get the bound for the computed values below epsilon
(`N ≤ maxIterations`), `SolveByLM` with doubles returns, and the point it returns is within `4/3 M (epsilon + eF)` of the root.  (The rounds of the
loops are bounded by arbitrary limits, from `1` round of the line search and of the inner loop and `N + 1` rounds of the outer loop on.) -/
theorem C129 (hW : L.Within δ) (hF : L.AnnexF) (hR : RoundedRegion δ vars f z r M change a eF eA) (hn : 0 < vars.length)
    (cfg : Config (Double L)) (hs : cfg.throwOnInvalidValue = true) {ε a' β : ℚ} (he : cfg.epsilon.Is ε) (hroom : SystemLMRoom z r M change a eF eA θ c ε a' β)
    (hls : ∀ w, ‖w - z‖ ≤ r → ∀ A, IsJacobian (realSystem f) vars w A → SearchFactor c A)
    (N : ℕ) (hN : (N : ℤ) ≤ cfg.maxIterations) (hlast : vars.length * a * (r / 4 ^ N) + eF < ε)
    (t : VarsTable (Double L)) (w : Fin vars.length → Double L) (ht : DoubleTable t vars w) (hw : ∀ j, (w j).Finite) (hwz : ‖realVec w - z‖ ≤ r) :
    ∃ t' w', (∀ lsFuel fuel, 0 < lsFuel → N < fuel → solveByLM cfg lsFuel fuel (symOf f) t = .ok t') ∧ DoubleTable t' vars w' ∧ (∀ j, (w' j).Finite) ∧
      ‖realVec w' - z‖ ≤ 4 / 3 * M * (ε + eF) :=
  systemLM (hR.computed hW hF hn) hn cfg hs he hroom hls N hN hlast t w ht hw hwz

/-- **C129** for `Solve`, with the method chosen in the configuration. -/
theorem C129_solve (hW : L.Within δ) (hF : L.AnnexF) (hR : RoundedRegion δ vars f z r M change a eF eA) (hn : 0 < vars.length)
    (cfg : Config (Double L)) (hm : cfg.nonlinearMethod = .lm) (hs : cfg.throwOnInvalidValue = true) {ε a' β : ℚ} (he : cfg.epsilon.Is ε)
    (hroom : SystemLMRoom z r M change a eF eA θ c ε a' β) (hls : ∀ w, ‖w - z‖ ≤ r → ∀ A, IsJacobian (realSystem f) vars w A → SearchFactor c A)
    (N : ℕ) (hN : (N : ℤ) ≤ cfg.maxIterations) (hlast : vars.length * a * (r / 4 ^ N) + eF < ε)
    (t : VarsTable (Double L)) (w : Fin vars.length → Double L) (ht : DoubleTable t vars w) (hw : ∀ j, (w j).Finite) (hwz : ‖realVec w - z‖ ≤ r) :
    ∃ t' w', (∀ lsFuel fuel, 0 < lsFuel → N < fuel → solve cfg lsFuel fuel (symOf f) t = .ok t') ∧ DoubleTable t' vars w' ∧ (∀ j, (w' j).Finite) ∧
      ‖realVec w' - z‖ ≤ 4 / 3 * M * (ε + eF) := by
  obtain ⟨t', w', h1, h2⟩ := C129 hW hF hR hn cfg hs he hroom hls N hN hlast t w ht hw hwz
  refine ⟨t', w', fun lsFuel fuel k1 k2 => ?_, h2⟩
  unfold solve
  rw [hm]
  exact h1 lsFuel fuel k1 k2

/-- a symmetric Jacobian has the search factor `3/5` -/
theorem C129_symmetric {n : ℕ} {A : Matrix (Fin n) (Fin n) ℝ} (h : A.transpose = A) : SearchFactor (3 / 5) A := by
  intro x
  rw [h]
  have e : A.mulVec x - (2 / 5 : ℝ) • A.mulVec x = (3 / 5 : ℝ) • A.mulVec x := by
    rw [← sub_eq_zero]
    module
  rw [e, norm_smul, Real.norm_eq_abs, abs_of_pos (by norm_num : (0 : ℝ) < 3 / 5)]

end Double
end Tom
