import Verif.Lemmas.ComputedLM
/-
C126: the Levenberg-Marquardt method with IEEE doubles finds a well-conditioned root of one equation in one unknown.
-/
namespace Tom
namespace Double
variable {L : Libm} {δ : ℝ} {x : Str} {f : Matrix (Fin 1) (Fin 1) (Expr (Double L))} {z : Fin 1 → ℝ} {r M change a eF eA : ℝ}

/-- **C126**, one step: from every point of the region that is not accepted yet, the first direction is accepted by the line search with the full step
and by the method, and the new point is at least four times closer to the root. -/
theorem C126_step (hW : L.Within δ) (hF : L.AnnexF) (hR : RoundedRegion δ [x] f z r M change a eF eA)
    (cfg : Config (Double L)) (hs : cfg.throwOnInvalidValue = true) {ε : ℚ} (he : cfg.epsilon.Is ε) (hroom : LMRoom z r M change a eF eA ε)
    {J : SymMat (Double L)} (hJ : (symOf f).jacobian cfg [x] = .ok J)
    {t : VarsTable (Double L)} {w : Fin 1 → Double L} (ht : DoubleTable t [x] w) (hw : ∀ j, (w j).Finite)
    (hwz : ‖realVec w - z‖ ≤ r) (hns : ¬ Satisfies cfg f t) :
    ∃ (F dq F' : Mat (Double L)) (t1 : VarsTable (Double L)) (w1 : Fin 1 → Double L), evalVec cfg (symOf f) t = .ok F ∧
      (∀ lsFuel innerFuel it, lmInner cfg (lsFuel + 1) (symOf f) J t.values F (innerFuel + 1) t (lit 1 (-5)) it = .ok (dq, F', t1, it)) ∧
      t.values.add dq = .ok t1.values ∧ DoubleTable t1 [x] w1 ∧ (∀ j, (w1 j).Finite) ∧ ‖realVec w1 - z‖ ≤ 1 / 4 * ‖realVec w - z‖ :=
  computedLM_step (hR.computed hW hF Nat.one_pos) cfg hs he hroom hJ ht hw hwz hns

/-- **C126**: from every point of the region around the root `z`, if `N` steps suffice to get the bound for the computed values below epsilon
(`N ≤ maxIterations`), `SolveByLM` with doubles returns, and the number it returns is within `4/3 M (epsilon + eF)` of the root.  (The rounds of the
loops are bounded by arbitrary limits, from `1` round of the line search and of the inner loop and `N + 1` rounds of the outer loop on.) -/
theorem C126 (hW : L.Within δ) (hF : L.AnnexF) (hR : RoundedRegion δ [x] f z r M change a eF eA)
    (cfg : Config (Double L)) (hs : cfg.throwOnInvalidValue = true) {ε : ℚ} (he : cfg.epsilon.Is ε) (hroom : LMRoom z r M change a eF eA ε)
    (N : ℕ) (hN : (N : ℤ) ≤ cfg.maxIterations) (hlast : a * (r / 4 ^ N) + eF < ε)
    (t : VarsTable (Double L)) (w : Fin 1 → Double L) (ht : DoubleTable t [x] w) (hw : ∀ j, (w j).Finite) (hwz : |realVec w 0 - z 0| ≤ r) :
    ∃ t' w', (∀ lsFuel fuel, 0 < lsFuel → N < fuel → solveByLM cfg lsFuel fuel (symOf f) t = .ok t') ∧ DoubleTable t' [x] w' ∧ (w' 0).Finite ∧
      |realVec w' 0 - z 0| ≤ 4 / 3 * M * (ε + eF) :=
  computedLM (hR.computed hW hF Nat.one_pos) cfg hs he hroom N hN hlast t w ht hw hwz

/-- **C126** for `Solve`, with the default method. -/
theorem C126_solve (hW : L.Within δ) (hF : L.AnnexF) (hR : RoundedRegion δ [x] f z r M change a eF eA)
    (cfg : Config (Double L)) (hm : cfg.nonlinearMethod = .lm) (hs : cfg.throwOnInvalidValue = true) {ε : ℚ} (he : cfg.epsilon.Is ε)
    (hroom : LMRoom z r M change a eF eA ε) (N : ℕ) (hN : (N : ℤ) ≤ cfg.maxIterations) (hlast : a * (r / 4 ^ N) + eF < ε)
    (t : VarsTable (Double L)) (w : Fin 1 → Double L) (ht : DoubleTable t [x] w) (hw : ∀ j, (w j).Finite) (hwz : |realVec w 0 - z 0| ≤ r) :
    ∃ t' w', (∀ lsFuel fuel, 0 < lsFuel → N < fuel → solve cfg lsFuel fuel (symOf f) t = .ok t') ∧ DoubleTable t' [x] w' ∧ (w' 0).Finite ∧
      |realVec w' 0 - z 0| ≤ 4 / 3 * M * (ε + eF) :=
  computedLM_solve (hR.computed hW hF Nat.one_pos) cfg hm hs he hroom N hN hlast t w ht hw hwz

end Double
end Tom
