import Verif.Lemmas.RoundedLM
/-
The Levenberg-Marquardt method with IEEE doubles near a well-conditioned root of one equation in one unknown (C126, C128).
-/
namespace Tom
namespace Double
variable {L : Libm} {x : Str} {f : Matrix (Fin 1) (Fin 1) (Expr (Double L))} {g : Matrix (Fin 1) (Fin 1) (Expr (XNum ℝ))} {z : Fin 1 → ℝ} {r M change a eF eA : ℝ}

/-- the Levenberg-Marquardt method, one step: from every point of the region that is not accepted yet, the first direction is accepted by the line search with the full step
and by the method, and the new point is at least four times closer to the root. -/
theorem computedLM_step (hR : ComputedRegion [x] f g z r M change a eF eA)
    (cfg : Config (Double L)) (hs : cfg.throwOnInvalidValue = true) {ε : ℚ} (he : cfg.epsilon.Is ε) (hroom : LMRoom z r M change a eF eA ε)
    {J : SymMat (Double L)} (hJ : (symOf f).jacobian cfg [x] = .ok J)
    {t : VarsTable (Double L)} {w : Fin 1 → Double L} (ht : DoubleTable t [x] w) (hw : ∀ j, (w j).Finite)
    (hwz : ‖realVec w - z‖ ≤ r) (hns : ¬ Satisfies cfg f t) :
    ∃ (F dq F' : Mat (Double L)) (t1 : VarsTable (Double L)) (w1 : Fin 1 → Double L), evalVec cfg (symOf f) t = .ok F ∧
      (∀ lsFuel innerFuel it, lmInner cfg (lsFuel + 1) (symOf f) J t.values F (innerFuel + 1) t (lit 1 (-5)) it = .ok (dq, F', t1, it)) ∧
      t.values.add dq = .ok t1.values ∧ DoubleTable t1 [x] w1 ∧ (∀ j, (w1 j).Finite) ∧ ‖realVec w1 - z‖ ≤ 1 / 4 * ‖realVec w - z‖ := by
  obtain ⟨phi, F, h1, h2, h3⟩ := hR.value cfg ht hw hwz
  obtain ⟨dq, FN, t1, w1, k1, k2, k3, k4⟩ := region_step hR cfg hs he hroom hJ ht hw hwz h1
    (fun h' => hns ((satisfies_iff Nat.one_pos cfg f t).mpr ⟨_, h1, h'⟩))
  refine ⟨vec phi, dq, FN, t1, w1, h1, ?_, ?_, k3, k4⟩
  · rw [ht.2.2]; exact k1
  · rw [ht.2.2, k3.2.2]; exact k2

theorem lm_loop (hR : ComputedRegion [x] f g z r M change a eF eA)
    (cfg : Config (Double L)) (hs : cfg.throwOnInvalidValue = true) {ε : ℚ} (he : cfg.epsilon.Is ε) (hroom : LMRoom z r M change a eF eA ε)
    {J : SymMat (Double L)} (hJ : (symOf f).jacobian cfg [x] = .ok J) : ∀ (k it : ℕ) (s : ℝ), (it : ℤ) + k ≤ cfg.maxIterations →
      s ≤ r → a * (s / 4 ^ k) + eF < ε →
      ∀ (t : VarsTable (Double L)) (w : Fin 1 → Double L), DoubleTable t [x] w → (∀ j, (w j).Finite) → ‖realVec w - z‖ ≤ s →
      ∃ t' w', (∀ fuel lsFuel innerFuel, k < fuel → lmOuter cfg (lsFuel + 1) (innerFuel + 1) (symOf f) J fuel t (vec w) it = .ok t') ∧
        DoubleTable t' [x] w' ∧ (∀ j, (w' j).Finite) ∧ ‖realVec w' - z‖ ≤ 4 / 3 * M * (ε + eF) := by
  have hn : 0 < [x].length := by simp
  have hch : M * ((([x].length : ℕ) : ℝ) * change) ≤ 1 / 4 := by
    have := hroom.steady
    simp only [List.length_singleton, Nat.cast_one, _root_.one_mul]
    linarith
  intro k
  induction k with
  | zero =>
    intro it s hit hsr hlast t w ht hw hwz
    obtain ⟨phi, g1, g2, g3⟩ := region_size hR hn cfg hs he hroom.M_pos hch hJ ht hw (hwz.trans hsr)
    have ha0 : 0 ≤ a := by
      obtain ⟨B, A, -, h5, -⟩ := hR.deriv cfg hs hJ ht hw (hwz.trans hsr)
      exact (abs_nonneg _).trans (hR.bounded _ (hwz.trans hsr) A h5 ⟨0, hn⟩ ⟨0, hn⟩)
    have hstop := g2 (by
      rw [pow_zero, div_one] at hlast
      have := mul_le_mul_of_nonneg_left hwz ha0
      simp only [List.length_singleton, Nat.cast_one, _root_.one_mul]
      linarith)
    refine ⟨t, w, fun fuel lsFuel innerFuel hfuel => ?_, ht, hw, g3 hstop⟩
    obtain ⟨fuel, rfl⟩ : ∃ m, fuel = m + 1 := ⟨fuel - 1, by omega⟩
    rw [lmOuter, g1, Res.bind_ok, if_pos hstop]
  | succ k ih =>
    intro it s hit hsr hlast t w ht hw hwz
    obtain ⟨phi, g1, g2, g3⟩ := region_size hR hn cfg hs he hroom.M_pos hch hJ ht hw (hwz.trans hsr)
    by_cases hstop : (vec phi).eqNum cfg.epsilon (Dbl.ofInt 0) = true
    · refine ⟨t, w, fun fuel lsFuel innerFuel hfuel => ?_, ht, hw, g3 hstop⟩
      obtain ⟨fuel, rfl⟩ : ∃ m, fuel = m + 1 := ⟨fuel - 1, by omega⟩
      rw [lmOuter, g1, Res.bind_ok, if_pos hstop]
    · obtain ⟨dq, FN, t1, w1, k1, k2, k3, k4, k5⟩ := region_step hR cfg hs he hroom hJ ht hw (hwz.trans hsr) g1 hstop
      have hs0 : 0 ≤ s := (norm_nonneg _).trans hwz
      obtain ⟨t', w', m1, m2⟩ := ih (it + 1) (s / 4) (by push_cast at hit ⊢; linarith) (by linarith) (by
        refine lt_of_le_of_lt (le_of_eq ?_) hlast
        rw [pow_succ]
        field_simp) t1 w1 k3 k4 (by linarith)
      refine ⟨t', w', fun fuel lsFuel innerFuel hfuel => ?_, m2⟩
      obtain ⟨fuel, rfl⟩ : ∃ m, fuel = m + 1 := ⟨fuel - 1, by omega⟩
      obtain ⟨t2, e6, e7⟩ := DoubleTable.setValues k3 w1
      have e8 : t2 = t1 := e7.1.good.ext k3.1.good (e7.2.1.trans k3.2.1.symm) (e7.2.2.trans k3.2.2.symm)
      rw [e8] at e6
      rw [lmOuter, g1, Res.bind_ok, if_neg hstop, k1, Res.bind_ok]
      simp only []
      rw [k2, Res.bind_ok]
      change (t1.setValues (vec w1) >>= _) = _
      rw [e6, Res.bind_ok, if_neg (by push_cast at hit; omega)]
      exact m1 _ _ _ (by omega)

/-- the Levenberg-Marquardt method: from every point of the region around the root `z`, if `N` steps suffice to get the bound for the computed values below epsilon
(`N ≤ maxIterations`), `SolveByLM` with doubles returns, and the number it returns is within `4/3 M (epsilon + eF)` of the root.  (The rounds of the
loops are bounded by arbitrary limits, from `1` round of the line search and of the inner loop and `N + 1` rounds of the outer loop on.) -/
theorem computedLM (hR : ComputedRegion [x] f g z r M change a eF eA)
    (cfg : Config (Double L)) (hs : cfg.throwOnInvalidValue = true) {ε : ℚ} (he : cfg.epsilon.Is ε) (hroom : LMRoom z r M change a eF eA ε)
    (N : ℕ) (hN : (N : ℤ) ≤ cfg.maxIterations) (hlast : a * (r / 4 ^ N) + eF < ε)
    (t : VarsTable (Double L)) (w : Fin 1 → Double L) (ht : DoubleTable t [x] w) (hw : ∀ j, (w j).Finite) (hwz : |realVec w 0 - z 0| ≤ r) :
    ∃ t' w', (∀ lsFuel fuel, 0 < lsFuel → N < fuel → solveByLM cfg lsFuel fuel (symOf f) t = .ok t') ∧ DoubleTable t' [x] w' ∧ (w' 0).Finite ∧
      |realVec w' 0 - z 0| ≤ 4 / 3 * M * (ε + eF) := by
  have hwz' : ‖realVec w - z‖ ≤ r := by rw [norm_one]; exact hwz
  obtain ⟨J, hJ⟩ := hR.jacobian cfg hs ht hw hwz'
  obtain ⟨t', w', r1, r2, r3, r4⟩ := lm_loop hR cfg hs he hroom hJ N 0 r (by push_cast; omega) le_rfl hlast t w ht hw hwz'
  refine ⟨t', w', fun lsFuel fuel h1 h2 => ?_, r2, r3 0, by rw [norm_one] at r4; exact r4⟩
  obtain ⟨lsFuel, rfl⟩ : ∃ m, lsFuel = m + 1 := ⟨lsFuel - 1, by omega⟩
  obtain ⟨fuel, rfl⟩ : ∃ m, fuel = m + 1 := ⟨fuel - 1, by omega⟩
  rw [lm_unfold cfg _ _ _ ht.1, ht.2.1, hJ, Res.bind_ok, ht.2.2]
  exact r1 _ _ _ h2

/-- the Levenberg-Marquardt method for `Solve`, with the default method. -/
theorem computedLM_solve (hR : ComputedRegion [x] f g z r M change a eF eA)
    (cfg : Config (Double L)) (hm : cfg.nonlinearMethod = .lm) (hs : cfg.throwOnInvalidValue = true) {ε : ℚ} (he : cfg.epsilon.Is ε)
    (hroom : LMRoom z r M change a eF eA ε) (N : ℕ) (hN : (N : ℤ) ≤ cfg.maxIterations) (hlast : a * (r / 4 ^ N) + eF < ε)
    (t : VarsTable (Double L)) (w : Fin 1 → Double L) (ht : DoubleTable t [x] w) (hw : ∀ j, (w j).Finite) (hwz : |realVec w 0 - z 0| ≤ r) :
    ∃ t' w', (∀ lsFuel fuel, 0 < lsFuel → N < fuel → solve cfg lsFuel fuel (symOf f) t = .ok t') ∧ DoubleTable t' [x] w' ∧ (w' 0).Finite ∧
      |realVec w' 0 - z 0| ≤ 4 / 3 * M * (ε + eF) := by
  obtain ⟨t', w', h1, h2⟩ := computedLM hR cfg hs he hroom N hN hlast t w ht hw hwz
  refine ⟨t', w', fun lsFuel fuel k1 k2 => ?_, h2⟩
  unfold solve
  rw [hm]
  exact h1 lsFuel fuel k1 k2

end Double
end Tom
