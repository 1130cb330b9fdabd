import Verif.Lemmas.SystemLMStep
/-
The Levenberg-Marquardt method with IEEE doubles near a well-conditioned root of a system (C129).
-/
namespace Tom
namespace Double
variable {L : Libm} {vars : List Str} {f : Matrix (Fin vars.length) (Fin 1) (Expr (Double L))} {g : Matrix (Fin vars.length) (Fin 1) (Expr (XNum ℝ))}
  {z : Fin vars.length → ℝ} {r M change a eF eA θ c : ℝ}

/-- one step: from every point of the region that is not accepted yet, the first direction is accepted by the line search with the full step
and by the method, and the new point is at least four times closer to the root. -/
theorem systemLM_step (hR : ComputedRegion vars f g z r M change a eF eA) (hn : 0 < vars.length)
    (cfg : Config (Double L)) (hs : cfg.throwOnInvalidValue = true) {ε a' β : ℚ} (he : cfg.epsilon.Is ε) (hroom : SystemLMRoom z r M change a eF eA θ c ε a' β)
    (hls : ∀ w, ‖w - z‖ ≤ r → ∀ A, IsJacobian g vars w A → SearchFactor c A)
    {J : SymMat (Double L)} (hJ : (symOf f).jacobian cfg vars = .ok J)
    {t : VarsTable (Double L)} {w : Fin vars.length → Double L} (ht : DoubleTable t vars w) (hw : ∀ j, (w j).Finite)
    (hwz : ‖realVec w - z‖ ≤ r) (hns : ¬ Satisfies cfg f t) :
    ∃ (F dq F' : Mat (Double L)) (t1 : VarsTable (Double L)) (w1 : Fin vars.length → Double L), evalVec cfg (symOf f) t = .ok F ∧
      (∀ lsFuel innerFuel it, lmInner cfg (lsFuel + 1) (symOf f) J t.values F (innerFuel + 1) t (lit 1 (-5)) it = .ok (dq, F', t1, it)) ∧
      t.values.add dq = .ok t1.values ∧ DoubleTable t1 vars w1 ∧ (∀ j, (w1 j).Finite) ∧ ‖realVec w1 - z‖ ≤ 1 / 4 * ‖realVec w - z‖ := by
  obtain ⟨phi, F, h1, h2, h3⟩ := hR.value cfg ht hw hwz
  obtain ⟨dq, FN, t1, w1, k1, k2, k3, k4⟩ := system_region_step hR hn cfg hs he hroom hls hJ ht hw hwz h1
    (fun h' => hns ((satisfies_iff hn cfg f t).mpr ⟨_, h1, h'⟩))
  refine ⟨vec phi, dq, FN, t1, w1, h1, ?_, ?_, k3, k4⟩
  · rw [ht.2.2]; exact k1
  · rw [ht.2.2, k3.2.2]; exact k2

theorem systemLM_loop (hR : ComputedRegion vars f g z r M change a eF eA) (hn : 0 < vars.length)
    (cfg : Config (Double L)) (hs : cfg.throwOnInvalidValue = true) {ε a' β : ℚ} (he : cfg.epsilon.Is ε) (hroom : SystemLMRoom z r M change a eF eA θ c ε a' β)
    (hls : ∀ w, ‖w - z‖ ≤ r → ∀ A, IsJacobian g vars w A → SearchFactor c A)
    {J : SymMat (Double L)} (hJ : (symOf f).jacobian cfg vars = .ok J) : ∀ (k it : ℕ) (s : ℝ), (it : ℤ) + k ≤ cfg.maxIterations →
      s ≤ r → vars.length * a * (s / 4 ^ k) + eF < ε →
      ∀ (t : VarsTable (Double L)) (w : Fin vars.length → Double L), DoubleTable t vars w → (∀ j, (w j).Finite) → ‖realVec w - z‖ ≤ s →
      ∃ t' w', (∀ fuel lsFuel innerFuel, k < fuel → lmOuter cfg (lsFuel + 1) (innerFuel + 1) (symOf f) J fuel t (vec w) it = .ok t') ∧
        DoubleTable t' vars w' ∧ (∀ j, (w' j).Finite) ∧ ‖realVec w' - z‖ ≤ 4 / 3 * M * (ε + eF) := by
  have hch : M * (vars.length * change) ≤ 1 / 4 := hroom.steady.trans (hroom.small.2.1.trans (by norm_num))
  intro k
  induction k with
  | zero =>
    intro it s hit hsr hlast t w ht hw hwz
    obtain ⟨phi, g1, g2, g3⟩ := region_size hR hn cfg hs he hroom.M_pos hch hJ ht hw (hwz.trans hsr)
    have ha0 : 0 ≤ a := by
      obtain ⟨B, A, -, h5, -⟩ := hR.deriv cfg hs hJ ht hw (hwz.trans hsr)
      exact (abs_nonneg _).trans (hR.bounded _ (hwz.trans hsr) A h5 ⟨0, hn⟩ ⟨0, hn⟩)
    have hstop := g2 (by
      rw [pow_zero, div_one] at hlast
      have := mul_le_mul_of_nonneg_left hwz (by positivity : 0 ≤ vars.length * a)
      linarith)
    refine ⟨t, w, fun fuel lsFuel innerFuel hfuel => ?_, ht, hw, g3 hstop⟩
    obtain ⟨fuel, rfl⟩ : ∃ m, fuel = m + 1 := ⟨fuel - 1, by omega⟩
    rw [lmOuter, g1, Res.bind_ok, if_pos hstop]
  | succ k ih =>
    intro it s hit hsr hlast t w ht hw hwz
    obtain ⟨phi, g1, g2, g3⟩ := region_size hR hn cfg hs he hroom.M_pos hch hJ ht hw (hwz.trans hsr)
    by_cases hstop : (vec phi).eqNum cfg.epsilon (Dbl.ofInt 0) = true
    · refine ⟨t, w, fun fuel lsFuel innerFuel hfuel => ?_, ht, hw, g3 hstop⟩
      obtain ⟨fuel, rfl⟩ : ∃ m, fuel = m + 1 := ⟨fuel - 1, by omega⟩
      rw [lmOuter, g1, Res.bind_ok, if_pos hstop]
    · obtain ⟨dq, FN, t1, w1, k1, k2, k3, k4, k5⟩ := system_region_step hR hn cfg hs he hroom hls hJ ht hw (hwz.trans hsr) g1 hstop
      have hs0 : 0 ≤ s := (norm_nonneg _).trans hwz
      obtain ⟨t', w', m1, m2⟩ := ih (it + 1) (s / 4) (by push_cast at hit ⊢; linarith) (by linarith) (by
        refine lt_of_le_of_lt (le_of_eq ?_) hlast
        rw [pow_succ]
        field_simp) t1 w1 k3 k4 (by linarith)
      refine ⟨t', w', fun fuel lsFuel innerFuel hfuel => ?_, m2⟩
      obtain ⟨fuel, rfl⟩ : ∃ m, fuel = m + 1 := ⟨fuel - 1, by omega⟩
      obtain ⟨t2, e6, e7⟩ := DoubleTable.setValues k3 w1
      have e8 : t2 = t1 := e7.1.good.ext k3.1.good (e7.2.1.trans k3.2.1.symm) (e7.2.2.trans k3.2.2.symm)
      rw [e8] at e6
      rw [lmOuter, g1, Res.bind_ok, if_neg hstop, k1, Res.bind_ok]
      simp only []
      rw [k2, Res.bind_ok]
      change (t1.setValues (vec w1) >>= _) = _
      rw [e6, Res.bind_ok, if_neg (by push_cast at hit; omega)]
      exact m1 _ _ _ (by omega)

/-- the Levenberg-Marquardt method from every point of the region -/
theorem systemLM (hR : ComputedRegion vars f g z r M change a eF eA) (hn : 0 < vars.length)
    (cfg : Config (Double L)) (hs : cfg.throwOnInvalidValue = true) {ε a' β : ℚ} (he : cfg.epsilon.Is ε) (hroom : SystemLMRoom z r M change a eF eA θ c ε a' β)
    (hls : ∀ w, ‖w - z‖ ≤ r → ∀ A, IsJacobian g vars w A → SearchFactor c A)
    (N : ℕ) (hN : (N : ℤ) ≤ cfg.maxIterations) (hlast : vars.length * a * (r / 4 ^ N) + eF < ε)
    (t : VarsTable (Double L)) (w : Fin vars.length → Double L) (ht : DoubleTable t vars w) (hw : ∀ j, (w j).Finite) (hwz : ‖realVec w - z‖ ≤ r) :
    ∃ t' w', (∀ lsFuel fuel, 0 < lsFuel → N < fuel → solveByLM cfg lsFuel fuel (symOf f) t = .ok t') ∧ DoubleTable t' vars w' ∧ (∀ j, (w' j).Finite) ∧
      ‖realVec w' - z‖ ≤ 4 / 3 * M * (ε + eF) := by
  obtain ⟨J, hJ⟩ := hR.jacobian cfg hs ht hw hwz
  obtain ⟨t', w', r1, r2⟩ := systemLM_loop hR hn cfg hs he hroom hls hJ N 0 r (by push_cast; omega) le_rfl hlast t w ht hw hwz
  refine ⟨t', w', fun lsFuel fuel h1 h2 => ?_, r2⟩
  obtain ⟨lsFuel, rfl⟩ : ∃ m, lsFuel = m + 1 := ⟨lsFuel - 1, by omega⟩
  obtain ⟨fuel, rfl⟩ : ∃ m, fuel = m + 1 := ⟨fuel - 1, by omega⟩
  rw [lm_unfold cfg _ _ _ ht.1, ht.2.1, hJ, Res.bind_ok, ht.2.2]
  exact r1 _ _ _ h2

end Double
end Tom
