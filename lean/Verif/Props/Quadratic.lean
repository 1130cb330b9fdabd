import Verif.Props.Local
/-
C103: Newton-Raphson near a regular root: every step squares the distance to it.  Norms of vectors are maximum norms.
-/
set_option linter.unusedSectionVars false
namespace Tom
open Filter Topology

/-- Near a point where the system is smooth: the partial derivatives differ from those at the point by at most a multiple of the distance,
and the values from the first-order expansion by at most a multiple of its square. -/
theorem jacobian_second {r : ℕ} {vars : List Str} (hn : vars.Nodup) {f : Matrix (Fin r) (Fin 1) (Expr (XNum ℝ))}
    {z : Fin vars.length → ℝ} {G : (Fin vars.length → ℝ) → Fin r → ℝ} (hG : ContDiffAt ℝ 2 G z)
    (hv : ∀ᶠ u in 𝓝 z, IsValue f vars u (G u)) {A : Matrix (Fin r) (Fin vars.length) ℝ} (hA : IsJacobian f vars z A) :
    ∃ K : ℝ, 0 < K ∧ ∀ᶠ u in 𝓝 z, (∀ A', IsJacobian f vars u A' → ∀ i j, |A' i j - A i j| ≤ K * ‖u - z‖) ∧
      ‖G u - G z - A.mulVec (u - z)‖ ≤ K * ‖u - z‖ * ‖u - z‖ := by
  have hG1 : ContDiffAt ℝ 1 G z := hG.of_le (by norm_num)
  have hlin : ∀ x, fderiv ℝ G z x = A.mulVec x := by
    intro x
    funext i
    have hx : x = ∑ j, x j • Pi.single j (1 : ℝ) := by
      funext k
      simp [Finset.sum_apply, Pi.single_apply]
    conv_lhs => rw [hx, map_sum, Finset.sum_apply]
    simp only [map_smul, Pi.smul_apply, smul_eq_mul, Matrix.mulVec, dotProduct]
    refine Finset.sum_congr rfl fun j _ => ?_
    rw [jacobian_fderiv hn (hG1.differentiableAt (by norm_num)) hv hA, mul_comm]
  have h1 : ContDiffAt ℝ 1 (fderiv ℝ G) z := hG.fderiv_right (m := 1) (by norm_num)
  obtain ⟨K, s, hs, hK⟩ := h1.exists_lipschitzOnWith
  have hK' : ∀ᶠ u in 𝓝 z, ‖fderiv ℝ G u - fderiv ℝ G z‖ ≤ (K + 1) * ‖u - z‖ := by
    filter_upwards [hs] with u hu
    have := hK.dist_le_mul u hu z (mem_of_mem_nhds hs)
    rw [dist_eq_norm, dist_eq_norm] at this
    exact this.trans (mul_le_mul_of_nonneg_right (by linarith) (norm_nonneg _))
  have hK0 : (0 : ℝ) < K + 1 := by positivity
  have hd : ∀ᶠ u in 𝓝 z, DifferentiableAt ℝ G u := (hG1.eventually (by norm_num)).mono fun u h => h.differentiableAt (by norm_num)
  obtain ⟨ρ, hρ, hball⟩ := Metric.eventually_nhds_iff.mp (hK'.and (hd.and hv.eventually_nhds))
  refine ⟨K + 1, hK0, Metric.eventually_nhds_iff.mpr ⟨ρ, hρ, fun u hu => ⟨fun A' hA' i j => ?_, ?_⟩⟩⟩
  · obtain ⟨k1, k2, k3⟩ := hball hu
    rw [jacobian_fderiv hn k2 k3 hA' i j, jacobian_fderiv hn (hG1.differentiableAt (by norm_num)) hv hA i j]
    have e1 : fderiv ℝ G u (Pi.single j 1) i - fderiv ℝ G z (Pi.single j 1) i = (fderiv ℝ G u - fderiv ℝ G z) (Pi.single j 1) i := rfl
    rw [e1]
    have e2 := norm_le_pi_norm ((fderiv ℝ G u - fderiv ℝ G z) (Pi.single j 1)) i
    have e3 := (fderiv ℝ G u - fderiv ℝ G z).le_opNorm (Pi.single j (1 : ℝ))
    have e4 : ‖(Pi.single j (1 : ℝ) : Fin vars.length → ℝ)‖ = 1 := by rw [Pi.norm_single]; simp
    rw [e4, mul_one] at e3
    exact (e2.trans e3).trans k1
  · have hin : ∀ w ∈ Metric.closedBall z ‖u - z‖, dist w z < ρ := fun w hw =>
      lt_of_le_of_lt (by rw [← dist_eq_norm] at hw; exact hw) hu
    have := (convex_closedBall z ‖u - z‖).norm_image_sub_le_of_norm_hasFDerivWithin_le' (f := G) (f' := fderiv ℝ G) (φ := fderiv ℝ G z)
      (C := (K + 1) * ‖u - z‖) (x := z) (y := u)
      (fun w hw => (hball (hin w hw)).2.1.hasFDerivAt.hasFDerivWithinAt)
      (fun w hw => (hball (hin w hw)).1.trans (mul_le_mul_of_nonneg_left (by rw [Metric.mem_closedBall, dist_eq_norm] at hw; exact hw) hK0.le))
      (Metric.mem_closedBall_self (norm_nonneg _)) (by rw [Metric.mem_closedBall, dist_eq_norm])
    rwa [hlin] at this

/-- what happens at points close to a regular root `z`, with the second-order rate -/
theorem newton_near2 {vars : List Str} (hn : 0 < vars.length) (hnd : vars.Nodup) {f : Matrix (Fin vars.length) (Fin 1) (Expr (XNum ℝ))}
    {z : Fin vars.length → ℝ} (hs : SmoothAt f vars z) (hz : IsValue f vars z 0) {A : Matrix (Fin vars.length) (Fin vars.length) ℝ}
    (hA : IsJacobian f vars z A) (hdet : A.det ≠ 0) :
    ∃ δ e L C : ℝ, 0 < δ ∧ 0 < e ∧ 0 < L ∧ 0 < C ∧ ∀ u, ‖u - z‖ < δ → SmoothAt f vars u ∧ ∃ F, IsValue f vars u F ∧ ‖F‖ ≤ L * ‖u - z‖ ∧
      ∀ (cfg : Config (XNum ℝ)) (eps : ℝ), 0 < eps → eps ≤ e → cfg.epsilon = .fin eps → ∀ A', IsJacobian f vars u A' →
        ∃ d, solveLinear cfg (ofMatrix A') (ofVec (-F)) = .ok (ofVec d) ∧ ‖u + d - z‖ ≤ C * (‖u - z‖ + eps) * ‖u - z‖ := by
  obtain ⟨G, hG, hev⟩ := system_local2 hs
  have hv : ∀ᶠ u in 𝓝 z, IsValue f vars u (G u) := hev.mono fun u h => h.1
  have hGz : G z = 0 := by
    funext i
    have := (hv.self_of_nhds i).symm.trans (hz i)
    simpa using this
  obtain ⟨M, hM, hMA⟩ := regular_bound hdet
  have hn' : (1 : ℝ) ≤ vars.length := by exact_mod_cast hn
  obtain ⟨K, hK0, hx⟩ := jacobian_second hnd hG hv hA
  obtain ⟨ρ, hρ, hball⟩ := Metric.eventually_nhds_iff.mp (hev.and hx)
  obtain ⟨KA, hKA⟩ : ∃ K : ℝ, ∀ i j, |A i j| ≤ K := by
    refine ⟨∑ i, ∑ j, |A i j|, fun i j => ?_⟩
    calc |A i j| ≤ ∑ j, |A i j| := Finset.single_le_sum (f := fun j => |A i j|) (fun _ _ => abs_nonneg _) (Finset.mem_univ j)
      _ ≤ _ := Finset.single_le_sum (f := fun i => ∑ j, |A i j|) (fun _ _ => Finset.sum_nonneg fun _ _ => abs_nonneg _) (Finset.mem_univ i)
  set C : ℝ := 4 * M * vars.length * (K + 1) with hC
  have hC0 : 0 < C := by positivity
  refine ⟨min ρ (min 1 (1 / (2 * C))), 1 / (2 * C), vars.length * max KA 0 + K, C, by positivity, by positivity, by positivity, hC0, fun u hu => ?_⟩
  have hu1 : ‖u - z‖ < ρ := hu.trans_le (min_le_left _ _)
  have hu2 : ‖u - z‖ < 1 := hu.trans_le ((min_le_right _ _).trans (min_le_left _ _))
  have hu3 : ‖u - z‖ < 1 / (2 * C) := hu.trans_le ((min_le_right _ _).trans (min_le_right _ _))
  have hu0 := norm_nonneg (u - z)
  obtain ⟨⟨k1, k2⟩, k4, k3⟩ := hball (by rwa [dist_eq_norm])
  rw [hGz, sub_zero] at k3
  refine ⟨k2, G u, k1, ?_, fun cfg eps g1 g2 g3 A' hA' => ?_⟩
  · have h2 := mulVec_norm_le (le_max_right KA 0) (fun i j => (hKA i j).trans (le_max_left _ _)) (u - z)
    have h3 : G u = (G u - A.mulVec (u - z)) + A.mulVec (u - z) := by abel
    rw [h3]
    refine (norm_add_le _ _).trans ?_
    have h4 : K * ‖u - z‖ * ‖u - z‖ ≤ K * ‖u - z‖ := by
      have := mul_le_mul_of_nonneg_left hu2.le (mul_nonneg hK0.le hu0)
      linarith
    linarith
  · have hsum : C * (‖u - z‖ + eps) ≤ 1 := by
      have : C * (1 / (2 * C)) = 1 / 2 := by field_simp
      have h5 := mul_le_mul_of_nonneg_left hu3.le hC0.le
      have h6 := mul_le_mul_of_nonneg_left g2 hC0.le
      rw [mul_add]
      linarith
    have heta : 0 ≤ K * ‖u - z‖ + eps := by positivity
    have hM1 : M * (vars.length * (K * ‖u - z‖ + eps)) ≤ C * (‖u - z‖ + eps) / 4 := by
      have e1 : C * (‖u - z‖ + eps) / 4 - M * (vars.length * (K * ‖u - z‖ + eps)) = M * vars.length * (‖u - z‖ + K * eps) := by
        rw [hC]; ring
      have e2 : 0 ≤ M * vars.length * (‖u - z‖ + K * eps) := by positivity
      linarith
    have hM2 : M * (K * ‖u - z‖) ≤ C * (‖u - z‖ + eps) / 4 := by
      refine le_trans ?_ hM1
      refine mul_le_mul_of_nonneg_left ?_ hM.le
      have : (1 : ℝ) * (K * ‖u - z‖ + eps) ≤ vars.length * (K * ‖u - z‖ + eps) := mul_le_mul_of_nonneg_right hn' heta
      linarith
    have hclose : ∀ B, Near eps A' B → ∀ i j, |A i j - B i j| ≤ K * ‖u - z‖ + eps := by
      intro B hB i j
      have e1 := abs_le.mp (k4 A' hA' i j)
      have e2 := abs_lt.mp (hB i j)
      exact abs_le.mpr ⟨by linarith, by linarith⟩
    obtain ⟨d, h2, ⟨B, h3, h4⟩, _⟩ := C36_nonsingular cfg g1 g3 hn A' (-(G u))
      fun B hB => close_det hM hMA heta (hclose B hB) (by linarith)
    exact ⟨d, h2, contract hM hMA heta (hclose B h3) hsum hM1 hM2 k3 h4⟩

/-- **C103**, one step: near a regular root `z` (the equations are smooth at `z`, vanish there, and their Jacobian is invertible) every
Newton step from a point that does not satisfy the equations yet squares the distance to the root, up to a constant factor that depends
neither on the point nor on epsilon: the number of correct digits doubles. -/
theorem C103_step {vars : List Str} (hn : 0 < vars.length) (hnd : vars.Nodup)
    {f : Matrix (Fin vars.length) (Fin 1) (Expr (XNum ℝ))} {z : Fin vars.length → ℝ} (hs : SmoothAt f vars z) (hz : IsValue f vars z 0)
    {A : Matrix (Fin vars.length) (Fin vars.length) ℝ} (hA : IsJacobian f vars z A) (hdet : A.det ≠ 0) :
    ∃ δ e C : ℝ, 0 < δ ∧ 0 < e ∧ 0 < C ∧ ∀ (cfg : Config (XNum ℝ)) (eps : ℝ), 0 < eps → eps ≤ e → cfg.epsilon = .fin eps →
      ∀ (J : SymMat (XNum ℝ)), (symOf f).jacobian cfg vars = .ok J → ∀ (t : VarsTable (XNum ℝ)) (u : Fin vars.length → ℝ),
        TableAt t vars u → ‖u - z‖ < δ → ¬ Satisfies cfg f t →
        ∃ t' u', TableAt t' vars u' ∧ NewtonStep cfg (symOf f) J t t' ∧ ‖u' - z‖ ≤ C * ‖u - z‖ ^ 2 := by
  obtain ⟨δ, e, L, C, h1, h2, hL, hC, h⟩ := newton_near2 hn hnd hs hz hA hdet
  refine ⟨δ, e, C * (1 + L), h1, h2, by positivity, fun cfg eps g1 g2 g3 J hJ t u ht hu hns => ?_⟩
  obtain ⟨k1, F, k2, k3, k4⟩ := h u hu
  obtain ⟨E, rfl, hE, hJac⟩ := jacobian_real hn cfg f vars hn J hJ
  obtain ⟨A', hA1, hA2⟩ := hJac u k1
  obtain ⟨d, h3, h4⟩ := k4 cfg eps g1 g2 g3 A' hA1
  obtain ⟨t', h5, h6⟩ := ht.setValues (u + d)
  have hF : eps ≤ ‖F‖ := by
    by_contra hlt
    exact hns ((satisfies_iff hn cfg f t).mpr ⟨_, ht.evalVec hn cfg f k1.1 k2, by rw [g3]; exact (eqNum_real F eps g1).mpr (not_le.mp hlt)⟩)
  refine ⟨t', u + d, h6, ⟨ofVec d, ⟨_, _, ht.evalVec hn cfg f k1.1 k2, ht.evalMat hn hn cfg E (fun i j x hx => k1.1 i x (hE i j x hx)) hA2, ?_⟩,
    ?_, h6.2.1.trans ht.2.1.symm⟩, h4.trans ?_⟩
  · rw [neg_ofVec]; exact h3
  · rw [ht.2.2, ofVec_add, h6.2.2]
  · have h7 : C * (‖u - z‖ + eps) * ‖u - z‖ ≤ C * (‖u - z‖ + L * ‖u - z‖) * ‖u - z‖ := by
      refine mul_le_mul_of_nonneg_right (mul_le_mul_of_nonneg_left ?_ hC.le) (norm_nonneg _)
      linarith
    refine h7.trans (le_of_eq ?_)
    ring

/-- the loop, entered at a point close to a regular root -/
theorem newtonLoop_near2 {vars : List Str} (hn : 0 < vars.length) (hnd : vars.Nodup) {f : Matrix (Fin vars.length) (Fin 1) (Expr (XNum ℝ))}
    {z : Fin vars.length → ℝ} (hs : SmoothAt f vars z) (hz : IsValue f vars z 0) {A : Matrix (Fin vars.length) (Fin vars.length) ℝ}
    (hA : IsJacobian f vars z A) (hdet : A.det ≠ 0) :
    ∃ δ e R : ℝ, 0 < δ ∧ 0 < e ∧ 0 < R ∧ ∀ eps, 0 < eps → eps ≤ e → ∀ N : ℕ, R * (1 / 2) ^ 2 ^ N < eps → ∀ (cfg : Config (XNum ℝ)),
      cfg.epsilon = .fin eps → ∀ (J : SymMat (XNum ℝ)), (symOf f).jacobian cfg vars = .ok J → ∀ (it fuel : ℕ),
      ((it + N : ℕ) : ℤ) ≤ cfg.maxIterations → N < fuel →
      ∀ (t : VarsTable (XNum ℝ)) (u : Fin vars.length → ℝ), TableAt t vars u → ‖u - z‖ < δ →
        ∃ t' u' F, newtonLoop cfg (symOf f) J fuel it t (ofVec u) = .ok t' ∧ TableAt t' vars u' ∧ ‖u' - z‖ ≤ ‖u - z‖ ∧
          IsValue f vars u' F ∧ ‖F‖ < eps := by
  obtain ⟨δ, e, L, C, h1, h2, hL, hC, h⟩ := newton_near2 hn hnd hs hz hA hdet
  set D : ℝ := C * (1 + L) with hD
  have hD0 : 0 < D := by positivity
  refine ⟨min δ (1 / (2 * D)), e, L / D, by positivity, h2, by positivity, fun eps g1 g2 N hN cfg g3 J hJ => ?_⟩
  obtain ⟨E, rfl, hE, hJac⟩ := jacobian_real hn cfg f vars hn J hJ
  have key : ∀ (k it fuel : ℕ), ((it + k : ℕ) : ℤ) ≤ cfg.maxIterations → k < fuel →
      ∀ (t : VarsTable (XNum ℝ)) (u : Fin vars.length → ℝ) (b : ℝ), TableAt t vars u → ‖u - z‖ < δ → D * ‖u - z‖ ≤ b → b ≤ 1 / 2 →
        L / D * b ^ 2 ^ k < eps →
        ∃ t' u' F, newtonLoop cfg (symOf f) (symOf E) fuel it t (ofVec u) = .ok t' ∧ TableAt t' vars u' ∧ ‖u' - z‖ ≤ ‖u - z‖ ∧
          IsValue f vars u' F ∧ ‖F‖ < eps := by
    intro k
    induction k with
    | zero =>
      intro it fuel hit hf t u b ht hu hb hb1 hk
      obtain ⟨fuel, rfl⟩ : ∃ m, fuel = m + 1 := ⟨fuel - 1, by omega⟩
      obtain ⟨k1, F, k2, k3, k4⟩ := h u hu
      rw [pow_zero, pow_one] at hk
      have hF : ‖F‖ < eps := by
        refine lt_of_le_of_lt (k3.trans ?_) hk
        rw [div_mul_eq_mul_div, le_div_iff₀ hD0]
        have := mul_le_mul_of_nonneg_left hb hL.le
        linarith
      refine ⟨t, u, F, ?_, ht, le_rfl, k2, hF⟩
      rw [newtonLoop, ht.evalVec hn cfg f k1.1 k2, Res.bind_ok, g3, if_pos ((eqNum_real F eps g1).mpr hF)]
    | succ k ih =>
      intro it fuel hit hf t u b ht hu hb hb1 hk
      obtain ⟨fuel, rfl⟩ : ∃ m, fuel = m + 1 := ⟨fuel - 1, by omega⟩
      obtain ⟨k1, F, k2, k3, k4⟩ := h u hu
      by_cases hF : ‖F‖ < eps
      · refine ⟨t, u, F, ?_, ht, le_rfl, k2, hF⟩
        rw [newtonLoop, ht.evalVec hn cfg f k1.1 k2, Res.bind_ok, g3, if_pos ((eqNum_real F eps g1).mpr hF)]
      · obtain ⟨A', hA1, hA2⟩ := hJac u k1
        obtain ⟨d, h3, h4⟩ := k4 cfg eps g1 g2 g3 A' hA1
        obtain ⟨t1, h5, h6⟩ := ht.setValues (u + d)
        have e2 := ht.evalMat hn hn cfg E (fun i j x hx => k1.1 i x (hE i j x hx)) hA2
        have hu0 := norm_nonneg (u - z)
        have hb0 : 0 ≤ b := le_trans (by positivity) hb
        have hstep : ‖u + d - z‖ ≤ D * ‖u - z‖ * ‖u - z‖ := by
          refine h4.trans (mul_le_mul_of_nonneg_right ?_ hu0)
          rw [hD, mul_assoc]
          refine mul_le_mul_of_nonneg_left ?_ hC.le
          linarith [not_lt.mp hF]
        have hle : ‖u + d - z‖ ≤ ‖u - z‖ := by
          refine hstep.trans ?_
          have := mul_le_mul_of_nonneg_right (hb.trans hb1) hu0
          linarith
        have hb' : D * ‖u + d - z‖ ≤ b ^ 2 := by
          have e1 := mul_le_mul_of_nonneg_left hstep hD0.le
          have e2 : D * (D * ‖u - z‖ * ‖u - z‖) = (D * ‖u - z‖) ^ 2 := by ring
          rw [e2] at e1
          exact e1.trans (pow_le_pow_left₀ (by positivity) hb 2)
        obtain ⟨t', u', F', r1, r2, r3, r4, r5⟩ := ih (it + 1) fuel (by push_cast at hit ⊢; omega) (by omega) t1 (u + d) (b ^ 2) h6 (hle.trans_lt hu)
          hb' (by nlinarith) (by rw [← pow_mul, ← pow_succ']; exact hk)
        refine ⟨t', u', F', ?_, r2, r3.trans hle, r4, r5⟩
        rw [newtonLoop, ht.evalVec hn cfg f k1.1 k2, Res.bind_ok, g3, if_neg (fun h' => hF ((eqNum_real F eps g1).mp h')),
          if_neg (by push_cast at hit; omega), e2, Res.bind_ok, neg_ofVec, h3, Res.bind_ok, ofVec_add, Res.bind_ok, h5, Res.bind_ok]
        exact r1
  intro it fuel hit hf t u ht hu
  refine key N it fuel hit hf t u (1 / 2) ht (hu.trans_le (min_le_left _ _)) ?_ le_rfl hN
  have h5 := mul_le_mul_of_nonneg_left (hu.le.trans (min_le_right _ _)) hD0.le
  have : D * (1 / (2 * D)) = 1 / 2 := by field_simp
  linarith

/-- **C103**, number of repetitions, from initial values zero: a regular root close enough to zero is found to within epsilon in at most `N`
repetitions, for every `N` with `R · (1/2)^(2^N) < epsilon`, where `R` depends on the equations only.  One repetition more suffices for twice as
many digits. -/
theorem C103_repetitions {vars : List Str} (hn : 0 < vars.length) (hnd : vars.Nodup) {f : Matrix (Fin vars.length) (Fin 1) (Expr (XNum ℝ))}
    {z : Fin vars.length → ℝ} (hs : SmoothAt f vars z) (hz : IsValue f vars z 0) {A : Matrix (Fin vars.length) (Fin vars.length) ℝ}
    (hA : IsJacobian f vars z A) (hdet : A.det ≠ 0) :
    ∃ δ e R : ℝ, 0 < δ ∧ 0 < e ∧ 0 < R ∧ ∀ eps, 0 < eps → eps ≤ e → ∀ N : ℕ, R * (1 / 2) ^ 2 ^ N < eps →
      ∀ (cfg : Config (XNum ℝ)), cfg.epsilon = .fin eps → (N : ℤ) ≤ cfg.maxIterations → ∀ (t : VarsTable (XNum ℝ)), TableAt t vars 0 → ‖z‖ < δ →
        ∃ t' u' F, solveByNewtonRaphson cfg (symOf f) t = .ok t' ∧ TableAt t' vars u' ∧ ‖u' - z‖ ≤ ‖z‖ ∧ IsValue f vars u' F ∧ ‖F‖ < eps := by
  obtain ⟨δ, e, R, h1, h2, hR, h⟩ := newtonLoop_near2 hn hnd hs hz hA hdet
  refine ⟨δ, e, R, h1, h2, hR, fun eps g1 g2 N hN cfg g3 g4 t ht hd => ?_⟩
  obtain ⟨J, hJ⟩ := jacobian_returns hn cfg f vars hn z hs
  obtain ⟨t', u', F, r1, r2, r3, r4, r5⟩ := h eps g1 g2 N hN cfg g3 J hJ 0 ((cfg.maxIterations + 2).toNat + 1) (by push_cast; omega) (by omega) t 0 ht
    (by rwa [zero_sub, norm_neg])
  rw [zero_sub, norm_neg] at r3
  refine ⟨t', u', F, ?_, r2, r3, r4, r5⟩
  rw [newton_unfold cfg _ ht.1, ht.2.1, hJ, Res.bind_ok, zeroVec_ofVec]
  exact r1

/-- **C103**, number of repetitions, from any initial values that are not accepted at once and whose first correction is close enough to the root
(the point the iteration goes on from is the first correction, see C44 and `C73_false`). -/
theorem C103_repetitions_first {vars : List Str} (hn : 0 < vars.length) (hnd : vars.Nodup) {f : Matrix (Fin vars.length) (Fin 1) (Expr (XNum ℝ))}
    {z : Fin vars.length → ℝ} (hs : SmoothAt f vars z) (hz : IsValue f vars z 0) {A : Matrix (Fin vars.length) (Fin vars.length) ℝ}
    (hA : IsJacobian f vars z A) (hdet : A.det ≠ 0) :
    ∃ δ e R : ℝ, 0 < δ ∧ 0 < e ∧ 0 < R ∧ ∀ eps, 0 < eps → eps ≤ e → ∀ N : ℕ, R * (1 / 2) ^ 2 ^ N < eps →
      ∀ (cfg : Config (XNum ℝ)), cfg.epsilon = .fin eps → (N : ℤ) + 1 ≤ cfg.maxIterations →
      ∀ (J : SymMat (XNum ℝ)), (symOf f).jacobian cfg vars = .ok J →
      ∀ (t : VarsTable (XNum ℝ)) (u d : Fin vars.length → ℝ), TableAt t vars u → ¬ Satisfies cfg f t →
        NewtonCorrection cfg (symOf f) J t (ofVec d) → ‖d - z‖ < δ →
        ∃ t' u' F, solveByNewtonRaphson cfg (symOf f) t = .ok t' ∧ TableAt t' vars u' ∧ ‖u' - z‖ ≤ ‖d - z‖ ∧ IsValue f vars u' F ∧ ‖F‖ < eps := by
  obtain ⟨δ, e, R, h1, h2, hR, h⟩ := newtonLoop_near2 hn hnd hs hz hA hdet
  refine ⟨δ, e, R, h1, h2, hR, fun eps g1 g2 N hN cfg g3 g4 J hJ t u d ht hns ⟨phi, j, k1, k2, k3⟩ hd => ?_⟩
  obtain ⟨t1, h5, h6⟩ := ht.setValues d
  obtain ⟨t', u', F, r1, r2, r3, r4, r5⟩ := h eps g1 g2 N hN cfg g3 J hJ 1 (cfg.maxIterations + 2).toNat (by push_cast; omega) (by omega) t1 d h6 hd
  refine ⟨t', u', F, ?_, r2, r3, r4, r5⟩
  rw [newton_unfold cfg _ ht.1, ht.2.1, hJ, Res.bind_ok, zeroVec_ofVec, newtonLoop, k1, Res.bind_ok,
    if_neg (fun h' => hns ((satisfies_iff hn cfg f t).mpr ⟨_, k1, h'⟩)), if_neg (by push_cast; omega), k2, Res.bind_ok, k3, Res.bind_ok, ofVec_add,
    Res.bind_ok, zero_add, h5, Res.bind_ok]
  exact r1

/-- the hypotheses are met by `x^2 - 4 = 0` at its root 2, and for every `δ` and `e` there are an epsilon, a configuration and a point within `δ` of
the root that does not satisfy the equation yet -/
example (δ e : ℝ) (hδ : 0 < δ) (he : 0 < e) : (SmoothAt parabola [['x']] (fun _ => 2) ∧ IsValue parabola [['x']] (fun _ => 2) 0 ∧
      IsJacobian parabola [['x']] (fun _ => 2) !![4] ∧ (!![4] : Matrix (Fin 1) (Fin 1) ℝ).det ≠ 0) ∧
    ∃ (eps : ℝ) (cfg : Config (XNum ℝ)) (J : SymMat (XNum ℝ)) (t : VarsTable (XNum ℝ)) (u : Fin 1 → ℝ), 0 < eps ∧ eps ≤ e ∧ cfg.epsilon = .fin eps ∧
      (symOf parabola).jacobian cfg [['x']] = .ok J ∧ TableAt t [['x']] u ∧ ‖u - fun _ => 2‖ < δ ∧ ¬ Satisfies cfg parabola t := by
  refine ⟨C73_false.1, ?_⟩
  have hw : 0 < min δ 1 := lt_min hδ one_pos
  have h0 : 0 < min e (min δ 1) := lt_min he hw
  let cfg : Config (XNum ℝ) := ⟨true, .fin (min e (min δ 1)), 100, .newtonRaphson, .fin 1, false⟩
  obtain ⟨J, hJ⟩ := jacobian_returns (by omega) cfg parabola [['x']] (by decide) 0 (parabola_smooth 0)
  obtain ⟨t, ht⟩ := exists_holds (vars := [['x']]) (by simp) (by simp) (fun _ => 2 + min δ 1 / 2)
  refine ⟨_, cfg, J, t, fun _ => 2 + min δ 1 / 2, h0, min_le_left _ _, rfl, hJ, ht, ?_, ?_⟩
  · rw [pi_norm_lt_iff hδ]
    intro i
    have e1 : ((fun _ => 2 + min δ 1 / 2) - fun _ => 2 : Fin 1 → ℝ) i = min δ 1 / 2 := by
      simp only [Pi.sub_apply]; ring
    rw [e1, Real.norm_eq_abs, abs_of_pos (by positivity)]
    linarith [min_le_left δ 1]
  · rw [satisfies_iff (by omega)]
    rintro ⟨phi, k1, k2⟩
    have e1 := ht.evalVec (by omega) cfg parabola (parabola_smooth 0).1 (parabola_value _)
    rw [e1, Res.ok.injEq] at k1
    subst k1
    rw [show cfg.epsilon = .fin (min e (min δ 1)) from rfl, eqNum_real _ _ h0, pi_norm_lt_iff h0] at k2
    have := (abs_lt.mp (k2 0)).2.trans_le (min_le_right e (min δ 1))
    nlinarith

end Tom
