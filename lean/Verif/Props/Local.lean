import Verif.Lemmas.Contract
import Verif.Props.RealLM
/-
C73: the solvers near a regular root.  Norms of vectors are maximum norms.
-/
set_option linter.unusedSectionVars false
namespace Tom
open Filter Topology

/-- what happens at points close to a regular root `z` -/
theorem newton_near {vars : List Str} (hn : 0 < vars.length) (hnd : vars.Nodup) {f : Matrix (Fin vars.length) (Fin 1) (Expr (XNum ℝ))}
    {z : Fin vars.length → ℝ} (hs : SmoothAt f vars z) (hz : IsValue f vars z 0) {A : Matrix (Fin vars.length) (Fin vars.length) ℝ}
    (hA : IsJacobian f vars z A) (hdet : A.det ≠ 0) {c : ℝ} (hc : 0 < c) (hc1 : c ≤ 1) :
    ∃ δ e L : ℝ, 0 < δ ∧ 0 < e ∧ 0 < L ∧ ∀ u, ‖u - z‖ < δ → SmoothAt f vars u ∧ ∃ F, IsValue f vars u F ∧ ‖F‖ ≤ L * ‖u - z‖ ∧
      ∀ (cfg : Config (XNum ℝ)) (eps : ℝ), 0 < eps → eps ≤ e → cfg.epsilon = .fin eps → ∀ A', IsJacobian f vars u A' →
        ∃ d, solveLinear cfg (ofMatrix A') (ofVec (-F)) = .ok (ofVec d) ∧ ‖u + d - z‖ ≤ c * ‖u - z‖ := by
  obtain ⟨G, hG, hev⟩ := system_local hs
  have hv : ∀ᶠ u in 𝓝 z, IsValue f vars u (G u) := hev.mono fun u h => h.1
  have hGz : G z = 0 := by
    funext i
    have := (hv.self_of_nhds i).symm.trans (hz i)
    simpa using this
  obtain ⟨M, hM, hMA⟩ := regular_bound hdet
  have hn' : (0 : ℝ) < vars.length := by exact_mod_cast hn
  let eta : ℝ := c / (8 * M * vars.length)
  have heta : 0 < eta := by positivity
  have h1 : M * (vars.length * (2 * eta)) = c / 4 := by
    simp only [eta]
    field_simp
    norm_num
  have hx := jacobian_expansion hnd hG hv hA (e := c / (4 * M)) (by positivity)
  have hj := jacobian_continuous hnd hG hv hA heta
  obtain ⟨δ, hδ, hball⟩ := Metric.eventually_nhds_iff.mp (hev.and (hx.and hj))
  obtain ⟨K, hK⟩ : ∃ K : ℝ, ∀ i j, |A i j| ≤ K := by
    refine ⟨∑ i, ∑ j, |A i j|, fun i j => ?_⟩
    calc |A i j| ≤ ∑ j, |A i j| := Finset.single_le_sum (f := fun j => |A i j|) (fun _ _ => abs_nonneg _) (Finset.mem_univ j)
      _ ≤ _ := Finset.single_le_sum (f := fun i => ∑ j, |A i j|) (fun _ _ => Finset.sum_nonneg fun _ _ => abs_nonneg _) (Finset.mem_univ i)
  refine ⟨δ, eta, vars.length * max K 0 + c / (4 * M), hδ, heta, by positivity, fun u hu => ?_⟩
  obtain ⟨⟨k1, k2⟩, k3, k4⟩ := hball (by rwa [dist_eq_norm])
  rw [hGz, sub_zero] at k3
  refine ⟨k2, G u, k1, ?_, fun cfg eps g1 g2 g3 A' hA' => ?_⟩
  · have h2 := mulVec_norm_le (le_max_right K 0) (fun i j => (hK i j).trans (le_max_left _ _)) (u - z)
    have h3 : G u = (G u - A.mulVec (u - z)) + A.mulVec (u - z) := by abel
    rw [h3]
    refine (norm_add_le _ _).trans ?_
    linarith
  · have hclose : ∀ B, Near eps A' B → ∀ i j, |A i j - B i j| ≤ 2 * eta := by
      intro B hB i j
      have e1 := abs_lt.mp (k4 A' hA' i j)
      have e2 := abs_lt.mp ((hB i j).trans_le g2)
      exact abs_le.mpr ⟨by linarith, by linarith⟩
    obtain ⟨d, h2, ⟨B, h3, h4⟩, _⟩ := C36_nonsingular cfg g1 g3 hn A' (-(G u))
      fun B hB => close_det hM hMA (by positivity) (hclose B hB) (by rw [h1]; linarith)
    refine ⟨d, h2, contract hM hMA (by positivity) (hclose B h3) hc1 h1.le ?_ k3 h4⟩
    apply le_of_eq
    field_simp

/-- C73, rate of convergence: near a regular root, each Newton step makes the distance to the root smaller by any factor `c` asked for, if
the point is close enough to the root and epsilon is small enough. -/
theorem C73_contraction {vars : List Str} (hn : 0 < vars.length) (hnd : vars.Nodup)
    {f : Matrix (Fin vars.length) (Fin 1) (Expr (XNum ℝ))} {z : Fin vars.length → ℝ} (hs : SmoothAt f vars z) (hz : IsValue f vars z 0)
    {A : Matrix (Fin vars.length) (Fin vars.length) ℝ} (hA : IsJacobian f vars z A) (hdet : A.det ≠ 0) {c : ℝ} (hc : 0 < c) (hc1 : c ≤ 1) :
    ∃ δ e : ℝ, 0 < δ ∧ 0 < e ∧ ∀ (cfg : Config (XNum ℝ)) (eps : ℝ), 0 < eps → eps ≤ e → cfg.epsilon = .fin eps →
      ∀ (J : SymMat (XNum ℝ)), (symOf f).jacobian cfg vars = .ok J → ∀ (t : VarsTable (XNum ℝ)) (u : Fin vars.length → ℝ),
        TableAt t vars u → ‖u - z‖ < δ → ∃ t' u', TableAt t' vars u' ∧ NewtonStep cfg (symOf f) J t t' ∧ ‖u' - z‖ ≤ c * ‖u - z‖ := by
  obtain ⟨δ, e, L, h1, h2, _, h⟩ := newton_near hn hnd hs hz hA hdet hc hc1
  refine ⟨δ, e, h1, h2, fun cfg eps g1 g2 g3 J hJ t u ht hu => ?_⟩
  obtain ⟨k1, F, k2, _, k4⟩ := h u hu
  obtain ⟨E, rfl, hE, hJac⟩ := jacobian_real hn cfg f vars hn J hJ
  obtain ⟨A', hA1, hA2⟩ := hJac u k1
  obtain ⟨d, h3, h4⟩ := k4 cfg eps g1 g2 g3 A' hA1
  obtain ⟨t', h5, h6⟩ := ht.setValues (u + d)
  refine ⟨t', u + d, h6, ⟨ofVec d, ⟨_, _, ht.evalVec hn cfg f k1.1 k2, ht.evalMat hn hn cfg E (fun i j x hx => k1.1 i x (hE i j x hx)) hA2, ?_⟩,
    ?_, h6.2.1.trans ht.2.1.symm⟩, h4⟩
  · rw [neg_ofVec]; exact h3
  · rw [ht.2.2, ofVec_add, h6.2.2]

theorem eqNum_real {n : ℕ} (F : Fin n → ℝ) (eps : ℝ) (h0 : 0 < eps) :
    (ofVec F : Mat (XNum ℝ)).eqNum (.fin eps) (Dbl.ofInt 0) = true ↔ ‖F‖ < eps := by
  rw [pi_norm_lt_iff h0]
  unfold Mat.eqNum ofVec
  rw [List.all_eq_true]
  simp only [List.mem_ofFn, forall_exists_index, forall_apply_eq_imp_iff]
  refine forall_congr' fun i => ?_
  show Arith.lt (Arith.abs (Arith.sub (XNum.fin _) (XNum.fin ((0 : ℤ) : ℝ)))) (XNum.fin eps) = true ↔ _
  simp [Arith.lt, Arith.abs, Arith.sub, XNum.cmp, XNum.map, XNum.map2]

/-- the loop, entered at a point close to a regular root -/
theorem newtonLoop_near {vars : List Str} (hn : 0 < vars.length) (hnd : vars.Nodup) {f : Matrix (Fin vars.length) (Fin 1) (Expr (XNum ℝ))}
    {z : Fin vars.length → ℝ} (hs : SmoothAt f vars z) (hz : IsValue f vars z 0) {A : Matrix (Fin vars.length) (Fin vars.length) ℝ}
    (hA : IsJacobian f vars z A) (hdet : A.det ≠ 0) :
    ∃ δ e : ℝ, 0 < δ ∧ 0 < e ∧ ∀ eps, 0 < eps → eps ≤ e → ∃ N : ℕ, ∀ (cfg : Config (XNum ℝ)), cfg.epsilon = .fin eps →
      ∀ (J : SymMat (XNum ℝ)), (symOf f).jacobian cfg vars = .ok J → ∀ (it fuel : ℕ), ((it + N : ℕ) : ℤ) ≤ cfg.maxIterations → N < fuel →
      ∀ (t : VarsTable (XNum ℝ)) (u : Fin vars.length → ℝ), TableAt t vars u → ‖u - z‖ < δ →
        ∃ t' u' F, newtonLoop cfg (symOf f) J fuel it t (ofVec u) = .ok t' ∧ TableAt t' vars u' ∧ ‖u' - z‖ ≤ ‖u - z‖ ∧
          IsValue f vars u' F ∧ ‖F‖ < eps := by
  obtain ⟨δ, e, L, h1, h2, hL, h⟩ := newton_near hn hnd hs hz hA hdet (c := 1 / 2) (by norm_num) (by norm_num)
  refine ⟨δ, e, h1, h2, fun eps g1 g2 => ?_⟩
  obtain ⟨N, hN⟩ := exists_pow_lt_of_lt_one (div_pos g1 (mul_pos hL h1)) (show (1 / 2 : ℝ) < 1 by norm_num)
  refine ⟨N, fun cfg g3 J hJ => ?_⟩
  obtain ⟨E, rfl, hE, hJac⟩ := jacobian_real hn cfg f vars hn J hJ
  have key : ∀ (k it fuel : ℕ), ((it + k : ℕ) : ℤ) ≤ cfg.maxIterations → k < fuel →
      ∀ (t : VarsTable (XNum ℝ)) (u : Fin vars.length → ℝ), TableAt t vars u → ‖u - z‖ < δ → L * ‖u - z‖ * (1 / 2) ^ k < eps →
        ∃ t' u' F, newtonLoop cfg (symOf f) (symOf E) fuel it t (ofVec u) = .ok t' ∧ TableAt t' vars u' ∧ ‖u' - z‖ ≤ ‖u - z‖ ∧
          IsValue f vars u' F ∧ ‖F‖ < eps := by
    intro k
    induction k with
    | zero =>
      intro it fuel hit hf t u ht hu hk
      obtain ⟨fuel, rfl⟩ : ∃ m, fuel = m + 1 := ⟨fuel - 1, by omega⟩
      obtain ⟨k1, F, k2, k3, k4⟩ := h u hu
      rw [pow_zero, mul_one] at hk
      refine ⟨t, u, F, ?_, ht, le_rfl, k2, k3.trans_lt hk⟩
      rw [newtonLoop, ht.evalVec hn cfg f k1.1 k2, Res.bind_ok, g3, if_pos ((eqNum_real F eps g1).mpr (k3.trans_lt hk))]
    | succ k ih =>
      intro it fuel hit hf t u ht hu hk
      obtain ⟨fuel, rfl⟩ : ∃ m, fuel = m + 1 := ⟨fuel - 1, by omega⟩
      obtain ⟨k1, F, k2, k3, k4⟩ := h u hu
      by_cases hF : ‖F‖ < eps
      · refine ⟨t, u, F, ?_, ht, le_rfl, k2, hF⟩
        rw [newtonLoop, ht.evalVec hn cfg f k1.1 k2, Res.bind_ok, g3, if_pos ((eqNum_real F eps g1).mpr hF)]
      · obtain ⟨A', hA1, hA2⟩ := hJac u k1
        obtain ⟨d, h3, h4⟩ := k4 cfg eps g1 g2 g3 A' hA1
        obtain ⟨t1, h5, h6⟩ := ht.setValues (u + d)
        have e2 := ht.evalMat hn hn cfg E (fun i j x hx => k1.1 i x (hE i j x hx)) hA2
        have hle : ‖u + d - z‖ ≤ ‖u - z‖ := h4.trans (by linarith [norm_nonneg (u - z)])
        obtain ⟨t', u', F', r1, r2, r3, r4, r5⟩ := ih (it + 1) fuel (by push_cast at hit ⊢; omega) (by omega) t1 (u + d) h6 (hle.trans_lt hu) (by
          refine lt_of_le_of_lt ?_ hk
          have : L * ‖u - z‖ * (1 / 2) ^ (k + 1) = L * (1 / 2 * ‖u - z‖) * (1 / 2) ^ k := by rw [pow_succ]; ring
          rw [this]
          exact mul_le_mul_of_nonneg_right (mul_le_mul_of_nonneg_left h4 hL.le) (by positivity))
        refine ⟨t', u', F', ?_, r2, r3.trans hle, r4, r5⟩
        rw [newtonLoop, ht.evalVec hn cfg f k1.1 k2, Res.bind_ok, g3, if_neg (fun h' => hF ((eqNum_real F eps g1).mp h')),
          if_neg (by push_cast at hit; omega), e2, Res.bind_ok, neg_ofVec, h3, Res.bind_ok, ofVec_add, Res.bind_ok, h5, Res.bind_ok]
        exact r1
  intro it fuel hit hf t u ht hu
  refine key N it fuel hit hf t u ht hu ?_
  have hp : 0 < L * δ := mul_pos hL h1
  have := (lt_div_iff₀ hp).mp hN
  calc L * ‖u - z‖ * (1 / 2) ^ N ≤ L * δ * (1 / 2) ^ N :=
        mul_le_mul_of_nonneg_right (mul_le_mul_of_nonneg_left hu.le hL.le) (by positivity)
    _ < eps := by linarith

/-- C73, partial, Newton-Raphson: let `z` be a regular root (the equations are smooth at `z`, vanish there, and their Jacobian is invertible).
There are a distance `δ` and a bound `e` such that for every `epsilon ≤ e` and enough repetitions allowed: if the initial point is not
accepted at once and the first correction is within `δ` of `z`, then `SolveByNewtonRaphson` returns a point that is not farther from `z`
than the first correction, with residuals below epsilon.  Missing: the initial values themselves being close to `z` does not suffice
(`C73_false`), because the iteration goes on from the first correction instead of the sum of it and the initial values. -/
theorem C73_partial {vars : List Str} (hn : 0 < vars.length) (hnd : vars.Nodup) {f : Matrix (Fin vars.length) (Fin 1) (Expr (XNum ℝ))}
    {z : Fin vars.length → ℝ} (hs : SmoothAt f vars z) (hz : IsValue f vars z 0) {A : Matrix (Fin vars.length) (Fin vars.length) ℝ}
    (hA : IsJacobian f vars z A) (hdet : A.det ≠ 0) :
    ∃ δ e : ℝ, 0 < δ ∧ 0 < e ∧ ∀ eps, 0 < eps → eps ≤ e → ∃ N : ℕ, ∀ (cfg : Config (XNum ℝ)), cfg.epsilon = .fin eps →
      (N : ℤ) ≤ cfg.maxIterations → ∀ (J : SymMat (XNum ℝ)), (symOf f).jacobian cfg vars = .ok J →
      ∀ (t : VarsTable (XNum ℝ)) (u d : Fin vars.length → ℝ), TableAt t vars u → ¬ Satisfies cfg f t →
        NewtonCorrection cfg (symOf f) J t (ofVec d) → ‖d - z‖ < δ →
        ∃ t' u' F, solveByNewtonRaphson cfg (symOf f) t = .ok t' ∧ TableAt t' vars u' ∧ ‖u' - z‖ ≤ ‖d - z‖ ∧ IsValue f vars u' F ∧ ‖F‖ < eps := by
  obtain ⟨δ, e, h1, h2, h⟩ := newtonLoop_near hn hnd hs hz hA hdet
  refine ⟨δ, e, h1, h2, fun eps g1 g2 => ?_⟩
  obtain ⟨N, hN⟩ := h eps g1 g2
  refine ⟨N + 1, fun cfg g3 g4 J hJ t u d ht hns ⟨phi, j, k1, k2, k3⟩ hd => ?_⟩
  obtain ⟨t1, h5, h6⟩ := ht.setValues d
  obtain ⟨t', u', F, r1, r2, r3, r4, r5⟩ := hN cfg g3 J hJ 1 (cfg.maxIterations + 2).toNat (by push_cast at g4 ⊢; omega) (by omega) t1 d h6 hd
  refine ⟨t', u', F, ?_, r2, r3, r4, r5⟩
  rw [newton_unfold cfg _ ht.1, ht.2.1, hJ, Res.bind_ok, zeroVec_ofVec, newtonLoop, k1, Res.bind_ok,
    if_neg (fun h' => hns ((satisfies_iff hn cfg f t).mpr ⟨_, k1, h'⟩)), if_neg (by push_cast at g4 ⊢; omega), k2, Res.bind_ok, k3, Res.bind_ok, ofVec_add,
    Res.bind_ok, zero_add, h5, Res.bind_ok]
  exact r1

/-- C73 for initial values zero (`Config::initialValue = 0`): a regular root that is close enough to zero is found. -/
theorem C73_zero {vars : List Str} (hn : 0 < vars.length) (hnd : vars.Nodup) {f : Matrix (Fin vars.length) (Fin 1) (Expr (XNum ℝ))}
    {z : Fin vars.length → ℝ} (hs : SmoothAt f vars z) (hz : IsValue f vars z 0) {A : Matrix (Fin vars.length) (Fin vars.length) ℝ}
    (hA : IsJacobian f vars z A) (hdet : A.det ≠ 0) :
    ∃ δ e : ℝ, 0 < δ ∧ 0 < e ∧ ∀ eps, 0 < eps → eps ≤ e → ∃ N : ℕ, ∀ (cfg : Config (XNum ℝ)), cfg.epsilon = .fin eps →
      (N : ℤ) ≤ cfg.maxIterations → ∀ (t : VarsTable (XNum ℝ)), TableAt t vars 0 → ‖z‖ < δ →
        ∃ t' u' F, solveByNewtonRaphson cfg (symOf f) t = .ok t' ∧ TableAt t' vars u' ∧ ‖u' - z‖ ≤ ‖z‖ ∧ IsValue f vars u' F ∧ ‖F‖ < eps := by
  obtain ⟨δ, e, h1, h2, h⟩ := newtonLoop_near hn hnd hs hz hA hdet
  refine ⟨δ, e, h1, h2, fun eps g1 g2 => ?_⟩
  obtain ⟨N, hN⟩ := h eps g1 g2
  refine ⟨N, fun cfg g3 g4 t ht hd => ?_⟩
  obtain ⟨J, hJ⟩ := jacobian_returns hn cfg f vars hn z hs
  obtain ⟨t', u', F, r1, r2, r3, r4, r5⟩ := hN cfg g3 J hJ 0 ((cfg.maxIterations + 2).toNat + 1) (by push_cast; omega) (by omega) t 0 ht
    (by rwa [zero_sub, norm_neg])
  rw [zero_sub, norm_neg] at r3
  refine ⟨t', u', F, ?_, r2, r3, r4, r5⟩
  rw [newton_unfold cfg _ ht.1, ht.2.1, hJ, Res.bind_ok, zeroVec_ofVec]
  exact r1

/-! ### Newton-Raphson leaves the neighbourhood of a root -/

/-- `x * x - 4 = 0` -/
noncomputable def parabola : Matrix (Fin 1) (Fin 1) (Expr (XNum ℝ)) := Matrix.of fun _ _ =>
  .bin .sub (.bin .mul (.var ['x']) (.var ['x'])) (.num (.fin 4))

theorem parabola_smooth (u : Fin 1 → ℝ) : SmoothAt parabola [['x']] u :=
  ⟨by intro i; simp [parabola, Expr.vars], by intro i; simp [parabola, Expr.NoForeignExp], by intro i; simp [parabola, Smooth]⟩

theorem parabola_value (u : Fin 1 → ℝ) : IsValue parabola [['x']] u fun _ => u 0 * u 0 - 4 := by
  intro i
  have hx : assign [['x']] u ['x'] = u 0 := rfl
  simp [parabola, realVal, BinOp.real, XNum.val?, hx]

theorem parabola_jacobian (u : Fin 1 → ℝ) (A : Matrix (Fin 1) (Fin 1) ℝ) : IsJacobian parabola [['x']] u A ↔ A = !![2 * u 0] := by
  have hd : HasDerivAt (fun s : ℝ => s * s - 4) (2 * u 0) (u 0) := by
    have := ((hasDerivAt_id (u 0)).mul (hasDerivAt_id (u 0))).sub_const 4
    simpa [two_mul] using this
  have hx : assign [['x']] u ['x'] = u 0 := rfl
  have hv : ∀ s, realVal (at_ (assign [['x']] u) ['x'] s) (parabola 0 0) = some (s * s - 4) := by
    intro s
    simp [parabola, realVal, BinOp.real, XNum.val?, at_]
  constructor
  · intro h
    ext i j
    rw [Fin.fin_one_eq_zero i, Fin.fin_one_eq_zero j]
    obtain ⟨g, h1, h2⟩ := h 0 0
    have h3 : g =ᶠ[𝓝 (u 0)] fun s => s * s - 4 := by
      filter_upwards [h1] with s hs
      have := (hv s).symm.trans hs
      simpa using this.symm
    exact h2.unique (hd.congr_of_eventuallyEq h3)
  · rintro rfl i j
    rw [Fin.fin_one_eq_zero i, Fin.fin_one_eq_zero j]
    exact ⟨_, .of_forall hv, hd⟩

/-- one round of Newton-Raphson on the parabola -/
theorem parabola_round {cfg : Config (XNum ℝ)} {eps : ℝ} (heps : 0 < eps) (he : cfg.epsilon = .fin eps) {J : SymMat (XNum ℝ)}
    (hJ : (symOf parabola).jacobian cfg [['x']] = .ok J) {t t' : VarsTable (XNum ℝ)} {u : Fin 1 → ℝ} (ht : TableAt t [['x']] u)
    (w : Fin 1 → ℝ) (fuel it : ℕ) (h : newtonLoop cfg (symOf parabola) J (fuel + 1) it t (ofVec w) = .ok t') :
    (|u 0 * u 0 - 4| < eps ∧ t' = t) ∨ ∃ t1, TableAt t1 [['x']] (fun _ => w 0 - (u 0 * u 0 - 4) / (2 * u 0)) ∧
      newtonLoop cfg (symOf parabola) J fuel (it + 1) t1 (ofVec fun _ : Fin 1 => w 0 - (u 0 * u 0 - 4) / (2 * u 0)) = .ok t' := by
  have hn : 0 < [['x']].length := by simp
  obtain ⟨E, rfl, hE, hA⟩ := jacobian_real (by omega) cfg parabola [['x']] hn J hJ
  obtain ⟨A', hA1, hA2⟩ := hA u (parabola_smooth u)
  rw [(parabola_jacobian u A').mp hA1] at hA2
  have e1 := ht.evalVec (by omega) cfg parabola (parabola_smooth u).1 (parabola_value u)
  have e2 := ht.evalMat (by omega) hn cfg E (fun i j x hx => (parabola_smooth u).1 i x (hE i j x hx)) hA2
  rw [newtonLoop, e1, Res.bind_ok, he] at h
  split at h
  · rename_i h1
    rw [eqNum_real _ _ heps, pi_norm_lt_iff heps] at h1
    rw [Res.ok.injEq] at h
    exact .inl ⟨h1 0, h.symm⟩
  · split at h
    · cases h
    · rw [e2, Res.bind_ok, neg_ofVec] at h
      have e3 : (ofMatrix !![2 * u 0] : Mat (XNum ℝ)) = ⟨1, 1, [.fin (2 * u 0)]⟩ := rfl
      have e4 : (ofVec (-(fun _ : Fin 1 => u 0 * u 0 - 4)) : Mat (XNum ℝ)) = ⟨1, 1, [.fin (-(u 0 * u 0 - 4))]⟩ := rfl
      have e5 : Arith.eq (Arith.abs (XNum.fin (2 * u 0))) (Arith.abs (XNum.fin (2 * u 0))) = true := by
        show decide _ = true
        simp
      rw [e3, e4, solveLinear_one cfg _ _ e5, he] at h
      have e6 : Arith.lt (Arith.abs (XNum.fin (2 * u 0))) (XNum.fin eps) = decide (|2 * u 0| < eps) := rfl
      rw [e6] at h
      by_cases hu : |2 * u 0| < eps
      · rw [if_pos (by simpa using hu)] at h
        split at h <;> cases h
      · rw [if_neg (by simpa using hu)] at h
        have h0 : 2 * u 0 ≠ 0 := by
          intro h0
          rw [h0, abs_zero] at hu
          exact hu heps
        have e7 : Arith.sub (Arith.div (XNum.fin (-(u 0 * u 0 - 4))) (XNum.fin (2 * u 0))) Arith.zero
            = XNum.fin (-(u 0 * u 0 - 4) / (2 * u 0)) := by
          show XNum.map2 _ (XNum.map2O _ _ _) (XNum.fin 0) = _
          simp only [XNum.map2O, if_neg h0, XNum.map2, sub_zero]
        have e8 : (⟨1, 1, [XNum.fin (-(u 0 * u 0 - 4) / (2 * u 0))]⟩ : Mat (XNum ℝ)) = ofVec fun _ : Fin 1 => -(u 0 * u 0 - 4) / (2 * u 0) := rfl
        rw [e7, e8, Res.bind_ok, ofVec_add, Res.bind_ok] at h
        have e9 : (w + fun _ : Fin 1 => -(u 0 * u 0 - 4) / (2 * u 0)) = fun _ => w 0 - (u 0 * u 0 - 4) / (2 * u 0) := by
          funext i
          rw [Fin.fin_one_eq_zero i, Pi.add_apply]
          ring
        rw [e9] at h
        obtain ⟨t1, h2, h3⟩ := ht.setValues fun _ => w 0 - (u 0 * u 0 - 4) / (2 * u 0)
        have h2 : t.setValues (ofVec fun _ : Fin 1 => w 0 - (u 0 * u 0 - 4) / (2 * u 0)) = .ok t1 := h2
        rw [h2, Res.bind_ok] at h
        exact .inr ⟨t1, h3, h⟩

/-- C73 fails as stated for Newton-Raphson: 2 is a regular root of `x^2 - 4`, but from every initial value above 2 whose residual is
not below epsilon, however close to 2 it is, whatever is returned is negative. -/
theorem C73_false : (SmoothAt parabola [['x']] (fun _ => 2) ∧ IsValue parabola [['x']] (fun _ => 2) 0 ∧
      IsJacobian parabola [['x']] (fun _ => 2) !![4] ∧ (!![4] : Matrix (Fin 1) (Fin 1) ℝ).det ≠ 0) ∧
    ∀ (cfg : Config (XNum ℝ)) (eps : ℝ), 0 < eps → cfg.epsilon = .fin eps → ∀ (t t' : VarsTable (XNum ℝ)) (u : ℝ),
      TableAt t [['x']] (fun _ => u) → 2 < u → eps ≤ u * u - 4 → solveByNewtonRaphson cfg (symOf parabola) t = .ok t' →
      ∃ u' : ℝ, TableAt t' [['x']] (fun _ => u') ∧ u' < 0 := by
  refine ⟨⟨parabola_smooth _, ?_, ?_, by simp⟩, ?_⟩
  · have := parabola_value fun _ => 2
    have e : (fun _ : Fin 1 => (2 : ℝ) * 2 - 4) = 0 := by funext i; norm_num
    rwa [e] at this
  · rw [parabola_jacobian]; norm_num
  intro cfg eps heps he t t' u ht hu hres h
  rw [newton_unfold cfg _ ht.1, ht.2.1] at h
  obtain ⟨J, hJ, h⟩ := Res.bind_eq_ok.mp h
  rw [zeroVec_ofVec] at h
  have key : ∀ fuel it (t : VarsTable (XNum ℝ)) (u : ℝ), TableAt t [['x']] (fun _ => u) → u < 0 →
      newtonLoop cfg (symOf parabola) J fuel it t (ofVec fun _ : Fin 1 => u) = .ok t' → ∃ u' : ℝ, TableAt t' [['x']] (fun _ => u') ∧ u' < 0 := by
    intro fuel
    induction fuel with
    | zero => intro _ _ _ _ _ h; cases h
    | succ fuel ih =>
      intro it t u ht hu h
      rcases parabola_round heps he hJ ht (fun _ => u) fuel it h with ⟨_, rfl⟩ | ⟨t1, h1, h2⟩
      · exact ⟨u, ht, hu⟩
      · refine ih _ t1 _ h1 ?_ h2
        have : u - (u * u - 4) / (2 * u) = (u * u + 4) / (2 * u) := by field_simp; ring
        rw [this]
        exact div_neg_of_pos_of_neg (by nlinarith) (by linarith)
  rcases parabola_round heps he hJ ht 0 _ 0 h with ⟨h1, _⟩ | ⟨t1, h1, h2⟩
  · have := (abs_lt.mp h1).2
    linarith
  · refine key _ _ t1 _ h1 ?_ h2
    have : 0 < (u * u - 4) / (2 * u) := div_pos (by nlinarith) (by linarith)
    simp only [Pi.zero_apply]
    linarith

/-- (1, 1) is a regular root of `lines`: the hypotheses of C73_contraction and C73_partial are met, and for every `e` there are a
configuration and an initial point (zero) whose first correction is the root itself. -/
example (e : ℝ) (he : 0 < e) : (SmoothAt lines [['x'], ['y']] ![1, 1] ∧ IsValue lines [['x'], ['y']] ![1, 1] 0 ∧
      (∃ A, IsJacobian lines [['x'], ['y']] ![1, 1] A) ∧ ∀ A : Matrix (Fin 2) (Fin 2) ℝ, IsJacobian lines [['x'], ['y']] ![1, 1] A → A.det ≠ 0) ∧
    ∃ eps, 0 < eps ∧ eps ≤ e ∧ ∀ N : ℕ, ∃ (cfg : Config (XNum ℝ)) (J : SymMat (XNum ℝ)) (t : VarsTable (XNum ℝ)), cfg.epsilon = .fin eps ∧
      (N : ℤ) ≤ cfg.maxIterations ∧ (symOf lines).jacobian cfg [['x'], ['y']] = .ok J ∧ TableAt t [['x'], ['y']] 0 ∧ ¬ Satisfies cfg lines t ∧
      NewtonCorrection cfg (symOf lines) J t (ofVec (![1, 1] : Fin 2 → ℝ)) := by
  obtain ⟨hf, hs⟩ := lines_spec
  refine ⟨⟨hs _, ?_, ?_, ?_⟩, ?_⟩
  · have := hf ![1, 1]
    have e : (!![2, 1; 1, -1] : Matrix (Fin 2) (Fin 2) ℝ).mulVec ![1, 1] + ![-3, 0] = 0 := by
      ext i; fin_cases i <;> norm_num [Matrix.mulVec, dotProduct, Fin.sum_univ_two]
    rwa [e] at this
  · obtain ⟨J, hJ⟩ := jacobian_returns (by omega) (⟨true, .fin 1, 100, .newtonRaphson, .fin 1, false⟩ : Config (XNum ℝ)) lines [['x'], ['y']] (by decide)
      ![1, 1] (hs _)
    obtain ⟨E, -, -, hA⟩ := jacobian_real (by omega) _ lines [['x'], ['y']] (by decide) J hJ
    obtain ⟨A, h, -⟩ := hA ![1, 1] (hs _)
    exact ⟨A, h⟩
  · intro A h
    rw [jacobian_affine (by simp) hf h]
    norm_num [Matrix.det_fin_two]
  · obtain ⟨e', he', hsol⟩ := C36_C38_exact (α := XNum ℝ) (n := 2) (by omega) !![2, 1; 1, -1]
    have h0 : 0 < min e (min e' 1) := lt_min he (lt_min he' one_pos)
    refine ⟨min e (min e' 1), h0, min_le_left _ _, fun N => ?_⟩
    let cfg : Config (XNum ℝ) := ⟨true, .fin (min e (min e' 1)), N, .newtonRaphson, .fin 1, false⟩
    obtain ⟨J, hJ⟩ := jacobian_returns (by omega) cfg lines [['x'], ['y']] (by decide) 0 (hs 0)
    obtain ⟨t, ht⟩ := exists_holds (vars := [['x'], ['y']]) (by simp) (by simp) 0
    obtain ⟨d, h1, h2⟩ := (hsol cfg _ (-((!![2, 1; 1, -1] : Matrix (Fin 2) (Fin 2) ℝ).mulVec 0 + ![-3, 0])) h0
      ((min_le_right _ _).trans (min_le_left _ _)) rfl).1 (by norm_num [Matrix.det_fin_two])
    have hd : d = ![1, 1] := by
      have c0 := congrFun h2 0
      have c1 := congrFun h2 1
      simp [Matrix.mulVec, dotProduct, Fin.sum_univ_two] at c0 c1
      ext i; fin_cases i
      · show d 0 = 1; linarith
      · show d 1 = 1; linarith
    have e1 := ht.evalVec (by omega) cfg lines (hs 0).1 (hf 0)
    refine ⟨cfg, J, t, rfl, le_refl _, hJ, ht, ?_, ?_⟩
    · rw [satisfies_iff (by omega)]
      rintro ⟨phi, k1, k2⟩
      rw [e1, Res.ok.injEq] at k1
      subst k1
      rw [show cfg.epsilon = .fin (min e (min e' 1)) from rfl, eqNum_real _ _ h0, pi_norm_lt_iff h0] at k2
      have := (k2 0).trans_le ((min_le_right _ _).trans (min_le_right _ _))
      norm_num at this
    · obtain ⟨E, rfl, hE, hA⟩ := jacobian_real (by omega) cfg lines [['x'], ['y']] (by decide) J hJ
      obtain ⟨A', hA1, hA2⟩ := hA 0 (hs 0)
      rw [jacobian_affine ht.nodup hf hA1] at hA2
      have e2 := ht.evalMat (by omega) (by simp) cfg E (fun i j x hx => (hs 0).1 i x (hE i j x hx)) hA2
      rw [← hd]
      exact ⟨_, _, e1, e2, by rw [neg_ofVec]; exact h1⟩

/-- the same in rational arithmetic, epsilon = 1/10, from 2.1: the solver returns a point near -2 -/
example : (match solveByNewtonRaphson { defaultConfig with epsilon := .fin (1 / 10) }
      (symOf (r := 1) (c := 1) fun _ _ => .bin .sub (.bin .mul (.var ['x']) (.var ['x'])) (.num (.fin 4))) (oneVar (21 / 10)) with
    | .ok t => (t.values.data.all fun x => Arith.lt x (.fin (-2)) && Arith.lt (.fin (-21 / 10)) x)
    | _ => false) = true := by
  decide +kernel

end Tom
