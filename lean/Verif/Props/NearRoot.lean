import Verif.Spec.NearRoot
import Verif.Props.Quadratic
import Verif.Props.IeeeSolve
import Mathlib.Analysis.Calculus.InverseFunctionTheorem.ApproximatesLinearOn
/-
C104: a point returned by `Solve` is close to an actual root when the Jacobian around it is well conditioned.
-/
set_option linter.unusedSectionVars false
namespace Tom
open Filter Topology

/-- the values of the system as a function on all points (0 where an equation has no value) -/
noncomputable def sysFun (vars : List Str) {r : ℕ} (f : Matrix (Fin r) (Fin 1) (Expr (XNum ℝ))) (w : Fin vars.length → ℝ) (i : Fin r) : ℝ :=
  (realVal (assign vars w) (f i 0)).getD 0

theorem sysFun_local {vars : List Str} (hnd : vars.Nodup) {r : ℕ} {f : Matrix (Fin r) (Fin 1) (Expr (XNum ℝ))} {w : Fin vars.length → ℝ}
    (hs : ∀ i, Smooth 1 (assign vars w) (f i 0)) : DifferentiableAt ℝ (sysFun vars f) w ∧ IsValue f vars w (sysFun vars f w) ∧
      ∃ A', IsJacobian f vars w A' ∧ ∀ x, fderiv ℝ (sysFun vars f) w x = A'.mulVec x := by
  choose g g1 g2 using fun i => smooth_local vars w (f i 0) (hs i)
  have hev : ∀ᶠ v in 𝓝 w, IsValue f vars v (fun i => g i v) := by
    filter_upwards [eventually_all.mpr g2] with v hv
    exact fun i => (hv i).1
  have heq : sysFun vars f =ᶠ[𝓝 w] fun v i => g i v := by
    filter_upwards [hev] with v hv
    funext i
    simp only [sysFun, hv i, Option.getD_some]
  have hG : ContDiffAt ℝ 2 (fun v i => g i v) w := contDiffAt_pi.mpr g1
  have hd : DifferentiableAt ℝ (sysFun vars f) w := (hG.differentiableAt (by norm_num)).congr_of_eventuallyEq heq
  have hv : IsValue f vars w (sysFun vars f w) := by
    have := hev.self_of_nhds
    have h2 : sysFun vars f w = fun i => g i w := heq.self_of_nhds
    rwa [← h2] at this
  refine ⟨hd, hv, fun i j => fderiv ℝ (sysFun vars f) w (Pi.single j 1) i, ?_, ?_⟩
  · intro i j
    refine ⟨fun s => sysFun vars f (Function.update w j s) i, ?_, ?_⟩
    · rw [assign_self hnd]
      have hc : Tendsto (Function.update w j) (𝓝 (w j)) (𝓝 w) := by
        have := (hasDerivAt_update w j (w j)).continuousAt
        unfold ContinuousAt at this
        rwa [Function.update_eq_self] at this
      filter_upwards [hc.eventually hev, hc.eventually heq] with s h1 h2
      rw [at_assign hnd, h1 i, h2]
    · rw [assign_self hnd]
      have k1 : HasDerivAt (Function.update w j) (Pi.single j 1) (w j) := hasDerivAt_update w j (w j)
      have k2 : HasFDerivAt (sysFun vars f) (fderiv ℝ (sysFun vars f) w) (Function.update w j (w j)) := by
        rw [Function.update_eq_self]; exact hd.hasFDerivAt
      exact (hasDerivAt_pi.mp (k2.comp_hasDerivAt (w j) k1)) i
  · intro x
    funext i
    have hx : x = ∑ j, x j • Pi.single j (1 : ℝ) := by
      funext k
      simp [Finset.sum_apply, Pi.single_apply]
    conv_lhs => rw [hx, map_sum, Finset.sum_apply]
    simp only [map_smul, Pi.smul_apply, smul_eq_mul, Matrix.mulVec, dotProduct]
    exact Finset.sum_congr rfl fun j _ => mul_comm _ _

/-- a small residual at a well-conditioned point: exactly one root nearby -/
theorem root_near {vars : List Str} (hnd : vars.Nodup) {f : Matrix (Fin vars.length) (Fin 1) (Expr (XNum ℝ))} {u F : Fin vars.length → ℝ}
    {M r eps : ℝ} (hw : WellConditioned vars f u M r) (heps : 0 ≤ eps) (hr : 2 * M * eps ≤ r) (hF : IsValue f vars u F) (hFe : ‖F‖ ≤ eps) :
    OneRootNear vars f u r (2 * M * eps) := by
  obtain ⟨hM, -, hs, A, hA, hMA, c, hc, hch⟩ := hw
  have hr0 : 0 ≤ r := le_trans (by positivity) hr
  have hun : ‖u - u‖ ≤ r := by rw [sub_self, norm_zero]; exact hr0
  by_cases hn : vars.length = 0
  · have he : IsEmpty (Fin vars.length) := by rw [hn]; exact Fin.isEmpty
    exact ⟨u, by rw [sub_self, norm_zero]; positivity, fun i => he.elim i, fun z' _ _ => funext fun i => he.elim i⟩
  have hn' : (0 : ℝ) < vars.length := by exact_mod_cast Nat.pos_of_ne_zero hn
  have hc0 : 0 ≤ c := (abs_nonneg _).trans (hch u hun A hA ⟨0, Nat.pos_of_ne_zero hn⟩ ⟨0, Nat.pos_of_ne_zero hn⟩)
  have hval : ∀ {z : Fin vars.length → ℝ}, ‖z - u‖ ≤ r → ∀ V, IsValue f vars z V → sysFun vars f z = V := by
    intro z hz V hV
    funext i
    simp only [sysFun, hV i, Option.getD_some]
  let T : (Fin vars.length → ℝ) →L[ℝ] (Fin vars.length → ℝ) := LinearMap.toContinuousLinearMap (Matrix.mulVecLin A)
  have hT : ∀ x, T x = A.mulVec x := fun x => rfl
  have happ : ∀ x, ‖x - u‖ ≤ r → ∀ y, ‖y - u‖ ≤ r → ‖sysFun vars f x - sysFun vars f y - T (x - y)‖ ≤ vars.length * c * ‖x - y‖ := by
    intro x hx y hy
    refine (convex_closedBall u r).norm_image_sub_le_of_norm_hasFDerivWithin_le' (f := sysFun vars f) (f' := fderiv ℝ (sysFun vars f)) (φ := T)
      (C := vars.length * c) (fun w hw => (sysFun_local hnd (hs w (by rw [Metric.mem_closedBall, dist_eq_norm] at hw; exact hw))).1.hasFDerivAt.hasFDerivWithinAt)
      (fun w hw => ?_) ?_ ?_
    · rw [Metric.mem_closedBall, dist_eq_norm] at hw
      obtain ⟨_, _, A', hA', hl⟩ := sysFun_local hnd (hs w hw)
      refine ContinuousLinearMap.opNorm_le_bound _ (by positivity) fun x => ?_
      have e1 : (fderiv ℝ (sysFun vars f) w - T) x = (A' - A).mulVec x := by
        show fderiv ℝ (sysFun vars f) w x - T x = _
        rw [hl, hT, Matrix.sub_mulVec]
      rw [e1]
      exact mulVec_norm_le hc0 (fun i j => hch w hw A' hA' i j) x
    · rw [Metric.mem_closedBall, dist_eq_norm]; exact hy
    · rw [Metric.mem_closedBall, dist_eq_norm]; exact hx
  have hdet : A.det ≠ 0 := by
    intro h
    obtain ⟨x, hx, h1⟩ := Matrix.exists_mulVec_eq_zero_iff.mpr h
    have h2 := hMA x
    rw [h1, norm_zero, mul_zero] at h2
    exact hx (norm_le_zero_iff.mp h2)
  have hinv : ∀ y, A.mulVec (A⁻¹.mulVec y) = y := fun y => by
    rw [Matrix.mulVec_mulVec, Matrix.mul_nonsing_inv _ (Ne.isUnit hdet), Matrix.one_mulVec]
  let S : T.NonlinearRightInverse :=
    { toFun := fun y => A⁻¹.mulVec y
      nnnorm := ⟨M, hM.le⟩
      bound' := fun y => by
        have := hMA (A⁻¹.mulVec y)
        rw [hinv] at this
        exact this
      right_inv' := fun y => hinv y }
  have hsub : ∀ x ∈ Metric.closedBall u (2 * M * eps), ‖x - u‖ ≤ r := fun x hx => by
    rw [Metric.mem_closedBall, dist_eq_norm] at hx
    exact hx.trans hr
  have hlin : ApproximatesLinearOn (sysFun vars f) T (Metric.closedBall u (2 * M * eps)) ⟨vars.length * c, by positivity⟩ :=
    fun x hx y hy => happ x (hsub x hx) y (hsub y hy)
  have hsurj := hlin.surjOn_closedBall_of_nonlinearRightInverse S (by positivity) (subset_refl (Metric.closedBall u (2 * M * eps)))
  have hFu := hval hun F hF
  have h0 : (0 : Fin vars.length → ℝ) ∈ Metric.closedBall (sysFun vars f u) ((((S.nnnorm : NNReal) : ℝ)⁻¹ - ((⟨vars.length * c, by positivity⟩ : NNReal) : ℝ)) * (2 * M * eps)) := by
    rw [Metric.mem_closedBall, dist_eq_norm, zero_sub, norm_neg, hFu]
    refine hFe.trans ?_
    show eps ≤ (M⁻¹ - vars.length * c) * (2 * M * eps)
    have e1 : (M⁻¹ - vars.length * c) * (2 * M * eps) = (2 - 2 * (M * (vars.length * c))) * eps := by field_simp
    rw [e1]
    nlinarith
  obtain ⟨z, hz, hz0⟩ := hsurj h0
  have hzr := hsub z hz
  refine ⟨z, by rw [Metric.mem_closedBall, dist_eq_norm] at hz; exact hz, ?_, ?_⟩
  · have := (sysFun_local hnd (hs z hzr)).2.1
    rwa [hz0] at this
  · intro z' hz' hv'
    have h1 := happ z' hz' z hzr
    rw [hval hz' 0 hv', hz0, sub_zero, zero_sub, norm_neg, hT] at h1
    have h2 := hMA (z' - z)
    have h3 := mul_le_mul_of_nonneg_left h1 hM.le
    have h4 : M * (vars.length * c * ‖z' - z‖) = M * (vars.length * c) * ‖z' - z‖ := by ring
    rw [h4] at h3
    have h5 := mul_le_mul_of_nonneg_right hc (norm_nonneg (z' - z))
    have h6 := norm_nonneg (z' - z)
    have h7 : ‖z' - z‖ = 0 := by linarith
    exact sub_eq_zero.mp (norm_eq_zero.mp h7)

theorem getElem_of_mem {vars : List Str} {x : Str} (h : x ∈ vars) (hn : vars.Nodup) (v : Str → ℝ) :
    v x = assign vars (fun j => v vars[j]) x := by
  obtain ⟨j, hj, rfl⟩ := List.getElem_of_mem h
  exact (assign_self hn (fun j => v vars[j]) ⟨j, hj⟩).symm

/-- **C104** over the real numbers: if `Solve` (either method) returns, and the equations are well conditioned around the point it returns, then
there is exactly one actual root around that point, and the point is within `2 M epsilon` of it. -/
theorem C104_real {vars : List Str} (cfg : Config (XNum ℝ)) (eps : ℝ) (h0 : 0 < eps) (hε : cfg.epsilon = .fin eps) (lsFuel fuel : ℕ)
    (f : Matrix (Fin vars.length) (Fin 1) (Expr (XNum ℝ))) {t t' : VarsTable (XNum ℝ)} (ht : t.Reachable) (hv : t.vars = vars)
    (h : solve cfg lsFuel fuel (symOf f) t = .ok t') {M r : ℝ} (hw : WellConditioned vars f (fun j => pointOf t' vars[j]) M r)
    (hr : 2 * M * eps ≤ r) : OneRootNear vars f (fun j => pointOf t' vars[j]) r (2 * M * eps) := by
  have hnd : vars.Nodup := hv ▸ ht.good.nodup
  choose v h1 h2 using C42_real cfg eps hε lsFuel fuel f ht h
  refine root_near hnd hw h0.le hr (F := v) (fun i => ?_) ((pi_norm_le_iff_of_nonneg h0.le).mpr fun i => (h2 i).le)
  rw [← h1 i]
  exact realVal_congr _ _ _ fun x hx => (getElem_of_mem (hw.2.1 i x hx) hnd (pointOf t')).symm

namespace Double
variable {L : Libm}

/-- **C104** for IEEE doubles: the point returned by `Solve` (as real numbers) is within `2 M (epsilon + E)` of the only actual root of the
equations (with their literals read as real numbers) around it, where `E` bounds the rounding errors of evaluating the equations there. -/
theorem C104_double {vars : List Str} (δ : ℝ) (hL : L.Within δ) (cfg : Config (Double L)) (ε : ℚ) (hε : cfg.epsilon.Is ε) (h0 : 0 < ε)
    (lsFuel fuel : ℕ) (f : Matrix (Fin vars.length) (Fin 1) (Expr (Double L))) {t t' : VarsTable (Double L)} (ht : t.Reachable)
    (hv : t.vars = vars) (h : solve cfg lsFuel fuel (symOf f) t = .ok t') (hfin : ∀ i, FiniteIn t' (f i 0)) {E : ℝ} (hE0 : 0 ≤ E)
    (hE : ∀ i, ∃ v e, enclosure δ (fun s => (ratPoint t' s : ℝ)) (f i 0) = some (v, e) ∧ e ≤ E) {M r : ℝ}
    (hw : WellConditioned vars (fun i j => (f i j).mapNum Double.toReal) (fun j => (ratPoint t' vars[j] : ℝ)) M r)
    (hr : 2 * M * (ε + E) ≤ r) :
    OneRootNear vars (fun i j => (f i j).mapNum Double.toReal) (fun j => (ratPoint t' vars[j] : ℝ)) r (2 * M * (ε + E)) := by
  have hnd : vars.Nodup := hv ▸ ht.good.nodup
  have h0' : (0 : ℝ) ≤ ε + E := by
    have : (0 : ℝ) < ε := by exact_mod_cast h0
    linarith
  choose v e h1 h2 using hE
  have h3 := fun i => C78_residual δ hL cfg ε hε lsFuel fuel f ht h i (hfin i) (v i) (e i) (h1 i)
  refine root_near hnd hw h0' hr (F := v) (fun i => ?_)
    ((pi_norm_le_iff_of_nonneg h0').mpr fun i => ((h3 i).2.le.trans (by linarith [h2 i])))
  rw [← (h3 i).1]
  exact realVal_congr _ _ _ fun x hx => (getElem_of_mem (hw.2.1 i x hx) hnd fun s => (ratPoint t' s : ℝ)).symm

/-- a polynomial with finite literals, as a function of real numbers -/
theorem polyVal_real (e : Expr (Double L)) (hp : e.Polynomial) (ρ' : Str → ℝ) (hs : Smooth 1 ρ' (e.mapNum Double.toReal)) (ρ : Str → ℚ) :
    realVal (fun s => (ρ s : ℝ)) (e.mapNum Double.toReal) = some ((polyVal ρ e : ℚ) : ℝ) := by
  induction e with
  | num x =>
    obtain ⟨u, hu⟩ := hs
    simp only [Double.toReal] at hu
    split at hu
    · cases hu
    · rename_i h
      simp [Expr.mapNum, realVal, Double.toReal, h, XNum.val?, polyVal]
  | var s => rfl
  | un o e ih =>
    rcases hp with ⟨rfl | rfl, hp⟩
    · simp [Expr.mapNum, realVal, ih hp hs.1, UnOp.real, polyVal]
    · simp [Expr.mapNum, realVal, ih hp hs.1, UnOp.real, polyVal]
  | bin o a b iha ihb =>
    obtain ⟨ho, hpa, hpb⟩ := hp
    rcases ho with rfl | rfl | rfl
    · simp [Expr.mapNum, realVal, iha hpa hs.1, ihb hpb hs.2, BinOp.real, polyVal]
    · simp [Expr.mapNum, realVal, iha hpa hs.1, ihb hpb hs.2, BinOp.real, polyVal]
    · simp [Expr.mapNum, realVal, iha hpa hs.1, ihb hpb hs.2, BinOp.real, polyVal]

/-- **C104** for polynomial equations in doubles, for any libm: `E` bounds `((1 + 2^-53)^k - 1) A` for each equation, where `k` is the number of its
operations and `A` its value with all terms taken absolutely. -/
theorem C104_polynomial {vars : List Str} (cfg : Config (Double L)) (ε : ℚ) (hε : cfg.epsilon.Is ε) (h0 : 0 < ε)
    (lsFuel fuel : ℕ) (f : Matrix (Fin vars.length) (Fin 1) (Expr (Double L))) {t t' : VarsTable (Double L)} (ht : t.Reachable)
    (hv : t.vars = vars) (h : solve cfg lsFuel fuel (symOf f) t = .ok t') (hp : ∀ i, (f i 0).Polynomial) {E : ℚ} (hE0 : 0 ≤ E)
    (hE : ∀ i, ((1 + 1 / 2 ^ 53) ^ (f i 0).ops - 1) * absVal (ratPoint t') (f i 0) ≤ E) {M r : ℝ}
    (hw : WellConditioned vars (fun i j => (f i j).mapNum Double.toReal) (fun j => (ratPoint t' vars[j] : ℝ)) M r)
    (hr : 2 * M * (ε + E) ≤ r) :
    OneRootNear vars (fun i j => (f i j).mapNum Double.toReal) (fun j => (ratPoint t' vars[j] : ℝ)) r (2 * M * (ε + E)) := by
  have hnd : vars.Nodup := hv ▸ ht.good.nodup
  have h0' : (0 : ℝ) ≤ ε + E := by
    have : (0 : ℝ) ≤ ((ε + E : ℚ) : ℝ) := by exact_mod_cast (by linarith)
    push_cast at this
    exact this
  have hr0 : 0 ≤ r := le_trans (mul_nonneg (mul_nonneg (by norm_num) hw.1.le) h0') hr
  refine root_near hnd hw h0' hr (F := fun i => ((polyVal (ratPoint t') (f i 0) : ℚ) : ℝ)) (fun i => ?_)
    ((pi_norm_le_iff_of_nonneg h0').mpr fun i => ?_)
  · rw [← polyVal_real (f i 0) (hp i) _ (hw.2.2.1 _ (by rw [sub_self, norm_zero]; exact hr0) i) (ratPoint t')]
    exact realVal_congr _ _ _ fun x hx => (getElem_of_mem (hw.2.1 i x hx) hnd fun s => (ratPoint t' s : ℝ)).symm
  · have h2 := (C78_polynomial cfg ε hε lsFuel fuel f ht h i (hp i)).2
    have h3 : ((|polyVal (ratPoint t') (f i 0)| : ℚ) : ℝ) ≤ ((ε + E : ℚ) : ℝ) := by
      exact_mod_cast (h2.le.trans (by linarith [hE i]))
    push_cast at h3
    exact h3

end Double

/-! ### examples -/

/-- `x * x - c = 0` -/
noncomputable def squareEq (c : ℝ) : Matrix (Fin 1) (Fin 1) (Expr (XNum ℝ)) := fun _ _ =>
  .bin .sub (.bin .mul (.var ['x']) (.var ['x'])) (.num (.fin c))

theorem squareEq_val (c : ℝ) (ρ : Str → ℝ) (i j : Fin 1) : realVal ρ (squareEq c i j) = some (ρ ['x'] * ρ ['x'] - c) := by
  simp [squareEq, realVal, BinOp.real, XNum.val?]

theorem squareEq_jacobian (c : ℝ) (u : Fin 1 → ℝ) (A : Matrix (Fin 1) (Fin 1) ℝ) : IsJacobian (squareEq c) [['x']] u A ↔ A = !![2 * u 0] := by
  have hd : HasDerivAt (fun s : ℝ => s * s - c) (2 * u 0) (u 0) := by
    have := ((hasDerivAt_id (u 0)).mul (hasDerivAt_id (u 0))).sub_const c
    simpa [two_mul] using this
  have hx : assign [['x']] u ['x'] = u 0 := rfl
  have hv : ∀ s, realVal (at_ (assign [['x']] u) ['x'] s) (squareEq c 0 0) = some (s * s - c) := by
    intro s
    rw [squareEq_val]
    simp [at_]
  constructor
  · intro h
    ext i j
    rw [Fin.fin_one_eq_zero i, Fin.fin_one_eq_zero j]
    obtain ⟨g, h1, h2⟩ := h 0 0
    have h3 : g =ᶠ[𝓝 (u 0)] fun s => s * s - c := by
      filter_upwards [h1] with s hs
      have := (hv s).symm.trans hs
      simpa using this.symm
    exact h2.unique (hd.congr_of_eventuallyEq h3)
  · rintro rfl i j
    rw [Fin.fin_one_eq_zero i, Fin.fin_one_eq_zero j]
    exact ⟨_, .of_forall hv, hd⟩

/-- `x * x = c` is well conditioned around every point `≥ 1`, with `M = 1/2` and `r = 1/2` -/
theorem squareEq_conditioned (c : ℝ) (u : Fin 1 → ℝ) (hu : 1 ≤ u 0) : WellConditioned [['x']] (squareEq c) u (1 / 2) (1 / 2) := by
  refine ⟨by norm_num, fun i => by simp [squareEq, Expr.vars], fun w _ i => by simp [squareEq, Smooth], !![2 * u 0],
    (squareEq_jacobian c u _).mpr rfl, fun x => ?_, 1, by simp, ?_⟩
  · refine (pi_norm_le_iff_of_nonneg (by positivity)).mpr fun i => ?_
    rw [Fin.fin_one_eq_zero i]
    have h1 := norm_le_pi_norm ((!![2 * u 0] : Matrix (Fin 1) (Fin 1) ℝ).mulVec x) 0
    have h2 : (!![2 * u 0] : Matrix (Fin 1) (Fin 1) ℝ).mulVec x 0 = 2 * u 0 * x 0 := by simp [Matrix.mulVec, dotProduct]
    rw [h2, Real.norm_eq_abs, abs_mul, abs_of_nonneg (by linarith : (0 : ℝ) ≤ 2 * u 0)] at h1
    show |x 0| ≤ _
    nlinarith [abs_nonneg (x 0)]
  · intro w hw A' hA' i j
    rw [(squareEq_jacobian c w A').mp hA', Fin.fin_one_eq_zero i, Fin.fin_one_eq_zero j]
    have h1 := (norm_le_pi_norm (w - u) 0).trans hw
    rw [Real.norm_eq_abs, Pi.sub_apply] at h1
    have h2 : (!![2 * w 0] : Matrix (Fin 1) (Fin 1) ℝ) 0 0 - (!![2 * u 0] : Matrix (Fin 1) (Fin 1) ℝ) 0 0 = 2 * (w 0 - u 0) := by
      simp; ring
    rw [h2, abs_mul, abs_of_pos (by norm_num : (0 : ℝ) < 2)]
    linarith

namespace Double

theorem sqrtTwo_real : (fun i j => (sqrtTwo i j).mapNum Double.toReal) = squareEq 2 := by
  have h2 : (Dbl.ofInt 2 : Double libm0).raw.toRat = 2 := by decide +kernel
  have h1 : Dbl.isInvalid (Dbl.ofInt 2 : Double libm0) = false := by decide +kernel
  have h3 : Double.toReal (Dbl.ofInt 2 : Double libm0) = .fin 2 := by
    simp [Double.toReal, h1, h2]
  funext i j
  simp [sqrtTwo, squareEq, Expr.mapNum, h3]

/-- C104 applied to `x^2 = 2` in doubles, default configuration, from `x = 1`: the number returned (1.41421356237735...) is within `1.2 * 10^-9` of a
root, and no other root is within 1/2 of it -/
example : OneRootNear [['x']] (squareEq 2) (fun _ => (ratPoint (var root) ['x'] : ℝ)) (1 / 2) (12 / 10000000000) := by
  have hp : ∀ i : Fin 1, (sqrtTwo i 0).Polynomial := fun i => by simp [sqrtTwo, Expr.Polynomial]
  have hε : config.epsilon.Is config.epsilon.raw.toRat := ⟨by decide +kernel, rfl⟩
  have hr : (1 : ℝ) ≤ (ratPoint (var root) ['x'] : ℝ) := by
    have : (1 : ℚ) ≤ ratPoint (var root) ['x'] := by decide +kernel
    exact_mod_cast this
  have hw := squareEq_conditioned 2 (fun _ => (ratPoint (var root) ['x'] : ℝ)) hr
  have he : config.epsilon.raw.toRat + 1 / 10000000000 ≤ 12 / 10000000000 := by decide +kernel
  have he' : ((config.epsilon.raw.toRat : ℚ) : ℝ) + ((1 / 10000000000 : ℚ) : ℝ) ≤ 12 / 10000000000 := by
    have : ((config.epsilon.raw.toRat + 1 / 10000000000 : ℚ) : ℝ) ≤ ((12 / 10000000000 : ℚ) : ℝ) := Rat.cast_le.mpr he
    rw [Rat.cast_add] at this
    refine this.trans (le_of_eq ?_)
    norm_num
  have hu : (fun j : Fin [['x']].length => (ratPoint (var root) [['x']][j] : ℝ)) = fun _ => (ratPoint (var root) ['x'] : ℝ) := by
    funext j
    match j with
    | ⟨0, _⟩ => rfl
  have hf : (fun (i : Fin [['x']].length) (j : Fin 1) => ((sqrtTwo : Matrix (Fin [['x']].length) (Fin 1) (Expr (Double libm0))) i j).mapNum Double.toReal)
      = squareEq 2 := sqrtTwo_real
  have hE : ∀ i : Fin [['x']].length, ((1 + 1 / 2 ^ 53) ^ (sqrtTwo i 0).ops - 1) * absVal (ratPoint (var root)) (sqrtTwo i 0) ≤ 1 / 10000000000 := by
    intro i
    have : absVal (ratPoint (var root)) (sqrtTwo i 0) ≤ 5 := by
      have h2 : (Dbl.ofInt 2 : Double libm0).raw.toRat = 2 := by decide +kernel
      have hx : |ratPoint (var root) ['x']| * |ratPoint (var root) ['x']| ≤ 5 / 2 := by decide +kernel
      simp only [sqrtTwo, absVal, h2]
      have : (1 : ℚ) / 2 ^ 1022 ≤ 1 / 2 ^ 1 := one_div_pow_le_one_div_pow_of_le (by norm_num) (by norm_num)
      have h3 : |(2 : ℚ)| = 2 := by norm_num
      rw [h3]
      rw [pow_one] at this
      linarith
    have h4 : (sqrtTwo i 0).ops = 2 := rfl
    rw [h4]
    have h5 : ((1 + 1 / 2 ^ 53) ^ 2 - 1 : ℚ) ≤ 1 / 100000000000 := by norm_num
    have h6 : (0 : ℚ) ≤ (1 + 1 / 2 ^ 53) ^ 2 - 1 := by norm_num
    nlinarith
  have key := C104_polynomial (vars := [['x']]) config _ hε (by decide +kernel) 100 200 sqrtTwo (.ofList (l := [(['x'], Dbl.ofInt 1)]) rfl) rfl
    sqrtTwo_solved hp (E := 1 / 10000000000) (by norm_num) hE (M := 1 / 2) (r := 1 / 2)
    (by rw [hu]; exact hf ▸ hw) (by linarith)
  rw [hu] at key
  obtain ⟨z, h1, h2, h3⟩ := (hf ▸ key : OneRootNear [['x']] (squareEq 2) _ _ _)
  exact ⟨z, h1.trans (by linarith), h2, h3⟩

/-- `x * x + 1e-10 = 0` -/
def noRealRoot : Matrix (Fin 1) (Fin 1) (Expr (Double libm0)) :=
  fun _ _ => .bin .add (.bin .mul (.var ['x']) (.var ['x'])) (.num (lit 1 (-10)))

/-- Without the condition there need not be a root at all: `x^2 + 1e-10 = 0` has none, but with the default configuration `Solve` returns
`x = 0` for it. -/
theorem C104_no_root : solve config 100 200 (symOf noRealRoot) (var (Dbl.ofInt 0)) = .ok (var (Dbl.ofInt 0)) ∧
    ∀ ρ : Str → ℝ, ∃ v, realVal ρ ((noRealRoot 0 0).mapNum Double.toReal) = some v ∧ 0 < v := by
  refine ⟨by decide +kernel, fun ρ => ?_⟩
  have h1 : Dbl.isInvalid (lit 1 (-10) : Double libm0) = false := by decide +kernel
  have h2 : 0 < (lit 1 (-10) : Double libm0).raw.toRat := by decide +kernel
  have h2' : (0 : ℝ) < ((lit 1 (-10) : Double libm0).raw.toRat : ℝ) := by exact_mod_cast h2
  refine ⟨ρ ['x'] * ρ ['x'] + ((lit 1 (-10) : Double libm0).raw.toRat : ℝ), ?_, by nlinarith [mul_self_nonneg (ρ ['x'])]⟩
  have h3 : Double.toReal (lit 1 (-10) : Double libm0) = .fin ((lit 1 (-10) : Double libm0).raw.toRat : ℝ) := by
    simp only [Double.toReal, h1]; rfl
  simp only [noRealRoot, Expr.mapNum, realVal, h3, BinOp.real, XNum.val?, Option.bind_some]

end Double
end Tom
