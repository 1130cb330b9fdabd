import Verif.Props.RealSolve
import Mathlib.Analysis.Calculus.ContDiff.RCLike
import Mathlib.Analysis.Calculus.Deriv.Pi
/-
A smooth expression denotes, near the point, a twice continuously differentiable function of all variables.
-/
set_option linter.unusedSectionVars false
namespace Tom
open Filter Topology

theorem un_contDiff (o : UnOp) (u : ℝ) (h : o.smoothAt 1 u) :
    ∃ g : ℝ → ℝ, (∀ᶠ s in 𝓝 u, o.real s = some (g s)) ∧ ContDiffAt ℝ 2 g u := by
  cases o with
  | pos => exact ⟨id, .of_forall fun s => rfl, contDiffAt_id⟩
  | neg => exact ⟨fun s => -s, .of_forall fun s => rfl, contDiffAt_id.neg⟩
  | sin => exact ⟨_, .of_forall fun s => rfl, Real.contDiff_sin.contDiffAt⟩
  | cos => exact ⟨_, .of_forall fun s => rfl, Real.contDiff_cos.contDiffAt⟩
  | tan =>
    refine ⟨Real.tan, ?_, Real.contDiffAt_tan.mpr h⟩
    have : ∀ᶠ s in 𝓝 u, Real.cos s ≠ 0 := Real.continuous_cos.continuousAt.eventually_ne h
    filter_upwards [this] with s hs
    simp [UnOp.real, hs]
  | asin =>
    refine ⟨Real.arcsin, ?_, Real.contDiffAt_arcsin h.1.ne' h.2.1.ne⟩
    filter_upwards [Ioo_mem_nhds h.1 h.2.1] with s hs
    simp [UnOp.real, hs.1.le, hs.2.le]
  | acos =>
    refine ⟨Real.arccos, ?_, Real.contDiffAt_arccos h.1.ne' h.2.1.ne⟩
    filter_upwards [Ioo_mem_nhds h.1 h.2.1] with s hs
    simp [UnOp.real, hs.1.le, hs.2.le]
  | atan => exact ⟨_, .of_forall fun s => rfl, Real.contDiff_arctan.contDiffAt⟩
  | sqrt =>
    refine ⟨Real.sqrt, ?_, Real.contDiffAt_sqrt (ne_of_gt h)⟩
    filter_upwards [lt_mem_nhds (show (0:ℝ) < u from h)] with s hs
    simp [UnOp.real, hs.le]
  | log =>
    refine ⟨Real.log, ?_, Real.contDiffAt_log.mpr (ne_of_gt h)⟩
    filter_upwards [lt_mem_nhds (show (0:ℝ) < u from h)] with s hs
    simp [UnOp.real, hs]
  | log2 =>
    refine ⟨Real.logb 2, ?_, (Real.contDiffAt_log.mpr (ne_of_gt h)).div_const _⟩
    filter_upwards [lt_mem_nhds (show (0:ℝ) < u from h)] with s hs
    simp [UnOp.real, hs]
  | log10 =>
    refine ⟨Real.logb 10, ?_, (Real.contDiffAt_log.mpr (ne_of_gt h)).div_const _⟩
    filter_upwards [lt_mem_nhds (show (0:ℝ) < u from h)] with s hs
    simp [UnOp.real, hs]
  | exp => exact ⟨_, .of_forall fun s => rfl, Real.contDiff_exp.contDiffAt⟩

theorem assign_contDiff (vars : List Str) (x : Str) : ContDiff ℝ 2 fun u => assign vars u x := by
  unfold assign
  split
  · exact contDiff_apply ℝ ℝ _
  · exact contDiff_const

/-- Near a point where an expression is smooth, it is smooth and denotes a twice continuously differentiable function. -/
theorem smooth_local (vars : List Str) (z : Fin vars.length → ℝ) (e : Expr (XNum ℝ)) (hs : Smooth 1 (assign vars z) e) :
    ∃ g : (Fin vars.length → ℝ) → ℝ, ContDiffAt ℝ 2 g z ∧
      ∀ᶠ u in 𝓝 z, realVal (assign vars u) e = some (g u) ∧ Smooth 1 (assign vars u) e := by
  induction e with
  | num v =>
    obtain ⟨k, rfl⟩ := hs
    exact ⟨fun _ => k, contDiffAt_const, .of_forall fun u => ⟨rfl, k, rfl⟩⟩
  | var x => exact ⟨_, (assign_contDiff vars x).contDiffAt, .of_forall fun u => ⟨rfl, trivial⟩⟩
  | un o e ih =>
    obtain ⟨h1, u, hu, h2⟩ := hs
    obtain ⟨g, hg, hev⟩ := ih h1
    have hz : g z = u := by have := hev.self_of_nhds.1; rw [hu] at this; simpa using this.symm
    rcases h2 with h2 | ⟨h2, r, h3⟩
    · obtain ⟨k, k1, k2⟩ := un_contDiff o u h2
      rw [← hz] at k1 k2 h2
      refine ⟨k ∘ g, k2.comp z hg, ?_⟩
      filter_upwards [hev, hg.continuousAt.eventually k1, hg.continuousAt.eventually (smoothAt_eventually 1 o _ h2)] with w w1 w2 w3
      exact ⟨by simp [realVal, w1.1, w2], w1.2, g w, w1.1, .inl w3⟩
    · refine ⟨fun _ => r, contDiffAt_const, ?_⟩
      filter_upwards [hev] with w w1
      have hw := isNum_val h2 (assign vars w) (assign vars z)
      exact ⟨by simp [realVal, hw, hu, h3], w1.2, u, by rw [hw, hu], .inr ⟨h2, r, h3⟩⟩
  | bin o a b iha ihb =>
    cases o with
    | add =>
      obtain ⟨f, f1, f2⟩ := iha hs.1
      obtain ⟨g, g1, g2⟩ := ihb hs.2
      refine ⟨fun w => f w + g w, f1.add g1, ?_⟩
      filter_upwards [f2, g2] with w w1 w2
      exact ⟨by simp [realVal, w1.1, w2.1, BinOp.real], w1.2, w2.2⟩
    | sub =>
      obtain ⟨f, f1, f2⟩ := iha hs.1
      obtain ⟨g, g1, g2⟩ := ihb hs.2
      refine ⟨fun w => f w - g w, f1.sub g1, ?_⟩
      filter_upwards [f2, g2] with w w1 w2
      exact ⟨by simp [realVal, w1.1, w2.1, BinOp.real], w1.2, w2.2⟩
    | mul =>
      obtain ⟨f, f1, f2⟩ := iha hs.1
      obtain ⟨g, g1, g2⟩ := ihb hs.2
      refine ⟨fun w => f w * g w, f1.mul g1, ?_⟩
      filter_upwards [f2, g2] with w w1 w2
      exact ⟨by simp [realVal, w1.1, w2.1, BinOp.real], w1.2, w2.2⟩
    | div =>
      obtain ⟨f, f1, f2⟩ := iha hs.1
      obtain ⟨g, g1, g2⟩ := ihb hs.2.1
      obtain ⟨w, hw, hw0⟩ := hs.2.2
      have hz : g z = w := by have := g2.self_of_nhds.1; rw [hw] at this; simpa using this.symm
      rw [← hz] at hw0
      refine ⟨fun w => f w / g w, f1.div g1 hw0, ?_⟩
      filter_upwards [f2, g2, g1.continuousAt.eventually_ne hw0] with w w1 w2 w3
      exact ⟨by simp [realVal, w1.1, w2.1, BinOp.real, w3], w1.2, w2.2, g w, w2.1, w3⟩
    | pow =>
      obtain ⟨h1, h2, u, hu, h⟩ := hs
      obtain ⟨f, f1, f2⟩ := iha h1
      obtain ⟨g, g1, g2⟩ := ihb h2
      have hz : f z = u := by have := f2.self_of_nhds.1; rw [hu] at this; simpa using this.symm
      rcases h with h | ⟨c, rfl, h⟩ | ⟨ha, hb, w, r, hw, hr⟩
      · rw [← hz] at h
        refine ⟨fun w => f w ^ g w, f1.rpow g1 h.ne', ?_⟩
        filter_upwards [f2, g2, f1.continuousAt.eventually (lt_mem_nhds h)] with w w1 w2 w3
        exact ⟨by simp [realVal, w1.1, w2.1, BinOp.real, realPow, w3], w1.2, w2.2, f w, w1.1, .inl w3⟩
      · have hp : PowOk 1 (f z) c := by rw [hz]; exact .inr h
        rw [← hz] at h
        refine ⟨fun w => f w ^ c, ?_, ?_⟩
        · rcases h with ⟨h, _⟩ | ⟨k, hk, rfl⟩
          · exact f1.rpow_const_of_ne h
          · simp only [Real.rpow_natCast]
            exact f1.pow k
        · filter_upwards [f2, g2, f1.continuousAt.eventually hp.eventually] with w w1 w2 w3
          refine ⟨?_, w1.2, w2.2, f w, w1.1, w3.imp id fun h => .inl ⟨c, rfl, h⟩⟩
          simp [realVal, w1.1, XNum.val?, BinOp.real, realPow_of_ok (w3.mono (Nat.zero_le 1))]
      · refine ⟨fun _ => r, contDiffAt_const, ?_⟩
        filter_upwards [f2, g2] with v w1 w2
        have hv := isNum_val ha (assign vars v) (assign vars z)
        have hv' := isNum_val hb (assign vars v) (assign vars z)
        refine ⟨?_, w1.2, w2.2, u, by rw [hv, hu], .inr (.inr ⟨ha, hb, w, r, by rw [hv', hw], hr⟩)⟩
        simp [realVal, hv, hv', hu, hw, BinOp.real, hr]
    | and => exact hs.elim
    | or => exact hs.elim
    | mod => exact hs.elim

/-- Near a point where the system is smooth, it is smooth and denotes a twice continuously differentiable map. -/
theorem system_local2 {r : ℕ} {vars : List Str} {f : Matrix (Fin r) (Fin 1) (Expr (XNum ℝ))} {z : Fin vars.length → ℝ}
    (hs : SmoothAt f vars z) : ∃ G : (Fin vars.length → ℝ) → Fin r → ℝ, ContDiffAt ℝ 2 G z ∧
      ∀ᶠ u in 𝓝 z, IsValue f vars u (G u) ∧ SmoothAt f vars u := by
  choose g g1 g2 using fun i => smooth_local vars z (f i 0) (hs.2.2 i)
  refine ⟨fun u i => g i u, contDiffAt_pi.mpr g1, ?_⟩
  filter_upwards [eventually_all.mpr g2] with u hu
  exact ⟨fun i => (hu i).1, hs.1, hs.2.1, fun i => (hu i).2⟩

/-- Near a point where the system is smooth, it is smooth and denotes a continuously differentiable map. -/
theorem system_local {r : ℕ} {vars : List Str} {f : Matrix (Fin r) (Fin 1) (Expr (XNum ℝ))} {z : Fin vars.length → ℝ}
    (hs : SmoothAt f vars z) : ∃ G : (Fin vars.length → ℝ) → Fin r → ℝ, ContDiffAt ℝ 1 G z ∧
      ∀ᶠ u in 𝓝 z, IsValue f vars u (G u) ∧ SmoothAt f vars u :=
  (system_local2 hs).imp fun _ h => ⟨h.1.of_le (by norm_num), h.2⟩

/-- the matrix of partial derivatives is the derivative -/
theorem jacobian_fderiv {r : ℕ} {vars : List Str} (hn : vars.Nodup) {f : Matrix (Fin r) (Fin 1) (Expr (XNum ℝ))}
    {G : (Fin vars.length → ℝ) → Fin r → ℝ} {u : Fin vars.length → ℝ} (hd : DifferentiableAt ℝ G u)
    (hv : ∀ᶠ w in 𝓝 u, IsValue f vars w (G w)) {A : Matrix (Fin r) (Fin vars.length) ℝ} (hA : IsJacobian f vars u A) :
    ∀ i j, A i j = fderiv ℝ G u (Pi.single j 1) i := by
  intro i j
  obtain ⟨g, h1, h2⟩ := hA i j
  rw [assign_self hn] at h1 h2
  have hup : Function.update u j (u j) = u := Function.update_eq_self _ _
  have h3 : HasDerivAt (fun s => G (Function.update u j s) i) (fderiv ℝ G u (Pi.single j 1) i) (u j) := by
    have k1 : HasDerivAt (Function.update u j) (Pi.single j 1) (u j) := hasDerivAt_update u j (u j)
    have k2 : HasFDerivAt G (fderiv ℝ G u) (Function.update u j (u j)) := by rw [hup]; exact hd.hasFDerivAt
    exact (hasDerivAt_pi.mp (k2.comp_hasDerivAt (u j) k1)) i
  have h4 : g =ᶠ[𝓝 (u j)] fun s => G (Function.update u j s) i := by
    have hc : Tendsto (Function.update u j) (𝓝 (u j)) (𝓝 u) := by
      have := (hasDerivAt_update u j (u j)).continuousAt
      unfold ContinuousAt at this
      rwa [hup] at this
    filter_upwards [h1, hc.eventually hv] with s k1 k2
    rw [at_assign hn] at k1
    have := (k2 i).symm.trans k1
    simpa using this.symm
  exact h2.unique (h3.congr_of_eventuallyEq h4)

/-- The partial derivatives are continuous. -/
theorem jacobian_continuous {r : ℕ} {vars : List Str} (hn : vars.Nodup) {f : Matrix (Fin r) (Fin 1) (Expr (XNum ℝ))}
    {z : Fin vars.length → ℝ} {G : (Fin vars.length → ℝ) → Fin r → ℝ} (hG : ContDiffAt ℝ 1 G z)
    (hv : ∀ᶠ u in 𝓝 z, IsValue f vars u (G u)) {A : Matrix (Fin r) (Fin vars.length) ℝ} (hA : IsJacobian f vars z A) {e : ℝ} (he : 0 < e) :
    ∀ᶠ u in 𝓝 z, ∀ A', IsJacobian f vars u A' → ∀ i j, |A' i j - A i j| < e := by
  have h1 : ContinuousAt (fderiv ℝ G) z := (hG.fderiv_right (m := 0) (by norm_num)).continuousAt
  have h2 : ∀ i j, ∀ᶠ u in 𝓝 z, |fderiv ℝ G u (Pi.single j 1) i - A i j| < e := by
    intro i j
    rw [jacobian_fderiv hn (hG.differentiableAt (by norm_num)) hv hA]
    have h3 : ContinuousAt (fun u => fderiv ℝ G u (Pi.single j 1) i) z :=
      (continuous_apply i).continuousAt.comp (h1.clm_apply continuousAt_const)
    have := Metric.continuousAt_iff'.mp h3 e he
    simpa [Real.dist_eq] using this
  filter_upwards [hv.eventually_nhds, hG.eventually (by norm_num), eventually_all.mpr fun i => eventually_all.mpr (h2 i)] with u k1 k2 k3 A' hA' i j
  rw [jacobian_fderiv hn (k2.differentiableAt (by norm_num)) k1 hA']
  exact k3 i j

/-- The first-order expansion at the point, with the matrix of partial derivatives. -/
theorem jacobian_expansion {r : ℕ} {vars : List Str} (hn : vars.Nodup) {f : Matrix (Fin r) (Fin 1) (Expr (XNum ℝ))}
    {z : Fin vars.length → ℝ} {G : (Fin vars.length → ℝ) → Fin r → ℝ} (hG : ContDiffAt ℝ 1 G z)
    (hv : ∀ᶠ u in 𝓝 z, IsValue f vars u (G u)) {A : Matrix (Fin r) (Fin vars.length) ℝ} (hA : IsJacobian f vars z A) {e : ℝ} (he : 0 < e) :
    ∀ᶠ u in 𝓝 z, ‖G u - G z - A.mulVec (u - z)‖ ≤ e * ‖u - z‖ := by
  have hd := (hG.differentiableAt (by norm_num)).hasFDerivAt
  have hlin : ∀ x, fderiv ℝ G z x = A.mulVec x := by
    intro x
    funext i
    have hx : x = ∑ j, x j • Pi.single j (1 : ℝ) := by
      funext k
      simp [Finset.sum_apply, Pi.single_apply]
    conv_lhs => rw [hx, map_sum, Finset.sum_apply]
    simp only [map_smul, Pi.smul_apply, smul_eq_mul, Matrix.mulVec, dotProduct]
    refine Finset.sum_congr rfl fun j _ => ?_
    rw [jacobian_fderiv hn (hG.differentiableAt (by norm_num)) hv hA, mul_comm]
  have := (hasFDerivAt_iff_isLittleO.mp hd).def he
  filter_upwards [this] with u hu
  rw [← hlin]
  exact hu

end Tom
