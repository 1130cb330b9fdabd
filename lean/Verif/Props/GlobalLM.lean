import Verif.Spec.Everywhere
import Verif.Lemmas.GlobalLM
import Verif.Props.ConvexNewton
/-
C123: the Levenberg-Marquardt method from everywhere, for systems with symmetric regular Jacobians.
-/
set_option linter.unusedSectionVars false
namespace Tom
open Matrix Filter Topology

variable {vars : List Str} {f : Matrix (Fin vars.length) (Fin 1) (Expr (XNum ℝ))} {F : (Fin vars.length → ℝ) → Fin vars.length → ℝ}
  {J : (Fin vars.length → ℝ) → Matrix (Fin vars.length) (Fin vars.length) ℝ}

theorem Everywhere.unique (h : Everywhere vars f F J) (hnd : vars.Nodup) {u : Fin vars.length → ℝ} {A : Matrix (Fin vars.length) (Fin vars.length) ℝ}
    (hA : IsJacobian f vars u A) : A = J u := by
  obtain ⟨G, h1, h2⟩ := system_local (h u).1
  have hd := h1.differentiableAt (by norm_num)
  have hv : ∀ᶠ w in 𝓝 u, IsValue f vars w (G w) := h2.mono fun _ h => h.1
  ext i j
  rw [jacobian_fderiv hnd hd hv hA, jacobian_fderiv hnd hd hv (h u).2.2]

theorem Everywhere.value (h : Everywhere vars f F J) {u V : Fin vars.length → ℝ} (hV : IsValue f vars u V) : V = F u := by
  funext i
  have := (hV i).symm.trans ((h u).2.1 i)
  simpa using this

theorem Everywhere.continuous (h : Everywhere vars f F J) (hnd : vars.Nodup) :
    Continuous F ∧ Continuous fun u => (fun i j => J u i j : Fin vars.length → Fin vars.length → ℝ) := by
  constructor
  · rw [continuous_iff_continuousAt]
    intro z
    obtain ⟨G, h1, h2⟩ := system_local (h z).1
    refine h1.continuousAt.congr ?_
    filter_upwards [h2] with u hu
    exact h.value hu.1
  · refine continuous_pi fun i => continuous_pi fun j => ?_
    rw [continuous_iff_continuousAt]
    intro z
    obtain ⟨G, h1, h2⟩ := system_local (h z).1
    have hv : ∀ᶠ w in 𝓝 z, IsValue f vars w (G w) := h2.mono fun _ h => h.1
    refine Metric.continuousAt_iff'.mpr fun e he => ?_
    filter_upwards [jacobian_continuous hnd h1 hv (h z).2.2 he] with u hu
    rw [Real.dist_eq]
    exact hu _ (h u).2.2 i j

/-- constants that hold on a bounded level set on which the Jacobian is regular -/
theorem Everywhere.constants (h : Everywhere vars f F J) (hnd : vars.Nodup) {c : ℝ} (hb : Bornology.IsBounded (levelSet F c))
    (hreg : ∀ u ∈ levelSet F c, (J u).det ≠ 0) :
    ∃ K s : ℝ, 1 ≤ K ∧ 0 < s ∧ ∀ u ∈ levelSet F c, ∀ v, en ((J u).mulVec v) ≤ K * en v ∧ s * en v ≤ en ((J u).mulVec v) := by
  obtain ⟨hF, hJ⟩ := h.continuous hnd
  have hcomp : IsCompact (levelSet F c) := by
    refine Metric.isCompact_of_isClosed_isBounded ?_ hb
    exact isClosed_le (by fun_prop) continuous_const
  -- the entries are bounded
  obtain ⟨C, hC⟩ := hcomp.bddAbove_image (f := fun u => ‖(fun i j => J u i j : Fin vars.length → Fin vars.length → ℝ)‖) hJ.norm.continuousOn
  have hC' : ∀ u ∈ levelSet F c, ∀ i j, |J u i j| ≤ max C 0 := by
    intro u hu i j
    have h1 := hC ⟨u, hu, rfl⟩
    have h2 := norm_le_pi_norm (fun i j => J u i j : Fin vars.length → Fin vars.length → ℝ) i
    have h3 := norm_le_pi_norm ((fun i j => J u i j : Fin vars.length → Fin vars.length → ℝ) i) j
    rw [Real.norm_eq_abs] at h3
    exact (h3.trans (h2.trans h1)).trans (le_max_left _ _)
  -- the matrices stretch unit vectors at least by a constant
  have hjoint : Continuous fun p : (Fin vars.length → ℝ) × (Fin vars.length → ℝ) => en ((J p.1).mulVec p.2) := by
    have hc : ∀ i j, Continuous fun p : (Fin vars.length → ℝ) × (Fin vars.length → ℝ) => J p.1 i j := fun i j =>
      ((continuous_apply j).comp ((continuous_apply i).comp hJ)).comp continuous_fst
    unfold en
    simp only [mulVec, dotProduct]
    refine Real.continuous_sqrt.comp (continuous_finset_sum _ fun i _ => (continuous_finset_sum _ fun j _ => ?_).pow 2)
    exact (hc i j).mul ((continuous_apply j).comp continuous_snd)
  have hsph : IsCompact {v : Fin vars.length → ℝ | en v = 1} := by
    refine Metric.isCompact_of_isClosed_isBounded ?_ ?_
    · refine isClosed_eq ?_ continuous_const
      unfold en
      fun_prop
    · refine (Metric.isBounded_closedBall (x := (0 : Fin vars.length → ℝ)) (r := 1)).subset fun v hv => ?_
      rw [Metric.mem_closedBall, dist_zero_right]
      exact (norm_le_en v).trans hv.le
  obtain ⟨s, hs0, hs⟩ := (hcomp.prod hsph).exists_forall_le' (a := (0 : ℝ)) hjoint.continuousOn (by
    rintro ⟨u, v⟩ ⟨hu, hv⟩
    refine lt_of_le_of_ne (en_nonneg _) fun h0 => ?_
    have hv0 : v ≠ 0 := by
      rintro rfl
      have : en (0 : Fin vars.length → ℝ) = 1 := hv
      simp [en] at this
    have h1 := regular_ne (hreg u hu) hv0
    have h2 := dot_pos h1
    rw [← sum_sq, ← en_sq, ← h0] at h2
    norm_num at h2)
  refine ⟨vars.length * max C 0 + 1, s, by have : 0 ≤ max C 0 := le_max_right _ _; have : 0 ≤ vars.length * max C 0 := by positivity
                                           linarith, hs0, fun u hu v => ⟨?_, ?_⟩⟩
  · have := en_mulVec (le_max_right C 0) (hC' u hu) v
    nlinarith [en_nonneg v]
  · by_cases hv : v = 0
    · subst hv; simp [en]
    · have hpos : 0 < en v := by
        refine lt_of_le_of_ne (en_nonneg v) fun h0 => ?_
        have h2 := dot_pos hv
        rw [← sum_sq, ← en_sq, ← h0] at h2
        norm_num at h2
      have h1 := hs (u, (1 / en v) • v) ⟨hu, by
        show en _ = 1
        rw [en_smul, abs_of_pos (by positivity)]
        field_simp⟩
      simp only [mulVec_smul, en_smul, abs_of_pos (show 0 < 1 / en v by positivity)] at h1
      rw [one_div, ← div_eq_inv_mul, le_div_iff₀ hpos] at h1
      exact h1

/-- the test of the line search for the step length `2^-k` -/
def Accepted (F : (Fin vars.length → ℝ) → Fin vars.length → ℝ) (A : Matrix (Fin vars.length) (Fin vars.length) ℝ) (u d : Fin vars.length → ℝ) (k : ℕ) : Prop :=
  ∑ i, F (u + ((1 / 2 : ℝ) ^ k) • d) i ^ 2 ≤ ∑ i, (F u i + 2 / 5 * (1 / 2 : ℝ) ^ k * ∑ l, A l i * d l) ^ 2

theorem accepted_iff {A : Matrix (Fin vars.length) (Fin vars.length) ℝ} (hsym : Aᵀ = A) {u d : Fin vars.length → ℝ} {k : ℕ} :
    Accepted F A u d k ↔ en (F (u + ((1 / 2 : ℝ) ^ k) • d)) ^ 2 ≤ en (F u + (2 / 5 * (1 / 2 : ℝ) ^ k) • A.mulVec d) ^ 2 := by
  rw [en_sq, en_sq, Accepted]
  have : ∀ i, F u i + 2 / 5 * (1 / 2 : ℝ) ^ k * ∑ l, A l i * d l = (F u + (2 / 5 * (1 / 2 : ℝ) ^ k) • A.mulVec d) i := by
    intro i
    conv_rhs => rw [← hsym]
    simp [mulVec, dotProduct]
  simp only [this]

/-- in a bounded level set with symmetric regular Jacobians, the line search ends after boundedly many halvings, and the step makes the sum of
squares smaller by a constant factor -/
theorem Everywhere.step (h : Everywhere vars f F J) (hn : 0 < vars.length) (hnd : vars.Nodup) {c : ℝ} (hb : Bornology.IsBounded (levelSet F c))
    (hreg : ∀ u ∈ levelSet F c, (J u).det ≠ 0) (hsym : ∀ u ∈ levelSet F c, (J u)ᵀ = J u) :
    ∃ (m0 : ℕ) (θ : ℝ), 0 ≤ θ ∧ θ < 1 ∧ ∀ u ∈ levelSet F c, ∀ (eps : ℝ) (B : Matrix (Fin vars.length) (Fin vars.length) ℝ)
      (d : Fin vars.length → ℝ), 0 < eps → vars.length * eps ≤ 1 / 200000 →
      Near eps (normalMat (J u) (1 / 100000)) B → B.mulVec d = -((J u)ᵀ.mulVec (F u)) →
      Accepted F (J u) u d m0 ∧ ∀ k ≤ m0, Accepted F (J u) u d k →
        ∑ i, F (u + ((1 / 2 : ℝ) ^ k) • d) i ^ 2 ≤ θ * ∑ i, F u i ^ 2 := by
  obtain ⟨hF, hJ⟩ := h.continuous hnd
  obtain ⟨K, s, hK1, hs0, hKs⟩ := h.constants hnd hb hreg
  have hcomp : IsCompact (levelSet F c) := by
    refine Metric.isCompact_of_isClosed_isBounded ?_ hb
    exact isClosed_le (by fun_prop) continuous_const
  set κ : ℝ := (1 / 100000) / 2 * (s / (K ^ 2 + 2 * (1 / 100000))) ^ 2 with hκ
  have hκ0 : 0 < κ := by positivity
  set D : ℝ := 2 * K / (1 / 100000) with hD
  have hD0 : 0 < D := by positivity
  have hK0 : 0 < K := by linarith
  -- how far the residual may be off
  set η : ℝ := min 1 (3 / 4 * κ / (3 + 2 * (K * D))) with hη
  have hη0 : 0 < η := by positivity
  have hη1 : η ≤ 1 := min_le_left _ _
  have hη2 : η * (3 + 2 * (K * D)) ≤ 3 / 4 * κ := by
    have := min_le_right (1 : ℝ) (3 / 4 * κ / (3 + 2 * (K * D)))
    rwa [le_div_iff₀ (by positivity)] at this
  have hn' : (0 : ℝ) < vars.length := by exact_mod_cast hn
  set ω : ℝ := η / (vars.length * vars.length * D) with hω
  have hω0 : 0 < ω := by positivity
  have huc := hcomp.uniformContinuousAt_of_continuousAt (fun u => (fun i j => J u i j : Fin vars.length → Fin vars.length → ℝ))
    (fun u _ => hJ.continuousAt) (Metric.dist_mem_uniformity hω0)
  obtain ⟨δ, hδ0, hδ⟩ := Metric.mem_uniformity_dist.mp huc
  have hc0 : 0 ≤ √(max c 0) := Real.sqrt_nonneg _
  -- a step length that is small enough
  obtain ⟨m0, hm0⟩ := exists_pow_lt_of_lt_one (show (0 : ℝ) < min (1 / 2) (δ / (2 * (D * √(max c 0) + 1))) by positivity) (show (1 / 2 : ℝ) < 1 by norm_num)
  have hm1 : (1 / 2 : ℝ) ^ m0 ≤ 1 / 2 := (hm0.trans_le (min_le_left _ _)).le
  have hm2 : (1 / 2 : ℝ) ^ m0 * (D * √(max c 0)) < δ := by
    have h1 := hm0.trans_le (min_le_right _ _)
    rw [lt_div_iff₀ (by positivity)] at h1
    have h2 : 0 < (1 / 2 : ℝ) ^ m0 := by positivity
    have h3 : 0 ≤ (1 / 2 : ℝ) ^ m0 * (D * √(max c 0)) := by positivity
    nlinarith
  refine ⟨m0, max 0 (1 - 16 / 25 * (1 / 2) ^ m0 * κ), le_max_left _ _, max_lt one_pos (by
    have : 0 < (1 / 2 : ℝ) ^ m0 * κ := by positivity
    nlinarith), fun u hu eps B d g1 g2 hB hd => ?_⟩
  obtain ⟨q1, q2, q3⟩ := direction_quant (by norm_num) g1.le (by linarith) hB hd (hsym u hu) hs0 hK1 (fun v => (hKs u hu v).1)
    (fun v => (hKs u hu v).2)
  have hGc : en (F u) ≤ √(max c 0) := Real.sqrt_le_sqrt ((show ∑ i, F u i ^ 2 ≤ c from hu).trans (le_max_left _ _))
  have hGn := en_nonneg (F u)
  have hwG : en ((J u).mulVec d) ≤ K * D * en (F u) := by
    refine ((hKs u hu d).1).trans ?_
    rw [mul_assoc]
    exact mul_le_mul_of_nonneg_left q2 hK0.le
  refine ⟨?_, fun k hk hacc => ?_⟩
  · -- the short step
    rw [accepted_iff (hsym u hu)]
    set a : ℝ := (1 / 2 : ℝ) ^ m0 with ha
    have ha0 : 0 < a := by positivity
    have hlen : ‖a • d‖ < δ := by
      rw [norm_smul, Real.norm_eq_abs, abs_of_pos ha0]
      refine lt_of_le_of_lt (mul_le_mul_of_nonneg_left ((norm_le_en d).trans (q2.trans (mul_le_mul_of_nonneg_left hGc hD0.le))) ha0.le) hm2
    have hmv := mean_value hnd hω0.le (u := u) (r := ‖a • d‖) (f := f) (fun w _ i => (h w).1.2.2 i) (J u)
      (fun w hw A' hA' i j => by
        rw [h.unique hnd hA']
        have h1 : dist u w < δ := by rw [dist_comm, dist_eq_norm]; exact hw.trans_lt hlen
        have h2 := hδ h1 hu
        have h3 : dist (J u i j) (J w i j) < ω := lt_of_le_of_lt ((dist_le_pi_dist (J u i) (J w i) j).trans
          (dist_le_pi_dist (fun i j => J u i j : Fin vars.length → Fin vars.length → ℝ) (fun i j => J w i j) i)) h2
        rw [dist_comm, Real.dist_eq] at h3
        exact h3.le)
      (x := u + a • d) (y := u) (by rw [add_sub_cancel_left]) (by rw [sub_self, norm_zero]; exact norm_nonneg _)
      (h (u + a • d)).2.1 (h u).2.1
    rw [add_sub_cancel_left, mulVec_smul] at hmv
    have e1 : F (u + a • d) = F u + a • (J u).mulVec d + (F (u + a • d) - F u - a • (J u).mulVec d) := by abel
    rw [e1]
    refine short_step (q := -(F u ⬝ᵥ (J u).mulVec d)) rfl q1 hκ0 q3 (by positivity) hwG ha0 hm1 hη0.le hη1 hη2 ?_
    refine (en_le_norm _).trans ?_
    have e2 : ‖a • d‖ ≤ a * (D * en (F u)) := by
      rw [norm_smul, Real.norm_eq_abs, abs_of_pos ha0]
      exact mul_le_mul_of_nonneg_left ((norm_le_en d).trans q2) ha0.le
    calc vars.length * ‖F (u + a • d) - F u - a • (J u).mulVec d‖ ≤ vars.length * (vars.length * ω * ‖a • d‖) :=
          mul_le_mul_of_nonneg_left hmv hn'.le
      _ ≤ vars.length * (vars.length * ω * (a * (D * en (F u)))) := by gcongr
      _ = a * η * en (F u) := by rw [hω]; field_simp
  · rw [accepted_iff (hsym u hu), en_sq] at hacc
    refine hacc.trans ((accepted_step (κ := κ) rfl q1 q3 (by positivity) (pow_le_one₀ (by norm_num) (by norm_num))).trans ?_)
    rw [en_sq]
    refine mul_le_mul_of_nonneg_right ((sub_le_sub_left ?_ _).trans (le_max_right _ _)) (Finset.sum_nonneg fun i _ => sq_nonneg _)
    have : (1 / 2 : ℝ) ^ m0 ≤ (1 / 2) ^ k := pow_le_pow_of_le_one (by norm_num) (by norm_num) hk
    nlinarith

/-- the line search returns the first step length that is accepted -/
theorem armijo_halvings (hn : 0 < vars.length) {g dg : Mat (XNum ℝ) → Res (Mat (XNum ℝ))} {u d : Fin vars.length → ℝ}
    {A : Matrix (Fin vars.length) (Fin vars.length) ℝ} (h1 : ∀ v, g (ofVec v) = .ok (ofVec (F v))) (h2 : dg (ofVec u) = .ok (ofMatrix A))
    {m : ℕ} (hm : Accepted F A u d m) {fuel : ℕ} (hf : m < fuel) :
    ∃ k ≤ m, Accepted F A u d k ∧ armijo fuel (ofVec u) (ofVec d) g dg = .ok (fin ((1 / 2 : ℝ) ^ k)) := by
  have key : ∀ j k fuel, k + j = m → j < fuel → ∃ k' ≤ m, Accepted F A u d k' ∧
      armijoLoop g dg (ofVec u) (ofVec d) fuel (fin ((1 / 2 : ℝ) ^ k)) = .ok (fin ((1 / 2 : ℝ) ^ k')) := by
    intro j
    induction j with
    | zero =>
      intro k fuel hk hfu
      obtain ⟨fuel, rfl⟩ : ∃ m, fuel = m + 1 := ⟨fuel - 1, by omega⟩
      have hk' : k = m := by omega
      subst hk'
      refine ⟨k, le_rfl, hm, ?_⟩
      rw [armijoLoop, lit_real.2.1, Exact.mul, ofVec_scaleLeft]
      simp only [ofVec_add, Res.bind_ok, h1, h2, C33_norm2 hn, ofMatrix_transpose hn hn, ofMatrix_scaleLeft, C33_mulVec hn hn, Exact.le]
      rw [if_pos]
      rw [decide_eq_true_iff, ← sum_sq, ← sum_sq]
      refine le_of_le_of_eq hm (Finset.sum_congr rfl fun i _ => ?_)
      rw [Matrix.smul_mulVec]
      simp [Matrix.mulVec, dotProduct]
    | succ j ih =>
      intro k fuel hk hfu
      obtain ⟨fuel, rfl⟩ : ∃ m, fuel = m + 1 := ⟨fuel - 1, by omega⟩
      rw [armijoLoop, lit_real.2.1, Exact.mul, ofVec_scaleLeft]
      simp only [ofVec_add, Res.bind_ok, h1, h2, C33_norm2 hn, ofMatrix_transpose hn hn, ofMatrix_scaleLeft, C33_mulVec hn hn, Exact.le]
      by_cases hacc : Accepted F A u d k
      · refine ⟨k, by omega, hacc, ?_⟩
        rw [if_pos]
        rw [decide_eq_true_iff, ← sum_sq, ← sum_sq]
        refine le_of_le_of_eq hacc (Finset.sum_congr rfl fun i _ => ?_)
        rw [Matrix.smul_mulVec]
        simp [Matrix.mulVec, dotProduct]
      · obtain ⟨k', r1, r2, r3⟩ := ih (k + 1) fuel (by omega) (by omega)
        refine ⟨k', r1, r2, ?_⟩
        rw [if_neg]
        · rw [lit_real.2.2.1, Exact.mul, ← r3]
          rw [pow_succ]
        · rw [decide_eq_true_iff, ← sum_sq, ← sum_sq]
          intro hc
          refine hacc (le_of_le_of_eq hc (Finset.sum_congr rfl fun i _ => ?_))
          rw [Matrix.smul_mulVec]
          simp [Matrix.mulVec, dotProduct]
  obtain ⟨k, r1, r2, r3⟩ := key m 0 fuel (by omega) hf
  refine ⟨k, r1, r2, ?_⟩
  rw [armijo, lit_real.1]
  rw [pow_zero] at r3
  exact r3

/-- C123: let the equations have values and derivatives everywhere, let the set of points where the sum of squares of the residuals is at most
`c` be bounded, and let the Jacobian be symmetric and regular at all of its points.  Then for every sufficiently small epsilon there is a
number of iterations that suffices: `SolveByLM`, started at any of these points, returns, with no residual of epsilon or more, and a sum of
squares not greater than at the start.  The line search never halves more than `M` times. -/
theorem C123 (h : Everywhere vars f F J) (hn : 0 < vars.length) (hnd : vars.Nodup) {c : ℝ} (hb : Bornology.IsBounded (levelSet F c))
    (hreg : ∀ u ∈ levelSet F c, (J u).det ≠ 0) (hsym : ∀ u ∈ levelSet F c, (J u)ᵀ = J u) :
    ∃ M : ℕ, ∀ eps : ℝ, 0 < eps → vars.length * eps ≤ 1 / 200000 → ∃ N : ℕ, ∀ (cfg : Config (XNum ℝ)), cfg.epsilon = .fin eps →
      (N : ℤ) ≤ cfg.maxIterations → ∀ lsFuel fuel : ℕ, M < lsFuel → N < fuel →
      ∀ (t : VarsTable (XNum ℝ)) (u : Fin vars.length → ℝ), TableAt t vars u → u ∈ levelSet F c →
        ∃ t' u', solveByLM cfg lsFuel fuel (symOf f) t = .ok t' ∧ TableAt t' vars u' ∧ ∑ i, F u' i ^ 2 ≤ ∑ i, F u i ^ 2 ∧
          ∀ i, |F u' i| < eps := by
  obtain ⟨M, θ, hθ0, hθ1, hstep⟩ := h.step hn hnd hb hreg hsym
  refine ⟨M, fun eps g1 g2 => ?_⟩
  obtain ⟨N, hN⟩ := exists_pow_lt_of_lt_one (div_pos (pow_pos g1 2) (by positivity : (0 : ℝ) < max c 1)) hθ1
  refine ⟨N, fun cfg g3 g4 lsFuel fuel hls hfuel t u ht hu => ?_⟩
  obtain ⟨Js, hJs⟩ := jacobian_returns hn cfg f vars hn u (h u).1
  obtain ⟨E, rfl, hE, hJac⟩ := jacobian_real hn cfg f vars hn Js hJs
  have key : ∀ (k it innerFuel fuel : ℕ), ((it + k : ℕ) : ℤ) ≤ cfg.maxIterations → k < fuel →
      ∀ (t : VarsTable (XNum ℝ)) (u : Fin vars.length → ℝ), TableAt t vars u → u ∈ levelSet F c →
        (∑ i, F u i ^ 2) * θ ^ k < eps ^ 2 →
        ∃ t' u', lmOuter cfg lsFuel (innerFuel + 1) (symOf f) (symOf E) fuel t (ofVec u) it = .ok t' ∧ TableAt t' vars u' ∧
          ∑ i, F u' i ^ 2 ≤ ∑ i, F u i ^ 2 ∧ ‖F u'‖ < eps := by
    intro k
    induction k with
    | zero =>
      intro it innerFuel fuel hit hf t u ht hu hk
      obtain ⟨fuel, rfl⟩ : ∃ m, fuel = m + 1 := ⟨fuel - 1, by omega⟩
      rw [pow_zero, mul_one] at hk
      have hF : ‖F u‖ < eps := lt_of_pow_lt_pow_left₀ 2 g1.le ((norm_sq_le _).trans_lt hk)
      refine ⟨t, u, ?_, ht, le_rfl, hF⟩
      rw [lmOuter, ht.evalVec hn cfg f (h u).1.1 (h u).2.1, Res.bind_ok, g3, if_pos ((eqNum_real _ eps g1).mpr hF)]
    | succ k ih =>
      intro it innerFuel fuel hit hf t u ht hu hk
      obtain ⟨fuel, rfl⟩ : ∃ m, fuel = m + 1 := ⟨fuel - 1, by omega⟩
      have e1 := ht.evalVec hn cfg f (h u).1.1 (h u).2.1
      by_cases hF : ‖F u‖ < eps
      · refine ⟨t, u, ?_, ht, le_rfl, hF⟩
        rw [lmOuter, e1, Res.bind_ok, g3, if_pos ((eqNum_real _ eps g1).mpr hF)]
      · have hJu : ∀ i j, realVal (assign vars u) (E i j) = some (J u i j) := by
          obtain ⟨A', hA1, hA2⟩ := hJac u (h u).1
          rw [h.unique hnd hA1] at hA2
          exact hA2
        have e2 := ht.evalMat hn hn cfg E (fun i j x hx => (h u).1.1 i x (hE i j x hx)) hJu
        obtain ⟨d, h3, ⟨B, h4, h5⟩, _⟩ := C36_nonsingular cfg g1 g3 hn (normalMat (J u) (1 / 100000)) (-((J u)ᵀ.mulVec (F u)))
          fun B hB => normal_det (by linarith) hB
        obtain ⟨hM, hdec⟩ := hstep u hu eps B d g1 g2 h4 h5
        obtain ⟨t0, h8, h9⟩ := ht.setValues u
        have s1 : ∀ v, lmF cfg (symOf f) t (ofVec v) = .ok (ofVec (F v)) := by
          intro v
          obtain ⟨t1, h6, h7⟩ := ht.setValues v
          unfold lmF
          rw [h6, Res.bind_ok]
          exact h7.evalVec hn cfg f (h v).1.1 (h v).2.1
        have s3 : lmDF cfg (symOf E) t (ofVec u) = .ok (ofMatrix (J u)) := by
          unfold lmDF; rw [h8, Res.bind_ok]; exact h9.evalMat hn hn cfg E (fun i j x hx => (h u).1.1 i x (hE i j x hx)) hJu
        have s4 : lmDirection cfg (symOf E) (ofVec (F u)) (.fin (1 / 100000)) t = .ok (ofVec d) := by
          rw [lmDirection_real hn e2]; exact h3
        obtain ⟨j, hj, hacc, s5⟩ := armijo_halvings hn s1 s3 hM hls
        have hdec' := hdec j hj hacc
        set u1 := u + ((1 / 2 : ℝ) ^ j) • d with hu1
        obtain ⟨t1, h6, h7⟩ := ht.setValues u1
        have e3 := h7.evalVec hn cfg f (h u1).1.1 (h u1).2.1
        have hpos : 0 < ∑ i, F u i ^ 2 := by
          rw [sum_sq]
          refine dot_pos fun h0 => ?_
          rw [h0, norm_zero] at hF
          exact hF g1
        have hlt : ∑ i, F u1 i ^ 2 < ∑ i, F u i ^ 2 := lt_of_le_of_lt hdec' (by nlinarith)
        have s6 : lmInner cfg lsFuel (symOf f) (symOf E) (ofVec u) (ofVec (F u)) (innerFuel + 1) t (lit 1 (-5)) it
            = .ok (ofVec (((1 / 2 : ℝ) ^ j) • d), ofVec (F u1), t1, it) := by
          rw [lmInner_succ, lit_real.2.2.2, s4, Res.bind_ok, s5, Res.bind_ok, ofVec_scaleLeft, ofVec_add, Res.bind_ok, h6, Res.bind_ok,
            e3, Res.bind_ok, C33_norm2 hn, Res.bind_ok, C33_norm2 hn, Res.bind_ok, Exact.lt, if_pos]
          rw [decide_eq_true_iff, ← sum_sq, ← sum_sq]
          exact hlt
        obtain ⟨t2, h10, h11⟩ := h7.setValues u1
        obtain ⟨t', u', r1, r2, r3, r4⟩ := ih (it + 1) innerFuel fuel (by push_cast at hit ⊢; omega) (by omega) t2 u1 h11
          (hlt.le.trans hu) (by
          refine lt_of_le_of_lt ?_ hk
          have : (∑ i, F u i ^ 2) * θ ^ (k + 1) = (θ * ∑ i, F u i ^ 2) * θ ^ k := by rw [pow_succ]; ring
          rw [this]
          exact mul_le_mul_of_nonneg_right hdec' (by positivity))
        refine ⟨t', u', ?_, r2, r3.trans hlt.le, r4⟩
        rw [lmOuter, e1, Res.bind_ok, g3, if_neg (fun h' => hF ((eqNum_real _ eps g1).mp h')), s6, Res.bind_ok]
        simp only [ofVec_add, Res.bind_ok]
        rw [h10, Res.bind_ok, if_neg (by push_cast at hit; omega)]
        exact r1
  obtain ⟨fuel, rfl⟩ : ∃ m, fuel = m + 1 := ⟨fuel - 1, by omega⟩
  obtain ⟨t', u', r1, r2, r3, r4⟩ := key N 0 fuel (fuel + 1) (by push_cast; omega) hfuel t u ht hu (by
    have := (lt_div_iff₀ (by positivity : (0 : ℝ) < max c 1)).mp hN
    calc (∑ i, F u i ^ 2) * θ ^ N ≤ max c 1 * θ ^ N :=
          mul_le_mul_of_nonneg_right ((show _ ≤ c from hu).trans (le_max_left _ _)) (by positivity)
      _ < eps ^ 2 := by linarith)
  refine ⟨t', u', ?_, r2, r3, fun i => (norm_le_pi_norm (F u') i).trans_lt r4⟩
  rw [lm_unfold cfg _ _ _ ht.1, ht.2.1, hJs, Res.bind_ok, ht.2.2]
  exact r1

/-- C123: then the equations have a solution among these points. -/
theorem C123_root (h : Everywhere vars f F J) (hn : 0 < vars.length) (hnd : vars.Nodup) {c : ℝ} (hb : Bornology.IsBounded (levelSet F c))
    (hreg : ∀ u ∈ levelSet F c, (J u).det ≠ 0) (hsym : ∀ u ∈ levelSet F c, (J u)ᵀ = J u) (hne : (levelSet F c).Nonempty) :
    ∃ z ∈ levelSet F c, F z = 0 := by
  obtain ⟨hF, -⟩ := h.continuous hnd
  have hcomp : IsCompact (levelSet F c) := by
    refine Metric.isCompact_of_isClosed_isBounded ?_ hb
    exact isClosed_le (by fun_prop) continuous_const
  obtain ⟨z, hz, hmin⟩ := hcomp.exists_isMinOn hne (f := fun u => ∑ i, F u i ^ 2) (by fun_prop)
  refine ⟨z, hz, ?_⟩
  by_contra h0
  obtain ⟨M, θ, hθ0, hθ1, hstep⟩ := h.step hn hnd hb hreg hsym
  have hn' : (0 : ℝ) < vars.length := by exact_mod_cast hn
  have hdet := normalMat_det (J z) (mu := 1 / 100000) (by norm_num)
  obtain ⟨d, hd⟩ := affine_root hdet ((J z)ᵀ.mulVec (F z))
  obtain ⟨hM, hdec⟩ := hstep z hz (1 / 200000 / vars.length) (normalMat (J z) (1 / 100000)) d (by positivity)
    (by rw [mul_div_cancel₀ _ hn'.ne']) (fun i j => by rw [sub_self, abs_zero]; positivity) (eq_neg_of_add_eq_zero_left hd)
  have h1 := hdec M le_rfl hM
  have hpos : 0 < ∑ i, F z i ^ 2 := by rw [sum_sq]; exact dot_pos h0
  have hlt : ∑ i, F (z + ((1 / 2 : ℝ) ^ M) • d) i ^ 2 < ∑ i, F z i ^ 2 := lt_of_le_of_lt h1 (by nlinarith)
  exact absurd (hmin (hlt.le.trans hz)) (not_le.mpr hlt)

/-- the expansion of the map at a point -/
theorem Everywhere.expansion (h : Everywhere vars f F J) (hnd : vars.Nodup) (z : Fin vars.length → ℝ) {e : ℝ} (he : 0 < e) :
    ∀ᶠ u in 𝓝 z, ‖F u - F z - (J z).mulVec (u - z)‖ ≤ e * ‖u - z‖ := by
  obtain ⟨G, h1, h2⟩ := system_local (h z).1
  have hv : ∀ᶠ w in 𝓝 z, IsValue f vars w (G w) := h2.mono fun _ h => h.1
  filter_upwards [jacobian_expansion hnd h1 hv (h z).2.2 he, hv] with u hu hvu
  rw [← h.value hvu, ← h.value hv.self_of_nhds]
  exact hu

/-- a map that brings no two points closer together by more than the factor `m` has bounded level sets and regular Jacobians -/
theorem Everywhere.spread (h : Everywhere vars f F J) (hnd : vars.Nodup) {m : ℝ} (hm : 0 < m)
    (hF : ∀ u v, m ^ 2 * ∑ i, (u i - v i) ^ 2 ≤ ∑ i, (F u i - F v i) ^ 2) :
    (∀ c, Bornology.IsBounded (levelSet F c)) ∧ ∀ u, (J u).det ≠ 0 := by
  have hF' : ∀ u v, m * en (u - v) ≤ en (F u - F v) := by
    intro u v
    refine le_of_sq_le_sq ?_ (en_nonneg _)
    rw [mul_pow, en_sq, en_sq]
    exact hF u v
  constructor
  · intro c
    refine (Metric.isBounded_closedBall (x := (0 : Fin vars.length → ℝ)) (r := (√(max c 0) + en (F 0)) / m)).subset fun u hu => ?_
    rw [Metric.mem_closedBall, dist_zero_right]
    have h1 := hF' u 0
    have h2 : en (F u) ≤ √(max c 0) := Real.sqrt_le_sqrt ((show ∑ i, F u i ^ 2 ≤ c from hu).trans (le_max_left _ _))
    have h3 := en_add_le (F u) (-(F 0))
    rw [en_neg, ← sub_eq_add_neg] at h3
    rw [sub_zero] at h1
    rw [le_div_iff₀ hm]
    nlinarith [norm_le_en u]
  · intro z hdet
    obtain ⟨v, hv, h0⟩ := Matrix.exists_mulVec_eq_zero_iff.mpr hdet
    have hvn : 0 < en v := by
      refine lt_of_le_of_ne (en_nonneg v) fun h0 => ?_
      have h2 := dot_pos hv
      rw [← sum_sq, ← en_sq, ← h0] at h2
      norm_num at h2
    have hn : (0 : ℝ) < vars.length := by
      rcases Nat.eq_zero_or_pos vars.length with h' | h'
      · exact absurd (funext fun i => by have := i.2; omega) hv
      · exact_mod_cast h'
    have hex := h.expansion hnd z (e := m / (2 * vars.length)) (by positivity)
    have hc : Tendsto (fun t : ℝ => z + t • v) (𝓝[>] 0) (𝓝 z) := by
      have : ContinuousAt (fun t : ℝ => z + t • v) 0 := by fun_prop
      have h1 := this.tendsto
      rw [zero_smul, add_zero] at h1
      exact h1.mono_left nhdsWithin_le_nhds
    obtain ⟨t, ht1, ht2⟩ := ((hc.eventually hex).and self_mem_nhdsWithin).exists
    have ht0 : 0 < t := ht2
    rw [add_sub_cancel_left, mulVec_smul, h0, smul_zero, sub_zero] at ht1
    have h1 := hF' (z + t • v) z
    rw [add_sub_cancel_left] at h1
    have h2 := en_le_norm (F (z + t • v) - F z)
    have h3 : vars.length * ‖F (z + t • v) - F z‖ ≤ vars.length * (m / (2 * vars.length) * ‖t • v‖) := mul_le_mul_of_nonneg_left ht1 hn.le
    have h4 : vars.length * (m / (2 * vars.length) * ‖t • v‖) = m / 2 * ‖t • v‖ := by field_simp
    have h5 := norm_le_en (t • v)
    have h6 : 0 < en (t • v) := by rw [en_smul, abs_of_pos ht0]; positivity
    nlinarith

/-- C123: let the equations have values and derivatives everywhere, with symmetric Jacobians, and let them bring no two points closer together
by more than a factor `m > 0`.  Then there is exactly one solution `z`, and `SolveByLM` finds it from every initial table: for every
sufficiently small epsilon and every `R` some number of iterations suffices for all initial values up to `R`; what is returned is within
`√n epsilon / m` of `z`. -/
theorem C123_everywhere (h : Everywhere vars f F J) (hn : 0 < vars.length) (hnd : vars.Nodup) (hsym : ∀ u, (J u)ᵀ = J u) {m : ℝ} (hm : 0 < m)
    (hF : ∀ u v, m ^ 2 * ∑ i, (u i - v i) ^ 2 ≤ ∑ i, (F u i - F v i) ^ 2) :
    ∃ z, F z = 0 ∧ (∀ z', F z' = 0 → z' = z) ∧
    ∀ R : ℝ, ∃ M : ℕ, ∀ eps : ℝ, 0 < eps → vars.length * eps ≤ 1 / 200000 → ∃ N : ℕ, ∀ (cfg : Config (XNum ℝ)), cfg.epsilon = .fin eps →
      (N : ℤ) ≤ cfg.maxIterations → ∀ lsFuel fuel : ℕ, M < lsFuel → N < fuel →
      ∀ (t : VarsTable (XNum ℝ)) (u : Fin vars.length → ℝ), TableAt t vars u → (∀ i, |u i| ≤ R) →
        ∃ t' u', solveByLM cfg lsFuel fuel (symOf f) t = .ok t' ∧ TableAt t' vars u' ∧ (∀ i, |F u' i| < eps) ∧
          m ^ 2 * ∑ i, (u' i - z i) ^ 2 ≤ vars.length * eps ^ 2 := by
  obtain ⟨hb, hreg⟩ := h.spread hnd hm hF
  obtain ⟨z, -, hz⟩ := C123_root h hn hnd (hb (∑ i, F 0 i ^ 2)) (fun u _ => hreg u) (fun u _ => hsym u) ⟨0, show ∑ i, F 0 i ^ 2 ≤ _ from le_rfl⟩
  refine ⟨z, hz, fun z' hz' => ?_, fun R => ?_⟩
  · have h1 := hF z' z
    rw [hz, hz'] at h1
    simp only [Pi.zero_apply, sub_self, ne_eq, OfNat.ofNat_ne_zero, not_false_eq_true, zero_pow, Finset.sum_const_zero] at h1
    by_contra hne
    have h2 := dot_pos (sub_ne_zero.mpr hne)
    rw [← sum_sq] at h2
    have h3 : 0 < m ^ 2 * ∑ i, (z' - z) i ^ 2 := by positivity
    exact absurd h1 (not_le.mpr h3)
  · -- the values of the equations at the points up to `R` are bounded
    have hcomp : IsCompact (Metric.closedBall (0 : Fin vars.length → ℝ) (max R 0)) := isCompact_closedBall _ _
    have hcont := (h.continuous hnd).1
    obtain ⟨c, hc⟩ := hcomp.bddAbove_image (f := fun u => ∑ i, F u i ^ 2) (by fun_prop)
    obtain ⟨M, hM⟩ := C123 h hn hnd (hb c) (fun u _ => hreg u) (fun u _ => hsym u)
    refine ⟨M, fun eps g1 g2 => ?_⟩
    obtain ⟨N, hN⟩ := hM eps g1 g2
    refine ⟨N, fun cfg g3 g4 lsFuel fuel hls hfu t u ht hu => ?_⟩
    obtain ⟨t', u', r1, r2, -, r4⟩ := hN cfg g3 g4 lsFuel fuel hls hfu t u ht (hc ⟨u, by
      rw [Metric.mem_closedBall, dist_zero_right]
      exact (pi_norm_le_iff_of_nonneg (le_max_right _ _)).mpr fun i => (hu i).trans (le_max_left _ _), rfl⟩)
    refine ⟨t', u', r1, r2, r4, (hF u' z).trans ?_⟩
    calc ∑ i, (F u' i - F z i) ^ 2 ≤ ∑ _i : Fin vars.length, eps ^ 2 := Finset.sum_le_sum fun i _ => by
          rw [hz, Pi.zero_apply, sub_zero, ← sq_abs]
          exact pow_le_pow_left₀ (abs_nonneg _) (r4 i).le 2
      _ = vars.length * eps ^ 2 := by simp

/-- a matrix-valued derivative bounded below along every direction -/
theorem Everywhere.convex_spread (h : Everywhere vars f F J) (hnd : vars.Nodup) {m : ℝ} (hm : 0 < m)
    (hJ : ∀ u v : Fin vars.length → ℝ, m * ∑ i, v i ^ 2 ≤ ∑ i, v i * (J u).mulVec v i) (u v : Fin vars.length → ℝ) :
    m ^ 2 * ∑ i, (u i - v i) ^ 2 ≤ ∑ i, (F u i - F v i) ^ 2 := by
  -- along the segment from `v` to `u`
  have hder : ∀ t : ℝ, HasDerivAt (fun t : ℝ => (u - v) ⬝ᵥ F (v + t • (u - v))) ((u - v) ⬝ᵥ (J (v + t • (u - v))).mulVec (u - v)) t := by
    intro t
    obtain ⟨G, h1, h2⟩ := system_local (h (v + t • (u - v))).1
    have hv : ∀ᶠ w in 𝓝 (v + t • (u - v)), IsValue f vars w (G w) := h2.mono fun _ h => h.1
    have hGF : F =ᶠ[𝓝 (v + t • (u - v))] G := by
      filter_upwards [hv] with w hw
      exact (h.value hw).symm
    have hd : HasFDerivAt F (fderiv ℝ F (v + t • (u - v))) (v + t • (u - v)) :=
      ((h1.differentiableAt (by norm_num)).congr_of_eventuallyEq hGF).hasFDerivAt
    have hv' : ∀ᶠ w in 𝓝 (v + t • (u - v)), IsValue f vars w (F w) := .of_forall fun w => (h w).2.1
    have hlin : ∀ x, fderiv ℝ F (v + t • (u - v)) x = (J (v + t • (u - v))).mulVec x := by
      intro x
      funext i
      have hx : x = ∑ j, x j • Pi.single j (1 : ℝ) := by
        funext k
        simp [Finset.sum_apply, Pi.single_apply]
      conv_lhs => rw [hx, map_sum, Finset.sum_apply]
      simp only [map_smul, Pi.smul_apply, smul_eq_mul, Matrix.mulVec, dotProduct]
      refine Finset.sum_congr rfl fun j _ => ?_
      rw [jacobian_fderiv hnd hd.differentiableAt hv' (h _).2.2, mul_comm]
    have hline : HasDerivAt (fun t : ℝ => v + t • (u - v)) (u - v) t := by
      have := ((hasDerivAt_id t).smul_const (u - v)).const_add v
      simpa using this
    have hcomp := hd.comp_hasDerivAt t hline
    rw [hlin] at hcomp
    have hi := hasDerivAt_pi.mp hcomp
    have hsum : HasDerivAt (fun t : ℝ => ∑ i, (u - v) i * F (v + t • (u - v)) i) (∑ i, (u - v) i * (J (v + t • (u - v))).mulVec (u - v) i) t :=
      HasDerivAt.fun_sum fun i _ => (hi i).const_mul _
    exact hsum
  obtain ⟨t, -, ht⟩ := exists_hasDerivAt_eq_slope (fun t : ℝ => (u - v) ⬝ᵥ F (v + t • (u - v))) _ (zero_lt_one (α := ℝ))
    (fun x _ => (hder x).continuousAt.continuousWithinAt) (fun x _ => hder x)
  rw [one_smul, zero_smul, add_zero, add_sub_cancel, sub_zero, div_one, ← dotProduct_sub] at ht
  have h1 : m * en (u - v) ^ 2 ≤ en (u - v) * en (F u - F v) := by
    rw [en_sq]
    exact (hJ _ (u - v)).trans (le_of_eq_of_le ht (dot_le_en _ _))
  have h2 : m * en (u - v) ≤ en (F u - F v) := by
    rcases (en_nonneg (u - v)).eq_or_lt with h0 | h0
    · rw [← h0, mul_zero]; exact en_nonneg _
    · have : (m * en (u - v)) * en (u - v) ≤ en (F u - F v) * en (u - v) := by nlinarith
      exact le_of_mul_le_mul_right this h0
  have h3 := pow_le_pow_left₀ (mul_nonneg hm.le (en_nonneg _)) h2 2
  rw [mul_pow, en_sq, en_sq] at h3
  exact h3

/-- C123 for the critical point of a strongly convex function: the equations are its partial derivatives set to zero, so the Jacobian is its
matrix of second derivatives, which is symmetric and at least `m` in every direction. -/
theorem C123_convex (h : Everywhere vars f F J) (hn : 0 < vars.length) (hnd : vars.Nodup) (hsym : ∀ u, (J u)ᵀ = J u) {m : ℝ} (hm : 0 < m)
    (hJ : ∀ u v : Fin vars.length → ℝ, m * ∑ i, v i ^ 2 ≤ ∑ i, v i * (J u).mulVec v i) :
    ∃ z, F z = 0 ∧ (∀ z', F z' = 0 → z' = z) ∧
    ∀ R : ℝ, ∃ M : ℕ, ∀ eps : ℝ, 0 < eps → vars.length * eps ≤ 1 / 200000 → ∃ N : ℕ, ∀ (cfg : Config (XNum ℝ)), cfg.epsilon = .fin eps →
      (N : ℤ) ≤ cfg.maxIterations → ∀ lsFuel fuel : ℕ, M < lsFuel → N < fuel →
      ∀ (t : VarsTable (XNum ℝ)) (u : Fin vars.length → ℝ), TableAt t vars u → (∀ i, |u i| ≤ R) →
        ∃ t' u', solveByLM cfg lsFuel fuel (symOf f) t = .ok t' ∧ TableAt t' vars u' ∧ (∀ i, |F u' i| < eps) ∧
          m ^ 2 * ∑ i, (u' i - z i) ^ 2 ≤ vars.length * eps ^ 2 :=
  C123_everywhere h hn hnd hsym hm (h.convex_spread hnd hm hJ)

/-- C123 for one equation `e = 0` in one unknown `x`: the left side has the value `g` and the slope `g'` everywhere, and is nowhere less steep than
`m > 0`.  Then there is exactly one solution, and `SolveByLM` finds it from every initial value. -/
theorem C123_one {x : Str} {e : Expr (XNum ℝ)} {g g' : ℝ → ℝ} (hx : ∀ y ∈ e.vars, y = x) (hfe : e.NoForeignExp x)
    (hs : ∀ u : ℝ, Smooth 1 (assign [x] fun _ => u) e) (hv : ∀ u : ℝ, realVal (assign [x] fun _ => u) e = some (g u))
    (hg : ∀ u, HasDerivAt g (g' u) u) {m : ℝ} (hm : 0 < m) (hm' : ∀ u, m ≤ |g' u|) :
    ∃ z, g z = 0 ∧ (∀ z', g z' = 0 → z' = z) ∧
    ∀ R : ℝ, ∃ M : ℕ, ∀ eps : ℝ, 0 < eps → eps ≤ 1 / 200000 → ∃ N : ℕ, ∀ (cfg : Config (XNum ℝ)), cfg.epsilon = .fin eps →
      (N : ℤ) ≤ cfg.maxIterations → ∀ lsFuel fuel : ℕ, M < lsFuel → N < fuel →
      ∀ (t : VarsTable (XNum ℝ)) (u : ℝ), TableAt t [x] (fun _ => u) → |u| ≤ R →
        ∃ t' u', solveByLM cfg lsFuel fuel (symOf (fun _ _ => e : Matrix (Fin 1) (Fin 1) (Expr (XNum ℝ)))) t = .ok t' ∧ TableAt t' [x] (fun _ => u') ∧ |g u'| < eps ∧
          m * |u' - z| ≤ eps := by
  let i0 : Fin [x].length := ⟨0, by simp⟩
  have hsub : ∀ i : Fin [x].length, i = i0 := fun i => Subsingleton.elim (α := Fin 1) _ _
  have hcst : ∀ u : Fin [x].length → ℝ, u = fun _ => u i0 := fun u => funext fun i => by rw [hsub i]
  have hsum : ∀ w : Fin [x].length → ℝ, ∑ i, w i = w i0 := fun w => Fin.sum_univ_one (M := ℝ) w
  have hev : Everywhere [x] (fun _ _ => e) (fun u _ => g (u i0)) (fun u => oneByOne x (g' (u i0))) := by
    intro u
    rw [hcst u]
    refine ⟨⟨fun i y hy => by rw [hx y hy]; simp, fun i y hy => ?_, fun i => hs _⟩, fun i => hv _, fun i j => ?_⟩
    · rw [List.mem_singleton] at hy; subst hy; exact hfe
    · have hj : [x][j] = x := by rw [hsub j]; rfl
      rw [hj]
      refine ⟨g, ?_, ?_⟩
      · rw [assign_single]
        filter_upwards with v
        rw [at_assign_single]
        exact hv v
      · rw [assign_single]
        exact hg _
  have hF : ∀ u v : Fin [x].length → ℝ, m ^ 2 * ∑ i, (u i - v i) ^ 2 ≤ ∑ _i : Fin [x].length, (g (u i0) - g (v i0)) ^ 2 := by
    have hlt : ∀ a b : ℝ, a < b → m * |b - a| ≤ |g b - g a| := by
      intro a b hab
      obtain ⟨t, -, ht⟩ := exists_hasDerivAt_eq_slope g g' hab (fun x _ => (hg x).continuousAt.continuousWithinAt) (fun x _ => hg x)
      have h1 := hm' t
      rw [ht, abs_div, le_div_iff₀ (abs_pos.mpr (sub_ne_zero.mpr hab.ne'))] at h1
      exact h1
    have hall : ∀ a b : ℝ, m * |b - a| ≤ |g b - g a| := by
      intro a b
      rcases lt_trichotomy a b with h | h | h
      · exact hlt a b h
      · subst h; simp
      · rw [abs_sub_comm, abs_sub_comm (g b)]; exact hlt b a h
    intro u v
    rw [hsum, hsum fun _ => (g (u i0) - g (v i0)) ^ 2]
    have := pow_le_pow_left₀ (by positivity) (hall (v i0) (u i0)) 2
    rw [mul_pow, sq_abs, sq_abs] at this
    exact this
  have hsym : ∀ u : Fin [x].length → ℝ, (oneByOne x (g' (u i0)))ᵀ = oneByOne x (g' (u i0)) := fun u => rfl
  obtain ⟨z, h1, h2, h3⟩ := C123_everywhere hev (by simp) (by simp) hsym hm hF
  refine ⟨z i0, congrFun h1 i0, fun z' hz' => ?_, fun R => ?_⟩
  · exact congrFun (h2 (fun _ => z') (funext fun _ => hz')) i0
  · obtain ⟨M, hM⟩ := h3 R
    refine ⟨M, fun eps g1 g2 => ?_⟩
    obtain ⟨N, hN⟩ := hM eps g1 (by simpa using g2)
    refine ⟨N, fun cfg g3 g4 lsFuel fuel hls hfu t u ht hu => ?_⟩
    obtain ⟨t', u', r1, r2, r3, r4⟩ := hN cfg g3 g4 lsFuel fuel hls hfu t _ ht fun _ => hu
    refine ⟨t', u' i0, r1, ?_, r3 i0, ?_⟩
    · rw [← hcst u']; exact r2
    · rw [hsum] at r4
      simp only [List.length_singleton, Nat.cast_one, one_mul] at r4
      refine le_of_sq_le_sq ?_ g1.le
      rw [mul_pow, sq_abs]
      exact r4

/-- `x * (x * x) + x - 10 = 0` -/
noncomputable def cubicEq : Expr (XNum ℝ) :=
  .bin .sub (.bin .add (.bin .mul (.var ['x']) (.bin .mul (.var ['x']) (.var ['x']))) (.var ['x'])) (.num (.fin 10))

/-- The equation `x^3 + x - 10 = 0` satisfies the conditions of C123_one: `SolveByLM` finds its solution 2 from every initial value. -/
example : ∀ R : ℝ, ∃ M : ℕ, ∀ eps : ℝ, 0 < eps → eps ≤ 1 / 200000 → ∃ N : ℕ, ∀ (cfg : Config (XNum ℝ)), cfg.epsilon = .fin eps →
      (N : ℤ) ≤ cfg.maxIterations → ∀ lsFuel fuel : ℕ, M < lsFuel → N < fuel →
      ∀ (t : VarsTable (XNum ℝ)) (u : ℝ), TableAt t [['x']] (fun _ => u) → |u| ≤ R →
        ∃ t' u', solveByLM cfg lsFuel fuel (symOf (fun _ _ => cubicEq : Matrix (Fin 1) (Fin 1) (Expr (XNum ℝ)))) t = .ok t' ∧ TableAt t' [['x']] (fun _ => u') ∧
          |u' - 2| ≤ eps := by
  obtain ⟨z, h1, h2, h3⟩ := C123_one (x := ['x']) (e := cubicEq) (g := fun u => u * (u * u) + u - 10) (g' := fun u => 3 * (u * u) + 1) (m := 1)
    (by simp [cubicEq, Expr.vars]) (by simp [cubicEq, Expr.NoForeignExp]) (by intro u; simp [cubicEq, Smooth])
    (by
      intro u
      simp [cubicEq, realVal, BinOp.real, XNum.val?]
      rfl)
    (by
      intro u
      have := (((hasDerivAt_id u).mul ((hasDerivAt_id u).mul (hasDerivAt_id u))).add (hasDerivAt_id u)).sub_const 10
      refine (this.congr_deriv ?_).congr_of_eventuallyEq (.of_forall fun _ => rfl)
      simp
      ring)
    one_pos (by
      intro u
      have := mul_self_nonneg u
      rw [abs_of_pos (by linarith)]
      linarith)
  have hz : z = 2 := (h2 2 (by norm_num)).symm
  subst hz
  intro R
  obtain ⟨M, hM⟩ := h3 R
  refine ⟨M, fun eps g1 g2 => ?_⟩
  obtain ⟨N, hN⟩ := hM eps g1 g2
  refine ⟨N, fun cfg g3 g4 lsFuel fuel hls hfu t u ht hu => ?_⟩
  obtain ⟨t', u', r1, r2, r3, r4⟩ := hN cfg g3 g4 lsFuel fuel hls hfu t u ht hu
  exact ⟨t', u', r1, r2, by simpa using r4⟩

/-- `4 x + x^3 + y - 1 = 0, x + 2 y = 0`: the critical point of `2 x^2 + x^4 / 4 + x y + y^2 - x` -/
noncomputable def convexEqs : Matrix (Fin 2) (Fin 1) (Expr (XNum ℝ)) := Matrix.of fun i _ =>
  if i = 0 then .bin .sub (.bin .add (.bin .add (.bin .mul (.num (.fin 4)) (.var ['x'])) (.bin .mul (.var ['x']) (.bin .mul (.var ['x']) (.var ['x']))))
    (.var ['y'])) (.num (.fin 1))
  else .bin .add (.var ['x']) (.bin .mul (.num (.fin 2)) (.var ['y']))

/-- The conditions of C123_convex hold for it, with `m = 1`. -/
example : Everywhere [['x'], ['y']] convexEqs (fun u => ![4 * u 0 + u 0 * (u 0 * u 0) + u 1 - 1, u 0 + 2 * u 1])
      (fun u => !![4 + 3 * (u 0 * u 0), 1; 1, 2]) ∧
    (∀ u : Fin 2 → ℝ, (!![4 + 3 * (u 0 * u 0), 1; 1, 2] : Matrix (Fin 2) (Fin 2) ℝ)ᵀ = !![4 + 3 * (u 0 * u 0), 1; 1, 2]) ∧
    ∀ u v : Fin 2 → ℝ, 1 * ∑ i, v i ^ 2 ≤ ∑ i, v i * (!![4 + 3 * (u 0 * u 0), 1; 1, 2] : Matrix (Fin 2) (Fin 2) ℝ).mulVec v i := by
  refine ⟨fun u => ⟨⟨?_, ?_, ?_⟩, ?_, ?_⟩, fun u => ?_, fun u v => ?_⟩
  · intro i; fin_cases i <;> simp [convexEqs, Expr.vars]
  · intro i; fin_cases i <;> simp [convexEqs, Expr.NoForeignExp]
  · intro i; fin_cases i <;> simp [convexEqs, Smooth]
  · have hx : assign [['x'], ['y']] u ['x'] = u 0 := rfl
    have hy : assign [['x'], ['y']] u ['y'] = u 1 := rfl
    intro i
    fin_cases i <;> simp [convexEqs, realVal, BinOp.real, XNum.val?, hx, hy]
  · have hx : assign [['x'], ['y']] u ['x'] = u 0 := rfl
    have hy : assign [['x'], ['y']] u ['y'] = u 1 := rfl
    intro i j
    fin_cases i <;> fin_cases j
    · refine ⟨fun s => 4 * s + s * (s * s) + u 1 - 1, .of_forall fun s => by simp [convexEqs, realVal, BinOp.real, XNum.val?, at_, hy], ?_⟩
      show HasDerivAt _ _ (u 0)
      have := ((((hasDerivAt_id (u 0)).const_mul 4).add ((hasDerivAt_id (u 0)).mul ((hasDerivAt_id (u 0)).mul (hasDerivAt_id (u 0))))).add_const (u 1)).sub_const 1
      refine (this.congr_deriv ?_).congr_of_eventuallyEq (.of_forall fun _ => rfl)
      simp
      ring
    · refine ⟨fun s => 4 * u 0 + u 0 * (u 0 * u 0) + s - 1, .of_forall fun s => by simp [convexEqs, realVal, BinOp.real, XNum.val?, at_, hx], ?_⟩
      show HasDerivAt _ _ (u 1)
      have := ((hasDerivAt_id (u 1)).const_add (4 * u 0 + u 0 * (u 0 * u 0))).sub_const 1
      exact this.congr_of_eventuallyEq (.of_forall fun _ => rfl)
    · refine ⟨fun s => s + 2 * u 1, .of_forall fun s => by simp [convexEqs, realVal, BinOp.real, XNum.val?, at_, hy], ?_⟩
      show HasDerivAt _ _ (u 0)
      exact ((hasDerivAt_id (u 0)).add_const (2 * u 1)).congr_of_eventuallyEq (.of_forall fun _ => rfl)
    · refine ⟨fun s => u 0 + 2 * s, .of_forall fun s => by simp [convexEqs, realVal, BinOp.real, XNum.val?, at_, hx], ?_⟩
      show HasDerivAt _ _ (u 1)
      have := ((hasDerivAt_id (u 1)).const_mul 2).const_add (u 0)
      refine (this.congr_deriv ?_).congr_of_eventuallyEq (.of_forall fun _ => rfl)
      simp
  · ext i j; fin_cases i <;> fin_cases j <;> rfl
  · simp [Matrix.mulVec, dotProduct, Fin.sum_univ_two]
    nlinarith [sq_nonneg (v 0 + v 1), mul_nonneg (mul_self_nonneg (u 0)) (mul_self_nonneg (v 0)), sq_nonneg (v 0)]

end Tom
