import Verif.Props.LocalLM
import Mathlib.Analysis.InnerProductSpace.PiL2
/-
C95: the Levenberg-Marquardt method on systems of linear equations.
-/
set_option linter.unusedSectionVars false
namespace Tom
open Matrix

/-- the outer loop on an affine system -/
theorem lmOuter_affine {vars : List Str} (hn : 0 < vars.length) {f : Matrix (Fin vars.length) (Fin 1) (Expr (XNum ℝ))}
    {A : Matrix (Fin vars.length) (Fin vars.length) ℝ} {b z : Fin vars.length → ℝ} (hdet : A.det ≠ 0)
    (hf : ∀ u, IsValue f vars u (A.mulVec u + b)) (hs : ∀ u, SmoothAt f vars u) (hz : A.mulVec z + b = 0)
    (htest : ∀ w, w ≠ 0 → ∑ i, A.mulVec (lmMap A (1 / 100000) w) i ^ 2 ≤
      ∑ i, (A.mulVec w + (2 / 5 : ℝ) • Aᵀ.mulVec (lmMap A (1 / 100000) w - w)) i ^ 2) :
    ∃ e : ℝ, 0 < e ∧ ∀ eps R, 0 < eps → eps ≤ e → ∃ N : ℕ, ∀ (cfg : Config (XNum ℝ)), cfg.epsilon = .fin eps →
      (N : ℤ) ≤ cfg.maxIterations → ∀ (J : SymMat (XNum ℝ)), (symOf f).jacobian cfg vars = .ok J → ∀ (lsFuel innerFuel fuel : ℕ),
      0 < lsFuel → 0 < innerFuel → N < fuel →
      ∀ (t : VarsTable (XNum ℝ)) (u : Fin vars.length → ℝ), TableAt t vars u → ∑ i, (u i - z i) ^ 2 ≤ R →
        ∃ t' u', lmOuter cfg lsFuel innerFuel (symOf f) J fuel t t.values 0 = .ok t' ∧ TableAt t' vars u' ∧
          ∑ i, (u' i - z i) ^ 2 ≤ ∑ i, (u i - z i) ^ 2 ∧ ‖A.mulVec u' + b‖ < eps := by
  have hmu : (0 : ℝ) < 1 / 100000 := by norm_num
  obtain ⟨s, hs1, hsw⟩ := lmMap_error hdet hmu
  obtain ⟨L0, hL0, -, hLV⟩ := mulVec_bound A
  obtain ⟨e, he, hround⟩ := affine_round hf hs (1 / 100000) hmu
  have hn' : (0 : ℝ) < vars.length := by exact_mod_cast hn
  set θ : ℝ := 1 / s ^ 2 with hθ
  have hs0 : 0 < s := lt_trans one_pos hs1
  have hs2 : 1 < s ^ 2 := by nlinarith
  have hθ0 : 0 ≤ θ := by positivity
  have hθ1 : θ < 1 := by rw [hθ, div_lt_one (by positivity)]; exact hs2
  set L : ℝ := (vars.length * L0) ^ 2 with hLdef
  have hL : 0 < L := by positivity
  have hlin : ∀ u : Fin vars.length → ℝ, A.mulVec u + b = A.mulVec (u - z) := by
    intro u
    have : b = -A.mulVec z := by
      rw [eq_neg_iff_add_eq_zero, add_comm]; exact hz
    rw [this, mulVec_sub]; abel
  have hFb : ∀ u : Fin vars.length → ℝ, ‖A.mulVec u + b‖ ^ 2 ≤ L * ∑ i, (u i - z i) ^ 2 := by
    intro u
    rw [hlin]
    have h1 := hLV (u - z)
    have h2 := norm_sq_le (u - z)
    calc ‖A.mulVec (u - z)‖ ^ 2 ≤ (vars.length * L0 * ‖u - z‖) ^ 2 := pow_le_pow_left₀ (norm_nonneg _) h1 2
      _ = L * ‖u - z‖ ^ 2 := by rw [hLdef]; ring
      _ ≤ _ := mul_le_mul_of_nonneg_left h2 hL.le
  have hcontr : ∀ w, ∑ i, lmMap A (1 / 100000) w i ^ 2 ≤ θ * ∑ i, w i ^ 2 := by
    intro w
    by_cases hw : w = 0
    · subst hw; simp
    · have h1 := hsw w hw
      have h2 : ∑ i, (s • lmMap A (1 / 100000)) w i ^ 2 = s ^ 2 * ∑ i, lmMap A (1 / 100000) w i ^ 2 := by
        rw [Finset.mul_sum]
        refine Finset.sum_congr rfl fun i _ => ?_
        simp only [LinearMap.smul_apply, Pi.smul_apply, smul_eq_mul]
        ring
      rw [h2] at h1
      rw [hθ, div_mul_eq_mul_div, one_mul, le_div_iff₀ (by positivity)]
      linarith
  refine ⟨e, he, fun eps R g1 g2 => ?_⟩
  obtain ⟨N, hN⟩ := exists_pow_lt_of_lt_one (div_pos (pow_pos g1 2) (mul_pos hL (by positivity : (0 : ℝ) < max R 1))) hθ1
  refine ⟨N, fun cfg g3 g4 J hJ lsFuel innerFuel fuel hls hin hfuel => ?_⟩
  obtain ⟨lsFuel, rfl⟩ : ∃ m, lsFuel = m + 1 := ⟨lsFuel - 1, by omega⟩
  obtain ⟨innerFuel, rfl⟩ : ∃ m, innerFuel = m + 1 := ⟨innerFuel - 1, by omega⟩
  have key : ∀ (k it fuel : ℕ), ((it + k : ℕ) : ℤ) ≤ cfg.maxIterations → k < fuel →
      ∀ (t : VarsTable (XNum ℝ)) (u : Fin vars.length → ℝ), TableAt t vars u →
        L * (∑ i, (u i - z i) ^ 2) * θ ^ k < eps ^ 2 →
        ∃ t' u', lmOuter cfg (lsFuel + 1) (innerFuel + 1) (symOf f) J fuel t (ofVec u) it = .ok t' ∧ TableAt t' vars u' ∧
          ∑ i, (u' i - z i) ^ 2 ≤ ∑ i, (u i - z i) ^ 2 ∧ ‖A.mulVec u' + b‖ < eps := by
    intro k
    induction k with
    | zero =>
      intro it fuel hit hf' t u ht hk
      obtain ⟨fuel, rfl⟩ : ∃ m, fuel = m + 1 := ⟨fuel - 1, by omega⟩
      rw [pow_zero, mul_one] at hk
      have hF : ‖A.mulVec u + b‖ < eps := lt_of_pow_lt_pow_left₀ 2 g1.le ((hFb u).trans_lt hk)
      refine ⟨t, u, ?_, ht, le_rfl, hF⟩
      rw [lmOuter, (hround cfg eps g1 g2 g3 J hJ t u ht).1, Res.bind_ok, g3, if_pos ((eqNum_real _ eps g1).mpr hF)]
    | succ k ih =>
      intro it fuel hit hf' t u ht hk
      obtain ⟨fuel, rfl⟩ : ∃ m, fuel = m + 1 := ⟨fuel - 1, by omega⟩
      obtain ⟨e1, ⟨d, s4, hd⟩, s2, s3⟩ := hround cfg eps g1 g2 g3 J hJ t u ht
      by_cases hF : ‖A.mulVec u + b‖ < eps
      · refine ⟨t, u, ?_, ht, le_rfl, hF⟩
        rw [lmOuter, e1, Res.bind_ok, g3, if_pos ((eqNum_real _ eps g1).mpr hF)]
      · have hne : u - z ≠ 0 := by
          intro h0
          rw [hlin, h0, mulVec_zero, norm_zero] at hF
          exact hF g1
        -- the new error
        have hx : u + d - z = lmMap A (1 / 100000) (u - z) := by
          have h1 := normal_lmMap A hmu (u - z)
          have h2 : (normalMat A (1 / 100000)).mulVec (u + d - z) = (1 / 100000 : ℝ) • (u - z) := by
            have : u + d - z = (u - z) + d := by abel
            rw [this, mulVec_add]
            have hd' : (normalMat A (1 / 100000)).mulVec d = -(Aᵀ.mulVec (A.mulVec (u - z))) := by rw [← hlin]; exact hd
            rw [hd', normalMat, add_mulVec, smul_mulVec, one_mulVec, ← mulVec_mulVec]
            abel
          by_contra hc
          refine regular_ne (normalMat_det A hmu) (sub_ne_zero.mpr hc) ?_
          rw [mulVec_sub, h1, h2, sub_self]
        have hdw : d = lmMap A (1 / 100000) (u - z) - (u - z) := by rw [← hx]; abel
        obtain ⟨t1, h6, h7⟩ := ht.setValues (u + d)
        have e3 := (hround cfg eps g1 g2 g3 J hJ t1 _ h7).1
        have k8 : ∑ i, (A.mulVec (u + d) + b) i ^ 2 < ∑ i, (A.mulVec u + b) i ^ 2 := by
          rw [hlin, hlin, hx]; exact lmMap_residual hdet hmu hne
        have k9 : ∑ i, (A.mulVec (u + d) + b) i ^ 2 ≤ ∑ i, ((A.mulVec u + b) i + 2 / 5 * ∑ k, A k i * d k) ^ 2 := by
          have := htest (u - z) hne
          rw [← hdw, ← hx, ← hlin, ← hlin] at this
          refine this.trans (le_of_eq (Finset.sum_congr rfl fun i _ => ?_))
          simp [mulVec, dotProduct]
        have s5 := armijo_first hn (s2 (u + d)) (s2 u) (s3 u) k9 lsFuel
        have s6 : lmInner cfg (lsFuel + 1) (symOf f) J (ofVec u) (ofVec (A.mulVec u + b)) (innerFuel + 1) t (lit 1 (-5)) it
            = .ok (ofVec d, ofVec (A.mulVec (u + d) + b), t1, it) := by
          rw [lmInner_succ, lit_real.2.2.2, s4, Res.bind_ok, s5, Res.bind_ok, ofVec_scaleLeft, one_smul, ofVec_add, Res.bind_ok, h6, Res.bind_ok,
            e3, Res.bind_ok, C33_norm2 hn, Res.bind_ok, C33_norm2 hn, Res.bind_ok, Exact.lt, if_pos]
          rw [decide_eq_true_iff, ← sum_sq, ← sum_sq]
          exact k8
        obtain ⟨t2, h10, h11⟩ := h7.setValues (u + d)
        have k5 : ∑ i, ((u + d) i - z i) ^ 2 ≤ θ * ∑ i, (u i - z i) ^ 2 := by
          have := hcontr (u - z)
          rw [← hx] at this
          exact this
        have h12 : 0 ≤ ∑ i, (u i - z i) ^ 2 := Finset.sum_nonneg fun i _ => sq_nonneg _
        have hle : ∑ i, ((u + d) i - z i) ^ 2 ≤ ∑ i, (u i - z i) ^ 2 := k5.trans (by nlinarith)
        obtain ⟨t', u', r1, r2, r3, r4⟩ := ih (it + 1) fuel (by push_cast at hit ⊢; omega) (by omega) t2 (u + d) h11 (by
          refine lt_of_le_of_lt ?_ hk
          have : L * (∑ i, (u i - z i) ^ 2) * θ ^ (k + 1) = L * (θ * ∑ i, (u i - z i) ^ 2) * θ ^ k := by rw [pow_succ]; ring
          rw [this]
          exact mul_le_mul_of_nonneg_right (mul_le_mul_of_nonneg_left k5 hL.le) (by positivity))
        refine ⟨t', u', ?_, r2, r3.trans hle, r4⟩
        rw [lmOuter, e1, Res.bind_ok, g3, if_neg (fun h' => hF ((eqNum_real _ eps g1).mp h')), s6, Res.bind_ok]
        simp only [ofVec_add, Res.bind_ok]
        rw [h10, Res.bind_ok, if_neg (by push_cast at hit; omega)]
        exact r1
  intro t u ht hu
  rw [ht.2.2]
  refine key N 0 fuel (by push_cast; omega) hfuel t u ht ?_
  have hp : 0 < L * max R 1 := by positivity
  have := (lt_div_iff₀ hp).mp hN
  calc L * (∑ i, (u i - z i) ^ 2) * θ ^ N ≤ L * max R 1 * θ ^ N :=
        mul_le_mul_of_nonneg_right (mul_le_mul_of_nonneg_left (hu.trans (le_max_left _ _)) hL.le) (by positivity)
    _ < eps ^ 2 := by linarith

/-- the solution of an affine system -/
theorem affine_root {n : ℕ} {A : Matrix (Fin n) (Fin n) ℝ} (hdet : A.det ≠ 0) (b : Fin n → ℝ) : ∃ z, A.mulVec z + b = 0 := by
  refine ⟨-(A⁻¹.mulVec b), ?_⟩
  rw [mulVec_neg, mulVec_mulVec, Matrix.mul_nonsing_inv _ (Ne.isUnit hdet), one_mulVec, neg_add_cancel]

/-- C95 under the condition that the line search accepts full steps (the matrix `A` passes the test of `Armijo` for every error `w`): the
Levenberg-Marquardt method solves affine systems from every initial table.  What is missing in general is false (`C73_false_lm`). -/
theorem C95_partial {vars : List Str} (hn : 0 < vars.length) {f : Matrix (Fin vars.length) (Fin 1) (Expr (XNum ℝ))}
    {A : Matrix (Fin vars.length) (Fin vars.length) ℝ} {b : Fin vars.length → ℝ} (hdet : A.det ≠ 0)
    (hf : ∀ u, IsValue f vars u (A.mulVec u + b)) (hs : ∀ u, SmoothAt f vars u)
    (htest : ∀ w x, w ≠ 0 → Aᵀ.mulVec (A.mulVec x) + (1 / 100000 : ℝ) • x = (1 / 100000 : ℝ) • w →
      ∑ i, A.mulVec x i ^ 2 ≤ ∑ i, (A.mulVec w i + 2 / 5 * Aᵀ.mulVec (x - w) i) ^ 2) :
    ∃ e : ℝ, 0 < e ∧ ∀ (eps R : ℝ), 0 < eps → eps ≤ e → ∃ N : ℕ, ∀ (cfg : Config (XNum ℝ)), cfg.epsilon = .fin eps →
      (N : ℤ) ≤ cfg.maxIterations → ∀ lsFuel fuel : ℕ, 0 < lsFuel → N < fuel →
      ∀ (t : VarsTable (XNum ℝ)) (u : Fin vars.length → ℝ), TableAt t vars u → (∀ i, |u i| ≤ R) →
        ∃ t' u', solveByLM cfg lsFuel fuel (symOf f) t = .ok t' ∧ TableAt t' vars u' ∧ ∀ i, |(A.mulVec u' + b) i| < eps := by
  obtain ⟨z, hz⟩ := affine_root hdet b
  have hmu : (0 : ℝ) < 1 / 100000 := by norm_num
  obtain ⟨e, he, h⟩ := lmOuter_affine hn hdet hf hs hz fun w hw => by
    refine (htest w _ hw ?_).trans (le_of_eq (Finset.sum_congr rfl fun i _ => by simp))
    have := normal_lmMap A hmu w
    rwa [normalMat, add_mulVec, smul_mulVec, one_mulVec, ← mulVec_mulVec] at this
  refine ⟨e, he, fun eps R g1 g2 => ?_⟩
  obtain ⟨N, hN⟩ := h eps (∑ i, (|R| + |z i|) ^ 2) g1 g2
  refine ⟨N, fun cfg g3 g4 lsFuel fuel hls hfu t u ht hu => ?_⟩
  obtain ⟨J, hJ⟩ := jacobian_returns hn cfg f vars hn u (hs u)
  obtain ⟨t', u', r1, r2, _, r4⟩ := hN cfg g3 g4 J hJ lsFuel fuel fuel hls (by omega) hfu t u ht (by
    refine Finset.sum_le_sum fun i _ => ?_
    rw [← sq_abs]
    refine pow_le_pow_left₀ (abs_nonneg _) ?_ 2
    calc |u i - z i| ≤ |u i| + |z i| := abs_sub _ _
      _ ≤ |R| + |z i| := by linarith [hu i, le_abs_self R])
  refine ⟨t', u', ?_, r2, fun i => (norm_le_pi_norm (A.mulVec u' + b) i).trans_lt r4⟩
  rw [lm_unfold cfg _ _ _ ht.1, ht.2.1, hJ, Res.bind_ok]
  exact r1

/-- C95 for symmetric matrices (one equation in one unknown; least squares; minima of quadratic functions) -/
theorem C95_symm {vars : List Str} (hn : 0 < vars.length) {f : Matrix (Fin vars.length) (Fin 1) (Expr (XNum ℝ))}
    {A : Matrix (Fin vars.length) (Fin vars.length) ℝ} {b : Fin vars.length → ℝ} (hdet : A.det ≠ 0)
    (hf : ∀ u, IsValue f vars u (A.mulVec u + b)) (hs : ∀ u, SmoothAt f vars u) (hsym : Aᵀ = A) :
    ∃ e : ℝ, 0 < e ∧ ∀ (eps R : ℝ), 0 < eps → eps ≤ e → ∃ N : ℕ, ∀ (cfg : Config (XNum ℝ)), cfg.epsilon = .fin eps →
      (N : ℤ) ≤ cfg.maxIterations → ∀ lsFuel fuel : ℕ, 0 < lsFuel → N < fuel →
      ∀ (t : VarsTable (XNum ℝ)) (u : Fin vars.length → ℝ), TableAt t vars u → (∀ i, |u i| ≤ R) →
        ∃ t' u', solveByLM cfg lsFuel fuel (symOf f) t = .ok t' ∧ TableAt t' vars u' ∧ ∀ i, |(A.mulVec u' + b) i| < eps := by
  refine C95_partial hn hdet hf hs fun w x hw hx => ?_
  have hxe : x = lmMap A (1 / 100000) w := by
    have hmu : (0 : ℝ) < 1 / 100000 := by norm_num
    have h1 := normal_lmMap A hmu w
    rw [← hx] at h1
    have h2 : (normalMat A (1 / 100000)).mulVec (lmMap A (1 / 100000) w - x) = 0 := by
      rw [mulVec_sub, h1, normalMat, add_mulVec, smul_mulVec, one_mulVec, ← mulVec_mulVec, sub_self]
    by_contra hne
    exact regular_ne (normalMat_det A hmu) (sub_ne_zero.mpr fun h => hne h.symm) h2
  rw [hxe]
  exact (lmMap_symm hdet hsym (by norm_num) hw).le.trans (le_of_eq (Finset.sum_congr rfl fun i _ => by simp))

/-- a matrix stretches no vector more than its transpose does -/
theorem transpose_stretch {n : ℕ} {A : Matrix (Fin n) (Fin n) ℝ} {S : ℝ} (hS0 : 0 ≤ S)
    (hS : ∀ w : Fin n → ℝ, ∑ i, A.mulVec w i ^ 2 ≤ S ^ 2 * ∑ i, w i ^ 2) (v : Fin n → ℝ) :
    ∑ i, Aᵀ.mulVec v i ^ 2 ≤ S ^ 2 * ∑ i, v i ^ 2 := by
  simp only [sum_sq] at hS ⊢
  set y := Aᵀ.mulVec v with hy
  have h1 : y ⬝ᵥ y = v ⬝ᵥ A.mulVec y := by
    have h : y ⬝ᵥ y = Aᵀ.mulVec v ⬝ᵥ y := by rw [← hy]
    rw [h, mulVec_transpose, ← dotProduct_mulVec]
  have h2 : (v ⬝ᵥ A.mulVec y) ^ 2 ≤ (v ⬝ᵥ v) * (A.mulVec y ⬝ᵥ A.mulVec y) := by
    have := Finset.sum_mul_sq_le_sq_mul_sq Finset.univ v (A.mulVec y)
    simpa [dotProduct, pow_two] using this
  have h3 := hS y
  have hv := dot_self_nonneg v
  have hyy := dot_self_nonneg y
  by_contra hc
  push Not at hc
  have hpos : 0 < y ⬝ᵥ y := lt_of_le_of_lt (by positivity) hc
  rw [← h1] at h2
  have h4 : (y ⬝ᵥ y) ^ 2 ≤ (v ⬝ᵥ v) * (S ^ 2 * (y ⬝ᵥ y)) := h2.trans (mul_le_mul_of_nonneg_left h3 hv)
  nlinarith

/-- the Euclidean norm -/
noncomputable def en {n : ℕ} (v : Fin n → ℝ) : ℝ := √(∑ i, v i ^ 2)

theorem en_sq {n : ℕ} (v : Fin n → ℝ) : en v ^ 2 = ∑ i, v i ^ 2 := Real.sq_sqrt (Finset.sum_nonneg fun i _ => sq_nonneg _)
theorem en_nonneg {n : ℕ} (v : Fin n → ℝ) : 0 ≤ en v := Real.sqrt_nonneg _
theorem en_eq {n : ℕ} (v : Fin n → ℝ) : en v = ‖(WithLp.toLp 2 v : EuclideanSpace ℝ (Fin n))‖ := by
  rw [EuclideanSpace.norm_eq]
  simp [en]

theorem en_add_le {n : ℕ} (v w : Fin n → ℝ) : en (v + w) ≤ en v + en w := by
  rw [en_eq, en_eq, en_eq]
  exact norm_add_le (WithLp.toLp 2 v : EuclideanSpace ℝ (Fin n)) (WithLp.toLp 2 w)

theorem en_smul {n : ℕ} (c : ℝ) (v : Fin n → ℝ) : en (c • v) = |c| * en v := by
  rw [en_eq, en_eq, ← Real.norm_eq_abs]
  exact norm_smul c (WithLp.toLp 2 v : EuclideanSpace ℝ (Fin n))

theorem en_le {n m : ℕ} {v : Fin n → ℝ} {w : Fin m → ℝ} {c : ℝ} (hc : 0 ≤ c) (h : ∑ i, v i ^ 2 ≤ c ^ 2 * ∑ i, w i ^ 2) : en v ≤ c * en w := by
  rw [← en_sq, ← en_sq, ← mul_pow] at h
  exact le_of_sq_le_sq h (mul_nonneg hc (en_nonneg w))

/-- the test of the line search is passed by matrices that stretch no direction more than 2.5 times (nearly) as much as another -/
theorem conditioned_test {n : ℕ} {A : Matrix (Fin n) (Fin n) ℝ} {s S : ℝ} (hS0 : 0 ≤ S) (hsS : 2 / 5 * S + 16 / 10000 ≤ s)
    (hlo : ∀ w : Fin n → ℝ, s ^ 2 * ∑ i, w i ^ 2 ≤ ∑ i, A.mulVec w i ^ 2)
    (hhi : ∀ w : Fin n → ℝ, ∑ i, A.mulVec w i ^ 2 ≤ S ^ 2 * ∑ i, w i ^ 2) (w x : Fin n → ℝ) (hw : w ≠ 0)
    (hx : Aᵀ.mulVec (A.mulVec x) + (1 / 100000 : ℝ) • x = (1 / 100000 : ℝ) • w) :
    ∑ i, A.mulVec x i ^ 2 < ∑ i, (A.mulVec w i + 2 / 5 * Aᵀ.mulVec (x - w) i) ^ 2 := by
  have hs0 : 0 ≤ s := by linarith
  have hdot : (A.mulVec x ⬝ᵥ A.mulVec x) + 1 / 100000 * (x ⬝ᵥ x) = 1 / 100000 * (x ⬝ᵥ w) := by
    have := congrArg (fun v => x ⬝ᵥ v) hx
    simp only [dotProduct_add, dotProduct_smul, smul_eq_mul] at this
    rw [← this, mulVec_transpose, dotProduct_comm x (A.mulVec x ᵥ* A), ← dotProduct_mulVec]
  have hcs : x ⬝ᵥ w ≤ en x * en w := by
    have h := Finset.sum_mul_sq_le_sq_mul_sq Finset.univ x w
    rw [← en_sq, ← en_sq, ← mul_pow] at h
    exact le_of_sq_le_sq h (mul_nonneg (en_nonneg _) (en_nonneg _))
  rw [← sum_sq, ← sum_sq, ← en_sq, ← en_sq] at hdot
  have hwpos : 0 < en w := by
    refine lt_of_le_of_ne (en_nonneg w) fun h => ?_
    have h1 := dot_pos hw
    rw [← sum_sq, ← en_sq, ← h] at h1
    norm_num at h1
  have h1 : en (A.mulVec x) < 16 / 10000 * en w := by
    refine lt_of_pow_lt_pow_left₀ 2 (by positivity) ?_
    nlinarith [sq_nonneg (en x - en w / 2)]
  have h2 : en (x - w) ≤ en w := by
    refine le_of_sq_le_sq ?_ (en_nonneg w)
    have e1 : en (x - w) ^ 2 = en x ^ 2 - 2 * (x ⬝ᵥ w) + en w ^ 2 := by
      rw [en_sq, en_sq, en_sq, sum_sq, sum_sq, sum_sq, sub_dotProduct, dotProduct_sub, dotProduct_sub, dotProduct_comm w x]
      ring
    nlinarith [sq_nonneg (en (A.mulVec x)), sq_nonneg (en x)]
  have h3 : s * en w ≤ en (A.mulVec w) := by
    refine le_of_sq_le_sq ?_ (en_nonneg _)
    rw [mul_pow, en_sq, en_sq]; exact hlo w
  have h4 : en (Aᵀ.mulVec (x - w)) ≤ S * en w :=
    (en_le hS0 (transpose_stretch hS0 hhi (x - w))).trans (mul_le_mul_of_nonneg_left h2 hS0)
  have h5 : en (A.mulVec w) ≤ en (A.mulVec w + (2 / 5 : ℝ) • Aᵀ.mulVec (x - w)) + 2 / 5 * en (Aᵀ.mulVec (x - w)) := by
    have := en_add_le (A.mulVec w + (2 / 5 : ℝ) • Aᵀ.mulVec (x - w)) ((-(2 / 5) : ℝ) • Aᵀ.mulVec (x - w))
    rw [en_smul, neg_smul, add_neg_cancel_right, abs_neg, abs_of_pos (by norm_num)] at this
    exact this
  have h6 : en (A.mulVec x) < en (A.mulVec w + (2 / 5 : ℝ) • Aᵀ.mulVec (x - w)) := by nlinarith
  have h7 := pow_lt_pow_left₀ h6 (en_nonneg _) (by norm_num : 2 ≠ 0)
  rw [en_sq, en_sq] at h7
  refine h7.trans_le (le_of_eq (Finset.sum_congr rfl fun i _ => by simp))

theorem conditioned_det {n : ℕ} {A : Matrix (Fin n) (Fin n) ℝ} {s : ℝ} (hs : 0 < s)
    (hlo : ∀ w : Fin n → ℝ, s ^ 2 * ∑ i, w i ^ 2 ≤ ∑ i, A.mulVec w i ^ 2) : A.det ≠ 0 := by
  intro h
  obtain ⟨v, hv, h0⟩ := Matrix.exists_mulVec_eq_zero_iff.mpr h
  have h1 := hlo v
  rw [h0, sum_sq v] at h1
  have h2 := dot_pos hv
  simp at h1
  nlinarith [pow_pos hs 2]

/-- C95 for well-conditioned matrices: `A` stretches every direction by a factor between `s` and `S`, where `0.4 S + 0.0016 <= s` (for
`s` not too small: a condition number below 2.5).  The system `crossed` of `C73_false_lm`, on which `SolveByLM` does not end, has
`s = 1` and `S = 2.50002`, so 2.5 cannot be raised. -/
theorem C95_conditioned {vars : List Str} (hn : 0 < vars.length) {f : Matrix (Fin vars.length) (Fin 1) (Expr (XNum ℝ))}
    {A : Matrix (Fin vars.length) (Fin vars.length) ℝ} {b : Fin vars.length → ℝ}
    (hf : ∀ u, IsValue f vars u (A.mulVec u + b)) (hs : ∀ u, SmoothAt f vars u) {s S : ℝ} (hS0 : 0 ≤ S) (hsS : 2 / 5 * S + 16 / 10000 ≤ s)
    (hlo : ∀ w : Fin vars.length → ℝ, s ^ 2 * ∑ i, w i ^ 2 ≤ ∑ i, A.mulVec w i ^ 2)
    (hhi : ∀ w : Fin vars.length → ℝ, ∑ i, A.mulVec w i ^ 2 ≤ S ^ 2 * ∑ i, w i ^ 2) :
    ∃ e : ℝ, 0 < e ∧ ∀ (eps R : ℝ), 0 < eps → eps ≤ e → ∃ N : ℕ, ∀ (cfg : Config (XNum ℝ)), cfg.epsilon = .fin eps →
      (N : ℤ) ≤ cfg.maxIterations → ∀ lsFuel fuel : ℕ, 0 < lsFuel → N < fuel →
      ∀ (t : VarsTable (XNum ℝ)) (u : Fin vars.length → ℝ), TableAt t vars u → (∀ i, |u i| ≤ R) →
        ∃ t' u', solveByLM cfg lsFuel fuel (symOf f) t = .ok t' ∧ TableAt t' vars u' ∧ ∀ i, |(A.mulVec u' + b) i| < eps :=
  C95_partial hn (conditioned_det (by linarith) hlo) hf hs fun w x hw hx => (conditioned_test hS0 hsS hlo hhi w x hw hx).le

/-- C73 for the Levenberg-Marquardt method and systems whose Jacobian at the root is well-conditioned in the same sense -/
theorem C73_lm_conditioned {vars : List Str} (hn : 0 < vars.length) (hnd : vars.Nodup) {f : Matrix (Fin vars.length) (Fin 1) (Expr (XNum ℝ))}
    {z : Fin vars.length → ℝ} (hs : SmoothAt f vars z) (hz : IsValue f vars z 0) {A : Matrix (Fin vars.length) (Fin vars.length) ℝ}
    (hA : IsJacobian f vars z A) {s S : ℝ} (hS0 : 0 ≤ S) (hsS : 2 / 5 * S + 16 / 10000 ≤ s)
    (hlo : ∀ w : Fin vars.length → ℝ, s ^ 2 * ∑ i, w i ^ 2 ≤ ∑ i, A.mulVec w i ^ 2)
    (hhi : ∀ w : Fin vars.length → ℝ, ∑ i, A.mulVec w i ^ 2 ≤ S ^ 2 * ∑ i, w i ^ 2) :
    ∃ δ e : ℝ, 0 < δ ∧ 0 < e ∧ ∀ eps, 0 < eps → eps ≤ e → ∃ N : ℕ, ∀ (cfg : Config (XNum ℝ)), cfg.epsilon = .fin eps →
      (N : ℤ) ≤ cfg.maxIterations → ∀ lsFuel fuel : ℕ, 0 < lsFuel → N < fuel →
      ∀ (t : VarsTable (XNum ℝ)) (u : Fin vars.length → ℝ), TableAt t vars u → ∑ i, (u i - z i) ^ 2 < δ →
        ∃ t' u' F, solveByLM cfg lsFuel fuel (symOf f) t = .ok t' ∧ TableAt t' vars u' ∧
          ∑ i, (u' i - z i) ^ 2 ≤ ∑ i, (u i - z i) ^ 2 ∧ IsValue f vars u' F ∧ ‖F‖ < eps :=
  C73_lm_partial hn hnd hs hz hA (conditioned_det (by linarith) hlo) (conditioned_test hS0 hsS hlo hhi)

/-- the system `2 x + y - 3 = 0, x - y = 0` (C70) has a symmetric matrix, so C95 applies to it ... -/
example : ∃ (A : Matrix (Fin 2) (Fin 2) ℝ) (b : Fin 2 → ℝ), A.det ≠ 0 ∧ (∀ u, IsValue lines [['x'], ['y']] u (A.mulVec u + b)) ∧
    (∀ u, SmoothAt lines [['x'], ['y']] u) ∧ Aᵀ = A :=
  ⟨!![2, 1; 1, -1], ![-3, 0], by norm_num [Matrix.det_fin_two], lines_spec.1, lines_spec.2, by ext i j; fin_cases i <;> fin_cases j <;> rfl⟩

/-- ... and a rotation, which is far from symmetric, stretches every direction by the factor 1 -/
example : ∀ w : Fin 2 → ℝ, 1 ^ 2 * ∑ i, w i ^ 2 ≤ ∑ i, (!![0, -1; 1, 0] : Matrix (Fin 2) (Fin 2) ℝ).mulVec w i ^ 2 ∧
    ∑ i, (!![0, -1; 1, 0] : Matrix (Fin 2) (Fin 2) ℝ).mulVec w i ^ 2 ≤ 1 ^ 2 * ∑ i, w i ^ 2 := by
  intro w
  simp [Matrix.mulVec, dotProduct, Fin.sum_univ_two]
  constructor <;> linarith

end Tom
