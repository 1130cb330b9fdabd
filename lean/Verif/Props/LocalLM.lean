import Verif.Props.Local
import Verif.Lemmas.LMLocal
/-
C73 for the Levenberg-Marquardt method.
-/
set_option linter.unusedSectionVars false
namespace Tom
open Matrix

theorem lit_real : (Dbl.ofInt 1 : XNum ℝ) = fin (1 : ℝ) ∧ (lit 4 (-1) : XNum ℝ) = fin (2 / 5 : ℝ) ∧ (lit 5 (-1) : XNum ℝ) = fin (1 / 2 : ℝ) ∧
    (lit 1 (-5) : XNum ℝ) = .fin (1 / 100000) := by
  simp only [lit, Dbl.ofInt, Dbl.ofDec, fin, Option.getD_some, XNum.fin.injEq]
  norm_num

/-- the first round of the inner loop on an affine system `A u + b`, up to the line search -/
theorem affine_round {vars : List Str} {f : Matrix (Fin vars.length) (Fin 1) (Expr (XNum ℝ))} {A : Matrix (Fin vars.length) (Fin vars.length) ℝ}
    {b : Fin vars.length → ℝ} (hf : ∀ u, IsValue f vars u (A.mulVec u + b)) (hs : ∀ u, SmoothAt f vars u) (mu : ℝ) (hmu : 0 < mu) :
    ∃ e : ℝ, 0 < e ∧ ∀ (cfg : Config (XNum ℝ)) (eps : ℝ), 0 < eps → eps ≤ e → cfg.epsilon = .fin eps →
      ∀ (J : SymMat (XNum ℝ)), (symOf f).jacobian cfg vars = .ok J → ∀ (t : VarsTable (XNum ℝ)) (u : Fin vars.length → ℝ), TableAt t vars u →
        evalVec cfg (symOf f) t = .ok (ofVec (A.mulVec u + b)) ∧
        (∃ d, lmDirection cfg J (ofVec (A.mulVec u + b)) (.fin mu) t = .ok (ofVec d) ∧
          (Aᵀ * A + mu • (1 : Matrix (Fin vars.length) (Fin vars.length) ℝ)).mulVec d = -(Aᵀ.mulVec (A.mulVec u + b))) ∧
        (∀ v, lmF cfg (symOf f) t (ofVec v) = .ok (ofVec (A.mulVec v + b))) ∧ ∀ v : Fin vars.length → ℝ, lmDF cfg J t (ofVec v) = .ok (ofMatrix A) := by
  rcases Nat.eq_zero_or_pos vars.length with h0 | hn
  · exact ⟨1, one_pos, fun _ _ _ _ _ _ _ _ _ ht => absurd ht.pos (by omega)⟩
  obtain ⟨e, he, h⟩ := C36_C38_exact (α := XNum ℝ) hn (Aᵀ * A + mu • (1 : Matrix (Fin vars.length) (Fin vars.length) ℝ))
  refine ⟨e, he, fun cfg eps g1 g2 g3 J hJ t u ht => ?_⟩
  obtain ⟨E, rfl, hE, hA⟩ := jacobian_real hn cfg f vars hn J hJ
  have hm : ∀ (t : VarsTable (XNum ℝ)) u, TableAt t vars u → evalMat cfg (symOf E) t = .ok (ofMatrix A) := by
    intro t u ht
    obtain ⟨A', k1, k2⟩ := hA u (hs u)
    rw [jacobian_affine ht.nodup hf k1] at k2
    exact ht.evalMat hn hn cfg E (fun i j x hx => (hs u).1 i x (hE i j x hx)) k2
  refine ⟨ht.evalVec hn cfg f (hs u).1 (hf u), ?_, fun v => ?_, fun v => ?_⟩
  · rw [lmDirection_real hn (hm t u ht)]
    refine (h cfg eps _ g1 g2 g3).1 (normal_det (A := A) (mu := mu) (eps := mu / vars.length) ?_ fun i j => ?_)
    · rw [mul_div_cancel₀]; exact_mod_cast hn.ne'
    · rw [sub_self, abs_zero]; positivity
  · obtain ⟨t', h1, h2⟩ := ht.setValues v
    unfold lmF
    rw [h1, Res.bind_ok]
    exact h2.evalVec hn cfg f (hs v).1 (hf v)
  · obtain ⟨t', h1, h2⟩ := ht.setValues v
    unfold lmDF
    rw [h1, Res.bind_ok]
    exact hm t' v h2

/-- `y = 0`, `2.50002 x = 0` -/
noncomputable def crossed : Matrix (Fin 2) (Fin 1) (Expr (XNum ℝ)) := Matrix.of fun i _ =>
  if i = 0 then .var ['y'] else .bin .mul (.num (.fin (250002 / 100000))) (.var ['x'])

theorem crossed_spec : (∀ u, IsValue crossed [['x'], ['y']] u ((!![0, 1; 250002 / 100000, 0] : Matrix (Fin 2) (Fin 2) ℝ).mulVec u + 0)) ∧
    ∀ u, SmoothAt crossed [['x'], ['y']] u := by
  refine ⟨fun u i => ?_, fun u => ⟨?_, ?_, ?_⟩⟩
  · have hx : assign [['x'], ['y']] u ['x'] = u 0 := rfl
    have hy : assign [['x'], ['y']] u ['y'] = u 1 := rfl
    fin_cases i
    · simp [crossed, realVal, XNum.val?, hx, hy, Matrix.mulVec, dotProduct, Fin.sum_univ_two]
    · simp [crossed, realVal, BinOp.real, XNum.val?, hx, hy, Matrix.mulVec, dotProduct, Fin.sum_univ_two]
  · intro i; fin_cases i <;> simp [crossed, Expr.vars]
  · intro i; fin_cases i <;> simp [crossed, Expr.NoForeignExp]
  · intro i; fin_cases i <;> simp [crossed, Smooth]

/-- C73 fails for the Levenberg-Marquardt method: `y = 0, 2.50002 x = 0` is a linear system with an invertible matrix, its only root is
`(0, 0)`, but from `(0, s)`, however close to the root (unless the residual is below epsilon), `SolveByLM` runs forever: the line search
compares with `F + 0.4 a Jᵀ d` where it should use `J d`, and no step length passes.  (In exact arithmetic; in floating point the search
ends when the step no longer changes the sums.) -/
theorem C73_false_lm : ((∀ u, IsValue crossed [['x'], ['y']] u ((!![0, 1; 250002 / 100000, 0] : Matrix (Fin 2) (Fin 2) ℝ).mulVec u + 0)) ∧
      (!![0, 1; 250002 / 100000, 0] : Matrix (Fin 2) (Fin 2) ℝ).det ≠ 0) ∧
    ∃ e : ℝ, 0 < e ∧ ∀ (cfg : Config (XNum ℝ)) (eps : ℝ), 0 < eps → eps ≤ e → cfg.epsilon = .fin eps →
      ∀ (t : VarsTable (XNum ℝ)) (s : ℝ), TableAt t [['x'], ['y']] ![0, s] → eps ≤ |s| →
        ∀ lsFuel fuel, solveByLM cfg lsFuel fuel (symOf crossed) t = .diverge := by
  refine ⟨⟨crossed_spec.1, by norm_num [Matrix.det_fin_two]⟩, ?_⟩
  obtain ⟨e, he, h⟩ := affine_round crossed_spec.1 crossed_spec.2 (1 / 100000) (by norm_num)
  refine ⟨e, he, fun cfg eps g1 g2 g3 t s ht hs lsFuel fuel => ?_⟩
  obtain ⟨J, hJ⟩ := jacobian_returns (by omega) cfg crossed [['x'], ['y']] (by decide) ![0, s] (crossed_spec.2 _)
  obtain ⟨k1, ⟨d, k2, k3⟩, k4, k5⟩ := h cfg eps g1 g2 g3 J hJ t _ ht
  rw [lm_unfold cfg _ _ _ ht.1, ht.2.1, hJ, Res.bind_ok]
  cases fuel with
  | zero => rfl
  | succ fuel =>
    have hF : ((!![0, 1; 250002 / 100000, 0] : Matrix (Fin 2) (Fin 2) ℝ).mulVec ![0, s] + 0) = ![s, 0] := by
      ext i; fin_cases i <;> simp [Matrix.mulVec, dotProduct, Fin.sum_univ_two]
    have hd : d = ![0, -s * (100000 / 100001)] := by
      have e0 := congrFun k3 0
      have e1 := congrFun k3 1
      rw [hF] at e0 e1
      simp [Matrix.mulVec, dotProduct, Fin.sum_univ_two, Matrix.mul_apply, Matrix.one_apply] at e0 e1
      ext i; fin_cases i
      · show d 0 = 0
        rcases e0 with h | h
        · norm_num at h
        · exact h
      · show d 1 = -s * (100000 / 100001)
        linarith
    rw [hF] at k1 k2
    have k1' : evalVec cfg (symOf crossed) t = .ok (ofVec (![s, 0] : Fin 2 → ℝ)) := k1
    rw [lmOuter, k1', Res.bind_ok, g3, if_neg, lit_real.2.2.2, lmInner_succ]
    · erw [k2]
      rw [Res.bind_ok, ht.2.2]
      have := (C53 lit_real.1 lit_real.2.1 lit_real.2.2.1 (by simp) _ _ _ _ k4 k5 ![0, s] d).2.2 ?_ lsFuel
      · rw [this]; rfl
      · intro k hk
        unfold ArmijoTest at hk
        have ha : 0 < (1 / 2 : ℝ) ^ k := by positivity
        have ha1 : (1 / 2 : ℝ) ^ k ≤ 1 := pow_le_one₀ (by norm_num) (by norm_num)
        have hs2 : 0 < s ^ 2 := by
          have : 0 < |s| := g1.trans_le hs
          rw [← sq_abs]; positivity
        subst hd
        generalize (1 / 2 : ℝ) ^ k = a at hk ha ha1
        have hL : (![0, s] + a • ![0, -s * (100000 / 100001)] : Fin 2 → ℝ) = ![0, s * (1 - a * (100000 / 100001))] := by
          ext i; fin_cases i
          · simp
          · simp; ring
        have hk : ∑ i : Fin 2, ((!![0, 1; 250002 / 100000, 0] : Matrix (Fin 2) (Fin 2) ℝ).mulVec (![0, s] + a • ![0, -s * (100000 / 100001)]) + 0) i ^ 2
            ≤ ∑ i : Fin 2, (((!![0, 1; 250002 / 100000, 0] : Matrix (Fin 2) (Fin 2) ℝ).mulVec ![0, s] + 0) i + 2 / 5 * a *
              ∑ k : Fin 2, (!![0, 1; 250002 / 100000, 0] : Matrix (Fin 2) (Fin 2) ℝ) k i * (![0, -s * (100000 / 100001)] : Fin 2 → ℝ) k) ^ 2 := hk
        rw [hL, hF] at hk
        simp [Matrix.mulVec, dotProduct, Fin.sum_univ_two] at hk
        have h1 : (s + -(2 / 5 * a * (250002 / 100000 * (s * (100000 / 100001))))) ^ 2 = s ^ 2 * (1 - a * (1000008 / 1000010)) ^ 2 := by ring
        rw [h1, mul_pow, mul_le_mul_iff_right₀ hs2, pow_le_pow_iff_left₀ (by nlinarith) (by nlinarith) (by norm_num)] at hk
        nlinarith
    · rw [eqNum_real _ _ g1, pi_norm_lt_iff g1]
      intro h
      have := h 0
      simp at this
      linarith

/-! ### Positive results -/

/-- the line search accepts the full step -/
theorem armijo_first {n : ℕ} (hn : 0 < n) {f df : Mat (XNum ℝ) → Res (Mat (XNum ℝ))} {x d F F' : Fin n → ℝ} {J : Matrix (Fin n) (Fin n) ℝ}
    (h1 : f (ofVec (x + d)) = .ok (ofVec F')) (h2 : f (ofVec x) = .ok (ofVec F)) (h3 : df (ofVec x) = .ok (ofMatrix J))
    (h : ∑ i, F' i ^ 2 ≤ ∑ i, (F i + 2 / 5 * ∑ k, J k i * d k) ^ 2) (fuel : ℕ) :
    armijo (fuel + 1) (ofVec x) (ofVec d) f df = .ok (fin 1) := by
  unfold armijo
  rw [armijoLoop, lit_real.1, lit_real.2.1, Exact.mul, ofVec_scaleLeft, one_smul]
  simp only [ofVec_add, Res.bind_ok, h1, h2, h3, C33_norm2 hn, ofMatrix_transpose hn hn, ofMatrix_scaleLeft, C33_mulVec hn hn, Exact.le]
  rw [if_pos]
  rw [decide_eq_true_iff, ← sum_sq, ← sum_sq]
  refine h.trans (le_of_eq (Finset.sum_congr rfl fun i _ => ?_))
  rw [Matrix.smul_mulVec, mul_one]
  simp [Matrix.mulVec, dotProduct]

/-- the outer loop, entered at a point close to a regular root -/
theorem lmOuter_near {vars : List Str} (hn : 0 < vars.length) (hnd : vars.Nodup) {f : Matrix (Fin vars.length) (Fin 1) (Expr (XNum ℝ))}
    {z : Fin vars.length → ℝ} (hs : SmoothAt f vars z) (hz : IsValue f vars z 0) {A : Matrix (Fin vars.length) (Fin vars.length) ℝ}
    (hA : IsJacobian f vars z A) (hdet : A.det ≠ 0)
    (htest : ∀ w, w ≠ 0 → ∑ i, A.mulVec (lmMap A (1 / 100000) w) i ^ 2 <
      ∑ i, (A.mulVec w + (2 / 5 : ℝ) • Aᵀ.mulVec (lmMap A (1 / 100000) w - w)) i ^ 2) :
    ∃ δ e : ℝ, 0 < δ ∧ 0 < e ∧ ∀ eps, 0 < eps → eps ≤ e → ∃ N : ℕ, ∀ (cfg : Config (XNum ℝ)), cfg.epsilon = .fin eps →
      (N : ℤ) ≤ cfg.maxIterations → ∀ (J : SymMat (XNum ℝ)), (symOf f).jacobian cfg vars = .ok J → ∀ (lsFuel innerFuel fuel : ℕ),
      0 < lsFuel → 0 < innerFuel → N < fuel →
      ∀ (t : VarsTable (XNum ℝ)) (u : Fin vars.length → ℝ), TableAt t vars u → ∑ i, (u i - z i) ^ 2 < δ →
        ∃ t' u' F, lmOuter cfg lsFuel innerFuel (symOf f) J fuel t t.values 0 = .ok t' ∧ TableAt t' vars u' ∧
          ∑ i, (u' i - z i) ^ 2 ≤ ∑ i, (u i - z i) ^ 2 ∧ IsValue f vars u' F ∧ ‖F‖ < eps := by
  obtain ⟨δ, e, θ, L, h1, h2, hθ0, hθ1, hL, h⟩ := lm_near hn hnd hs hz hA hdet (mu := 1 / 100000) (by norm_num) htest
  have hn' : (0 : ℝ) < vars.length := by exact_mod_cast hn
  refine ⟨δ, min e (1 / 100000 / vars.length), h1, by positivity, fun eps g1 g2 => ?_⟩
  obtain ⟨N, hN⟩ := exists_pow_lt_of_lt_one (div_pos (pow_pos g1 2) (mul_pos hL h1)) hθ1
  refine ⟨N, fun cfg g3 g4 J hJ lsFuel innerFuel fuel hls hin hfuel => ?_⟩
  obtain ⟨lsFuel, rfl⟩ : ∃ m, lsFuel = m + 1 := ⟨lsFuel - 1, by omega⟩
  obtain ⟨innerFuel, rfl⟩ : ∃ m, innerFuel = m + 1 := ⟨innerFuel - 1, by omega⟩
  obtain ⟨E, rfl, hE, hJac⟩ := jacobian_real hn cfg f vars hn J hJ
  have hmu : vars.length * eps ≤ (1 / 100000 : ℝ) := by
    have := g2.trans (min_le_right _ _)
    rw [le_div_iff₀ hn'] at this
    linarith
  have key : ∀ (k it fuel : ℕ), ((it + k : ℕ) : ℤ) ≤ cfg.maxIterations → k < fuel →
      ∀ (t : VarsTable (XNum ℝ)) (u : Fin vars.length → ℝ), TableAt t vars u → ∑ i, (u i - z i) ^ 2 < δ →
        L * (∑ i, (u i - z i) ^ 2) * θ ^ k < eps ^ 2 →
        ∃ t' u' F, lmOuter cfg (lsFuel + 1) (innerFuel + 1) (symOf f) (symOf E) fuel t (ofVec u) it = .ok t' ∧ TableAt t' vars u' ∧
          ∑ i, (u' i - z i) ^ 2 ≤ ∑ i, (u i - z i) ^ 2 ∧ IsValue f vars u' F ∧ ‖F‖ < eps := by
    intro k
    induction k with
    | zero =>
      intro it fuel hit hf t u ht hu hk
      obtain ⟨fuel, rfl⟩ : ∃ m, fuel = m + 1 := ⟨fuel - 1, by omega⟩
      obtain ⟨k1, F, k2, k3, k4⟩ := h u hu
      rw [pow_zero, mul_one] at hk
      have hF : ‖F‖ < eps := lt_of_pow_lt_pow_left₀ 2 g1.le ((norm_sq_le F).trans_lt (k3.trans_lt hk))
      refine ⟨t, u, F, ?_, ht, le_rfl, k2, hF⟩
      rw [lmOuter, ht.evalVec hn cfg f k1.1 k2, Res.bind_ok, g3, if_pos ((eqNum_real F eps g1).mpr hF)]
    | succ k ih =>
      intro it fuel hit hf t u ht hu hk
      obtain ⟨fuel, rfl⟩ : ∃ m, fuel = m + 1 := ⟨fuel - 1, by omega⟩
      obtain ⟨k1, F, k2, k3, k4⟩ := h u hu
      have e1 := ht.evalVec hn cfg f k1.1 k2
      by_cases hF : ‖F‖ < eps
      · refine ⟨t, u, F, ?_, ht, le_rfl, k2, hF⟩
        rw [lmOuter, e1, Res.bind_ok, g3, if_pos ((eqNum_real F eps g1).mpr hF)]
      · have hne : u ≠ z := by
          rintro rfl
          have : F = 0 := by
            funext i
            have := (k2 i).symm.trans (hz i)
            simpa using this
          rw [this, norm_zero] at hF
          exact hF g1
        obtain ⟨A', hA1, hA2⟩ := hJac u k1
        have e2 := ht.evalMat hn hn cfg E (fun i j x hx => k1.1 i x (hE i j x hx)) hA2
        obtain ⟨d, h3, ⟨B, h4, h5⟩, _⟩ := C36_nonsingular cfg g1 g3 hn (normalMat A' (1 / 100000)) (-(A'ᵀ.mulVec F)) fun B hB => normal_det hmu hB
        obtain ⟨k5, F', k6, k7, k8, k9⟩ := k4 eps A' B d (g2.trans (min_le_left _ _)) hA1 h4 h5 hne
        obtain ⟨t1, h6, h7⟩ := ht.setValues (u + d)
        obtain ⟨t0, h8, h9⟩ := ht.setValues u
        have e3 := h7.evalVec hn cfg f k6.1 k7
        have s1 : lmF cfg (symOf f) t (ofVec (u + d)) = .ok (ofVec F') := by unfold lmF; rw [h6, Res.bind_ok, e3]
        have s2 : lmF cfg (symOf f) t (ofVec u) = .ok (ofVec F) := by
          unfold lmF; rw [h8, Res.bind_ok]; exact h9.evalVec hn cfg f k1.1 k2
        have s3 : lmDF cfg (symOf E) t (ofVec u) = .ok (ofMatrix A') := by
          unfold lmDF; rw [h8, Res.bind_ok]; exact h9.evalMat hn hn cfg E (fun i j x hx => k1.1 i x (hE i j x hx)) hA2
        have s4 : lmDirection cfg (symOf E) (ofVec F) (.fin (1 / 100000)) t = .ok (ofVec d) := by
          rw [lmDirection_real hn e2]; exact h3
        have s5 := armijo_first hn s1 s2 s3 k9 lsFuel
        have s6 : lmInner cfg (lsFuel + 1) (symOf f) (symOf E) (ofVec u) (ofVec F) (innerFuel + 1) t (lit 1 (-5)) it = .ok (ofVec d, ofVec F', t1, it) := by
          rw [lmInner_succ, lit_real.2.2.2, s4, Res.bind_ok, s5, Res.bind_ok, ofVec_scaleLeft, one_smul, ofVec_add, Res.bind_ok, h6, Res.bind_ok,
            e3, Res.bind_ok, C33_norm2 hn, Res.bind_ok, C33_norm2 hn, Res.bind_ok, Exact.lt, if_pos]
          rw [decide_eq_true_iff, ← sum_sq, ← sum_sq]
          exact k8
        obtain ⟨t2, h10, h11⟩ := h7.setValues (u + d)
        have hle : ∑ i, (u i + d i - z i) ^ 2 ≤ ∑ i, (u i - z i) ^ 2 := by
          refine k5.trans ?_
          have h12 : 0 ≤ ∑ i, (u - z) i ^ 2 := Finset.sum_nonneg fun i _ => sq_nonneg _
          show _ ≤ ∑ i, (u - z) i ^ 2
          nlinarith
        obtain ⟨t', u', F'', r1, r2, r3, r4, r5⟩ := ih (it + 1) fuel (by push_cast at hit ⊢; omega) (by omega) t2 (u + d) h11 (hle.trans_lt hu) (by
          refine lt_of_le_of_lt ?_ hk
          have : L * (∑ i, (u i - z i) ^ 2) * θ ^ (k + 1) = L * (θ * ∑ i, (u i - z i) ^ 2) * θ ^ k := by rw [pow_succ]; ring
          rw [this]
          exact mul_le_mul_of_nonneg_right (mul_le_mul_of_nonneg_left k5 hL.le) (by positivity))
        refine ⟨t', u', F'', ?_, r2, r3.trans hle, r4, r5⟩
        rw [lmOuter, e1, Res.bind_ok, g3, if_neg (fun h' => hF ((eqNum_real F eps g1).mp h')), s6, Res.bind_ok]
        simp only [ofVec_add, Res.bind_ok]
        rw [h10, Res.bind_ok, if_neg (by push_cast at hit; omega)]
        exact r1
  intro t u ht hu
  rw [ht.2.2]
  refine key N 0 fuel (by push_cast; omega) hfuel t u ht hu ?_
  have hp : 0 < L * δ := mul_pos hL h1
  have := (lt_div_iff₀ hp).mp hN
  calc L * (∑ i, (u i - z i) ^ 2) * θ ^ N ≤ L * δ * θ ^ N :=
        mul_le_mul_of_nonneg_right (mul_le_mul_of_nonneg_left hu.le hL.le) (by positivity)
    _ < eps ^ 2 := by linarith

/-- C73, partial, Levenberg-Marquardt: let `z` be a regular root with Jacobian `A` at which the line search passes to first order: with
`mu = 1e-5`, for every error `w ≠ 0`, the error `x = mu (AᵀA + mu I)⁻¹ w` after a full step on the linearised system is such that
`|A x| < |A w + 0.4 Aᵀ (x - w)|`.  Then `SolveByLM`, started close enough to `z`, returns a point that is not farther from `z` than the
initial values (in the Euclidean norm), with residuals below epsilon.  Missing: the condition on the line search (`C73_false_lm` is a
linear system where it fails). -/
theorem C73_lm_partial {vars : List Str} (hn : 0 < vars.length) (hnd : vars.Nodup) {f : Matrix (Fin vars.length) (Fin 1) (Expr (XNum ℝ))}
    {z : Fin vars.length → ℝ} (hs : SmoothAt f vars z) (hz : IsValue f vars z 0) {A : Matrix (Fin vars.length) (Fin vars.length) ℝ}
    (hA : IsJacobian f vars z A) (hdet : A.det ≠ 0)
    (htest : ∀ w x, w ≠ 0 → Aᵀ.mulVec (A.mulVec x) + (1 / 100000 : ℝ) • x = (1 / 100000 : ℝ) • w →
      ∑ i, A.mulVec x i ^ 2 < ∑ i, (A.mulVec w i + 2 / 5 * Aᵀ.mulVec (x - w) i) ^ 2) :
    ∃ δ e : ℝ, 0 < δ ∧ 0 < e ∧ ∀ eps, 0 < eps → eps ≤ e → ∃ N : ℕ, ∀ (cfg : Config (XNum ℝ)), cfg.epsilon = .fin eps →
      (N : ℤ) ≤ cfg.maxIterations → ∀ lsFuel fuel : ℕ, 0 < lsFuel → N < fuel →
      ∀ (t : VarsTable (XNum ℝ)) (u : Fin vars.length → ℝ), TableAt t vars u → ∑ i, (u i - z i) ^ 2 < δ →
        ∃ t' u' F, solveByLM cfg lsFuel fuel (symOf f) t = .ok t' ∧ TableAt t' vars u' ∧
          ∑ i, (u' i - z i) ^ 2 ≤ ∑ i, (u i - z i) ^ 2 ∧ IsValue f vars u' F ∧ ‖F‖ < eps := by
  obtain ⟨δ, e, h1, h2, h⟩ := lmOuter_near hn hnd hs hz hA hdet fun w hw => htest w _ hw (by
    have := normal_lmMap A (show (0 : ℝ) < 1 / 100000 by norm_num) w
    rwa [normalMat, add_mulVec, smul_mulVec, one_mulVec, ← mulVec_mulVec] at this)
  refine ⟨δ, e, h1, h2, fun eps g1 g2 => ?_⟩
  obtain ⟨N, hN⟩ := h eps g1 g2
  refine ⟨N, fun cfg g3 g4 lsFuel fuel hls hf t u ht hu => ?_⟩
  obtain ⟨J, hJ⟩ := jacobian_returns hn cfg f vars hn z hs
  obtain ⟨t', u', F, r1, r2⟩ := hN cfg g3 g4 J hJ lsFuel fuel fuel hls (by omega) hf t u ht hu
  refine ⟨t', u', F, ?_, r2⟩
  rw [lm_unfold cfg _ _ _ ht.1, ht.2.1, hJ, Res.bind_ok]
  exact r1

/-- C73 for the Levenberg-Marquardt method and systems whose Jacobian at the root is symmetric (one equation in one unknown; the
stationary points of a function): started close enough to a regular root, `SolveByLM` finds it. -/
theorem C73_lm_symm {vars : List Str} (hn : 0 < vars.length) (hnd : vars.Nodup) {f : Matrix (Fin vars.length) (Fin 1) (Expr (XNum ℝ))}
    {z : Fin vars.length → ℝ} (hs : SmoothAt f vars z) (hz : IsValue f vars z 0) {A : Matrix (Fin vars.length) (Fin vars.length) ℝ}
    (hA : IsJacobian f vars z A) (hdet : A.det ≠ 0) (hsym : Aᵀ = A) :
    ∃ δ e : ℝ, 0 < δ ∧ 0 < e ∧ ∀ eps, 0 < eps → eps ≤ e → ∃ N : ℕ, ∀ (cfg : Config (XNum ℝ)), cfg.epsilon = .fin eps →
      (N : ℤ) ≤ cfg.maxIterations → ∀ lsFuel fuel : ℕ, 0 < lsFuel → N < fuel →
      ∀ (t : VarsTable (XNum ℝ)) (u : Fin vars.length → ℝ), TableAt t vars u → ∑ i, (u i - z i) ^ 2 < δ →
        ∃ t' u' F, solveByLM cfg lsFuel fuel (symOf f) t = .ok t' ∧ TableAt t' vars u' ∧
          ∑ i, (u' i - z i) ^ 2 ≤ ∑ i, (u i - z i) ^ 2 ∧ IsValue f vars u' F ∧ ‖F‖ < eps := by
  refine C73_lm_partial hn hnd hs hz hA hdet fun w x hw hx => ?_
  have hmu : (0 : ℝ) < 1 / 100000 := by norm_num
  have hxe : x = lmMap A (1 / 100000) w := by
    have h1 := normal_lmMap A hmu w
    rw [← hx] at h1
    have h2 : (normalMat A (1 / 100000)).mulVec (lmMap A (1 / 100000) w - x) = 0 := by
      rw [mulVec_sub, h1, normalMat, add_mulVec, smul_mulVec, one_mulVec, ← mulVec_mulVec, sub_self]
    by_contra hne
    exact regular_ne (normalMat_det A hmu) (sub_ne_zero.mpr fun h => hne h.symm) h2
  rw [hxe]
  exact lmMap_symm hdet hsym hmu hw

/-- Unlike Newton-Raphson (`C73_false`), Levenberg-Marquardt finds the root 2 of the parabola from all initial values close to it. -/
example : ∃ δ e : ℝ, 0 < δ ∧ 0 < e ∧ ∀ eps, 0 < eps → eps ≤ e → ∃ N : ℕ, ∀ (cfg : Config (XNum ℝ)), cfg.epsilon = .fin eps →
    (N : ℤ) ≤ cfg.maxIterations → ∀ lsFuel fuel : ℕ, 0 < lsFuel → N < fuel → ∀ (t : VarsTable (XNum ℝ)) (u : ℝ),
      TableAt t [['x']] (fun _ => u) → (u - 2) ^ 2 < δ →
      ∃ t' u', solveByLM cfg lsFuel fuel (symOf parabola) t = .ok t' ∧ TableAt t' [['x']] (fun _ => u') ∧ (u' - 2) ^ 2 ≤ (u - 2) ^ 2 ∧
        |u' * u' - 4| < eps := by
  obtain ⟨⟨h1, h2, h3, h4⟩, -⟩ := C73_false
  obtain ⟨δ, e, k1, k2, h⟩ := C73_lm_symm (vars := [['x']]) (by simp) (by simp) h1 h2 h3 h4 (by ext i j; fin_cases i; fin_cases j; rfl)
  refine ⟨δ, e, k1, k2, fun eps g1 g2 => ?_⟩
  obtain ⟨N, hN⟩ := h eps g1 g2
  refine ⟨N, fun cfg g3 g4 lsFuel fuel g5 g6 t u ht hu => ?_⟩
  have hsum : ∀ g : Fin [['x']].length → ℝ, ∑ i, g i = g 0 := fun g => Fin.sum_univ_one g
  obtain ⟨t', u', F, r1, r2, r3, r4, r5⟩ := hN cfg g3 g4 lsFuel fuel g5 g6 t _ ht (by rw [hsum]; exact hu)
  have hu' : u' = fun _ => u' 0 := by
    funext i
    exact congrArg u' (Fin.fin_one_eq_zero i)
  rw [hsum, hsum] at r3
  refine ⟨t', u' 0, r1, hu' ▸ r2, r3, ?_⟩
  have hF : F 0 = u' 0 * u' 0 - 4 := by
    have := (r4 0).symm.trans (parabola_value u' 0)
    simpa using this
  rw [← hF]
  exact (norm_le_pi_norm F 0).trans_lt r5

end Tom
