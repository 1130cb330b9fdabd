import Verif.Props.LMSteps
import Verif.Props.RealSolve
import Mathlib.LinearAlgebra.Matrix.ToLinearEquiv
import Mathlib.Algebra.Order.BigOperators.Ring.Finset
import Mathlib.Algebra.Order.Chebyshev
/-
C71 over the reals: the direction of the Levenberg-Marquardt method.
-/
set_option linter.unusedSectionVars false
namespace Tom
open Matrix

/-- The damping parameter after `k` rejected steps. -/
noncomputable def damping (k : ℕ) : ℝ := 10 ^ k / 10 ^ 5

theorem lmDamping_real (k : ℕ) : (lmDamping k : XNum ℝ) = .fin (damping k) := by
  induction k with
  | zero =>
    simp only [lmDamping, Function.iterate_zero, id, lit, Dbl.ofDec, Option.getD_some, XNum.fin.injEq, damping]
    norm_num
  | succ k ih =>
    have : (lmDamping (k + 1) : XNum ℝ) = Arith.mul (lmDamping k) (Dbl.ofInt 10) := Function.iterate_succ_apply' _ _ _
    rw [this, ih]
    show XNum.fin (damping k * ((10 : ℤ) : ℝ)) = _
    rw [XNum.fin.injEq, damping, damping, pow_succ]
    push_cast
    ring

theorem damping_pos (k : ℕ) : 0 < damping k := by unfold damping; positivity

/-- a matrix within epsilon of `AᵀA + mu I` is positive definite if `n * epsilon ≤ mu` -/
theorem normal_pos {n : ℕ} {A B : Matrix (Fin n) (Fin n) ℝ} {mu eps : ℝ} (hmu : n * eps ≤ mu)
    (hB : Near eps (Aᵀ * A + mu • (1 : Matrix (Fin n) (Fin n) ℝ)) B) {x : Fin n → ℝ} (hx : x ≠ 0) : 0 < x ⬝ᵥ B.mulVec x := by
  let M := Aᵀ * A + mu • (1 : Matrix (Fin n) (Fin n) ℝ)
  have hM : x ⬝ᵥ M.mulVec x = A.mulVec x ⬝ᵥ A.mulVec x + mu * (x ⬝ᵥ x) := by
    show x ⬝ᵥ (Aᵀ * A + mu • (1 : Matrix (Fin n) (Fin n) ℝ)).mulVec x = _
    rw [add_mulVec, dotProduct_add, smul_mulVec, one_mulVec, dotProduct_smul, smul_eq_mul, ← mulVec_mulVec, dotProduct_mulVec,
      vecMul_transpose]
  have hE : x ⬝ᵥ M.mulVec x - x ⬝ᵥ B.mulVec x = ∑ i, ∑ j, (M i j - B i j) * (x i * x j) := by
    simp only [dotProduct, mulVec, Finset.mul_sum, ← Finset.sum_sub_distrib]
    refine Finset.sum_congr rfl fun i _ => Finset.sum_congr rfl fun j _ => by ring
  obtain ⟨i0, hi0⟩ : ∃ i, x i ≠ 0 := by
    by_contra h
    push Not at h
    exact hx (funext h)
  have hlt : ∑ i, ∑ j, (M i j - B i j) * (x i * x j) < ∑ i, ∑ j, eps * (|x i| * |x j|) := by
    have hle : ∀ i j, (M i j - B i j) * (x i * x j) ≤ eps * (|x i| * |x j|) := fun i j => by
      refine (le_abs_self _).trans ?_
      rw [abs_mul, abs_mul]
      exact mul_le_mul_of_nonneg_right (hB i j).le (by positivity)
    refine Finset.sum_lt_sum (fun i _ => Finset.sum_le_sum fun j _ => hle i j) ⟨i0, Finset.mem_univ _, ?_⟩
    refine Finset.sum_lt_sum (fun j _ => hle i0 j) ⟨i0, Finset.mem_univ _, ?_⟩
    refine (le_abs_self _).trans_lt ?_
    rw [abs_mul, abs_mul]
    exact mul_lt_mul_of_pos_right (hB i0 i0) (by positivity)
  have hs : ∑ i, ∑ j, eps * (|x i| * |x j|) = eps * (∑ i, |x i|) ^ 2 := by
    rw [pow_two, Finset.sum_mul_sum, Finset.mul_sum]
    exact Finset.sum_congr rfl fun i _ => (Finset.mul_sum _ _ _).symm
  have hc : (∑ i, |x i|) ^ 2 ≤ n * (x ⬝ᵥ x) := by
    have := sq_sum_le_card_mul_sum_sq (s := (Finset.univ : Finset (Fin n))) (f := fun i => |x i|)
    simpa [dotProduct, sq_abs, pow_two] using this
  have he : 0 < eps := (abs_nonneg _).trans_lt (hB i0 i0)
  have h1 : eps * (∑ i, |x i|) ^ 2 ≤ mu * (x ⬝ᵥ x) := by
    have h2 : 0 ≤ x ⬝ᵥ x := by simp only [dotProduct]; exact Finset.sum_nonneg fun i _ => mul_self_nonneg _
    calc eps * (∑ i, |x i|) ^ 2 ≤ eps * (n * (x ⬝ᵥ x)) := mul_le_mul_of_nonneg_left hc he.le
      _ = n * eps * (x ⬝ᵥ x) := by ring
      _ ≤ mu * (x ⬝ᵥ x) := mul_le_mul_of_nonneg_right hmu h2
  have h3 : 0 ≤ A.mulVec x ⬝ᵥ A.mulVec x := by simp only [dotProduct]; exact Finset.sum_nonneg fun i _ => mul_self_nonneg _
  rw [hM] at hE
  linarith

theorem normal_det {n : ℕ} {A B : Matrix (Fin n) (Fin n) ℝ} {mu eps : ℝ} (hmu : n * eps ≤ mu)
    (hB : Near eps (Aᵀ * A + mu • (1 : Matrix (Fin n) (Fin n) ℝ)) B) : B.det ≠ 0 := by
  intro h
  obtain ⟨x, hx, h0⟩ := Matrix.exists_mulVec_eq_zero_iff.mpr h
  have := normal_pos hmu hB hx
  rw [h0, dotProduct_zero] at this
  exact this.false

/-- the direction is what `SolveLinear` gives for `(AᵀA + mu I) d = -Aᵀ F` -/
theorem lmDirection_real {n : ℕ} (hn : 0 < n) {cfg : Config (XNum ℝ)} {ja : SymMat (XNum ℝ)} {s : VarsTable (XNum ℝ)}
    {A : Matrix (Fin n) (Fin n) ℝ} (e1 : evalMat cfg ja s = .ok (ofMatrix A)) (F : Fin n → ℝ) (mu : ℝ) :
    lmDirection cfg ja (ofVec F) (.fin mu) s =
      solveLinear cfg (ofMatrix (Aᵀ * A + mu • (1 : Matrix (Fin n) (Fin n) ℝ))) (ofVec (-(Aᵀ.mulVec F))) := by
  have e2 : (ofMatrix A : Mat (XNum ℝ)).rows = n := rfl
  have e3 : (ofMatrix A : Mat (XNum ℝ)).cols = n := rfl
  have e4 : (ofMatrix (Aᵀ * A) : Mat (XNum ℝ)).add (ofMatrix (mu • (1 : Matrix (Fin n) (Fin n) ℝ)))
      = .ok (ofMatrix (Aᵀ * A + mu • (1 : Matrix (Fin n) (Fin n) ℝ))) := by
    rw [ofMatrix, ofMatrix, C33_add]; rfl
  have e5 : (ofVec (Aᵀ.mulVec F) : Mat (XNum ℝ)).toVec = .ok (ofVec (Aᵀ.mulVec F)) := by
    unfold Mat.toVec
    rw [if_neg (by simp [ofVec]; omega), if_neg (by simp [ofVec])]
    rfl
  unfold lmDirection
  rw [e1, Res.bind_ok, ofMatrix_transpose hn hn, Res.bind_ok, C33_mul hn hn hn, Res.bind_ok, e2, e3, new_mk' hn hn, Res.bind_ok,
    mk'_eq, C33_ones (K := ℝ), Res.bind_ok, show (XNum.fin mu : XNum ℝ) = fin mu from rfl,
    ofMatrix_scaleLeft, e4, Res.bind_ok, C33_mulVec hn hn, Res.bind_ok, e5, Res.bind_ok, neg_ofVec]

/-- C71 over the reals: with `J` the Jacobian at a point `w` where the equations are smooth, `F` their value at `u`, and damping
`mu = 1e-5 * 10^k` of at least `n * epsilon` (with the default epsilon 1e-9 and 10000 unknowns or fewer, always), the
direction exists, and it is the exact solution `d` of `B d = -Jᵀ F` for a matrix `B` within epsilon of `JᵀJ + mu I`. -/
theorem C71_real {cfg : Config (XNum ℝ)} {eps : ℝ} (heps : 0 < eps) (he : cfg.epsilon = .fin eps) {vars : List Str}
    {f : Matrix (Fin vars.length) (Fin 1) (Expr (XNum ℝ))} {J : SymMat (XNum ℝ)} (hJ : (symOf f).jacobian cfg vars = .ok J)
    {s : VarsTable (XNum ℝ)} {w : Fin vars.length → ℝ} (hs : TableAt s vars w) (hw : SmoothAt f vars w) (F : Fin vars.length → ℝ) {k : ℕ}
    (hk : vars.length * eps ≤ damping k) :
    ∃ A d B, IsJacobian f vars w A ∧ lmDirection cfg J (ofVec F) (lmDamping k) s = .ok (ofVec d) ∧
      Near eps (Aᵀ * A + damping k • (1 : Matrix (Fin vars.length) (Fin vars.length) ℝ)) B ∧ B.mulVec d = -(Aᵀ.mulVec F) := by
  have hn := hs.pos
  obtain ⟨E, rfl, hE, hA⟩ := jacobian_real hn cfg f vars hn J hJ
  obtain ⟨A, hA1, hA2⟩ := hA w hw
  have e1 := hs.evalMat hn hn cfg E (fun i j x hx => hw.1 i x (hE i j x hx)) hA2
  obtain ⟨d, h1, ⟨B, h2, h3⟩, _⟩ := C36_nonsingular cfg heps he hn (Aᵀ * A + damping k • (1 : Matrix (Fin vars.length) (Fin vars.length) ℝ))
    (-(Aᵀ.mulVec F)) fun B hB => normal_det hk hB
  refine ⟨A, d, B, hA1, ?_, h2, h3⟩
  rw [lmDamping_real, lmDirection_real hn e1]
  exact h1

/-- C71 over the reals, before any rejected step: the direction is a descent direction of the sum of squares (its derivative along `d` is
`2 Σ (J d)_i F_i`), unless the gradient is zero, in which case `d = 0`. -/
theorem C71_real_descent {cfg : Config (XNum ℝ)} {eps : ℝ} (heps : 0 < eps) (he : cfg.epsilon = .fin eps) {vars : List Str}
    {f : Matrix (Fin vars.length) (Fin 1) (Expr (XNum ℝ))} {J : SymMat (XNum ℝ)} (hJ : (symOf f).jacobian cfg vars = .ok J)
    {t : VarsTable (XNum ℝ)} {u : Fin vars.length → ℝ} (ht : TableAt t vars u) (hu : SmoothAt f vars u) {k : ℕ}
    (hk : vars.length * eps ≤ damping k) :
    ∃ F A d, IsValue f vars u F ∧ IsJacobian f vars u A ∧ evalVec cfg (symOf f) t = .ok (ofVec F) ∧
      lmDirection cfg J (ofVec F) (lmDamping k) t = .ok (ofVec d) ∧
      (Aᵀ.mulVec F ≠ 0 → A.mulVec d ⬝ᵥ F < 0) ∧ (Aᵀ.mulVec F = 0 → d = 0) := by
  choose F hF using fun i => smooth_val (assign vars u) (f i 0) (hu.2.2 i)
  obtain ⟨A, d, B, h1, h2, h3, h4⟩ := C71_real heps he hJ ht hu F hk
  refine ⟨F, A, d, hF, h1, ht.evalVec ht.pos cfg f hu.1 hF, h2, fun hg => ?_, fun hg => ?_⟩
  · have hd : d ≠ 0 := by
      rintro rfl
      rw [mulVec_zero] at h4
      exact hg (neg_eq_zero.mp h4.symm)
    have := normal_pos hk h3 hd
    rw [h4, dotProduct_neg, dotProduct_mulVec, vecMul_transpose] at this
    linarith
  · by_contra hd
    have := normal_pos hk h3 hd
    rw [h4, hg, neg_zero, dotProduct_zero] at this
    exact this.false

theorem halvings_real (m : ℕ) : (halvings m : XNum ℝ) = .fin ((1 / 2) ^ m) := by
  induction m with
  | zero => show XNum.fin (((1 : ℤ) : ℝ)) = _; simp
  | succ m ih =>
    have : (halvings (m + 1) : XNum ℝ) = Arith.mul (halvings m) (lit 5 (-1)) := Function.iterate_succ_apply' _ _ _
    rw [this, ih]
    simp only [lit, Dbl.ofDec, Option.getD_some]
    show XNum.fin _ = _
    rw [XNum.fin.injEq, pow_succ]
    norm_num

/-- C71 over the reals: a move of the method leads from `u` to `u + 2^-m d` where `B d = -Jᵀ F(u)`, `B` is within epsilon of
`JᵀJ + mu I`, and `J` is the matrix of partial derivatives at the point `w` of the table where the Jacobian is evaluated. -/
theorem C71_real_move {cfg : Config (XNum ℝ)} {eps : ℝ} (heps : 0 < eps) (he : cfg.epsilon = .fin eps) {vars : List Str}
    {f : Matrix (Fin vars.length) (Fin 1) (Expr (XNum ℝ))} {J : SymMat (XNum ℝ)} (hJ : (symOf f).jacobian cfg vars = .ok J)
    {t s t' : VarsTable (XNum ℝ)} {u w : Fin vars.length → ℝ} (ht : TableAt t vars u) (hu : SmoothAt f vars u) (hs : TableAt s vars w)
    (hw : SmoothAt f vars w) (ht' : t'.Reachable) {k : ℕ} (hk : vars.length * eps ≤ damping k) (h : LMMove cfg (symOf f) J t k s t') :
    ∃ F A B d m, IsValue f vars u F ∧ IsJacobian f vars w A ∧
      Near eps (Aᵀ * A + damping k • (1 : Matrix (Fin vars.length) (Fin vars.length) ℝ)) B ∧ B.mulVec d = -(Aᵀ.mulVec F) ∧
      TableAt t' vars (u + (1 / 2 : ℝ) ^ m • d) := by
  choose F hF using fun i => smooth_val (assign vars u) (f i 0) (hu.2.2 i)
  obtain ⟨A, d, B, h1, h2, h3, h4⟩ := C71_real heps he hJ hs hw F hk
  obtain ⟨F', d', m, g1, g2, g3, g4⟩ := h
  rw [ht.evalVec ht.pos cfg f hu.1 hF, Res.ok.injEq] at g1
  subst g1
  rw [h2, Res.ok.injEq] at g2
  subst g2
  refine ⟨F, A, B, d, m, hF, h1, h3, h4, ht', g4.trans ht.2.1, ?_⟩
  rw [halvings_real, show (XNum.fin ((1 / 2 : ℝ) ^ m) : XNum ℝ) = fin ((1 / 2 : ℝ) ^ m) from rfl, ofVec_scaleLeft, ht.2.2, ofVec_add,
    Res.ok.injEq] at g3
  exact g3.symm

/-- With the default epsilon and at most 10000 unknowns, `n * epsilon ≤ mu` holds for every number of rejected steps. -/
example (n : ℕ) (hn : n ≤ 10000) (k : ℕ) : (n : ℝ) * (1 / 10 ^ 9) ≤ damping k := by
  have h1 : (n : ℝ) ≤ 10000 := by exact_mod_cast hn
  have h2 : (1 : ℝ) ≤ 10 ^ k := one_le_pow₀ (by norm_num)
  unfold damping
  rw [div_eq_mul_one_div ((10 : ℝ) ^ k)]
  nlinarith

/-- The hypotheses of C71_real, C71_real_descent and C71_real_move are met by `lines` at every point. -/
example (u : Fin 2 → ℝ) (k : ℕ) : ∃ (cfg : Config (XNum ℝ)) (J : SymMat (XNum ℝ)) (t : VarsTable (XNum ℝ)),
    cfg.epsilon = .fin (1 / 10 ^ 9) ∧ (symOf lines).jacobian cfg [['x'], ['y']] = .ok J ∧ TableAt t [['x'], ['y']] u ∧
    SmoothAt lines [['x'], ['y']] u ∧ ([['x'], ['y']] : List Str).length * (1 / 10 ^ 9 : ℝ) ≤ damping k ∧
    ∃ t', t'.Reachable ∧ LMMove cfg (symOf lines) J t k t t' := by
  let cfg : Config (XNum ℝ) := ⟨true, .fin (1 / 10 ^ 9), 100, .lm, .fin 1, false⟩
  obtain ⟨J, hJ⟩ := jacobian_returns (by omega) cfg lines [['x'], ['y']] (by decide) u (lines_spec.2 u)
  obtain ⟨t, ht⟩ := exists_holds (vars := [['x'], ['y']]) (by simp) (by simp) u
  have hk : ([['x'], ['y']] : List Str).length * (1 / 10 ^ 9 : ℝ) ≤ damping k := by
    have h2 : (1 : ℝ) ≤ 10 ^ k := one_le_pow₀ (by norm_num)
    unfold damping
    simp only [List.length_cons, List.length_nil]
    rw [div_eq_mul_one_div ((10 : ℝ) ^ k)]
    push_cast
    nlinarith
  obtain ⟨F, A, d, _, _, h3, h4, _⟩ := C71_real_descent (by norm_num) rfl hJ ht (lines_spec.2 u) hk
  obtain ⟨t', h5, h6⟩ := ht.setValues (u + (1 / 2 : ℝ) ^ 1 • d)
  refine ⟨cfg, J, t, rfl, hJ, ht, lines_spec.2 u, hk, t', h6.1, _, _, 1, h3, h4, ?_, h6.2.1.trans ht.2.1.symm⟩
  rw [halvings_real, show (XNum.fin ((1 / 2 : ℝ) ^ 1) : XNum ℝ) = fin ((1 / 2 : ℝ) ^ 1) from rfl, ofVec_scaleLeft, ht.2.2, ofVec_add, h6.2.2]

end Tom
