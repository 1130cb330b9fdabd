import Verif.Spec.NewtonPoints
import Verif.Props.AffineLM
/-
C113: in exact arithmetic Newton-Raphson visits the points of Newton's method, so neither the order of the equations nor that of the
variables matters.
-/
set_option linter.unusedSectionVars false
namespace Tom

theorem small_iff {vars : List Str} {f : Matrix (Fin vars.length) (Fin 1) (Expr (XNum ℝ))} {eps : ℝ} (h0 : 0 < eps)
    {u F : Fin vars.length → ℝ} (hF : IsValue f vars u F) : Small f eps u ↔ ‖F‖ < eps := by
  rw [pi_norm_lt_iff h0]
  refine forall_congr' fun i => ?_
  rw [hF i]
  simp [Real.norm_eq_abs]

theorem smoothAt_value {r : ℕ} {f : Matrix (Fin r) (Fin 1) (Expr (XNum ℝ))} {vars : List Str} {u : Fin vars.length → ℝ}
    (h : SmoothAt f vars u) : ∃ F, IsValue f vars u F := by
  have : ∀ i, ∃ v, realVal (assign vars u) (f i 0) = some v := fun i => smooth_val _ _ (h.2.2 i)
  choose F hF using this
  exact ⟨F, hF⟩

theorem isJacobian_unique {r : ℕ} {f : Matrix (Fin r) (Fin 1) (Expr (XNum ℝ))} {vars : List Str} {u : Fin vars.length → ℝ}
    {A B : Matrix (Fin r) (Fin vars.length) ℝ} (hA : IsJacobian f vars u A) (hB : IsJacobian f vars u B) : A = B := by
  ext i j
  exact (hA i j).unique (hB i j)

theorem isValue_unique {r : ℕ} {f : Matrix (Fin r) (Fin 1) (Expr (XNum ℝ))} {vars : List Str} {u : Fin vars.length → ℝ}
    {F G : Fin r → ℝ} (hF : IsValue f vars u F) (hG : IsValue f vars u G) : F = G := by
  funext i
  have := (hF i).symm.trans (hG i)
  simpa using this

/-- one epsilon for all steps -/
theorem common_eps {n : ℕ} (hn : 0 < n) {A : ℕ → Matrix (Fin n) (Fin n) ℝ} (N : ℕ) (hA : ∀ k, k < N → (A k).det ≠ 0) :
    ∃ e : ℝ, 0 < e ∧ ∀ k, k < N → ∀ (cfg : Config (XNum ℝ)) (eps : ℝ) (b : Fin n → ℝ), 0 < eps → eps ≤ e → cfg.epsilon = .fin eps →
      ∃ x : Fin n → ℝ, solveLinear cfg (ofMatrix (A k)) (ofVec b) = .ok (ofVec x) ∧ (A k).mulVec x = b ∧
        ∀ y, (A k).mulVec y = b → y = x := by
  induction N with
  | zero => exact ⟨1, one_pos, fun k hk => absurd hk (Nat.not_lt_zero k)⟩
  | succ N ih =>
    obtain ⟨e, he, h⟩ := ih fun k hk => hA k (by omega)
    obtain ⟨e', he', h'⟩ := C61 (α := XNum ℝ) hn (A N) (hA N (by omega))
    refine ⟨min e e', lt_min he he', fun k hk cfg eps b g1 g2 g3 => ?_⟩
    by_cases hkN : k = N
    · subst hkN
      exact h' cfg eps b g1 (g2.trans (min_le_right _ _)) g3
    · exact h k (by omega) cfg eps b g1 (g2.trans (min_le_left _ _)) g3

/-- the solver along the points of Newton's method, for one configuration -/
theorem newton_points_run {vars : List Str} {f : Matrix (Fin vars.length) (Fin 1) (Expr (XNum ℝ))} {N : ℕ} {y : ℕ → Fin vars.length → ℝ}
    (hy : NewtonPoints f N y) (hn : 0 < vars.length) (cfg : Config (XNum ℝ)) (eps : ℝ) (g1 : 0 < eps) (g3 : cfg.epsilon = .fin eps)
    (A : ℕ → Matrix (Fin vars.length) (Fin vars.length) ℝ)
    (hA : ∀ k, k < N → ∃ F, IsValue f vars (y k) F ∧ IsJacobian f vars (y k) (A k) ∧
      (A k).det ≠ 0 ∧ (A k).mulVec (y (k + 1) - (if k = 0 then 0 else y k)) = -F)
    (he : ∀ k, k < N → ∀ b : Fin vars.length → ℝ, ∃ x : Fin vars.length → ℝ, solveLinear cfg (ofMatrix (A k)) (ofVec b) = .ok (ofVec x) ∧
      (A k).mulVec x = b ∧ ∀ y, (A k).mulVec y = b → y = x)
    (M : ℕ) (hM : M = (cfg.maxIterations + 1).toNat) (hMN : M ≤ N) (t : VarsTable (XNum ℝ)) (ht : TableAt t vars (y 0)) :
        (∃ k t', k ≤ M ∧ (∀ j < k, ¬ Small f eps (y j)) ∧ Small f eps (y k) ∧
          solveByNewtonRaphson cfg (symOf f) t = .ok t' ∧ TableAt t' vars (y k)) ∨
        ((∀ k ≤ M, ¬ Small f eps (y k)) ∧ solveByNewtonRaphson cfg (symOf f) t = .throw .runtime) := by
  obtain ⟨J, hJ⟩ := jacobian_returns hn cfg f vars hn _ (hy.smooth 0 (by omega))
  obtain ⟨E, rfl, hE, hJac⟩ := jacobian_real hn cfg f vars hn J hJ
  rw [newton_unfold cfg _ ht.1, ht.2.1, hJ, Res.bind_ok, zeroVec_ofVec]
  -- the loop from the `k`-th point
  have loop : ∀ (m k fuel : ℕ) (t : VarsTable (XNum ℝ)), k + m = M → m < fuel → TableAt t vars (y k) →
      (∃ j t', k ≤ j ∧ j ≤ M ∧ (∀ i, k ≤ i → i < j → ¬ Small f eps (y i)) ∧ Small f eps (y j) ∧
        newtonLoop cfg (symOf f) (symOf E) fuel k t (ofVec (if k = 0 then 0 else y k)) = .ok t' ∧ TableAt t' vars (y j)) ∨
      ((∀ j, k ≤ j → j ≤ M → ¬ Small f eps (y j)) ∧
        newtonLoop cfg (symOf f) (symOf E) fuel k t (ofVec (if k = 0 then 0 else y k)) = .throw .runtime) := by
    intro m
    induction m with
    | zero =>
      intro k fuel t hk hf ht
      obtain ⟨fuel, rfl⟩ := Nat.exists_eq_succ_of_ne_zero (by omega : fuel ≠ 0)
      have hs := hy.smooth k (by omega)
      obtain ⟨F, hF⟩ := smoothAt_value hs
      rw [newtonLoop, ht.evalVec hn cfg f hs.1 hF, Res.bind_ok]
      by_cases hsm : Small f eps (y k)
      · left
        refine ⟨k, t, le_rfl, by omega, fun i h1 h2 => absurd h1 (by omega), hsm, ?_, ht⟩
        rw [if_pos (by rw [g3]; exact (eqNum_real F eps g1).mpr ((small_iff g1 hF).mp hsm))]
      · right
        refine ⟨fun j h1 h2 => ?_, ?_⟩
        · have : j = k := by omega
          rw [this]; exact hsm
        · rw [if_neg (by rw [g3]; intro h; exact hsm ((small_iff g1 hF).mpr ((eqNum_real F eps g1).mp h))), if_pos (by omega)]
    | succ m ih =>
      intro k fuel t hk hf ht
      obtain ⟨fuel, rfl⟩ := Nat.exists_eq_succ_of_ne_zero (by omega : fuel ≠ 0)
      have hs := hy.smooth k (by omega)
      obtain ⟨F, hF, hAk, _, hstep⟩ := hA k (by omega)
      rw [newtonLoop, ht.evalVec hn cfg f hs.1 hF, Res.bind_ok]
      by_cases hsm : Small f eps (y k)
      · left
        refine ⟨k, t, le_rfl, by omega, fun i h1 h2 => absurd h1 (by omega), hsm, ?_, ht⟩
        rw [if_pos (by rw [g3]; exact (eqNum_real F eps g1).mpr ((small_iff g1 hF).mp hsm))]
      · rw [if_neg (by rw [g3]; intro h; exact hsm ((small_iff g1 hF).mpr ((eqNum_real F eps g1).mp h))), if_neg (by omega)]
        obtain ⟨A', hA1, hA2⟩ := hJac _ hs
        rw [isJacobian_unique hA1 hAk] at hA2
        obtain ⟨d, h1, h2, h3⟩ := he k (by omega) (-F)
        have hd : (if k = 0 then 0 else y k) + d = y (k + 1) := by
          rw [← h3 _ hstep]; abel
        obtain ⟨t1, h4, h5⟩ := ht.setValues (y (k + 1))
        rw [ht.evalMat hn hn cfg E (fun i j x hx => hs.1 i x (hE i j x hx)) hA2, Res.bind_ok, neg_ofVec, h1, Res.bind_ok, ofVec_add,
          Res.bind_ok, hd, h4, Res.bind_ok]
        have := ih (k + 1) fuel t1 (by omega) (by omega) h5
        rw [if_neg (by omega)] at this
        rcases this with ⟨j, t', j1, j2, j3, j4, j5, j6⟩ | ⟨j1, j2⟩
        · left
          refine ⟨j, t', by omega, j2, fun i i1 i2 => ?_, j4, j5, j6⟩
          by_cases hik : i = k
          · rw [hik]; exact hsm
          · exact j3 i (by omega) i2
        · right
          refine ⟨fun j i1 i2 => ?_, j2⟩
          by_cases hik : j = k
          · rw [hik]; exact hsm
          · exact j1 j (by omega) i2
  rcases loop M 0 ((cfg.maxIterations + 2).toNat + 1) t (by omega) (by omega) ht with ⟨j, t', j1, j2, j3, j4, j5, j6⟩ | ⟨j1, j2⟩
  · exact .inl ⟨j, t', j2, fun i hi => j3 i (Nat.zero_le i) hi, j4, j5, j6⟩
  · exact .inr ⟨fun k hk => j1 k (Nat.zero_le k) hk, j2⟩

/-- C113: in exact arithmetic `SolveByNewtonRaphson` is Newton's method (C44 about the first step).  If the points `y 0, ..., y N` of the
method from the initial values exist, with invertible Jacobians, then for every small enough epsilon and every limit below `N`: the
solver returns the first point, among those the limit allows, at which all equations are below epsilon; and throws runtime_error if there
is none. -/
theorem C113_points {vars : List Str} {f : Matrix (Fin vars.length) (Fin 1) (Expr (XNum ℝ))} {N : ℕ} {y : ℕ → Fin vars.length → ℝ}
    (hy : NewtonPoints f N y) : ∃ e : ℝ, 0 < e ∧ ∀ (cfg : Config (XNum ℝ)) (eps : ℝ), 0 < eps → eps ≤ e → cfg.epsilon = .fin eps →
      ∀ M : ℕ, M = (cfg.maxIterations + 1).toNat → M ≤ N → ∀ t, TableAt t vars (y 0) →
        (∃ k t', k ≤ M ∧ (∀ j < k, ¬ Small f eps (y j)) ∧ Small f eps (y k) ∧
          solveByNewtonRaphson cfg (symOf f) t = .ok t' ∧ TableAt t' vars (y k)) ∨
        ((∀ k ≤ M, ¬ Small f eps (y k)) ∧ solveByNewtonRaphson cfg (symOf f) t = .throw .runtime) := by
  by_cases hn : 0 < vars.length
  swap
  · exact ⟨1, one_pos, fun _ _ _ _ _ _ _ _ t ht => absurd ht.pos hn⟩
  have hst := hy.step
  have hA' : ∀ k, ∃ A : Matrix (Fin vars.length) (Fin vars.length) ℝ, k < N → ∃ F, IsValue f vars (y k) F ∧ IsJacobian f vars (y k) A ∧
      A.det ≠ 0 ∧ A.mulVec (y (k + 1) - (if k = 0 then 0 else y k)) = -F := by
    intro k
    by_cases hk : k < N
    · obtain ⟨F, A, h⟩ := hst k hk
      exact ⟨A, fun _ => ⟨F, h⟩⟩
    · exact ⟨0, fun h => absurd h hk⟩
  choose A hA using hA'
  obtain ⟨e, he0, he⟩ := common_eps hn N fun k hk => (hA k hk).choose_spec.2.2.1
  refine ⟨e, he0, fun cfg eps g1 g2 g3 M hM hMN t ht => ?_⟩
  exact newton_points_run hy hn cfg eps g1 g3 A hA (fun k hk b => he k hk cfg eps b g1 g2 g3) M hM hMN t ht

/-! ### other orders -/

/-- the same point in another order of the variables -/
theorem assign_reorder {vars vars' : List Str} (hn : vars.Nodup) (ρ : Fin vars'.length ≃ Fin vars.length)
    (hρ : ∀ i, vars'[i] = vars[ρ i]) (u : Fin vars.length → ℝ) : assign vars' (u ∘ ρ) = assign vars u := by
  have hn' : vars'.Nodup := by
    rw [List.nodup_iff_injective_getElem]
    intro i j h
    have h' : vars'[i] = vars'[j] := h
    rw [hρ, hρ] at h'
    exact ρ.injective (List.nodup_iff_injective_getElem.mp hn h')
  funext x
  by_cases hx : x ∈ vars'
  · obtain ⟨i, hi, rfl⟩ := List.mem_iff_getElem.mp hx
    have h1 : vars'.idxOf vars'[i] = i := hn'.idxOf_getElem i hi
    have h2 : vars.idxOf vars'[i] = ρ ⟨i, hi⟩ := by
      have := hρ ⟨i, hi⟩
      simp only [Fin.getElem_fin] at this
      rw [this]
      exact hn.idxOf_getElem _ _
    unfold assign
    rw [dif_pos (by rw [h1]; exact hi), dif_pos (by rw [h2]; exact (ρ ⟨i, hi⟩).2)]
    simp only [Function.comp, h1, h2]
  · have hx' : x ∉ vars := by
      intro h
      obtain ⟨i, hi, rfl⟩ := List.mem_iff_getElem.mp h
      have := hρ (ρ.symm ⟨i, hi⟩)
      simp only [Equiv.apply_symm_apply, Fin.getElem_fin] at this
      exact hx (by rw [← this]; exact List.getElem_mem _)
    unfold assign
    rw [dif_neg (by rw [List.idxOf_lt_length_iff]; exact hx), dif_neg (by rw [List.idxOf_lt_length_iff]; exact hx')]

/-- the points of Newton's method in another order -/
theorem newtonPoints_reorder {vars vars' : List Str} (hn : vars.Nodup) (ρ τ : Fin vars'.length ≃ Fin vars.length)
    (hρ : ∀ i, vars'[i] = vars[ρ i]) {f : Matrix (Fin vars.length) (Fin 1) (Expr (XNum ℝ))} {N : ℕ} {y : ℕ → Fin vars.length → ℝ}
    (hy : NewtonPoints f N y) : NewtonPoints (vars := vars') (fun i j => f (τ i) j) N fun k => y k ∘ ρ := by
  have hmem : ∀ x, x ∈ vars ↔ x ∈ vars' := by
    intro x
    constructor
    · intro h
      obtain ⟨i, hi, rfl⟩ := List.mem_iff_getElem.mp h
      have := hρ (ρ.symm ⟨i, hi⟩)
      simp only [Equiv.apply_symm_apply, Fin.getElem_fin] at this
      rw [← this]; exact List.getElem_mem _
    · intro h
      obtain ⟨i, hi, rfl⟩ := List.mem_iff_getElem.mp h
      have := hρ ⟨i, hi⟩
      simp only [Fin.getElem_fin] at this
      rw [this]; exact List.getElem_mem _
  constructor
  · intro k hk
    obtain ⟨h1, h2, h3⟩ := hy.smooth k hk
    refine ⟨fun i x hx => (hmem x).mp (h1 (τ i) x hx), fun i x hx => h2 (τ i) x ((hmem x).mpr hx), fun i => ?_⟩
    rw [assign_reorder hn ρ hρ]
    exact h3 (τ i)
  · intro k hk
    obtain ⟨F, A, h1, h2, h3, h4⟩ := hy.step k hk
    refine ⟨F ∘ τ, A.submatrix τ ρ, fun i => ?_, fun i j => ?_, ?_, ?_⟩
    · rw [assign_reorder hn ρ hρ]
      exact h1 (τ i)
    · rw [assign_reorder hn ρ hρ, hρ]
      exact h2 (τ i) (ρ j)
    · intro h0
      obtain ⟨v, hv, hz⟩ := Matrix.exists_mulVec_eq_zero_iff.mpr h0
      refine h3 (Matrix.exists_mulVec_eq_zero_iff.mp ⟨v ∘ ρ.symm, fun h => hv ?_, ?_⟩)
      · funext i
        have := congrFun h (ρ i)
        simpa using this
      · funext i
        have := congrFun hz (τ.symm i)
        rw [Matrix.submatrix_mulVec_equiv] at this
        simpa using this
    · rw [Matrix.submatrix_mulVec_equiv]
      have e : (y (k + 1) ∘ ρ - if k = 0 then 0 else y k ∘ ρ) ∘ ρ.symm = y (k + 1) - if k = 0 then 0 else y k := by
        funext i
        by_cases hk : k = 0 <;> simp [hk]
      rw [e, h4]
      rfl

theorem small_reorder {vars vars' : List Str} (hn : vars.Nodup) (ρ τ : Fin vars'.length ≃ Fin vars.length)
    (hρ : ∀ i, vars'[i] = vars[ρ i]) {f : Matrix (Fin vars.length) (Fin 1) (Expr (XNum ℝ))} (eps : ℝ) (u : Fin vars.length → ℝ) :
    Small (vars := vars') (fun i j => f (τ i) j) eps (u ∘ ρ) ↔ Small f eps u := by
  unfold Small
  rw [assign_reorder hn ρ hρ]
  exact ⟨fun h i => by simpa using h (τ.symm i), fun h i => h (τ i)⟩

/-- **C113**: in exact arithmetic the order of the equations and the order of the variables do not matter for `SolveByNewtonRaphson`.  `f` is
a system whose Newton points from the initial values `u` exist, with invertible Jacobians; `g` consists of the same equations in another
order, the table `t'` holds the same values for the same variables in another order.  For every small enough epsilon either both calls
throw runtime_error, or both return tables with the same value for each variable. -/
theorem C113 {vars vars' : List Str} (ρ τ : Fin vars'.length ≃ Fin vars.length) (hρ : ∀ i, vars'[i] = vars[ρ i])
    {f : Matrix (Fin vars.length) (Fin 1) (Expr (XNum ℝ))} {g : Matrix (Fin vars'.length) (Fin 1) (Expr (XNum ℝ))}
    (hg : ∀ i, g i 0 = f (τ i) 0) {N : ℕ} {y : ℕ → Fin vars.length → ℝ} (hy : NewtonPoints f N y) :
    ∃ e : ℝ, 0 < e ∧ ∀ (cfg : Config (XNum ℝ)) (eps : ℝ), 0 < eps → eps ≤ e → cfg.epsilon = .fin eps → cfg.maxIterations < N →
      ∀ t t', TableAt t vars (y 0) → TableAt t' vars' (y 0 ∘ ρ) →
        (solveByNewtonRaphson cfg (symOf f) t = .throw .runtime ∧ solveByNewtonRaphson cfg (symOf g) t' = .throw .runtime) ∨
        ∃ s s' u, solveByNewtonRaphson cfg (symOf f) t = .ok s ∧ solveByNewtonRaphson cfg (symOf g) t' = .ok s' ∧
          TableAt s vars u ∧ TableAt s' vars' (u ∘ ρ) := by
  have hg' : g = fun i j => f (τ i) j := by
    funext i j
    rw [Fin.fin_one_eq_zero j]; exact hg i
  subst hg'
  by_cases hn : vars.Nodup
  swap
  · exact ⟨1, one_pos, fun _ _ _ _ _ _ t _ ht => absurd ht.nodup hn⟩
  obtain ⟨e, he, h⟩ := C113_points hy
  obtain ⟨e', he', h'⟩ := C113_points (newtonPoints_reorder hn ρ τ hρ hy)
  refine ⟨min e e', lt_min he he', fun cfg eps g1 g2 g3 hM t t' ht ht' => ?_⟩
  have a := h cfg eps g1 (g2.trans (min_le_left _ _)) g3 _ rfl (by omega) t ht
  have b := h' cfg eps g1 (g2.trans (min_le_right _ _)) g3 _ rfl (by omega) t' ht'
  simp only [small_reorder hn ρ τ hρ] at b
  rcases a with ⟨k, s, a1, a2, a3, a4, a5⟩ | ⟨a1, a2⟩ <;> rcases b with ⟨k', s', b1, b2, b3, b4, b5⟩ | ⟨b1, b2⟩
  · right
    have : k = k' := by
      rcases lt_trichotomy k k' with h | h | h
      · exact absurd a3 (b2 k h)
      · exact h
      · exact absurd b3 (a2 k' h)
    subst this
    exact ⟨s, s', y k, a4, b4, a5, b5⟩
  · exact absurd a3 (b1 k a1)
  · exact absurd b3 (a1 k' b1)
  · exact .inl ⟨a2, b2⟩

/-! ### not so for Levenberg-Marquardt -/

/-- the equations of `crossed` in the other order -/
noncomputable def uncrossed : Matrix (Fin 2) (Fin 1) (Expr (XNum ℝ)) := Matrix.of fun i _ =>
  if i = 0 then .bin .mul (.num (.fin (250002 / 100000))) (.var ['x']) else .var ['y']

theorem uncrossed_spec : (∀ u, IsValue uncrossed [['x'], ['y']] u ((!![250002 / 100000, 0; 0, 1] : Matrix (Fin 2) (Fin 2) ℝ).mulVec u + 0)) ∧
    ∀ u, SmoothAt uncrossed [['x'], ['y']] u := by
  refine ⟨fun u i => ?_, fun u => ⟨?_, ?_, ?_⟩⟩
  · have hx : assign [['x'], ['y']] u ['x'] = u 0 := rfl
    have hy : assign [['x'], ['y']] u ['y'] = u 1 := rfl
    fin_cases i
    · simp [uncrossed, realVal, BinOp.real, XNum.val?, hx, hy, Matrix.mulVec, dotProduct, Fin.sum_univ_two]
    · simp [uncrossed, realVal, XNum.val?, hx, hy, Matrix.mulVec, dotProduct, Fin.sum_univ_two]
  · intro i; fin_cases i <;> simp [uncrossed, Expr.vars]
  · intro i; fin_cases i <;> simp [uncrossed, Expr.NoForeignExp]
  · intro i; fin_cases i <;> simp [uncrossed, Smooth]

/-- `crossed` seen from the table `y, x` -/
theorem crossed_swapped : (∀ u, IsValue crossed [['y'], ['x']] u ((!![1, 0; 0, 250002 / 100000] : Matrix (Fin 2) (Fin 2) ℝ).mulVec u + 0)) ∧
    ∀ u, SmoothAt crossed [['y'], ['x']] u := by
  refine ⟨fun u i => ?_, fun u => ⟨?_, ?_, ?_⟩⟩
  · have hx : assign [['y'], ['x']] u ['x'] = u 1 := rfl
    have hy : assign [['y'], ['x']] u ['y'] = u 0 := rfl
    fin_cases i
    · simp [crossed, realVal, XNum.val?, hx, hy, Matrix.mulVec, dotProduct, Fin.sum_univ_two]
    · simp [crossed, realVal, BinOp.real, XNum.val?, hx, hy, Matrix.mulVec, dotProduct, Fin.sum_univ_two]
  · intro i; fin_cases i <;> simp [crossed, Expr.vars]
  · intro i; fin_cases i <;> simp [crossed, Expr.NoForeignExp]
  · intro i; fin_cases i <;> simp [crossed, Smooth]

/-- C113 is false for `SolveByLM`, both for the order of the equations and for that of the variables.  `crossed` is `y = 0, 2.50002 x = 0`, a
linear system with the root (0, 0).  From `x = 0, y = 1`, for every small epsilon and large limit: written `2.50002 x = 0, y = 0`
(`uncrossed`), or with the variables in the order `y, x`, it is solved; as it stands, the line search never ends. -/
theorem C113_false_lm : (crossed 0 0 = uncrossed 1 0 ∧ crossed 1 0 = uncrossed 0 0) ∧
    ∃ e : ℝ, 0 < e ∧ ∀ eps, 0 < eps → eps ≤ e → ∃ N : ℕ, ∀ (cfg : Config (XNum ℝ)), cfg.epsilon = .fin eps → (N : ℤ) ≤ cfg.maxIterations →
      ∀ t t', TableAt t [['x'], ['y']] ![0, 1] → TableAt t' [['y'], ['x']] ![1, 0] →
        (∀ lsFuel fuel, solveByLM cfg lsFuel fuel (symOf crossed) t = .diverge) ∧
        ∀ lsFuel fuel, 0 < lsFuel → N < fuel →
          (∃ s u, solveByLM cfg lsFuel fuel (symOf uncrossed) t = .ok s ∧ TableAt s [['x'], ['y']] u ∧ Small (vars := [['x'], ['y']]) uncrossed eps u) ∧
          ∃ s u, solveByLM cfg lsFuel fuel (symOf crossed) t' = .ok s ∧ TableAt s [['y'], ['x']] u ∧ Small (vars := [['y'], ['x']]) crossed eps u := by
  refine ⟨⟨rfl, rfl⟩, ?_⟩
  obtain ⟨-, e0, he0, h0⟩ := C73_false_lm
  have det1 : (!![250002 / 100000, 0; 0, 1] : Matrix (Fin 2) (Fin 2) ℝ).det ≠ 0 := by norm_num [Matrix.det_fin_two]
  have det2 : (!![1, 0; 0, 250002 / 100000] : Matrix (Fin 2) (Fin 2) ℝ).det ≠ 0 := by norm_num [Matrix.det_fin_two]
  obtain ⟨e1, he1, h1⟩ := C95_symm (vars := [['x'], ['y']]) (by decide) det1 uncrossed_spec.1 uncrossed_spec.2
    (by ext i j; fin_cases i <;> fin_cases j <;> rfl)
  obtain ⟨e2, he2, h2⟩ := C95_symm (vars := [['y'], ['x']]) (by decide) det2 crossed_swapped.1 crossed_swapped.2
    (by ext i j; fin_cases i <;> fin_cases j <;> rfl)
  refine ⟨min (min e0 1) (min e1 e2), lt_min (lt_min he0 one_pos) (lt_min he1 he2), fun eps g1 g2 => ?_⟩
  have l0 : eps ≤ e0 := g2.trans ((min_le_left _ _).trans (min_le_left _ _))
  have l1 : eps ≤ 1 := g2.trans ((min_le_left _ _).trans (min_le_right _ _))
  obtain ⟨N1, k1⟩ := h1 eps 1 g1 (g2.trans ((min_le_right _ _).trans (min_le_left _ _)))
  obtain ⟨N2, k2⟩ := h2 eps 1 g1 (g2.trans ((min_le_right _ _).trans (min_le_right _ _)))
  refine ⟨max N1 N2, fun cfg c1 c2 t t' ht ht' => ⟨fun lsFuel fuel => h0 cfg eps g1 l0 c1 t 1 ht (by simpa using l1) lsFuel fuel,
    fun lsFuel fuel hl hf => ⟨?_, ?_⟩⟩⟩
  · obtain ⟨s, u, a, b, c⟩ := k1 cfg c1 (by push_cast at c2; exact (le_max_left _ _).trans c2) lsFuel fuel hl (by omega) t _ ht
      (by intro i; fin_cases i <;> simp)
    exact ⟨s, u, a, b, fun i => ⟨_, uncrossed_spec.1 u i, c i⟩⟩
  · obtain ⟨s, u, a, b, c⟩ := k2 cfg c1 (by push_cast at c2; exact (le_max_right _ _).trans c2) lsFuel fuel hl (by omega) t' _ ht'
      (by intro i; fin_cases i <;> simp)
    exact ⟨s, u, a, b, fun i => ⟨_, crossed_swapped.1 u i, c i⟩⟩

/-! ### the hypotheses are met -/

/-- the points of Newton's method for `lines` from `u`: the first correction is added to 0, not to `u` (C44), the second one leads to the root -/
theorem lines_points (u : Fin 2 → ℝ) (N : ℕ) :
    NewtonPoints (vars := [['x'], ['y']]) lines N fun k => if k = 0 then u else if k = 1 then ![1, 1] - u else ![1, 1] := by
  obtain ⟨hf, hs⟩ := lines_spec
  refine ⟨fun k _ => hs _, fun k _ => ?_⟩
  have hz : (!![2, 1; 1, -1] : Matrix (Fin 2) (Fin 2) ℝ).mulVec ![1, 1] = -![-3, 0] := by
    ext i; fin_cases i <;> norm_num [Matrix.mulVec, dotProduct, Fin.sum_univ_two]
  have hA : ∀ v : Fin 2 → ℝ, ∃ A, IsJacobian lines [['x'], ['y']] v A := by
    intro v
    obtain ⟨J, hJ⟩ := jacobian_returns (by omega) (⟨true, .fin 1, 100, .newtonRaphson, .fin 1, false⟩ : Config (XNum ℝ)) lines [['x'], ['y']] (by decide)
      v (hs _)
    obtain ⟨E, -, -, hA⟩ := jacobian_real (by omega) _ lines [['x'], ['y']] (by decide) J hJ
    obtain ⟨A, h, -⟩ := hA v (hs _)
    exact ⟨A, h⟩
  obtain ⟨A, h⟩ := hA (if k = 0 then u else if k = 1 then ![1, 1] - u else ![1, 1])
  have hAe := jacobian_affine (by simp) hf h
  refine ⟨_, A, hf _, h, ?_, ?_⟩
  · rw [hAe]
    show (!![2, 1; 1, -1] : Matrix (Fin 2) (Fin 2) ℝ).det ≠ 0
    norm_num [Matrix.det_fin_two]
  · rw [hAe]
    show (!![2, 1; 1, -1] : Matrix (Fin 2) (Fin 2) ℝ).mulVec _ = -((!![2, 1; 1, -1] : Matrix (Fin 2) (Fin 2) ℝ).mulVec _ + ![-3, 0])
    rcases k with _ | _ | k
    · simp only [↓reduceIte, Nat.zero_add, one_ne_zero, sub_zero, Matrix.mulVec_sub, hz]
      abel
    · simp only [Nat.zero_add, one_ne_zero, ↓reduceIte, Nat.reduceAdd, OfNat.ofNat_ne_zero, OfNat.ofNat_ne_one, Matrix.mulVec_sub, hz]
      abel
    · simp [Matrix.mulVec_sub, hz]
      ext i; fin_cases i <;> rfl

/-- C113 applied to `2 x + y = 3, x = y`: from `x = 5, y = 7`, in this order or as `x = y, 2 x + y = 3` with the variables `y, x` -/
example : ∃ e : ℝ, 0 < e ∧ ∀ (cfg : Config (XNum ℝ)) (eps : ℝ), 0 < eps → eps ≤ e → cfg.epsilon = .fin eps → cfg.maxIterations < 100 →
    ∀ t t', TableAt t [['x'], ['y']] ![5, 7] → TableAt t' [['y'], ['x']] ![7, 5] →
      (solveByNewtonRaphson cfg (symOf lines) t = .throw .runtime ∧
        solveByNewtonRaphson cfg (symOf (r := 2) (c := 1) fun i j => lines (Equiv.swap 0 1 i) j) t' = .throw .runtime) ∨
      ∃ s s' u, solveByNewtonRaphson cfg (symOf lines) t = .ok s ∧
        solveByNewtonRaphson cfg (symOf (r := 2) (c := 1) fun i j => lines (Equiv.swap 0 1 i) j) t' = .ok s' ∧
        TableAt s [['x'], ['y']] u ∧ TableAt s' [['y'], ['x']] (u ∘ Equiv.swap (0 : Fin 2) 1) := by
  obtain ⟨e, he, h⟩ := C113 (vars := [['x'], ['y']]) (vars' := [['y'], ['x']]) (Equiv.swap (0 : Fin 2) 1) (Equiv.swap (0 : Fin 2) 1)
    (by intro i; fin_cases i <;> rfl) (f := lines) (g := fun i j => lines (Equiv.swap (0 : Fin 2) 1 i) j) (fun _ => rfl) (lines_points ![5, 7] 100)
  refine ⟨e, he, fun cfg eps g1 g2 g3 g4 t t' ht ht' => h cfg eps g1 g2 g3 (by exact_mod_cast g4) t t' ht ?_⟩
  have : (![7, 5] : Fin 2 → ℝ) = ![5, 7] ∘ Equiv.swap (0 : Fin 2) 1 := by
    funext i; fin_cases i <;> simp
  rw [this] at ht'
  exact ht'

end Tom
