import Verif.Spec.Rewrite
import Verif.Props.NewtonOrder
import Verif.Props.NearRoot
import Verif.Props.ChainRule
/-
C121: in exact arithmetic the points `SolveByNewtonRaphson` visits do not depend on how the equations are written, nor on the units of the variables.
-/
set_option linter.unusedSectionVars false
namespace Tom
open Filter Topology

/-- the points of Newton's method for combined equations in other units -/
theorem newtonPoints_rewrite {vars : List Str} (hn : vars.Nodup) {f g : Matrix (Fin vars.length) (Fin 1) (Expr (XNum ℝ))}
    {B C : Matrix (Fin vars.length) (Fin vars.length) ℝ} (hB : B.det ≠ 0) (hC : C.det ≠ 0) {N : ℕ} {y z : ℕ → Fin vars.length → ℝ}
    (hz : ∀ k, k ≤ N → C.mulVec (z k) = y k) (hs : ∀ k, k ≤ N → SmoothAt g vars (z k))
    (hv : ∀ u F, IsValue f vars (C.mulVec u) F → IsValue g vars u (B.mulVec F)) (hy : NewtonPoints f N y) : NewtonPoints g N z := by
  refine ⟨hs, fun k hk => ?_⟩
  obtain ⟨F, A, h1, h2, h3, h4⟩ := hy.step k hk
  obtain ⟨d1, v1, A1, j1, e1⟩ := sysFun_local hn (hy.smooth k hk.le).2.2
  obtain ⟨d2, v2, A2, j2, e2⟩ := sysFun_local hn (hs k hk.le).2.2
  obtain rfl := isJacobian_unique h2 j1
  have hc : Continuous fun u : Fin vars.length → ℝ => C.mulVec u := (LinearMap.toContinuousLinearMap (Matrix.mulVecLin C)).continuous
  have hev : sysFun vars g =ᶠ[𝓝 (z k)] fun u => B.mulVec (sysFun vars f (C.mulVec u)) := by
    obtain ⟨G, -, hG⟩ := system_local (hy.smooth k hk.le)
    have : Tendsto (fun u => C.mulVec u) (𝓝 (z k)) (𝓝 (y k)) := by
      rw [← hz k hk.le]; exact hc.continuousAt
    filter_upwards [this.eventually hG] with u hu
    have hu' : IsValue f vars (C.mulVec u) (sysFun vars f (C.mulVec u)) := by
      intro i
      simp only [sysFun, hu.1 i, Option.getD_some]
    have := hv u _ hu'
    funext i
    simp only [sysFun, this i, Option.getD_some]
  have hfd : ∀ x, A2.mulVec x = (B * A * C).mulVec x := by
    intro x
    have k1 : HasFDerivAt (fun u => C.mulVec u) (LinearMap.toContinuousLinearMap (Matrix.mulVecLin C)) (z k) :=
      (LinearMap.toContinuousLinearMap (Matrix.mulVecLin C)).hasFDerivAt
    have k2 : HasFDerivAt (sysFun vars f) (fderiv ℝ (sysFun vars f) (y k)) (C.mulVec (z k)) := by
      rw [hz k hk.le]; exact d1.hasFDerivAt
    have k3 := k2.comp (z k) k1
    have k4 := ((LinearMap.toContinuousLinearMap (Matrix.mulVecLin B)).hasFDerivAt).comp (z k) k3
    have k5 := (d2.hasFDerivAt.congr_of_eventuallyEq hev.symm).unique k4
    rw [← e2, k5]
    show B.mulVec (fderiv ℝ (sysFun vars f) (y k) (C.mulVec x)) = _
    rw [e1, Matrix.mulVec_mulVec, Matrix.mulVec_mulVec]
  have hA : A2 = B * A * C := Matrix.ext_of_mulVec_single fun i => hfd _
  refine ⟨B.mulVec F, A2, hv _ _ (by rw [hz k hk.le]; exact h1), j2, ?_, ?_⟩
  · rw [hA, Matrix.det_mul, Matrix.det_mul]
    exact mul_ne_zero (mul_ne_zero hB h3) hC
  · rw [hfd, ← Matrix.mulVec_mulVec, ← Matrix.mulVec_mulVec, Matrix.mulVec_sub, hz (k + 1) hk]
    have : C.mulVec (if k = 0 then 0 else z k) = if k = 0 then 0 else y k := by
      split
      · exact Matrix.mulVec_zero C
      · exact hz k hk.le
    rw [this, h4, Matrix.mulVec_neg]

theorem runsAlong_of_points {vars : List Str} {f : Matrix (Fin vars.length) (Fin 1) (Expr (XNum ℝ))} {N : ℕ} {y : ℕ → Fin vars.length → ℝ}
    (hy : NewtonPoints f N y) : ∃ e : ℝ, 0 < e ∧ ∀ (cfg : Config (XNum ℝ)) (eps : ℝ), 0 < eps → eps ≤ e → cfg.epsilon = .fin eps →
      cfg.maxIterations < N → ∀ t, TableAt t vars (y 0) → RunsAlong cfg eps f y t := by
  obtain ⟨e, he, h⟩ := C113_points hy
  refine ⟨e, he, fun cfg eps g1 g2 g3 g4 t ht => ?_⟩
  rcases h cfg eps g1 g2 g3 _ rfl (by omega) t ht with ⟨k, s, k1, k2, k3, k4, k5⟩ | ⟨k1, k2⟩
  · exact .inl ⟨k, s, by omega, k2, k3, k4, k5⟩
  · exact .inr ⟨fun k hk => k1 k (by omega), k2⟩

/-- **C121.** In exact arithmetic the points `SolveByNewtonRaphson` visits depend only on the functions the equations denote, up to linear
combinations of the equations and the units of the variables.  `f` is a system whose Newton points `y` from the initial values exist, with
invertible Jacobians.  `g` is another system: where `f` has the values `F` at the point `C u`, `g` has the values `B F` at `u`, with
invertible matrices `B` (combinations of equations) and `C` (units).  Then for every small enough epsilon the solver follows the points `y` for
`f`, and the same points in the other units, `z k` with `C z k = y k`, for `g`. -/
theorem C121 {vars : List Str} {f g : Matrix (Fin vars.length) (Fin 1) (Expr (XNum ℝ))}
    {B C : Matrix (Fin vars.length) (Fin vars.length) ℝ} (hB : B.det ≠ 0) (hC : C.det ≠ 0) {N : ℕ} {y z : ℕ → Fin vars.length → ℝ}
    (hz : ∀ k, k ≤ N → C.mulVec (z k) = y k) (hs : ∀ k, k ≤ N → SmoothAt g vars (z k))
    (hv : ∀ u F, IsValue f vars (C.mulVec u) F → IsValue g vars u (B.mulVec F)) (hy : NewtonPoints f N y) :
    ∃ e : ℝ, 0 < e ∧ ∀ (cfg : Config (XNum ℝ)) (eps : ℝ), 0 < eps → eps ≤ e → cfg.epsilon = .fin eps → cfg.maxIterations < N →
      (∀ t, TableAt t vars (y 0) → RunsAlong cfg eps f y t) ∧ ∀ t, TableAt t vars (z 0) → RunsAlong cfg eps g z t := by
  by_cases hn : vars.Nodup
  swap
  · exact ⟨1, one_pos, fun _ _ _ _ _ _ => ⟨fun t ht => absurd ht.nodup hn, fun t ht => absurd ht.nodup hn⟩⟩
  obtain ⟨e, he, h⟩ := runsAlong_of_points hy
  obtain ⟨e', he', h'⟩ := runsAlong_of_points (newtonPoints_rewrite hn hB hC hz hs hv hy)
  exact ⟨min e e', lt_min he he', fun cfg eps g1 g2 g3 g4 => ⟨h cfg eps g1 (g2.trans (min_le_left _ _)) g3 g4,
    h' cfg eps g1 (g2.trans (min_le_right _ _)) g3 g4⟩⟩

/-- two runs along points at which the systems are below epsilon at the same time -/
theorem runsAlong_same {vars : List Str} {cfg : Config (XNum ℝ)} {eps : ℝ} {f g : Matrix (Fin vars.length) (Fin 1) (Expr (XNum ℝ))}
    {y z : ℕ → Fin vars.length → ℝ} {t t' : VarsTable (XNum ℝ)}
    (hsm : ∀ k : ℕ, (k : ℤ) ≤ max (cfg.maxIterations + 1) 0 → (Small f eps (y k) ↔ Small g eps (z k)))
    (a : RunsAlong cfg eps f y t) (b : RunsAlong cfg eps g z t') :
    (solveByNewtonRaphson cfg (symOf f) t = .throw .runtime ∧ solveByNewtonRaphson cfg (symOf g) t' = .throw .runtime) ∨
    ∃ (s s' : VarsTable (XNum ℝ)) (k : ℕ), (k : ℤ) ≤ max (cfg.maxIterations + 1) 0 ∧ solveByNewtonRaphson cfg (symOf f) t = .ok s ∧
      solveByNewtonRaphson cfg (symOf g) t' = .ok s' ∧ TableAt s vars (y k) ∧ TableAt s' vars (z k) := by
  rcases a with ⟨k, s, a1, a2, a3, a4, a5⟩ | ⟨a1, a2⟩ <;> rcases b with ⟨k', s', b1, b2, b3, b4, b5⟩ | ⟨b1, b2⟩
  · right
    have : k = k' := by
      rcases lt_trichotomy k k' with h | h | h
      · exact absurd ((hsm k a1).mp a3) (b2 k h)
      · exact h
      · exact absurd ((hsm k' b1).mpr b3) (a2 k' h)
    subst this
    exact ⟨s, s', k, a1, a4, b4, a5, b5⟩
  · exact absurd ((hsm k a1).mp a3) (b1 k a1)
  · exact absurd ((hsm k' b1).mpr b3) (a1 k' b1)
  · exact .inl ⟨a2, b2⟩

theorem tableAt_unique {t t' : VarsTable (XNum ℝ)} {vars : List Str} {u : Fin vars.length → ℝ} (h : TableAt t vars u) (h' : TableAt t' vars u) :
    t = t' := h.1.good.ext h'.1.good (h.2.1.trans h'.2.1.symm) (h.2.2.trans h'.2.2.symm)

/-- **C121**, equal functions: if the equations `g` have the same values as `f` wherever `f` has values, `SolveByNewtonRaphson` has the same outcome
for both (provided `g` is also smooth, in the sense of the differentiation rules, at the points visited). -/
theorem C121_same {vars : List Str} {f g : Matrix (Fin vars.length) (Fin 1) (Expr (XNum ℝ))} {N : ℕ} {y : ℕ → Fin vars.length → ℝ}
    (hy : NewtonPoints f N y) (hs : ∀ k, k ≤ N → SmoothAt g vars (y k)) (hv : ∀ u F, IsValue f vars u F → IsValue g vars u F) :
    ∃ e : ℝ, 0 < e ∧ ∀ (cfg : Config (XNum ℝ)) (eps : ℝ), 0 < eps → eps ≤ e → cfg.epsilon = .fin eps → cfg.maxIterations < N →
      ∀ t, TableAt t vars (y 0) → solveByNewtonRaphson cfg (symOf g) t = solveByNewtonRaphson cfg (symOf f) t := by
  obtain ⟨e, he, h⟩ := C121 (B := 1) (C := 1) (z := y) (by simp) (by simp) (fun k _ => by simp) hs (fun u F h => by simpa using hv u F (by simpa using h)) hy
  refine ⟨e, he, fun cfg eps g1 g2 g3 g4 t ht => ?_⟩
  obtain ⟨a, b⟩ := h cfg eps g1 g2 g3 g4
  have hsm : ∀ k : ℕ, (k : ℤ) ≤ max (cfg.maxIterations + 1) 0 → (Small f eps (y k) ↔ Small g eps (y k)) := by
    intro k hk
    obtain ⟨F, hF⟩ := smoothAt_value (hy.smooth k (by omega))
    rw [small_iff g1 hF, small_iff g1 (hv _ _ hF)]
  rcases runsAlong_same hsm (a t ht) (b t ht) with ⟨h1, h2⟩ | ⟨s, s', k, -, h1, h2, h3, h4⟩
  · rw [h1, h2]
  · rw [h1, h2, tableAt_unique h3 h4]

theorem realVal_mul_num {ρ : Str → ℝ} {e : Expr (XNum ℝ)} {v : ℝ} (c : ℝ) (h : realVal ρ e = some v) :
    realVal ρ (.bin .mul (.num (.fin c)) e) = some (c * v) := by
  simp [realVal, h, XNum.val?, BinOp.real]

/-- **C121**, multiplied equations: multiplying the equations by numbers other than 0 does not change the points visited. -/
theorem C121_scaled {vars : List Str} {f : Matrix (Fin vars.length) (Fin 1) (Expr (XNum ℝ))} (c : Fin vars.length → ℝ) (hc : ∀ i, c i ≠ 0)
    {N : ℕ} {y : ℕ → Fin vars.length → ℝ} (hy : NewtonPoints f N y) :
    ∃ e : ℝ, 0 < e ∧ ∀ (cfg : Config (XNum ℝ)) (eps : ℝ), 0 < eps → eps ≤ e → cfg.epsilon = .fin eps → cfg.maxIterations < N →
      ∀ t, TableAt t vars (y 0) → RunsAlong cfg eps f y t ∧ RunsAlong cfg eps (scaled c f) y t := by
  have hsm : ∀ k, k ≤ N → SmoothAt (scaled c f) vars (y k) := by
    intro k hk
    obtain ⟨h1, h2, h3⟩ := hy.smooth k hk
    exact ⟨fun i x hx => h1 i x (by simpa [scaled, Expr.vars] using hx), fun i x hx => ⟨trivial, h2 i x hx⟩, fun i => ⟨⟨_, rfl⟩, h3 i⟩⟩
  have hv : ∀ u F, IsValue f vars ((1 : Matrix (Fin vars.length) (Fin vars.length) ℝ).mulVec u) F →
      IsValue (scaled c f) vars u ((Matrix.diagonal c).mulVec F) := by
    intro u F h i
    rw [Matrix.one_mulVec] at h
    rw [Matrix.mulVec_diagonal]
    exact realVal_mul_num _ (h i)
  obtain ⟨e, he, h⟩ := C121 (z := y) (by rw [Matrix.det_diagonal]; exact Finset.prod_ne_zero_iff.mpr fun i _ => hc i) (by simp)
    (fun k _ => by simp) hsm hv hy
  exact ⟨e, he, fun cfg eps g1 g2 g3 g4 t ht => ⟨(h cfg eps g1 g2 g3 g4).1 t ht, (h cfg eps g1 g2 g3 g4).2 t ht⟩⟩

/-- **C121**, added equations: adding a multiple of an equation to another one does not change the points visited. -/
theorem C121_added {vars : List Str} {f : Matrix (Fin vars.length) (Fin 1) (Expr (XNum ℝ))} (a b : Fin vars.length) (hab : a ≠ b) (c : ℝ)
    {N : ℕ} {y : ℕ → Fin vars.length → ℝ} (hy : NewtonPoints f N y) :
    ∃ e : ℝ, 0 < e ∧ ∀ (cfg : Config (XNum ℝ)) (eps : ℝ), 0 < eps → eps ≤ e → cfg.epsilon = .fin eps → cfg.maxIterations < N →
      ∀ t, TableAt t vars (y 0) → RunsAlong cfg eps f y t ∧ RunsAlong cfg eps (rowAdded a b c f) y t := by
  have hsm : ∀ k, k ≤ N → SmoothAt (rowAdded a b c f) vars (y k) := by
    intro k hk
    obtain ⟨h1, h2, h3⟩ := hy.smooth k hk
    refine ⟨fun i x hx => ?_, fun i x hx => ?_, fun i => ?_⟩
    · simp only [rowAdded] at hx
      split at hx
      · simp only [Expr.vars, List.mem_append, List.nil_append] at hx
        exact hx.elim (h1 i x) (h1 b x)
      · exact h1 i x hx
    · simp only [rowAdded]
      split
      · exact ⟨h2 i x hx, trivial, h2 b x hx⟩
      · exact h2 i x hx
    · simp only [rowAdded]
      split
      · exact ⟨h3 i, ⟨_, rfl⟩, h3 b⟩
      · exact h3 i
  have hv : ∀ u F, IsValue f vars ((1 : Matrix (Fin vars.length) (Fin vars.length) ℝ).mulVec u) F →
      IsValue (rowAdded a b c f) vars u ((Matrix.transvection a b c).mulVec F) := by
    intro u F h i
    rw [Matrix.one_mulVec] at h
    simp only [rowAdded, Matrix.transvection, Matrix.add_mulVec, Matrix.one_mulVec, Pi.add_apply]
    have hsi : (Matrix.single a b c).mulVec F i = if i = a then c * F b else 0 := by
      rw [Matrix.single_mulVec]
      by_cases hi : i = a
      · subst hi; simp
      · simp [hi]
    rw [hsi]
    split
    · simp [realVal, h i, h b, XNum.val?, BinOp.real]
    · rw [h i, add_zero]
  obtain ⟨e, he, h⟩ := C121 (z := y) (by rw [Matrix.det_transvection_of_ne _ _ hab]; simp) (by simp)
    (fun k _ => by simp) hsm hv hy
  exact ⟨e, he, fun cfg eps g1 g2 g3 g4 t ht => ⟨(h cfg eps g1 g2 g3 g4).1 t ht, (h cfg eps g1 g2 g3 g4).2 t ht⟩⟩

theorem noForeign_units {σ : Str → Option (Expr (XNum ℝ))} {x : Str} (e : Expr (XNum ℝ))
    (h : ∀ v ∈ e.vars, ∃ a b, σ v = some (.bin .mul (.num a) (.var b))) : (e.subst σ).NoForeignExp x := by
  induction e with
  | num v => trivial
  | var v =>
    obtain ⟨a, b, hv⟩ := h v (by simp [Expr.vars])
    simp only [Expr.subst, hv]
    exact ⟨trivial, trivial⟩
  | un o e ih =>
    refine ⟨fun ho y hy => ?_, ih fun v hv => h v (by simpa [Expr.vars] using hv)⟩
    cases e with
    | var z =>
      obtain ⟨a, b, hv⟩ := h z (by simp [Expr.vars])
      simp [Expr.subst, hv] at hy
    | num v => cases hy
    | un o' e' => cases hy
    | bin o' a b => cases hy
  | bin o a b iha ihb => exact ⟨iha fun v hv => h v (by simp [Expr.vars, hv]), ihb fun v hv => h v (by simp [Expr.vars, hv])⟩

/-- **C121**, other units: measuring the variables in other units (`x_j = c_j x'_j`) does not matter.  Either the solver throws runtime_error
for both, or it returns for both, and the numbers returned differ by the factors `c`. -/
theorem C121_units {vars : List Str} {f : Matrix (Fin vars.length) (Fin 1) (Expr (XNum ℝ))} (c : Fin vars.length → ℝ) (hc : ∀ j, c j ≠ 0)
    {N : ℕ} {y : ℕ → Fin vars.length → ℝ} (hy : NewtonPoints f N y) :
    ∃ e : ℝ, 0 < e ∧ ∀ (cfg : Config (XNum ℝ)) (eps : ℝ), 0 < eps → eps ≤ e → cfg.epsilon = .fin eps → cfg.maxIterations < N →
      ∀ t t', TableAt t vars (y 0) → TableAt t' vars (fun j => y 0 j / c j) →
        (solveByNewtonRaphson cfg (symOf f) t = .throw .runtime ∧ solveByNewtonRaphson cfg (symOf (inUnits vars c f)) t' = .throw .runtime) ∨
        ∃ s s' u, solveByNewtonRaphson cfg (symOf f) t = .ok s ∧ solveByNewtonRaphson cfg (symOf (inUnits vars c f)) t' = .ok s' ∧
          TableAt s vars u ∧ TableAt s' vars (fun j => u j / c j) := by
  by_cases hn : vars.Nodup
  swap
  · exact ⟨1, one_pos, fun _ _ _ _ _ _ t _ ht => absurd ht.nodup hn⟩
  have hCz : ∀ k, (Matrix.diagonal c).mulVec (fun j => y k j / c j) = y k := by
    intro k; funext j
    rw [Matrix.mulVec_diagonal]
    field_simp [hc j]
  have hval : ∀ (u : Fin vars.length → ℝ) (v : Str), v ∈ vars →
      realVal (assign vars u) ((Expr.var v).subst fun x => if x ∈ vars then some (.bin .mul (.num (.fin (assign vars c x))) (.var x)) else none) =
        some (assign vars ((Matrix.diagonal c).mulVec u) v) := by
    intro u v hv
    obtain ⟨j, hj, rfl⟩ := List.mem_iff_getElem.mp hv
    have e1 : ∀ w, assign vars w vars[j] = w ⟨j, hj⟩ := fun w => assign_self hn w ⟨j, hj⟩
    simp only [Expr.subst, hv, ↓reduceIte, Option.getD_some]
    rw [realVal_mul_num (v := u ⟨j, hj⟩) _ (by rw [realVal, e1]), e1, e1, Matrix.mulVec_diagonal]
  have hsub : ∀ k, k ≤ N → SmoothAt (inUnits vars c f) vars (fun j => y k j / c j) := by
    intro k hk
    obtain ⟨h1, h2, h3⟩ := hy.smooth k hk
    refine ⟨fun i x hx => ?_, fun i x hx => noForeign_units _ fun v hv => ⟨_, _, if_pos (h1 i v hv)⟩, fun i => ?_⟩
    · rcases (mem_vars_subst _ _ _).mp hx with ⟨hx, _⟩ | ⟨v, hv, r, hr, hx⟩
      · exact h1 i x hx
      · rw [if_pos (h1 i v hv)] at hr
        obtain rfl := Option.some.inj hr
        simp only [Expr.vars, List.nil_append, List.mem_singleton] at hx
        rw [hx]; exact h1 i v hv
    · refine smooth_subst (ρ' := assign vars (y k)) _ (fun v hv => ?_) (fun v hv => ?_) (h3 i)
      · rw [hval _ v (h1 i v hv), hCz]
      · simp only [Expr.subst, h1 i v hv, ↓reduceIte]
        exact ⟨⟨_, rfl⟩, trivial⟩
  have hv : ∀ u F, IsValue f vars ((Matrix.diagonal c).mulVec u) F → IsValue (inUnits vars c f) vars u F := by
    intro u F h i
    rw [← h i]
    refine realVal_subst _ fun v hv => hval u v ((hy.smooth 0 (by omega)).1 i v hv)
  obtain ⟨e, he, h⟩ := C121 (B := 1) (z := fun k j => y k j / c j) (by simp)
    (by rw [Matrix.det_diagonal]; exact Finset.prod_ne_zero_iff.mpr fun i _ => hc i) (fun k _ => hCz k) hsub
    (fun u F h => by rw [Matrix.one_mulVec]; exact hv u F h) hy
  refine ⟨e, he, fun cfg eps g1 g2 g3 g4 t t' ht ht' => ?_⟩
  obtain ⟨a, b⟩ := h cfg eps g1 g2 g3 g4
  have hsm : ∀ k : ℕ, (k : ℤ) ≤ max (cfg.maxIterations + 1) 0 →
      (Small f eps (y k) ↔ Small (inUnits vars c f) eps (fun j => y k j / c j)) := by
    intro k hk
    obtain ⟨F, hF⟩ := smoothAt_value (hy.smooth k (by omega))
    rw [small_iff g1 hF, small_iff g1 (hv _ F (by rw [hCz]; exact hF))]
  rcases runsAlong_same hsm (a t ht) (b t' ht') with h1 | ⟨s, s', k, -, h1, h2, h3, h4⟩
  · exact .inl h1
  · exact .inr ⟨s, s', y k, h1, h2, h3, h4⟩

/-! ### where it ends -/

/-- C121 ends with shifts of the variables: `x^2 = 4` from `x = 3` is solved by a number near -2, and the same equation for `z = x - 3` from `z = 0` by
a number near -1, which is `x` near 2 (because the first correction is added to 0, C44). -/
theorem C121_false_shift :
    (∃ t, solveByNewtonRaphson { defaultConfig with epsilon := .fin (1 / 10) }
      (symOf (r := 1) (c := 1) fun _ _ => .bin .sub (.bin .mul (.var ['x']) (.var ['x'])) (.num (.fin 4))) (oneVar 3) = .ok t ∧
      (t.values.data.all fun x => Arith.lt x (.fin (-19 / 10)) && Arith.lt (.fin (-21 / 10)) x) = true) ∧
    ∃ t, solveByNewtonRaphson { defaultConfig with epsilon := .fin (1 / 10) }
      (symOf (r := 1) (c := 1) fun _ _ => .bin .sub (.bin .mul (.bin .add (.var ['x']) (.num (.fin 3))) (.bin .add (.var ['x']) (.num (.fin 3)))) (.num (.fin 4)))
      (oneVar 0) = .ok t ∧
      (t.values.data.all fun x => Arith.lt x (.fin (-9 / 10)) && Arith.lt (.fin (-11 / 10)) x) = true := by
  have key : ∀ (r : Res (VarsTable (XNum Rat))) (p : VarsTable (XNum Rat) → Bool),
      (match r with | .ok t => p t | _ => false) = true → ∃ t, r = .ok t ∧ p t = true := by
    intro r p h
    cases r <;> first | exact ⟨_, rfl, h⟩ | cases h
  exact ⟨key _ (fun t => t.values.data.all fun x => Arith.lt x (.fin (-19 / 10)) && Arith.lt (.fin (-21 / 10)) x) (by decide +kernel),
    key _ (fun t => t.values.data.all fun x => Arith.lt x (.fin (-9 / 10)) && Arith.lt (.fin (-11 / 10)) x) (by decide +kernel)⟩

theorem halved_spec : (∀ u, IsValue (scaled ![1, 100000 / 250002] crossed) [['x'], ['y']] u ((!![0, 1; 1, 0] : Matrix (Fin 2) (Fin 2) ℝ).mulVec u + 0)) ∧
    ∀ u, SmoothAt (scaled ![1, 100000 / 250002] crossed) [['x'], ['y']] u := by
  refine ⟨fun u i => ?_, fun u => ⟨?_, ?_, ?_⟩⟩
  · have hx : assign [['x'], ['y']] u ['x'] = u 0 := rfl
    have hy : assign [['x'], ['y']] u ['y'] = u 1 := rfl
    fin_cases i
    · simp [scaled, crossed, realVal, XNum.val?, BinOp.real, hx, hy, Matrix.mulVec, dotProduct, Fin.sum_univ_two]
    · simp [scaled, crossed, realVal, BinOp.real, XNum.val?, hx, hy, Matrix.mulVec, dotProduct, Fin.sum_univ_two]
      ring
  · intro i; fin_cases i <;> simp [scaled, crossed, Expr.vars]
  · intro i; fin_cases i <;> simp [scaled, crossed, Expr.NoForeignExp]
  · intro i; fin_cases i <;> simp [scaled, crossed, Smooth]

/-- C121 is false for `SolveByLM`: `y = 0, 2.50002 x = 0` from `x = 0, y = 1` never ends for small epsilon; with the second equation multiplied by
1/2.50002 it is solved. -/
theorem C121_false_lm : ∃ e : ℝ, 0 < e ∧ ∀ eps, 0 < eps → eps ≤ e → ∃ N : ℕ, ∀ (cfg : Config (XNum ℝ)), cfg.epsilon = .fin eps →
    (N : ℤ) ≤ cfg.maxIterations → ∀ t, TableAt t [['x'], ['y']] ![0, 1] →
      (∀ lsFuel fuel, solveByLM cfg lsFuel fuel (symOf crossed) t = .diverge) ∧
      ∀ lsFuel fuel, 0 < lsFuel → N < fuel → ∃ s u, solveByLM cfg lsFuel fuel (symOf (scaled ![1, 100000 / 250002] crossed)) t = .ok s ∧
        TableAt s [['x'], ['y']] u ∧ Small (vars := [['x'], ['y']]) (scaled ![1, 100000 / 250002] crossed) eps u := by
  obtain ⟨-, e0, he0, h0⟩ := C73_false_lm
  have det1 : (!![0, 1; 1, 0] : Matrix (Fin 2) (Fin 2) ℝ).det ≠ 0 := by norm_num [Matrix.det_fin_two]
  obtain ⟨e1, he1, h1⟩ := C95_symm (vars := [['x'], ['y']]) (by decide) det1 halved_spec.1 halved_spec.2
    (by ext i j; fin_cases i <;> fin_cases j <;> rfl)
  refine ⟨min (min e0 1) e1, lt_min (lt_min he0 one_pos) he1, fun eps g1 g2 => ?_⟩
  have l0 : eps ≤ e0 := g2.trans ((min_le_left _ _).trans (min_le_left _ _))
  have l1 : eps ≤ 1 := g2.trans ((min_le_left _ _).trans (min_le_right _ _))
  obtain ⟨N1, k1⟩ := h1 eps 1 g1 (g2.trans (min_le_right _ _))
  refine ⟨N1, fun cfg c1 c2 t ht => ⟨fun lsFuel fuel => h0 cfg eps g1 l0 c1 t 1 ht (by simpa using l1) lsFuel fuel,
    fun lsFuel fuel hl hf => ?_⟩⟩
  obtain ⟨s, u, a, b, c⟩ := k1 cfg c1 c2 lsFuel fuel hl (by omega) t _ ht (by intro i; fin_cases i <;> simp)
  exact ⟨s, u, a, b, fun i => ⟨_, halved_spec.1 u i, c i⟩⟩

/-! ### the hypotheses are met -/

/-- C121 applied to `2 x + y = 3, x = y` from `x = 5, y = 7`: multiplied by 3 and -1/2, added, and measured in other units -/
example : (∃ e : ℝ, 0 < e ∧ ∀ (cfg : Config (XNum ℝ)) (eps : ℝ), 0 < eps → eps ≤ e → cfg.epsilon = .fin eps → cfg.maxIterations < (100 : ℕ) →
      ∀ t, TableAt t [['x'], ['y']] ![5, 7] → RunsAlong (vars := [['x'], ['y']]) cfg eps (scaled ![3, -1 / 2] lines)
        (fun k => if k = 0 then ![5, 7] else if k = 1 then ![1, 1] - ![5, 7] else ![1, 1]) t) ∧
    (∃ e : ℝ, 0 < e ∧ ∀ (cfg : Config (XNum ℝ)) (eps : ℝ), 0 < eps → eps ≤ e → cfg.epsilon = .fin eps → cfg.maxIterations < (100 : ℕ) →
      ∀ t, TableAt t [['x'], ['y']] ![5, 7] → RunsAlong (vars := [['x'], ['y']]) cfg eps (rowAdded 0 1 2 lines)
        (fun k => if k = 0 then ![5, 7] else if k = 1 then ![1, 1] - ![5, 7] else ![1, 1]) t) := by
  constructor
  · obtain ⟨e, he, h⟩ := C121_scaled (vars := [['x'], ['y']]) ![3, -1 / 2] (by intro i; fin_cases i <;> simp) (lines_points ![5, 7] 100)
    exact ⟨e, he, fun cfg eps g1 g2 g3 g4 t ht => (h cfg eps g1 g2 g3 g4 t ht).2⟩
  · obtain ⟨e, he, h⟩ := C121_added (vars := [['x'], ['y']]) 0 1 (by decide) 2 (lines_points ![5, 7] 100)
    exact ⟨e, he, fun cfg eps g1 g2 g3 g4 t ht => (h cfg eps g1 g2 g3 g4 t ht).2⟩

/-- `(x + (x + y)) + -3 = 0, -(y - x) = 0`: the same functions as `lines` -/
noncomputable def lines' : Matrix (Fin 2) (Fin 1) (Expr (XNum ℝ)) := Matrix.of fun i _ =>
  if i = 0 then .bin .add (.bin .add (.var ['x']) (.bin .add (.var ['x']) (.var ['y']))) (.num (.fin (-3)))
  else .un .neg (.bin .sub (.var ['y']) (.var ['x']))

/-- C121 applied to `2 x + y - 3 = 0, x - y = 0` and `(x + (x + y)) + -3 = 0, -(y - x) = 0`: the outcome is the same -/
example : ∃ e : ℝ, 0 < e ∧ ∀ (cfg : Config (XNum ℝ)) (eps : ℝ), 0 < eps → eps ≤ e → cfg.epsilon = .fin eps → cfg.maxIterations < (100 : ℕ) →
    ∀ t, TableAt t [['x'], ['y']] ![5, 7] → solveByNewtonRaphson cfg (symOf lines') t = solveByNewtonRaphson cfg (symOf lines) t := by
  refine C121_same (vars := [['x'], ['y']]) (g := lines') (lines_points ![5, 7] 100) (fun k _ => ⟨?_, ?_, ?_⟩) fun u F h => ?_
  · intro i; fin_cases i <;> simp [lines', Expr.vars]
  · intro i; fin_cases i <;> simp [lines', Expr.NoForeignExp]
  · intro i; fin_cases i <;> simp [lines', Smooth, realVal, BinOp.real, UnOp.smoothAt]
  · rw [isValue_unique h (lines_spec.1 u)]
    have hx : assign [['x'], ['y']] u ['x'] = u 0 := rfl
    have hy : assign [['x'], ['y']] u ['y'] = u 1 := rfl
    intro i
    fin_cases i
    · simp [lines', realVal, BinOp.real, XNum.val?, hx, hy, dotProduct, Fin.sum_univ_two]
      ring
    · simp [lines', realVal, BinOp.real, UnOp.real, hx, hy, dotProduct, Fin.sum_univ_two]
      ring

end Tom
