import Verif.Lemmas.MixedPartial
/-
C107: differentiating again with other variables gives the mixed partial derivatives; their order does not matter.
-/
set_option linter.unusedSectionVars false
namespace Tom
open Filter Topology

theorem smooth_function {n : ℕ} (hn : 1 ≤ n) {ρ : Str → ℝ} {e : Expr (XNum ℝ)} (hs : Smooth n ρ e) :
    ∃ g : (Str → ℝ) → ℝ, ∀ᶠ σ in 𝓝 ρ, realVal σ e = some (g σ) := by
  obtain ⟨g, _, h⟩ := smooth_near hn (fun σ : Str → ℝ => σ) (fun x => continuous_apply x) ρ e hs
  exact ⟨g, h.mono fun σ h => h.1⟩

theorem diffs_mixed (cfg : Config (XNum ℝ)) (ρ : Str → ℝ) (xs : List Str) (e : Expr (XNum ℝ)) (hs : Smooth xs.length ρ e) (hf : ExpFit cfg xs e) :
    ∃ e' d, diffs cfg xs (embed e) = .ok (embed e') ∧ realVal ρ e' = some d ∧
      ∀ g : (Str → ℝ) → ℝ, (∀ᶠ σ in 𝓝 ρ, realVal σ e = some (g σ)) → HasMixedPartial ρ xs g d := by
  induction xs generalizing e with
  | nil =>
    obtain ⟨v, hv⟩ := smooth_val ρ e hs
    refine ⟨e, v, rfl, hv, fun g hg => ?_⟩
    have := hg.self_of_nhds
    rw [hv] at this
    exact (Option.some.inj this).symm
  | cons x xs ih =>
    have hx := hf.noForeign (x := x) (by simp)
    obtain ⟨g0, hg0⟩ := smooth_function (by simp) hs
    obtain ⟨e1, h1, h2, h3, -⟩ := partialNear_diff cfg ρ x e hs hx hg0
    obtain ⟨e', d, h4, h5, h6⟩ := ih e1 h3 (hf.step h2)
    refine ⟨e', d, ?_, h5, fun g hg => ?_⟩
    · show (diff cfg (embed e) x 1 >>= diffs cfg xs) = _
      rw [h1]; exact h4
    · obtain ⟨e1', -, k2, -, g', k3, k4⟩ := partialNear_diff cfg ρ x e hs hx hg
      rw [h2] at k2; cases k2
      exact ⟨g', k4, h6 g' k3⟩

/-- **C107** (mixed partial derivatives): at a point where `e` is smooth for as many differentiations as there are variables in the list,
`Diff(...Diff(Diff(e, x₁), x₂)..., xₖ)` returns normally, and its value is the mixed partial derivative.  Excluded: `exp` of something that
`Simplify` makes a bare variable other than those of differentiation (without this condition the claim is false: `C107_false`). -/
theorem C107_partial (cfg : Config (XNum ℝ)) (ρ : Str → ℝ) (xs : List Str) (hxs : xs ≠ []) (e : Expr (XNum ℝ)) (hs : Smooth xs.length ρ e)
    (hf : ExpFit cfg xs e) :
    ∃ e' d, diffs cfg xs (embed e) = .ok (embed e') ∧ realVal ρ e' = some d ∧ e.HasMixedPartial ρ xs d := by
  obtain ⟨e', d, h1, h2, h3⟩ := diffs_mixed cfg ρ xs e hs hf
  obtain ⟨g, hg⟩ := smooth_function (List.length_pos_of_ne_nil hxs) hs
  exact ⟨e', d, h1, h2, g, hg, h3 g hg⟩

/-- The mixed partial derivative is unique, so C107 determines the value. -/
theorem Expr.HasMixedPartial.unique {ρ : Str → ℝ} {xs : List Str} {e : Expr (XNum ℝ)} {d d' : ℝ} (h : e.HasMixedPartial ρ xs d)
    (h' : e.HasMixedPartial ρ xs d') : d = d' := by
  obtain ⟨g, h1, h2⟩ := h
  obtain ⟨g', h3, h4⟩ := h'
  refine Tom.HasMixedPartial.unique h2 h4 ?_
  filter_upwards [h1, h3] with σ a b
  rw [a] at b
  exact Option.some.inj b

theorem ExpFit.perm {α : Type} [Dbl α] {cfg : Config α} {xs ys : List Str} {e : Expr α} (h : ExpFit cfg xs e) (hp : xs.Perm ys) : ExpFit cfg ys e :=
  fun a ha v hv x hx => h a ha v hv x (hp.mem_iff.mpr hx)

/-- **C107** (the order does not matter): in whichever order one differentiates, the result has the same value. -/
theorem C107_symmetric (cfg : Config (XNum ℝ)) (ρ : Str → ℝ) (xs ys : List Str) (hp : xs.Perm ys) (e : Expr (XNum ℝ)) (hs : Smooth xs.length ρ e)
    (hf : ExpFit cfg xs e) :
    ∃ e' e'' d, diffs cfg xs (embed e) = .ok (embed e') ∧ diffs cfg ys (embed e) = .ok (embed e'') ∧ realVal ρ e' = some d ∧
      realVal ρ e'' = some d := by
  induction hp generalizing e with
  | nil =>
    obtain ⟨v, hv⟩ := smooth_val ρ e hs
    exact ⟨e, e, v, rfl, rfl, hv, hv⟩
  | @cons x l l' hp ih =>
    obtain ⟨g, hg⟩ := smooth_function (by simp) hs
    obtain ⟨e1, h1, h2, h3, -⟩ := partialNear_diff cfg ρ x e hs (hf.noForeign (x := x) (by simp)) hg
    obtain ⟨e', e'', d, k1, k2, k3, k4⟩ := ih e1 h3 (hf.step h2)
    refine ⟨e', e'', d, ?_, ?_, k3, k4⟩
    · show (diff cfg (embed e) x 1 >>= diffs cfg l) = _
      rw [h1]; exact k1
    · show (diff cfg (embed e) x 1 >>= diffs cfg l') = _
      rw [h1]; exact k2
  | swap x y l =>
    have hf' : ExpFit cfg (x :: y :: l) e := hf.perm (List.Perm.swap x y l)
    obtain ⟨g, hg⟩ := smooth_function (by simp) hs
    obtain ⟨ey, h1, h2, h3, gy, h4, h5⟩ := partialNear_diff cfg ρ y e hs (hf.noForeign (x := y) (by simp)) hg
    obtain ⟨ex, k1, k2, k3, gx, k4, k5⟩ := partialNear_diff cfg ρ x e hs (hf.noForeign (x := x) (by simp)) hg
    obtain ⟨eyx, a1, a2, a3, gyx, a4, a5⟩ := partialNear_diff cfg ρ x ey h3 ((hf.step h2).noForeign (x := x) (by simp)) h4
    obtain ⟨exy, b1, b2, b3, gxy, b4, b5⟩ := partialNear_diff cfg ρ y ex k3 ((hf'.step k2).noForeign (x := y) (by simp)) k4
    have heq : ∀ᶠ σ in 𝓝 ρ, gxy σ = gyx σ := mixed_swap (smooth_mono (by simp) ρ e hs) hg k5 b5 h5 a5
    obtain ⟨e', d, c1, c2, c3⟩ := diffs_mixed cfg ρ l eyx a3 ((hf.step h2).step a2)
    obtain ⟨e'', d', c4, c5, c6⟩ := diffs_mixed cfg ρ l exy b3 ((hf'.step k2).step b2)
    have hd : d' = d := HasMixedPartial.unique (c6 gxy b4) (c3 gyx a4) heq
    subst hd
    refine ⟨e', e'', d', ?_, ?_, c2, c5⟩
    · show (diff cfg (embed e) y 1 >>= fun t => diff cfg t x 1 >>= diffs cfg l) = _
      rw [h1, Res.bind_ok, a1]; exact c1
    · show (diff cfg (embed e) x 1 >>= fun t => diff cfg t y 1 >>= diffs cfg l) = _
      rw [k1, Res.bind_ok, b1]; exact c4
  | @trans l1 l2 l3 h12 h23 ih1 ih2 =>
    obtain ⟨e1, e2, d, a1, a2, a3, a4⟩ := ih1 e hs hf
    obtain ⟨e2', e3, d', b1, b2, b3, b4⟩ := ih2 e (by rw [← h12.length_eq]; exact hs) (hf.perm h12)
    rw [a2] at b1
    have : e2 = e2' := embed_injective (Res.ok.inj b1)
    subst this
    rw [a4] at b3
    cases b3
    exact ⟨e1, e3, d, a1, b2, a3, b4⟩

/-! ### negation -/

/-- `exp(1*x)` -/
noncomputable def expOneX : Expr (XNum ℝ) := .un .exp (.bin .mul (.num (.fin 1)) (.var ['x']))

theorem expOneX_smooth (ρ : Str → ℝ) (n : ℕ) : Smooth n ρ expOneX := ⟨⟨⟨1, rfl⟩, trivial⟩, 1 * ρ ['x'], rfl, .inl trivial⟩

theorem expOneX_x (cfg : Config (XNum ℝ)) : diff cfg (embed expOneX) ['x'] 1 = .ok (embed (.un .exp (.var ['x']))) := by
  rw [diff_ok cfg _ 1 (by decide) _ (by rfl), simplify_ok_iff]
  refine ⟨_, ?_, rfl⟩
  show simpE cfg (dE ['x'] expOneX) = _
  simp [dE, expOneX, Expr.isNum, Expr.isVar, simpE, simpTop, isLit, Arith.eq, Arith.mul, Dbl.ofInt, XNum.cmp, XNum.map2, BinOp.apply, checked, Dbl.isInvalid]

theorem expOneX_y (cfg : Config (XNum ℝ)) : diff cfg (embed expOneX) ['y'] 1 = .ok (embed (.num (.fin 0))) := by
  rw [diff_ok cfg _ 1 (by decide) _ (by rfl), simplify_ok_iff]
  refine ⟨_, ?_, rfl⟩
  show simpE cfg (dE ['y'] expOneX) = _
  simp [dE, expOneX, Expr.isNum, Expr.isVar, simpE, simpTop, isLit, Arith.eq, Arith.mul, Dbl.ofInt, XNum.cmp, XNum.map2, BinOp.apply, checked, Dbl.isInvalid]

/-- **C107 is false without the condition on `exp`**: of `exp(1*x)`, which can be differentiated correctly by `x` and by `y`,
`Diff(Diff(e, "x"), "y")` is `exp(x)`, but `Diff(Diff(e, "y"), "x")` and the mixed derivative are 0. -/
theorem C107_false (cfg : Config (XNum ℝ)) (ρ : Str → ℝ) :
    Smooth 2 ρ expOneX ∧ expOneX.NoForeignExp ['x'] ∧ expOneX.NoForeignExp ['y'] ∧
    diffs cfg [['x'], ['y']] (embed expOneX) = .ok (embed (.un .exp (.var ['x']))) ∧
    diffs cfg [['y'], ['x']] (embed expOneX) = .ok (embed (.num (.fin 0))) ∧
    expOneX.HasMixedPartial ρ [['x'], ['y']] 0 ∧ realVal ρ (.un .exp (.var ['x'])) ≠ some 0 := by
  refine ⟨expOneX_smooth ρ 2, ⟨by simp, trivial, trivial⟩, ⟨by simp, trivial, trivial⟩, ?_, ?_, ?_, ?_⟩
  · show (diff cfg (embed expOneX) ['x'] 1 >>= fun t => diff cfg t ['y'] 1 >>= Res.ok) = _
    rw [expOneX_x, Res.bind_ok, C31_false cfg]
    rfl
  · show (diff cfg (embed expOneX) ['y'] 1 >>= fun t => diff cfg t ['x'] 1 >>= Res.ok) = _
    rw [expOneX_y, Res.bind_ok, diff_ok cfg _ 1 (by decide) _ (by rfl)]
    have : simplify cfg (embed (.num (.fin 0))) = .ok (embed (.num (.fin 0 : XNum ℝ))) := (simplify_ok_iff cfg _ _).mpr ⟨_, rfl, rfl⟩
    have h2 : embed ((dE ['x'])^[(1 : Int).toNat] (.num (.fin 0))) = embed (.num (.fin 0 : XNum ℝ)) := by
      simp [dE, Dbl.ofInt]
    rw [h2, this]; rfl
  · refine ⟨fun σ => Real.exp (1 * σ ['x']), .of_forall fun σ => rfl, fun σ => Real.exp (σ ['x']), .of_forall fun σ => ?_, fun _ => 0,
      .of_forall fun σ => ?_, rfl⟩
    · simp only [at_x, one_mul]
      exact Real.hasDerivAt_exp _
    · have : (fun t => Real.exp (at_ σ ['y'] t ['x'])) = fun _ => Real.exp (σ ['x']) := by
        funext t
        simp [at_]
      rw [this]
      exact hasDerivAt_const _ _
  · simp [realVal, UnOp.real, Real.exp_ne_zero]

/-! ### a case -/

/-- `x^2 * y + exp(x*y)` -/
noncomputable def mixedCase : Expr (XNum ℝ) :=
  .bin .add (.bin .mul (.bin .pow (.var ['x']) (.num (.fin 2))) (.var ['y'])) (.un .exp (.bin .mul (.var ['x']) (.var ['y'])))

/-- at every point, also where `x = 0`, and in the order x, y or y, x -/
example (cfg : Config (XNum ℝ)) (ρ : Str → ℝ) : Smooth 2 ρ mixedCase ∧ ExpFit cfg [['x'], ['y']] mixedCase := by
  refine ⟨⟨⟨⟨trivial, ⟨2, rfl⟩, ρ ['x'], rfl, .inr (.inl ⟨2, rfl, .inr ⟨2, le_rfl, by norm_num⟩⟩)⟩, trivial⟩,
    ⟨trivial, trivial⟩, ρ ['x'] * ρ ['y'], rfl, .inl trivial⟩, ?_⟩
  rw [expFit_iff]
  intro a ha v hv
  simp only [mixedCase, Expr.expArgs, List.append_nil, List.nil_append, List.mem_singleton] at ha
  subst ha
  simp [simpE, simpTop, isLit] at hv

end Tom
