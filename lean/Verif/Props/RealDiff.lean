import Verif.Lemmas.RealDiff
/-
C26 (Diff is the partial derivative) and C30 (higher orders), over the reals.
-/
namespace Tom
open Classical Filter Topology

/-- C26, partial: for every expression that is smooth at `ρ` in the sense of its own differentiation rules, `Diff` returns
normally (default configuration included) and the value of the result at `ρ` is the partial derivative.  Excluded: `exp`
applied to a bare variable other than `x`, for which the property is false (`C26_false`). -/
theorem C26_C28_partial (cfg : Config (XNum ℝ)) (ρ : Str → ℝ) (x : Str) (e : Expr (XNum ℝ)) (hs : Smooth 1 ρ e)
    (hf : e.NoForeignExp x) :
    ∃ e' d, diff cfg (embed e) x 1 = .ok (embed e') ∧ realVal ρ e' = some d ∧ HasPartialDeriv ρ x e d := by
  obtain ⟨d, hd, hp⟩ := dE_correct ρ x e hs hf
  have hs0 : Smooth 0 ρ (dE x e) := smooth_dE 0 ρ x e hs
  obtain ⟨e', h1, h2⟩ := C21_C24_partial cfg ρ (dE x e) d hd (smooth_zeroPowFree ρ _ hs0)
  refine ⟨e', d, ?_, h2, hp⟩
  rw [diff_ok cfg x 1 (by decide) e (smooth_hasIntOp e hs)]
  exact h1

/-- C26 fails as stated: `Diff("exp(x)", "y")` is `exp(x)`, but the partial derivative is 0. -/
theorem C26_false (cfg : Config (XNum ℝ)) (ρ : Str → ℝ) :
    let e : Expr (XNum ℝ) := .un .exp (.var ['x'])
    Smooth 1 ρ e ∧ ∃ e' d, diff cfg (embed e) ['y'] 1 = .ok (embed e') ∧ realVal ρ e' = some d ∧
      HasPartialDeriv ρ ['y'] e 0 ∧ d ≠ 0 := by
  refine ⟨⟨trivial, _, rfl, .inl trivial⟩, .un .exp (.var ['x']), Real.exp (ρ ['x']), C31_false cfg, rfl, ?_, Real.exp_ne_zero _⟩
  exact pd_const ρ ['y'] _ (Real.exp (ρ ['x'])) (by decide) rfl

/-- The partial derivative is unique, so the statement of C26 determines the value. -/
theorem HasPartialDeriv.unique {ρ : Str → ℝ} {x : Str} {e : Expr (XNum ℝ)} {d d' : ℝ} (h : HasPartialDeriv ρ x e d)
    (h' : HasPartialDeriv ρ x e d') : d = d' := by
  obtain ⟨f, h1, h2⟩ := h
  obtain ⟨g, h3, h4⟩ := h'
  refine h2.unique (h4.congr_of_eventuallyEq ?_)
  filter_upwards [h1, h3] with t a b
  rw [a] at b
  simpa using b

/-- C30, partial: at a point where `e` is smooth for `n` differentiations, `Diff(e, x, n)` returns normally and its value
is the `n`-th partial derivative.  Excluded as for C26. -/
theorem C30_partial (cfg : Config (XNum ℝ)) (ρ : Str → ℝ) (x : Str) (n : ℕ) (hn : 0 < n) (e : Expr (XNum ℝ))
    (hs : Smooth n ρ e) (hf : e.NoForeignExp x) :
    ∃ e' d, diff cfg (embed e) x n = .ok (embed e') ∧ realVal ρ e' = some d ∧ HasNthPartialDeriv ρ x e n d := by
  set g : ℕ → ℝ → ℝ := fun k t => (realVal (at_ ρ x t) ((dE x)^[k] e)).getD 0 with hg
  have hgk : ∀ k ≤ n, ∀ ρ', Smooth n ρ' e → ∃ v, realVal ρ' ((dE x)^[k] e) = some v := by
    intro k hk ρ' h
    exact smooth_val (n := n - k) ρ' _ (smooth_iterate (n - k) k ρ' x e (by rwa [Nat.sub_add_cancel hk]))
  have hev := smooth_eventually hn ρ x e hs hf
  obtain ⟨d, hd⟩ := hgk n le_rfl ρ hs
  have hs0 : Smooth 0 ρ ((dE x)^[n] e) := smooth_iterate 0 n ρ x e (by simpa using hs)
  obtain ⟨e', h1, h2⟩ := C21_C24_partial cfg ρ _ d hd (smooth_zeroPowFree ρ _ hs0)
  refine ⟨e', d, ?_, h2, g, ?_, ?_, ?_⟩
  · rw [diff_ok cfg x n (by omega) e (smooth_hasIntOp e hs)]
    simpa using h1
  · filter_upwards [hev] with t ht
    obtain ⟨v, hv⟩ := hgk 0 (Nat.zero_le n) _ ht
    simp only [Function.iterate_zero, id] at hv
    simp [hg, hv]
  · intro k hk
    filter_upwards [hev] with t ht
    have hs1 : Smooth 1 (at_ ρ x t) ((dE x)^[k] e) := by
      refine smooth_mono (n := n - k) (by omega) _ _ (smooth_iterate (n - k) k _ x e ?_)
      rwa [Nat.sub_add_cancel hk.le]
    obtain ⟨d', hd', f, hf1, hf2⟩ := dE_correct (at_ ρ x t) x _ hs1 (iterate_noForeignExp x k e hf)
    rw [at_x] at hf1 hf2
    have hgd : g (k + 1) t = d' := by
      simp only [hg, Function.iterate_succ_apply', hd', Option.getD_some]
    rw [hgd]
    refine hf2.congr_of_eventuallyEq ?_
    filter_upwards [hf1] with s hs'
    rw [at_at] at hs'
    simp [hg, hs']
  · simp [hg, at_self, hd]

/-- Non-vacuity: `x^3 * sin(x*y) / sqrt(x) + exp(2*x)` is smooth for any number of differentiations where `x > 0`. -/
example (n : ℕ) (ρ : Str → ℝ) (h : 0 < ρ ['x']) :
    Smooth n ρ (.bin .add (.bin .div (.bin .mul (.bin .pow (.var ['x']) (.num (.fin 3)))
      (.un .sin (.bin .mul (.var ['x']) (.var ['y'])))) (.un .sqrt (.var ['x'])))
      (.un .exp (.bin .mul (.num (.fin 2)) (.var ['x'])))) ∧
    Expr.NoForeignExp ['x'] (.bin .add (.bin .div (.bin .mul (.bin .pow (.var ['x']) (.num (.fin 3)))
      (.un .sin (.bin .mul (.var ['x']) (.var ['y'])))) (.un .sqrt (.var ['x'])))
      (.un .exp (.bin .mul (.num (.fin 2)) (.var ['x']))) : Expr (XNum ℝ)) := by
  have hsq : √(ρ ['x']) ≠ 0 := Real.sqrt_ne_zero'.mpr h
  simp [Smooth, realVal, UnOp.real, BinOp.real, UnOp.smoothAt, XNum.val?, h, h.le, Expr.NoForeignExp, hsq]

end Tom
