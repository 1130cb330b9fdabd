import Verif.Props.MixedPartial
import Verif.Props.ChainRule
import Verif.Props.DiffZero
/-
C125: what `Diff` gives depends on the function only, not on how it is written.
-/
namespace Tom
open Filter Topology

/-- **C125** (what holds of it): if two expressions denote the same function near a point and are smooth there, then the results of
`Diff` by any variables, one after the other, have the same value at the point.  Missing: `exp` of a bare variable, where the claim is false
(`C125_false`). -/
theorem C125_partial (cfg : Config (XNum ℝ)) (ρ : Str → ℝ) (xs : List Str) (e f : Expr (XNum ℝ)) (he : Smooth xs.length ρ e)
    (hf : Smooth xs.length ρ f) (he' : ExpFit cfg xs e) (hf' : ExpFit cfg xs f) (h : ∀ᶠ σ in 𝓝 ρ, realVal σ e = realVal σ f) :
    ∃ e' f' d, diffs cfg xs (embed e) = .ok (embed e') ∧ diffs cfg xs (embed f) = .ok (embed f') ∧ realVal ρ e' = some d ∧
      realVal ρ f' = some d := by
  rcases eq_or_ne xs [] with rfl | hxs
  · obtain ⟨v, hv⟩ := smooth_val ρ e he
    exact ⟨e, f, v, rfl, rfl, hv, h.self_of_nhds ▸ hv⟩
  obtain ⟨e', d, h1, h2, h3⟩ := diffs_mixed cfg ρ xs e he he'
  obtain ⟨f', d', k1, k2, k3⟩ := diffs_mixed cfg ρ xs f hf hf'
  obtain ⟨g, hg⟩ := smooth_function (List.length_pos_of_ne_nil hxs) he
  have hg' : ∀ᶠ σ in 𝓝 ρ, realVal σ f = some (g σ) := by
    filter_upwards [hg, h] with σ a b
    rw [← b, a]
  have : d' = d := HasMixedPartial.unique (k3 g hg') (h3 g hg) (.of_forall fun _ => rfl)
  subst this
  exact ⟨e', f', d', h1, k1, h2, k2⟩

/-- The `n`-th partial derivative depends on the function along the axis only. -/
theorem nthPartial_congr {ρ : Str → ℝ} {x : Str} {e f : Expr (XNum ℝ)} {n : ℕ} {d d' : ℝ} (h : HasNthPartialDeriv ρ x e n d)
    (h' : HasNthPartialDeriv ρ x f n d') (hef : ∀ᶠ t in 𝓝 (ρ x), realVal (at_ ρ x t) e = realVal (at_ ρ x t) f) : d = d' := by
  obtain ⟨g, a1, a2, a3⟩ := h
  obtain ⟨g', b1, b2, b3⟩ := h'
  have key : ∀ k ≤ n, ∀ᶠ t in 𝓝 (ρ x), g k t = g' k t := by
    intro k
    induction k with
    | zero =>
      intro _
      filter_upwards [a1, b1, hef] with t h1 h2 h3
      rw [h1, h2] at h3
      exact Option.some.inj h3
    | succ k ih =>
      intro hk
      filter_upwards [a2 k hk, b2 k hk, (ih (by omega)).eventually_nhds] with t h1 h2 h3
      exact h1.unique (h2.congr_of_eventuallyEq h3)
  rw [← a3, ← b3]
  exact (key n le_rfl).self_of_nhds

/-- **C125**, of one variable: it is enough that the functions agree along the axis of the variable; `Diff(e, x, n)` for every `n`, smoothness
in the wider sense of C30 (`x^2` at 0 included).  Missing: `exp` of a bare variable (`C125_false`). -/
theorem C125_axis_partial (cfg : Config (XNum ℝ)) (ρ ρ' : Str → ℝ) (x : Str) (n : ℕ) (hn : 0 < n) (e f : Expr (XNum ℝ)) (he : SmoothHere ρ e)
    (hf : SmoothHere ρ f) (he' : Smooth n ρ' e) (hf' : Smooth n ρ' f) (hex : e.NoForeignExp x) (hfx : f.NoForeignExp x)
    (h : ∀ᶠ t in 𝓝 (ρ x), realVal (at_ ρ x t) e = realVal (at_ ρ x t) f) :
    ∃ e' f' d, diff cfg (embed e) x n = .ok (embed e') ∧ diff cfg (embed f) x n = .ok (embed f') ∧ realVal ρ e' = some d ∧
      realVal ρ f' = some d := by
  obtain ⟨e', d, h1, h2, h3⟩ := C30_smooth cfg ρ ρ' x n hn e he he' hex
  obtain ⟨f', d', k1, k2, k3⟩ := C30_smooth cfg ρ ρ' x n hn f hf hf' hfx
  have : d = d' := nthPartial_congr h3 k3 h
  subst this
  exact ⟨e', f', d, h1, k1, h2, k2⟩

/-- **C125**, rules of calculus: whatever expressions `s` and `p` denote the sum `k*a + b` and the product `a * b`, however they are written,
their derivatives have the values `k*a' + b'` and `a'*b + a*b'`, where `a'` and `b'` are the values of `Diff(a)` and `Diff(b)`.
Missing: `exp` of a bare variable (`C125_false`). -/
theorem C125_rules_partial (cfg : Config (XNum ℝ)) (ρ : Str → ℝ) (x : Str) (k : ℝ) (a b s p : Expr (XNum ℝ)) (ha : Smooth 1 ρ a) (hb : Smooth 1 ρ b)
    (hs : Smooth 1 ρ s) (hp : Smooth 1 ρ p) (ha' : a.NoForeignExp x) (hb' : b.NoForeignExp x) (hs' : s.NoForeignExp x) (hp' : p.NoForeignExp x)
    (hsum : ∀ᶠ t in 𝓝 (ρ x), ∀ u v, realVal (at_ ρ x t) a = some u → realVal (at_ ρ x t) b = some v → realVal (at_ ρ x t) s = some (k * u + v))
    (hprod : ∀ᶠ t in 𝓝 (ρ x), ∀ u v, realVal (at_ ρ x t) a = some u → realVal (at_ ρ x t) b = some v → realVal (at_ ρ x t) p = some (u * v)) :
    ∃ a' b' s' p' u v du dv, diff cfg (embed a) x 1 = .ok (embed a') ∧ diff cfg (embed b) x 1 = .ok (embed b') ∧
      diff cfg (embed s) x 1 = .ok (embed s') ∧ diff cfg (embed p) x 1 = .ok (embed p') ∧
      realVal ρ a = some u ∧ realVal ρ b = some v ∧ realVal ρ a' = some du ∧ realVal ρ b' = some dv ∧
      realVal ρ s' = some (k * du + dv) ∧ realVal ρ p' = some (du * v + u * dv) := by
  obtain ⟨a', du, a1, a2, fa, a3, a4⟩ := C26_C28_partial cfg ρ x a ha ha'
  obtain ⟨b', dv, b1, b2, fb, b3, b4⟩ := C26_C28_partial cfg ρ x b hb hb'
  obtain ⟨s', ds, s1, s2, s3⟩ := C26_C28_partial cfg ρ x s hs hs'
  obtain ⟨p', dp, p1, p2, p3⟩ := C26_C28_partial cfg ρ x p hp hp'
  have hρ : at_ ρ x (ρ x) = ρ := by
    funext y
    by_cases h : y = x
    · subst h; simp [at_]
    · simp [at_, h]
  have hu := a3.self_of_nhds
  have hv := b3.self_of_nhds
  rw [hρ] at hu hv
  have es : ds = k * du + dv := by
    refine s3.unique ⟨fun t => k * fa t + fb t, ?_, (a4.const_mul k).add b4⟩
    filter_upwards [a3, b3, hsum] with t h1 h2 h3
    exact h3 _ _ h1 h2
  have ep : dp = du * fb (ρ x) + fa (ρ x) * dv := by
    refine p3.unique ⟨fun t => fa t * fb t, ?_, a4.mul b4⟩
    filter_upwards [a3, b3, hprod] with t h1 h2 h3
    exact h3 _ _ h1 h2
  exact ⟨a', b', s', p', _, _, du, dv, a1, b1, s1, p1, hu, hv, a2, b2, es ▸ s2, ep ▸ p2⟩

/-- **C125 is false** where `exp` is applied to a bare variable: `exp(x)` and `exp(1*x)` are the same function, but differentiated by `y` the
one gives `exp(x)`, the other 0. -/
theorem C125_false (cfg : Config (XNum ℝ)) (ρ : Str → ℝ) :
    let e : Expr (XNum ℝ) := .un .exp (.var ['x'])
    Smooth 1 ρ e ∧ Smooth 1 ρ expOneX ∧ (∀ σ, realVal σ e = realVal σ expOneX) ∧
    diff cfg (embed e) ['y'] 1 = .ok (embed e) ∧ diff cfg (embed expOneX) ['y'] 1 = .ok (embed (.num (.fin 0))) ∧
    realVal ρ e ≠ some 0 := by
  refine ⟨⟨trivial, _, rfl, .inl trivial⟩, expOneX_smooth ρ 1, fun σ => ?_, C31_false cfg, expOneX_y cfg, ?_⟩
  · simp [expOneX, realVal, XNum.val?, BinOp.real]
  · simp [realVal, UnOp.real]

/-- two ways to write a function: `(x+1)^2` and `x*x + 2*x + 1` -/
example (ρ : Str → ℝ) :
    let e : Expr (XNum ℝ) := .bin .pow (.bin .add (.var ['x']) (.num (.fin 1))) (.num (.fin 2))
    let f : Expr (XNum ℝ) := .bin .add (.bin .add (.bin .mul (.var ['x']) (.var ['x'])) (.bin .mul (.num (.fin 2)) (.var ['x']))) (.num (.fin 1))
    SmoothHere ρ e ∧ SmoothHere ρ f ∧ e.NoForeignExp ['x'] ∧ f.NoForeignExp ['x'] ∧ ∀ σ, realVal σ e = realVal σ f := by
  refine ⟨?_, ?_, ?_, ?_, ?_⟩
  · exact ⟨⟨trivial, 1, rfl⟩, ⟨2, rfl⟩, _, rfl, .inr (.inl ⟨2, rfl, .inr ⟨2, by norm_num⟩⟩)⟩
  · exact ⟨⟨⟨trivial, trivial⟩, ⟨2, rfl⟩, trivial⟩, 1, rfl⟩
  · simp [Expr.NoForeignExp]
  · simp [Expr.NoForeignExp]
  · intro σ
    have := @realPow_two (σ ['x'] + 1)
    simp [realVal, XNum.val?, BinOp.real, this]
    ring

end Tom
