import Verif.Props.MixedPartial
import Verif.Props.RealDiff
import Verif.Props.Subs
/-
C115: substitution and differentiation: the chain rule.
-/
set_option linter.unusedSectionVars false
namespace Tom
open Filter Topology

theorem realVal_subst {ρ ρ' : Str → ℝ} {σ : Str → Option (Expr (XNum ℝ))} (e : Expr (XNum ℝ))
    (h : ∀ v ∈ e.vars, realVal ρ ((Expr.var v).subst σ) = some (ρ' v)) : realVal ρ (e.subst σ) = realVal ρ' e := by
  induction e with
  | num v => rfl
  | var x => exact h x (by simp [Expr.vars])
  | un o e ih => simp only [Expr.subst, realVal]; rw [ih fun v hv => h v (by simpa [Expr.vars] using hv)]
  | bin o a b iha ihb =>
    simp only [Expr.subst, realVal]
    rw [iha fun v hv => h v (by simp [Expr.vars, hv]), ihb fun v hv => h v (by simp [Expr.vars, hv])]

theorem isNum_subst {σ : Str → Option (Expr (XNum ℝ))} {e : Expr (XNum ℝ)} (h : e.isNum = true) : e.subst σ = e := by
  cases e <;> first | rfl | cases h

theorem smooth_subst {n : ℕ} {ρ ρ' : Str → ℝ} {σ : Str → Option (Expr (XNum ℝ))} (e : Expr (XNum ℝ))
    (h : ∀ v ∈ e.vars, realVal ρ ((Expr.var v).subst σ) = some (ρ' v)) (hg : ∀ v ∈ e.vars, Smooth n ρ ((Expr.var v).subst σ))
    (hs : Smooth n ρ' e) : Smooth n ρ (e.subst σ) := by
  induction e with
  | num v => exact hs
  | var x => exact hg x (by simp [Expr.vars])
  | un o e ih =>
    have h' : ∀ v ∈ e.vars, realVal ρ ((Expr.var v).subst σ) = some (ρ' v) := fun v hv => h v (by simpa [Expr.vars] using hv)
    obtain ⟨h1, u, h2, h3⟩ := hs
    refine ⟨ih h' (fun v hv => hg v (by simpa [Expr.vars] using hv)) h1, u, (realVal_subst e h').trans h2, h3.imp id fun h4 => ⟨?_, h4.2⟩⟩
    rw [isNum_subst h4.1]; exact h4.1
  | bin o a b iha ihb =>
    have ha' : ∀ v ∈ a.vars, realVal ρ ((Expr.var v).subst σ) = some (ρ' v) := fun v hv => h v (by simp [Expr.vars, hv])
    have hb' : ∀ v ∈ b.vars, realVal ρ ((Expr.var v).subst σ) = some (ρ' v) := fun v hv => h v (by simp [Expr.vars, hv])
    have ka := iha ha' fun v hv => hg v (by simp [Expr.vars, hv])
    have kb := ihb hb' fun v hv => hg v (by simp [Expr.vars, hv])
    cases o with
    | add => exact ⟨ka hs.1, kb hs.2⟩
    | sub => exact ⟨ka hs.1, kb hs.2⟩
    | mul => exact ⟨ka hs.1, kb hs.2⟩
    | div =>
      obtain ⟨h1, h2, w, h3, h4⟩ := hs
      exact ⟨ka h1, kb h2, w, (realVal_subst b hb').trans h3, h4⟩
    | pow =>
      obtain ⟨h1, h2, u, h3, h4⟩ := hs
      refine ⟨ka h1, kb h2, u, (realVal_subst a ha').trans h3, ?_⟩
      rcases h4 with h4 | ⟨c, rfl, h5⟩ | ⟨h5, h6, w, r, h7, h8⟩
      · exact .inl h4
      · exact .inr (.inl ⟨c, rfl, h5⟩)
      · refine .inr (.inr ⟨by rw [isNum_subst h5]; exact h5, by rw [isNum_subst h6]; exact h6, w, r, ?_, h8⟩)
        rw [realVal_subst b hb']; exact h7
    | and => exact hs.elim
    | or => exact hs.elim
    | mod => exact hs.elim

/-- The chain rule for the functions that expressions denote. -/
theorem pd_subst {ρ ρ' : Str → ℝ} {σ : Str → Option (Expr (XNum ℝ))} {e : Expr (XNum ℝ)} {x : Str} (hs : Smooth 1 ρ' e) {vars : List Str}
    (hn : vars.Nodup) (hc : ∀ v ∈ e.vars, v ∈ vars) (hv : ∀ v ∈ vars, realVal ρ ((Expr.var v).subst σ) = some (ρ' v))
    {a b : Fin vars.length → ℝ} (ha : ∀ j, HasPartialDeriv ρ' vars[j] e (a j))
    (hb : ∀ j, HasPartialDeriv ρ x ((Expr.var vars[j]).subst σ) (b j)) : HasPartialDeriv ρ x (e.subst σ) (∑ j, a j * b j) := by
  -- points given by their coordinates in `vars`
  let p : (Fin vars.length → ℝ) → Str → ℝ := fun u v => if h : vars.idxOf v < vars.length then u ⟨vars.idxOf v, h⟩ else ρ' v
  have hpj : ∀ u (j : Fin vars.length), p u vars[j] = u j := by
    intro u j
    have h1 : vars.idxOf vars[j] = j := hn.idxOf_getElem j j.2
    simp only [p, h1, Fin.is_lt, ↓reduceDIte]
  let z : Fin vars.length → ℝ := fun j => ρ' vars[j]
  have hpz : p z = ρ' := by
    funext v
    by_cases h : vars.idxOf v < vars.length
    · simp only [p, h, ↓reduceDIte, z, Fin.getElem_fin, List.getElem_idxOf]
    · simp only [p, h, ↓reduceDIte]
  obtain ⟨g, hg, hgv⟩ := smooth_param (le_refl 1) p (by
    intro v
    by_cases h : vars.idxOf v < vars.length
    · simp only [p, h, ↓reduceDIte]; exact contDiff_apply ℝ ℝ _
    · simp only [p, h, ↓reduceDIte]; exact contDiff_const) z e (by rw [hpz]; exact hs)
  have hd := (hg.differentiableAt (by norm_num)).hasFDerivAt
  -- the partial derivatives of `e`
  have haj : ∀ j, a j = fderiv ℝ g z (Pi.single j 1) := by
    intro j
    obtain ⟨f, h1, h2⟩ := ha j
    have hup : Function.update z j (z j) = z := Function.update_eq_self _ _
    have k1 : HasDerivAt (Function.update z j) (Pi.single j 1) (z j) := hasDerivAt_update z j (z j)
    have k2 : HasFDerivAt g (fderiv ℝ g z) (Function.update z j (z j)) := by rw [hup]; exact hd
    have k3 := k2.comp_hasDerivAt (z j) k1
    refine h2.unique (k3.congr_of_eventuallyEq ?_)
    have hcont : Tendsto (Function.update z j) (𝓝 (z j)) (𝓝 z) := by
      have := k1.continuousAt
      unfold ContinuousAt at this
      rwa [hup] at this
    filter_upwards [h1, hcont.eventually hgv] with s s1 s2
    have : at_ ρ' vars[j] s = p (Function.update z j s) := by
      funext v
      by_cases hvj : v = vars[j]
      · rw [hvj, hpj, at_x, Function.update_self]
      · simp only [at_, hvj, ↓reduceIte, p]
        split
        · rename_i h
          rw [Function.update_of_ne]
          · simp only [z, Fin.getElem_fin, List.getElem_idxOf]
          · intro hj
            apply hvj
            rw [← hj]
            simp
        · rfl
    rw [this, s2.1] at s1
    exact (Option.some.inj s1).symm
  -- the curve
  choose c c1 c2 using hb
  have hcz : (fun j => c j (ρ x)) = z := by
    funext j
    have := (c1 j).self_of_nhds
    rw [at_self, hv vars[j] (List.getElem_mem _)] at this
    exact (Option.some.inj this).symm
  have hcd : HasDerivAt (fun t j => c j t) b (ρ x) := hasDerivAt_pi.mpr c2
  have hcc : Tendsto (fun t j => c j t) (𝓝 (ρ x)) (𝓝 z) := by
    have := hcd.continuousAt
    unfold ContinuousAt at this
    exact hcz ▸ this
  refine ⟨fun t => g fun j => c j t, ?_, ?_⟩
  · filter_upwards [eventually_all.mpr c1, hcc.eventually hgv] with t t1 t2
    rw [realVal_subst (ρ' := p fun j => c j t) e, t2.1]
    intro v hve
    obtain ⟨i, hi, rfl⟩ := List.mem_iff_getElem.mp (hc v hve)
    have := hpj (fun j => c j t) ⟨i, hi⟩
    simp only [Fin.getElem_fin] at this
    rw [this]
    exact t1 ⟨i, hi⟩
  · have k2 : HasFDerivAt g (fderiv ℝ g z) ((fun t j => c j t) (ρ x)) := by
      show HasFDerivAt g (fderiv ℝ g z) (fun j => c j (ρ x))
      rw [hcz]; exact hd
    have k3 := k2.comp_hasDerivAt (ρ x) hcd
    have : fderiv ℝ g z b = ∑ j, a j * b j := by
      conv_lhs => rw [← Finset.univ_sum_single b]
      rw [map_sum]
      refine Finset.sum_congr rfl fun j _ => ?_
      rw [haj, mul_comm, ← smul_eq_mul, ← map_smul, ← Pi.single_smul, smul_eq_mul, mul_one]
    rw [← this]
    exact k3

/-- `Diff`, with the variables of its result (C26, C28, C29) -/
theorem diff_value (cfg : Config (XNum ℝ)) (ρ : Str → ℝ) (x : Str) (e : Expr (XNum ℝ)) (hs : Smooth 1 ρ e) (hf : e.NoForeignExp x) :
    ∃ e' d, diff cfg (embed e) x 1 = .ok (embed e') ∧ realVal ρ e' = some d ∧ HasPartialDeriv ρ x e d ∧ ∀ y ∈ e'.vars, y ∈ e.vars := by
  obtain ⟨e', d, h1, h2, h3⟩ := C26_C28_partial cfg ρ x e hs hf
  obtain ⟨e'', h4, h5⟩ := (C29_diff cfg x 1 (by decide) e).2.2.2 _ h1
  have h6 := embed_injective h4
  subst h6
  exact ⟨e', d, h1, h2, h3, h5⟩

/-- **C115** (chain rule): let `vars` be the variables of `e`, and substitute expressions `gs` for the variables `ys`.  At a point `ρ` where
the substituted images are smooth, with values that make a point `ρ'` where `e` is smooth:
`Diff(Subs(e, ys, gs), x)` has the value `Σ_v Subs(Diff(e, v), ys, gs) * Diff(v replaced, x)`; all these calls return normally.
Missing: `exp` of a bare variable, where `Diff` is wrong (`C115_false`). -/
theorem C115_chain_partial (cfg : Config (XNum ℝ)) {ρ ρ' : Str → ℝ} (e : Expr (XNum ℝ)) (x : Str) (ys : List Str) (gs : List (Expr (XNum ℝ)))
    (hl : ys.length = gs.length) {vars : List Str} (hn : vars.Nodup) (hc : ∀ v ∈ e.vars, v ∈ vars)
    (hs : Smooth 1 ρ' e) (he : ∀ v ∈ vars, e.NoForeignExp v)
    (hg : ∀ v ∈ vars, let im := (Expr.var v).subst fun y => (ys.zip gs).lookup y
      realVal ρ im = some (ρ' v) ∧ Smooth 1 ρ im ∧ im.NoForeignExp x)
    (hx : (e.subst fun y => (ys.zip gs).lookup y).NoForeignExp x) :
    ∃ (q : Expr (XNum ℝ)) (p b : Fin vars.length → Expr (XNum ℝ)) (u w : Fin vars.length → ℝ),
      (subsVec (embed e) ys (gs.map embed) >>= fun t => diff cfg t x 1) = .ok (embed q) ∧
      (∀ j, (diff cfg (embed e) vars[j] 1 >>= fun t => subsVec t ys (gs.map embed)) = .ok (embed (p j)) ∧ realVal ρ (p j) = some (u j)) ∧
      (∀ j, (subsVec (embed (.var vars[j])) ys (gs.map embed) >>= fun t => diff cfg t x 1) = .ok (embed (b j)) ∧ realVal ρ (b j) = some (w j)) ∧
      realVal ρ q = some (∑ j, u j * w j) := by
  let σ : Str → Option (Expr (XNum ℝ)) := fun y => (ys.zip gs).lookup y
  have hval : ∀ v ∈ vars, realVal ρ ((Expr.var v).subst σ) = some (ρ' v) := fun v hv => (hg v hv).1
  have hp : ∀ j : Fin vars.length, ∃ (p : Expr (XNum ℝ)) (u : ℝ), (diff cfg (embed e) vars[j] 1 >>= fun t => subsVec t ys (gs.map embed)) = .ok (embed p) ∧
      realVal ρ p = some u ∧ HasPartialDeriv ρ' vars[j] e u := by
    intro j
    obtain ⟨e', d, h1, h2, h3, h4⟩ := diff_value cfg ρ' vars[j] e hs (he vars[j] (List.getElem_mem _))
    refine ⟨e'.subst σ, d, ?_, ?_, h3⟩
    · rw [h1, Res.bind_ok, C18_subsVec e' ys gs hl]
    · rw [realVal_subst (ρ' := ρ') e' fun v hv => hval v (hc v (h4 v hv))]; exact h2
  have hb : ∀ j : Fin vars.length, ∃ (b : Expr (XNum ℝ)) (w : ℝ), (subsVec (embed (.var vars[j])) ys (gs.map embed) >>= fun t => diff cfg t x 1) = .ok (embed b) ∧
      realVal ρ b = some w ∧ HasPartialDeriv ρ x ((Expr.var vars[j]).subst σ) w := by
    intro j
    obtain ⟨-, h1, h2⟩ := hg vars[j] (List.getElem_mem _)
    obtain ⟨e', d, k1, k2, k3⟩ := C26_C28_partial cfg ρ x _ h1 h2
    refine ⟨e', d, ?_, k2, k3⟩
    rw [C18_subsVec _ ys gs hl, Res.bind_ok, k1]
  choose p u p1 p2 p3 using hp
  choose b w b1 b2 b3 using hb
  obtain ⟨q, d, h1, h2, h3⟩ := C26_C28_partial cfg ρ x (e.subst σ)
    (smooth_subst e (fun v hv => hval v (hc v hv)) (fun v hv => (hg v (hc v hv)).2.1) hs) hx
  refine ⟨q, p, b, u, w, ?_, fun j => ⟨p1 j, p2 j⟩, fun j => ⟨b1 j, b2 j⟩, ?_⟩
  · rw [C18_subsVec e ys gs hl, Res.bind_ok, h1]
  · rw [h2, h3.unique (pd_subst hs hn hc hval p3 b3)]

/-! ### numbers -/

/-- the point at which the variables of a dictionary have the values of the dictionary -/
noncomputable def overlay (ρ : Str → ℝ) (values : List (Str × ℝ)) (v : Str) : ℝ := (values.lookup v).getD (ρ v)

theorem lookup_map_fin (values : List (Str × ℝ)) (v : Str) :
    (values.map fun kv => (kv.1, (XNum.fin kv.2 : XNum ℝ))).lookup v = (values.lookup v).map XNum.fin := by
  induction values with
  | nil => rfl
  | cons kv m ih =>
    rw [List.map_cons, List.lookup_cons, List.lookup_cons, ih]
    cases v == kv.1 <;> rfl

theorem noForeign_numbers {x : Str} {σ : Str → Option (XNum ℝ)} (e : Expr (XNum ℝ)) (h : e.NoForeignExp x) :
    (e.subst fun v => (σ v).map Expr.num).NoForeignExp x := by
  induction e with
  | num v => trivial
  | var v =>
    simp only [Expr.subst]
    cases σ v <;> trivial
  | un o e ih =>
    refine ⟨fun ho y hy => ?_, ih h.2⟩
    cases e with
    | var z =>
      simp only [Expr.subst] at hy
      cases hz : σ z with
      | none => rw [hz] at hy; simp only [Option.map_none, Expr.var.injEq] at hy; rw [← hy]; exact h.1 ho z rfl
      | some c => rw [hz] at hy; simp at hy
    | num v => cases hy
    | un o' e' => cases hy
    | bin o' a b => cases hy
  | bin o a b iha ihb => exact ⟨iha h.1, ihb h.2⟩

/-- **C115** (numbers): giving variables their values before or after differentiating by another variable makes no difference.  `Diff(Subs(e,
values), x)` and `Subs(Diff(e, x), values)` both return, and have the same value, the partial derivative of `e` where these variables have
these values.  Missing: `exp` of a bare variable other than `x` (`C115_false`). -/
theorem C115_partial (cfg : Config (XNum ℝ)) (ρ : Str → ℝ) (e : Expr (XNum ℝ)) (x : Str) (values : List (Str × ℝ))
    (hx : values.lookup x = none) (hs : Smooth 1 (overlay ρ values) e) (hf : e.NoForeignExp x) :
    ∃ q q' d, (subsValues (embed e) (values.map fun kv => (kv.1, .fin kv.2)) >>= fun t => diff cfg t x 1) = .ok (embed q) ∧
      (diff cfg (embed e) x 1 >>= fun t => subsValues t (values.map fun kv => (kv.1, .fin kv.2))) = .ok (embed q') ∧
      realVal ρ q = some d ∧ realVal ρ q' = some d ∧ HasPartialDeriv (overlay ρ values) x e d := by
  have hσ : ∀ (ρ : Str → ℝ) v, realVal ρ ((Expr.var v).subst fun v => ((values.map fun kv => (kv.1, (XNum.fin kv.2 : XNum ℝ))).lookup v).map Expr.num)
      = some (overlay ρ values v) := by
    intro ρ v
    simp only [Expr.subst, lookup_map_fin, overlay]
    cases values.lookup v <;> rfl
  have hsm : ∀ v, Smooth 1 ρ ((Expr.var v).subst fun v => ((values.map fun kv => (kv.1, (XNum.fin kv.2 : XNum ℝ))).lookup v).map Expr.num) := by
    intro v
    simp only [Expr.subst, lookup_map_fin]
    cases values.lookup v with
    | none => trivial
    | some c => exact ⟨c, rfl⟩
  obtain ⟨e', d, h1, h2, h3, h4⟩ := diff_value cfg _ x e hs hf
  obtain ⟨q, d', k1, k2, k3⟩ := C26_C28_partial cfg ρ x _ (smooth_subst e (fun v _ => hσ ρ v) (fun v _ => hsm v) hs) (noForeign_numbers e hf)
  have hpd : HasPartialDeriv ρ x (e.subst fun v => ((values.map fun kv => (kv.1, (XNum.fin kv.2 : XNum ℝ))).lookup v).map Expr.num) d := by
    obtain ⟨f, f1, f2⟩ := h3
    have hxx : overlay ρ values x = ρ x := by simp [overlay, hx]
    rw [hxx] at f1 f2
    refine ⟨f, f1.mono fun t ht => ?_, f2⟩
    rw [realVal_subst e fun v _ => hσ (at_ ρ x t) v, ← ht]
    congr 1
    funext v
    by_cases hv : v = x
    · subst hv; simp [overlay, hx, at_]
    · simp [overlay, at_, hv]
  rw [k3.unique hpd] at k2
  refine ⟨q, e'.subst fun v => ((values.map fun kv => (kv.1, (XNum.fin kv.2 : XNum ℝ))).lookup v).map Expr.num, d, ?_, ?_, k2, ?_, h3⟩
  · rw [C18_subsValues, Res.bind_ok, k1]
  · rw [h1, Res.bind_ok, C18_subsValues]
  · rw [realVal_subst e' fun v _ => hσ ρ v]; exact h2

/-- C115 for `Simplify`: simplifying first does not change the value of the derivative.  Missing: `exp` of what is, or becomes, a bare variable
other than `x` (`C107_false`: `exp(1*x)`). -/
theorem C115_simplify_partial (cfg : Config (XNum ℝ)) (ρ : Str → ℝ) (e : Expr (XNum ℝ)) (x : Str) (hs : Smooth 1 ρ e) (hf : e.NoForeignExp x)
    (hf' : ∀ e', simplify cfg (embed e) = .ok (embed e') → e'.NoForeignExp x) :
    ∃ q q' d, diff cfg (embed e) x 1 = .ok (embed q) ∧ (simplify cfg (embed e) >>= fun t => diff cfg t x 1) = .ok (embed q') ∧
      realVal ρ q = some d ∧ realVal ρ q' = some d ∧ HasPartialDeriv ρ x e d := by
  obtain ⟨q, d, h1, h2, h3⟩ := C26_C28_partial cfg ρ x e hs hf
  obtain ⟨v, hv⟩ := smooth_val ρ e hs
  obtain ⟨e', k1, -⟩ := C21_C24_partial cfg ρ e v hv (smooth_zeroPowFree ρ e hs)
  obtain ⟨e'', k2, k3⟩ := (simplify_ok_iff cfg e _).mp k1
  have k4 := embed_injective k3
  subst k4
  obtain ⟨q', d', l1, l2, l3⟩ := C26_C28_partial cfg ρ x e' (smooth_simpE cfg ρ e e' hs k2) (hf' e' k1)
  have : HasPartialDeriv ρ x e' d := by
    obtain ⟨f, f1, f2⟩ := h3
    refine ⟨f, ?_, f2⟩
    filter_upwards [f1, smooth_eventually (le_refl 1) ρ x e hs hf] with t t1 t2
    obtain ⟨e1, m1, m2⟩ := C21_C24_partial cfg (at_ ρ x t) e _ t1 (smooth_zeroPowFree _ e t2)
    rw [k1] at m1
    cases embed_injective (Res.ok.inj m1)
    exact m2
  rw [l3.unique this] at l2
  exact ⟨q, q', d, h1, by rw [k1, Res.bind_ok, l1], h2, l2, h3⟩

/-- C115 is false where `exp` is applied to a bare variable: for `exp(y)` and `y = 0`, `Diff(Subs(e), x)` is 0, `Subs(Diff(e, x))` is `exp(0)`. -/
theorem C115_false (cfg : Config (XNum ℝ)) (ρ : Str → ℝ) : Smooth 1 (overlay ρ [(['x'], 0)]) (.un .exp (.var ['x'])) ∧
    (∃ q, (subsValues (embed (.un .exp (.var ['x']))) [(['x'], (.fin 0 : XNum ℝ))] >>= fun t => diff cfg t ['y'] 1) = .ok (embed q) ∧
      realVal ρ q = some 0) ∧
    ∃ q', (diff cfg (embed (.un .exp (.var ['x']))) ['y'] 1 >>= fun t => subsValues t [(['x'], (.fin 0 : XNum ℝ))]) = .ok (embed q') ∧
      realVal ρ q' = some 1 := by
  refine ⟨⟨trivial, _, rfl, .inl trivial⟩, ?_, .un .exp (.num (.fin 0)), ?_, ?_⟩
  · have hs : Smooth 1 ρ (.un .exp (.num (.fin 0))) := ⟨⟨0, rfl⟩, 0, rfl, .inl trivial⟩
    obtain ⟨q, d, h1, h2, h3⟩ := C26_C28_partial cfg ρ ['y'] (.un .exp (.num (.fin 0))) hs ⟨fun _ y hy => (by cases hy), trivial⟩
    have : d = 0 := h3.unique (pd_const ρ ['y'] _ (Real.exp 0) (by simp [Expr.vars]) rfl)
    rw [this] at h2
    refine ⟨q, ?_, h2⟩
    rw [C18_subsValues, Res.bind_ok]
    exact h1
  · rw [C31_false, Res.bind_ok, C18_subsValues]
    rfl
  · simp [realVal, XNum.val?, UnOp.real]

/-- the hypotheses of C115_partial are met: `x^2 * sin(y) + exp(x)` with `y = 2`, at `x = 3` -/
example : (let e : Expr (XNum ℝ) := .bin .add (.bin .mul (.bin .pow (.var ['x']) (.num (.fin 2))) (.un .sin (.var ['y']))) (.un .exp (.var ['x']))
    Smooth 1 (overlay (fun _ => 3) [(['y'], 2)]) e ∧ e.NoForeignExp ['x']) ∧ [((['y'] : Str), (2 : ℝ))].lookup ['x'] = none := by
  refine ⟨⟨?_, ?_⟩, rfl⟩
  · simp [Smooth, realVal, overlay, UnOp.smoothAt]
    exact .inr (.inl (.inr ⟨2, by norm_num, by norm_num⟩))
  · simp [Expr.NoForeignExp]

/-- the hypotheses of C115_chain_partial are met: `x * sin(y)` with `y` replaced by `x^2` (and `x` kept), at `x = 3` -/
example : (let e : Expr (XNum ℝ) := .bin .mul (.var ['x']) (.un .sin (.var ['y']))
    let ys : List Str := [['y']]
    let gs : List (Expr (XNum ℝ)) := [.bin .pow (.var ['x']) (.num (.fin 2))]
    let ρ : Str → ℝ := fun _ => 3
    let ρ' : Str → ℝ := fun v => if v = ['y'] then 9 else 3
    (∀ v ∈ e.vars, v ∈ ([['x'], ['y']] : List Str)) ∧ Smooth 1 ρ' e ∧ (∀ v ∈ ([['x'], ['y']] : List Str), e.NoForeignExp v) ∧
    (∀ v ∈ ([['x'], ['y']] : List Str), let im := (Expr.var v).subst fun y => (ys.zip gs).lookup y
      realVal ρ im = some (ρ' v) ∧ Smooth 1 ρ im ∧ im.NoForeignExp ['x']) ∧
    (e.subst fun y => (ys.zip gs).lookup y).NoForeignExp ['x']) := by
  have h1 : (['y'] == (['x'] : Str)) = false := rfl
  have h2 : (['x'] == (['y'] : Str)) = false := rfl
  refine ⟨by simp [Expr.vars], ?_, by simp [Expr.NoForeignExp], ?_, ?_⟩
  · simp [Smooth, UnOp.smoothAt, realVal]
  · simp [Expr.subst, List.lookup_cons, h2, Smooth, realVal, BinOp.real, realPow, XNum.val?, Expr.NoForeignExp]
    norm_num
  · simp [Expr.subst, List.lookup_cons, h2, Expr.NoForeignExp]

end Tom
