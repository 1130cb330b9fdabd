import Verif.Spec.SmoothHere
import Verif.Lemmas.RealDiffZero
import Verif.Props.RealDiff
/-
C30 at points where powers vanish: `Diff(x^2, x, 5)` at 0, `Diff(arctan(x), x, n)` at 0.
-/
namespace Tom
open Classical Filter Topology

theorem smoothHere_lsmooth (D : Bool) {ρ : Str → ℝ} (e : Expr (XNum ℝ)) (h : SmoothHere ρ e) : LSmooth D ρ e := by
  induction e with
  | num v => exact h
  | var y => trivial
  | un o e ih =>
    obtain ⟨h1, u, hu, h2⟩ := h
    exact ⟨ih h1, u, lval_of_realVal D e hu, h2⟩
  | bin o a b iha ihb =>
    cases o with
    | add => exact ⟨iha h.1, ihb h.2⟩
    | sub => exact ⟨iha h.1, ihb h.2⟩
    | mul => exact .inr ⟨iha h.1, ihb h.2⟩
    | div =>
      obtain ⟨w, hw, hw0⟩ := h.2.2
      exact ⟨iha h.1, ihb h.2.1, w, lval_of_realVal D b hw, hw0⟩
    | pow =>
      obtain ⟨h1, h2, u, hu, h⟩ := h
      refine ⟨iha h1, ihb h2, u, lval_of_realVal D a hu, h.imp id (.imp id ?_)⟩
      rintro ⟨ha, hb, w, r, hw, hr⟩
      exact ⟨ha, hb, w, r, lval_of_realVal D b hw, hr⟩
    | and => exact h.elim
    | or => exact h.elim
    | mod => exact h.elim

theorem lsmooth_false {ρ : Str → ℝ} (e : Expr (XNum ℝ)) (h : LSmooth false ρ e) : SmoothHere ρ e := by
  induction e with
  | num v => exact h
  | var y => trivial
  | un o e ih =>
    obtain ⟨h1, u, hu, h2⟩ := h
    exact ⟨ih h1, u, by rwa [lval_false] at hu, h2⟩
  | bin o a b iha ihb =>
    cases o with
    | add => exact ⟨iha h.1, ihb h.2⟩
    | sub => exact ⟨iha h.1, ihb h.2⟩
    | mul =>
      rcases h with ⟨h, _⟩ | h
      · cases h
      · exact ⟨iha h.1, ihb h.2⟩
    | div =>
      obtain ⟨w, hw, hw0⟩ := h.2.2
      exact ⟨iha h.1, ihb h.2.1, w, by rwa [lval_false] at hw, hw0⟩
    | pow =>
      obtain ⟨h1, h2, u, hu, h⟩ := h
      refine ⟨iha h1, ihb h2, u, by rwa [lval_false] at hu, h.imp id (.imp id ?_)⟩
      rintro ⟨ha, hb, w, r, hw, hr⟩
      exact ⟨ha, hb, w, r, by rwa [lval_false] at hw, hr⟩
    | and => exact h.elim
    | or => exact h.elim
    | mod => exact h.elim

/-- Smoothness for some number of differentiations is smoothness. -/
theorem smooth_smoothAt {n : ℕ} {ρ : Str → ℝ} (e : Expr (XNum ℝ)) (h : Smooth n ρ e) : SmoothHere ρ e := by
  induction e with
  | num v => exact h
  | var y => trivial
  | un o e ih =>
    obtain ⟨h1, u, hu, h2⟩ := h
    refine ⟨ih h1, u, hu, h2.imp (fun h => ?_) id⟩
    cases o <;> simp_all [UnOp.smoothAt]
  | bin o a b iha ihb =>
    cases o with
    | add => exact ⟨iha h.1, ihb h.2⟩
    | sub => exact ⟨iha h.1, ihb h.2⟩
    | mul => exact ⟨iha h.1, ihb h.2⟩
    | div => exact ⟨iha h.1, ihb h.2.1, h.2.2⟩
    | pow =>
      obtain ⟨h1, h2, u, hu, h⟩ := h
      refine ⟨iha h1, ihb h2, u, hu, h.imp id (.imp (fun ⟨c, hc, h⟩ => ⟨c, hc, h.imp id ?_⟩) id)⟩
      rintro ⟨k, _, rfl⟩
      exact ⟨k, rfl⟩
    | and => exact h
    | or => exact h
    | mod => exact h

/-- along an axis, an expression smooth in the sense of `lval` has a continuous value near the point -/
theorem lsmooth_cont {D : Bool} {ρ : Str → ℝ} (x : Str) (e : Expr (XNum ℝ)) (hs : LSmooth D ρ e) (u : ℝ)
    (hu : lval D ρ e = some u) :
    (∀ᶠ t in 𝓝 (ρ x), LSmooth D (at_ ρ x t) e) ∧
    ∃ f : ℝ → ℝ, (∀ᶠ t in 𝓝 (ρ x), lval D (at_ ρ x t) e = some (f t)) ∧ Tendsto f (𝓝 (ρ x)) (𝓝 u) := by
  induction e generalizing u with
  | num v =>
    exact ⟨.of_forall fun t => hs, fun _ => u, .of_forall fun t => hu, tendsto_const_nhds⟩
  | var y =>
    refine ⟨.of_forall fun t => trivial, fun t => at_ ρ x t y, .of_forall fun t => rfl, ?_⟩
    have : ρ y = u := by simpa [lval] using hu
    subst this
    by_cases hxy : y = x
    · subst hxy; simp only [at_, if_true]; exact tendsto_id
    · simp only [at_, hxy, if_false]; exact tendsto_const_nhds
  | un o e ih =>
    have hval := hu
    obtain ⟨h1, a, ha, h2⟩ := hs
    obtain ⟨i1, f, hf1, hf2⟩ := ih h1 a ha
    rw [lval_un o ha] at hval
    rcases h2 with h2 | ⟨h2, h3⟩
    · obtain ⟨g, hg, hgd⟩ := un_deriv o a (smoothAt_zero h2)
      have hga : g a = u := by
        have := hg.self_of_nhds; rw [hval] at this; simpa using this.symm
      refine ⟨?_, g ∘ f, ?_, ?_⟩
      · filter_upwards [i1, hf1, hf2.eventually (smoothAt_eventually 0 o a h2)] with t t1 t2 t3
        exact ⟨t1, f t, t2, .inl t3⟩
      · filter_upwards [hf1, hf2.eventually hg] with t t1 t2
        rw [lval_un o t1, t2]; rfl
      · exact hga ▸ hgd.continuousAt.tendsto.comp hf2
    · have hc : ∀ t, lval D (at_ ρ x t) e = some a := by
        intro t; cases e <;> simp [Expr.isNum] at h2; exact ha
      refine ⟨?_, fun _ => u, .of_forall fun t => by rw [lval_un o (hc t), hval], tendsto_const_nhds⟩
      filter_upwards [i1] with t t1
      exact ⟨t1, a, hc t, .inr ⟨h2, h3⟩⟩
  | bin o a b iha ihb =>
    have fin2 : ∀ (u' w' : ℝ) (f g : ℝ → ℝ) (k : ℝ → ℝ → ℝ), lval D ρ a = some u' → lval D ρ b = some w' →
        (∀ᶠ t in 𝓝 (ρ x), lval D (at_ ρ x t) a = some (f t)) → (∀ᶠ t in 𝓝 (ρ x), lval D (at_ ρ x t) b = some (g t)) →
        Tendsto f (𝓝 (ρ x)) (𝓝 u') → Tendsto g (𝓝 (ρ x)) (𝓝 w') →
        (∀ᶠ t in 𝓝 (ρ x), o.real (f t) (g t) = some (k (f t) (g t))) → o.real u' w' = some (k u' w') →
        Tendsto (fun t => k (f t) (g t)) (𝓝 (ρ x)) (𝓝 (k u' w')) →
        ∃ f : ℝ → ℝ, (∀ᶠ t in 𝓝 (ρ x), lval D (at_ ρ x t) (.bin o a b) = some (f t)) ∧ Tendsto f (𝓝 (ρ x)) (𝓝 u) := by
      intro u' w' f g k e1 e2 e3 e4 e5 e6 e7 e8 e9
      have : k u' w' = u := by
        rw [lval_bin o e1 e2, e8] at hu; simpa using hu
      refine ⟨fun t => k (f t) (g t), ?_, this ▸ e9⟩
      filter_upwards [e3, e4, e7] with t t1 t2 t3
      rw [lval_bin o t1 t2, t3]
    cases o with
    | add =>
      obtain ⟨u', hu'⟩ := LSmooth.val _ hs.1
      obtain ⟨w', hw'⟩ := LSmooth.val _ hs.2
      obtain ⟨i1, f, hf1, hf2⟩ := iha hs.1 u' hu'
      obtain ⟨i2, g, hg1, hg2⟩ := ihb hs.2 w' hw'
      refine ⟨?_, fin2 u' w' f g (· + ·) hu' hw' hf1 hg1 hf2 hg2 (.of_forall fun t => rfl) rfl (hf2.add hg2)⟩
      filter_upwards [i1, i2] with t t1 t2 using ⟨t1, t2⟩
    | sub =>
      obtain ⟨u', hu'⟩ := LSmooth.val _ hs.1
      obtain ⟨w', hw'⟩ := LSmooth.val _ hs.2
      obtain ⟨i1, f, hf1, hf2⟩ := iha hs.1 u' hu'
      obtain ⟨i2, g, hg1, hg2⟩ := ihb hs.2 w' hw'
      refine ⟨?_, fin2 u' w' f g (· - ·) hu' hw' hf1 hg1 hf2 hg2 (.of_forall fun t => rfl) rfl (hf2.sub hg2)⟩
      filter_upwards [i1, i2] with t t1 t2 using ⟨t1, t2⟩
    | mul =>
      rcases hs with ⟨rfl, rfl, hio⟩ | hs
      · rw [lval_dead] at hu
        cases hu
        exact ⟨.of_forall fun t => .inl ⟨rfl, rfl, hio⟩, fun _ => 0, .of_forall fun t => lval_dead _ _, tendsto_const_nhds⟩
      obtain ⟨u', hu'⟩ := LSmooth.val _ hs.1
      obtain ⟨w', hw'⟩ := LSmooth.val _ hs.2
      obtain ⟨i1, f, hf1, hf2⟩ := iha hs.1 u' hu'
      obtain ⟨i2, g, hg1, hg2⟩ := ihb hs.2 w' hw'
      refine ⟨?_, fin2 u' w' f g (· * ·) hu' hw' hf1 hg1 hf2 hg2 (.of_forall fun t => rfl) rfl (hf2.mul hg2)⟩
      filter_upwards [i1, i2] with t t1 t2 using .inr ⟨t1, t2⟩
    | div =>
      obtain ⟨u', hu'⟩ := LSmooth.val _ hs.1
      obtain ⟨w', hw', hw0⟩ := hs.2.2
      obtain ⟨i1, f, hf1, hf2⟩ := iha hs.1 u' hu'
      obtain ⟨i2, g, hg1, hg2⟩ := ihb hs.2.1 w' hw'
      have hne := hg2.eventually (isOpen_ne.mem_nhds hw0)
      refine ⟨?_, fin2 u' w' f g (· / ·) hu' hw' hf1 hg1 hf2 hg2 ?_ (by simp [BinOp.real, hw0]) (hf2.div hg2 hw0)⟩
      · filter_upwards [i1, i2, hg1, hne] with t t1 t2 t3 t4 using ⟨t1, t2, g t, t3, t4⟩
      · filter_upwards [hne] with t ht
        have ht : g t ≠ 0 := ht
        simp [BinOp.real, ht]
    | pow =>
      obtain ⟨h1, h2, u', hu', h⟩ := hs
      obtain ⟨w', hw'⟩ := LSmooth.val _ h2
      obtain ⟨i1, f, hf1, hf2⟩ := iha h1 u' hu'
      obtain ⟨i2, g, hg1, hg2⟩ := ihb h2 w' hw'
      rcases h with h | ⟨c, rfl, h⟩ | ⟨ha, hb, w, r, hw, hr⟩
      · have hpos := hf2.eventually (lt_mem_nhds h)
        refine ⟨?_, fin2 u' w' f g (fun a b => a ^ b) hu' hw' hf1 hg1 hf2 hg2 ?_ (realPow_of_ok (.inl h))
          (hf2.rpow hg2 (.inl h.ne'))⟩
        · filter_upwards [i1, i2, hf1, hpos] with t t1 t2 t3 t4 using ⟨t1, t2, f t, t3, .inl t4⟩
        · filter_upwards [hpos] with t ht using realPow_of_ok (.inl ht)
      · have hok : PowOk 0 u' c := .inr (h.imp id fun ⟨k, hk⟩ => ⟨k, Nat.zero_le k, hk⟩)
        have hev := hf2.eventually hok.eventually
        have hc : w' = c := by simpa [lval, XNum.val?, eq_comm] using hw'
        subst hc
        refine ⟨?_, ?_⟩
        · filter_upwards [i1, hf1, hev] with t t1 t2 t3
          refine ⟨t1, ⟨w', rfl⟩, f t, t2, t3.imp id fun h => .inl ⟨w', rfl, h.imp id ?_⟩⟩
          rintro ⟨k, _, hk⟩; exact ⟨k, hk⟩
        · refine fin2 u' w' f (fun _ => w') (fun a b => a ^ b) hu' hw' hf1 (.of_forall fun t => rfl) hf2 tendsto_const_nhds ?_
            (realPow_of_ok hok) ?_
          · filter_upwards [hev] with t ht using realPow_of_ok ht
          · have hcont : ContinuousAt (fun y : ℝ => y ^ w') u' := by
              rcases h with ⟨h, _⟩ | ⟨k, rfl⟩
              · exact Real.continuousAt_rpow_const _ _ (.inl h)
              · exact Real.continuousAt_rpow_const _ _ (.inr (by positivity))
            exact hcont.tendsto.comp hf2
      · have ca : ∀ t, lval D (at_ ρ x t) a = some u' := by
          intro t; cases a <;> simp [Expr.isNum] at ha; exact hu'
        have cb : ∀ t, lval D (at_ ρ x t) b = some w := by
          intro t; cases b <;> simp [Expr.isNum] at hb; exact hw
        have : r = u := by
          rw [lval_bin .pow hu' hw] at hu
          simp only [BinOp.real, hr] at hu
          simpa using hu
        refine ⟨?_, fun _ => u, .of_forall fun t => ?_, tendsto_const_nhds⟩
        · filter_upwards [i1, i2] with t t1 t2
          exact ⟨t1, t2, u', ca t, .inr (.inr ⟨ha, hb, w, r, cb t, hr⟩)⟩
        · rw [lval_bin .pow (ca t) (cb t), ← this]; exact hr
    | and => exact hs.elim
    | or => exact hs.elim
    | mod => exact hs.elim

/-- the value Simplify gives to a binary node whose operands have values -/
theorem simpTop_real (cfg : Config (XNum ℝ)) (ρ : Str → ℝ) (o : BinOp) (a' b' : Expr (XNum ℝ)) (u w v : ℝ)
    (hva' : realVal ρ a' = some u) (hvb' : realVal ρ b' = some w) (hr : o.real u w = some v)
    (hp : o = .pow → u = 0 → b'.isNum = true) : ∃ e', simpTop cfg (.bin o a' b') = .ok e' ∧ realVal ρ e' = some v := by
  have hbin : realVal ρ (.bin o a' b') = some v := by simp [realVal, hva', hvb', hr]
  have hok : ∃ e', simpTop cfg (.bin o a' b') = .ok e' := by
    by_cases hnum : a'.isNum = true ∧ b'.isNum = true
    · cases a' <;> simp [Expr.isNum] at hnum
      cases b' <;> simp [Expr.isNum] at hnum
      rw [val_num hva', val_num hvb']
      simp only [simpTop, apply_bin_real o u w v hr, checked_fin, Res.noexcept_ok, Res.bind_ok]
      exact ⟨_, rfl⟩
    · cases a' <;> cases b' <;> simp [Expr.isNum] at hnum <;> simp only [simpTop] <;> (repeat' split) <;> exact ⟨_, rfl⟩
  obtain ⟨e', he'⟩ := hok
  refine ⟨e', he', ?_⟩
  rcases simpTop_bin_ok he' with ⟨x, y, z, z', rfl, rfl, hz1, hz2, rfl⟩ | ⟨hn, h⟩
  · rw [val_num hva', val_num hvb', apply_bin_real o u w v hr] at hz1
    cases hz1
    rw [checked_fin] at hz2
    cases hz2
    rfl
  · have hz : realVal ρ (.num (Dbl.ofInt 0)) = some 0 := realVal_zero ρ
    rcases h with ⟨rfl, h⟩ | ⟨rfl, h⟩ | ⟨rfl, hna, h⟩ | rfl
    · rcases h with ⟨rfl, h | h⟩ | ⟨rfl, h⟩ | ⟨rfl, h⟩
      · have := isLit_val h hva'
        subst this
        simp [BinOp.real] at hr
        simp [hz, hr]
      · have := isLit_val h hvb'
        subst this
        simp [BinOp.real] at hr
        simp [hz, hr]
      · have := isLit_val h hva'
        subst this
        simp [BinOp.real] at hr
        simp [hz, hr]
      · exfalso
        refine hn ⟨?_, hp rfl (by simpa using isLit_val h hva')⟩
        cases a' <;> simp_all [isLit, Expr.isNum]
    · rcases h with ⟨rfl, h⟩ | ⟨rfl, h⟩ | ⟨_, h1, h2⟩ | ⟨_, h1, h2⟩
      · have := isLit_val h hva'
        subst this
        simp [BinOp.real] at hr
        rw [hvb', hr]
      · have := isLit_val h hva'
        subst this
        simp [BinOp.real] at hr
        rw [hvb', hr]
      · exact absurd ⟨h1, h2⟩ hn
      · exact absurd ⟨h1, h2⟩ hn
    · rcases h with ⟨rfl, h⟩ | ⟨rfl, h⟩ | ⟨rfl, h⟩ | ⟨rfl, h⟩ | ⟨rfl, h⟩ <;> have := isLit_val h hvb' <;> subst this
      · simp [BinOp.real] at hr; rw [hva', hr]
      · simp [BinOp.real] at hr; rw [hva', hr]
      · simp [BinOp.real] at hr; rw [hva', hr]
      · simp [BinOp.real] at hr; rw [hva', hr]
      · simp [BinOp.real, realPow] at hr; rw [hva', hr.2]
    · exact hbin

/-- Simplify turns the value `lval` into the value of its result, provided that the expression has a value somewhere (`ρ'`). -/
theorem simpE_lval (cfg : Config (XNum ℝ)) (ρ ρ' : Str → ℝ) (e : Expr (XNum ℝ)) (v v' : ℝ) (hs : LSmooth true ρ e)
    (h : lval true ρ e = some v) (h' : realVal ρ' e = some v') (hz' : e.ZeroPowFree ρ') :
    ∃ e', simpE cfg e = .ok e' ∧ realVal ρ e' = some v := by
  induction e generalizing v v' with
  | num w => exact ⟨_, rfl, h⟩
  | var x => exact ⟨_, rfl, h⟩
  | un o e ih =>
    obtain ⟨h1, u, hu, _⟩ := hs
    rw [lval_un o hu] at h
    simp only [realVal, Option.bind_eq_some_iff] at h'
    obtain ⟨u', hu', hr'⟩ := h'
    obtain ⟨a', ha', hva'⟩ := ih u u' h1 hu hu' hz'
    have hun : realVal ρ (.un o a') = some v := by simp [realVal, hva', h]
    simp only [simpE, ha', Res.bind_ok]
    cases a' with
    | num w =>
      rw [val_num hva']
      simp only [simpTop, apply_un_real o u v h, checked_fin, Res.noexcept_ok, Res.bind_ok]
      exact ⟨_, rfl, rfl⟩
    | var x => exact ⟨_, rfl, hun⟩
    | un o' x => exact ⟨_, rfl, hun⟩
    | bin o' x y => exact ⟨_, rfl, hun⟩
  | bin o a b iha ihb =>
    simp only [realVal, Option.bind_eq_some_iff] at h'
    obtain ⟨u', hu', w', hw', hr'⟩ := h'
    have live : ∀ u w, LSmooth true ρ a → LSmooth true ρ b → lval true ρ a = some u → lval true ρ b = some w →
        (o = .pow → u = 0 → b.isNum = true) →
        ∃ e', simpE cfg (.bin o a b) = .ok e' ∧ realVal ρ e' = some v := by
      intro u w sa sb hu hw hp
      rw [lval_bin o hu hw] at h
      obtain ⟨a', ha', hva'⟩ := iha u u' sa hu hu' hz'.2.1
      obtain ⟨b', hb', hvb'⟩ := ihb w w' sb hw hw' hz'.2.2
      simp only [simpE, ha', hb', Res.bind_ok]
      refine simpTop_real cfg ρ o a' b' u w v hva' hvb' h fun ho hu0 => ?_
      have hb := hp ho hu0
      cases b <;> simp [Expr.isNum] at hb
      simp only [simpE] at hb'
      cases hb'
      rfl
    have two : ∀ u w, LSmooth true ρ a → LSmooth true ρ b → lval true ρ a = some u → lval true ρ b = some w → o ≠ .pow →
        ∃ e', simpE cfg (.bin o a b) = .ok e' ∧ realVal ρ e' = some v :=
      fun u w sa sb hu hw ho => live u w sa sb hu hw fun h => absurd h ho
    cases o with
    | add =>
      obtain ⟨u, hu⟩ := LSmooth.val _ hs.1; obtain ⟨w, hw⟩ := LSmooth.val _ hs.2
      exact two u w hs.1 hs.2 hu hw (by simp)
    | sub =>
      obtain ⟨u, hu⟩ := LSmooth.val _ hs.1; obtain ⟨w, hw⟩ := LSmooth.val _ hs.2
      exact two u w hs.1 hs.2 hu hw (by simp)
    | mul =>
      rcases hs with ⟨_, rfl, _⟩ | hs
      · rw [lval_dead] at h
        cases h
        obtain ⟨b', hb', hvb'⟩ := simpE_real cfg ρ' b w' hw' hz'.2.2
        simp only [simpE, hb', Res.bind_ok]
        cases b' with
        | num z =>
          rw [val_num hvb']
          have := apply_bin_real .mul 0 w' 0 (by simp [BinOp.real])
          simp only [simpTop, this, checked_fin, Res.noexcept_ok, Res.bind_ok]
          exact ⟨_, rfl, rfl⟩
        | var x => exact ⟨.num (Dbl.ofInt 0), by simp [simpTop, isLit, Arith.eq, Dbl.ofInt, XNum.cmp], realVal_zero ρ⟩
        | un o' x => exact ⟨.num (Dbl.ofInt 0), by simp [simpTop, isLit, Arith.eq, Dbl.ofInt, XNum.cmp], realVal_zero ρ⟩
        | bin o' x y => exact ⟨.num (Dbl.ofInt 0), by simp [simpTop, isLit, Arith.eq, Dbl.ofInt, XNum.cmp], realVal_zero ρ⟩
      · obtain ⟨u, hu⟩ := LSmooth.val _ hs.1; obtain ⟨w, hw⟩ := LSmooth.val _ hs.2
        exact two u w hs.1 hs.2 hu hw (by simp)
    | div =>
      obtain ⟨u, hu⟩ := LSmooth.val _ hs.1; obtain ⟨w, hw⟩ := LSmooth.val _ hs.2.1
      exact two u w hs.1 hs.2.1 hu hw (by simp)
    | pow =>
      obtain ⟨h1, h2, u, hu, h3⟩ := hs
      obtain ⟨w, hw⟩ := LSmooth.val _ h2
      refine live u w h1 h2 hu hw fun _ hu0 => ?_
      rcases h3 with h3 | ⟨c, rfl, _⟩ | ⟨_, hb, _⟩
      · exact absurd hu0 h3.ne'
      · rfl
      · exact hb
    | and => exact hs.elim
    | or => exact hs.elim
    | mod => exact hs.elim

/-- C30: at every point where `e` is smooth, also where powers or the arguments of arcsin, arccos and arctan vanish,
`Diff(e, x, n)` returns normally and its value is the `n`-th partial derivative.  Needed: there is some point at which `e` is
smooth for `n` differentiations in the sense of `Smooth` (without it the claim is false, `C30_false`).  Excluded as for C26:
`exp` of a bare variable other than `x`. -/
theorem C30_smooth (cfg : Config (XNum ℝ)) (ρ ρ' : Str → ℝ) (x : Str) (n : ℕ) (hn : 0 < n) (e : Expr (XNum ℝ))
    (hs : SmoothHere ρ e) (hs' : Smooth n ρ' e) (hf : e.NoForeignExp x) :
    ∃ e' d, diff cfg (embed e) x n = .ok (embed e') ∧ realVal ρ e' = some d ∧ HasNthPartialDeriv ρ x e n d := by
  set g : ℕ → ℝ → ℝ := fun k t => (lval true (at_ ρ x t) ((dE x)^[k] e)).getD 0 with hg
  have hl := smoothHere_lsmooth true e hs
  have hgk : ∀ k, ∀ ρ'', LSmooth true ρ'' e → ∃ v, lval true ρ'' ((dE x)^[k] e) = some v := fun k ρ'' h =>
    LSmooth.val _ (lsmooth_iterate ρ'' x k e h hf)
  obtain ⟨v0, hv0⟩ := LSmooth.val _ hl
  have hev := (lsmooth_cont x e hl v0 hv0).1
  have hlf := smoothHere_lsmooth false e hs
  obtain ⟨v1, hv1⟩ := LSmooth.val _ hlf
  have hevf := (lsmooth_cont x e hlf v1 hv1).1
  obtain ⟨d, hd⟩ := hgk n ρ hl
  have hs0 : Smooth 0 ρ' ((dE x)^[n] e) := smooth_iterate 0 n ρ' x e (by simpa using hs')
  obtain ⟨v', hv'⟩ := smooth_val ρ' _ hs0
  obtain ⟨e', h1, h2⟩ := simpE_lval cfg ρ ρ' _ d v' (lsmooth_iterate ρ x n e hl hf) hd hv' (smooth_zeroPowFree ρ' _ hs0)
  refine ⟨e', d, ?_, h2, g, ?_, ?_, ?_⟩
  · rw [diff_ok cfg x n (by omega) e (smooth_hasIntOp e hs')]
    exact (simplify_ok_iff cfg _ _).mpr ⟨e', by simpa using h1, rfl⟩
  · filter_upwards [hevf] with t ht
    obtain ⟨v, hv⟩ := LSmooth.val _ ht
    rw [lval_false] at hv
    simp [hg, hv, lval_of_realVal true e hv]
  · intro k hk
    filter_upwards [hev] with t ht
    obtain ⟨_, d', hd', f, hf1, hf2⟩ := lsmooth_dE x _ (lsmooth_iterate _ x k e ht hf) (iterate_noForeignExp x k e hf)
    rw [at_x] at hf1 hf2
    have hgd : g (k + 1) t = d' := by
      simp only [hg, Function.iterate_succ_apply', hd', Option.getD_some]
    rw [hgd]
    refine hf2.congr_of_eventuallyEq ?_
    filter_upwards [hf1] with s hs'
    rw [at_at] at hs'
    simp [hg, hs']
  · simp [hg, at_self, hd]

/-- C30 fails where no point is smooth enough: `Diff("(1-1)^2", "x", 3)` calls `std::terminate`, although the function is the
constant 0. -/
theorem C30_false (ρ : Str → ℝ) :
    let e : Expr (XNum ℝ) := .bin .pow (.bin .sub (.num (.fin 1)) (.num (.fin 1))) (.num (.fin 2))
    SmoothHere ρ e ∧ e.NoForeignExp ['x'] ∧ HasNthPartialDeriv ρ ['x'] e 3 0 ∧ diff realConfig (embed e) ['x'] 3 = .terminate := by
  refine ⟨?_, ?_, ?_, ?_⟩
  · refine ⟨⟨⟨1, rfl⟩, ⟨1, rfl⟩⟩, ⟨2, rfl⟩, 0, by simp [realVal, XNum.val?, BinOp.real], .inr (.inl ⟨2, rfl, .inr ⟨2, by simp⟩⟩)⟩
  · simp [Expr.NoForeignExp]
  · refine ⟨fun _ _ => 0, .of_forall fun t => ?_, fun k _ => .of_forall fun t => hasDerivAt_const _ _, rfl⟩
    have := @realPow_two 0
    simp [realVal, XNum.val?, BinOp.real, this]
  · rw [diff_ok realConfig _ 3 (by decide) _ (by rfl), simplify_embed]
    have h0 : realPow 0 (-1) = none := by simp [realPow]
    have h0' : realPow 0 1 = some 0 := by simp [realPow]
    have hp : ∀ a b : ℝ, Dbl.pow (XNum.fin a) (XNum.fin b) = match realPow a b with | some r => .fin r | none => .bad :=
      fun a b => by simp only [Dbl.pow, XNum.map2O, BinOp.real]; cases realPow a b <;> rfl
    rw [show Int.toNat 3 = 3 from rfl]
    simp only [Function.iterate_succ, Function.iterate_zero, Function.comp, id, dE, Expr.isNum, if_true, if_false, and_self,
      Arith.sub, Dbl.ofInt, XNum.map2]
    norm_num [dE, simpE, simpTop, Expr.isNum, BinOp.apply, Arith.sub, Arith.add, Arith.mul, Dbl.ofInt, XNum.map2, hp, h0, h0', checked,
      Dbl.isInvalid, Res.noexcept, realConfig]

/-- Non-vacuity: `x^2 + arctan(x)` is smooth at 0, and smooth for any number of differentiations at 1. -/
example (n : ℕ) : SmoothHere (fun _ => 0) (.bin .add (.bin .pow (.var ['x']) (.num (.fin 2))) (.un .atan (.var ['x']))) ∧
    Smooth n (fun _ => 1) (.bin .add (.bin .pow (.var ['x']) (.num (.fin 2))) (.un .atan (.var ['x']))) := by
  refine ⟨⟨⟨trivial, ⟨2, rfl⟩, 0, rfl, .inr (.inl ⟨2, rfl, .inr ⟨2, by simp⟩⟩)⟩, trivial, 0, rfl, .inl (.inr (by omega))⟩,
    ⟨⟨trivial, ⟨2, rfl⟩, 1, rfl, .inl one_pos⟩, trivial, 1, rfl, .inl (.inl one_ne_zero)⟩⟩

/-- The fifth derivative of `x^2` at 0 is found, and is 0. -/
example (cfg : Config (XNum ℝ)) : ∃ e' d, diff cfg (embed (.bin .pow (.var ['x']) (.num (.fin 2)))) ['x'] 5 = .ok (embed e') ∧
    realVal (fun _ => 0) e' = some d ∧ HasNthPartialDeriv (fun _ => 0) ['x'] (.bin .pow (.var ['x']) (.num (.fin 2))) 5 d :=
  C30_smooth cfg (fun _ => 0) (fun _ => 1) ['x'] 5 (by decide) _
    ⟨trivial, ⟨2, rfl⟩, 0, rfl, .inr (.inl ⟨2, rfl, .inr ⟨2, by simp⟩⟩)⟩ ⟨trivial, ⟨2, rfl⟩, 1, rfl, .inl one_pos⟩
    (by simp [Expr.NoForeignExp])

end Tom
