import Verif.Lemmas.LocalSmooth
import Verif.Lemmas.RealDiffZero
import Verif.Spec.MixedPartial
import Mathlib.Analysis.Calculus.FDeriv.Symmetric
/-
Lemmas for C107.
-/
set_option linter.unusedSectionVars false
namespace Tom
open Filter Topology

/-- Near a point where an expression is smooth, it is smooth and denotes a twice continuously differentiable function. -/
theorem smooth_param {E : Type} [NormedAddCommGroup E] [NormedSpace ℝ E] {n : ℕ} (hn : 1 ≤ n) (p : E → Str → ℝ) (hp : ∀ x, ContDiff ℝ 2 fun u => p u x)
    (z : E) (e : Expr (XNum ℝ)) (hs : Smooth n (p z) e) : ∃ g : E → ℝ, ContDiffAt ℝ 2 g z ∧
      ∀ᶠ u in 𝓝 z, realVal (p u) e = some (g u) ∧ Smooth n (p u) e := by
  induction e with
  | num v =>
    obtain ⟨k, rfl⟩ := hs
    exact ⟨fun _ => k, contDiffAt_const, .of_forall fun u => ⟨rfl, k, rfl⟩⟩
  | var x => exact ⟨_, (hp x).contDiffAt, .of_forall fun u => ⟨rfl, trivial⟩⟩
  | un o e ih =>
    obtain ⟨h1, u, hu, h2⟩ := hs
    obtain ⟨g, hg, hev⟩ := ih h1
    have hz : g z = u := by have := hev.self_of_nhds.1; rw [hu] at this; simpa using this.symm
    rcases h2 with h2 | ⟨h2, r, h3⟩
    · obtain ⟨k, k1, k2⟩ := un_contDiff o u (smoothAt_zero h2)
      rw [← hz] at k1 k2 h2
      refine ⟨k ∘ g, k2.comp z hg, ?_⟩
      filter_upwards [hev, hg.continuousAt.eventually k1, hg.continuousAt.eventually (smoothAt_eventually n o _ h2)] with w w1 w2 w3
      exact ⟨by simp [realVal, w1.1, w2], w1.2, g w, w1.1, .inl w3⟩
    · refine ⟨fun _ => r, contDiffAt_const, ?_⟩
      filter_upwards [hev] with w w1
      have hw := isNum_val h2 (p w) (p z)
      exact ⟨by simp [realVal, hw, hu, h3], w1.2, u, by rw [hw, hu], .inr ⟨h2, r, h3⟩⟩
  | bin o a b iha ihb =>
    cases o with
    | add =>
      obtain ⟨f, f1, f2⟩ := iha hs.1
      obtain ⟨g, g1, g2⟩ := ihb hs.2
      refine ⟨fun w => f w + g w, f1.add g1, ?_⟩
      filter_upwards [f2, g2] with w w1 w2
      exact ⟨by simp [realVal, w1.1, w2.1, BinOp.real], w1.2, w2.2⟩
    | sub =>
      obtain ⟨f, f1, f2⟩ := iha hs.1
      obtain ⟨g, g1, g2⟩ := ihb hs.2
      refine ⟨fun w => f w - g w, f1.sub g1, ?_⟩
      filter_upwards [f2, g2] with w w1 w2
      exact ⟨by simp [realVal, w1.1, w2.1, BinOp.real], w1.2, w2.2⟩
    | mul =>
      obtain ⟨f, f1, f2⟩ := iha hs.1
      obtain ⟨g, g1, g2⟩ := ihb hs.2
      refine ⟨fun w => f w * g w, f1.mul g1, ?_⟩
      filter_upwards [f2, g2] with w w1 w2
      exact ⟨by simp [realVal, w1.1, w2.1, BinOp.real], w1.2, w2.2⟩
    | div =>
      obtain ⟨f, f1, f2⟩ := iha hs.1
      obtain ⟨g, g1, g2⟩ := ihb hs.2.1
      obtain ⟨w, hw, hw0⟩ := hs.2.2
      have hz : g z = w := by have := g2.self_of_nhds.1; rw [hw] at this; simpa using this.symm
      rw [← hz] at hw0
      refine ⟨fun w => f w / g w, f1.div g1 hw0, ?_⟩
      filter_upwards [f2, g2, g1.continuousAt.eventually_ne hw0] with w w1 w2 w3
      exact ⟨by simp [realVal, w1.1, w2.1, BinOp.real, w3], w1.2, w2.2, g w, w2.1, w3⟩
    | pow =>
      obtain ⟨h1, h2, u, hu, h⟩ := hs
      obtain ⟨f, f1, f2⟩ := iha h1
      obtain ⟨g, g1, g2⟩ := ihb h2
      have hz : f z = u := by have := f2.self_of_nhds.1; rw [hu] at this; simpa using this.symm
      rcases h with h | ⟨c, rfl, h⟩ | ⟨ha, hb, w, r, hw, hr⟩
      · rw [← hz] at h
        refine ⟨fun w => f w ^ g w, f1.rpow g1 h.ne', ?_⟩
        filter_upwards [f2, g2, f1.continuousAt.eventually (lt_mem_nhds h)] with w w1 w2 w3
        exact ⟨by simp [realVal, w1.1, w2.1, BinOp.real, realPow, w3], w1.2, w2.2, f w, w1.1, .inl w3⟩
      · have hp : PowOk n (f z) c := by rw [hz]; exact .inr h
        rw [← hz] at h
        refine ⟨fun w => f w ^ c, ?_, ?_⟩
        · rcases h with ⟨h, _⟩ | ⟨k, hk, rfl⟩
          · exact f1.rpow_const_of_ne h
          · simp only [Real.rpow_natCast]
            exact f1.pow k
        · filter_upwards [f2, g2, f1.continuousAt.eventually hp.eventually] with w w1 w2 w3
          refine ⟨?_, w1.2, w2.2, f w, w1.1, w3.imp id fun h => .inl ⟨c, rfl, h⟩⟩
          simp [realVal, w1.1, XNum.val?, BinOp.real, realPow_of_ok (w3.mono (Nat.zero_le n))]
      · refine ⟨fun _ => r, contDiffAt_const, ?_⟩
        filter_upwards [f2, g2] with v w1 w2
        have hv := isNum_val ha (p v) (p z)
        have hv' := isNum_val hb (p v) (p z)
        refine ⟨?_, w1.2, w2.2, u, by rw [hv, hu], .inr (.inr ⟨ha, hb, w, r, by rw [hv', hw], hr⟩)⟩
        simp [realVal, hv, hv', hu, hw, BinOp.real, hr]
    | and => exact hs.elim
    | or => exact hs.elim
    | mod => exact hs.elim

/-- Near a point where an expression is smooth, it is smooth and denotes a continuous function. -/
theorem smooth_near {E : Type} [TopologicalSpace E] {n : ℕ} (hn : 1 ≤ n) (p : E → Str → ℝ) (hp : ∀ x, Continuous fun u => p u x)
    (z : E) (e : Expr (XNum ℝ)) (hs : Smooth n (p z) e) : ∃ g : E → ℝ, ContinuousAt g z ∧
      ∀ᶠ u in 𝓝 z, realVal (p u) e = some (g u) ∧ Smooth n (p u) e := by
  induction e with
  | num v =>
    obtain ⟨k, rfl⟩ := hs
    exact ⟨fun _ => k, continuousAt_const, .of_forall fun u => ⟨rfl, k, rfl⟩⟩
  | var x => exact ⟨_, (hp x).continuousAt, .of_forall fun u => ⟨rfl, trivial⟩⟩
  | un o e ih =>
    obtain ⟨h1, u, hu, h2⟩ := hs
    obtain ⟨g, hg, hev⟩ := ih h1
    have hz : g z = u := by have := hev.self_of_nhds.1; rw [hu] at this; simpa using this.symm
    rcases h2 with h2 | ⟨h2, r, h3⟩
    · obtain ⟨k, k1, k2⟩ := un_contDiff o u (smoothAt_zero h2)
      rw [← hz] at k1 k2 h2
      refine ⟨k ∘ g, ContinuousAt.comp k2.continuousAt hg, ?_⟩
      filter_upwards [hev, hg.eventually k1, hg.eventually (smoothAt_eventually n o _ h2)] with w w1 w2 w3
      exact ⟨by simp [realVal, w1.1, w2], w1.2, g w, w1.1, .inl w3⟩
    · refine ⟨fun _ => r, continuousAt_const, ?_⟩
      filter_upwards [hev] with w w1
      have hw := isNum_val h2 (p w) (p z)
      exact ⟨by simp [realVal, hw, hu, h3], w1.2, u, by rw [hw, hu], .inr ⟨h2, r, h3⟩⟩
  | bin o a b iha ihb =>
    cases o with
    | add =>
      obtain ⟨f, f1, f2⟩ := iha hs.1
      obtain ⟨g, g1, g2⟩ := ihb hs.2
      refine ⟨fun w => f w + g w, f1.add g1, ?_⟩
      filter_upwards [f2, g2] with w w1 w2
      exact ⟨by simp [realVal, w1.1, w2.1, BinOp.real], w1.2, w2.2⟩
    | sub =>
      obtain ⟨f, f1, f2⟩ := iha hs.1
      obtain ⟨g, g1, g2⟩ := ihb hs.2
      refine ⟨fun w => f w - g w, f1.sub g1, ?_⟩
      filter_upwards [f2, g2] with w w1 w2
      exact ⟨by simp [realVal, w1.1, w2.1, BinOp.real], w1.2, w2.2⟩
    | mul =>
      obtain ⟨f, f1, f2⟩ := iha hs.1
      obtain ⟨g, g1, g2⟩ := ihb hs.2
      refine ⟨fun w => f w * g w, f1.mul g1, ?_⟩
      filter_upwards [f2, g2] with w w1 w2
      exact ⟨by simp [realVal, w1.1, w2.1, BinOp.real], w1.2, w2.2⟩
    | div =>
      obtain ⟨f, f1, f2⟩ := iha hs.1
      obtain ⟨g, g1, g2⟩ := ihb hs.2.1
      obtain ⟨w, hw, hw0⟩ := hs.2.2
      have hz : g z = w := by have := g2.self_of_nhds.1; rw [hw] at this; simpa using this.symm
      rw [← hz] at hw0
      refine ⟨fun w => f w / g w, f1.div g1 hw0, ?_⟩
      filter_upwards [f2, g2, g1.eventually_ne hw0] with w w1 w2 w3
      exact ⟨by simp [realVal, w1.1, w2.1, BinOp.real, w3], w1.2, w2.2, g w, w2.1, w3⟩
    | pow =>
      obtain ⟨h1, h2, u, hu, h⟩ := hs
      obtain ⟨f, f1, f2⟩ := iha h1
      obtain ⟨g, g1, g2⟩ := ihb h2
      have hz : f z = u := by have := f2.self_of_nhds.1; rw [hu] at this; simpa using this.symm
      rcases h with h | ⟨c, rfl, h⟩ | ⟨ha, hb, w, r, hw, hr⟩
      · rw [← hz] at h
        refine ⟨fun w => f w ^ g w, f1.rpow g1 (.inl h.ne'), ?_⟩
        filter_upwards [f2, g2, f1.eventually (lt_mem_nhds h)] with w w1 w2 w3
        exact ⟨by simp [realVal, w1.1, w2.1, BinOp.real, realPow, w3], w1.2, w2.2, f w, w1.1, .inl w3⟩
      · have hp : PowOk n (f z) c := by rw [hz]; exact .inr h
        rw [← hz] at h
        refine ⟨fun w => f w ^ c, ?_, ?_⟩
        · rcases h with ⟨h, _⟩ | ⟨k, hk, rfl⟩
          · exact f1.rpow_const (.inl h)
          · simp only [Real.rpow_natCast]
            exact f1.pow k
        · filter_upwards [f2, g2, f1.eventually hp.eventually] with w w1 w2 w3
          refine ⟨?_, w1.2, w2.2, f w, w1.1, w3.imp id fun h => .inl ⟨c, rfl, h⟩⟩
          simp [realVal, w1.1, XNum.val?, BinOp.real, realPow_of_ok (w3.mono (Nat.zero_le n))]
      · refine ⟨fun _ => r, continuousAt_const, ?_⟩
        filter_upwards [f2, g2] with v w1 w2
        have hv := isNum_val ha (p v) (p z)
        have hv' := isNum_val hb (p v) (p z)
        refine ⟨?_, w1.2, w2.2, u, by rw [hv, hu], .inr (.inr ⟨ha, hb, w, r, by rw [hv', hw], hr⟩)⟩
        simp [realVal, hv, hv', hu, hw, BinOp.real, hr]
    | and => exact hs.elim
    | or => exact hs.elim
    | mod => exact hs.elim

/-! ### Simplify keeps smoothness -/

theorem smooth_simpTop_un {n : ℕ} {cfg : Config (XNum ℝ)} {ρ : Str → ℝ} {o : UnOp} {e e' : Expr (XNum ℝ)} (h : simpTop cfg (.un o e) = .ok e')
    (hs : Smooth n ρ (.un o e)) : Smooth n ρ e' := by
  rcases simpTop_un_ok h with ⟨v, w, rfl, rfl, hw⟩ | ⟨_, rfl⟩
  · obtain ⟨_, u, hu, h2⟩ := hs
    have hr : ∃ r, o.real u = some r := by
      rcases h2 with h2 | ⟨_, h2⟩
      · exact un_real_of_smooth h2
      · exact h2
    obtain ⟨r, hr⟩ := hr
    rw [val_num hu, apply_un_real o u r hr, checked_fin] at hw
    cases hw
    exact ⟨r, rfl⟩
  · exact hs

theorem smooth_simpE {n : ℕ} (cfg : Config (XNum ℝ)) (ρ : Str → ℝ) (e e' : Expr (XNum ℝ)) (hs : Smooth n ρ e) (h : simpE cfg e = .ok e') :
    Smooth n ρ e' := by
  induction e generalizing e' with
  | num v => cases h; exact hs
  | var x => cases h; exact hs
  | un o e ih =>
    obtain ⟨a', ha', h⟩ := Res.bind_eq_ok.mp h
    obtain ⟨h1, u, hu, h2⟩ := hs
    obtain ⟨a'', ha'', hva⟩ := simpE_real cfg ρ e u hu (smooth_zeroPowFree ρ e h1)
    rw [ha'] at ha''; cases ha''
    refine smooth_simpTop_un h ⟨ih a' h1 ha', u, hva, h2.imp id fun ⟨h3, h4⟩ => ⟨?_, h4⟩⟩
    cases e <;> simp [Expr.isNum] at h3
    cases ha'; rfl
  | bin o a b iha ihb =>
    obtain ⟨a', ha', h⟩ := Res.bind_eq_ok.mp h
    obtain ⟨b', hb', h⟩ := Res.bind_eq_ok.mp h
    have hval := smooth_val ρ _ hs
    have hab : Smooth n ρ a ∧ Smooth n ρ b := by
      cases o <;> first | exact hs.elim | exact ⟨hs.1, hs.2⟩ | exact ⟨hs.1, hs.2.1⟩
    have hsa := iha a' hab.1 ha'
    have hsb := ihb b' hab.2 hb'
    obtain ⟨u, hu⟩ := smooth_val ρ a hab.1
    obtain ⟨w, hw⟩ := smooth_val ρ b hab.2
    obtain ⟨a'', ha'', hva⟩ := simpE_real cfg ρ a u hu (smooth_zeroPowFree ρ a hab.1)
    rw [ha'] at ha''; cases ha''
    obtain ⟨b'', hb'', hvb⟩ := simpE_real cfg ρ b w hw (smooth_zeroPowFree ρ b hab.2)
    rw [hb'] at hb''; cases hb''
    obtain ⟨v, hv⟩ := hval
    simp only [realVal, hu, hw, Option.bind_some] at hv
    rcases simpTop_bin_ok h with ⟨x, y, z, z', rfl, rfl, hz1, hz2, rfl⟩ | ⟨hn, h⟩
    · rw [val_num hva, val_num hvb, apply_bin_real o u w v hv] at hz1
      cases hz1
      rw [checked_fin] at hz2
      cases hz2
      exact ⟨v, rfl⟩
    · rcases h with ⟨rfl, _⟩ | ⟨rfl, _⟩ | ⟨rfl, _⟩ | rfl
      · exact smooth_num n ρ 0
      · exact hsb
      · exact hsa
      · cases o with
        | add => exact ⟨hsa, hsb⟩
        | sub => exact ⟨hsa, hsb⟩
        | mul => exact ⟨hsa, hsb⟩
        | div =>
          obtain ⟨_, _, w', hw', h0⟩ := hs
          rw [hw] at hw'; cases hw'
          exact ⟨hsa, hsb, w, hvb, h0⟩
        | pow =>
          obtain ⟨_, _, u', hu', h0⟩ := hs
          rw [hu] at hu'; cases hu'
          refine ⟨hsa, hsb, u, hva, ?_⟩
          rcases h0 with h0 | ⟨c, rfl, h0⟩ | ⟨h1, h2, h3⟩
          · exact .inl h0
          · cases hb'
            exact .inr (.inl ⟨c, rfl, h0⟩)
          · refine absurd ⟨?_, ?_⟩ hn
            · cases a <;> simp [Expr.isNum] at h1
              cases ha'; rfl
            · cases b <;> simp [Expr.isNum] at h2
              cases hb'; rfl
        | and => exact hs.elim
        | or => exact hs.elim
        | mod => exact hs.elim

/-! ### the arguments of exp -/

section
variable {α : Type} [Dbl α]

theorem expArgs_un (o : UnOp) (e : Expr α) : e.expArgs ⊆ (Expr.un o e).expArgs := by
  intro a ha
  cases o <;> simp [Expr.expArgs, ha]

theorem expArgs_un_of {o : UnOp} {e a : Expr α} (h : a ∈ (Expr.un o e).expArgs) : (o = .exp ∧ a = e) ∨ a ∈ e.expArgs := by
  cases o <;> simp_all [Expr.expArgs]

theorem expArgs_dE (x : Str) (e : Expr α) : (dE x e).expArgs ⊆ e.expArgs := by
  induction e with
  | num v => simp [dE, Expr.expArgs]
  | var y => simp [dE, Expr.expArgs]
  | un o e ih =>
    intro a ha
    have h1 : a ∈ e.expArgs → a ∈ (Expr.un o e).expArgs := fun h => expArgs_un o e h
    have h2 : a ∈ (dE x e).expArgs → a ∈ (Expr.un o e).expArgs := fun h => h1 (ih h)
    cases o <;> simp only [dE] at ha <;> (repeat' split at ha) <;>
      simp only [Expr.expArgs, List.mem_append, List.not_mem_nil, List.nil_append, List.append_nil, false_or, or_false, List.mem_cons] at ha h1 h2 ⊢ <;>
      first
      | exact ha.elim
      | exact h1 ha
      | exact h2 ha
      | (rcases ha with ha | ha <;> first | exact h1 ha | exact h2 ha)
      | (rcases ha with (ha | ha) | ha <;> first | exact .inl ha | exact .inr ha | exact h1 ha | exact h2 ha)
      | exact ha
  | bin o a b iha ihb =>
    intro c hc
    have h1 : c ∈ a.expArgs → c ∈ (Expr.bin o a b).expArgs := fun h => by simp [Expr.expArgs, h]
    have h2 : c ∈ b.expArgs → c ∈ (Expr.bin o a b).expArgs := fun h => by simp [Expr.expArgs, h]
    have h3 : c ∈ (dE x a).expArgs → c ∈ (Expr.bin o a b).expArgs := fun h => h1 (iha h)
    have h4 : c ∈ (dE x b).expArgs → c ∈ (Expr.bin o a b).expArgs := fun h => h2 (ihb h)
    by_contra hcon
    have g1 := fun h => hcon (h1 h)
    have g2 := fun h => hcon (h2 h)
    have g3 := fun h => hcon (h3 h)
    have g4 := fun h => hcon (h4 h)
    have hpow : o ≠ .pow := by
      rintro rfl
      by_cases ha : a.isNum = true
      · cases a <;> simp [Expr.isNum] at ha
        cases b <;> simp only [dE] at hc <;> simp_all [Expr.expArgs]
      · by_cases hb : b.isNum = true
        · cases b <;> simp [Expr.isNum] at hb
          cases a <;> simp only [dE] at hc <;> simp_all [Expr.expArgs]
        · have e1 : dE x (.bin .pow a b) = .bin .mul (.bin .pow a b)
              (.bin .add (.bin .mul (dE x b) (.un .log a)) (.bin .mul b (.bin .mul (.bin .div (.num (Dbl.ofInt 1)) a) (dE x a)))) := by
            cases a <;> simp [Expr.isNum] at ha <;> cases b <;> simp [Expr.isNum] at hb <;> rfl
          rw [e1] at hc
          simp_all [Expr.expArgs]
    cases o <;> first | exact absurd rfl hpow | skip
    all_goals
      simp only [dE] at hc
      (repeat' split at hc) <;> simp_all [Expr.expArgs]

theorem expArgs_simpE (cfg : Config α) (e e' : Expr α) (h : simpE cfg e = .ok e') : ∀ a' ∈ e'.expArgs, ∃ a ∈ e.expArgs, simpE cfg a = .ok a' := by
  induction e generalizing e' with
  | num v => cases h; simp [Expr.expArgs]
  | var x => cases h; simp [Expr.expArgs]
  | un o e ih =>
    obtain ⟨b, hb, h⟩ := Res.bind_eq_ok.mp h
    rcases simpTop_un_ok h with ⟨v, w, rfl, rfl, hw⟩ | ⟨_, rfl⟩
    · simp [Expr.expArgs]
    · intro a' ha'
      rcases expArgs_un_of ha' with ⟨rfl, rfl⟩ | ha'
      · exact ⟨e, by simp [Expr.expArgs], hb⟩
      · obtain ⟨a, h1, h2⟩ := ih b hb a' ha'
        exact ⟨a, expArgs_un o e h1, h2⟩
  | bin o a b iha ihb =>
    obtain ⟨a1, ha1, h⟩ := Res.bind_eq_ok.mp h
    obtain ⟨b1, hb1, h⟩ := Res.bind_eq_ok.mp h
    have ka : ∀ a' ∈ a1.expArgs, ∃ c ∈ (Expr.bin o a b).expArgs, simpE cfg c = .ok a' := fun a' h =>
      let ⟨c, h1, h2⟩ := iha a1 ha1 a' h
      ⟨c, by simp [Expr.expArgs, h1], h2⟩
    have kb : ∀ a' ∈ b1.expArgs, ∃ c ∈ (Expr.bin o a b).expArgs, simpE cfg c = .ok a' := fun a' h =>
      let ⟨c, h1, h2⟩ := ihb b1 hb1 a' h
      ⟨c, by simp [Expr.expArgs, h1], h2⟩
    rcases simpTop_bin_ok h with ⟨v, w, u, z, rfl, rfl, _, hz, rfl⟩ | ⟨_, ⟨rfl, _⟩ | ⟨rfl, _⟩ | ⟨rfl, _⟩ | rfl⟩
    · simp [Expr.expArgs]
    · simp [Expr.expArgs]
    · exact kb
    · exact ka
    · intro a' ha'
      simp only [Expr.expArgs, List.mem_append] at ha'
      exact ha'.elim (ka a') (kb a')

theorem embed_var_inj {e : Expr α} {v : Str} (h : embed e = embed (.var v)) : e = .var v := by
  cases e <;> simp_all [embed]

theorem expFit_iff {cfg : Config α} {xs : List Str} {e : Expr α} :
    ExpFit cfg xs e ↔ ∀ a ∈ e.expArgs, ∀ v, simpE cfg a = .ok (.var v) → ∀ x ∈ xs, x = v := by
  refine forall₂_congr fun a _ => forall_congr' fun v => ?_
  rw [simplify_ok_iff]
  refine imp_congr_left ⟨fun ⟨e', h1, h2⟩ => ?_, fun h => ⟨_, h, rfl⟩⟩
  rw [h1, embed_var_inj h2.symm]

theorem ExpFit.noForeign {cfg : Config α} {xs : List Str} {e : Expr α} (h : ExpFit cfg xs e) {x : Str} (hx : x ∈ xs) : e.NoForeignExp x := by
  rw [expFit_iff] at h
  induction e with
  | num v => trivial
  | var y => trivial
  | un o e ih =>
    refine ⟨?_, ih fun a ha => h a (expArgs_un o e ha)⟩
    rintro rfl y rfl
    exact (h (.var y) (by simp [Expr.expArgs]) y rfl x hx).symm
  | bin o a b iha ihb => exact ⟨iha fun c hc => h c (by simp [Expr.expArgs, hc]), ihb fun c hc => h c (by simp [Expr.expArgs, hc])⟩

theorem ExpFit.step {cfg : Config α} {x : Str} {xs : List Str} {e e' : Expr α} (h : ExpFit cfg (x :: xs) e) (he : simpE cfg (dE x e) = .ok e') :
    ExpFit cfg xs e' := by
  rw [expFit_iff] at h ⊢
  intro a' ha' v hv y hy
  obtain ⟨a, h1, h2⟩ := expArgs_simpE cfg _ _ he a' ha'
  rw [simpE_stable cfg a a' h2] at hv
  cases hv
  exact h a (expArgs_dE x e h1) v h2 y (by simp [hy])

end

/-! ### functions of all variables -/

theorem continuous_at_ (σ : Str → ℝ) (x : Str) : Continuous fun t => at_ σ x t := by
  refine continuous_pi fun y => ?_
  unfold at_
  by_cases h : y = x
  · simp only [h, if_true]; exact continuous_id
  · simp only [h, if_false]; exact continuous_const

/-- what holds near a point holds nearby along an axis -/
theorem near_axis {P : (Str → ℝ) → Prop} {σ : Str → ℝ} (x : Str) (h : ∀ᶠ τ in 𝓝 σ, P τ) : ∀ᶠ t in 𝓝 (σ x), P (at_ σ x t) := by
  have := (continuous_at_ σ x).tendsto (σ x)
  rw [at_self] at this
  exact this.eventually h

theorem PartialNear.congr {ρ : Str → ℝ} {x : Str} {g g' h h' : (Str → ℝ) → ℝ} (h1 : PartialNear ρ x g g') (h2 : PartialNear ρ x h h')
    (hg : ∀ᶠ σ in 𝓝 ρ, g σ = h σ) : ∀ᶠ σ in 𝓝 ρ, g' σ = h' σ := by
  filter_upwards [h1, h2, hg.eventually_nhds] with σ k1 k2 k3
  exact k1.unique (k2.congr_of_eventuallyEq (near_axis x k3))

theorem HasMixedPartial.unique {ρ : Str → ℝ} {xs : List Str} {g h : (Str → ℝ) → ℝ} {d d' : ℝ} (h1 : HasMixedPartial ρ xs g d)
    (h2 : HasMixedPartial ρ xs h d') (hg : ∀ᶠ σ in 𝓝 ρ, g σ = h σ) : d = d' := by
  induction xs generalizing g h with
  | nil =>
    have h1 : g ρ = d := h1
    have h2 : h ρ = d' := h2
    rw [← h1, ← h2]; exact hg.self_of_nhds
  | cons x xs ih =>
    obtain ⟨g', k1, k2⟩ := h1
    obtain ⟨h', k3, k4⟩ := h2
    exact ih k2 k4 (k1.congr k3 hg)

/-- Differentiating and simplifying, near a point. -/
theorem partialNear_diff (cfg : Config (XNum ℝ)) (ρ : Str → ℝ) (x : Str) (e : Expr (XNum ℝ)) {n : ℕ} (hs : Smooth (n + 1) ρ e) (hf : e.NoForeignExp x)
    {g : (Str → ℝ) → ℝ} (hg : ∀ᶠ σ in 𝓝 ρ, realVal σ e = some (g σ)) :
    ∃ e', diff cfg (embed e) x 1 = .ok (embed e') ∧ simpE cfg (dE x e) = .ok e' ∧ Smooth n ρ e' ∧
      ∃ g', (∀ᶠ σ in 𝓝 ρ, realVal σ e' = some (g' σ)) ∧ PartialNear ρ x g g' := by
  have key : ∀ σ, Smooth (n + 1) σ e → ∃ e' d, simpE cfg (dE x e) = .ok e' ∧ realVal σ e' = some d ∧ HasPartialDeriv σ x e d := by
    intro σ hσ
    have hσ1 := smooth_mono (by omega : 1 ≤ n + 1) σ e hσ
    obtain ⟨d, hd, hp⟩ := dE_correct σ x e hσ1 hf
    obtain ⟨e', h1, h2⟩ := simpE_real cfg σ (dE x e) d hd (smooth_zeroPowFree σ _ (smooth_dE 0 σ x e hσ1))
    exact ⟨e', d, h1, h2, hp⟩
  obtain ⟨e', d, h1, h2, h3⟩ := key ρ hs
  have hnear : ∀ᶠ σ in 𝓝 ρ, Smooth (n + 1) σ e := by
    obtain ⟨_, _, h⟩ := smooth_near (by omega) (fun σ : Str → ℝ => σ) (fun x => continuous_apply x) ρ e hs
    exact h.mono fun σ h => h.2
  refine ⟨e', ?_, h1, smooth_simpE cfg ρ _ _ (smooth_dE n ρ x e hs) h1, fun σ => (realVal σ e').getD 0, ?_, ?_⟩
  · rw [diff_ok cfg x 1 (by decide) e (smooth_hasIntOp e hs)]
    exact (simplify_ok_iff cfg _ _).mpr ⟨e', h1, rfl⟩
  · filter_upwards [hnear] with σ hσ
    obtain ⟨e'', d', k1, k2, _⟩ := key σ hσ
    rw [h1] at k1; cases k1
    rw [k2]; rfl
  · filter_upwards [hnear, hg.eventually_nhds] with σ hσ hgσ
    obtain ⟨e'', d', k1, k2, f, k3, k4⟩ := key σ hσ
    rw [h1] at k1; cases k1
    rw [k2]
    refine k4.congr_of_eventuallyEq ?_
    filter_upwards [near_axis x hgσ, k3] with t t1 t2
    rw [t1] at t2
    simpa using t2

/-- The mixed second derivatives agree. -/
theorem mixed_swap {ρ : Str → ℝ} {x y : Str} {e : Expr (XNum ℝ)} (hs : Smooth 2 ρ e) {g gx gy gxy gyx : (Str → ℝ) → ℝ}
    (hg : ∀ᶠ σ in 𝓝 ρ, realVal σ e = some (g σ)) (h1 : PartialNear ρ x g gx) (h2 : PartialNear ρ y gx gxy)
    (h3 : PartialNear ρ y g gy) (h4 : PartialNear ρ x gy gyx) : ∀ᶠ σ in 𝓝 ρ, gxy σ = gyx σ := by
  by_cases hxy : x = y
  · subst hxy
    exact h2.congr h4 (h1.congr h3 (.of_forall fun _ => rfl))
  have hnear : ∀ᶠ σ in 𝓝 ρ, Smooth 2 σ e := by
    obtain ⟨_, _, h⟩ := smooth_near (by omega) (fun σ : Str → ℝ => σ) (fun x => continuous_apply x) ρ e hs
    exact h.mono fun σ h => h.2
  filter_upwards [hnear, hg.eventually_nhds, h1.eventually_nhds, h2, h3.eventually_nhds, h4] with σ kσ kg k1 k2 k3 k4
  set p : ℝ × ℝ → Str → ℝ := fun q => at_ (at_ σ x q.1) y q.2 with hp
  have hpz : p (σ x, σ y) = σ := by
    funext z
    by_cases hz : z = y
    · simp [hp, at_, hz]
    · by_cases hz' : z = x <;> simp [hp, at_, hz, hz', hxy]
  have hpx : ∀ q, p q x = q.1 := fun q => by simp [hp, at_, hxy]
  have hpy : ∀ q, p q y = q.2 := fun q => by simp [hp, at_]
  have hps : ∀ q s, at_ (p q) x s = p (s, q.2) := fun q s => by
    funext z
    by_cases hz : z = x
    · simp [hp, at_, hz, hxy]
    · by_cases hz' : z = y <;> simp [hp, at_, hz, hz', Ne.symm hxy]
  have hpt : ∀ q t, at_ (p q) y t = p (q.1, t) := fun q t => by
    funext z
    by_cases hz' : z = y <;> simp [hp, at_, hz']
  have hpc : ∀ z, ContDiff ℝ 2 fun q => p q z := fun z => by
    simp only [hp, at_]
    by_cases hz : z = y
    · simp only [hz, if_true]; exact contDiff_snd
    · by_cases hz' : z = x
      · simp only [hz, hz', if_false, if_true, hxy]; exact contDiff_fst
      · simp only [hz, hz', if_false]; exact contDiff_const
  have hpcont : Continuous p := continuous_pi fun z => (hpc z).continuous
  have htend : Tendsto p (𝓝 (σ x, σ y)) (𝓝 σ) := by
    have := hpcont.tendsto (σ x, σ y); rwa [hpz] at this
  obtain ⟨F, hF, hFe⟩ := smooth_param (by omega : 1 ≤ 2) p hpc (σ x, σ y) e (by rw [hpz]; exact kσ)
  have hFg : ∀ᶠ q in 𝓝 (σ x, σ y), F q = g (p q) := by
    filter_upwards [hFe, htend.eventually kg] with q q1 q2
    rw [q1.1] at q2; simpa using q2
  have hFd : ∀ᶠ q in 𝓝 (σ x, σ y), DifferentiableAt ℝ F q :=
    (hF.eventually (by simp)).mono fun q h => h.differentiableAt (by simp)
  -- first derivatives
  have hFx : ∀ᶠ q in 𝓝 (σ x, σ y), gx (p q) = fderiv ℝ F q (1, 0) := by
    filter_upwards [hFd, hFg.eventually_nhds, htend.eventually k1] with q q1 q2 q3
    have a1 : HasDerivAt (fun s => F (s, q.2)) (fderiv ℝ F q (1, 0)) q.1 := by
      have := q1.hasFDerivAt.comp_hasDerivAt (f := fun s : ℝ => (s, q.2)) q.1 ((hasDerivAt_id q.1).prodMk (hasDerivAt_const q.1 q.2))
      exact this
    rw [hpx] at q3
    refine q3.unique (a1.congr_of_eventuallyEq ?_)
    have : Tendsto (fun s : ℝ => (s, q.2)) (𝓝 q.1) (𝓝 q) := by
      have := (Continuous.prodMk_left q.2 : Continuous fun s : ℝ => (s, q.2)).tendsto q.1
      exact this
    filter_upwards [this.eventually q2] with s hs
    rw [hps, hs]
  have hFy : ∀ᶠ q in 𝓝 (σ x, σ y), gy (p q) = fderiv ℝ F q (0, 1) := by
    filter_upwards [hFd, hFg.eventually_nhds, htend.eventually k3] with q q1 q2 q3
    have a1 : HasDerivAt (fun t => F (q.1, t)) (fderiv ℝ F q (0, 1)) q.2 := by
      have := q1.hasFDerivAt.comp_hasDerivAt (f := fun t : ℝ => (q.1, t)) q.2 ((hasDerivAt_const q.2 q.1).prodMk (hasDerivAt_id q.2))
      exact this
    rw [hpy] at q3
    refine q3.unique (a1.congr_of_eventuallyEq ?_)
    have : Tendsto (fun t : ℝ => (q.1, t)) (𝓝 q.2) (𝓝 q) := by
      have := (Continuous.prodMk_right q.1 : Continuous fun t : ℝ => (q.1, t)).tendsto q.2
      exact this
    filter_upwards [this.eventually q2] with s hs
    rw [hpt, hs]
  -- second derivatives
  have hdd : DifferentiableAt ℝ (fderiv ℝ F) (σ x, σ y) := (hF.fderiv_right (m := 1) (by norm_num)).differentiableAt (by simp)
  have hsym : IsSymmSndFDerivAt ℝ F (σ x, σ y) := hF.isSymmSndFDerivAt (by simp)
  have b1 : gxy σ = fderiv ℝ (fderiv ℝ F) (σ x, σ y) (0, 1) (1, 0) := by
    have a1 : HasDerivAt (fun t => fderiv ℝ F (σ x, t) (1, 0)) (fderiv ℝ (fderiv ℝ F) (σ x, σ y) (0, 1) (1, 0)) (σ y) := by
      have := hdd.hasFDerivAt.comp_hasDerivAt (f := fun t : ℝ => (σ x, t)) (σ y) ((hasDerivAt_const (σ y) (σ x)).prodMk (hasDerivAt_id (σ y)))
      exact this.clm_apply (hasDerivAt_const _ _) |>.congr_deriv (by simp)
    refine k2.unique (a1.congr_of_eventuallyEq ?_)
    have : Tendsto (fun t : ℝ => (σ x, t)) (𝓝 (σ y)) (𝓝 (σ x, σ y)) := (Continuous.prodMk_right (σ x) : Continuous fun t : ℝ => (σ x, t)).tendsto (σ y)
    filter_upwards [this.eventually hFx] with t ht
    rw [← ht, ← hpt (σ x, σ y) t, hpz]
  have b2 : gyx σ = fderiv ℝ (fderiv ℝ F) (σ x, σ y) (1, 0) (0, 1) := by
    have a1 : HasDerivAt (fun s => fderiv ℝ F (s, σ y) (0, 1)) (fderiv ℝ (fderiv ℝ F) (σ x, σ y) (1, 0) (0, 1)) (σ x) := by
      have := hdd.hasFDerivAt.comp_hasDerivAt (f := fun s : ℝ => (s, σ y)) (σ x) ((hasDerivAt_id (σ x)).prodMk (hasDerivAt_const (σ x) (σ y)))
      exact this.clm_apply (hasDerivAt_const _ _) |>.congr_deriv (by simp)
    refine k4.unique (a1.congr_of_eventuallyEq ?_)
    have : Tendsto (fun s : ℝ => (s, σ y)) (𝓝 (σ x)) (𝓝 (σ x, σ y)) := (Continuous.prodMk_left (σ y) : Continuous fun s : ℝ => (s, σ y)).tendsto (σ x)
    filter_upwards [this.eventually hFy] with s hs
    rw [← hs, ← hps (σ x, σ y) s, hpz]
  rw [b1, b2, hsym.eq]

end Tom
