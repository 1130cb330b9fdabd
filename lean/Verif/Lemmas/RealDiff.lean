import Verif.Spec.Real
import Verif.Lemmas.Diff
import Verif.Props.RealSimplify
import Mathlib.Analysis.SpecialFunctions.Trigonometric.ArctanDeriv
import Mathlib.Analysis.SpecialFunctions.Trigonometric.InverseDeriv
import Mathlib.Analysis.SpecialFunctions.Pow.Deriv
import Mathlib.Analysis.SpecialFunctions.Log.Deriv
import Mathlib.Analysis.SpecialFunctions.Sqrt
/-
The differentiation rules are correct over the reals.
-/
namespace Tom
open Classical Filter Topology

/-- value of the derivative of a unary operator -/
noncomputable def UnOp.dv : UnOp → ℝ → ℝ
  | pos, _ => 1
  | neg, _ => -1
  | sin, u => Real.cos u
  | cos, u => -Real.sin u
  | tan, u => 1 / Real.cos u ^ 2
  | asin, u => 1 / √(1 - u ^ 2)
  | acos, u => -1 / √(1 - u ^ 2)
  | atan, u => 1 / (1 + u ^ 2)
  | sqrt, u => 1 / (2 * √u)
  | log, u => 1 / u
  | log2, u => 1 / (u * Real.log 2)
  | log10, u => 1 / (u * Real.log 10)
  | exp, u => Real.exp u

theorem un_deriv (o : UnOp) (u : ℝ) (h : o.smoothAt 1 u) :
    ∃ g : ℝ → ℝ, (∀ᶠ s in 𝓝 u, o.real s = some (g s)) ∧ HasDerivAt g (o.dv u) u := by
  cases o with
  | pos => exact ⟨id, .of_forall fun s => rfl, hasDerivAt_id u⟩
  | neg => exact ⟨fun s => -s, .of_forall fun s => rfl, (hasDerivAt_id u).neg⟩
  | sin => exact ⟨_, .of_forall fun s => rfl, Real.hasDerivAt_sin u⟩
  | cos => exact ⟨_, .of_forall fun s => rfl, Real.hasDerivAt_cos u⟩
  | tan =>
    refine ⟨Real.tan, ?_, Real.hasDerivAt_tan h⟩
    have : ∀ᶠ s in 𝓝 u, Real.cos s ≠ 0 := Real.continuous_cos.continuousAt.eventually_ne h
    filter_upwards [this] with s hs
    simp [UnOp.real, hs]
  | asin =>
    refine ⟨Real.arcsin, ?_, Real.hasDerivAt_arcsin h.1.ne' h.2.1.ne⟩
    filter_upwards [Ioo_mem_nhds h.1 h.2.1] with s hs
    simp [UnOp.real, hs.1.le, hs.2.le]
  | acos =>
    refine ⟨Real.arccos, ?_, ?_⟩
    · filter_upwards [Ioo_mem_nhds h.1 h.2.1] with s hs
      simp [UnOp.real, hs.1.le, hs.2.le]
    · have := Real.hasDerivAt_arccos h.1.ne' h.2.1.ne
      rwa [← neg_div] at this
  | atan => exact ⟨_, .of_forall fun s => rfl, Real.hasDerivAt_arctan u⟩
  | sqrt =>
    refine ⟨Real.sqrt, ?_, Real.hasDerivAt_sqrt (ne_of_gt h)⟩
    filter_upwards [lt_mem_nhds (show (0:ℝ) < u from h)] with s hs
    simp [UnOp.real, hs.le]
  | log =>
    refine ⟨Real.log, ?_, ?_⟩
    · filter_upwards [lt_mem_nhds (show (0:ℝ) < u from h)] with s hs
      simp [UnOp.real, hs]
    · have := Real.hasDerivAt_log (ne_of_gt (show (0:ℝ) < u from h))
      rwa [← one_div] at this
  | log2 =>
    refine ⟨Real.logb 2, ?_, ?_⟩
    · filter_upwards [lt_mem_nhds (show (0:ℝ) < u from h)] with s hs
      simp [UnOp.real, hs]
    · have := (Real.hasDerivAt_log (ne_of_gt (show (0:ℝ) < u from h))).div_const (Real.log 2)
      simp only [UnOp.dv]
      rw [show 1 / (u * Real.log 2) = u⁻¹ / Real.log 2 by rw [one_div, mul_inv, div_eq_mul_inv]]
      exact this
  | log10 =>
    refine ⟨Real.logb 10, ?_, ?_⟩
    · filter_upwards [lt_mem_nhds (show (0:ℝ) < u from h)] with s hs
      simp [UnOp.real, hs]
    · have := (Real.hasDerivAt_log (ne_of_gt (show (0:ℝ) < u from h))).div_const (Real.log 10)
      simp only [UnOp.dv]
      rw [show 1 / (u * Real.log 10) = u⁻¹ / Real.log 10 by rw [one_div, mul_inv, div_eq_mul_inv]]
      exact this
  | exp => exact ⟨_, .of_forall fun s => rfl, Real.hasDerivAt_exp u⟩

theorem at_self (ρ : Str → ℝ) (x : Str) : at_ ρ x (ρ x) = ρ := by
  funext y; simp only [at_]; split <;> simp_all

theorem at_at (ρ : Str → ℝ) (x : Str) (t s : ℝ) : at_ (at_ ρ x t) x s = at_ ρ x s := by
  funext y; simp only [at_]; split <;> simp_all

theorem at_x (ρ : Str → ℝ) (x : Str) (t : ℝ) : at_ ρ x t x = t := by simp [at_]

theorem realVal_congr (ρ ρ' : Str → ℝ) (e : Expr (XNum ℝ)) (h : ∀ y ∈ e.vars, ρ y = ρ' y) : realVal ρ e = realVal ρ' e := by
  induction e with
  | num v => rfl
  | var y => simp [realVal, h y (by simp [Expr.vars])]
  | un o e ih => simp only [realVal]; rw [ih fun y hy => h y (by simpa [Expr.vars] using hy)]
  | bin o a b iha ihb =>
    simp only [realVal]
    rw [iha fun y hy => h y (by simp [Expr.vars, hy]), ihb fun y hy => h y (by simp [Expr.vars, hy])]

theorem pd_const (ρ : Str → ℝ) (x : Str) (e : Expr (XNum ℝ)) (v : ℝ) (hx : x ∉ e.vars) (h : realVal ρ e = some v) :
    HasPartialDeriv ρ x e 0 := by
  refine ⟨fun _ => v, .of_forall fun t => ?_, hasDerivAt_const _ _⟩
  rw [← h]
  refine realVal_congr _ _ e fun y hy => ?_
  have : y ≠ x := fun hxy => hx (hxy ▸ hy)
  simp [at_, this]

theorem pd_var (ρ : Str → ℝ) (x : Str) : HasPartialDeriv ρ x (.var x) 1 :=
  ⟨id, .of_forall fun t => by simp [realVal, at_], hasDerivAt_id _⟩

theorem pd_un {ρ : Str → ℝ} {x : Str} {e : Expr (XNum ℝ)} {d u : ℝ} (o : UnOp) (he : HasPartialDeriv ρ x e d)
    (hu : realVal ρ e = some u) (ho : o.smoothAt 1 u) : HasPartialDeriv ρ x (.un o e) (o.dv u * d) := by
  obtain ⟨f, hf, hd⟩ := he
  have hfx : f (ρ x) = u := by
    have := hf.self_of_nhds; rw [at_self, hu] at this; simpa using this.symm
  obtain ⟨g, hg, hgd⟩ := un_deriv o u ho
  refine ⟨g ∘ f, ?_, HasDerivAt.comp _ (hfx ▸ hgd) hd⟩
  have hc : Tendsto f (𝓝 (ρ x)) (𝓝 u) := hfx ▸ hd.continuousAt
  filter_upwards [hf, hc.eventually hg] with t h1 h2
  simp [realVal, h1, h2]

theorem pd_bin {ρ : Str → ℝ} {x : Str} {a b : Expr (XNum ℝ)} {da db d u w : ℝ} (o : BinOp) (ha : HasPartialDeriv ρ x a da)
    (hb : HasPartialDeriv ρ x b db) (hu : realVal ρ a = some u) (hw : realVal ρ b = some w)
    (h : ∀ f g : ℝ → ℝ, f (ρ x) = u → g (ρ x) = w → HasDerivAt f da (ρ x) → HasDerivAt g db (ρ x) →
      ∃ k : ℝ → ℝ, (∀ᶠ t in 𝓝 (ρ x), o.real (f t) (g t) = some (k t)) ∧ HasDerivAt k d (ρ x)) :
    HasPartialDeriv ρ x (.bin o a b) d := by
  obtain ⟨f, hf, hfd⟩ := ha
  obtain ⟨g, hg, hgd⟩ := hb
  have hfx : f (ρ x) = u := by
    have := hf.self_of_nhds; rw [at_self, hu] at this; simpa using this.symm
  have hgx : g (ρ x) = w := by
    have := hg.self_of_nhds; rw [at_self, hw] at this; simpa using this.symm
  obtain ⟨k, hk, hkd⟩ := h f g hfx hgx hfd hgd
  refine ⟨k, ?_, hkd⟩
  filter_upwards [hf, hg, hk] with t h1 h2 h3
  simp [realVal, h1, h2, h3]

theorem pd_div {ρ : Str → ℝ} {x : Str} {a b : Expr (XNum ℝ)} {da db u w : ℝ} (ha : HasPartialDeriv ρ x a da)
    (hb : HasPartialDeriv ρ x b db) (hu : realVal ρ a = some u) (hw : realVal ρ b = some w) (hw0 : w ≠ 0) :
    HasPartialDeriv ρ x (.bin .div a b) ((da * w - u * db) / w ^ 2) := by
  refine pd_bin .div ha hb hu hw fun f g hf hg hfd hgd => ⟨fun t => f t / g t, ?_, ?_⟩
  · have hc : ∀ᶠ t in 𝓝 (ρ x), g t ≠ 0 := hgd.continuousAt.eventually_ne (by rwa [hg])
    filter_upwards [hc] with t ht
    simp [BinOp.real, ht]
  · have := hfd.div hgd (by rwa [hg])
    rw [hf, hg] at this
    exact this

/-- where a power with a literal exponent is differentiable -/
def PowOk (n : ℕ) (u c : ℝ) : Prop := 0 < u ∨ (u ≠ 0 ∧ ∃ k : ℤ, c = k) ∨ ∃ k : ℕ, n ≤ k ∧ c = k

theorem realPow_of_ok {u c : ℝ} (h : PowOk 0 u c) : realPow u c = some (u ^ c) := by
  unfold realPow
  rw [if_pos]
  rcases h with h | ⟨h, k, rfl⟩ | ⟨k, _, rfl⟩
  · exact .inl h
  · rcases lt_or_gt_of_ne h with h | h
    · exact .inr (.inr ⟨h, k, rfl⟩)
    · exact .inl h
  · rcases lt_trichotomy u 0 with h | h | h
    · exact .inr (.inr ⟨h, k, by simp⟩)
    · exact .inr (.inl ⟨h, by positivity⟩)
    · exact .inl h

theorem PowOk.mono {m n : ℕ} {u c : ℝ} (hmn : m ≤ n) (h : PowOk n u c) : PowOk m u c := by
  rcases h with h | h | ⟨k, hk, rfl⟩
  · exact .inl h
  · exact .inr (.inl h)
  · exact .inr (.inr ⟨k, by omega, rfl⟩)

theorem PowOk.pred {n : ℕ} {u c : ℝ} (h : PowOk (n + 1) u c) : PowOk n u (c - 1) := by
  rcases h with h | ⟨h, k, rfl⟩ | ⟨k, hk, rfl⟩
  · exact .inl h
  · exact .inr (.inl ⟨h, k - 1, by simp⟩)
  · exact .inr (.inr ⟨k - 1, by omega, by rw [Nat.cast_sub (by omega)]; simp⟩)

theorem PowOk.eventually {n : ℕ} {u c : ℝ} (h : PowOk n u c) : ∀ᶠ s in 𝓝 u, PowOk n s c := by
  rcases h with h | ⟨h, hk⟩ | hk
  · filter_upwards [lt_mem_nhds h] with s hs using .inl hs
  · filter_upwards [isOpen_ne.mem_nhds h] with s hs using .inr (.inl ⟨hs, hk⟩)
  · exact .of_forall fun s => .inr (.inr hk)

theorem pd_powNum {ρ : Str → ℝ} {x : Str} {a : Expr (XNum ℝ)} {da u c : ℝ} (ha : HasPartialDeriv ρ x a da)
    (hu : realVal ρ a = some u) (h : PowOk 1 u c) :
    HasPartialDeriv ρ x (.bin .pow a (.num (.fin c))) ((c * u ^ (c - 1)) * da) := by
  obtain ⟨f, hf', hfd⟩ := ha
  have hf : f (ρ x) = u := by
    have := hf'.self_of_nhds; rw [at_self, hu] at this; simpa using this.symm
  refine ⟨fun t => f t ^ c, ?_, ?_⟩
  · have hc : Tendsto f (𝓝 (ρ x)) (𝓝 u) := hf ▸ hfd.continuousAt
    filter_upwards [hf', hc.eventually h.eventually] with t ht ht'
    simp [realVal, ht, XNum.val?, BinOp.real, realPow_of_ok (ht'.mono (Nat.zero_le 1))]
  · have h1 : u ≠ 0 ∨ 1 ≤ c := by
      rcases h with h | h | ⟨k, hk, rfl⟩
      · exact .inl h.ne'
      · exact .inl h.1
      · exact .inr (by exact_mod_cast hk)
    have := hfd.rpow_const (p := c) (by rwa [hf])
    rw [hf] at this
    convert this using 1
    ring

theorem pd_pow {ρ : Str → ℝ} {x : Str} {a b : Expr (XNum ℝ)} {da db u w : ℝ} (ha : HasPartialDeriv ρ x a da)
    (hb : HasPartialDeriv ρ x b db) (hu : realVal ρ a = some u) (hw : realVal ρ b = some w) (hu0 : 0 < u) :
    HasPartialDeriv ρ x (.bin .pow a b) (u ^ w * (db * Real.log u + w * ((1 / u) * da))) := by
  refine pd_bin .pow ha hb hu hw fun f g hf hg hfd hgd => ⟨fun t => f t ^ g t, ?_, ?_⟩
  · have hc : ∀ᶠ t in 𝓝 (ρ x), 0 < f t := hfd.continuousAt.eventually (lt_mem_nhds (by rwa [hf]))
    filter_upwards [hc] with t ht
    simp [BinOp.real, realPow, ht]
  · have := hfd.rpow hgd (by rwa [hf])
    rw [hf, hg, Real.rpow_sub_one hu0.ne'] at this
    convert this using 1
    field_simp
    ring

theorem smooth_mono {m n : ℕ} (hmn : m ≤ n) (ρ : Str → ℝ) (e : Expr (XNum ℝ)) (h : Smooth n ρ e) : Smooth m ρ e := by
  induction e with
  | num v => exact h
  | var y => trivial
  | un o e ih =>
    obtain ⟨h1, u, hu, h2⟩ := h
    refine ⟨ih h1, u, hu, h2.imp (fun h => ?_) id⟩
    cases o <;> simp_all [UnOp.smoothAt]
    · exact h.2.2.imp id (by omega)
    · exact h.2.2.imp id (by omega)
    · exact h.imp id (by omega)
  | bin o a b iha ihb =>
    cases o with
    | add => exact ⟨iha h.1, ihb h.2⟩
    | sub => exact ⟨iha h.1, ihb h.2⟩
    | mul => exact ⟨iha h.1, ihb h.2⟩
    | div => exact ⟨iha h.1, ihb h.2.1, h.2.2⟩
    | pow =>
      obtain ⟨h1, h2, u, hu, h⟩ := h
      refine ⟨iha h1, ihb h2, u, hu, h.imp id (.imp (fun ⟨c, hc, h⟩ => ⟨c, hc, h.imp id ?_⟩) id)⟩
      rintro ⟨k, hk, rfl⟩
      exact ⟨k, by omega, rfl⟩
    | and => exact h
    | or => exact h
    | mod => exact h

theorem un_real_of_smooth {n : ℕ} {o : UnOp} {u : ℝ} (h : o.smoothAt n u) : ∃ r, o.real u = some r := by
  cases o <;> simp_all [UnOp.smoothAt, UnOp.real]
  · exact ⟨h.1.le, h.2.1.le⟩
  · exact ⟨h.1.le, h.2.1.le⟩
  · exact le_of_lt h

theorem smooth_val {n : ℕ} (ρ : Str → ℝ) (e : Expr (XNum ℝ)) (h : Smooth n ρ e) : ∃ v, realVal ρ e = some v := by
  induction e with
  | num v => obtain ⟨u, rfl⟩ := h; exact ⟨u, rfl⟩
  | var y => exact ⟨_, rfl⟩
  | un o e ih =>
    obtain ⟨h1, u, hu, h2⟩ := h
    simp only [realVal, hu, Option.bind_some]
    rcases h2 with h2 | ⟨_, h2⟩
    · exact un_real_of_smooth h2
    · exact h2
  | bin o a b iha ihb =>
    cases o with
    | add => obtain ⟨u, hu⟩ := iha h.1; obtain ⟨w, hw⟩ := ihb h.2; simp [realVal, hu, hw, BinOp.real]
    | sub => obtain ⟨u, hu⟩ := iha h.1; obtain ⟨w, hw⟩ := ihb h.2; simp [realVal, hu, hw, BinOp.real]
    | mul => obtain ⟨u, hu⟩ := iha h.1; obtain ⟨w, hw⟩ := ihb h.2; simp [realVal, hu, hw, BinOp.real]
    | div =>
      obtain ⟨u, hu⟩ := iha h.1
      obtain ⟨w, hw, h0⟩ := h.2.2
      simp [realVal, hu, hw, BinOp.real, h0]
    | pow =>
      obtain ⟨h1, h2, u, hu, h⟩ := h
      obtain ⟨w, hw⟩ := ihb h2
      simp only [realVal, hu, hw, Option.bind_some, BinOp.real]
      rcases h with h | ⟨c, rfl, h⟩ | ⟨_, _, w', r, hw', hr⟩
      · exact ⟨_, realPow_of_ok (.inl h)⟩
      · have : w = c := by simpa [realVal, XNum.val?, eq_comm] using hw
        subst this
        exact ⟨_, realPow_of_ok (PowOk.mono (Nat.zero_le n) (.inr h))⟩
      · rw [hw] at hw'; cases hw'; exact ⟨r, hr⟩
    | and => exact h.elim
    | or => exact h.elim
    | mod => exact h.elim

theorem realVal_zero (ρ : Str → ℝ) : realVal ρ (.num (Dbl.ofInt 0)) = some 0 := by
  simp [realVal, Dbl.ofInt, XNum.val?]

theorem realPow_two {u : ℝ} : realPow u 2 = some (u ^ 2) := by
  have := realPow_of_ok (u := u) (c := 2) (.inr (.inr ⟨2, by omega, by simp⟩))
  simpa using this

theorem outerD_val (ρ : Str → ℝ) (o : UnOp) (e : Expr (XNum ℝ)) (u : ℝ) (hu : realVal ρ e = some u) (h : o.smoothAt 1 u)
    (hs : ¬ (o = .pos ∨ o = .neg)) : realVal ρ (outerD o e) = some (o.dv u) := by
  have h2 := @realPow_two
  cases o <;> simp at hs <;>
    simp [outerD, realVal, hu, UnOp.real, BinOp.real, Dbl.ofInt, Dbl.log, XNum.mapO, XNum.val?, UnOp.dv, h2, UnOp.smoothAt] at h ⊢
  · exact h
  · have : 0 < 1 - u ^ 2 := by nlinarith
    simp [(abs_lt.mpr h).le, Real.sqrt_ne_zero'.mpr this]
  · have : 0 < 1 - u ^ 2 := by nlinarith
    simp [(abs_lt.mpr h).le, Real.sqrt_ne_zero'.mpr this]
  · have : 1 + u ^ 2 ≠ 0 := by positivity
    simp [this]
  · simp [h.le, Real.sqrt_ne_zero'.mpr h]
  · simp [h.ne']
  · simp [h.ne']; norm_num
  · simp [h.ne']; norm_num

theorem dE_un (x : Str) (o : UnOp) (e : Expr (XNum ℝ)) (hs : ¬ (o = .pos ∨ o = .neg)) (hn : e.isNum = false)
    (hv : ¬ (o = .exp ∧ e.isVar = true)) : dE x (.un o e) = .bin .mul (outerD o e) (dE x e) := by
  cases o <;> simp at hs hv <;> simp [dE, outerD, hn, hv]

/-- The value of the derivative expression is the partial derivative. -/
theorem dE_correct (ρ : Str → ℝ) (x : Str) (e : Expr (XNum ℝ)) (hs : Smooth 1 ρ e) (hf : e.NoForeignExp x) :
    ∃ d, realVal ρ (dE x e) = some d ∧ HasPartialDeriv ρ x e d := by
  induction e with
  | num v =>
    obtain ⟨u, rfl⟩ := hs
    exact ⟨0, realVal_zero ρ, pd_const ρ x _ u (by simp [Expr.vars]) rfl⟩
  | var y =>
    by_cases hxy : y = x
    · subst hxy
      exact ⟨1, by simp [dE, realVal, Dbl.ofInt, XNum.val?], pd_var ρ y⟩
    · exact ⟨0, by simp [dE, hxy, realVal, Dbl.ofInt, XNum.val?],
        pd_const ρ x _ (ρ y) (by simp [Expr.vars, Ne.symm hxy]) rfl⟩
  | un o e ih =>
    have hval := smooth_val ρ _ hs
    obtain ⟨h1, u, hu, h2⟩ := hs
    obtain ⟨d, hd, hp⟩ := ih h1 hf.2
    by_cases hsg : o = .pos ∨ o = .neg
    · have := pd_un o hp hu (by rcases hsg with rfl | rfl <;> trivial)
      rcases hsg with rfl | rfl
      · exact ⟨d, by simp [dE, realVal, hd, UnOp.real], by simpa [UnOp.dv] using this⟩
      · exact ⟨-d, by simp [dE, realVal, hd, UnOp.real], by simpa [UnOp.dv] using this⟩
    · cases hn : e.isNum with
      | true =>
        obtain ⟨v, hv⟩ := hval
        refine ⟨0, ?_, pd_const ρ x _ v ?_ hv⟩
        · cases o <;> simp at hsg <;> simp [dE, hn, realVal_zero]
        · cases e <;> simp [Expr.isNum] at hn; simp [Expr.vars]
      | false =>
        have h2 : o.smoothAt 1 u := by
          rcases h2 with h2 | ⟨h, _⟩
          · exact h2
          · rw [hn] at h; cases h
        by_cases hv : o = .exp ∧ e.isVar = true
        · obtain ⟨rfl, hv⟩ := hv
          cases e <;> simp [Expr.isVar] at hv
          rename_i y
          have hyx : y = x := hf.1 rfl y rfl
          subst hyx
          have := pd_un .exp (pd_var ρ y) hu trivial
          refine ⟨Real.exp u, ?_, by simpa [UnOp.dv] using this⟩
          simp [dE, Expr.isNum, Expr.isVar, realVal, UnOp.real] at hu ⊢
          rw [hu]
        · refine ⟨o.dv u * d, ?_, pd_un o hp hu h2⟩
          rw [dE_un x o e hsg hn hv]
          simp [realVal, outerD_val ρ o e u hu h2 hsg, hd, BinOp.real]
  | bin o a b iha ihb =>
    have hval := smooth_val ρ _ hs
    cases o with
    | add =>
      obtain ⟨da, hda, hpa⟩ := iha hs.1 hf.1
      obtain ⟨db, hdb, hpb⟩ := ihb hs.2 hf.2
      obtain ⟨u, hu⟩ := smooth_val ρ _ hs.1
      obtain ⟨w, hw⟩ := smooth_val ρ _ hs.2
      have hp : HasPartialDeriv ρ x (.bin .add a b) (da + db) :=
        pd_bin .add hpa hpb hu hw fun f g _ _ hfd hgd => ⟨fun t => f t + g t, .of_forall fun t => rfl, hfd.add hgd⟩
      refine ⟨_, ?_, hp⟩
      simp only [dE]
      split
      · rename_i hn
        cases a <;> simp [Expr.isNum] at hn
        cases b <;> simp [Expr.isNum] at hn
        simp [dE, realVal_zero] at hda hdb
        simp [← hda, ← hdb, realVal_zero]
      · simp [realVal, hda, hdb, BinOp.real]
    | sub =>
      obtain ⟨da, hda, hpa⟩ := iha hs.1 hf.1
      obtain ⟨db, hdb, hpb⟩ := ihb hs.2 hf.2
      obtain ⟨u, hu⟩ := smooth_val ρ _ hs.1
      obtain ⟨w, hw⟩ := smooth_val ρ _ hs.2
      have hp : HasPartialDeriv ρ x (.bin .sub a b) (da - db) :=
        pd_bin .sub hpa hpb hu hw fun f g _ _ hfd hgd => ⟨fun t => f t - g t, .of_forall fun t => rfl, hfd.sub hgd⟩
      refine ⟨_, ?_, hp⟩
      simp only [dE]
      split
      · rename_i hn
        cases a <;> simp [Expr.isNum] at hn
        cases b <;> simp [Expr.isNum] at hn
        simp [dE, realVal_zero] at hda hdb
        simp [← hda, ← hdb, realVal_zero]
      · simp [realVal, hda, hdb, BinOp.real]
    | mul =>
      obtain ⟨da, hda, hpa⟩ := iha hs.1 hf.1
      obtain ⟨db, hdb, hpb⟩ := ihb hs.2 hf.2
      obtain ⟨u, hu⟩ := smooth_val ρ _ hs.1
      obtain ⟨w, hw⟩ := smooth_val ρ _ hs.2
      have hp : HasPartialDeriv ρ x (.bin .mul a b) (da * w + u * db) :=
        pd_bin .mul hpa hpb hu hw fun f g hf hg hfd hgd =>
          ⟨fun t => f t * g t, .of_forall fun t => rfl, by have := hfd.mul hgd; rwa [hf, hg] at this⟩
      refine ⟨_, ?_, hp⟩
      simp only [dE]
      split
      · rename_i hn
        cases a <;> simp [Expr.isNum] at hn
        simp [dE, realVal_zero] at hda
        simp only [realVal] at hu
        simp [← hda, realVal, hdb, hu, BinOp.real]
      · split
        · rename_i hn
          cases b <;> simp [Expr.isNum] at hn
          simp [dE, realVal_zero] at hdb
          simp only [realVal] at hw
          simp [← hdb, realVal, hda, hw, BinOp.real]
        · simp [realVal, hda, hdb, hu, hw, BinOp.real]
    | div =>
      obtain ⟨da, hda, hpa⟩ := iha hs.1 hf.1
      obtain ⟨db, hdb, hpb⟩ := ihb hs.2.1 hf.2
      obtain ⟨u, hu⟩ := smooth_val ρ _ hs.1
      obtain ⟨w, hw, hw0⟩ := hs.2.2
      have hp := pd_div hpa hpb hu hw hw0
      refine ⟨_, ?_, hp⟩
      simp only [dE]
      split
      · rename_i hn
        cases b <;> simp [Expr.isNum] at hn
        simp [dE, realVal_zero] at hdb
        simp only [realVal] at hw
        simp [← hdb, realVal, hda, hw, BinOp.real, hw0]
        field_simp
      · simp [realVal, hda, hdb, hu, hw, BinOp.real, Dbl.ofInt, XNum.val?, realPow_two, hw0]
    | pow =>
      obtain ⟨h1, h2, u, hu, h⟩ := hs
      obtain ⟨da, hda, hpa⟩ := iha h1 hf.1
      obtain ⟨db, hdb, hpb⟩ := ihb h2 hf.2
      obtain ⟨w, hw⟩ := smooth_val ρ _ h2
      cases hnb : b.isNum with
      | true =>
        cases b <;> simp [Expr.isNum] at hnb
        have := val_num hw
        subst this
        cases hna : a.isNum with
        | true =>
          cases a <;> simp [Expr.isNum] at hna
          obtain ⟨v, hv⟩ := hval
          exact ⟨0, realVal_zero ρ, pd_const ρ x _ v (by simp [Expr.vars]) hv⟩
        | false =>
          have hok : PowOk 1 u w := by
            rcases h with h | ⟨c, hc, h⟩ | ⟨h, _⟩
            · exact .inl h
            · cases hc; exact .inr h
            · rw [hna] at h; cases h
          refine ⟨_, ?_, pd_powNum hpa hu hok⟩
          rw [dE_powNum x a _ hna]
          have : realPow u (w - 1) = some (u ^ (w - 1)) := realPow_of_ok hok.pred
          simp [realVal, hu, hda, XNum.val?, Arith.sub, Dbl.ofInt, XNum.map2, BinOp.real, this]
      | false =>
        have hu0 : 0 < u := by
          rcases h with h | ⟨c, rfl, h⟩ | ⟨_, h, _⟩
          · exact h
          · simp [Expr.isNum] at hnb
          · rw [hnb] at h; cases h
        have hp := pd_pow hpa hpb hu hw hu0
        have hpw : realPow u w = some (u ^ w) := realPow_of_ok (.inl hu0)
        refine ⟨_, ?_, hp⟩
        cases hna : a.isNum with
        | true =>
          cases a <;> simp [Expr.isNum] at hna
          have := val_num hu
          subst this
          simp [dE, realVal_zero] at hda
          rw [dE_numPow x b _ hnb]
          simp [← hda, realVal, XNum.val?, hw, hdb, BinOp.real, UnOp.real, hpw, hu0]
          ring
        | false =>
          rw [dE_pow x a b hna hnb, dE_mulLog x a b hna hnb]
          simp [realVal, hu, hw, hda, hdb, BinOp.real, UnOp.real, hpw, hu0, hu0.ne', Dbl.ofInt, XNum.val?]
    | and => exact hs.elim
    | or => exact hs.elim
    | mod => exact hs.elim

theorem smooth_zeroPowFree {n : ℕ} (ρ : Str → ℝ) (e : Expr (XNum ℝ)) (h : Smooth n ρ e) : e.ZeroPowFree ρ := by
  induction e with
  | num v => trivial
  | var y => trivial
  | un o e ih => exact ih h.1
  | bin o a b iha ihb =>
    cases o with
    | add => exact ⟨by simp, iha h.1, ihb h.2⟩
    | sub => exact ⟨by simp, iha h.1, ihb h.2⟩
    | mul => exact ⟨by simp, iha h.1, ihb h.2⟩
    | div => exact ⟨by simp, iha h.1, ihb h.2.1⟩
    | pow =>
      obtain ⟨h1, h2, u, hu, h⟩ := h
      refine ⟨fun _ hv hz => ?_, iha h1, ihb h2⟩
      rcases h with h | ⟨c, rfl, h⟩ | ⟨_, h, _⟩
      · rw [hu] at hz
        have : u = 0 := by simpa using hz.1
        exact h.ne' this
      · simp [Expr.vars] at hv
      · cases b <;> simp [Expr.isNum] at h
        simp [Expr.vars] at hv
    | and => exact h.elim
    | or => exact h.elim
    | mod => exact h.elim

theorem smooth_num (n : ℕ) (ρ : Str → ℝ) (i : Int) : Smooth n ρ (.num (Dbl.ofInt i)) := ⟨i, rfl⟩

theorem smooth_sq {n : ℕ} {ρ : Str → ℝ} {e : Expr (XNum ℝ)} {u : ℝ} (he : Smooth n ρ e) (hu : realVal ρ e = some u)
    (h : u ≠ 0 ∨ n ≤ 2) : Smooth n ρ (.bin .pow e (.num (Dbl.ofInt 2))) := by
  refine ⟨he, smooth_num n ρ 2, u, hu, .inr (.inl ⟨2, ?_, ?_⟩)⟩
  · simp [Dbl.ofInt]
  · rcases h with h | h
    · exact .inl ⟨h, 2, by simp⟩
    · exact .inr ⟨2, h, by simp⟩

theorem outerD_smooth (n : ℕ) (ρ : Str → ℝ) (o : UnOp) (e : Expr (XNum ℝ)) (u : ℝ) (hu : realVal ρ e = some u)
    (he : Smooth n ρ e) (h : o.smoothAt (n + 1) u) (hs : ¬ (o = .pos ∨ o = .neg)) : Smooth n ρ (outerD o e) := by
  have hsq : ∀ u : ℝ, realPow u 2 = some (u ^ 2) := fun u => realPow_two
  have hvn : ∀ i : Int, realVal ρ (.num (Dbl.ofInt i)) = some (i : ℝ) := fun i => by simp [realVal, Dbl.ofInt, XNum.val?]
  cases o with
  | pos => simp at hs
  | neg => simp at hs
  | sin => exact ⟨he, u, hu, .inl trivial⟩
  | cos => exact ⟨⟨he, u, hu, .inl trivial⟩, Real.sin u, by simp [realVal, hu, UnOp.real], .inl trivial⟩
  | tan =>
    have hc : realVal ρ (.un .cos e) = some (Real.cos u) := by simp [realVal, hu, UnOp.real]
    refine ⟨smooth_num n ρ 1, smooth_sq ⟨he, u, hu, .inl trivial⟩ hc (.inl h), Real.cos u ^ 2, ?_, pow_ne_zero 2 h⟩
    simp [realVal, hu, UnOp.real, BinOp.real, Dbl.ofInt, XNum.val?, hsq]
  | asin =>
    have hsm : Smooth n ρ (.bin .pow e (.num (Dbl.ofInt 2))) := smooth_sq he hu (h.2.2.imp id (by omega))
    have hpos : 0 < 1 - u ^ 2 := by nlinarith [h.1, h.2.1]
    have hv : realVal ρ (.bin .sub (.num (Dbl.ofInt 1)) (.bin .pow e (.num (Dbl.ofInt 2)))) = some (1 - u ^ 2) := by
      simp [realVal, hu, BinOp.real, Dbl.ofInt, XNum.val?, hsq]
    refine ⟨smooth_num n ρ 1, ⟨⟨smooth_num n ρ 1, hsm⟩, _, hv, .inl hpos⟩, √(1 - u ^ 2), ?_, Real.sqrt_ne_zero'.mpr hpos⟩
    have hle : u ^ 2 ≤ 1 := by linarith
    rw [realVal, hv, Option.bind_some, UnOp.real, if_pos hpos.le]
  | acos =>
    have hsm : Smooth n ρ (.bin .pow e (.num (Dbl.ofInt 2))) := smooth_sq he hu (h.2.2.imp id (by omega))
    have hpos : 0 < 1 - u ^ 2 := by nlinarith [h.1, h.2.1]
    have hv : realVal ρ (.bin .sub (.num (Dbl.ofInt 1)) (.bin .pow e (.num (Dbl.ofInt 2)))) = some (1 - u ^ 2) := by
      simp [realVal, hu, BinOp.real, Dbl.ofInt, XNum.val?, hsq]
    refine ⟨smooth_num n ρ (-1), ⟨⟨smooth_num n ρ 1, hsm⟩, _, hv, .inl hpos⟩, √(1 - u ^ 2), ?_, Real.sqrt_ne_zero'.mpr hpos⟩
    rw [realVal, hv, Option.bind_some, UnOp.real, if_pos hpos.le]
  | atan =>
    have hsm : Smooth n ρ (.bin .pow e (.num (Dbl.ofInt 2))) := smooth_sq he hu (h.imp id (by omega))
    refine ⟨smooth_num n ρ 1, ⟨smooth_num n ρ 1, hsm⟩, 1 + u ^ 2, ?_, by positivity⟩
    simp [realVal, hu, BinOp.real, Dbl.ofInt, XNum.val?, hsq]
  | sqrt =>
    have hv : realVal ρ (.un .sqrt e) = some (√u) := by simp [realVal, hu, UnOp.real, (show (0:ℝ) < u from h).le]
    refine ⟨smooth_num n ρ 1, ⟨smooth_num n ρ 2, ⟨he, u, hu, .inl h⟩⟩, 2 * √u, ?_, ?_⟩
    · rw [realVal, hv, hvn]; simp [BinOp.real]
    · have := Real.sqrt_ne_zero'.mpr (show (0:ℝ) < u from h)
      simp [this]
  | log => exact ⟨smooth_num n ρ 1, he, u, hu, ne_of_gt h⟩
  | log2 =>
    refine ⟨smooth_num n ρ 1, ⟨he, Real.log 2, ?_⟩, u * Real.log 2, ?_, ?_⟩
    · simp [Dbl.log, Dbl.ofInt, XNum.mapO, UnOp.real]
    · simp [realVal, hu, BinOp.real, Dbl.log, Dbl.ofInt, XNum.mapO, UnOp.real, XNum.val?]
    · have : Real.log 2 ≠ 0 := by positivity
      exact mul_ne_zero (ne_of_gt h) this
  | log10 =>
    refine ⟨smooth_num n ρ 1, ⟨he, Real.log 10, ?_⟩, u * Real.log 10, ?_, ?_⟩
    · simp [Dbl.log, Dbl.ofInt, XNum.mapO, UnOp.real]
    · simp [realVal, hu, BinOp.real, Dbl.log, Dbl.ofInt, XNum.mapO, UnOp.real, XNum.val?]
    · have : Real.log 10 ≠ 0 := by positivity
      exact mul_ne_zero (ne_of_gt h) this
  | exp => exact ⟨he, u, hu, .inl trivial⟩

/-- One differentiation uses up one order of smoothness. -/
theorem smooth_dE (n : ℕ) (ρ : Str → ℝ) (x : Str) (e : Expr (XNum ℝ)) (hs : Smooth (n + 1) ρ e) : Smooth n ρ (dE x e) := by
  induction e with
  | num v => exact smooth_num n ρ 0
  | var y => simp only [dE]; split <;> exact smooth_num n ρ _
  | un o e ih =>
    obtain ⟨h1, u, hu, h2⟩ := hs
    have hd := ih h1
    have he := smooth_mono (Nat.le_succ n) ρ e h1
    by_cases hsg : o = .pos ∨ o = .neg
    · obtain ⟨w, hw⟩ := smooth_val ρ _ hd
      rcases hsg with rfl | rfl
      · exact ⟨hd, w, hw, .inl trivial⟩
      · exact ⟨hd, w, hw, .inl trivial⟩
    · cases hn : e.isNum with
      | true =>
        have : dE x (.un o e) = .num (Dbl.ofInt 0) := by cases o <;> simp at hsg <;> simp [dE, hn]
        rw [this]
        exact smooth_num n ρ 0
      | false =>
        have h2 : o.smoothAt (n + 1) u := by
          rcases h2 with h2 | ⟨h, _⟩
          · exact h2
          · rw [hn] at h; cases h
        by_cases hv : o = .exp ∧ e.isVar = true
        · obtain ⟨rfl, hv⟩ := hv
          have : dE x (.un .exp e) = .un .exp e := by simp [dE, hn, hv]
          rw [this]
          exact ⟨he, u, hu, .inl trivial⟩
        · rw [dE_un x o e hsg hn hv]
          exact ⟨outerD_smooth n ρ o e u hu he h2 hsg, hd⟩
  | bin o a b iha ihb =>
    cases o with
    | add => simp only [dE]; split; exacts [smooth_num n ρ 0, ⟨iha hs.1, ihb hs.2⟩]
    | sub => simp only [dE]; split; exacts [smooth_num n ρ 0, ⟨iha hs.1, ihb hs.2⟩]
    | mul =>
      have ha := smooth_mono (Nat.le_succ n) ρ a hs.1
      have hb := smooth_mono (Nat.le_succ n) ρ b hs.2
      simp only [dE]
      split
      · exact ⟨ha, ihb hs.2⟩
      · split
        · exact ⟨iha hs.1, hb⟩
        · exact ⟨⟨iha hs.1, hb⟩, ha, ihb hs.2⟩
    | div =>
      have ha := smooth_mono (Nat.le_succ n) ρ a hs.1
      have hb := smooth_mono (Nat.le_succ n) ρ b hs.2.1
      obtain ⟨w, hw, hw0⟩ := hs.2.2
      simp only [dE]
      split
      · exact ⟨iha hs.1, hb, w, hw, hw0⟩
      · refine ⟨⟨⟨iha hs.1, hb⟩, ha, ihb hs.2.1⟩, smooth_sq hb hw (.inl hw0), w ^ 2, ?_, pow_ne_zero 2 hw0⟩
        simp [realVal, hw, BinOp.real, Dbl.ofInt, XNum.val?, realPow_two]
    | pow =>
      have hpw := smooth_mono (Nat.le_succ n) ρ _ hs
      obtain ⟨h1, h2, u, hu, h⟩ := hs
      have ha := smooth_mono (Nat.le_succ n) ρ a h1
      have hb := smooth_mono (Nat.le_succ n) ρ b h2
      cases hnb : b.isNum with
      | true =>
        cases b <;> simp [Expr.isNum] at hnb
        obtain ⟨w, rfl⟩ := h2
        cases hna : a.isNum with
        | true =>
          cases a <;> simp [Expr.isNum] at hna
          exact smooth_num n ρ 0
        | false =>
          have hok : PowOk (n + 1) u w := by
            rcases h with h | ⟨c, hc, h⟩ | ⟨h, _⟩
            · exact .inl h
            · cases hc; exact .inr h
            · rw [hna] at h; cases h
          rw [dE_powNum x a _ hna]
          have hsub : (Arith.sub (XNum.fin w) (Dbl.ofInt 1) : XNum ℝ) = .fin (w - 1) := by
            simp [Arith.sub, Dbl.ofInt, XNum.map2]
          rw [hsub]
          refine ⟨⟨⟨w, rfl⟩, ha, ⟨w - 1, rfl⟩, u, hu, ?_⟩, iha h1⟩
          rcases hok.pred with h | h
          · exact .inl h
          · exact .inr (.inl ⟨w - 1, rfl, h⟩)
      | false =>
        have hu0 : 0 < u := by
          rcases h with h | ⟨c, rfl, h⟩ | ⟨_, h, _⟩
          · exact h
          · simp [Expr.isNum] at hnb
          · rw [hnb] at h; cases h
        cases hna : a.isNum with
        | true =>
          cases a <;> simp [Expr.isNum] at hna
          rw [dE_numPow x b _ hnb]
          exact ⟨⟨hpw, ha, u, hu, .inl hu0⟩, ihb h2⟩
        | false =>
          rw [dE_pow x a b hna hnb, dE_mulLog x a b hna hnb]
          exact ⟨hpw, ⟨ihb h2, ha, u, hu, .inl hu0⟩, hb, ⟨smooth_num n ρ 1, ha, u, hu, hu0.ne'⟩, iha h1⟩
    | and => exact hs.elim
    | or => exact hs.elim
    | mod => exact hs.elim

theorem smooth_hasIntOp {n : ℕ} {ρ : Str → ℝ} (e : Expr (XNum ℝ)) (h : Smooth n ρ e) : e.hasIntOp = false := by
  induction e with
  | num v => rfl
  | var y => rfl
  | un o e ih => exact ih h.1
  | bin o a b iha ihb =>
    cases o with
    | add => simp [Expr.hasIntOp, iha h.1, ihb h.2]
    | sub => simp [Expr.hasIntOp, iha h.1, ihb h.2]
    | mul => simp [Expr.hasIntOp, iha h.1, ihb h.2]
    | div => simp [Expr.hasIntOp, iha h.1, ihb h.2.1]
    | pow => simp [Expr.hasIntOp, iha h.1, ihb h.2.1]
    | and => exact h.elim
    | or => exact h.elim
    | mod => exact h.elim

/-- Literals have the same value everywhere. -/
theorem isNum_val {e : Expr (XNum ℝ)} (h : e.isNum = true) (ρ ρ' : Str → ℝ) : realVal ρ e = realVal ρ' e := by
  cases e <;> simp [Expr.isNum] at h; rfl

theorem smoothAt_eventually (n : ℕ) (o : UnOp) (u : ℝ) (h : o.smoothAt n u) : ∀ᶠ s in 𝓝 u, o.smoothAt n s := by
  cases o with
  | pos => exact .of_forall fun _ => trivial
  | neg => exact .of_forall fun _ => trivial
  | sin => exact .of_forall fun _ => trivial
  | cos => exact .of_forall fun _ => trivial
  | exp => exact .of_forall fun _ => trivial
  | tan => exact Real.continuous_cos.continuousAt.eventually_ne h
  | asin =>
    obtain ⟨h1, h2, h3 | h3⟩ := h
    · filter_upwards [Ioo_mem_nhds h1 h2, isOpen_ne.mem_nhds h3] with s hs hs' using ⟨hs.1, hs.2, .inl hs'⟩
    · filter_upwards [Ioo_mem_nhds h1 h2] with s hs using ⟨hs.1, hs.2, .inr h3⟩
  | acos =>
    obtain ⟨h1, h2, h3 | h3⟩ := h
    · filter_upwards [Ioo_mem_nhds h1 h2, isOpen_ne.mem_nhds h3] with s hs hs' using ⟨hs.1, hs.2, .inl hs'⟩
    · filter_upwards [Ioo_mem_nhds h1 h2] with s hs using ⟨hs.1, hs.2, .inr h3⟩
  | atan =>
    rcases h with h3 | h3
    · filter_upwards [isOpen_ne.mem_nhds h3] with s hs' using .inl hs'
    · exact .of_forall fun s => .inr h3
  | sqrt => exact lt_mem_nhds (show (0:ℝ) < u from h)
  | log => exact lt_mem_nhds (show (0:ℝ) < u from h)
  | log2 => exact lt_mem_nhds (show (0:ℝ) < u from h)
  | log10 => exact lt_mem_nhds (show (0:ℝ) < u from h)

/-- A smooth expression has, near the point and along an axis, a continuous value. -/
theorem smooth_cont {n : ℕ} (hn : 1 ≤ n) (ρ : Str → ℝ) (x : Str) (e : Expr (XNum ℝ)) (hs : Smooth n ρ e)
    (hf : e.NoForeignExp x) (u : ℝ) (hu : realVal ρ e = some u) :
    ∃ f : ℝ → ℝ, (∀ᶠ t in 𝓝 (ρ x), realVal (at_ ρ x t) e = some (f t)) ∧ Tendsto f (𝓝 (ρ x)) (𝓝 u) := by
  obtain ⟨d, _, f, h1, h2⟩ := dE_correct ρ x e (smooth_mono hn ρ e hs) hf
  have hfx : f (ρ x) = u := by
    have := h1.self_of_nhds; rw [at_self, hu] at this; simpa using this.symm
  exact ⟨f, h1, hfx ▸ h2.continuousAt⟩

/-- Smoothness is an open condition along the axis. -/
theorem smooth_eventually {n : ℕ} (hn : 1 ≤ n) (ρ : Str → ℝ) (x : Str) (e : Expr (XNum ℝ)) (hs : Smooth n ρ e)
    (hf : e.NoForeignExp x) : ∀ᶠ t in 𝓝 (ρ x), Smooth n (at_ ρ x t) e := by
  induction e with
  | num v => exact .of_forall fun t => hs
  | var y => exact .of_forall fun t => trivial
  | un o e ih =>
    obtain ⟨h1, u, hu, h2⟩ := hs
    obtain ⟨f, hf1, hf2⟩ := smooth_cont hn ρ x e h1 hf.2 u hu
    rcases h2 with h2 | ⟨h2, h3⟩
    · filter_upwards [ih h1 hf.2, hf1, hf2.eventually (smoothAt_eventually n o u h2)] with t ht1 ht2 ht3
      exact ⟨ht1, f t, ht2, .inl ht3⟩
    · filter_upwards [ih h1 hf.2] with t ht1
      exact ⟨ht1, u, by rw [isNum_val h2 _ ρ, hu], .inr ⟨h2, h3⟩⟩
  | bin o a b iha ihb =>
    cases o with
    | add => filter_upwards [iha hs.1 hf.1, ihb hs.2 hf.2] with t h1 h2 using ⟨h1, h2⟩
    | sub => filter_upwards [iha hs.1 hf.1, ihb hs.2 hf.2] with t h1 h2 using ⟨h1, h2⟩
    | mul => filter_upwards [iha hs.1 hf.1, ihb hs.2 hf.2] with t h1 h2 using ⟨h1, h2⟩
    | div =>
      obtain ⟨w, hw, hw0⟩ := hs.2.2
      obtain ⟨f, hf1, hf2⟩ := smooth_cont hn ρ x b hs.2.1 hf.2 w hw
      filter_upwards [iha hs.1 hf.1, ihb hs.2.1 hf.2, hf1, hf2.eventually (isOpen_ne.mem_nhds hw0)] with t h1 h2 h3 h4
      exact ⟨h1, h2, f t, h3, h4⟩
    | pow =>
      obtain ⟨h1, h2, u, hu, h⟩ := hs
      obtain ⟨f, hf1, hf2⟩ := smooth_cont hn ρ x a h1 hf.1 u hu
      rcases h with h | ⟨c, rfl, h⟩ | ⟨ha, hb, w, r, hw, hr⟩
      · filter_upwards [iha h1 hf.1, ihb h2 hf.2, hf1, hf2.eventually (lt_mem_nhds h)] with t t1 t2 t3 t4
        exact ⟨t1, t2, f t, t3, .inl t4⟩
      · have : PowOk n u c := .inr h
        filter_upwards [iha h1 hf.1, ihb h2 hf.2, hf1, hf2.eventually this.eventually] with t t1 t2 t3 t4
        exact ⟨t1, t2, f t, t3, t4.imp id fun h => .inl ⟨c, rfl, h⟩⟩
      · filter_upwards [iha h1 hf.1, ihb h2 hf.2] with t t1 t2
        exact ⟨t1, t2, u, by rw [isNum_val ha _ ρ, hu], .inr (.inr ⟨ha, hb, w, r, by rw [isNum_val hb _ ρ, hw], hr⟩)⟩
    | and => exact hs.elim
    | or => exact hs.elim
    | mod => exact hs.elim

theorem smooth_iterate (n k : ℕ) (ρ : Str → ℝ) (x : Str) (e : Expr (XNum ℝ)) (hs : Smooth (n + k) ρ e) :
    Smooth n ρ ((dE x)^[k] e) := by
  induction k generalizing e with
  | zero => exact hs
  | succ k ih => exact ih _ (smooth_dE (n + k) ρ x e hs)

end Tom
