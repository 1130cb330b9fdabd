import Verif.Lemmas.RealDiff
/-
Repeated differentiation of powers with natural exponents produces products `0 * u^(-1)`, which have no value where `u` vanishes
but which Simplify replaces by 0.  Here the differentiation rules are proved correct for the value in which a product whose left
factor is the literal 0 counts as 0 (`lval`), and Simplify is shown to turn that value into the value of its result.
-/
namespace Tom
open Classical Filter Topology

/-- The value of an expression; with `D = true` a product whose left factor is the literal 0 has the value 0 whatever the
other factor is. -/
noncomputable def lval (D : Bool) (ρ : Str → ℝ) : Expr (XNum ℝ) → Option ℝ
  | .num v => v.val?
  | .var x => some (ρ x)
  | .un o e => (lval D ρ e).bind o.real
  | .bin o a b =>
    if D = true ∧ o = .mul ∧ a = .num (.fin 0) then some 0
    else (lval D ρ a).bind fun u => (lval D ρ b).bind fun w => o.real u w

theorem lval_un {D : Bool} {ρ : Str → ℝ} {e : Expr (XNum ℝ)} {u : ℝ} (o : UnOp) (h : lval D ρ e = some u) :
    lval D ρ (.un o e) = o.real u := by simp [lval, h]

theorem lval_bin {D : Bool} {ρ : Str → ℝ} {a b : Expr (XNum ℝ)} {u w : ℝ} (o : BinOp) (hu : lval D ρ a = some u)
    (hw : lval D ρ b = some w) : lval D ρ (.bin o a b) = o.real u w := by
  simp only [lval]
  split
  · rename_i h
    obtain ⟨_, rfl, rfl⟩ := h
    have : u = 0 := by simpa [lval, XNum.val?, eq_comm] using hu
    simp [this, BinOp.real]
  · simp [hu, hw]

theorem lval_num (D : Bool) (ρ : Str → ℝ) (u : ℝ) : lval D ρ (.num (.fin u)) = some u := rfl

theorem lval_ofInt (D : Bool) (ρ : Str → ℝ) (i : ℤ) : lval D ρ (.num (Dbl.ofInt i)) = some (i : ℝ) := by
  simp [lval, Dbl.ofInt, XNum.val?]

theorem lval_numOk {D : Bool} {ρ : Str → ℝ} {v : XNum ℝ} {u : ℝ} (h : lval D ρ (.num v) = some u) : v = .fin u := by
  cases v <;> simp_all [lval, XNum.val?]

theorem lval_dead (ρ : Str → ℝ) (b : Expr (XNum ℝ)) : lval true ρ (.bin .mul (.num (.fin 0)) b) = some 0 := by
  simp [lval]

theorem lval_false (ρ : Str → ℝ) (e : Expr (XNum ℝ)) : lval false ρ e = realVal ρ e := by
  induction e with
  | num v => rfl
  | var y => rfl
  | un o e ih => simp [lval, realVal, ih]
  | bin o a b iha ihb => simp [lval, realVal, iha, ihb]

theorem lval_of_realVal (D : Bool) {ρ : Str → ℝ} (e : Expr (XNum ℝ)) {v : ℝ} (h : realVal ρ e = some v) : lval D ρ e = some v := by
  induction e generalizing v with
  | num w => exact h
  | var y => exact h
  | un o e ih =>
    simp only [realVal, Option.bind_eq_some_iff] at h
    obtain ⟨u, hu, hr⟩ := h
    rw [lval_un o (ih hu), hr]
  | bin o a b iha ihb =>
    simp only [realVal, Option.bind_eq_some_iff] at h
    obtain ⟨u, hu, w, hw, hr⟩ := h
    rw [lval_bin o (iha hu) (ihb hw), hr]

/-- smoothness with respect to `lval` -/
def LSmooth (D : Bool) (ρ : Str → ℝ) : Expr (XNum ℝ) → Prop
  | .num v => ∃ u, v = .fin u
  | .var _ => True
  | .un o e => LSmooth D ρ e ∧ ∃ u, lval D ρ e = some u ∧ (o.smoothAt 0 u ∨ (e.isNum = true ∧ ∃ r, o.real u = some r))
  | .bin .add a b => LSmooth D ρ a ∧ LSmooth D ρ b
  | .bin .sub a b => LSmooth D ρ a ∧ LSmooth D ρ b
  | .bin .mul a b => (D = true ∧ a = .num (.fin 0) ∧ b.hasIntOp = false) ∨ (LSmooth D ρ a ∧ LSmooth D ρ b)
  | .bin .div a b => LSmooth D ρ a ∧ LSmooth D ρ b ∧ ∃ w, lval D ρ b = some w ∧ w ≠ 0
  | .bin .pow a b => LSmooth D ρ a ∧ LSmooth D ρ b ∧ ∃ u, lval D ρ a = some u ∧
      (0 < u ∨ (∃ c, b = .num (.fin c) ∧ ((u ≠ 0 ∧ ∃ k : ℤ, c = k) ∨ ∃ k : ℕ, c = k)) ∨
        (a.isNum = true ∧ b.isNum = true ∧ ∃ w r, lval D ρ b = some w ∧ realPow u w = some r))
  | .bin .and _ _ => False
  | .bin .or _ _ => False
  | .bin .mod _ _ => False

theorem smoothAt_zero {n : ℕ} {o : UnOp} {u : ℝ} (h : o.smoothAt n u) : o.smoothAt 1 u := by
  cases o <;> simp_all [UnOp.smoothAt]

theorem LSmooth.val {D : Bool} {ρ : Str → ℝ} (e : Expr (XNum ℝ)) (h : LSmooth D ρ e) : ∃ v, lval D ρ e = some v := by
  induction e with
  | num v => obtain ⟨u, rfl⟩ := h; exact ⟨u, rfl⟩
  | var y => exact ⟨_, rfl⟩
  | un o e ih =>
    obtain ⟨h1, u, hu, h2⟩ := h
    rw [lval_un o hu]
    rcases h2 with h2 | ⟨_, h2⟩
    · exact un_real_of_smooth h2
    · exact h2
  | bin o a b iha ihb =>
    cases o with
    | add => obtain ⟨u, hu⟩ := iha h.1; obtain ⟨w, hw⟩ := ihb h.2; exact ⟨_, lval_bin .add hu hw⟩
    | sub => obtain ⟨u, hu⟩ := iha h.1; obtain ⟨w, hw⟩ := ihb h.2; exact ⟨_, lval_bin .sub hu hw⟩
    | mul =>
      rcases h with ⟨rfl, rfl, _⟩ | h
      · exact ⟨0, lval_dead ρ b⟩
      · obtain ⟨u, hu⟩ := iha h.1; obtain ⟨w, hw⟩ := ihb h.2; exact ⟨_, lval_bin .mul hu hw⟩
    | div =>
      obtain ⟨u, hu⟩ := iha h.1
      obtain ⟨w, hw, h0⟩ := h.2.2
      rw [lval_bin .div hu hw]
      simp [BinOp.real, h0]
    | pow =>
      obtain ⟨h1, h2, u, hu, h⟩ := h
      obtain ⟨w, hw⟩ := ihb h2
      rw [lval_bin .pow hu hw]
      simp only [BinOp.real]
      rcases h with h | ⟨c, rfl, h⟩ | ⟨_, _, w', r, hw', hr⟩
      · exact ⟨_, realPow_of_ok (.inl h)⟩
      · have : w = c := by simpa [lval, XNum.val?, eq_comm] using hw
        subst this
        exact ⟨_, realPow_of_ok (.inr (h.imp id fun ⟨k, hk⟩ => ⟨k, Nat.zero_le k, hk⟩))⟩
      · rw [hw] at hw'; cases hw'; exact ⟨r, hr⟩
    | and => exact h.elim
    | or => exact h.elim
    | mod => exact h.elim

theorem LSmooth.hasIntOp {D : Bool} {ρ : Str → ℝ} (e : Expr (XNum ℝ)) (h : LSmooth D ρ e) : e.hasIntOp = false := by
  induction e with
  | num v => rfl
  | var y => rfl
  | un o e ih => exact ih h.1
  | bin o a b iha ihb =>
    cases o with
    | add => simp [Expr.hasIntOp, iha h.1, ihb h.2]
    | sub => simp [Expr.hasIntOp, iha h.1, ihb h.2]
    | mul =>
      rcases h with ⟨_, rfl, h⟩ | h
      · simp [Expr.hasIntOp, h]
      · simp [Expr.hasIntOp, iha h.1, ihb h.2]
    | div => simp [Expr.hasIntOp, iha h.1, ihb h.2.1]
    | pow => simp [Expr.hasIntOp, iha h.1, ihb h.2.1]
    | and => exact h.elim
    | or => exact h.elim
    | mod => exact h.elim

theorem LSmooth.ofInt (D : Bool) (ρ : Str → ℝ) (i : ℤ) : LSmooth D ρ (.num (Dbl.ofInt i)) := ⟨i, rfl⟩

theorem lsmooth_sq {D : Bool} {ρ : Str → ℝ} {e : Expr (XNum ℝ)} {u : ℝ} (he : LSmooth D ρ e) (hu : lval D ρ e = some u) :
    LSmooth D ρ (.bin .pow e (.num (Dbl.ofInt 2))) :=
  ⟨he, LSmooth.ofInt D ρ 2, u, hu, .inr (.inl ⟨2, by simp [Dbl.ofInt], .inr ⟨2, by simp⟩⟩)⟩

theorem lval_sq {D : Bool} {ρ : Str → ℝ} {e : Expr (XNum ℝ)} {u : ℝ} (hu : lval D ρ e = some u) :
    lval D ρ (.bin .pow e (.num (Dbl.ofInt 2))) = some (u ^ 2) := by
  rw [lval_bin .pow hu (lval_ofInt D ρ 2)]
  simpa [BinOp.real] using realPow_two

/-- the value and the smoothness of the outer derivative -/
theorem louterD {D : Bool} {ρ : Str → ℝ} (o : UnOp) (e : Expr (XNum ℝ)) (u : ℝ) (hu : lval D ρ e = some u) (he : LSmooth D ρ e)
    (h : o.smoothAt 0 u) (hs : ¬ (o = .pos ∨ o = .neg)) :
    lval D ρ (outerD o e) = some (o.dv u) ∧ LSmooth D ρ (outerD o e) := by
  have h1 := lval_ofInt D ρ 1
  cases o with
  | pos => simp at hs
  | neg => simp at hs
  | sin => exact ⟨lval_un .cos hu, he, u, hu, .inl trivial⟩
  | cos =>
    have : lval D ρ (.un .sin e) = some (Real.sin u) := lval_un .sin hu
    exact ⟨lval_un .neg this, ⟨he, u, hu, .inl trivial⟩, _, this, .inl trivial⟩
  | tan =>
    have hc : lval D ρ (.un .cos e) = some (Real.cos u) := lval_un .cos hu
    have hc2 := lval_sq hc
    have h0 : Real.cos u ^ 2 ≠ 0 := pow_ne_zero 2 h
    refine ⟨?_, LSmooth.ofInt D ρ 1, lsmooth_sq ⟨he, u, hu, .inl trivial⟩ hc, _, hc2, h0⟩
    simp only [outerD]
    rw [lval_bin .div h1 hc2]
    simp only [BinOp.real, if_neg h0, UnOp.dv]; simp
  | asin =>
    have hpos : 0 < 1 - u ^ 2 := by nlinarith [h.1, h.2.1]
    have hv : lval D ρ (.bin .sub (.num (Dbl.ofInt 1)) (.bin .pow e (.num (Dbl.ofInt 2)))) = some (1 - u ^ 2) := by
      rw [lval_bin .sub h1 (lval_sq hu)]; simp [BinOp.real]
    have hv2 : lval D ρ (.un .sqrt (.bin .sub (.num (Dbl.ofInt 1)) (.bin .pow e (.num (Dbl.ofInt 2))))) = some (√(1 - u ^ 2)) := by
      rw [lval_un .sqrt hv, UnOp.real, if_pos hpos.le]
    have h0 := Real.sqrt_ne_zero'.mpr hpos
    refine ⟨?_, LSmooth.ofInt D ρ 1, ⟨⟨LSmooth.ofInt D ρ 1, lsmooth_sq he hu⟩, _, hv, .inl hpos⟩, _, hv2, h0⟩
    simp only [outerD]
    rw [lval_bin .div h1 hv2]
    simp only [BinOp.real, if_neg h0, UnOp.dv]; simp
  | acos =>
    have hpos : 0 < 1 - u ^ 2 := by nlinarith [h.1, h.2.1]
    have hv : lval D ρ (.bin .sub (.num (Dbl.ofInt 1)) (.bin .pow e (.num (Dbl.ofInt 2)))) = some (1 - u ^ 2) := by
      rw [lval_bin .sub h1 (lval_sq hu)]; simp [BinOp.real]
    have hv2 : lval D ρ (.un .sqrt (.bin .sub (.num (Dbl.ofInt 1)) (.bin .pow e (.num (Dbl.ofInt 2))))) = some (√(1 - u ^ 2)) := by
      rw [lval_un .sqrt hv, UnOp.real, if_pos hpos.le]
    have h0 := Real.sqrt_ne_zero'.mpr hpos
    refine ⟨?_, LSmooth.ofInt D ρ (-1), ⟨⟨LSmooth.ofInt D ρ 1, lsmooth_sq he hu⟩, _, hv, .inl hpos⟩, _, hv2, h0⟩
    simp only [outerD]
    rw [lval_bin .div (lval_ofInt D ρ (-1)) hv2]
    simp only [BinOp.real, if_neg h0, UnOp.dv]; simp
  | atan =>
    have hv : lval D ρ (.bin .add (.num (Dbl.ofInt 1)) (.bin .pow e (.num (Dbl.ofInt 2)))) = some (1 + u ^ 2) := by
      rw [lval_bin .add h1 (lval_sq hu)]; simp [BinOp.real]
    have h0 : 1 + u ^ 2 ≠ 0 := by positivity
    refine ⟨?_, LSmooth.ofInt D ρ 1, ⟨LSmooth.ofInt D ρ 1, lsmooth_sq he hu⟩, _, hv, h0⟩
    simp only [outerD]
    rw [lval_bin .div h1 hv]
    simp only [BinOp.real, if_neg h0, UnOp.dv]; simp
  | sqrt =>
    have h : 0 < u := h
    have hv : lval D ρ (.un .sqrt e) = some (√u) := by rw [lval_un .sqrt hu, UnOp.real, if_pos h.le]
    have hv2 : lval D ρ (.bin .mul (.num (Dbl.ofInt 2)) (.un .sqrt e)) = some (2 * √u) := by
      rw [lval_bin .mul (lval_ofInt D ρ 2) hv]; simp [BinOp.real]
    have h0 : 2 * √u ≠ 0 := mul_ne_zero two_ne_zero (Real.sqrt_ne_zero'.mpr h)
    refine ⟨?_, LSmooth.ofInt D ρ 1, .inr ⟨LSmooth.ofInt D ρ 2, he, u, hu, .inl h⟩, _, hv2, h0⟩
    simp only [outerD]
    rw [lval_bin .div h1 hv2]
    simp only [BinOp.real, if_neg h0, UnOp.dv]; simp
  | log =>
    have h0 : u ≠ 0 := ne_of_gt h
    refine ⟨?_, LSmooth.ofInt D ρ 1, he, u, hu, h0⟩
    simp only [outerD]
    rw [lval_bin .div h1 hu]
    simp only [BinOp.real, if_neg h0, UnOp.dv]; simp
  | log2 =>
    have hl : (Dbl.log (Dbl.ofInt 2) : XNum ℝ) = .fin (Real.log 2) := by simp [Dbl.log, Dbl.ofInt, XNum.mapO, UnOp.real]
    have hv : lval D ρ (.bin .mul e (.num (Dbl.log (Dbl.ofInt 2)))) = some (u * Real.log 2) := by
      rw [hl, lval_bin .mul hu (lval_num D ρ _)]; rfl
    have h0 : u * Real.log 2 ≠ 0 := mul_ne_zero (ne_of_gt h) (by positivity)
    refine ⟨?_, LSmooth.ofInt D ρ 1, .inr ⟨he, _, hl⟩, _, hv, h0⟩
    simp only [outerD]
    rw [lval_bin .div h1 hv]
    simp only [BinOp.real, if_neg h0, UnOp.dv]; simp
  | log10 =>
    have hl : (Dbl.log (Dbl.ofInt 10) : XNum ℝ) = .fin (Real.log 10) := by simp [Dbl.log, Dbl.ofInt, XNum.mapO, UnOp.real]
    have hv : lval D ρ (.bin .mul e (.num (Dbl.log (Dbl.ofInt 10)))) = some (u * Real.log 10) := by
      rw [hl, lval_bin .mul hu (lval_num D ρ _)]; rfl
    have h0 : u * Real.log 10 ≠ 0 := mul_ne_zero (ne_of_gt h) (by positivity)
    refine ⟨?_, LSmooth.ofInt D ρ 1, .inr ⟨he, _, hl⟩, _, hv, h0⟩
    simp only [outerD]
    rw [lval_bin .div h1 hv]
    simp only [BinOp.real, if_neg h0, UnOp.dv]; simp
  | exp => exact ⟨lval_un .exp hu, he, u, hu, .inl trivial⟩

/-- `HasPartialDeriv` with respect to `lval` -/
def HasLPD (D : Bool) (ρ : Str → ℝ) (x : Str) (e : Expr (XNum ℝ)) (d : ℝ) : Prop :=
  ∃ f : ℝ → ℝ, (∀ᶠ t in 𝓝 (ρ x), lval D (at_ ρ x t) e = some (f t)) ∧ HasDerivAt f d (ρ x)

theorem lval_congr {D : Bool} {ρ ρ' : Str → ℝ} (e : Expr (XNum ℝ)) (h : ∀ y ∈ e.vars, ρ y = ρ' y) : lval D ρ e = lval D ρ' e := by
  induction e with
  | num v => rfl
  | var y => simp [lval, h y (by simp [Expr.vars])]
  | un o e ih => simp only [lval]; rw [ih fun y hy => h y (by simpa [Expr.vars] using hy)]
  | bin o a b iha ihb =>
    simp only [lval]
    rw [iha fun y hy => h y (by simp [Expr.vars, hy]), ihb fun y hy => h y (by simp [Expr.vars, hy])]

theorem lpd_const {D : Bool} {ρ : Str → ℝ} (x : Str) {e : Expr (XNum ℝ)} {v : ℝ} (hx : x ∉ e.vars) (h : lval D ρ e = some v) :
    HasLPD D ρ x e 0 := by
  refine ⟨fun _ => v, .of_forall fun t => ?_, hasDerivAt_const _ _⟩
  rw [← h]
  refine lval_congr e fun y hy => ?_
  have : y ≠ x := fun hxy => hx (hxy ▸ hy)
  simp [at_, this]

theorem lpd_un {D : Bool} {ρ : Str → ℝ} {x : Str} {e : Expr (XNum ℝ)} {d u : ℝ} (o : UnOp) (he : HasLPD D ρ x e d)
    (hu : lval D ρ e = some u) (ho : o.smoothAt 1 u) : HasLPD D ρ x (.un o e) (o.dv u * d) := by
  obtain ⟨f, hf, hd⟩ := he
  have hfx : f (ρ x) = u := by
    have := hf.self_of_nhds; rw [at_self, hu] at this; simpa using this.symm
  obtain ⟨g, hg, hgd⟩ := un_deriv o u ho
  refine ⟨g ∘ f, ?_, HasDerivAt.comp _ (hfx ▸ hgd) hd⟩
  have hc : Tendsto f (𝓝 (ρ x)) (𝓝 u) := hfx ▸ hd.continuousAt
  filter_upwards [hf, hc.eventually hg] with t h1 h2
  rw [lval_un o h1, h2]; rfl

theorem lpd_bin {D : Bool} {ρ : Str → ℝ} {x : Str} {a b : Expr (XNum ℝ)} {da db d u w : ℝ} (o : BinOp) (ha : HasLPD D ρ x a da)
    (hb : HasLPD D ρ x b db) (hu : lval D ρ a = some u) (hw : lval D ρ b = some w)
    (h : ∀ f g : ℝ → ℝ, f (ρ x) = u → g (ρ x) = w → HasDerivAt f da (ρ x) → HasDerivAt g db (ρ x) →
      ∃ k : ℝ → ℝ, (∀ᶠ t in 𝓝 (ρ x), o.real (f t) (g t) = some (k t)) ∧ HasDerivAt k d (ρ x)) :
    HasLPD D ρ x (.bin o a b) d := by
  obtain ⟨f, hf, hfd⟩ := ha
  obtain ⟨g, hg, hgd⟩ := hb
  have hfx : f (ρ x) = u := by
    have := hf.self_of_nhds; rw [at_self, hu] at this; simpa using this.symm
  have hgx : g (ρ x) = w := by
    have := hg.self_of_nhds; rw [at_self, hw] at this; simpa using this.symm
  obtain ⟨k, hk, hkd⟩ := h f g hfx hgx hfd hgd
  refine ⟨k, ?_, hkd⟩
  filter_upwards [hf, hg, hk] with t h1 h2 h3
  rw [lval_bin o h1 h2, h3]

/-- a power with a natural exponent: the derivative is `c * u^(c-1) * u'`, read as 0 for `c = 0` -/
theorem lpd_powNum {D : Bool} {ρ : Str → ℝ} {x : Str} {a : Expr (XNum ℝ)} {da u c : ℝ} (ha : HasLPD D ρ x a da)
    (hu : lval D ρ a = some u) (h : PowOk 0 u c) :
    HasLPD D ρ x (.bin .pow a (.num (.fin c))) ((c * u ^ (c - 1)) * da) := by
  obtain ⟨f, hf', hfd⟩ := ha
  have hf : f (ρ x) = u := by
    have := hf'.self_of_nhds; rw [at_self, hu] at this; simpa using this.symm
  refine ⟨fun t => f t ^ c, ?_, ?_⟩
  · have hc : Tendsto f (𝓝 (ρ x)) (𝓝 u) := hf ▸ hfd.continuousAt
    filter_upwards [hf', hc.eventually h.eventually] with t ht ht'
    rw [lval_bin .pow ht (lval_num D _ c)]
    simp [BinOp.real, realPow_of_ok ht']
  · by_cases hc : c = 0
    · subst hc
      simpa using hasDerivAt_const (ρ x) (1:ℝ)
    · have h1 : u ≠ 0 ∨ 1 ≤ c := by
        rcases h with h | h | ⟨k, hk, rfl⟩
        · exact .inl h.ne'
        · exact .inl h.1
        · right
          have : k ≠ 0 := by simpa using hc
          exact_mod_cast Nat.one_le_iff_ne_zero.mpr this
      have := hfd.rpow_const (p := c) (by rwa [hf])
      rw [hf] at this
      convert this using 1
      ring

theorem lpd_pow {D : Bool} {ρ : Str → ℝ} {x : Str} {a b : Expr (XNum ℝ)} {da db u w : ℝ} (ha : HasLPD D ρ x a da)
    (hb : HasLPD D ρ x b db) (hu : lval D ρ a = some u) (hw : lval D ρ b = some w) (hu0 : 0 < u) :
    HasLPD D ρ x (.bin .pow a b) (u ^ w * (db * Real.log u + w * ((1 / u) * da))) := by
  refine lpd_bin .pow ha hb hu hw fun f g hf hg hfd hgd => ⟨fun t => f t ^ g t, ?_, ?_⟩
  · have hc : ∀ᶠ t in 𝓝 (ρ x), 0 < f t := hfd.continuousAt.eventually (lt_mem_nhds (by rwa [hf]))
    filter_upwards [hc] with t ht
    simp [BinOp.real, realPow, ht]
  · have := hfd.rpow hgd (by rwa [hf])
    rw [hf, hg, Real.rpow_sub_one hu0.ne'] at this
    convert this using 1
    field_simp
    ring

theorem lpd_div {D : Bool} {ρ : Str → ℝ} {x : Str} {a b : Expr (XNum ℝ)} {da db u w : ℝ} (ha : HasLPD D ρ x a da)
    (hb : HasLPD D ρ x b db) (hu : lval D ρ a = some u) (hw : lval D ρ b = some w) (hw0 : w ≠ 0) :
    HasLPD D ρ x (.bin .div a b) ((da * w - u * db) / w ^ 2) := by
  refine lpd_bin .div ha hb hu hw fun f g hf hg hfd hgd => ⟨fun t => f t / g t, ?_, ?_⟩
  · have hc : ∀ᶠ t in 𝓝 (ρ x), g t ≠ 0 := hgd.continuousAt.eventually_ne (by rwa [hg])
    filter_upwards [hc] with t ht
    simp [BinOp.real, ht]
  · have := hfd.div hgd (by rwa [hg])
    rw [hf, hg] at this
    exact this

/-- One differentiation: the derivative expression has as `lval` the derivative. -/
theorem lsmooth_dE {ρ : Str → ℝ} (x : Str) (e : Expr (XNum ℝ)) (hs : LSmooth true ρ e) (hf : e.NoForeignExp x) :
    LSmooth true ρ (dE x e) ∧ ∃ d, lval true ρ (dE x e) = some d ∧ HasLPD true ρ x e d := by
  induction e with
  | num v =>
    obtain ⟨u, rfl⟩ := hs
    exact ⟨LSmooth.ofInt true ρ 0, 0, by simpa [dE] using lval_ofInt true ρ 0, lpd_const x (by simp [Expr.vars]) rfl⟩
  | var y =>
    by_cases hxy : y = x
    · subst hxy
      refine ⟨by simpa [dE] using LSmooth.ofInt true ρ 1, 1, by simpa [dE] using lval_ofInt true ρ 1, id, ?_, hasDerivAt_id _⟩
      exact .of_forall fun t => by simp [lval, at_]
    · refine ⟨by simpa [dE, hxy] using LSmooth.ofInt true ρ 0, 0, by simpa [dE, hxy] using lval_ofInt true ρ 0,
        lpd_const (v := ρ y) x (by simp [Expr.vars, Ne.symm hxy]) rfl⟩
  | un o e ih =>
    have hval := LSmooth.val _ hs
    obtain ⟨h1, u, hu, h2⟩ := hs
    obtain ⟨hsd, d, hd, hp⟩ := ih h1 hf.2
    by_cases hsg : o = .pos ∨ o = .neg
    · have := lpd_un o hp hu (by rcases hsg with rfl | rfl <;> trivial)
      rcases hsg with rfl | rfl
      · exact ⟨⟨hsd, d, hd, .inl trivial⟩, d, lval_un .pos hd, by simpa [UnOp.dv] using this⟩
      · exact ⟨⟨hsd, d, hd, .inl trivial⟩, -d, lval_un .neg hd, by simpa [UnOp.dv] using this⟩
    · cases hn : e.isNum with
      | true =>
        obtain ⟨v, hv⟩ := hval
        have hde : dE x (.un o e) = .num (Dbl.ofInt 0) := by cases o <;> simp at hsg <;> simp [dE, hn]
        rw [hde]
        refine ⟨LSmooth.ofInt true ρ 0, 0, by simpa using lval_ofInt true ρ 0, lpd_const x ?_ hv⟩
        cases e <;> simp [Expr.isNum] at hn; simp [Expr.vars]
      | false =>
        have h2 : o.smoothAt 0 u := by
          rcases h2 with h2 | ⟨h, _⟩
          · exact h2
          · rw [hn] at h; cases h
        by_cases hv : o = .exp ∧ e.isVar = true
        · obtain ⟨rfl, hv⟩ := hv
          cases e <;> simp [Expr.isVar] at hv
          rename_i y
          have hyx : y = x := hf.1 rfl y rfl
          subst hyx
          have hu' : ρ y = u := by simpa [lval] using hu
          have hpy : HasLPD true ρ y (.var y) 1 := ⟨id, .of_forall fun t => by simp [lval, at_], hasDerivAt_id _⟩
          have := lpd_un .exp hpy hu trivial
          have hde : dE y (.un .exp (.var y)) = (.un .exp (.var y) : Expr (XNum ℝ)) := by simp [dE, Expr.isNum, Expr.isVar]
          rw [hde]
          exact ⟨⟨trivial, u, hu, .inl trivial⟩, Real.exp u, lval_un .exp hu, by simpa [UnOp.dv] using this⟩
        · rw [dE_un x o e hsg hn hv]
          obtain ⟨ho1, ho2⟩ := louterD o e u hu h1 h2 hsg
          exact ⟨.inr ⟨ho2, hsd⟩, o.dv u * d, lval_bin .mul ho1 hd, lpd_un o hp hu (smoothAt_zero h2)⟩
  | bin o a b iha ihb =>
    have hval := LSmooth.val _ hs
    have hz : lval true ρ (.num (Dbl.ofInt 0)) = some 0 := by simpa using lval_ofInt true ρ 0
    cases o with
    | add =>
      obtain ⟨hsa, da, hda, hpa⟩ := iha hs.1 hf.1
      obtain ⟨hsb, db, hdb, hpb⟩ := ihb hs.2 hf.2
      obtain ⟨u, hu⟩ := LSmooth.val _ hs.1
      obtain ⟨w, hw⟩ := LSmooth.val _ hs.2
      have hp : HasLPD true ρ x (.bin .add a b) (da + db) :=
        lpd_bin .add hpa hpb hu hw fun f g _ _ hfd hgd => ⟨fun t => f t + g t, .of_forall fun t => rfl, hfd.add hgd⟩
      simp only [dE]
      split
      · rename_i hn
        obtain ⟨v, hv⟩ := hval
        refine ⟨LSmooth.ofInt true ρ 0, 0, hz, lpd_const x ?_ hv⟩
        cases a <;> simp [Expr.isNum] at hn
        cases b <;> simp [Expr.isNum] at hn
        simp [Expr.vars]
      · exact ⟨⟨hsa, hsb⟩, _, lval_bin .add hda hdb, hp⟩
    | sub =>
      obtain ⟨hsa, da, hda, hpa⟩ := iha hs.1 hf.1
      obtain ⟨hsb, db, hdb, hpb⟩ := ihb hs.2 hf.2
      obtain ⟨u, hu⟩ := LSmooth.val _ hs.1
      obtain ⟨w, hw⟩ := LSmooth.val _ hs.2
      have hp : HasLPD true ρ x (.bin .sub a b) (da - db) :=
        lpd_bin .sub hpa hpb hu hw fun f g _ _ hfd hgd => ⟨fun t => f t - g t, .of_forall fun t => rfl, hfd.sub hgd⟩
      simp only [dE]
      split
      · rename_i hn
        obtain ⟨v, hv⟩ := hval
        refine ⟨LSmooth.ofInt true ρ 0, 0, hz, lpd_const x ?_ hv⟩
        cases a <;> simp [Expr.isNum] at hn
        cases b <;> simp [Expr.isNum] at hn
        simp [Expr.vars]
      · exact ⟨⟨hsa, hsb⟩, _, lval_bin .sub hda hdb, hp⟩
    | mul =>
      rcases hs with ⟨_, rfl, hio⟩ | hs
      · have hde : dE x (.bin .mul (.num (.fin 0)) b) = (.bin .mul (.num (.fin 0)) (dE x b) : Expr (XNum ℝ)) := by
          simp [dE, Expr.isNum]
        rw [hde]
        exact ⟨.inl ⟨rfl, rfl, dE_hasIntOp x b hio⟩, 0, lval_dead ρ _,
          fun _ => 0, .of_forall fun t => lval_dead _ _, hasDerivAt_const _ _⟩
      obtain ⟨hsa, da, hda, hpa⟩ := iha hs.1 hf.1
      obtain ⟨hsb, db, hdb, hpb⟩ := ihb hs.2 hf.2
      obtain ⟨u, hu⟩ := LSmooth.val _ hs.1
      obtain ⟨w, hw⟩ := LSmooth.val _ hs.2
      have hp : HasLPD true ρ x (.bin .mul a b) (da * w + u * db) :=
        lpd_bin .mul hpa hpb hu hw fun f g hf hg hfd hgd =>
          ⟨fun t => f t * g t, .of_forall fun t => rfl, by have := hfd.mul hgd; rwa [hf, hg] at this⟩
      simp only [dE]
      split
      · rename_i hn
        refine ⟨.inr ⟨hs.1, hsb⟩, _, lval_bin .mul hu hdb, ?_⟩
        cases a <;> simp [Expr.isNum] at hn
        have : da = 0 := by simpa [dE, hz, eq_comm] using hda
        simpa [this] using hp
      · split
        · rename_i hn
          refine ⟨.inr ⟨hsa, hs.2⟩, _, lval_bin .mul hda hw, ?_⟩
          cases b <;> simp [Expr.isNum] at hn
          have : db = 0 := by simpa [dE, hz, eq_comm] using hdb
          simpa [this] using hp
        · have e1 : lval true ρ (.bin .mul (dE x a) b) = some (da * w) := lval_bin .mul hda hw
          have e2 : lval true ρ (.bin .mul a (dE x b)) = some (u * db) := lval_bin .mul hu hdb
          exact ⟨⟨.inr ⟨hsa, hs.2⟩, .inr ⟨hs.1, hsb⟩⟩, _, lval_bin .add e1 e2, hp⟩
    | div =>
      obtain ⟨hsa, da, hda, hpa⟩ := iha hs.1 hf.1
      obtain ⟨hsb, db, hdb, hpb⟩ := ihb hs.2.1 hf.2
      obtain ⟨u, hu⟩ := LSmooth.val _ hs.1
      obtain ⟨w, hw, hw0⟩ := hs.2.2
      have hp := lpd_div hpa hpb hu hw hw0
      simp only [dE]
      split
      · rename_i hn
        refine ⟨⟨hsa, hs.2.1, w, hw, hw0⟩, da / w, ?_, ?_⟩
        · rw [lval_bin .div hda hw]; simp [BinOp.real, hw0]
        · cases b <;> simp [Expr.isNum] at hn
          have : db = 0 := by simpa [dE, hz, eq_comm] using hdb
          rw [this] at hp
          convert hp using 1
          field_simp
          ring
      · have e1 : lval true ρ (.bin .mul (dE x a) b) = some (da * w) := lval_bin .mul hda hw
        have e2 : lval true ρ (.bin .mul a (dE x b)) = some (u * db) := lval_bin .mul hu hdb
        have e3 : lval true ρ (.bin .sub (.bin .mul (dE x a) b) (.bin .mul a (dE x b))) = some (da * w - u * db) :=
          lval_bin .sub e1 e2
        have e4 := lval_sq hw
        have h0 : w ^ 2 ≠ 0 := pow_ne_zero 2 hw0
        refine ⟨⟨⟨.inr ⟨hsa, hs.2.1⟩, .inr ⟨hs.1, hsb⟩⟩, lsmooth_sq hs.2.1 hw, _, e4, h0⟩, _, ?_, hp⟩
        rw [lval_bin .div e3 e4]
        simp only [BinOp.real, if_neg h0]
    | pow =>
      have hpw := hs
      obtain ⟨h1, h2, u, hu, h⟩ := hs
      obtain ⟨hsa, da, hda, hpa⟩ := iha h1 hf.1
      obtain ⟨hsb, db, hdb, hpb⟩ := ihb h2 hf.2
      obtain ⟨w, hw⟩ := LSmooth.val _ h2
      cases hnb : b.isNum with
      | true =>
        cases b <;> simp [Expr.isNum] at hnb
        have := lval_numOk hw
        subst this
        cases hna : a.isNum with
        | true =>
          cases a <;> simp [Expr.isNum] at hna
          obtain ⟨v, hv⟩ := hval
          exact ⟨LSmooth.ofInt true ρ 0, 0, hz, lpd_const x (by simp [Expr.vars]) hv⟩
        | false =>
          have hok : PowOk 0 u w := by
            rcases h with h | ⟨c, hc, h⟩ | ⟨h, _⟩
            · exact .inl h
            · cases hc; exact .inr (h.imp id fun ⟨k, hk⟩ => ⟨k, Nat.zero_le k, hk⟩)
            · rw [hna] at h; cases h
          have hp := lpd_powNum hpa hu hok
          rw [dE_powNum x a _ hna]
          have hsub : (Arith.sub (XNum.fin w) (Dbl.ofInt 1) : XNum ℝ) = .fin (w - 1) := by
            simp [Arith.sub, Dbl.ofInt, XNum.map2]
          rw [hsub]
          by_cases hw0 : w = 0
          · subst hw0
            refine ⟨.inr ⟨.inl ⟨rfl, rfl, ?_⟩, hsa⟩, 0 * da, lval_bin .mul (lval_dead ρ _) hda, by simpa using hp⟩
            simp [Expr.hasIntOp, LSmooth.hasIntOp _ h1]
          · have hok' : PowOk 0 u (w - 1) := by
              rcases hok with h' | ⟨h', k, rfl⟩ | ⟨k, hk, rfl⟩
              · exact .inl h'
              · exact .inr (.inl ⟨h', k - 1, by simp⟩)
              · have : k ≠ 0 := by simpa using hw0
                exact .inr (.inr ⟨k - 1, by omega, by rw [Nat.cast_sub (by omega)]; simp⟩)
            have e1 : lval true ρ (.bin .pow a (.num (.fin (w - 1)))) = some (u ^ (w - 1)) := by
              rw [lval_bin .pow hu (lval_num true ρ _)]
              exact realPow_of_ok hok'
            have e2 : lval true ρ (.bin .mul (.num (.fin w)) (.bin .pow a (.num (.fin (w - 1))))) = some (w * u ^ (w - 1)) :=
              lval_bin .mul (lval_num true ρ w) e1
            refine ⟨.inr ⟨.inr ⟨⟨w, rfl⟩, h1, ⟨w - 1, rfl⟩, u, hu, ?_⟩, hsa⟩, _, lval_bin .mul e2 hda, hp⟩
            rcases hok' with h | h
            · exact .inl h
            · exact .inr (.inl ⟨w - 1, rfl, h.imp id fun ⟨k, _, hk⟩ => ⟨k, hk⟩⟩)
      | false =>
        have hu0 : 0 < u := by
          rcases h with h | ⟨c, rfl, h⟩ | ⟨_, h, _⟩
          · exact h
          · simp [Expr.isNum] at hnb
          · rw [hnb] at h; cases h
        have hp := lpd_pow hpa hpb hu hw hu0
        have e0 : lval true ρ (.bin .pow a b) = some (u ^ w) := by
          rw [lval_bin .pow hu hw]; exact realPow_of_ok (.inl hu0)
        have el : lval true ρ (.un .log a) = some (Real.log u) := by
          rw [lval_un .log hu]; simp [UnOp.real, hu0]
        cases hna : a.isNum with
        | true =>
          cases a <;> simp [Expr.isNum] at hna
          rw [dE_numPow x b _ hnb]
          have : da = 0 := by simpa [dE, hz, eq_comm] using hda
          have e2 := lval_bin .mul e0 el
          refine ⟨.inr ⟨.inr ⟨hpw, h1, u, hu, .inl hu0⟩, hsb⟩, _, lval_bin .mul (u := u ^ w * Real.log u) e2 hdb, ?_⟩
          rw [this] at hp
          convert hp using 1
          ring
        | false =>
          rw [dE_pow x a b hna hnb, dE_mulLog x a b hna hnb]
          have e1 : lval true ρ (.bin .mul (dE x b) (.un .log a)) = some (db * Real.log u) := lval_bin .mul hdb el
          have e2 : lval true ρ (.bin .div (.num (Dbl.ofInt 1)) a) = some (1 / u) := by
            rw [lval_bin .div (lval_ofInt true ρ 1) hu]; simp [BinOp.real, hu0.ne']
          have e3 : lval true ρ (.bin .mul (.bin .div (.num (Dbl.ofInt 1)) a) (dE x a)) = some (1 / u * da) := lval_bin .mul e2 hda
          have e4 : lval true ρ (.bin .mul b (.bin .mul (.bin .div (.num (Dbl.ofInt 1)) a) (dE x a))) = some (w * (1 / u * da)) :=
            lval_bin .mul hw e3
          have e5 : lval true ρ (.bin .add (.bin .mul (dE x b) (.un .log a))
              (.bin .mul b (.bin .mul (.bin .div (.num (Dbl.ofInt 1)) a) (dE x a)))) =
              some (db * Real.log u + w * (1 / u * da)) := lval_bin .add e1 e4
          exact ⟨.inr ⟨hpw, .inr ⟨hsb, h1, u, hu, .inl hu0⟩,
            .inr ⟨h2, .inr ⟨⟨LSmooth.ofInt true ρ 1, h1, u, hu, hu0.ne'⟩, hsa⟩⟩⟩, _, lval_bin .mul e0 e5, hp⟩
    | and => exact hs.elim
    | or => exact hs.elim
    | mod => exact hs.elim

theorem lsmooth_iterate (ρ : Str → ℝ) (x : Str) (k : ℕ) (e : Expr (XNum ℝ)) (hs : LSmooth true ρ e) (hf : e.NoForeignExp x) :
    LSmooth true ρ ((dE x)^[k] e) := by
  induction k generalizing e with
  | zero => exact hs
  | succ k ih => exact ih _ (lsmooth_dE x e hs hf).1 (dE_noForeignExp x e hf)

end Tom
