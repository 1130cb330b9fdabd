import Verif.Spec.DoubleDiff
import Verif.Props.RealDiff
import Verif.Props.DoubleSimplify
import Verif.Props.RoundingCases
/-
C96: derivatives in IEEE doubles.
-/
namespace Tom
namespace Double
variable {L : Libm}

theorem toReal_is {x : Double L} {q : ℚ} (h : x.Is q) : x.toReal = .fin (q : ℝ) := by
  have h1 : Dbl.isInvalid x = false := h.1
  rw [toReal, if_neg (by simp [h1]), h.2]

theorem toReal_ofInt (i : ℤ) (h : |i| ≤ 2 ^ 53) : (Dbl.ofInt i : Double L).toReal = (Dbl.ofInt i : XNum ℝ) := by
  rw [toReal_is (is_ofInt h)]
  show XNum.fin _ = XNum.fin _
  norm_num

theorem isNum_mapNum {α β : Type} (f : α → β) (e : Expr α) : (e.mapNum f).isNum = e.isNum := by cases e <;> rfl
theorem isVar_mapNum {α β : Type} (f : α → β) (e : Expr α) : (e.mapNum f).isVar = e.isVar := by cases e <;> rfl

theorem hasIntOp_mapNum {α β : Type} (f : α → β) (e : Expr α) : (e.mapNum f).hasIntOp = e.hasIntOp := by
  induction e with
  | num _ => rfl
  | var _ => rfl
  | un o e ih => exact ih
  | bin o a b iha ihb => simp only [Expr.mapNum, Expr.hasIntOp, iha, ihb]

theorem mapNum_dE (x : Str) (e : Expr (Double L)) (h : e.ExactRules) :
    (dE x e).mapNum toReal = dE x (e.mapNum toReal) := by
  have h0 := toReal_ofInt (L := L) 0 (by norm_num)
  have h1 := toReal_ofInt (L := L) 1 (by norm_num)
  have h2 := toReal_ofInt (L := L) 2 (by norm_num)
  have hm := toReal_ofInt (L := L) (-1) (by norm_num)
  induction e with
  | num v => simp only [dE, Expr.mapNum, h0]
  | var y => simp only [dE, Expr.mapNum]; split <;> simp only [h0, h1]
  | un o e ih =>
    have ih := ih h.2.2
    have g2 := h.1
    have g10 := h.2.1
    cases o <;> simp only [dE, Expr.mapNum, ih, isNum_mapNum, isVar_mapNum, ne_eq, not_true_eq_false, reduceCtorEq] at g2 g10 ⊢ <;>
      (repeat' split) <;> simp only [Expr.mapNum, ih, h0, h1, h2, hm]
  | bin o a b iha ihb =>
    have iha := iha h.1
    have ihb := ihb h.2.1
    cases o
    case pow =>
      have hc := h.2.2 rfl
      cases b with
      | num c =>
        have hs : (Arith.sub c (Dbl.ofInt 1) : Double L).toReal = Arith.sub c.toReal (Dbl.ofInt 1) := by
          have hd := hc c rfl
          have hci : c.Is c.raw.toRat := is_of_valid h.2.1
          have := sub_is hci (is_ofInt (L := L) (i := 1) (by norm_num)) (by push_cast; rw [rnd_of_isDouble hd]; exact isDouble_lt hd)
          rw [toReal_is this, toReal_is hci]
          push_cast
          rw [rnd_of_isDouble hd]
          show XNum.fin _ = XNum.fin _
          push_cast; rfl
        cases a <;> simp only [dE, Expr.mapNum, h0] <;> simp only [Expr.mapNum] at iha <;> first | rw [iha, hs] | rw [hs, apply_ite toReal, h0, h1]
      | _ => cases a <;> simp only [dE, Expr.mapNum] at iha ihb ⊢ <;> simp only [iha, ihb, h1]
    all_goals
      simp only [dE, Expr.mapNum, isNum_mapNum] <;> (repeat' split) <;> simp only [Expr.mapNum, iha, ihb, h0, h2]

theorem noZeroPow_dE (env : Str → Res (Double L)) (x : Str) (e : Expr (Double L)) (h : e.NoZeroPow env) : (dE x e).NoZeroPow env := by
  induction e with
  | num v => trivial
  | var y => trivial
  | un o e ih =>
    have ih := ih h
    replace h : e.NoZeroPow env := h
    cases o <;> simp only [dE] <;> (repeat' split) <;> simp [Expr.NoZeroPow, Expr.vars, ih, h]
  | bin o a b iha ihb =>
    have iha := iha h.2.1
    have ihb := ihb h.2.2
    have ha := h.2.1
    have hb := h.2.2
    cases o
    case pow =>
      have hp := h.1
      cases b with
      | num c => cases a <;> simp only [dE] <;> simp [Expr.NoZeroPow, Expr.vars] at iha ha ⊢ <;> simp_all
      | _ => cases a <;> simp only [dE, Expr.NoZeroPow] at iha ihb ha hb ⊢ <;> simp_all
    all_goals
      simp only [dE] <;> (repeat' split) <;> simp [Expr.NoZeroPow, Expr.vars, iha, ihb, ha, hb]

theorem enclosure_nums (δ : ℝ) (ρ : Str → ℝ) (e : Expr (Double L)) (w : ℝ × ℝ) (h : enclosure δ ρ e = some w) :
    ∀ v ∈ e.nums, Dbl.isInvalid v = false := by
  induction e generalizing w with
  | num x =>
    intro v hv
    simp only [enclosure] at h
    split at h
    · cases h
    · rename_i hx
      simp only [Expr.nums, List.mem_singleton] at hv
      subst hv
      simpa using hx
  | var s => simp [Expr.nums]
  | un o e ih =>
    simp only [enclosure] at h
    obtain ⟨w', h1, -⟩ := Option.bind_eq_some_iff.mp h
    exact ih w' h1
  | bin o a b iha ihb =>
    simp only [enclosure] at h
    obtain ⟨w1, h1, h2⟩ := Option.bind_eq_some_iff.mp h
    obtain ⟨w2, h3, -⟩ := Option.bind_eq_some_iff.mp h2
    intro v hv
    rcases List.mem_append.mp hv with hv | hv
    · exact iha w1 h1 v hv
    · exact ihb w2 h3 v hv

theorem is_of_eq {a b : Double L} {p : ℚ} (ha : a.Is p) (h : Arith.eq a b = true) : b.Is p := by
  have hr : F64.eq a.raw b.raw = true := h
  have hv : b.raw.isInvalid = false := by
    rcases is_cases ha with ⟨rfl, s, hs⟩ | ⟨hp, hs⟩ <;> rw [hs] at hr <;> cases hb : b.raw <;> rw [hb] at hr <;> first | rfl | cases hr
  have hb : b.Is b.raw.toRat := is_of_valid hv
  have := eq_is ha hb
  rw [h] at this
  rwa [(of_decide_eq_true this.symm : p = b.raw.toRat)]

/-- a power with a variable in its exponent leaves the logarithm of its base in the derivative: where that has a value, the base is not zero -/
theorem noZeroPow_of_deriv {P : Expr (Double L) → Prop} {env : Str → Res (Double L)} (hun : ∀ o e, P (.un o e) → P e)
    (hbin : ∀ o a b, P (.bin o a b) → P a ∧ P b) (hlog : ∀ a, P (.un .log a) → ∀ y, a.eval true env = .ok y → ¬ y.Is 0) (x : Str)
    (e : Expr (Double L)) (hint : e.hasIntOp = false) (h : P (dE x e)) : e.NoZeroPow env := by
  induction e with
  | num v => trivial
  | var y => trivial
  | un o e ih =>
    have hnum : e.isNum = true → e.NoZeroPow env := by intro h; cases e <;> simp [Expr.isNum] at h; trivial
    have hvar : e.isVar = true → e.NoZeroPow env := by intro h; cases e <;> simp [Expr.isVar] at h; trivial
    show e.NoZeroPow env
    replace ih := ih hint
    cases o <;> simp only [dE] at h <;> (repeat' split at h) <;>
      first
        | exact ih (hun _ _ h)
        | exact ih (hbin _ _ _ h).2
        | exact hnum (by assumption)
        | exact hvar (by assumption)
  | bin o a b iha ihb =>
    have hnum : ∀ e : Expr (Double L), e.isNum = true → e.NoZeroPow env := by intro e h; cases e <;> simp [Expr.isNum] at h; trivial
    simp only [Expr.hasIntOp, Bool.or_eq_false_iff] at hint
    replace iha := iha hint.1.2
    replace ihb := ihb hint.2
    cases o
    case pow =>
      cases b with
      | num c =>
        refine ⟨fun _ hv => absurd rfl hv, ?_, trivial⟩
        cases a with
        | num _ => trivial
        | var _ => trivial
        | un _ _ => exact iha (hbin _ _ _ h).2
        | bin _ _ _ => exact iha (hbin _ _ _ h).2
      | _ =>
        cases a with
        | num c =>
          simp only [dE] at h ihb
          refine ⟨fun _ _ ⟨p, q, h1, _, h3, _⟩ => hlog _ (hbin _ _ _ (hbin _ _ _ h).1).2 p h1 h3, trivial, ihb (hbin _ _ _ h).2⟩
        | _ =>
          have h1 := (hbin _ _ _ h).2
          have h2 := (hbin _ _ _ h1).1
          have h3 := (hbin _ _ _ (hbin _ _ _ (hbin _ _ _ h1).2).2).2
          exact ⟨fun _ _ ⟨p, q, k1, _, k3, _⟩ => hlog _ (hbin _ _ _ h2).2 p k1 k3, iha h3, ihb (hbin _ _ _ h2).1⟩
    case add =>
      refine ⟨(by simp), ?_⟩
      simp only [dE] at h
      split at h
      · rename_i hn; exact ⟨hnum _ hn.1, hnum _ hn.2⟩
      · exact ⟨iha (hbin _ _ _ h).1, ihb (hbin _ _ _ h).2⟩
    case sub =>
      refine ⟨(by simp), ?_⟩
      simp only [dE] at h
      split at h
      · rename_i hn; exact ⟨hnum _ hn.1, hnum _ hn.2⟩
      · exact ⟨iha (hbin _ _ _ h).1, ihb (hbin _ _ _ h).2⟩
    case mul =>
      refine ⟨(by simp), ?_⟩
      simp only [dE] at h
      split at h
      · rename_i hn; exact ⟨hnum _ hn, ihb (hbin _ _ _ h).2⟩
      · split at h
        · rename_i hn; exact ⟨iha (hbin _ _ _ h).1, hnum _ hn⟩
        · exact ⟨iha (hbin _ _ _ (hbin _ _ _ h).1).1, ihb (hbin _ _ _ (hbin _ _ _ h).2).2⟩
    case div =>
      refine ⟨(by simp), ?_⟩
      simp only [dE] at h
      split at h
      · rename_i hn; exact ⟨iha (hbin _ _ _ h).1, hnum _ hn⟩
      · have h1 := (hbin _ _ _ h).1
        exact ⟨iha (hbin _ _ _ (hbin _ _ _ h1).1).1, ihb (hbin _ _ _ (hbin _ _ _ h1).2).2⟩
    all_goals simp at hint

/-- an enclosed logarithm has an argument that is not computed as zero -/
theorem enclosure_log {δ : ℝ} (hW : L.Within δ) {env : Str → Res (Double L)} {ρ : Str → ℝ} {a : Expr (Double L)}
    (henv : ∀ s ∈ a.vars, ∃ x p, env s = .ok x ∧ x.Is p ∧ ρ s = ((p : ℚ) : ℝ)) {w : ℝ × ℝ}
    (h : enclosure δ ρ (.un .log a) = some w) (y : Double L) (hy : a.eval true env = .ok y) : ¬ y.Is 0 := by
  intro h0
  simp only [enclosure] at h
  obtain ⟨⟨v, E⟩, h1, h⟩ := Option.bind_eq_some_iff.mp h
  obtain ⟨r, h2, h⟩ := Option.bind_eq_some_iff.mp h
  obtain ⟨D, h3, h⟩ := Option.bind_eq_some_iff.mp h
  obtain ⟨x, p, e1, e2, e3⟩ := C76_enclosure δ hW true env ρ a henv v E h1
  rw [hy] at e1
  obtain rfl := Res.ok.inj e1
  have hp : p = 0 := e2.2.symm.trans h0.2
  subst hp
  simp only [UnOp.spread] at h3
  split at h3
  · rename_i hlt
    rw [Rat.cast_zero, zero_sub, abs_neg] at e3
    exact absurd (lt_of_le_of_lt ((le_abs_self v).trans e3) hlt) (lt_irrefl _)
  · cases h3

/-- C96, partial: let the derivative of an expression, written out by the rules, have the exact value `d` at a point, with the error bound
`E` of C76 for evaluating it with doubles.  Then `Diff` returns an expression, substituting the point and `Vpa` give a number, `d` is the
partial derivative of the function of real numbers the expression denotes, and the number computed differs from it by at most
`E`.  Missing: expressions for which the rules produce rounded literals (`ExactRules`), `exp(y)` of another variable (C26_false). -/
theorem C96_partial (δ : ℝ) (hW : L.Within δ) (hF : L.AnnexF) (cfg : Config (Double L)) (hs : cfg.throwOnInvalidValue = true)
    (e : Expr (Double L)) (x : Str) (values : List (Str × Double L)) (hval : ∀ b ∈ values, Dbl.isInvalid b.2 = false) (ρ : Str → ℝ)
    (hρ : ∀ s ∈ e.vars, ∃ y p, values.lookup s = some y ∧ y.Is p ∧ ρ s = ((p : ℚ) : ℝ))
    (hx : e.ExactRules) (hfe : e.NoForeignExp x) (hsm : Smooth 1 ρ (e.mapNum toReal))
    (d E : ℝ) (h : enclosure δ ρ (dE x e) = some (d, E)) :
    HasPartialDeriv ρ x (e.mapNum toReal) d ∧
    ∃ t y p, diff cfg (embed e) x 1 = .ok t ∧ (subsValues t values >>= fun t => vpa cfg t) = .ok y ∧ y.Is p ∧
      |((p : ℚ) : ℝ) - d| ≤ E := by
  have hreal := C76_exact_value δ ρ (dE x e) d E h
  rw [mapNum_dE x e hx] at hreal
  have hfe' : (e.mapNum toReal).NoForeignExp x := by
    clear h hreal hsm hx hρ
    induction e with
    | num _ => trivial
    | var _ => trivial
    | un o e ih =>
      refine ⟨fun ho y hy => hfe.1 ho y ?_, ih hfe.2⟩
      cases e <;> simp_all [Expr.mapNum]
    | bin o a b iha ihb => exact ⟨iha hfe.1, ihb hfe.2⟩
  obtain ⟨d', hd', hp⟩ := dE_correct ρ x _ hsm hfe'
  rw [hreal] at hd'
  obtain rfl := Option.some.inj hd'
  refine ⟨hp, ?_⟩
  have hint : e.hasIntOp = false := by rw [← hasIntOp_mapNum toReal]; exact smooth_hasIntOp _ hsm
  obtain ⟨y, p, g1, g2, g3⟩ := C76_enclosure δ hW true (tableEnv values) ρ (dE x e) (fun s hs => by
    obtain ⟨y, p, r1, r2, r3⟩ := hρ s (dE_vars x e s hs)
    exact ⟨y, p, by rw [tableEnv, r1], r2, r3⟩) d E h
  have hv : (subsValues (embed (dE x e)) values >>= fun t => vpa cfg t) = .ok y := by
    rw [C17_subsValues_vpa, hs]
    exact g1
  have hz : e.NoZeroPow (tableEnv values) := noZeroPow_of_deriv
    (P := fun a => (∀ s ∈ a.vars, s ∈ e.vars) ∧ ∃ w, enclosure δ ρ a = some w)
    (fun o a ⟨q1, w, q2⟩ => ⟨q1, by
      simp only [enclosure] at q2
      obtain ⟨w', q3, -⟩ := Option.bind_eq_some_iff.mp q2
      exact ⟨w', q3⟩⟩)
    (fun o a b ⟨q1, w, q2⟩ => by
      simp only [enclosure] at q2
      obtain ⟨w1, q3, q4⟩ := Option.bind_eq_some_iff.mp q2
      obtain ⟨w2, q5, -⟩ := Option.bind_eq_some_iff.mp q4
      exact ⟨⟨fun s hs => q1 s (by simp [Expr.vars, hs]), w1, q3⟩, ⟨fun s hs => q1 s (by simp [Expr.vars, hs]), w2, q5⟩⟩)
    (fun a ⟨q1, w, q2⟩ => enclosure_log hW (fun s hs => by
      obtain ⟨y, p, r1, r2, r3⟩ := hρ s (q1 s hs)
      exact ⟨y, p, by rw [tableEnv, r1], r2, r3⟩) q2) x e hint ⟨fun s hs => dE_vars x e s hs, _, h⟩
  obtain ⟨t, y', k1, k2, k3⟩ := C82_partial hF cfg hs (dE x e) (enclosure_nums δ ρ _ _ h) values hval (noZeroPow_dE _ x e hz) y hv
  refine ⟨t, y', p, ?_, k2, ?_, g3⟩
  · rw [diff_ok cfg x 1 (by decide) e hint]
    exact k1
  · exact is_of_eq g2 k3

theorem intVal_realVal (ρ : Str → ℤ) (e : Expr (Double L)) (z : ℤ) (h : intVal ρ e = some z) :
    realVal (fun s => (ρ s : ℝ)) (e.mapNum toReal) = some (z : ℝ) := by
  have sm : ∀ {r q : ℤ}, ifSmall r = some q → r = q := by
    intro r q h
    unfold ifSmall at h
    split at h
    · exact Option.some.inj h
    · cases h
  induction e generalizing z with
  | num x =>
    simp only [intVal] at h
    split at h
    · cases h
    · rename_i hx
      split at h
      · rename_i hd
        obtain rfl := Option.some.inj h
        have hx' : x.Is x.raw.toRat := is_of_valid (by simpa using hx)
        simp only [Expr.mapNum, realVal, toReal_is hx']
        show some _ = some _
        congr 1
        have : (x.raw.toRat : ℚ) = (x.raw.toRat.num : ℚ) := (Rat.coe_int_num_of_den_eq_one hd).symm
        exact_mod_cast this
      · cases h
  | var s => obtain rfl := Option.some.inj h; rfl
  | un o e ih =>
    cases o with
    | pos => simp only [Expr.mapNum, realVal, ih z h, UnOp.real, Option.bind_some]
    | neg =>
      obtain ⟨w, h1, rfl⟩ := Option.map_eq_some_iff.mp h
      simp only [Expr.mapNum, realVal, ih w h1, UnOp.real, Option.bind_some]
      push_cast; rfl
    | _ => simp [intVal] at h
  | bin o a b iha ihb =>
    cases o with
    | add | sub | mul =>
      simp only [intVal] at h
      obtain ⟨p, h1, h⟩ := Option.bind_eq_some_iff.mp h
      obtain ⟨s, h2, h⟩ := Option.bind_eq_some_iff.mp h
      obtain rfl := sm h
      simp only [Expr.mapNum, realVal, iha p h1, ihb s h2, BinOp.real, Option.bind_some]
      push_cast; rfl
    | _ => simp [intVal] at h

theorem intVal_nums (ρ : Str → ℤ) (e : Expr (Double L)) (z : ℤ) (h : intVal ρ e = some z) : ∀ v ∈ e.nums, Dbl.isInvalid v = false := by
  induction e generalizing z with
  | num x =>
    intro v hv
    simp only [intVal] at h
    split at h
    · cases h
    · rename_i hx
      simp only [Expr.nums, List.mem_singleton] at hv
      subst hv
      simpa using hx
  | var s => simp [Expr.nums]
  | un o e ih =>
    cases o with
    | pos => exact ih z h
    | neg => obtain ⟨w, h1, -⟩ := Option.map_eq_some_iff.mp h; exact ih w h1
    | _ => simp [intVal] at h
  | bin o a b iha ihb =>
    cases o with
    | add | sub | mul =>
      simp only [intVal] at h
      obtain ⟨p, h1, h⟩ := Option.bind_eq_some_iff.mp h
      obtain ⟨s, h2, h⟩ := Option.bind_eq_some_iff.mp h
      intro v hv
      rcases List.mem_append.mp hv with hv | hv
      · exact iha p h1 v hv
      · exact ihb s h2 v hv
    | _ => simp [intVal] at h

theorem poly_smooth (ρ : Str → ℝ) (e : Expr (Double L)) (hp : e.Polynomial) (hn : ∀ v ∈ e.nums, Dbl.isInvalid v = false) :
    Smooth 1 ρ (e.mapNum toReal) ∧ ∃ u, realVal ρ (e.mapNum toReal) = some u := by
  induction e with
  | num x =>
    have hx : x.Is x.raw.toRat := is_of_valid (hn x (by simp [Expr.nums]))
    rw [Expr.mapNum, toReal_is hx]
    exact ⟨⟨_, rfl⟩, _, rfl⟩
  | var s => exact ⟨trivial, _, rfl⟩
  | un o e ih =>
    obtain ⟨h1, u, hu⟩ := ih hp.2 hn
    rcases hp.1 with rfl | rfl
    · exact ⟨⟨h1, u, hu, .inl trivial⟩, u, by simp [Expr.mapNum, realVal, hu, UnOp.real]⟩
    · exact ⟨⟨h1, u, hu, .inl trivial⟩, -u, by simp [Expr.mapNum, realVal, hu, UnOp.real]⟩
  | bin o a b iha ihb =>
    obtain ⟨h1, u, hu⟩ := iha hp.2.1 fun v hv => hn v (List.mem_append_left _ hv)
    obtain ⟨h2, w, hw⟩ := ihb hp.2.2 fun v hv => hn v (List.mem_append_right _ hv)
    rcases hp.1 with rfl | rfl | rfl
    · exact ⟨⟨h1, h2⟩, u + w, by simp [Expr.mapNum, realVal, hu, hw, BinOp.real]⟩
    · exact ⟨⟨h1, h2⟩, u - w, by simp [Expr.mapNum, realVal, hu, hw, BinOp.real]⟩
    · exact ⟨⟨h1, h2⟩, u * w, by simp [Expr.mapNum, realVal, hu, hw, BinOp.real]⟩

theorem poly_rules (e : Expr (Double L)) (hp : e.Polynomial) (hn : ∀ v ∈ e.nums, Dbl.isInvalid v = false) : e.ExactRules := by
  induction e with
  | num x => exact hn x (by simp [Expr.nums])
  | var s => trivial
  | un o e ih =>
    rcases hp.1 with rfl | rfl <;> exact ⟨by decide, by decide, ih hp.2 hn⟩
  | bin o a b iha ihb =>
    refine ⟨iha hp.2.1 fun v hv => hn v (List.mem_append_left _ hv), ihb hp.2.2 fun v hv => hn v (List.mem_append_right _ hv), ?_⟩
    rintro rfl
    rcases hp.1 with h | h | h <;> cases h

theorem poly_noForeignExp (x : Str) (e : Expr (Double L)) (hp : e.Polynomial) : e.NoForeignExp x ∧ (e.mapNum toReal).NoForeignExp x := by
  induction e with
  | num _ => exact ⟨trivial, trivial⟩
  | var _ => exact ⟨trivial, trivial⟩
  | un o e ih => rcases hp.1 with rfl | rfl <;> exact ⟨⟨fun h => (by cases h), (ih hp.2).1⟩, ⟨fun h => (by cases h), (ih hp.2).2⟩⟩
  | bin o a b iha ihb => exact ⟨⟨(iha hp.2.1).1, (ihb hp.2.2).1⟩, ⟨(iha hp.2.1).2, (ihb hp.2.2).2⟩⟩

theorem poly_noZeroPow (env : Str → Res (Double L)) (e : Expr (Double L)) (hp : e.Polynomial) : e.NoZeroPow env := by
  induction e with
  | num _ => trivial
  | var _ => trivial
  | un o e ih => exact ih hp.2
  | bin o a b iha ihb =>
    refine ⟨?_, iha hp.2.1, ihb hp.2.2⟩
    rintro rfl
    rcases hp.1 with h | h | h <;> cases h

/-- C96: derivatives of polynomials with integer literals at integer points are exact, as long as all numbers in the computation stay within
`2^53`. -/
theorem C96_integers (hF : L.AnnexF) (cfg : Config (Double L)) (hs : cfg.throwOnInvalidValue = true)
    (e : Expr (Double L)) (hp : e.Polynomial) (hn : ∀ v ∈ e.nums, Dbl.isInvalid v = false) (x : Str) (values : List (Str × Double L))
    (hval : ∀ b ∈ values, Dbl.isInvalid b.2 = false) (ρ : Str → ℤ) (hρ : ∀ s ∈ e.vars, ∃ y, values.lookup s = some y ∧ y.Is (ρ s))
    (z : ℤ) (h : intVal ρ (dE x e) = some z) :
    HasPartialDeriv (fun s => (ρ s : ℝ)) x (e.mapNum toReal) z ∧
    ∃ t y, diff cfg (embed e) x 1 = .ok t ∧ (subsValues t values >>= fun t => vpa cfg t) = .ok y ∧ y.Is z := by
  have hreal := intVal_realVal ρ (dE x e) z h
  rw [mapNum_dE x e (poly_rules e hp hn)] at hreal
  have hsm := (poly_smooth (fun s => (ρ s : ℝ)) e hp hn).1
  obtain ⟨d', hd', hpd⟩ := dE_correct _ x _ hsm (poly_noForeignExp x e hp).2
  rw [hreal] at hd'
  obtain rfl := Option.some.inj hd'
  refine ⟨hpd, ?_⟩
  have hint : e.hasIntOp = false := by rw [← hasIntOp_mapNum toReal]; exact smooth_hasIntOp _ hsm
  obtain ⟨y, g1, g2⟩ := C75_integers true (tableEnv values) ρ (dE x e) (fun s hs => by
    obtain ⟨y, r1, r2⟩ := hρ s (dE_vars x e s hs)
    exact ⟨y, by rw [tableEnv, r1], r2⟩) z h
  have hv : (subsValues (embed (dE x e)) values >>= fun t => vpa cfg t) = .ok y := by
    rw [C17_subsValues_vpa, hs]
    exact g1
  obtain ⟨t, y', k1, k2, k3⟩ := C82_partial hF cfg hs (dE x e) (intVal_nums ρ _ _ h) values hval
    (noZeroPow_dE _ x e (poly_noZeroPow _ e hp)) y hv
  refine ⟨t, y', ?_, k2, is_of_eq g2 k3⟩
  rw [diff_ok cfg x 1 (by decide) e hint]
  exact k1

/-! ### Cases -/

/-- the libm that rounds the exact functions also meets the conditions at zero and one -/
theorem accurate_annexF : accurate.AnnexF where
  un o x x' p r h1 h2 hx hx' h := by
    have e : (x : B64).1.toRat = (x' : B64).1.toRat := hx.2.trans hx'.2.symm
    have key : ∀ y : Double accurate, o.apply y = (fromReal (o.real ((y : B64).1.toRat : ℝ)) : Double accurate) := by
      intro y
      cases o <;> first | exact absurd rfl h1 | exact absurd rfl h2 | rfl
    have : o.apply x = o.apply x' := by rw [key, key, e]
    rwa [← this]
  pow x x' y y' p s r hx hx' hy hy' h := by
    have e : (x : B64).1.toRat = (x' : B64).1.toRat := hx.2.trans hx'.2.symm
    have e' : (y : B64).1.toRat = (y' : B64).1.toRat := hy.2.trans hy'.2.symm
    have : Dbl.pow x y = Dbl.pow x' y' := by show fromReal _ = fromReal _; rw [e, e']
    rwa [← this]
  pow_one x y p hx hy := by
    have ex : (x : B64).1.toRat = p := hx.2
    have ey : (y : B64).1.toRat = 1 := hy.2
    have hd : IsDouble p := is_double hx
    have : Dbl.pow x y = (fromReal (some (p : ℝ)) : Double accurate) := by
      show fromReal _ = fromReal _
      rw [ex, ey, realPow, if_pos]
      · simp
      · rcases lt_trichotomy (p : ℝ) 0 with h | h | h
        · exact .inr (.inr ⟨h, 1, by norm_num⟩)
        · exact .inr (.inl ⟨h, by norm_num⟩)
        · exact .inl h
    rw [this]
    have := is_round (L := accurate) (x := (fromReal (some (p : ℝ)) : Double accurate)) (z := false) (q := p) (by
      show F64.round false (ratNear p) = _
      rw [ratNear_cast]) (by rw [rnd_of_isDouble hd]; exact isDouble_lt hd)
    rwa [rnd_of_isDouble hd] at this
  zero_pow x y s r hx hy hs h := by
    have ex : (x : B64).1.toRat = 0 := hx.2
    have ey : (y : B64).1.toRat = s := hy.2
    by_cases h0 : 0 ≤ s
    · have : Dbl.pow x y = (fromReal (some ((0 : ℚ) : ℝ)) : Double accurate) := by
        show fromReal _ = fromReal _
        rw [ex, ey, realPow, if_pos (.inr (.inl ⟨by norm_num, by exact_mod_cast h0⟩))]
        congr 2
        push_cast
        exact Real.zero_rpow (by exact_mod_cast hs)
      rw [this] at h
      have := is_round (L := accurate) (x := (fromReal (some ((0 : ℚ) : ℝ)) : Double accurate)) (z := false) (q := 0) (by
        show F64.round false (ratNear _) = _
        rw [ratNear_cast]) (by rw [rnd_zero]; norm_num)
      rw [rnd_zero] at this
      exact is_unique h this
    · have : Dbl.pow x y = (fromReal none : Double accurate) := by
        show fromReal _ = fromReal _
        rw [ex, ey, realPow, if_neg]
        push_cast
        rintro (h | ⟨-, h⟩ | ⟨h, -⟩)
        · exact lt_irrefl _ h
        · exact h0 (by exact_mod_cast h)
        · exact lt_irrefl _ h
      rw [this] at h
      exact absurd h.1 (by decide)

/-- a case of C96 with a function: the derivative of `sin(x) + x` at any double `p` is computed within `2^-50` of `cos(p) + 1` -/
example (cfg : Config (Double accurate)) (hs : cfg.throwOnInvalidValue = true) (v : Double accurate) (p : ℚ) (hv : v.Is p) :
    let e : Expr (Double accurate) := .bin .add (.un .sin (.var ['x'])) (.var ['x'])
    ∃ t y q, diff cfg (embed e) ['x'] 1 = .ok t ∧ (subsValues t [(['x'], v)] >>= fun t => vpa cfg t) = .ok y ∧ y.Is q ∧
      |(q : ℝ) - (Real.cos p + 1)| ≤ 1 / 2 ^ 50 := by
  intro e
  have hone : (Dbl.ofInt 1 : Double accurate).Is 1 := by simpa using is_ofInt (L := accurate) (i := 1) (by norm_num)
  have hbig : (2 : ℝ) ^ 10 ≤ 2 ^ 1023 := pow_le_pow_right₀ (by norm_num) (by norm_num)
  have hc : |Real.cos p| ≤ 1 := Real.abs_cos_le_one _
  have htiny : (1 : ℝ) / 2 ^ 1074 ≤ 1 / 2 ^ 60 := one_div_pow_le_one_div_pow_of_le (by norm_num) (by norm_num)
  have htiny' : (1 : ℝ) / 2 ^ 1075 ≤ 1 / 2 ^ 60 := one_div_pow_le_one_div_pow_of_le (by norm_num) (by norm_num)
  have htp : (0 : ℝ) < 1 / 2 ^ 1074 := by positivity
  have htp' : (0 : ℝ) < 1 / 2 ^ 1075 := by positivity
  set E1 : ℝ := 0 + UnOp.roundoff (1 / 2 ^ 53) .cos (Real.cos p) 0 with hE1
  have hE1' : 0 ≤ E1 ∧ E1 ≤ 1 / 2 ^ 53 + 1 / 2 ^ 60 := by
    rw [hE1]
    simp only [UnOp.roundoff]
    have h53 : (0 : ℝ) < 1 / 2 ^ 53 := by norm_num
    constructor
    · have := abs_nonneg (Real.cos p); positivity
    · have := mul_le_mul_of_nonneg_left hc (le_of_lt h53)
      linarith
  set D2 : ℝ := |Real.cos p| * 0 + |(1 : ℝ)| * E1 + E1 * 0 with hD2
  have hD2' : D2 = E1 := by rw [hD2]; simp
  set E2 : ℝ := D2 + BinOp.roundoff (1 / 2 ^ 53) .mul (Real.cos p * 1) D2 with hE2
  have hE2' : 0 ≤ E2 ∧ E2 ≤ 1 / 2 ^ 51 := by
    rw [hE2, hD2']
    simp only [BinOp.roundoff]
    split
    · exact ⟨by linarith [hE1'.1], by linarith [hE1'.2, (by norm_num : (1 : ℝ) / 2 ^ 53 + 1 / 2 ^ 60 ≤ 1 / 2 ^ 51)]⟩
    · rw [mul_one]
      have h53 : (0 : ℝ) < 1 / 2 ^ 53 := by norm_num
      have := mul_le_mul_of_nonneg_left (add_le_add hc hE1'.2) h53.le
      constructor
      · have := abs_nonneg (Real.cos p); have := hE1'.1; positivity
      · have hk : (1 : ℝ) / 2 ^ 53 + 1 / 2 ^ 60 + (1 / 2 ^ 53 * (1 + (1 / 2 ^ 53 + 1 / 2 ^ 60)) + 1 / 2 ^ 60) ≤ 1 / 2 ^ 51 := by norm_num
        linarith [hE1'.2]
  have enc1 : enclosure (1 / 2 ^ 53) (fun _ => (p : ℝ)) (.un .cos (.var ['x']) : Expr (Double accurate)) = some (Real.cos p, E1) := by
    simp only [enclosure, Option.bind_some, UnOp.real, UnOp.spread]
    rw [if_pos (lt_of_lt_of_le (by linarith [(by norm_num : (1 : ℝ) < 2 ^ 10)]) hbig)]
  have enc2 : enclosure (1 / 2 ^ 53) (fun _ => (p : ℝ)) (.num (Dbl.ofInt 1) : Expr (Double accurate)) = some (1, 0) := by
    simp only [enclosure]
    rw [if_neg (by have := hone.1; intro h; exact absurd (this.symm.trans h) (by decide)), hone.2]
    norm_num
  have enc3 : enclosure (1 / 2 ^ 53) (fun _ => (p : ℝ)) (.bin .mul (.un .cos (.var ['x'])) (.num (Dbl.ofInt 1)) : Expr (Double accurate)) =
      some (Real.cos p * 1, E2) := by
    rw [enclosure, enc1, enc2]
    simp only [Option.bind_some, BinOp.real, BinOp.spread]
    rw [if_pos]
    refine lt_of_lt_of_le ?_ hbig
    rw [← hD2, hD2', mul_one]
    linarith [(by norm_num : (4 : ℝ) < 2 ^ 10), hE1'.2, (by norm_num : (1 : ℝ) / 2 ^ 53 + 1 / 2 ^ 60 < 1)]
  have hsum : |Real.cos p * 1 + 1| ≤ 2 := le_trans (abs_add_le _ _) (by rw [abs_one, mul_one]; linarith)
  have enc : enclosure (1 / 2 ^ 53) (fun _ => (p : ℝ)) (dE ['x'] e) =
      some (Real.cos p * 1 + 1, (E2 + 0) + BinOp.roundoff (1 / 2 ^ 53) .add (Real.cos p * 1 + 1) (E2 + 0)) := by
    have he : dE ['x'] e = .bin .add (.bin .mul (.un .cos (.var ['x'])) (.num (Dbl.ofInt 1))) (.num (Dbl.ofInt 1)) := by
      simp [e, dE, Expr.isNum]
    rw [he, enclosure, enc3, enc2]
    simp only [Option.bind_some, BinOp.real, BinOp.spread]
    rw [if_pos (lt_of_lt_of_le (by linarith [(by norm_num : (4 : ℝ) < 2 ^ 10), hE2'.2, (by norm_num : (1 : ℝ) / 2 ^ 51 < 1)]) hbig)]
  obtain ⟨-, t, y, q, g1, g2, g3, g4⟩ := C96_partial _ accurate_within accurate_annexF cfg hs e ['x'] [(['x'], v)]
    (by intro b hb; simp at hb; subst hb; exact hv.1) (fun _ => (p : ℝ)) (fun s hs => by
      simp [e, Expr.vars] at hs
      subst hs
      exact ⟨v, p, by simp, hv, rfl⟩) (by simp [e, Expr.ExactRules]) (by simp [e, Expr.NoForeignExp])
    (by simp [e, Expr.mapNum, Smooth, realVal, UnOp.smoothAt]) _ _ enc
  refine ⟨t, y, q, g1, g2, g3, ?_⟩
  rw [mul_one] at g4
  refine le_trans g4 ?_
  have hro : BinOp.roundoff (1 / 2 ^ 53) .add (Real.cos p + 1) (E2 + 0) ≤ 1 / 2 ^ 53 * (2 + 1 / 2 ^ 51) := by
    simp only [BinOp.roundoff]
    split
    · positivity
    · rw [mul_one] at hsum
      exact mul_le_mul_of_nonneg_left (by linarith [hE2'.2]) (by positivity)
  have : (1 : ℝ) / 2 ^ 51 + 1 / 2 ^ 53 * (2 + 1 / 2 ^ 51) ≤ 1 / 2 ^ 50 := by norm_num
  linarith [hE2'.2]

/-- the derivative of `(x + 1) * x` at the integer 5 is 11, exactly -/
example : let e : Expr (Double L) := .bin .mul (.bin .add (.var ['x']) (.num unit)) (.var ['x'])
    e.Polynomial ∧ (∀ v ∈ e.nums, Dbl.isInvalid v = false) ∧ intVal (fun _ => 5) (dE ['x'] e) = some 11 := by
  intro e
  have h1 : (F64.ofInt 1) = .num 1 := by decide +kernel
  have h0 : (F64.ofInt 0) = .zero false := by decide +kernel
  have hone : (unit : Double L).Is 1 := is_num h1
  refine ⟨by simp [e, Expr.Polynomial], by intro v hv; simp [e, Expr.nums] at hv; subst hv; exact hone.1, ?_⟩
  have key : ∀ (w : Double L) (q : ℤ), w.Is q → intVal (fun _ => 5) (.num w : Expr (Double L)) = some q := by
    intro w q hw
    simp only [intVal]
    rw [hw.2, if_neg (by have := hw.1; intro h; exact absurd (this.symm.trans h) (by decide))]
    simp
  have k1 := key unit 1 (by simpa using hone)
  have k2 := key (Dbl.ofInt 1) 1 (is_ofInt (by norm_num))
  have k0 := key (Dbl.ofInt 0) 0 (is_ofInt (by norm_num))
  have he : dE ['x'] e = .bin .add (.bin .mul (.bin .add (.num (Dbl.ofInt 1)) (.num (Dbl.ofInt 0))) (.var ['x']))
      (.bin .mul (.bin .add (.var ['x']) (.num unit)) (.num (Dbl.ofInt 1))) := by simp [e, dE, Expr.isNum]
  rw [he]
  simp only [intVal] at k1 k2 k0 ⊢
  simp only [k1, k2, k0, Option.bind_some]
  decide

end Double
end Tom
