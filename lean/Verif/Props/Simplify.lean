import Verif.Lemmas.Simplify
import Verif.Spec.Tree
import Verif.Model.Num
/-
Properties C22-C25: simplification, for every double arithmetic (no law of arithmetic is assumed).
-/
set_option linter.unusedSectionVars false
namespace Tom
variable {α : Type} [Dbl α]

theorem simplify_ok_iff (cfg : Config α) (e : Expr α) (t : Raw α) :
    simplify cfg (embed e) = .ok t ↔ ∃ e', simpE cfg e = .ok e' ∧ t = embed e' := by
  rw [simplify_embed, Res.bind_eq_ok]
  constructor
  · rintro ⟨e', h, h'⟩; exact ⟨e', h, by simpa using h'.symm⟩
  · rintro ⟨e', h, rfl⟩; exact ⟨e', h, rfl⟩

/-- What a successful `simpTop` returns on an operator expression. -/
theorem simpTop_un_ok {cfg : Config α} {o : UnOp} {e e' : Expr α} (h : simpTop cfg (.un o e) = .ok e') :
    (∃ v w, e = .num v ∧ e' = .num w ∧ checked cfg.throwOnInvalidValue (o.apply v) = .ok w) ∨
    (e.isNum = false ∧ e' = .un o e) := by
  cases e with
  | num v =>
    left
    simp only [simpTop] at h
    obtain ⟨w, hw, h⟩ := Res.bind_eq_ok.mp h
    refine ⟨v, w, rfl, by simpa using h.symm, ?_⟩
    cases hc : checked cfg.throwOnInvalidValue (o.apply v) <;> simp_all
  | var x => right; simp_all [simpTop, Expr.isNum]
  | un o' x => right; simp_all [simpTop, Expr.isNum]
  | bin o' x y => right; simp_all [simpTop, Expr.isNum]

theorem simpTop_bin_ok {cfg : Config α} {o : BinOp} {a b e' : Expr α} (h : simpTop cfg (.bin o a b) = .ok e') :
    (∃ v w u z, a = .num v ∧ b = .num w ∧ o.apply v w = some u ∧ checked cfg.throwOnInvalidValue u = .ok z ∧ e' = .num z) ∨
    (¬ (a.isNum = true ∧ b.isNum = true) ∧
      ((e' = .num (Dbl.ofInt 0) ∧ ((o = .mul ∧ (isLit (Dbl.ofInt 0) a ∨ isLit (Dbl.ofInt 0) b)) ∨
          (o = .div ∧ isLit (Dbl.ofInt 0) a) ∨ (o = .pow ∧ isLit (Dbl.ofInt 0) a))) ∨
       (e' = b ∧ ((o = .add ∧ isLit (Dbl.ofInt 0) a) ∨ (o = .mul ∧ isLit (Dbl.ofInt 1) a) ∨
          (isLit (Dbl.ofInt 0) a ∧ a.isNum ∧ b.isNum) ∨ (isLit (Dbl.ofInt 1) a ∧ a.isNum ∧ b.isNum))) ∨
       (e' = a ∧ a.isNum = false ∧ ((o = .add ∧ isLit (Dbl.ofInt 0) b) ∨ (o = .sub ∧ isLit (Dbl.ofInt 0) b) ∨
          (o = .mul ∧ isLit (Dbl.ofInt 1) b) ∨ (o = .div ∧ isLit (Dbl.ofInt 1) b) ∨ (o = .pow ∧ isLit (Dbl.ofInt 1) b))) ∨
       e' = .bin o a b)) := by
  by_cases hnum : a.isNum = true ∧ b.isNum = true
  · left
    cases a <;> simp [Expr.isNum] at hnum
    cases b <;> simp [Expr.isNum] at hnum
    rename_i v w
    simp only [simpTop] at h
    cases hu : o.apply v w with
    | none => simp [hu] at h
    | some u =>
      simp only [hu] at h
      obtain ⟨z, hz, h⟩ := Res.bind_eq_ok.mp h
      refine ⟨v, w, u, z, rfl, rfl, hu, ?_, by simpa using h.symm⟩
      cases hc : checked cfg.throwOnInvalidValue u <;> simp_all
  · right
    refine ⟨hnum, ?_⟩
    have hlit : ∀ (c : α) (e : Expr α), isLit c e = true → e.isNum = true := by
      intro c e he; cases e <;> simp_all [isLit, Expr.isNum]
    have e2 : simpTop cfg (.bin o a b) =
        let l0 := isLit (Dbl.ofInt 0) a
        let r0 := isLit (Dbl.ofInt 0) b
        let l1 := isLit (Dbl.ofInt 1) a
        let r1 := isLit (Dbl.ofInt 1) b
        if (o = .mul ∧ (l0 ∨ r0)) ∨ (o = .div ∧ l0) ∨ (o = .pow ∧ l0) then .ok (.num (Dbl.ofInt 0))
        else if (o = .add ∧ (l0 ∨ r0)) ∨ (o = .sub ∧ r0) ∨ (o = .mul ∧ (l1 ∨ r1)) ∨ (o = .div ∧ r1) ∨ (o = .pow ∧ r1) then
          if l1 ∨ l0 then .ok b
          else if r1 ∨ r0 then .ok a
          else .ok (.bin o a b)
        else .ok (.bin o a b) := by
      cases a <;> cases b <;> simp [Expr.isNum] at hnum <;> simp only [simpTop]
    rw [e2] at h
    simp only at h
    have ha0 := hlit (Dbl.ofInt 0) a
    have hb0 := hlit (Dbl.ofInt 0) b
    have ha1 := hlit (Dbl.ofInt 1) a
    have hb1 := hlit (Dbl.ofInt 1) b
    split at h
    · left; exact ⟨by simpa using h.symm, by assumption⟩
    · rename_i hc1
      split at h
      · rename_i hc2
        split at h
        · rename_i hl
          right; left
          refine ⟨by simpa using h.symm, ?_⟩
          rcases hc2 with ⟨ho, h0 | h0⟩ | ⟨ho, h0⟩ | ⟨ho, h0 | h0⟩ | ⟨ho, h0⟩ | ⟨ho, h0⟩
          · exact .inl ⟨ho, h0⟩
          · exact absurd ⟨hl.elim ha1 ha0, hb0 h0⟩ hnum
          · exact absurd ⟨hl.elim ha1 ha0, hb0 h0⟩ hnum
          · exact .inr (.inl ⟨ho, h0⟩)
          · exact absurd ⟨hl.elim ha1 ha0, hb1 h0⟩ hnum
          · exact absurd ⟨hl.elim ha1 ha0, hb1 h0⟩ hnum
          · exact absurd ⟨hl.elim ha1 ha0, hb1 h0⟩ hnum
        · rename_i hl
          simp only [not_or] at hl
          split at h
          · right; right; left
            refine ⟨by simpa using h.symm, ?_, ?_⟩
            · rename_i hr
              have hb : b.isNum = true := hr.elim hb1 hb0
              cases hA : a.isNum with
              | false => rfl
              | true => exact absurd ⟨hA, hb⟩ hnum
            · rcases hc2 with ⟨ho, h0 | h0⟩ | ⟨ho, h0⟩ | ⟨ho, h0 | h0⟩ | ⟨ho, h0⟩ | ⟨ho, h0⟩
              · exact absurd h0 hl.2
              · exact .inl ⟨ho, h0⟩
              · exact .inr (.inl ⟨ho, h0⟩)
              · exact absurd h0 hl.1
              · exact .inr (.inr (.inl ⟨ho, h0⟩))
              · exact .inr (.inr (.inr (.inl ⟨ho, h0⟩)))
              · exact .inr (.inr (.inr (.inr ⟨ho, h0⟩)))
          · right; right; right; simpa using h.symm
      · right; right; right; simpa using h.symm

theorem simpTop_self_stable {cfg : Config α} {e e' : Expr α} (h : simpTop cfg e = .ok e') (he : e' = e) :
    simpTop cfg e' = .ok e' := by rw [he]; rw [he] at h; exact h

theorem simpE_stable (cfg : Config α) (e e' : Expr α) (h : simpE cfg e = .ok e') : simpE cfg e' = .ok e' := by
  induction e generalizing e' with
  | num v => simp [simpE] at h; subst h; rfl
  | var x => simp [simpE] at h; subst h; rfl
  | un o e ih =>
    obtain ⟨a', ha, h⟩ := Res.bind_eq_ok.mp h
    rcases simpTop_un_ok h with ⟨v, w, rfl, rfl, _⟩ | ⟨_, rfl⟩
    · rfl
    · simp only [simpE, ih a' ha, Res.bind_ok, h]
  | bin o a b iha ihb =>
    obtain ⟨a', ha, h⟩ := Res.bind_eq_ok.mp h
    obtain ⟨b', hb, h⟩ := Res.bind_eq_ok.mp h
    rcases simpTop_bin_ok h with ⟨v, w, u, z, rfl, rfl, _, _, rfl⟩ | ⟨_, ⟨rfl, _⟩ | ⟨rfl, _⟩ | ⟨rfl, _⟩ | rfl⟩
    · rfl
    · rfl
    · exact ihb e' hb
    · exact iha e' ha
    · simp only [simpE, iha a' ha, ihb b' hb, Res.bind_ok, h]

/-- C22: simplifying a simplified expression changes nothing. -/
theorem C22_idempotent (cfg : Config α) (e : Expr α) (t : Raw α) (h : simplify cfg (embed e) = .ok t) :
    simplify cfg t = .ok t := by
  obtain ⟨e', h1, rfl⟩ := (simplify_ok_iff cfg e t).mp h
  exact (simplify_ok_iff cfg e' _).mpr ⟨e', simpE_stable cfg e e' h1, rfl⟩

/-- `simplify` maps expressions to expressions. -/
theorem C22_wellformed (cfg : Config α) (e : Expr α) (t : Raw α) (h : simplify cfg (embed e) = .ok t) :
    ∃ e', t = embed e' := by
  obtain ⟨e', _, h2⟩ := (simplify_ok_iff cfg e t).mp h
  exact ⟨e', h2⟩

example : simplify defaultConfig (embed (.bin .mul (.bin .add (.num (.fin 1)) (.num (.fin 2))) (.bin .mul (.num (.fin 1)) (.var ['x']))))
    = .ok (embed (.bin .mul (.num (.fin 3)) (.var ['x']))) := by rw [simplify_embed]; decide +kernel

/-! ### C23 -/

theorem simpE_const (cfg : Config α) (e : Expr α) (hv : e.vars = []) (v : α)
    (h : e.eval cfg.throwOnInvalidValue noEnv = .ok v) : simpE cfg e = .ok (.num v) := by
  induction e generalizing v with
  | num w => simp [Expr.eval] at h; subst h; rfl
  | var x => simp [Expr.vars] at hv
  | un o e ih =>
    obtain ⟨w, hw, h⟩ := Res.bind_eq_ok.mp h
    simp only [simpE, ih hv w hw, Res.bind_ok, simpTop, h, Res.noexcept_ok]
  | bin o a b iha ihb =>
    simp only [Expr.vars, List.append_eq_nil_iff] at hv
    obtain ⟨w, hw, h⟩ := Res.bind_eq_ok.mp h
    obtain ⟨w', hw', h⟩ := Res.bind_eq_ok.mp h
    simp only [simpE, iha hv.1 w hw, ihb hv.2 w' hw', Res.bind_ok, simpTop]
    cases hz : o.apply w w' <;> simp only [hz] at h ⊢
    · simp at h
    · simp only [h, Res.noexcept_ok, Res.bind_ok]

/-- C23: a variable-free expression that `Vpa` evaluates to `v` is simplified to the number `v`. -/
theorem C23_const (cfg : Config α) (e : Expr α) (hv : e.vars = []) (v : α) (h : vpa cfg (embed e) = .ok v) :
    simplify cfg (embed e) = .ok (embed (.num v)) := by
  rw [vpa_embed] at h
  rw [simplify_embed, simpE_const cfg e hv v h]; rfl

theorem simpE_noConst (cfg : Config α) (e e' : Expr α) (h : simpE cfg e = .ok e') : e'.NoConstOp := by
  induction e generalizing e' with
  | num v => simp [simpE] at h; subst h; trivial
  | var x => simp [simpE] at h; subst h; trivial
  | un o e ih =>
    obtain ⟨a', ha, h⟩ := Res.bind_eq_ok.mp h
    rcases simpTop_un_ok h with ⟨v, w, rfl, rfl, _⟩ | ⟨hn, rfl⟩
    · trivial
    · exact ⟨hn, ih a' ha⟩
  | bin o a b iha ihb =>
    obtain ⟨a', ha, h⟩ := Res.bind_eq_ok.mp h
    obtain ⟨b', hb, h⟩ := Res.bind_eq_ok.mp h
    rcases simpTop_bin_ok h with ⟨v, w, u, z, rfl, rfl, _, _, rfl⟩ | ⟨hn, ⟨rfl, _⟩ | ⟨rfl, _⟩ | ⟨rfl, _⟩ | rfl⟩
    · trivial
    · trivial
    · exact ihb e' hb
    · exact iha e' ha
    · exact ⟨hn, iha a' ha, ihb b' hb⟩

/-- C23: in a simplified expression no operator has only numeric operands. -/
theorem C23_noConstOp (cfg : Config α) (e e' : Expr α) (h : simplify cfg (embed e) = .ok (embed e')) : e'.NoConstOp := by
  obtain ⟨e'', h1, h2⟩ := (simplify_ok_iff cfg e _).mp h
  rw [embed_injective h2]
  exact simpE_noConst cfg e e'' h1

example : vpa defaultConfig (embed (.bin .add (.num (.fin 1)) (.num (.fin 2)))) = .ok (.fin 3) := by
  rw [vpa_embed]; decide +kernel

/-! ### C24 -/

/-- C24 fails as stated: `Simplify` of `1/0` (with the default configuration) calls `std::terminate`. -/
theorem C24_false : simplify defaultConfig (embed (.bin .div (.num (.fin 1)) (.num (.fin 0)))) = .terminate := by
  rw [simplify_embed]; decide +kernel

/-- C24: the only outcomes are a result, `std::terminate`, or the undefined behaviour of an integer operator. -/
theorem C24_outcomes (cfg : Config α) (e : Expr α) :
    (∃ e', simplify cfg (embed e) = .ok (embed e')) ∨ simplify cfg (embed e) = .terminate ∨
      (e.hasIntOp = true ∧ simplify cfg (embed e) = .ub) := by
  have key : (∃ e', simpE cfg e = .ok e' ∧ (e.hasIntOp = false → e'.hasIntOp = false)) ∨ simpE cfg e = .terminate ∨
      (e.hasIntOp = true ∧ simpE cfg e = .ub) := by
    induction e with
    | num v => exact .inl ⟨_, rfl, id⟩
    | var v => exact .inl ⟨_, rfl, id⟩
    | un o e ih =>
      rcases ih with ⟨e', h, hi⟩ | h | ⟨hi, h⟩ <;> simp only [simpE, h, Res.bind_ok, Res.bind_terminate, Res.bind_ub]
      · cases e' with
        | num v =>
          simp only [simpTop]
          rcases noexcept_checked_cases cfg.throwOnInvalidValue (o.apply v) with h | h <;> simp [h, Expr.hasIntOp]
        | var x => exact .inl ⟨_, rfl, fun _ => rfl⟩
        | un o' x => exact .inl ⟨_, rfl, hi⟩
        | bin o' x y => exact .inl ⟨_, rfl, hi⟩
      · simp
      · right; right; simpa [Expr.hasIntOp] using hi
    | bin o a b iha ihb =>
      rcases iha with ⟨a', ha, hia⟩ | h | ⟨hi, h⟩
      · rcases ihb with ⟨b', hb, hib⟩ | h | ⟨hi, h⟩
        · simp only [simpE, ha, hb, Res.bind_ok]
          rcases simpTop_cases cfg (.bin o a' b') with ⟨e', h⟩ | h | h
          · left
            refine ⟨e', h, fun hno => ?_⟩
            simp only [Expr.hasIntOp, Bool.or_eq_false_iff] at hno
            rcases simpTop_bin_ok h with ⟨v, w, u, z, rfl, rfl, _, _, rfl⟩ | ⟨hn, ⟨rfl, _⟩ | ⟨rfl, _⟩ | ⟨rfl, _⟩ | rfl⟩
            · rfl
            · rfl
            · exact hib hno.2
            · exact hia hno.1.2
            · simp [Expr.hasIntOp, hno, hia hno.1.2, hib hno.2]
          · exact .inr (.inl h)
          · right; right
            refine ⟨?_, h⟩
            by_cases hnum : a'.isNum = true ∧ b'.isNum = true
            · cases a' <;> simp [Expr.isNum] at hnum
              cases b' <;> simp [Expr.isNum] at hnum
              rename_i v w
              cases o <;> simp [Expr.hasIntOp]
              all_goals
                exfalso
                simp only [simpTop, BinOp.apply] at h
                revert h
                simp only [checked]
                split <;> simp
            · exfalso
              revert h
              cases a' <;> cases b' <;> simp [Expr.isNum] at hnum <;> simp only [simpTop] <;> (repeat' split) <;> simp
        · simp [simpE, ha, h]
        · right; right; exact ⟨by simp [Expr.hasIntOp, hi], by simp [simpE, ha, h]⟩
      · simp [simpE, h]
      · right; right; exact ⟨by simp [Expr.hasIntOp, hi], by simp [simpE, h]⟩
  rw [simplify_embed]
  rcases key with ⟨e', h, _⟩ | h | ⟨hi, h⟩
  · exact .inl ⟨e', by simp [h]⟩
  · simp [h]
  · simp [h, hi]

theorem simpE_lenient (cfg : Config α) (hc : cfg.throwOnInvalidValue = false) (e : Expr α) :
    simpE cfg e ≠ .terminate := by
  have hck : ∀ v : α, Res.noexcept (checked cfg.throwOnInvalidValue v) = .ok v := by
    intro v; simp [checked, hc]
  have htop : ∀ e : Expr α, simpTop cfg e ≠ .terminate := by
    intro e
    unfold simpTop
    split
    · simp [hck]
    · split
      · simp
      · simp [hck]
    · simp only; (repeat' split) <;> simp
    · simp
  induction e with
  | num v => simp [simpE]
  | var v => simp [simpE]
  | un o e ih =>
    rcases simpE_cases cfg e with ⟨e', h⟩ | h | h
    · simpa [simpE, h] using htop _
    · exact absurd h ih
    · simp [simpE, h]
  | bin o a b iha ihb =>
    rcases simpE_cases cfg a with ⟨a', h⟩ | h | h
    · rcases simpE_cases cfg b with ⟨b', h'⟩ | h' | h'
      · simpa [simpE, h, h'] using htop _
      · exact absurd h' ihb
      · simp [simpE, h, h']
    · exact absurd h iha
    · simp [simpE, h]

/-- C24, partial: with `throwOnInvalidValue` off, `Simplify` returns normally on every expression without `& | %`.
Missing: the default configuration, for which it is false (`C24_false`); `C21_C24_partial` (Props/RealSimplify) covers the default
configuration for expressions that have a value somewhere. -/
theorem C24_partial (cfg : Config α) (hc : cfg.throwOnInvalidValue = false) (e : Expr α) (he : e.hasIntOp = false) :
    ∃ e', simplify cfg (embed e) = .ok (embed e') := by
  rcases C24_outcomes cfg e with h | h | ⟨hi, _⟩
  · exact h
  · exfalso
    rw [simplify_embed] at h
    rcases simpE_cases cfg e with ⟨e', h'⟩ | h' | h'
    · simp [h'] at h
    · exact simpE_lenient cfg hc e h'
    · simp [h'] at h
  · rw [he] at hi; cases hi

example : ({ defaultConfig with throwOnInvalidValue := false }).throwOnInvalidValue = false ∧
    (.bin .div (.num (.fin 1)) (.num (.fin 0)) : Expr (XNum Rat)).hasIntOp = false := by decide

/-! ### C25 -/

theorem simpE_size_vars (cfg : Config α) (e e' : Expr α) (h : simpE cfg e = .ok e') :
    e'.size ≤ e.size ∧ ∀ y ∈ e'.vars, y ∈ e.vars := by
  induction e generalizing e' with
  | num v => simp [simpE] at h; subst h; simp
  | var x => simp [simpE] at h; subst h; simp
  | un o e ih =>
    obtain ⟨a', ha, h⟩ := Res.bind_eq_ok.mp h
    have := ih a' ha
    rcases simpTop_un_ok h with ⟨v, w, rfl, rfl, _⟩ | ⟨hn, rfl⟩
    · simp [Expr.size, Expr.vars]
    · simpa [Expr.size, Expr.vars] using this
  | bin o a b iha ihb =>
    obtain ⟨a', ha, h⟩ := Res.bind_eq_ok.mp h
    obtain ⟨b', hb, h⟩ := Res.bind_eq_ok.mp h
    have h1 := iha a' ha
    have h2 := ihb b' hb
    rcases simpTop_bin_ok h with ⟨v, w, u, z, rfl, rfl, _, _, rfl⟩ | ⟨hn, ⟨rfl, _⟩ | ⟨rfl, _⟩ | ⟨rfl, _⟩ | rfl⟩
    · simp [Expr.size, Expr.vars]
    · simp [Expr.size, Expr.vars]
    · refine ⟨by simp only [Expr.size]; omega, fun y hy => ?_⟩
      simp [Expr.vars, h2.2 y hy]
    · refine ⟨by simp only [Expr.size]; omega, fun y hy => ?_⟩
      simp [Expr.vars, h1.2 y hy]
    · refine ⟨by simp only [Expr.size]; omega, fun y hy => ?_⟩
      simp only [Expr.vars, List.mem_append] at hy ⊢
      exact hy.imp (h1.2 y) (h2.2 y)

/-- C25: the simplified expression is not larger and has no new variables. -/
theorem C25_no_growth (cfg : Config α) (e e' : Expr α) (h : simplify cfg (embed e) = .ok (embed e')) :
    e'.size ≤ e.size ∧ ∀ y ∈ e'.vars, y ∈ e.vars := by
  obtain ⟨e'', h1, h2⟩ := (simplify_ok_iff cfg e _).mp h
  rw [embed_injective h2]
  exact simpE_size_vars cfg e e'' h1

end Tom
