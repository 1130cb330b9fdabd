import Verif.Spec.Visible
import Verif.Lemmas.FiniteLits
/-
Nan is seen; derivatives are never a buried variable; the sign of zero is not seen.
-/
namespace Tom
variable {L : Libm}

namespace Double

theorem nan_invalid {x : Double L} (h : x.raw = .nan) : Dbl.isInvalid x = true := by
  show F64.isInvalid x.raw = true
  rw [h]; rfl

theorem nan_strict {x w : Double L} (h : x.raw = .nan) : checked true x ≠ .ok w := by
  intro h'
  have := (strict_ok h').2
  rw [nan_invalid h] at this
  cases this

end Double

theorem Expr.Shows.nan (hL : L.SpecialPoints) {x : Str} {e : Expr (Double L)} (hs : e.Shows x) {env : Str → Res (Double L)} {y : Double L}
    (hy : env x = .ok y) (hn : y.raw = .nan) {v : Double L} (h : e.eval true env = .ok v) : e = .var x ∧ v.raw = .nan := by
  induction e generalizing v with
  | num c => exact hs.elim
  | var z =>
    have : z = x := hs
    subst this
    have h' : env z = .ok v := h
    rw [hy, Res.ok.injEq] at h'
    subst h'
    exact ⟨rfl, hn⟩
  | un o e ih =>
    exfalso
    obtain ⟨w, h1, h2⟩ := Res.bind_eq_ok.mp h
    exact Double.nan_strict (hL.nan o w (ih hs h1).2) h2
  | bin o a b iha ihb =>
    exfalso
    obtain ⟨u, h1, h'⟩ := Res.bind_eq_ok.mp h
    obtain ⟨w, h2, hz⟩ := Res.bind_eq_ok.mp h'
    clear h h'
    have out : ∀ r : Double L, o.apply u w = some r → r.raw = .nan → False := by
      intro r h3 h4
      rw [h3] at hz
      exact Double.nan_strict h4 hz
    rcases hs with ⟨ho, hs⟩ | ⟨rfl, hs⟩
    · have hor : u.raw = .nan ∨ w.raw = .nan := hs.imp (fun h => (iha h h1).2) fun h => (ihb h h2).2
      cases o
      case pow => exact absurd rfl ho
      case add =>
        refine out _ rfl ?_
        show F64.add u.raw w.raw = _
        rcases hor with h | h <;> rw [h]
        · rfl
        · cases u.raw <;> rfl
      case sub =>
        refine out _ rfl ?_
        show F64.add u.raw (F64.neg w.raw) = _
        rcases hor with h | h <;> rw [h]
        · rfl
        · cases u.raw <;> rfl
      case mul =>
        refine out _ rfl ?_
        show F64.mul u.raw w.raw = _
        rcases hor with h | h <;> rw [h]
        · rfl
        · cases u.raw <;> rfl
      case div =>
        refine out _ rfl ?_
        show F64.div u.raw w.raw = _
        rcases hor with h | h <;> rw [h]
        · rfl
        · cases u.raw <;> rfl
      all_goals
        have ht : Dbl.toInt32 u = none ∨ Dbl.toInt32 w = none := by
          rcases hor with h | h
          · left; show F64.toInt32 u.raw = none; rw [h]; rfl
          · right; show F64.toInt32 w.raw = none; rw [h]; rfl
        rcases ht with h | h <;> simp only [BinOp.apply, h, Option.bind_eq_bind, Option.bind_none] at hz
        · cases hz
        · cases hu : Dbl.toInt32 u <;> simp only [hu, Option.bind_none, Option.bind_some] at hz <;> cases hz
    · rcases hs with ⟨hs, hs'⟩ | ⟨hs, c, q, rfl, hc, hq⟩ | ⟨hs, c, q, rfl, hc, hq⟩
      · exact out _ rfl (hL.pow_nan_nan u w (iha hs h1).2 (ihb hs' h2).2)
      · have : c = w := by simpa [Expr.eval] using h2
        subst this
        exact out _ rfl (hL.pow_nan u c q (iha hs h1).2 hc hq)
      · have : c = u := by simpa [Expr.eval] using h1
        subst this
        exact out _ rfl (hL.nan_pow c w q (ihb hs h2).2 hc hq)

/-- An equation that shows `x` has no value where `x` is nan. -/
theorem Expr.Visible.not_nan (hL : L.SpecialPoints) {x : Str} {e : Expr (Double L)} (hs : e.Visible x) {env : Str → Res (Double L)} {y : Double L}
    (hy : env x = .ok y) {v : Double L} (h : e.eval true env = .ok v) : y.raw ≠ .nan :=
  fun hn => hs.2 (hs.1.nan hL hy hn h).1

/-! ### derivatives -/

/-- simplification does not give the variable `y` -/
def NotVar (cfg : Config (Double L)) (y : Str) (e : Expr (Double L)) : Prop := ∀ e', simpE cfg e = .ok e' → e' ≠ .var y
/-- simplification does not give a literal 1 -/
def NotOne (cfg : Config (Double L)) (e : Expr (Double L)) : Prop := ∀ e', simpE cfg e = .ok e' → isLit (Dbl.ofInt 1) e' = false

variable {cfg : Config (Double L)} {y : Str}

/-- when a binary operator becomes a variable -/
theorem simpTop_var {o : BinOp} {a b : Expr (Double L)} (h : simpTop cfg (.bin o a b) = .ok (.var y)) :
    (a = .var y ∧ ((o = .add ∧ isLit (Dbl.ofInt 0) b = true) ∨ (o = .sub ∧ isLit (Dbl.ofInt 0) b = true) ∨ (o = .mul ∧ isLit (Dbl.ofInt 1) b = true) ∨
      (o = .div ∧ isLit (Dbl.ofInt 1) b = true) ∨ (o = .pow ∧ isLit (Dbl.ofInt 1) b = true))) ∨
    (b = .var y ∧ ((o = .add ∧ isLit (Dbl.ofInt 0) a = true) ∨ (o = .mul ∧ isLit (Dbl.ofInt 1) a = true))) := by
  generalize he : Expr.bin o a b = e at h
  unfold simpTop at h
  split at h
  · cases he
  · split at h
    · cases h
    · obtain ⟨z, _, h2⟩ := Res.bind_eq_ok.mp h
      cases h2
  · cases he
    simp only at h
    split at h
    · cases h
    · split at h
      · rename_i hc
        split at h
        · rename_i hl
          rw [Res.ok.injEq] at h
          subst h
          right
          refine ⟨rfl, ?_⟩
          simp only [isLit, Bool.false_eq_true, or_false, false_or, and_false] at hc
          rcases hc with ⟨rfl, h1⟩ | ⟨rfl, h1⟩
          · exact .inl ⟨rfl, h1⟩
          · exact .inr ⟨rfl, h1⟩
        · split at h
          · rw [Res.ok.injEq] at h
            subst h
            left
            refine ⟨rfl, ?_⟩
            simpa only [isLit, Bool.false_eq_true, false_or, and_false] using hc
          · cases h
      · cases h
  · cases h
    cases he

/-- when a binary operator becomes a number -/
theorem simpTop_num {o : BinOp} {a b : Expr (Double L)} {z : Double L} (h : simpTop cfg (.bin o a b) = .ok (.num z)) :
    ((∃ v, a = .num v) ∧ ∃ w, b = .num w) ∨ (o = .mul ∧ (isLit (Dbl.ofInt 0) a = true ∨ isLit (Dbl.ofInt 0) b = true)) ∨
      ((o = .div ∨ o = .pow) ∧ isLit (Dbl.ofInt 0) a = true) := by
  have lit : ∀ {c : Double L} {e : Expr (Double L)}, isLit c e = true → ∃ v, e = .num v := by
    intro c e h
    cases e <;> simp [isLit] at h
    exact ⟨_, rfl⟩
  generalize he : Expr.bin o a b = e at h
  unfold simpTop at h
  split at h
  · cases he
  · cases he
    exact .inl ⟨⟨_, rfl⟩, ⟨_, rfl⟩⟩
  · cases he
    simp only at h
    split at h
    · rename_i hc
      rcases hc with ⟨rfl, h1⟩ | ⟨rfl, h1⟩ | ⟨rfl, h1⟩
      · exact .inr (.inl ⟨rfl, h1⟩)
      · exact .inr (.inr ⟨.inl rfl, h1⟩)
      · exact .inr (.inr ⟨.inr rfl, h1⟩)
    · split at h
      · split at h
        · rename_i hl
          rw [Res.ok.injEq] at h
          subst h
          exact .inl ⟨hl.elim lit lit, ⟨_, rfl⟩⟩
        · split at h
          · rename_i hl
            rw [Res.ok.injEq] at h
            subst h
            exact .inl ⟨⟨_, rfl⟩, hl.elim lit lit⟩
          · cases h
      · cases h
  · cases h
    cases he

theorem simpTop_un {o : UnOp} {e e' : Expr (Double L)} (h : simpTop cfg (.un o e) = .ok e') : (∃ v w, e = .num v ∧ e' = .num w) ∨ e' = .un o e := by
  generalize he : Expr.un o e = f at h
  unfold simpTop at h
  split at h
  · cases he
    obtain ⟨z, _, h2⟩ := Res.bind_eq_ok.mp h
    exact .inl ⟨_, z, rfl, (Res.ok.inj h2).symm⟩
  · cases he
  · cases he
  · right; exact (Res.ok.inj h).symm

theorem simpE_bin {o : BinOp} {a b e : Expr (Double L)} (h : simpE cfg (.bin o a b) = .ok e) :
    ∃ a' b', simpE cfg a = .ok a' ∧ simpE cfg b = .ok b' ∧ simpTop cfg (.bin o a' b') = .ok e := by
  obtain ⟨a', h1, h⟩ := Res.bind_eq_ok.mp h
  obtain ⟨b', h2, h⟩ := Res.bind_eq_ok.mp h
  exact ⟨a', b', h1, h2, h⟩

theorem notVar_num (v : Double L) : NotVar cfg y (.num v) := by
  intro e' h
  simp only [simpE, Res.ok.injEq] at h
  subst h; simp

theorem notVar_un (o : UnOp) (e : Expr (Double L)) : NotVar cfg y (.un o e) := by
  intro e' h
  obtain ⟨a, _, h⟩ := Res.bind_eq_ok.mp h
  rcases simpTop_un h with ⟨_, _, _, rfl⟩ | rfl <;> simp

theorem notVar_two {o : BinOp} {a b : Expr (Double L)} (ha : NotVar cfg y a) (hb : NotVar cfg y b) : NotVar cfg y (.bin o a b) := by
  intro e h
  obtain ⟨a', b', h1, h2, h⟩ := simpE_bin h
  rintro rfl
  rcases simpTop_var h with ⟨rfl, _⟩ | ⟨rfl, _⟩
  · exact ha _ h1 rfl
  · exact hb _ h2 rfl

theorem notVar_left {o : BinOp} (ho : o ≠ .add) (hm : o ≠ .mul) {a b : Expr (Double L)} (ha : NotVar cfg y a) : NotVar cfg y (.bin o a b) := by
  intro e h
  obtain ⟨a', b', h1, h2, h⟩ := simpE_bin h
  rintro rfl
  rcases simpTop_var h with ⟨rfl, _⟩ | ⟨rfl, ⟨rfl, _⟩ | ⟨rfl, _⟩⟩
  · exact ha _ h1 rfl
  · exact ho rfl
  · exact hm rfl

theorem notVar_mul {a b : Expr (Double L)} (ha : NotVar cfg y a) (ho : NotOne cfg a) : NotVar cfg y (.bin .mul a b) := by
  intro e h
  obtain ⟨a', b', h1, h2, h⟩ := simpE_bin h
  rintro rfl
  rcases simpTop_var h with ⟨rfl, _⟩ | ⟨rfl, h3⟩
  · exact ha _ h1 rfl
  · rcases h3 with ⟨h4, _⟩ | ⟨_, h4⟩
    · cases h4
    · rw [ho _ h1] at h4; cases h4

theorem notVar_one {o : BinOp} (h : o = .div ∨ o = .pow) {a b : Expr (Double L)} (ho : NotOne cfg b) : NotVar cfg y (.bin o a b) := by
  intro e he
  obtain ⟨a', b', h1, h2, he⟩ := simpE_bin he
  have h3 := ho _ h2
  rintro rfl
  rcases simpTop_var he with ⟨rfl, h4⟩ | ⟨rfl, h4⟩
  · rcases h4 with ⟨rfl, _⟩ | ⟨rfl, _⟩ | ⟨rfl, _⟩ | ⟨_, h4⟩ | ⟨_, h4⟩
    · simp at h
    · simp at h
    · simp at h
    · rw [h3] at h4; cases h4
    · rw [h3] at h4; cases h4
  · rcases h4 with ⟨rfl, _⟩ | ⟨rfl, _⟩ <;> simp at h

theorem lit_false {c : Double L} {q : ℚ} {i : ℤ} (hi : |i| ≤ 2 ^ 53) (hc : c.Is q) (hq : q ≠ i) : isLit (Dbl.ofInt i) (.num c) = false := by
  show Arith.eq c (Dbl.ofInt i) = false
  rw [Double.eq_is hc (Double.is_ofInt hi)]
  simpa using hq

theorem notNum_isLit {e : Expr (Double L)} (h : ∀ v, e ≠ .num v) (c : Double L) : isLit c e = false := by
  cases e <;> first | rfl | exact absurd rfl (h _)

theorem Expr.Rigid.simp {e : Expr (Double L)} (h : e.Rigid) : ∀ e', simpE cfg e = .ok e' → ∀ v, e' ≠ .num v := by
  induction e with
  | num c => exact h.elim
  | var z =>
    intro e' he v
    simp only [simpE, Res.ok.injEq] at he
    subst he; simp
  | un o e ih =>
    intro e' he v
    obtain ⟨a, h1, h2⟩ := Res.bind_eq_ok.mp he
    rcases simpTop_un h2 with ⟨w, _, rfl, _⟩ | rfl
    · exact absurd rfl (ih h _ h1 w)
    · simp
  | bin o a b iha ihb =>
    intro e' he v hv
    subst hv
    obtain ⟨a', b', h1, h2, he⟩ := simpE_bin he
    have litsimp : ∀ {e e' : Expr (Double L)}, e.LitWith (· ≠ 0) → simpE cfg e = .ok e' → isLit (Dbl.ofInt 0) e' = false := by
      rintro e e' ⟨c, q, rfl, hc, hq⟩ he
      simp only [simpE, Res.ok.injEq] at he
      subst he
      exact lit_false (by norm_num) hc (by simpa using hq)
    rcases simpTop_num he with ⟨⟨v, rfl⟩, ⟨w, rfl⟩⟩ | ⟨rfl, h3⟩ | ⟨ho, h3⟩
    · have na : ¬ a.Rigid := fun h => iha h _ h1 v rfl
      have nb : ¬ b.Rigid := fun h => ihb h _ h2 w rfl
      cases o <;> simp only [Expr.Rigid, na, nb, false_and, and_false, or_self] at h
    · have h' : (a.Rigid ∧ b.Rigid) ∨ (a.Rigid ∧ b.LitWith (· ≠ 0)) ∨ (a.LitWith (· ≠ 0) ∧ b.Rigid) := h
      rcases h' with ⟨ha, hb⟩ | ⟨ha, hb⟩ | ⟨ha, hb⟩ <;> rcases h3 with h3 | h3
      · rw [notNum_isLit (iha ha _ h1)] at h3; cases h3
      · rw [notNum_isLit (ihb hb _ h2)] at h3; cases h3
      · rw [notNum_isLit (iha ha _ h1)] at h3; cases h3
      · rw [litsimp hb h2] at h3; cases h3
      · rw [litsimp ha h1] at h3; cases h3
      · rw [notNum_isLit (ihb hb _ h2)] at h3; cases h3
    · have ha : a.Rigid := by rcases ho with rfl | rfl <;> exact h
      rw [notNum_isLit (iha ha _ h1)] at h3; cases h3

theorem Expr.Rigid.notOne {e : Expr (Double L)} (h : e.Rigid) : NotOne cfg e := fun e' he => notNum_isLit (h.simp e' he) _

theorem notOne_lit {c : Double L} {q : ℚ} (hc : c.Is q) (hq : q ≠ 1) : NotOne cfg (.num c) := by
  intro e' h
  simp only [simpE, Res.ok.injEq] at h
  subst h
  exact lit_false (by norm_num) hc (by simpa using hq)

/-- a power with a variable as exponent does not become 1 -/
theorem notOne_pow {a b : Expr (Double L)} (hb : b.Rigid) : NotOne cfg (.bin .pow a b) := by
  intro e he
  obtain ⟨a', b', h1, h2, he⟩ := simpE_bin he
  have hb' := hb.simp _ h2
  generalize hx : Expr.bin BinOp.pow a' b' = x at he
  unfold simpTop at he
  split at he
  · cases hx
  · cases hx; exact absurd rfl (hb' _)
  · cases hx
    simp only at he
    split at he
    · rw [Res.ok.injEq] at he
      subst he
      have h0 : (Dbl.ofInt 0 : Double L).Is ((0 : ℤ) : ℚ) := Double.is_ofInt (by norm_num)
      exact lit_false (by norm_num) h0 (by norm_num)
    · split at he
      · rename_i hc
        simp [notNum_isLit hb'] at hc
      · rw [Res.ok.injEq] at he
        subst he; rfl
  · rw [Res.ok.injEq] at he
    subst he; rw [← hx]; rfl

theorem rigid_pow_two (z : Str) : NotOne cfg (.bin .pow (.var z) (.num (Dbl.ofInt 2))) := by
  have : (Expr.bin BinOp.pow (.var z) (.num (Dbl.ofInt 2)) : Expr (Double L)).Rigid := trivial
  exact this.notOne

theorem Expr.Buried.notVar {e : Expr (Double L)} (h : e.Buried y) : NotVar cfg y e := by
  induction e with
  | num c => exact notVar_num c
  | var z =>
    intro e' he
    simp only [simpE, Res.ok.injEq] at he
    subst he
    simpa [Expr.Buried] using h
  | un o e _ => exact notVar_un o e
  | bin o a b iha ihb =>
    obtain ⟨ha, hb⟩ := h
    rcases ha with ha | ⟨rfl, rfl, hb'⟩
    · rcases hb with hb | ⟨rfl, rfl | rfl⟩
      · exact notVar_two (iha ha) (ihb hb)
      · exact notVar_left (by simp) (by simp) (iha ha)
      · exact notVar_left (by simp) (by simp) (iha ha)
    · refine notVar_one (.inr rfl) ?_
      rcases hb' with hb' | ⟨c, q, rfl, hc, hq⟩
      · exact hb'.notOne
      · exact notOne_lit hc (by rintro rfl; norm_num at hq)

/-- a literal `≤ 0` minus 1 is not 1 -/
theorem sub_one_ne {c : Double L} {q : ℚ} (hc : c.Is q) (hq : q ≤ 0) : ∃ r, (Arith.sub c (Dbl.ofInt 1)).Is r ∧ r ≠ 1 := by
  have h1 : (Dbl.ofInt 1 : Double L).Is 1 := by simpa using Double.is_ofInt (L := L) (i := 1) (by norm_num)
  obtain ⟨p, s, hp, hs, hr, _⟩ := Double.sub_inv (Double.is_of_valid (Double.valid_sub_one (Double.valid_of_is hc)))
  rw [Double.is_unique hp hc, Double.is_unique hs h1] at hr
  refine ⟨_, Double.is_of_valid (Double.valid_sub_one (Double.valid_of_is hc)), ?_⟩
  rw [hr]
  intro h
  have hrel := rnd_add_rel (Double.is_double hc) (isDouble_neg (Double.is_double h1))
  rw [← sub_eq_add_neg, h, abs_of_nonneg (by linarith), abs_of_nonpos (by linarith)] at hrel
  norm_num at hrel
  linarith

/-- The derivative of an expression in which `y` is buried does not simplify to `y`. -/
theorem Expr.Buried.notVar_dE (x : Str) (e : Expr (Double L)) (h : e.Buried y ∨ e = .var y) : NotVar cfg y (dE x e) := by
  induction e with
  | num c => exact notVar_num _
  | var z => exact notVar_num _
  | un o e ih =>
    have hb : e.Buried y ∨ e = .var y := by
      rcases h with (⟨rfl, _⟩ | h) | h
      · exact .inr rfl
      · exact .inl h
      · cases h
    have hd := ih hb
    have one : ∀ (c : Double L) (b : Expr (Double L)), NotVar cfg y (.bin .mul (.bin .div (.num c) b) (dE x e)) := fun c b =>
      notVar_two (notVar_left (by simp) (by simp) (notVar_num c)) hd
    cases o <;> simp only [dE] <;> (try split) <;> (try exact notVar_num _) <;> (try exact notVar_un _ _) <;> (try exact one _ _) <;>
      (try exact notVar_two (notVar_un _ _) hd)
    split
    · exact notVar_un _ _
    · exact notVar_two (notVar_un _ _) hd
  | bin o a b iha ihb =>
    obtain ⟨ha, hb⟩ : (a.Buried y ∨ (o = .pow ∧ a = .var y ∧ (b.Rigid ∨ b.LitWith (· ≤ 0)))) ∧
      (b.Buried y ∨ (b = .var y ∧ (o = .div ∨ o = .pow))) := by
      rcases h with h | h
      · exact h
      · cases h
    have hda := iha (ha.imp id fun h => h.2.1)
    have hdb := ihb (hb.imp id fun h => h.1)
    cases o
    case and => exact notVar_num _
    case or => exact notVar_num _
    case mod => exact notVar_num _
    case add =>
      simp only [dE]
      split
      · exact notVar_num _
      · exact notVar_two hda hdb
    case sub =>
      simp only [dE]
      split
      · exact notVar_num _
      · exact notVar_two hda hdb
    case mul =>
      have ha' : a.Buried y := by simpa using ha
      have hb' : b.Buried y := by simpa using hb
      simp only [dE]
      split
      · exact notVar_two ha'.notVar hdb
      · split
        · exact notVar_two hda hb'.notVar
        · exact notVar_two (notVar_two hda hb'.notVar) (notVar_two ha'.notVar hdb)
    case div =>
      have ha' : a.Buried y := by simpa using ha
      simp only [dE]
      split
      · exact notVar_left (by simp) (by simp) hda
      · rcases hb with hb | ⟨rfl, _⟩
        · exact notVar_left (by simp) (by simp) (notVar_left (by simp) (by simp) (notVar_two hda hb.notVar))
        · exact notVar_one (.inl rfl) (rigid_pow_two y)
    case pow =>
      have hp : NotVar cfg y (.bin .pow a b) := by
        rcases ha with ha | ⟨_, rfl, h | h⟩
        · exact notVar_left (by simp) (by simp) ha.notVar
        · exact notVar_one (.inr rfl) h.notOne
        · obtain ⟨c, q, rfl, hc, hq⟩ := h
          exact notVar_one (.inr rfl) (notOne_lit hc (by rintro rfl; norm_num at hq))
      have lit : ∀ c : Double L, b = .num c → NotVar cfg y (.bin .pow a (.num (Arith.sub c (Dbl.ofInt 1)))) := by
        rintro c rfl
        rcases ha with ha | ⟨_, rfl, h | h⟩
        · exact notVar_left (by simp) (by simp) ha.notVar
        · exact h.elim
        · obtain ⟨c', q, e, hc, hq⟩ := h
          cases e
          obtain ⟨r, hr, hr1⟩ := sub_one_ne hc hq
          exact notVar_one (.inr rfl) (notOne_lit hr hr1)
      have general : NotVar cfg y (.bin .mul (.bin .pow a b) (.bin .add (.bin .mul (dE x b) (.un .log a))
          (.bin .mul b (.bin .mul (.bin .div (.num (Dbl.ofInt 1)) a) (dE x a))))) := by
        rcases hb with hb | ⟨rfl, _⟩
        · exact notVar_two hp (notVar_two (notVar_two hdb (notVar_un _ _))
            (notVar_two hb.notVar (notVar_two (notVar_left (by simp) (by simp) (notVar_num _)) hda)))
        · exact notVar_mul hp (notOne_pow trivial)
      clear iha ihb ha hb h
      cases b with
      | num c =>
        cases a with
        | num c' => exact notVar_num _
        | _ => exact notVar_two (notVar_two (notVar_num _) (lit c rfl)) hda
      | _ =>
        cases a with
        | num c => exact notVar_two (notVar_two (notVar_left (by simp) (by simp) (notVar_num _)) (notVar_un _ _)) hdb
        | _ => exact general

/-- The derivative of an equation in which `y` is buried is not `y`. -/
theorem diff_ne_var {e d : Expr (Double L)} (he : e.Buried y) {x : Str} (h : diff cfg (embed e) x 1 = .ok (embed d)) : d ≠ .var y := by
  by_cases hi : e.hasIntOp = true
  · rw [diff_throw cfg x 1 (by norm_num) e hi] at h; cases h
  · rw [diff_ok cfg x 1 (by norm_num) e (by simpa using hi)] at h
    simp only [Int.toNat_one, Function.iterate_one] at h
    rw [simplify_embed] at h
    obtain ⟨e', h1, h2⟩ := Res.bind_eq_ok.mp h
    rw [Res.ok.injEq] at h2
    have := embed_injective h2
    subst this
    exact Expr.Buried.notVar_dE x e (.inl he) _ h1

/-! ### the sign of zero -/

namespace Double

theorem Same.refl (x : Double L) : Same x x := .inl rfl

theorem same_of_is {x y : Double L} {r : ℚ} (hx : x.Is r) (hy : y.Is r) : Same x y := by
  rcases is_cases hx with ⟨rfl, h1⟩ | ⟨h0, h1⟩
  · rcases is_cases hy with ⟨_, h2⟩ | ⟨h0, _⟩
    · exact .inr ⟨h1, h2⟩
    · exact absurd rfl h0
  · rcases is_cases hy with ⟨h, _⟩ | ⟨_, h2⟩
    · exact absurd h h0
    · exact .inl (Double.ext (h1.trans h2.symm))

theorem Same.cases {x y : Double L} (h : Same x y) : x.raw = y.raw ∨ ∃ s t, x.raw = .zero s ∧ y.raw = .zero t := by
  rcases h with rfl | ⟨⟨s, h1⟩, t, h2⟩
  · exact .inl rfl
  · exact .inr ⟨s, t, h1, h2⟩

theorem same_of_raw {x y : Double L} (h : x.raw = y.raw ∨ ∃ s t, x.raw = .zero s ∧ y.raw = .zero t) : Same x y := by
  rcases h with h | ⟨s, t, h1, h2⟩
  · exact .inl (Double.ext h)
  · exact .inr ⟨⟨s, h1⟩, t, h2⟩

theorem Same.neg {a a' : Double L} (ha : Same a a') : Same (Arith.neg a) (Arith.neg a') := by
  refine same_of_raw ?_
  show F64.neg a.raw = F64.neg a'.raw ∨ ∃ s t, F64.neg a.raw = .zero s ∧ F64.neg a'.raw = .zero t
  rcases ha.cases with h | ⟨s, t, h1, h2⟩
  · exact .inl (by rw [h])
  · rw [h1, h2]; exact .inr ⟨_, _, rfl, rfl⟩

theorem Same.add {a a' b b' : Double L} (ha : Same a a') (hb : Same b b') : Same (Arith.add a b) (Arith.add a' b') := by
  refine same_of_raw ?_
  show F64.add a.raw b.raw = F64.add a'.raw b'.raw ∨ ∃ s t, F64.add a.raw b.raw = .zero s ∧ F64.add a'.raw b'.raw = .zero t
  rcases ha.cases with h | ⟨s, t, h1, h2⟩ <;> rcases hb.cases with h' | ⟨s', t', h1', h2'⟩
  · exact .inl (by rw [h, h'])
  · rw [h, h1', h2']
    cases a'.raw <;> first | exact .inl rfl | exact .inr ⟨_, _, rfl, rfl⟩
  · rw [h1, h2, h']
    cases b'.raw <;> first | exact .inl rfl | exact .inr ⟨_, _, rfl, rfl⟩
  · rw [h1, h2, h1', h2']; exact .inr ⟨_, _, rfl, rfl⟩

theorem Same.mul {a a' b b' : Double L} (ha : Same a a') (hb : Same b b') : Same (Arith.mul a b) (Arith.mul a' b') := by
  refine same_of_raw ?_
  show F64.mul a.raw b.raw = F64.mul a'.raw b'.raw ∨ ∃ s t, F64.mul a.raw b.raw = .zero s ∧ F64.mul a'.raw b'.raw = .zero t
  rcases ha.cases with h | ⟨s, t, h1, h2⟩ <;> rcases hb.cases with h' | ⟨s', t', h1', h2'⟩
  · exact .inl (by rw [h, h'])
  · rw [h, h1', h2']
    cases a'.raw <;> first | exact .inl rfl | exact .inr ⟨_, _, rfl, rfl⟩
  · rw [h1, h2, h']
    cases b'.raw <;> first | exact .inl rfl | exact .inr ⟨_, _, rfl, rfl⟩
  · rw [h1, h2, h1', h2']; exact .inr ⟨_, _, rfl, rfl⟩

theorem Same.div {a a' b b' : Double L} (ha : Same a a') (hb : Same b b') (hv : Dbl.isInvalid (Arith.div a b) = false) :
    Same (Arith.div a b) (Arith.div a' b') := by
  refine same_of_raw ?_
  have hv : F64.isInvalid (F64.div a.raw b.raw) = false := hv
  show F64.div a.raw b.raw = F64.div a'.raw b'.raw ∨ ∃ s t, F64.div a.raw b.raw = .zero s ∧ F64.div a'.raw b'.raw = .zero t
  rcases ha.cases with h | ⟨s, t, h1, h2⟩ <;> rcases hb.cases with h' | ⟨s', t', h1', h2'⟩
  · exact .inl (by rw [h, h'])
  · rw [h, h1'] at hv
    rw [h, h1', h2']
    generalize a'.raw = r at hv
    cases r <;> first | exact .inl rfl | exact .inr ⟨_, _, rfl, rfl⟩ | cases hv
  · rw [h1, h2, h']
    cases b'.raw <;> first | exact .inl rfl | exact .inr ⟨_, _, rfl, rfl⟩
  · rw [h1, h2, h1', h2']; exact .inl rfl

theorem Same.toInt32 {a a' : Double L} (ha : Same a a') : Dbl.toInt32 a = Dbl.toInt32 a' := by
  show F64.toInt32 a.raw = F64.toInt32 a'.raw
  rcases ha.cases with h | ⟨s, t, h1, h2⟩
  · rw [h]
  · rw [h1, h2]; rfl

theorem Same.square {a a' : Double L} (ha : Same a a') : Arith.mul a a = Arith.mul a' a' := by
  rcases ha with rfl | ⟨⟨s, h1⟩, t, h2⟩
  · rfl
  · refine Double.ext ?_
    show F64.mul a.raw a.raw = F64.mul a'.raw a'.raw
    rw [h1, h2]
    cases s <;> cases t <;> rfl

end Double

/-- Points that differ only in the signs of zeros give values that differ at most in the sign of a zero. -/
theorem eval_same (hL : L.SpecialPoints) {env env' : Str → Res (Double L)} (he : ∀ x y y', env x = .ok y → env' x = .ok y' → y.Same y')
    {e : Expr (Double L)} {v v' : Double L} (h : e.eval true env = .ok v) (h' : e.eval true env' = .ok v') : v.Same v' := by
  induction e generalizing v v' with
  | num c =>
    have h1 : c = v := by simpa [Expr.eval] using h
    have h2 : c = v' := by simpa [Expr.eval] using h'
    subst h1; subst h2
    exact .inl rfl
  | var z => exact he z v v' h h'
  | un o e ih =>
    obtain ⟨w, h1, h2⟩ := Res.bind_eq_ok.mp h
    obtain ⟨w', h1', h2'⟩ := Res.bind_eq_ok.mp h'
    obtain ⟨rfl, h3⟩ := strict_ok h2
    obtain ⟨rfl, h3'⟩ := strict_ok h2'
    have := Double.is_of_valid h3
    exact Double.same_of_is this (hL.zero o w w' _ (ih h1 h1') this)
  | bin o a b iha ihb =>
    obtain ⟨u, h1, h⟩ := Res.bind_eq_ok.mp h
    obtain ⟨w, h2, hz⟩ := Res.bind_eq_ok.mp h
    obtain ⟨u', h1', h'⟩ := Res.bind_eq_ok.mp h'
    obtain ⟨w', h2', hz'⟩ := Res.bind_eq_ok.mp h'
    have hu := iha h1 h1'
    have hw := ihb h2 h2'
    clear iha ihb h h' h1 h2 h1' h2'
    have out : ∀ r r' : Double L, o.apply u w = some r → o.apply u' w' = some r' → v = r ∧ v' = r' ∧ Dbl.isInvalid r = false := by
      intro r r' h3 h4
      rw [h3] at hz
      rw [h4] at hz'
      exact ⟨(strict_ok hz).1, (strict_ok hz').1, (strict_ok hz).2⟩
    cases o
    case add =>
      obtain ⟨rfl, rfl, _⟩ := out _ _ rfl rfl
      exact hu.add hw
    case sub =>
      obtain ⟨rfl, rfl, _⟩ := out _ _ rfl rfl
      exact hu.add hw.neg
    case mul =>
      obtain ⟨rfl, rfl, _⟩ := out _ _ rfl rfl
      exact hu.mul hw
    case div =>
      obtain ⟨rfl, rfl, h3⟩ := out _ _ rfl rfl
      exact hu.div hw h3
    case pow =>
      obtain ⟨rfl, rfl, h3⟩ := out _ _ rfl rfl
      have := Double.is_of_valid h3
      exact Double.same_of_is this (hL.pow_zero u u' w w' _ hu hw this)
    all_goals
      simp only [BinOp.apply, ← hu.toInt32, ← hw.toInt32] at hz hz'
      rw [hz, Res.ok.injEq] at hz'
      exact .inl hz'

end Tom
