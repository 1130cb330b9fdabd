import Verif.Lemmas.Diff
import Verif.Props.Simplify
/-
Properties of `Diff` that do not depend on real analysis: C27, C28, C29, C30 (passes), C31.
-/
namespace Tom
variable {α : Type} [Dbl α]

/-! ### C27 -/

/-- C27: `Diff` throws `runtime_error` exactly on expressions with `& | %`, and throws nothing else. -/
theorem C27_diff_throws (cfg : Config α) (x : Str) (i : Int) (hi : 0 < i) (e : Expr α) :
    (diff cfg (embed e) x i = .throw .runtime ↔ e.hasIntOp = true) ∧
    (∀ exc, diff cfg (embed e) x i = .throw exc → exc = .runtime) := by
  cases h : e.hasIntOp with
  | true => simp [diff_throw cfg x i hi e h, eq_comm]
  | false =>
    rw [diff_ok cfg x i hi e h]
    have : ∀ exc, simplify cfg (embed ((dE x)^[i.toNat] e)) ≠ .throw exc := by
      intro exc
      rcases C24_outcomes cfg ((dE x)^[i.toNat] e) with ⟨e', h⟩ | h | ⟨_, h⟩ <;> simp [h]
    exact ⟨by simp [this], fun exc hx => absurd hx (this exc)⟩

example : (.bin .add (.var ['x']) (.bin .mod (.var ['y']) (.num (.fin 2))) : Expr (XNum Rat)).hasIntOp = true := by decide
example : (0 : Int) < 1 := by decide

/-! ### C28 -/

/-- C28 fails as stated: `Diff("0^x", "x")` calls `std::terminate` (it computes log 0 while simplifying). -/
theorem C28_false_pow :
    diff defaultConfig (embed (.bin .pow (.num (.fin 0)) (.var ['x']))) ['x'] 1 = .terminate := by
  rw [diff_ok _ _ _ (by decide) _ (by decide), simplify_embed]; decide +kernel

/-- ... and so does `Diff("(2^x)/(x-x*1/0)")`-like input: here `x * (1/0)`. -/
theorem C28_false_const :
    diff defaultConfig (embed (.bin .mul (.var ['x']) (.bin .div (.num (.fin 1)) (.num (.fin 0))))) ['x'] 1
      = .terminate := by
  rw [diff_ok _ _ _ (by decide) _ (by decide), simplify_embed]; decide +kernel

/-- The iterates of the differentiation pass contain no `& | %` either. -/
theorem iterate_hasIntOp (x : Str) (n : Nat) (e : Expr α) (h : e.hasIntOp = false) :
    ((dE x)^[n] e).hasIntOp = false := by
  induction n generalizing e with
  | zero => exact h
  | succ n ih => exact ih _ (dE_hasIntOp x e h)

/-- C28, partial: with `throwOnInvalidValue` off, `Diff` returns normally on every expression without `& | %`.  Missing: the
default configuration, for which it is false (`C28_false_pow`); `C26_C28_partial` (Props/RealDiff) covers it at expressions that
are smooth at some point. -/
theorem C28_partial (cfg : Config α) (hc : cfg.throwOnInvalidValue = false) (x : Str) (i : Int) (hi : 0 < i)
    (e : Expr α) (he : e.hasIntOp = false) : ∃ e', diff cfg (embed e) x i = .ok (embed e') := by
  rw [diff_ok cfg x i hi e he]
  exact C24_partial cfg hc _ (iterate_hasIntOp x _ e he)

example : ({ defaultConfig with throwOnInvalidValue := false }).throwOnInvalidValue = false ∧
    (.bin .pow (.num (.fin 0)) (.var ['x']) : Expr (XNum Rat)).hasIntOp = false := by decide

/-! ### C29 -/

theorem dE_vars (x : Str) (e : Expr α) : ∀ y ∈ (dE x e).vars, y ∈ e.vars := by
  fun_induction dE x e <;> intro y <;> simp_all [Expr.vars] <;> grind

theorem iterate_vars (x : Str) (n : Nat) (e : Expr α) : ∀ y ∈ ((dE x)^[n] e).vars, y ∈ e.vars := by
  induction n generalizing e with
  | zero => exact fun _ h => h
  | succ n ih => exact fun y h => dE_vars x e y (ih _ y h)

/-- C29: the work list of `Diff` always empties (the loop never runs out of the fuel, which is a multiple of the number of
nodes), `Diff` executes no undefined behaviour, and the result contains only variables of the input. -/
theorem C29_diff (cfg : Config α) (x : Str) (i : Int) (hi : 0 < i) (e : Expr α) :
    diff cfg (embed e) x i ≠ .diverge ∧ diff cfg (embed e) x i ≠ .ub ∧ diff cfg (embed e) x i ≠ .assertFail ∧
    ∀ r, diff cfg (embed e) x i = .ok r → ∃ e', r = embed e' ∧ ∀ y ∈ e'.vars, y ∈ e.vars := by
  cases h : e.hasIntOp with
  | true => simp [diff_throw cfg x i hi e h]
  | false =>
    rw [diff_ok cfg x i hi e h]
    have hn := iterate_hasIntOp x i.toNat e h
    rcases C24_outcomes cfg ((dE x)^[i.toNat] e) with ⟨e', h'⟩ | h' | ⟨h'', h'⟩
    · refine ⟨by simp [h'], by simp [h'], by simp [h'], fun r hr => ?_⟩
      have h1 := C25_no_growth cfg _ _ h'
      rw [h'] at hr
      cases hr
      exact ⟨e', rfl, fun y hy => iterate_vars x _ e y (h1.2 y hy)⟩
    · simp [h']
    · rw [hn] at h''; cases h''

example : diff defaultConfig (embed (.bin .mul (.var ['x']) (.var ['y']))) ['x'] 1 = .ok (embed (.var ['y'])) := by
  rw [diff_ok _ _ _ (by decide) _ (by decide), simplify_embed]; decide +kernel

/-- The fuel of the work list is at most four times the number of nodes, so the number of steps is linear. -/
theorem C29_fuel (e : Expr α) : diffFuel (embed e) ≤ 4 * e.size := by
  induction e with
  | num v => simp [embed, diffFuel, Expr.size]
  | var v => simp [embed, diffFuel, Expr.size]
  | un o e ih => simp only [embed, diffFuel, Expr.size]; split <;> omega
  | bin o a b iha ihb => simp only [embed, diffFuel, Expr.size]; split <;> omega

/-! ### C30 -/

/-- C30: `n` differentiation passes followed by one simplification; one more pass first is the same as one more order. -/
theorem C30_passes (cfg : Config α) (x : Str) (n : Nat) (e : Expr α) (he : e.hasIntOp = false) :
    ∃ d : Expr α, diffOnce x (embed e) = .ok (embed d) ∧ d.hasIntOp = false ∧
      diff cfg (embed e) x 1 = simplify cfg (embed d) ∧
      (0 < n → diff cfg (embed e) x (n + 1) = diff cfg (embed d) x n) := by
  refine ⟨dE x e, diffOnce_ok x e he, dE_hasIntOp x e he, ?_, fun hn => ?_⟩
  · rw [diff_ok cfg x 1 (by decide) e he]; rfl
  · rw [diff_ok cfg x _ (by omega) e he, diff_ok cfg x _ (by omega) _ (dE_hasIntOp x e he)]
    have : ((n : Int) + 1).toNat = n + 1 := by omega
    rw [this, Function.iterate_succ_apply]
    simp

example : diff defaultConfig (embed (.bin .pow (.var ['x']) (.num (.fin 3)))) ['x'] 2 =
    .ok (embed (.bin .mul (.num (.fin 3)) (.bin .mul (.num (.fin 2)) (.var ['x'])))) := by
  rw [diff_ok _ _ _ (by decide) _ (by decide), simplify_embed]; decide +kernel

/-! ### C31 -/

/-- C31 fails as stated: `Diff("exp(x)", "y")` returns `exp(x)`, for every configuration and arithmetic. -/
theorem C31_false (cfg : Config α) :
    diff cfg (embed (.un .exp (.var ['x']) : Expr α)) ['y'] 1 = .ok (embed (.un .exp (.var ['x']))) := by
  rw [diff_ok _ _ _ (by decide) _ rfl, simplify_embed]; rfl

/-- What zero does in the arithmetic of `double`: a product or quotient with zero is zero (of either sign) or invalid, sums,
differences and negations of zeros are zeros.  IEEE arithmetic has these properties. -/
structure ZeroLaws (α : Type) [Dbl α] : Prop where
  zero : Arith.eq (Dbl.ofInt 0 : α) (Dbl.ofInt 0) = true
  mul : ∀ c z : α, Arith.eq z (Dbl.ofInt 0) = true →
    Dbl.isInvalid (Arith.mul c z) = true ∨ Arith.eq (Arith.mul c z) (Dbl.ofInt 0) = true
  mul' : ∀ c z : α, Arith.eq z (Dbl.ofInt 0) = true →
    Dbl.isInvalid (Arith.mul z c) = true ∨ Arith.eq (Arith.mul z c) (Dbl.ofInt 0) = true
  div : ∀ c z : α, Arith.eq z (Dbl.ofInt 0) = true →
    Dbl.isInvalid (Arith.div z c) = true ∨ Arith.eq (Arith.div z c) (Dbl.ofInt 0) = true
  add : ∀ y z : α, Arith.eq y (Dbl.ofInt 0) = true → Arith.eq z (Dbl.ofInt 0) = true →
    Arith.eq (Arith.add y z) (Dbl.ofInt 0) = true
  sub : ∀ y z : α, Arith.eq y (Dbl.ofInt 0) = true → Arith.eq z (Dbl.ofInt 0) = true →
    Arith.eq (Arith.sub y z) (Dbl.ofInt 0) = true
  neg : ∀ z : α, Arith.eq z (Dbl.ofInt 0) = true → Arith.eq (Arith.neg z) (Dbl.ofInt 0) = true

/-- a literal zero (of either sign) -/
def IsZero (e : Expr α) : Prop := ∃ v : α, e = .num v ∧ Arith.eq v (Dbl.ofInt 0) = true

theorem checked_ok {strict : Bool} {v w : α} (h : checked strict v = .ok w) :
    w = v ∧ (strict = true → Dbl.isInvalid v = false) := by
  revert h; unfold checked; cases strict <;> cases h : Dbl.isInvalid v <;> simp <;> intro h <;> exact h.symm

/-- Simplification of a product with zero. -/
theorem simpTop_mul_zero (L : ZeroLaws α) (cfg : Config α) (hc : cfg.throwOnInvalidValue = true) {a b e' : Expr α}
    (hz : IsZero a ∨ IsZero b) (h : simpTop cfg (.bin .mul a b) = .ok e') : IsZero e' := by
  rcases simpTop_bin_ok h with ⟨v, w, u, z, rfl, rfl, hu, hck, rfl⟩ | ⟨hn, hrest⟩
  · simp only [BinOp.apply, Option.some.injEq] at hu
    subst hu
    obtain ⟨rfl, hinv⟩ := checked_ok hck
    refine ⟨_, rfl, ?_⟩
    rcases hz with ⟨v', hv, h0⟩ | ⟨v', hv, h0⟩ <;> cases hv
    · rcases L.mul' w v h0 with h | h
      · rw [hinv hc] at h; cases h
      · exact h
    · rcases L.mul v w h0 with h | h
      · rw [hinv hc] at h; cases h
      · exact h
  · have : simpTop cfg (.bin .mul a b) = .ok (.num (Dbl.ofInt 0)) := by
      rcases hz with ⟨v', rfl, h0⟩ | ⟨v', rfl, h0⟩
      · cases b with
        | num => simp [Expr.isNum] at hn
        | var => simp [simpTop, isLit, h0]
        | un => simp [simpTop, isLit, h0]
        | bin => simp [simpTop, isLit, h0]
      · cases a with
        | num => simp [Expr.isNum] at hn
        | var => simp [simpTop, isLit, h0]
        | un => simp [simpTop, isLit, h0]
        | bin => simp [simpTop, isLit, h0]
    rw [this] at h
    cases h
    exact ⟨_, rfl, L.zero⟩

theorem simpTop_div_zero (L : ZeroLaws α) (cfg : Config α) (hc : cfg.throwOnInvalidValue = true) {a b e' : Expr α}
    (hz : IsZero a) (h : simpTop cfg (.bin .div a b) = .ok e') : IsZero e' := by
  rcases simpTop_bin_ok h with ⟨v, w, u, z, rfl, rfl, hu, hck, rfl⟩ | ⟨hn, hrest⟩
  · simp only [BinOp.apply, Option.some.injEq] at hu
    subst hu
    obtain ⟨rfl, hinv⟩ := checked_ok hck
    refine ⟨_, rfl, ?_⟩
    obtain ⟨v', hv, h0⟩ := hz
    cases hv
    rcases L.div w v h0 with h | h
    · rw [hinv hc] at h; cases h
    · exact h
  · have : simpTop cfg (.bin .div a b) = .ok (.num (Dbl.ofInt 0)) := by
      obtain ⟨v', rfl, h0⟩ := hz
      cases b with
        | num => simp [Expr.isNum] at hn
        | var => simp [simpTop, isLit, h0]
        | un => simp [simpTop, isLit, h0]
        | bin => simp [simpTop, isLit, h0]
    rw [this] at h
    cases h
    exact ⟨_, rfl, L.zero⟩

theorem simpTop_addsub_zero (L : ZeroLaws α) (cfg : Config α) {o : BinOp} (ho : o = .add ∨ o = .sub) {a b e' : Expr α}
    (ha : IsZero a) (hb : IsZero b) (h : simpTop cfg (.bin o a b) = .ok e') : IsZero e' := by
  obtain ⟨v, rfl, hv⟩ := ha
  obtain ⟨w, rfl, hw⟩ := hb
  rcases simpTop_bin_ok h with ⟨v', w', u, z, h1, h2, hu, hck, rfl⟩ | ⟨hn, _⟩
  · cases h1; cases h2
    obtain ⟨rfl, _⟩ := checked_ok hck
    rcases ho with rfl | rfl <;> simp only [BinOp.apply, Option.some.injEq] at hu <;> subst hu
    · exact ⟨_, rfl, L.add _ _ hv hw⟩
    · exact ⟨_, rfl, L.sub _ _ hv hw⟩
  · simp [Expr.isNum] at hn

theorem simpE_bin_ok {cfg : Config α} {o : BinOp} {a b e' : Expr α} (h : simpE cfg (.bin o a b) = .ok e') :
    ∃ a' b', simpE cfg a = .ok a' ∧ simpE cfg b = .ok b' ∧ simpTop cfg (.bin o a' b') = .ok e' := by
  obtain ⟨a', ha, h⟩ := Res.bind_eq_ok.mp h
  obtain ⟨b', hb, h⟩ := Res.bind_eq_ok.mp h
  exact ⟨a', b', ha, hb, h⟩

/-- The simplified expression is a zero literal whenever simplification returns. -/
def ZeroS (cfg : Config α) (e : Expr α) : Prop := ∀ e', simpE cfg e = .ok e' → IsZero e'

theorem ZeroS.num0 (L : ZeroLaws α) (cfg : Config α) : ZeroS cfg (.num (Dbl.ofInt 0)) := by
  intro e' h; cases h; exact ⟨_, rfl, L.zero⟩

theorem ZeroS.mulr (L : ZeroLaws α) (cfg : Config α) (hc : cfg.throwOnInvalidValue = true) {a b : Expr α}
    (hb : ZeroS cfg b) : ZeroS cfg (.bin .mul a b) := by
  intro e' h
  obtain ⟨a', b', _, h2, h⟩ := simpE_bin_ok h
  exact simpTop_mul_zero L cfg hc (.inr (hb _ h2)) h

theorem ZeroS.mull (L : ZeroLaws α) (cfg : Config α) (hc : cfg.throwOnInvalidValue = true) {a b : Expr α}
    (ha : ZeroS cfg a) : ZeroS cfg (.bin .mul a b) := by
  intro e' h
  obtain ⟨a', b', h1, _, h⟩ := simpE_bin_ok h
  exact simpTop_mul_zero L cfg hc (.inl (ha _ h1)) h

theorem ZeroS.div (L : ZeroLaws α) (cfg : Config α) (hc : cfg.throwOnInvalidValue = true) {a b : Expr α}
    (ha : ZeroS cfg a) : ZeroS cfg (.bin .div a b) := by
  intro e' h
  obtain ⟨a', b', h1, _, h⟩ := simpE_bin_ok h
  exact simpTop_div_zero L cfg hc (ha _ h1) h

theorem ZeroS.addsub (L : ZeroLaws α) (cfg : Config α) {o : BinOp} (ho : o = .add ∨ o = .sub) {a b : Expr α}
    (ha : ZeroS cfg a) (hb : ZeroS cfg b) : ZeroS cfg (.bin o a b) := by
  intro e' h
  obtain ⟨a', b', h1, h2, h⟩ := simpE_bin_ok h
  exact simpTop_addsub_zero L cfg ho (ha _ h1) (hb _ h2) h

theorem ZeroS.sign (L : ZeroLaws α) (cfg : Config α) {o : UnOp} (ho : o = .pos ∨ o = .neg) {a : Expr α}
    (ha : ZeroS cfg a) : ZeroS cfg (.un o a) := by
  intro e' h
  obtain ⟨a', h1, h⟩ := Res.bind_eq_ok.mp h
  obtain ⟨v, rfl, hv⟩ := ha _ h1
  simp only [simpTop] at h
  obtain ⟨w, hw, h⟩ := Res.bind_eq_ok.mp h
  have hw : checked cfg.throwOnInvalidValue (o.apply v) = .ok w := by
    revert hw; cases checked cfg.throwOnInvalidValue (o.apply v) <;> simp
  obtain ⟨rfl, _⟩ := checked_ok hw
  cases h
  rcases ho with rfl | rfl
  · exact ⟨_, rfl, hv⟩
  · exact ⟨_, rfl, L.neg _ hv⟩

theorem dE_zero (L : ZeroLaws α) (cfg : Config α) (hc : cfg.throwOnInvalidValue = true) (x : Str) (e : Expr α)
    (hx : x ∉ e.vars) (hf : e.NoForeignExp x) : ZeroS cfg (dE x e) := by
  have n0 := ZeroS.num0 L cfg
  fun_induction dE x e <;> simp only [Expr.vars, Expr.NoForeignExp, List.mem_append, List.mem_singleton, not_or] at hx hf
  all_goals first
    | exact n0
    | (rename_i ih; exact ZeroS.sign L cfg (by simp) (ih hx hf.2))
    | (rename_i ih; exact ZeroS.mulr L cfg hc (ih hx hf.2))
    | (rename_i ih; exact ZeroS.mulr L cfg hc (ih hx.2 hf.2))
    | (rename_i ih; exact ZeroS.mulr L cfg hc (ih hx.1 hf.1))
    | (rename_i ih; exact ZeroS.mull L cfg hc (ih hx.1 hf.1))
    | (rename_i ih; exact ZeroS.div L cfg hc (ih hx.1 hf.1))
    | (rename_i ih1 ih2; exact ZeroS.addsub L cfg (by simp) (ih1 hx.1 hf.1) (ih2 hx.2 hf.2))
    | (rename_i ih1 ih2; exact ZeroS.addsub L cfg (by simp) (ZeroS.mull L cfg hc (ih1 hx.1 hf.1)) (ZeroS.mulr L cfg hc (ih2 hx.2 hf.2)))
    | (rename_i ih1 ih2; exact ZeroS.addsub L cfg (by simp) (ih2 hx.1 hf.1) (ih1 hx.2 hf.2))
    | (rename_i ih1 ih2; exact ZeroS.addsub L cfg (by simp) (ZeroS.mull L cfg hc (ih2 hx.1 hf.1)) (ZeroS.mulr L cfg hc (ih1 hx.2 hf.2)))
    | (rename_i ih1 ih2; exact ZeroS.div L cfg hc (ZeroS.addsub L cfg (by simp) (ZeroS.mull L cfg hc (ih2 hx.1 hf.1)) (ZeroS.mulr L cfg hc (ih1 hx.2 hf.2))))
    | (rename_i ih1 ih2; exact ZeroS.div L cfg hc (ZeroS.addsub L cfg (by simp) (ZeroS.mull L cfg hc (ih1 hx.1 hf.1)) (ZeroS.mulr L cfg hc (ih2 hx.2 hf.2))))
    | (rename_i ih1 ih2; exact ZeroS.mulr L cfg hc (ZeroS.addsub L cfg (by simp) (ZeroS.mull L cfg hc (ih1 hx.2 hf.2)) (ZeroS.mulr L cfg hc (ZeroS.mulr L cfg hc (ih2 hx.1 hf.1)))))
    | (rename_i ih1 ih2; exact ZeroS.mulr L cfg hc (ZeroS.addsub L cfg (by simp) (ZeroS.mull L cfg hc (ih2 hx.2 hf.2)) (ZeroS.mulr L cfg hc (ZeroS.mulr L cfg hc (ih1 hx.1 hf.1)))))
    | (rw [if_neg (fun h => hx h.symm)]; exact n0)
    | skip
  · rename_i hv
    cases ‹Expr α› <;> simp [Expr.isVar] at hv
    simp [Expr.vars] at hx
    exact absurd (hf.1 trivial _ rfl).symm hx

theorem dE_noForeignExp (x : Str) (e : Expr α) (hf : e.NoForeignExp x) : (dE x e).NoForeignExp x := by
  fun_induction dE x e <;> simp_all [Expr.NoForeignExp]

theorem iterate_noForeignExp (x : Str) (n : Nat) (e : Expr α) (hf : e.NoForeignExp x) :
    ((dE x)^[n] e).NoForeignExp x := by
  induction n generalizing e with
  | zero => exact hf
  | succ n ih => exact ih _ (dE_noForeignExp x e hf)

/-- C31, partial: if `x` does not occur in `e` and `e` contains no `exp` of a bare variable, then whenever `Diff(e, x, i)`
returns, it returns the literal zero (default `throwOnInvalidValue`; any arithmetic in which zero behaves as in IEEE).
Missing: `exp` of a bare variable, for which it is false (`C31_false`). -/
theorem C31_partial (L : ZeroLaws α) (cfg : Config α) (hc : cfg.throwOnInvalidValue = true) (x : Str) (i : Int)
    (hi : 0 < i) (e : Expr α) (hx : x ∉ e.vars) (hf : e.NoForeignExp x) (r : Raw α)
    (h : diff cfg (embed e) x i = .ok r) :
    ∃ z : α, r = embed (.num z) ∧ Arith.eq z (Dbl.ofInt 0) = true := by
  cases ho : e.hasIntOp with
  | true => rw [diff_throw cfg x i hi e ho] at h; cases h
  | false =>
    rw [diff_ok cfg x i hi e ho] at h
    obtain ⟨n, hn⟩ : ∃ n, i.toNat = n + 1 := ⟨i.toNat - 1, by omega⟩
    rw [hn, Function.iterate_succ_apply'] at h
    rw [simplify_embed] at h
    obtain ⟨e', h1, h2⟩ := Res.bind_eq_ok.mp h
    cases h2
    obtain ⟨z, rfl, hz⟩ := dE_zero L cfg hc x ((dE x)^[n] e) (fun hm => hx (iterate_vars x n e x hm))
      (iterate_noForeignExp x n e hf) e' h1
    exact ⟨z, rfl, hz⟩

/-- Exact rational arithmetic satisfies the laws. -/
theorem zeroLaws_rat : ZeroLaws (XNum Rat) where
  zero := by decide +kernel
  mul c z h := by
    cases c <;> cases z <;> simp_all [Arith.eq, Arith.mul, Dbl.ofInt, Dbl.isInvalid, XNum.cmp, XNum.map2]
  mul' c z h := by
    cases c <;> cases z <;> simp_all [Arith.eq, Arith.mul, Dbl.ofInt, Dbl.isInvalid, XNum.cmp, XNum.map2]
  div c z h := by
    cases c <;> cases z <;> simp_all [Arith.eq, Arith.div, Dbl.ofInt, Dbl.isInvalid, XNum.cmp, XNum.map2O]
    rename_i a b
    by_cases hb : a = 0 <;> simp [hb, Rat.div_def]
  add y z hy hz := by
    cases y <;> cases z <;> simp_all [Arith.eq, Arith.add, Dbl.ofInt, XNum.cmp, XNum.map2, Rat.add_zero]
  sub y z hy hz := by
    cases y <;> cases z <;> simp_all [Arith.eq, Arith.sub, Dbl.ofInt, XNum.cmp, XNum.map2, Rat.sub_self]
  neg z hz := by
    cases z <;> simp_all [Arith.eq, Arith.neg, Dbl.ofInt, XNum.cmp, XNum.map]

example : diff defaultConfig (embed (.bin .mul (.var ['y']) (.un .sin (.var ['y'])))) ['x'] 1
    = .ok (embed (.num (.fin 0))) := by
  rw [diff_ok _ _ _ (by decide) _ (by decide), simplify_embed]; decide +kernel

end Tom
