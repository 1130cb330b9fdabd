import Verif.Spec.HigherDiff
import Verif.Props.DoubleDiff
import Verif.Props.Diff
/-
C131: higher derivatives in IEEE doubles.
-/
namespace Tom
namespace Double
variable {L : Libm}

theorem exactRules_of {n : ℕ} (hn : 0 < n) (e : Expr (Double L)) (h : e.ExactRulesFor n) : e.ExactRules := by
  induction e with
  | num v => exact h
  | var y => trivial
  | un o e ih => exact ⟨h.1, h.2.1, ih h.2.2⟩
  | bin o a b iha ihb => exact ⟨iha h.1, ihb h.2.1, fun ho c hc => by simpa using h.2.2 ho c hc 1 le_rfl hn⟩

theorem exactRulesFor_mono {n : ℕ} (e : Expr (Double L)) (h : e.ExactRulesFor (n + 1)) : e.ExactRulesFor n := by
  induction e with
  | num v => exact h
  | var y => trivial
  | un o e ih => exact ⟨h.1, h.2.1, ih h.2.2⟩
  | bin o a b iha ihb => exact ⟨iha h.1, ihb h.2.1, fun ho c hc k h1 h2 => h.2.2 ho c hc k h1 (by omega)⟩

theorem valid_ofInt {i : ℤ} (h : |i| ≤ 2 ^ 53) : Dbl.isInvalid (Dbl.ofInt i : Double L) = false := (is_ofInt (L := L) h).1

theorem isDouble_two_sub {n : ℕ} (hn : n ≤ 2 ^ 52) (k : ℕ) (h : k ≤ n) : IsDouble ((Dbl.ofInt 2 : Double L).raw.toRat - k) := by
  have : (Dbl.ofInt 2 : Double L).raw.toRat = 2 := by
    have := (is_ofInt (L := L) (i := 2) (by norm_num)).2
    simpa using this
  rw [this]
  refine ⟨2 - k, 0, ?_, ?_, by norm_num, by norm_num, by push_cast; simp⟩ <;> omega

theorem exactRulesFor_dE {n : ℕ} (hn : n ≤ 2 ^ 52) (x : Str) (e : Expr (Double L)) (h : e.ExactRulesFor (n + 1)) :
    (dE x e).ExactRulesFor n := by
  have h0 : Dbl.isInvalid (Dbl.ofInt 0 : Double L) = false := valid_ofInt (by norm_num)
  have h1 : Dbl.isInvalid (Dbl.ofInt 1 : Double L) = false := valid_ofInt (by norm_num)
  have h2 : Dbl.isInvalid (Dbl.ofInt 2 : Double L) = false := valid_ofInt (by norm_num)
  have hm : Dbl.isInvalid (Dbl.ofInt (-1) : Double L) = false := valid_ofInt (by norm_num)
  have hd : ∀ k : ℕ, 1 ≤ k → k ≤ n → IsDouble ((Dbl.ofInt 2 : Double L).raw.toRat - k) := fun k _ hk => isDouble_two_sub hn k hk
  induction e with
  | num v => exact h0
  | var y => simp only [dE, Expr.ExactRulesFor]; split <;> assumption
  | un o e ih =>
    have ih := ih h.2.2
    have he := exactRulesFor_mono e h.2.2
    have g2 := h.1
    have g10 := h.2.1
    cases o <;> simp only [dE, ne_eq, not_true_eq_false, reduceCtorEq] at g2 g10 ⊢ <;>
      (repeat' split) <;> simp_all [Expr.ExactRulesFor]
  | bin o a b iha ihb =>
    have iha := iha h.1
    have ihb := ihb h.2.1
    have ha := exactRulesFor_mono a h.1
    have hb := exactRulesFor_mono b h.2.1
    cases o
    case pow =>
      have hc := h.2.2 rfl
      cases b with
      | num c =>
        have hci : c.Is c.raw.toRat := is_of_valid h.2.1
        have hd1 := hc c rfl 1 le_rfl (by omega)
        have hsub := sub_is hci (is_ofInt (L := L) (i := 1) (by norm_num)) (by
          push_cast at hd1 ⊢; rw [rnd_of_isDouble hd1]; exact isDouble_lt hd1)
        push_cast at hd1 hsub
        rw [rnd_of_isDouble hd1] at hsub
        have hk : ∀ k : ℕ, 1 ≤ k → k ≤ n → IsDouble ((Arith.sub c (Dbl.ofInt 1) : Double L).raw.toRat - k) := by
          intro k k1 k2
          have e1 : (Arith.sub c (Dbl.ofInt 1) : Double L).raw.toRat = c.raw.toRat - 1 := hsub.2
          rw [e1]
          have := hc c rfl (k + 1) (by omega) (by omega)
          push_cast at this
          rwa [sub_sub, add_comm]
        have hv : Dbl.isInvalid (Arith.sub c (Dbl.ofInt 1) : Double L) = false := hsub.1
        have hc0 : Dbl.isInvalid c = false := h.2.1
        cases a <;> simp_all [dE, Expr.ExactRulesFor]
      | _ =>
        cases a <;> simp_all [dE, Expr.ExactRulesFor]
    all_goals
      simp only [dE] <;> (repeat' split) <;> simp_all [Expr.ExactRulesFor]

theorem mapNum_iterate (x : Str) (n : ℕ) (hn : n ≤ 2 ^ 52) (e : Expr (Double L)) (h : e.ExactRulesFor n) :
    ((dE x)^[n] e).mapNum toReal = (dE x)^[n] (e.mapNum toReal) := by
  induction n generalizing e with
  | zero => rfl
  | succ n ih =>
    rw [Function.iterate_succ_apply, Function.iterate_succ_apply, ih (by omega) _ (exactRulesFor_dE (by omega) x e h), mapNum_dE x e (exactRules_of (by omega) e h)]

theorem iterate_hasIntOp (x : Str) (n : ℕ) (e : Expr (Double L)) (h : e.hasIntOp = false) : ((dE x)^[n] e).hasIntOp = false := by
  induction n generalizing e with
  | zero => exact h
  | succ n ih => exact ih _ (dE_hasIntOp x e h)

/-- the derivative written out `n` times has the `n`-th partial derivative as its value -/
theorem iterate_correct (ρ : Str → ℝ) (x : Str) (n : ℕ) (hn : 0 < n) (e : Expr (XNum ℝ)) (hs : Smooth n ρ e) (hf : e.NoForeignExp x) :
    ∃ d, realVal ρ ((dE x)^[n] e) = some d ∧ HasNthPartialDeriv ρ x e n d := by
  set g : ℕ → ℝ → ℝ := fun k t => (realVal (at_ ρ x t) ((dE x)^[k] e)).getD 0 with hg
  have hgk : ∀ k ≤ n, ∀ ρ', Smooth n ρ' e → ∃ v, realVal ρ' ((dE x)^[k] e) = some v := by
    intro k hk ρ' h
    exact smooth_val (n := n - k) ρ' _ (smooth_iterate (n - k) k ρ' x e (by rwa [Nat.sub_add_cancel hk]))
  have hev := smooth_eventually hn ρ x e hs hf
  obtain ⟨d, hd⟩ := hgk n le_rfl ρ hs
  refine ⟨d, hd, g, ?_, ?_, ?_⟩
  · filter_upwards [hev] with t ht
    obtain ⟨v, hv⟩ := hgk 0 (Nat.zero_le n) _ ht
    simp only [Function.iterate_zero, id] at hv
    simp [hg, hv]
  · intro k hk
    filter_upwards [hev] with t ht
    have hs1 : Smooth 1 (at_ ρ x t) ((dE x)^[k] e) := by
      refine smooth_mono (n := n - k) (by omega) _ _ (smooth_iterate (n - k) k _ x e ?_)
      rwa [Nat.sub_add_cancel hk.le]
    obtain ⟨d', hd', f, hf1, hf2⟩ := dE_correct (at_ ρ x t) x _ hs1 (iterate_noForeignExp x k e hf)
    rw [at_x] at hf1 hf2
    have hgd : g (k + 1) t = d' := by
      simp only [hg, Function.iterate_succ_apply', hd', Option.getD_some]
    rw [hgd]
    refine hf2.congr_of_eventuallyEq ?_
    filter_upwards [hf1] with s hs'
    rw [at_at] at hs'
    simp [hg, hs']
  · simp [hg, at_self, hd]

theorem noForeignExp_mapNum (x : Str) (e : Expr (Double L)) (hfe : e.NoForeignExp x) : (e.mapNum toReal).NoForeignExp x := by
  induction e with
  | num _ => trivial
  | var _ => trivial
  | un o e ih =>
    refine ⟨fun ho y hy => hfe.1 ho y ?_, ih hfe.2⟩
    cases e <;> simp_all [Expr.mapNum]
  | bin o a b iha ihb => exact ⟨iha hfe.1, ihb hfe.2⟩

/-- C131: let the `n`-th derivative of an expression, written out by the rules, have the exact value `d` at a point of doubles, with the error bound `E`
of C76 for evaluating it with doubles, and let the rules produce no rounded literal.  Then `Diff(e, x, n)` returns an expression, substituting the point
and `Vpa` give a number, `d` is the `n`-th partial derivative of the function of real numbers the expression denotes, and the number computed differs from
it by at most `E`.  Left out is what is false: `exp(y)` of another variable (C26_false). -/
theorem C131 (δ : ℝ) (hW : L.Within δ) (hF : L.AnnexF) (cfg : Config (Double L)) (hs : cfg.throwOnInvalidValue = true)
    (n : ℕ) (hn : 0 < n) (hn' : n ≤ 2 ^ 52)
    (e : Expr (Double L)) (x : Str) (values : List (Str × Double L)) (hval : ∀ b ∈ values, Dbl.isInvalid b.2 = false) (ρ : Str → ℝ)
    (hρ : ∀ s ∈ e.vars, ∃ y p, values.lookup s = some y ∧ y.Is p ∧ ρ s = ((p : ℚ) : ℝ))
    (hx : e.ExactRulesFor n) (hfe : e.NoForeignExp x) (hsm : Smooth n ρ (e.mapNum toReal))
    (d E : ℝ) (h : enclosure δ ρ ((dE x)^[n] e) = some (d, E)) :
    HasNthPartialDeriv ρ x (e.mapNum toReal) n d ∧
    ∃ t y p, diff cfg (embed e) x n = .ok t ∧ (subsValues t values >>= fun t => vpa cfg t) = .ok y ∧ y.Is p ∧
      |((p : ℚ) : ℝ) - d| ≤ E := by
  have hreal := C76_exact_value δ ρ _ d E h
  rw [mapNum_iterate x n hn' e hx] at hreal
  obtain ⟨d', hd', hp⟩ := iterate_correct ρ x n hn _ hsm (noForeignExp_mapNum x e hfe)
  rw [hreal] at hd'
  obtain rfl := Option.some.inj hd'
  refine ⟨hp, ?_⟩
  have hint : e.hasIntOp = false := by rw [← hasIntOp_mapNum toReal]; exact smooth_hasIntOp _ hsm
  have henv : ∀ s ∈ e.vars, ∃ y p, tableEnv values s = .ok y ∧ y.Is p ∧ ρ s = ((p : ℚ) : ℝ) := fun s hs => by
    obtain ⟨y, p, r1, r2, r3⟩ := hρ s hs
    exact ⟨y, p, by rw [tableEnv, r1], r2, r3⟩
  obtain ⟨y, p, g1, g2, g3⟩ := C76_enclosure δ hW true (tableEnv values) ρ ((dE x)^[n] e) (fun s hs => henv s (iterate_vars x n e s hs)) d E h
  have hv : (subsValues (embed ((dE x)^[n] e)) values >>= fun t => vpa cfg t) = .ok y := by
    rw [C17_subsValues_vpa, hs]
    exact g1
  obtain ⟨m, rfl⟩ : ∃ m, n = m + 1 := ⟨n - 1, by omega⟩
  rw [Function.iterate_succ_apply'] at h hv
  have hz : ((dE x)^[m] e).NoZeroPow (tableEnv values) := noZeroPow_of_deriv
    (P := fun a => (∀ s ∈ a.vars, s ∈ e.vars) ∧ ∃ w, enclosure δ ρ a = some w)
    (fun o a ⟨q1, w, q2⟩ => ⟨q1, by
      simp only [enclosure] at q2
      obtain ⟨w', q3, -⟩ := Option.bind_eq_some_iff.mp q2
      exact ⟨w', q3⟩⟩)
    (fun o a b ⟨q1, w, q2⟩ => by
      simp only [enclosure] at q2
      obtain ⟨w1, q3, q4⟩ := Option.bind_eq_some_iff.mp q2
      obtain ⟨w2, q5, -⟩ := Option.bind_eq_some_iff.mp q4
      exact ⟨⟨fun s hs => q1 s (by simp [Expr.vars, hs]), w1, q3⟩, ⟨fun s hs => q1 s (by simp [Expr.vars, hs]), w2, q5⟩⟩)
    (fun a ⟨q1, w, q2⟩ => enclosure_log hW (fun s hs => henv s (q1 s hs)) q2) x _ (iterate_hasIntOp x m e hint)
    ⟨fun s hs => iterate_vars x m e s (dE_vars x _ s hs), _, h⟩
  obtain ⟨t, y', k1, k2, k3⟩ := C82_partial hF cfg hs _ (enclosure_nums δ ρ _ _ h) values hval (noZeroPow_dE _ x _ hz) y hv
  refine ⟨t, y', p, ?_, k2, ?_, g3⟩
  · rw [diff_ok cfg x _ (by omega) e hint]
    rw [show ((m + 1 : ℕ) : Int).toNat = m + 1 by omega, Function.iterate_succ_apply']
    exact k1
  · exact is_of_eq g2 k3

/-- no `log2`, no `log10` -/
def noLog {α : Type} : Expr α → Prop
  | .num _ | .var _ => True
  | .un o e => o ≠ .log2 ∧ o ≠ .log10 ∧ noLog e
  | .bin _ a b => noLog a ∧ noLog b

/-- a condition that is easy to check: integer literals below `2^52`, no `log2`, no `log10` -/
theorem exactRulesFor_integers (n : ℕ) (hn : n ≤ 2 ^ 52) (e : Expr (Double L)) (h2 : ∀ v ∈ e.nums, ∃ z : ℤ, v.Is z ∧ |z| < 2 ^ 52)
    (h : noLog e) : e.ExactRulesFor n := by
  induction e with
  | num v =>
    obtain ⟨z, h, -⟩ := h2 v (by simp [Expr.nums])
    exact h.1
  | var y => trivial
  | un o e ih => exact ⟨h.1, h.2.1, ih h2 h.2.2⟩
  | bin o a b iha ihb =>
    refine ⟨iha (fun v hv => h2 v (List.mem_append_left _ hv)) h.1, ihb (fun v hv => h2 v (List.mem_append_right _ hv)) h.2, ?_⟩
    rintro - c rfl k - hk
    obtain ⟨z, hz, hz'⟩ := h2 c (by simp [Expr.nums])
    have : c.raw.toRat = (z : ℚ) := hz.2
    rw [this]
    have := abs_lt.mp hz'
    refine ⟨z - k, 0, ?_, ?_, by norm_num, by norm_num, by push_cast; simp⟩ <;> omega

theorem poly_dE (x : Str) (e : Expr (Double L)) (hp : e.Polynomial) : (dE x e).Polynomial := by
  induction e with
  | num v => trivial
  | var y => trivial
  | un o e ih => rcases hp.1 with rfl | rfl <;> simp only [dE] <;> exact ⟨by simp, ih hp.2⟩
  | bin o a b iha ihb =>
    have iha := iha hp.2.1
    have ihb := ihb hp.2.2
    have ha := hp.2.1
    have hb := hp.2.2
    rcases hp.1 with rfl | rfl | rfl <;> simp only [dE] <;> (repeat' split) <;> simp_all [Expr.Polynomial]

theorem poly_iterate (x : Str) (n : ℕ) (e : Expr (Double L)) (hp : e.Polynomial) : ((dE x)^[n] e).Polynomial := by
  induction n generalizing e with
  | zero => exact hp
  | succ n ih => exact ih _ (poly_dE x e hp)

theorem poly_smooth_n (n : ℕ) (ρ : Str → ℝ) (e : Expr (Double L)) (hp : e.Polynomial) (hn : ∀ v ∈ e.nums, Dbl.isInvalid v = false) :
    Smooth n ρ (e.mapNum toReal) ∧ ∃ u, realVal ρ (e.mapNum toReal) = some u := by
  induction e with
  | num x =>
    have hx : x.Is x.raw.toRat := is_of_valid (hn x (by simp [Expr.nums]))
    rw [Expr.mapNum, toReal_is hx]
    exact ⟨⟨_, rfl⟩, _, rfl⟩
  | var s => exact ⟨trivial, _, rfl⟩
  | un o e ih =>
    obtain ⟨h1, u, hu⟩ := ih hp.2 hn
    rcases hp.1 with rfl | rfl
    · exact ⟨⟨h1, u, hu, .inl trivial⟩, u, by simp [Expr.mapNum, realVal, hu, UnOp.real]⟩
    · exact ⟨⟨h1, u, hu, .inl trivial⟩, -u, by simp [Expr.mapNum, realVal, hu, UnOp.real]⟩
  | bin o a b iha ihb =>
    obtain ⟨h1, u, hu⟩ := iha hp.2.1 fun v hv => hn v (List.mem_append_left _ hv)
    obtain ⟨h2, w, hw⟩ := ihb hp.2.2 fun v hv => hn v (List.mem_append_right _ hv)
    rcases hp.1 with rfl | rfl | rfl
    · exact ⟨⟨h1, h2⟩, u + w, by simp [Expr.mapNum, realVal, hu, hw, BinOp.real]⟩
    · exact ⟨⟨h1, h2⟩, u - w, by simp [Expr.mapNum, realVal, hu, hw, BinOp.real]⟩
    · exact ⟨⟨h1, h2⟩, u * w, by simp [Expr.mapNum, realVal, hu, hw, BinOp.real]⟩

theorem poly_rulesFor (n : ℕ) (e : Expr (Double L)) (hp : e.Polynomial) (hn : ∀ v ∈ e.nums, Dbl.isInvalid v = false) : e.ExactRulesFor n := by
  induction e with
  | num x => exact hn x (by simp [Expr.nums])
  | var s => trivial
  | un o e ih =>
    rcases hp.1 with rfl | rfl <;> exact ⟨by decide, by decide, ih hp.2 hn⟩
  | bin o a b iha ihb =>
    refine ⟨iha hp.2.1 fun v hv => hn v (List.mem_append_left _ hv), ihb hp.2.2 fun v hv => hn v (List.mem_append_right _ hv), ?_⟩
    rintro rfl
    rcases hp.1 with h | h | h <;> cases h

/-- C131: derivatives of any order of polynomials with integer literals at integer points are exact, as long as all numbers in the computation stay
within `2^53`. -/
theorem C131_integers (hF : L.AnnexF) (cfg : Config (Double L)) (hs : cfg.throwOnInvalidValue = true) (n : ℕ) (hn0 : 0 < n) (hn' : n ≤ 2 ^ 52)
    (e : Expr (Double L)) (hp : e.Polynomial) (hn : ∀ v ∈ e.nums, Dbl.isInvalid v = false) (x : Str) (values : List (Str × Double L))
    (hval : ∀ b ∈ values, Dbl.isInvalid b.2 = false) (ρ : Str → ℤ) (hρ : ∀ s ∈ e.vars, ∃ y, values.lookup s = some y ∧ y.Is (ρ s))
    (z : ℤ) (h : intVal ρ ((dE x)^[n] e) = some z) :
    HasNthPartialDeriv (fun s => (ρ s : ℝ)) x (e.mapNum toReal) n z ∧
    ∃ t y, diff cfg (embed e) x n = .ok t ∧ (subsValues t values >>= fun t => vpa cfg t) = .ok y ∧ y.Is z := by
  have hreal := intVal_realVal ρ _ z h
  rw [mapNum_iterate x n hn' e (poly_rulesFor n e hp hn)] at hreal
  have hsm := (poly_smooth_n n (fun s => (ρ s : ℝ)) e hp hn).1
  obtain ⟨d', hd', hpd⟩ := iterate_correct _ x n hn0 _ hsm (poly_noForeignExp x e hp).2
  rw [hreal] at hd'
  obtain rfl := Option.some.inj hd'
  refine ⟨hpd, ?_⟩
  have hint : e.hasIntOp = false := by rw [← hasIntOp_mapNum toReal]; exact smooth_hasIntOp _ hsm
  obtain ⟨y, g1, g2⟩ := C75_integers true (tableEnv values) ρ ((dE x)^[n] e) (fun s hs => by
    obtain ⟨y, r1, r2⟩ := hρ s (iterate_vars x n e s hs)
    exact ⟨y, by rw [tableEnv, r1], r2⟩) z h
  have hv : (subsValues (embed ((dE x)^[n] e)) values >>= fun t => vpa cfg t) = .ok y := by
    rw [C17_subsValues_vpa, hs]
    exact g1
  obtain ⟨t, y', k1, k2, k3⟩ := C82_partial hF cfg hs _ (intVal_nums ρ _ _ h) values hval
    (poly_noZeroPow _ _ (poly_iterate x n e hp)) y hv
  refine ⟨t, y', ?_, k2, is_of_eq g2 k3⟩
  rw [diff_ok cfg x _ (by omega) e hint, show ((n : ℕ) : Int).toNat = n by omega]
  exact k1

/-- the second derivative of `(x * x) * x` at the integer 3 is 18, exactly: `C131_integers` applies -/
example : let e : Expr (Double L) := .bin .mul (.bin .mul (.var ['x']) (.var ['x'])) (.var ['x'])
    e.Polynomial ∧ (∀ v ∈ e.nums, Dbl.isInvalid v = false) ∧ intVal (fun _ => 3) ((dE ['x'])^[2] e) = some 18 := by
  intro e
  refine ⟨by simp [e, Expr.Polynomial], by intro v hv; simp [e, Expr.nums] at hv, ?_⟩
  have key : ∀ (w : Double L) (q : ℤ), w.Is q → intVal (fun _ => 3) (.num w : Expr (Double L)) = some q := by
    intro w q hw
    simp only [intVal]
    rw [hw.2, if_neg (by have := hw.1; intro h; exact absurd (this.symm.trans h) (by decide))]
    simp
  have k2 := key (Dbl.ofInt 1) 1 (is_ofInt (by norm_num))
  have k0 := key (Dbl.ofInt 0) 0 (is_ofInt (by norm_num))
  have he : (dE ['x'])^[2] e = dE ['x'] (dE ['x'] e) := rfl
  rw [he]
  simp only [e, dE, Expr.isNum, if_true, Bool.false_eq_true, false_and, if_false]
  simp only [intVal] at k2 k0 ⊢
  simp only [k2, Option.bind_some]
  decide

/-- the enclosure of a product with the literal 1 -/
theorem enclosure_mul_one (ρ : Str → ℝ) (a : Expr (Double L)) (v E : ℝ) (δ : ℝ) (h : enclosure δ ρ a = some (v, E)) (hv : |v| ≤ 1) (h0 : 0 ≤ E)
    (h1 : E ≤ 1) : ∃ E', enclosure δ ρ (.bin .mul a (.num (Dbl.ofInt 1))) = some (v, E') ∧ 0 ≤ E' ∧ E' ≤ E + 1 / 2 ^ 51 := by
  have hone : (Dbl.ofInt 1 : Double L).Is 1 := by simpa using is_ofInt (L := L) (i := 1) (by norm_num)
  have hbig : (2 : ℝ) ^ 10 ≤ 2 ^ 1023 := pow_le_pow_right₀ (by norm_num) (by norm_num)
  have htiny' : (1 : ℝ) / 2 ^ 1075 ≤ 1 / 2 ^ 60 := one_div_pow_le_one_div_pow_of_le (by norm_num) (by norm_num)
  have htp' : (0 : ℝ) < 1 / 2 ^ 1075 := by positivity
  have enc2 : enclosure δ ρ (.num (Dbl.ofInt 1) : Expr (Double L)) = some (1, 0) := by
    simp only [enclosure]
    rw [if_neg (by have := hone.1; intro h; exact absurd (this.symm.trans h) (by decide)), hone.2]
    norm_num
  have hD : |v| * 0 + |(1 : ℝ)| * E + E * 0 = E := by simp
  refine ⟨E + BinOp.roundoff δ .mul v E, ?_, ?_⟩
  · rw [enclosure, h, enc2]
    simp only [Option.bind_some, BinOp.real, BinOp.spread, hD, _root_.mul_one]
    rw [if_pos (lt_of_lt_of_le (by linarith [(by norm_num : (2 : ℝ) < 2 ^ 10)]) hbig)]
  · simp only [BinOp.roundoff]
    have := abs_nonneg v
    split
    · constructor <;> linarith [(by norm_num : (0 : ℝ) < 1 / 2 ^ 51)]
    · have hm : (1 : ℝ) / 2 ^ 53 * (|v| + E) ≤ 1 / 2 ^ 53 * 2 := mul_le_mul_of_nonneg_left (by linarith) (by positivity)
      constructor
      · positivity
      · linarith [(by norm_num : (1 : ℝ) / 2 ^ 53 * 2 + 1 / 2 ^ 60 ≤ 1 / 2 ^ 51)]

/-- a case of C131 with a function: the second derivative of `sin(x)` at any double `p` is computed within `2^-49` of `-sin(p)` -/
example (cfg : Config (Double accurate)) (hs : cfg.throwOnInvalidValue = true) (v : Double accurate) (p : ℚ) (hv : v.Is p) :
    let e : Expr (Double accurate) := .un .sin (.var ['x'])
    ∃ t y q, diff cfg (embed e) ['x'] 2 = .ok t ∧ (subsValues t [(['x'], v)] >>= fun t => vpa cfg t) = .ok y ∧ y.Is q ∧
      |(q : ℝ) - (- Real.sin p)| ≤ 1 / 2 ^ 49 := by
  intro e
  have hbig : (2 : ℝ) ^ 10 ≤ 2 ^ 1023 := pow_le_pow_right₀ (by norm_num) (by norm_num)
  have htiny : (1 : ℝ) / 2 ^ 1074 ≤ 1 / 2 ^ 60 := one_div_pow_le_one_div_pow_of_le (by norm_num) (by norm_num)
  have htp : (0 : ℝ) < 1 / 2 ^ 1074 := by positivity
  have hfun : ∀ (o : UnOp) (r : ℝ), (o = .sin ∨ o = .cos) → o.real (p : ℝ) = some r → |r| ≤ 1 →
      ∃ E, enclosure (1 / 2 ^ 53) (fun _ => (p : ℝ)) (.un o (.var ['x']) : Expr (Double accurate)) = some (r, E) ∧ 0 ≤ E ∧ E ≤ 1 / 2 ^ 52 := by
    intro o r ho hr hr1
    have := abs_nonneg r
    have hm : (1 : ℝ) / 2 ^ 53 * |r| ≤ 1 / 2 ^ 53 * 1 := mul_le_mul_of_nonneg_left hr1 (by positivity)
    refine ⟨UnOp.roundoff (1 / 2 ^ 53) o r 0, ?_, ?_⟩
    · simp only [enclosure, Option.bind_some, hr]
      rcases ho with rfl | rfl <;> simp only [UnOp.spread, Option.bind_some] <;>
        rw [if_pos (lt_of_lt_of_le (by linarith [(by norm_num : (1 : ℝ) < 2 ^ 10)]) hbig), _root_.zero_add]
    · rcases ho with rfl | rfl <;> simp only [UnOp.roundoff, _root_.add_zero] <;>
        exact ⟨by positivity, by linarith [(by norm_num : (1 : ℝ) / 2 ^ 53 * 1 + 1 / 2 ^ 60 ≤ 1 / 2 ^ 52)]⟩
  obtain ⟨E1, s1, s2, s3⟩ := hfun .sin (Real.sin p) (.inl rfl) rfl (Real.abs_sin_le_one _)
  obtain ⟨E2, c1, c2, c3⟩ := hfun .cos (Real.cos p) (.inr rfl) rfl (Real.abs_cos_le_one _)
  have hk52 : (1 : ℝ) / 2 ^ 52 ≤ 1 := by norm_num
  have hneg : |(-Real.sin p : ℝ)| ≤ 1 := by rw [abs_neg]; exact Real.abs_sin_le_one _
  have n1 : enclosure (1 / 2 ^ 53) (fun _ => (p : ℝ)) (.un .neg (.un .sin (.var ['x'])) : Expr (Double accurate)) = some (-Real.sin p, E1) := by
    rw [enclosure, s1]
    simp only [Option.bind_some, UnOp.real, UnOp.spread, UnOp.roundoff, _root_.add_zero]
    rw [if_pos (lt_of_lt_of_le (by linarith [(by norm_num : (2 : ℝ) < 2 ^ 10)]) hbig)]
  obtain ⟨E3, m1, m2, m3⟩ := enclosure_mul_one _ _ _ _ _ n1 hneg s2 (by linarith)
  obtain ⟨E4, k1, k2, k3⟩ := enclosure_mul_one _ _ _ _ _ m1 hneg m2 (by linarith [(by norm_num : (1 : ℝ) / 2 ^ 52 + 1 / 2 ^ 51 ≤ 1)])
  have hk4 : E4 ≤ 1 / 2 ^ 49 := by linarith [(by norm_num : (1 : ℝ) / 2 ^ 52 + 1 / 2 ^ 51 + 1 / 2 ^ 51 ≤ 1 / 2 ^ 49)]
  have enc : enclosure (1 / 2 ^ 53) (fun _ => (p : ℝ)) ((dE ['x'])^[2] e) = some (-Real.sin p, E4) := by
    have he : (dE ['x'])^[2] e = dE ['x'] (dE ['x'] e) := rfl
    rw [he]
    simp only [e, dE, Expr.isNum, if_true, Bool.false_eq_true, false_and, if_false]
    exact k1
  obtain ⟨-, t, y, q, g1, g2, g3, g4⟩ := C131 _ accurate_within accurate_annexF cfg hs 2 (by norm_num) (by norm_num) e ['x'] [(['x'], v)]
    (by intro b hb; simp at hb; subst hb; exact hv.1) (fun _ => (p : ℝ)) (fun s hs => by
      simp [e, Expr.vars] at hs
      subst hs
      exact ⟨v, p, by simp, hv, rfl⟩) (by simp [e, Expr.ExactRulesFor]) (by simp [e, Expr.NoForeignExp])
    (by simp [e, Expr.mapNum, Smooth, realVal, UnOp.smoothAt]) _ _ enc
  exact ⟨t, y, q, g1, g2, g3, le_trans g4 hk4⟩

end Double
end Tom
