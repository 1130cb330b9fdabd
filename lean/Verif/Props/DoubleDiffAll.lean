import Verif.Props.DoubleDiff
import Mathlib.Analysis.SpecialFunctions.Log.Deriv
import Mathlib.Analysis.Complex.ExponentialBounds
/-
C96 without the condition that the rules of differentiation produce no rounded literal: `log2`, `log10` and all literal exponents.
-/
namespace Tom
namespace Double
variable {L : Libm}

/-- the double written for a literal of a derivative -/
def RuleLit (δ : ℝ) (v : XNum ℝ) (y : Double L) : Prop :=
  ∃ r, v = .fin r ∧ (IsDoubleReal r ∨ |r| < 2 ^ 1023 → ∃ p : ℚ, y.Is p ∧ |(p : ℝ) - r| ≤ ruleLiteralError δ r)

/-- the same tree, with the doubles written for the literals -/
inductive RuleReads (δ : ℝ) : Expr (XNum ℝ) → Expr (Double L) → Prop
  | num {v : XNum ℝ} {y : Double L} : RuleLit δ v y → RuleReads δ (.num v) (.num y)
  | var (x : Str) : RuleReads δ (.var x) (.var x)
  | un (o : UnOp) {e : Expr (XNum ℝ)} {e' : Expr (Double L)} : RuleReads δ e e' → RuleReads δ (.un o e) (.un o e')
  | bin (o : BinOp) {a b : Expr (XNum ℝ)} {a' b' : Expr (Double L)} : RuleReads δ a a' → RuleReads δ b b' →
      RuleReads δ (.bin o a b) (.bin o a' b')

theorem ruleLiteralError_nonneg {δ : ℝ} (hδ : 0 ≤ δ) (r : ℝ) : 0 ≤ ruleLiteralError δ r := by
  unfold ruleLiteralError
  split
  · exact le_refl _
  · have := abs_nonneg r
    have : (0 : ℝ) ≤ max δ (1 / 2 ^ 53) := le_trans hδ (le_max_left _ _)
    positivity

theorem ruleLit_is {δ : ℝ} (hδ : 0 ≤ δ) {y : Double L} {p : ℚ} (h : y.Is p) : RuleLit δ (.fin (p : ℝ)) y :=
  ⟨p, rfl, fun _ => ⟨p, h, by rw [sub_self, abs_zero]; exact ruleLiteralError_nonneg hδ _⟩⟩

theorem ruleLit_int {δ : ℝ} (hδ : 0 ≤ δ) (i : ℤ) (h : |i| ≤ 2 ^ 53) : RuleLit δ (Dbl.ofInt i : XNum ℝ) (Dbl.ofInt i : Double L) := by
  rw [← toReal_ofInt (L := L) i h, toReal_is (is_ofInt h)]
  exact ruleLit_is hδ (is_ofInt h)

theorem ruleLit_log {δ : ℝ} (hW : L.Within δ) (i : ℤ) (h1 : i = 2 ∨ i = 10) :
    RuleLit δ (Dbl.log (Dbl.ofInt i : XNum ℝ)) (Dbl.log (Dbl.ofInt i : Double L)) := by
  have hi : |i| ≤ 2 ^ 53 := by rcases h1 with rfl | rfl <;> norm_num
  have hpos : (0 : ℝ) < (i : ℝ) := by rcases h1 with rfl | rfl <;> norm_num
  have hcast : (((i : ℚ) : ℝ)) = (i : ℝ) := by push_cast; rfl
  refine ⟨Real.log i, ?_, fun hb => ?_⟩
  · show XNum.mapO UnOp.log.real (.fin (i : ℝ)) = _
    simp [XNum.mapO, UnOp.real, hpos]
  · have hlt : |Real.log (i : ℝ)| < 2 ^ 1023 := by
      have h2 : Real.log (i : ℝ) ≤ i - 1 := Real.log_le_sub_one_of_pos hpos
      have h3 : 0 ≤ Real.log (i : ℝ) := Real.log_nonneg (by rcases h1 with rfl | rfl <;> norm_num)
      rw [abs_of_nonneg h3]
      have : (i : ℝ) ≤ 10 := by rcases h1 with rfl | rfl <;> norm_num
      have hbig : (2 : ℝ) ^ 10 ≤ 2 ^ 1023 := pow_le_pow_right₀ (by norm_num) (by norm_num)
      refine lt_of_lt_of_le ?_ hbig
      linarith [(by norm_num : (10 : ℝ) < 2 ^ 10)]
    obtain ⟨q, g1, g2⟩ := hW.un .log (by decide) (by decide) (Dbl.ofInt i) i (Real.log i) (is_ofInt hi)
      (by rw [hcast]; simp [UnOp.real, hpos]) hlt
    refine ⟨q, g1, le_trans g2 ?_⟩
    unfold ruleLiteralError
    rw [if_neg (by rcases h1 with rfl | rfl <;> push_cast <;> tauto)]
    have := mul_le_mul_of_nonneg_right (le_max_left δ (1 / 2 ^ 53)) (abs_nonneg (Real.log (i : ℝ)))
    linarith

theorem ruleLit_pred {δ : ℝ} (hW : L.Within δ) {c : Double L} (hc : Dbl.isInvalid c = false) :
    RuleLit δ (Arith.sub c.toReal (Dbl.ofInt 1)) (Arith.sub c (Dbl.ofInt 1)) := by
  have hci : c.Is c.raw.toRat := is_of_valid hc
  have h1 : (Dbl.ofInt 1 : Double L).Is 1 := by simpa using is_ofInt (L := L) (i := 1) (by norm_num)
  have hsub : (Arith.sub c.toReal (Dbl.ofInt 1) : XNum ℝ) = .fin ((c.raw.toRat : ℝ) - 1) := by
    rw [toReal_is hci]
    show XNum.fin _ = XNum.fin _
    norm_num
  refine ⟨_, hsub, fun hb => ?_⟩
  by_cases hd : IsDouble (c.raw.toRat - 1)
  · have := sub_is hci h1 (by rw [rnd_of_isDouble hd]; exact isDouble_lt hd)
    rw [rnd_of_isDouble hd] at this
    refine ⟨_, this, ?_⟩
    push_cast
    rw [sub_self, abs_zero]
    exact ruleLiteralError_nonneg hW.nonneg _
  · have hnd : ¬ IsDoubleReal ((c.raw.toRat : ℝ) - 1) := by
      rintro ⟨q, hq, he⟩
      have : q = c.raw.toRat - 1 := by exact_mod_cast he
      exact hd (this ▸ hq)
    have hlt : |(c.raw.toRat : ℝ) - 1| < 2 ^ 1023 := hb.resolve_left hnd
    obtain ⟨z, q, g1, g2, g3⟩ := bin_step hW (o := .sub) hci h1 (r := (c.raw.toRat : ℝ) - 1) (D := 0)
      (r' := (c.raw.toRat : ℝ) - 1) (by simp [BinOp.real]) (by simp) (by simpa using hlt)
    have hz : z = Arith.sub c (Dbl.ofInt 1) := (Option.some.inj g1).symm
    rw [hz] at g2
    refine ⟨q, g2, le_trans g3 ?_⟩
    unfold ruleLiteralError
    rw [if_neg (by tauto)]
    simp only [BinOp.roundoff]
    rw [if_neg (by tauto)]
    have := mul_le_mul_of_nonneg_right (le_max_right δ (1 / 2 ^ 53)) (abs_nonneg ((c.raw.toRat : ℝ) - 1))
    have hp : (0 : ℝ) < 1 / 2 ^ 1074 := by positivity
    rw [add_zero, zero_add]
    linarith

theorem ruleReads_self {δ : ℝ} (hδ : 0 ≤ δ) (e : Expr (Double L)) (hn : ∀ v ∈ e.nums, Dbl.isInvalid v = false) :
    RuleReads δ (e.mapNum toReal) e := by
  induction e with
  | num v =>
    have hv : v.Is v.raw.toRat := is_of_valid (hn v (by simp [Expr.nums]))
    refine .num ?_
    rw [toReal_is hv]
    exact ruleLit_is hδ hv
  | var s => exact .var s
  | un o e ih => exact .un o (ih hn)
  | bin o a b iha ihb =>
    exact .bin o (iha fun v hv => hn v (List.mem_append_left _ hv)) (ihb fun v hv => hn v (List.mem_append_right _ hv))

theorem ruleReads_dE {δ : ℝ} (hW : L.Within δ) (x : Str) (e : Expr (Double L)) (hn : ∀ v ∈ e.nums, Dbl.isInvalid v = false) :
    RuleReads δ (dE x (e.mapNum toReal)) (dE x e) := by
  have hδ := hW.nonneg
  have h0 := RuleReads.num (ruleLit_int (L := L) hδ 0 (by norm_num))
  have h1 := RuleReads.num (ruleLit_int (L := L) hδ 1 (by norm_num))
  have h2 := RuleReads.num (ruleLit_int (L := L) hδ 2 (by norm_num))
  have hm := RuleReads.num (ruleLit_int (L := L) hδ (-1) (by norm_num))
  have hl2 := RuleReads.num (ruleLit_log hW 2 (.inl rfl))
  have hl10 := RuleReads.num (ruleLit_log hW 10 (.inr rfl))
  induction e with
  | num v => exact h0
  | var y => simp only [dE, Expr.mapNum]; split <;> assumption
  | un o e ih =>
    have ih := ih hn
    have hs := ruleReads_self hδ e hn
    cases o <;> simp only [dE, Expr.mapNum, isNum_mapNum, isVar_mapNum] <;> (repeat' split) <;>
      (repeat' first | assumption | apply RuleReads.bin | apply RuleReads.un)
  | bin o a b iha ihb =>
    have hna : ∀ v ∈ a.nums, Dbl.isInvalid v = false := fun v hv => hn v (List.mem_append_left _ hv)
    have hnb : ∀ v ∈ b.nums, Dbl.isInvalid v = false := fun v hv => hn v (List.mem_append_right _ hv)
    have iha := iha hna
    have ihb := ihb hnb
    have hsa := ruleReads_self hδ a hna
    have hsb := ruleReads_self hδ b hnb
    cases o
    case pow =>
      cases b with
      | num c =>
        have hc := RuleReads.num (ruleLit_pred hW (hnb c (by simp [Expr.nums])))
        cases a <;> simp only [dE, Expr.mapNum] at iha hsa hsb ⊢ <;>
          (repeat' first | assumption | apply RuleReads.bin | apply RuleReads.un)
      | _ =>
        cases a <;> simp only [dE, Expr.mapNum] at iha ihb hsa hsb ⊢ <;>
          (repeat' first | assumption | apply RuleReads.bin | apply RuleReads.un)
    all_goals
      simp only [dE, Expr.mapNum, isNum_mapNum] <;> (repeat' split) <;>
        (repeat' first | assumption | apply RuleReads.bin | apply RuleReads.un)

theorem ruleEnclosure_nums {δ : ℝ} {ρ : Str → ℝ} {e : Expr (XNum ℝ)} {e' : Expr (Double L)} (ht : RuleReads δ e e') (w : ℝ × ℝ)
    (h : ruleEnclosure δ ρ e = some w) : ∀ v ∈ e'.nums, Dbl.isInvalid v = false := by
  induction ht generalizing w with
  | @num v y hy =>
    obtain ⟨r, rfl, hy⟩ := hy
    simp only [ruleEnclosure, XNum.val?, Option.bind_some] at h
    split at h
    · rename_i hc
      obtain ⟨p, hp, -⟩ := hy hc
      intro v hv
      simp only [Expr.nums, List.mem_singleton] at hv
      subst hv
      exact hp.1
    · cases h
  | var s => simp [Expr.nums]
  | un o _ ih =>
    simp only [ruleEnclosure] at h
    obtain ⟨w', h1, -⟩ := Option.bind_eq_some_iff.mp h
    exact ih w' h1
  | bin o _ _ iha ihb =>
    simp only [ruleEnclosure] at h
    obtain ⟨w1, h1, h2⟩ := Option.bind_eq_some_iff.mp h
    obtain ⟨w2, h3, -⟩ := Option.bind_eq_some_iff.mp h2
    intro v hv
    rcases List.mem_append.mp hv with hv | hv
    · exact iha w1 h1 v hv
    · exact ihb w2 h3 v hv

theorem ruleEnclosure_value (δ : ℝ) (ρ : Str → ℝ) (e : Expr (XNum ℝ)) (v E : ℝ) (h : ruleEnclosure δ ρ e = some (v, E)) :
    realVal ρ e = some v := by
  induction e generalizing v E with
  | num x =>
    simp only [ruleEnclosure] at h
    obtain ⟨r, h1, h2⟩ := Option.bind_eq_some_iff.mp h
    split at h2
    · rw [realVal, h1, (Prod.mk.inj (Option.some.inj h2)).1]
    · cases h2
  | var s =>
    simp only [ruleEnclosure] at h
    simp only [realVal, (Prod.mk.inj (Option.some.inj h)).1]
  | un o e ih =>
    simp only [ruleEnclosure] at h
    obtain ⟨⟨w, F⟩, h1, h⟩ := Option.bind_eq_some_iff.mp h
    obtain ⟨r, h2, h⟩ := Option.bind_eq_some_iff.mp h
    obtain ⟨D, h3, h⟩ := Option.bind_eq_some_iff.mp h
    split at h
    · simp only [realVal, ih w F h1, Option.bind_some, h2, (Prod.mk.inj (Option.some.inj h)).1]
    · cases h
  | bin o a b iha ihb =>
    simp only [ruleEnclosure] at h
    obtain ⟨⟨w, F⟩, h1, h⟩ := Option.bind_eq_some_iff.mp h
    obtain ⟨⟨w', F'⟩, h1', h⟩ := Option.bind_eq_some_iff.mp h
    obtain ⟨r, h2, h⟩ := Option.bind_eq_some_iff.mp h
    obtain ⟨D, h3, h⟩ := Option.bind_eq_some_iff.mp h
    split at h
    · simp only [realVal, iha w F h1, ihb w' F' h1', Option.bind_some, h2, (Prod.mk.inj (Option.some.inj h)).1]
    · cases h

theorem ruleEnclosure_eval (δ : ℝ) (hL : L.Within δ) (strict : Bool) (env : Str → Res (Double L)) (ρ : Str → ℝ)
    (e : Expr (XNum ℝ)) (e' : Expr (Double L)) (ht : RuleReads δ e e')
    (henv : ∀ s ∈ e'.vars, ∃ x p, env s = .ok x ∧ x.Is p ∧ ρ s = ((p : ℚ) : ℝ)) (v E : ℝ) (h : ruleEnclosure δ ρ e = some (v, E)) :
    ∃ x p, e'.eval strict env = .ok x ∧ x.Is p ∧ |((p : ℚ) : ℝ) - v| ≤ E := by
  induction ht generalizing v E with
  | @num w y hy =>
    obtain ⟨r, rfl, hy⟩ := hy
    simp only [ruleEnclosure, XNum.val?, Option.bind_some] at h
    split at h
    · rename_i hc
      obtain ⟨p, h2, h3⟩ := hy hc
      obtain ⟨rfl, rfl⟩ := Prod.mk.inj (Option.some.inj h)
      exact ⟨y, p, rfl, h2, h3⟩
    · cases h
  | var s =>
    simp only [ruleEnclosure] at h
    obtain ⟨rfl, rfl⟩ := Prod.mk.inj (Option.some.inj h)
    obtain ⟨x, p, h1, h2, h3⟩ := henv s (by simp [Expr.vars])
    exact ⟨x, p, h1, h2, by simp [h3]⟩
  | un o _ ih =>
    simp only [ruleEnclosure] at h
    obtain ⟨⟨w, F⟩, h1, h⟩ := Option.bind_eq_some_iff.mp h
    obtain ⟨r, h2, h⟩ := Option.bind_eq_some_iff.mp h
    obtain ⟨D, h3, h⟩ := Option.bind_eq_some_iff.mp h
    split at h
    · rename_i hb
      obtain ⟨rfl, rfl⟩ := Prod.mk.inj (Option.some.inj h)
      obtain ⟨x, p, e1, e2, e3⟩ := ih (fun s hs => henv s (by simpa [Expr.vars] using hs)) w F h1
      obtain ⟨r', g1, g2⟩ := un_spread h2 h3 e3
      obtain ⟨q, g3, g4⟩ := un_step hL e2 g1 g2 hb
      exact ⟨_, q, by simp only [Expr.eval, e1, Res.bind_ok, checked_is g3], g3, g4⟩
    · cases h
  | bin o _ _ iha ihb =>
    simp only [ruleEnclosure] at h
    obtain ⟨⟨w, F⟩, h1, h⟩ := Option.bind_eq_some_iff.mp h
    obtain ⟨⟨w', F'⟩, h1', h⟩ := Option.bind_eq_some_iff.mp h
    obtain ⟨r, h2, h⟩ := Option.bind_eq_some_iff.mp h
    obtain ⟨D, h3, h⟩ := Option.bind_eq_some_iff.mp h
    split at h
    · rename_i hb
      obtain ⟨rfl, rfl⟩ := Prod.mk.inj (Option.some.inj h)
      obtain ⟨x, p, e1, e2, e3⟩ := iha (fun s hs => henv s (by simp [Expr.vars, hs])) w F h1
      obtain ⟨y, q, f1, f2, f3⟩ := ihb (fun s hs => henv s (by simp [Expr.vars, hs])) w' F' h1'
      obtain ⟨r', g1, g2⟩ := bin_spread h2 h3 e3 f3
      obtain ⟨z, t, g3, g4, g5⟩ := bin_step hL e2 f2 g1 g2 hb
      exact ⟨z, t, by simp only [Expr.eval, e1, f1, Res.bind_ok, g3, checked_is g4], g4, g5⟩
    · cases h

/-- as `enclosure_log`: an enclosed logarithm has an argument that is not computed as zero -/
theorem ruleEnclosure_log {δ : ℝ} (hW : L.Within δ) {env : Str → Res (Double L)} {ρ : Str → ℝ} {b : Expr (XNum ℝ)} {a : Expr (Double L)}
    (ht : RuleReads δ b a)
    (henv : ∀ s ∈ a.vars, ∃ x p, env s = .ok x ∧ x.Is p ∧ ρ s = ((p : ℚ) : ℝ)) {w : ℝ × ℝ}
    (h : ruleEnclosure δ ρ (.un .log b) = some w) (y : Double L) (hy : a.eval true env = .ok y) : ¬ y.Is 0 := by
  intro h0
  simp only [ruleEnclosure] at h
  obtain ⟨⟨v, E⟩, h1, h⟩ := Option.bind_eq_some_iff.mp h
  obtain ⟨r, h2, h⟩ := Option.bind_eq_some_iff.mp h
  obtain ⟨D, h3, h⟩ := Option.bind_eq_some_iff.mp h
  obtain ⟨x, p, e1, e2, e3⟩ := ruleEnclosure_eval δ hW true env ρ b a ht henv v E h1
  rw [hy] at e1
  obtain rfl := Res.ok.inj e1
  have hp : p = 0 := e2.2.symm.trans h0.2
  subst hp
  simp only [UnOp.spread] at h3
  split at h3
  · rename_i hlt
    rw [Rat.cast_zero, zero_sub, abs_neg] at e3
    exact absurd (lt_of_le_of_lt ((le_abs_self v).trans e3) hlt) (lt_irrefl _)
  · cases h3

/-- C96 for expressions with any finite literals, `log2` and `log10` included: let the derivative over the reals, written out by the rules,
have the exact value `d` at a point, with the error bound `E` for evaluating it with doubles, rounded literals of the rules included.
Then `Diff` returns an expression, substituting the point and `Vpa` give a number, `d` is the partial derivative of the function of
real numbers the expression denotes, and the number computed differs from it by at most `E`.  Left out is what is false: `exp(y)` of another
variable (C26_false).  (`0^0` with a variable exponent, which Simplify gets wrong (C82_false), has no derivative.) -/
theorem C96_rounded_partial (δ : ℝ) (hW : L.Within δ) (hF : L.AnnexF) (cfg : Config (Double L)) (hs : cfg.throwOnInvalidValue = true)
    (e : Expr (Double L)) (x : Str) (values : List (Str × Double L)) (hval : ∀ b ∈ values, Dbl.isInvalid b.2 = false) (ρ : Str → ℝ)
    (hρ : ∀ s ∈ e.vars, ∃ y p, values.lookup s = some y ∧ y.Is p ∧ ρ s = ((p : ℚ) : ℝ))
    (hn : ∀ v ∈ e.nums, Dbl.isInvalid v = false) (hfe : e.NoForeignExp x) (hsm : Smooth 1 ρ (e.mapNum toReal))
    (d E : ℝ) (h : ruleEnclosure δ ρ (dE x (e.mapNum toReal)) = some (d, E)) :
    HasPartialDeriv ρ x (e.mapNum toReal) d ∧
    ∃ t y p, diff cfg (embed e) x 1 = .ok t ∧ (subsValues t values >>= fun t => vpa cfg t) = .ok y ∧ y.Is p ∧
      |((p : ℚ) : ℝ) - d| ≤ E := by
  have hreal := ruleEnclosure_value δ ρ _ d E h
  have hfe' : (e.mapNum toReal).NoForeignExp x := by
    clear h hreal hsm hn hρ
    induction e with
    | num _ => trivial
    | var _ => trivial
    | un o e ih =>
      refine ⟨fun ho y hy => hfe.1 ho y ?_, ih hfe.2⟩
      cases e <;> simp_all [Expr.mapNum]
    | bin o a b iha ihb => exact ⟨iha hfe.1, ihb hfe.2⟩
  obtain ⟨d', hd', hp⟩ := dE_correct ρ x _ hsm hfe'
  rw [hreal] at hd'
  obtain rfl := Option.some.inj hd'
  refine ⟨hp, ?_⟩
  have hint : e.hasIntOp = false := by rw [← hasIntOp_mapNum toReal]; exact smooth_hasIntOp _ hsm
  have ht := ruleReads_dE hW x e hn
  obtain ⟨y, p, g1, g2, g3⟩ := ruleEnclosure_eval δ hW true (tableEnv values) ρ _ _ ht (fun s hs => by
    obtain ⟨y, p, r1, r2, r3⟩ := hρ s (dE_vars x e s hs)
    exact ⟨y, p, by rw [tableEnv, r1], r2, r3⟩) d E h
  have hv : (subsValues (embed (dE x e)) values >>= fun t => vpa cfg t) = .ok y := by
    rw [C17_subsValues_vpa, hs]
    exact g1
  have hz : e.NoZeroPow (tableEnv values) := noZeroPow_of_deriv
    (P := fun a => (∀ s ∈ a.vars, s ∈ e.vars) ∧ ∃ b w, RuleReads δ b a ∧ ruleEnclosure δ ρ b = some w)
    (fun o a ⟨q1, b, w, q0, q2⟩ => ⟨q1, by
      cases q0 with
      | un _ q0 =>
        simp only [ruleEnclosure] at q2
        obtain ⟨w', q3, -⟩ := Option.bind_eq_some_iff.mp q2
        exact ⟨_, w', q0, q3⟩⟩)
    (fun o a b ⟨q1, c, w, q0, q2⟩ => by
      cases q0 with
      | bin _ q6 q7 =>
        simp only [ruleEnclosure] at q2
        obtain ⟨w1, q3, q4⟩ := Option.bind_eq_some_iff.mp q2
        obtain ⟨w2, q5, -⟩ := Option.bind_eq_some_iff.mp q4
        exact ⟨⟨fun s hs => q1 s (by simp [Expr.vars, hs]), _, w1, q6, q3⟩, ⟨fun s hs => q1 s (by simp [Expr.vars, hs]), _, w2, q7, q5⟩⟩)
    (fun a ⟨q1, b, w, q0, q2⟩ => by
      cases q0 with
      | un _ q0 =>
        exact ruleEnclosure_log hW q0 (fun s hs => by
          obtain ⟨y, p, r1, r2, r3⟩ := hρ s (q1 s hs)
          exact ⟨y, p, by rw [tableEnv, r1], r2, r3⟩) q2) x e hint ⟨fun s hs => dE_vars x e s hs, _, _, ht, h⟩
  obtain ⟨t, y', k1, k2, k3⟩ := C82_partial hF cfg hs (dE x e) (ruleEnclosure_nums ht _ h) values hval (noZeroPow_dE _ x e hz) y hv
  refine ⟨t, y', p, ?_, k2, ?_, g3⟩
  · rw [diff_ok cfg x 1 (by decide) e hint]
    exact k1
  · exact is_of_eq g2 k3

/-- a case: the derivative of `log2(x)` at any double `p` between 1 and 2 is computed within `2^-45` of `1 / (p log 2)` -/
example (cfg : Config (Double accurate)) (hs : cfg.throwOnInvalidValue = true) (v : Double accurate) (p : ℚ) (hv : v.Is p)
    (hp1 : 1 ≤ p) (hp2 : p ≤ 2) :
    let e : Expr (Double accurate) := .un .log2 (.var ['x'])
    ∃ t y q, diff cfg (embed e) ['x'] 1 = .ok t ∧ (subsValues t [(['x'], v)] >>= fun t => vpa cfg t) = .ok y ∧ y.Is q ∧
      |(q : ℝ) - 1 / (p * Real.log 2)| ≤ 1 / 2 ^ 45 := by
  intro e
  have hbig : (2 : ℝ) ^ 10 ≤ 2 ^ 1023 := pow_le_pow_right₀ (by norm_num) (by norm_num)
  have htiny : (1 : ℝ) / 2 ^ 1074 ≤ 1 / 2 ^ 60 := one_div_pow_le_one_div_pow_of_le (by norm_num) (by norm_num)
  have htiny' : (1 : ℝ) / 2 ^ 1075 ≤ 1 / 2 ^ 60 := one_div_pow_le_one_div_pow_of_le (by norm_num) (by norm_num)
  have h1074 : (0 : ℝ) < 1 / 2 ^ 1074 := by positivity
  have h1075 : (0 : ℝ) < 1 / 2 ^ 1075 := by positivity
  generalize ht : (1 : ℝ) / 2 ^ 1074 = T at htiny h1074
  generalize ht' : (1 : ℝ) / 2 ^ 1075 = T' at htiny' h1075
  have hp1' : (1 : ℝ) ≤ p := by exact_mod_cast hp1
  have hp2' : (p : ℝ) ≤ 2 := by exact_mod_cast hp2
  have hlog1 := Real.log_two_gt_d9
  have hlog2 := Real.log_two_lt_d9
  have lit : ∀ r : ℝ, 0 ≤ r → r ≤ 1 → 0 ≤ ruleLiteralError (1 / 2 ^ 53) r ∧ ruleLiteralError (1 / 2 ^ 53) r ≤ 1 / 2 ^ 52 := by
    intro r h0 h1
    refine ⟨ruleLiteralError_nonneg (by positivity) r, ?_⟩
    unfold ruleLiteralError
    split
    · positivity
    · rw [max_self, abs_of_nonneg h0, ht]
      have : (1 : ℝ) / 2 ^ 53 + 1 / 2 ^ 60 ≤ 1 / 2 ^ 52 := by norm_num
      have := mul_le_mul_of_nonneg_left h1 (by positivity : (0 : ℝ) ≤ 1 / 2 ^ 53)
      linarith
  have encLit : ∀ r : ℝ, 0 ≤ r → r ≤ 1 → ruleEnclosure (1 / 2 ^ 53) (fun _ => (p : ℝ)) (.num (.fin r)) = some (r, ruleLiteralError (1 / 2 ^ 53) r) := by
    intro r h0 h1
    simp only [ruleEnclosure, XNum.val?, Option.bind_some]
    rw [if_pos]
    right
    rw [abs_of_nonneg h0]
    exact lt_of_lt_of_le (by linarith [(by norm_num : (1 : ℝ) < 2 ^ 10)]) hbig
  obtain ⟨a1, a2⟩ := lit 1 (by norm_num) (by norm_num)
  obtain ⟨b1, b2⟩ := lit (Real.log 2) (by linarith) (by linarith)
  have enc1 := encLit 1 (by norm_num) (by norm_num)
  have encl := encLit (Real.log 2) (by linarith) (by linarith)
  generalize ruleLiteralError (1 / 2 ^ 53) 1 = e1 at a1 a2 enc1
  generalize ruleLiteralError (1 / 2 ^ 53) (Real.log 2) = e2 at b1 b2 encl
  -- the roundoff of a product or quotient between -2 and 2
  have ro : ∀ (o : BinOp) (r D : ℝ), (o = .mul ∨ o = .div) → |r| ≤ 2 → 0 ≤ D → D ≤ 1 → 0 ≤ o.roundoff (1 / 2 ^ 53) r D ∧
      o.roundoff (1 / 2 ^ 53) r D ≤ 1 / 2 ^ 51 := by
    intro o r D ho hr hD0 hD1
    have h53 : (0 : ℝ) < 1 / 2 ^ 53 := by norm_num
    have := mul_le_mul_of_nonneg_left (show |r| + D ≤ 3 by linarith) h53.le
    have hk : (1 : ℝ) / 2 ^ 53 * 3 + 1 / 2 ^ 60 ≤ 1 / 2 ^ 51 := by norm_num
    have hr0 := abs_nonneg r
    rcases ho with rfl | rfl <;> simp only [BinOp.roundoff, ht'] <;> split
    · exact ⟨le_refl _, by norm_num⟩
    · exact ⟨by positivity, by linarith⟩
    · exact ⟨le_refl _, by norm_num⟩
    · exact ⟨by positivity, by linarith⟩
  have hw1 : (69 : ℝ) / 100 ≤ p * Real.log 2 := by nlinarith
  have hw2 : (p : ℝ) * Real.log 2 ≤ 14 / 10 := by nlinarith
  have hwabs : |(p : ℝ) * Real.log 2| = p * Real.log 2 := abs_of_pos (by linarith)
  -- x * log(2)
  set D1 : ℝ := |(p : ℝ)| * e2 + |Real.log 2| * 0 + 0 * e2 with hD1
  have hD1' : 0 ≤ D1 ∧ D1 ≤ 1 / 2 ^ 51 := by
    have : D1 = p * e2 := by rw [hD1, abs_of_pos (by linarith)]; ring
    rw [this]
    refine ⟨by positivity, ?_⟩
    have hm : (p : ℝ) * e2 ≤ 2 * (1 / 2 ^ 52) := mul_le_mul hp2' b2 b1 (by norm_num)
    linarith [(by norm_num : (2 : ℝ) * (1 / 2 ^ 52) = 1 / 2 ^ 51)]
  obtain ⟨c1, c2⟩ := ro .mul (p * Real.log 2) D1 (.inl rfl) (by rw [hwabs]; linarith) hD1'.1 (by linarith [hD1'.2, (by norm_num : (1 : ℝ) / 2 ^ 51 ≤ 1)])
  have enc2 : ruleEnclosure (1 / 2 ^ 53) (fun _ => (p : ℝ)) (.bin .mul (.var ['x']) (.num (.fin (Real.log 2)))) =
      some (p * Real.log 2, D1 + BinOp.roundoff (1 / 2 ^ 53) .mul (p * Real.log 2) D1) := by
    rw [ruleEnclosure, encl]
    simp only [ruleEnclosure, Option.bind_some, BinOp.real, BinOp.spread]
    rw [if_pos]
    refine lt_of_lt_of_le ?_ hbig
    rw [← hD1, hwabs]
    linarith [hD1'.2, (by norm_num : (1 : ℝ) / 2 ^ 51 ≤ 1), (by norm_num : (4 : ℝ) < 2 ^ 10)]
  generalize hE1 : D1 + BinOp.roundoff (1 / 2 ^ 53) .mul (p * Real.log 2) D1 = E1 at enc2
  have hE1' : 0 ≤ E1 ∧ E1 ≤ 1 / 2 ^ 50 := by
    rw [← hE1]
    exact ⟨by linarith [hD1'.1], by linarith [hD1'.2, (by norm_num : (1 : ℝ) / 2 ^ 51 + 1 / 2 ^ 51 = 1 / 2 ^ 50)]⟩
  -- 1 / (x * log(2))
  have hw0 : (p : ℝ) * Real.log 2 ≠ 0 := by linarith
  have hr1 : (0 : ℝ) < 1 / (p * Real.log 2) := by positivity
  have hr2 : 1 / ((p : ℝ) * Real.log 2) ≤ 3 / 2 := by
    rw [div_le_div_iff₀ (by linarith) (by norm_num)]; linarith
  have hrabs : |1 / ((p : ℝ) * Real.log 2)| = 1 / (p * Real.log 2) := abs_of_pos hr1
  set D2 : ℝ := (e1 + |1 / ((p : ℝ) * Real.log 2)| * E1) / (|(p : ℝ) * Real.log 2| - E1) with hD2
  have hD2' : 0 ≤ D2 ∧ D2 ≤ 1 / 2 ^ 48 := by
    rw [hD2, hwabs, hrabs]
    have hden : (1 : ℝ) / 2 ≤ p * Real.log 2 - E1 := by
      linarith [hE1'.2, (by norm_num : (1 : ℝ) / 2 ^ 50 ≤ 1 / 10)]
    have hden0 : (0 : ℝ) < p * Real.log 2 - E1 := by linarith
    have hE10 := hE1'.1
    refine ⟨by positivity, ?_⟩
    rw [div_le_iff₀ hden0]
    have h3 : 1 / ((p : ℝ) * Real.log 2) * E1 ≤ 3 / 2 * (1 / 2 ^ 50) := mul_le_mul hr2 hE1'.2 hE1'.1 (by norm_num)
    have h4 : (1 : ℝ) / 2 ^ 48 * (1 / 2) ≤ 1 / 2 ^ 48 * (p * Real.log 2 - E1) := mul_le_mul_of_nonneg_left hden (by positivity)
    linarith [(by norm_num : (1 : ℝ) / 2 ^ 52 + 3 / 2 * (1 / 2 ^ 50) ≤ 1 / 2 ^ 48 * (1 / 2))]
  obtain ⟨d1, d2⟩ := ro .div (1 / (p * Real.log 2)) D2 (.inr rfl) (by rw [hrabs]; linarith) hD2'.1 (by linarith [hD2'.2, (by norm_num : (1 : ℝ) / 2 ^ 48 ≤ 1)])
  have enc3 : ruleEnclosure (1 / 2 ^ 53) (fun _ => (p : ℝ)) (.bin .div (.num (.fin 1)) (.bin .mul (.var ['x']) (.num (.fin (Real.log 2))))) =
      some (1 / (p * Real.log 2), D2 + BinOp.roundoff (1 / 2 ^ 53) .div (1 / (p * Real.log 2)) D2) := by
    rw [ruleEnclosure, enc1, enc2]
    simp only [Option.bind_some, BinOp.real, BinOp.spread]
    rw [if_neg hw0]
    simp only [Option.bind_some]
    rw [if_pos (by rw [hwabs]; linarith [hE1'.2, (by norm_num : (1 : ℝ) / 2 ^ 50 ≤ 1 / 10)])]
    simp only [Option.bind_some]
    rw [if_pos]
    refine lt_of_lt_of_le ?_ hbig
    rw [← hD2, hrabs]
    linarith [hD2'.2, (by norm_num : (1 : ℝ) / 2 ^ 48 ≤ 1), (by norm_num : (4 : ℝ) < 2 ^ 10)]
  generalize hE2 : D2 + BinOp.roundoff (1 / 2 ^ 53) .div (1 / (p * Real.log 2)) D2 = E2 at enc3
  have hE2' : 0 ≤ E2 ∧ E2 ≤ 1 / 2 ^ 47 := by
    rw [← hE2]
    exact ⟨by linarith [hD2'.1], by linarith [hD2'.2, (by norm_num : (1 : ℝ) / 2 ^ 48 + 1 / 2 ^ 51 ≤ 1 / 2 ^ 47)]⟩
  -- times 1
  set D3 : ℝ := |1 / ((p : ℝ) * Real.log 2)| * e1 + |(1 : ℝ)| * E2 + E2 * e1 with hD3
  have hD3' : 0 ≤ D3 ∧ D3 ≤ 1 / 2 ^ 46 := by
    rw [hD3, hrabs, abs_one, one_mul]
    have hE20 := hE2'.1
    refine ⟨by positivity, ?_⟩
    have h3 : 1 / ((p : ℝ) * Real.log 2) * e1 ≤ 3 / 2 * (1 / 2 ^ 52) := mul_le_mul hr2 a2 a1 (by norm_num)
    have h4 : E2 * e1 ≤ 1 / 2 ^ 47 * (1 / 2 ^ 52) := mul_le_mul hE2'.2 a2 a1 (by norm_num)
    linarith [hE2'.2, (by norm_num : (3 : ℝ) / 2 * (1 / 2 ^ 52) + 1 / 2 ^ 47 + 1 / 2 ^ 47 * (1 / 2 ^ 52) ≤ 1 / 2 ^ 46)]
  obtain ⟨f1, f2⟩ := ro .mul (1 / (p * Real.log 2) * 1) D3 (.inl rfl) (by rw [mul_one, hrabs]; linarith) hD3'.1
    (by linarith [hD3'.2, (by norm_num : (1 : ℝ) / 2 ^ 46 ≤ 1)])
  have enc : ruleEnclosure (1 / 2 ^ 53) (fun _ => (p : ℝ)) (dE ['x'] (e.mapNum toReal)) =
      some (1 / (p * Real.log 2) * 1, D3 + BinOp.roundoff (1 / 2 ^ 53) .mul (1 / (p * Real.log 2) * 1) D3) := by
    have he : dE ['x'] (e.mapNum toReal) =
        .bin .mul (.bin .div (.num (.fin 1)) (.bin .mul (.var ['x']) (.num (.fin (Real.log 2))))) (.num (.fin 1)) := by
      have h1 : (Dbl.ofInt 1 : XNum ℝ) = .fin 1 := by show XNum.fin _ = _; norm_num
      have h2 : Dbl.log (Dbl.ofInt 2 : XNum ℝ) = .fin (Real.log 2) := by
        show XNum.mapO UnOp.log.real (.fin ((2 : ℤ) : ℝ)) = _
        simp [XNum.mapO, UnOp.real]
      simp [e, dE, Expr.mapNum, Expr.isNum, h1, h2]
    rw [he, ruleEnclosure, enc3, enc1]
    simp only [Option.bind_some, BinOp.real, BinOp.spread]
    rw [if_pos]
    refine lt_of_lt_of_le ?_ hbig
    rw [← hD3, mul_one, hrabs]
    linarith [hD3'.2, (by norm_num : (1 : ℝ) / 2 ^ 46 ≤ 1), (by norm_num : (4 : ℝ) < 2 ^ 10)]
  obtain ⟨-, t, y, q, g1, g2, g3, g4⟩ := C96_rounded_partial _ accurate_within accurate_annexF cfg hs e ['x'] [(['x'], v)]
    (by intro b hb; simp at hb; subst hb; exact hv.1) (fun _ => (p : ℝ)) (fun s hs => by
      simp [e, Expr.vars] at hs
      subst hs
      exact ⟨v, p, by simp, hv, rfl⟩) (by simp [e, Expr.nums]) (by simp [e, Expr.NoForeignExp])
    (by simp [e, Expr.mapNum, Smooth, realVal, UnOp.smoothAt]; have hp0 : (0 : ℚ) < p := by linarith
        simp [hp0]) _ _ enc
  refine ⟨t, y, q, g1, g2, g3, ?_⟩
  rw [mul_one] at g4 f2
  linarith [hD3'.2, (by norm_num : (1 : ℝ) / 2 ^ 46 + 1 / 2 ^ 51 ≤ 1 / 2 ^ 45)]

end Double
end Tom
