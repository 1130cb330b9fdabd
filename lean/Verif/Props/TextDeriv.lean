import Verif.Spec.TextDeriv
import Verif.Props.DoubleDiffAll
import Verif.Props.TextValue
import Verif.Props.TextSolve
import Verif.Props.RoundedNewtonCase
/-
C127: from the text of an expression to the value of its derivative in IEEE doubles.
-/
set_option linter.unusedSectionVars false
namespace Tom
namespace Double
variable {L : Libm}

/-- the double that stands for a literal of a derivative -/
def WrittenLit (δ : ℝ) (v : XNum ℝ) (y : Double L) : Prop :=
  ∃ r, v = .fin r ∧ (|r| < 2 ^ 1022 → ∃ p : ℚ, y.Is p ∧ |(p : ℝ) - r| ≤ writtenLiteralError δ r)

/-- the same tree, with doubles for the literals -/
inductive WrittenReads (δ : ℝ) : Expr (XNum ℝ) → Expr (Double L) → Prop
  | num {v : XNum ℝ} {y : Double L} : WrittenLit δ v y → WrittenReads δ (.num v) (.num y)
  | var (x : Str) : WrittenReads δ (.var x) (.var x)
  | un (o : UnOp) {e : Expr (XNum ℝ)} {e' : Expr (Double L)} : WrittenReads δ e e' → WrittenReads δ (.un o e) (.un o e')
  | bin (o : BinOp) {a b : Expr (XNum ℝ)} {a' b' : Expr (Double L)} : WrittenReads δ a a' → WrittenReads δ b b' →
      WrittenReads δ (.bin o a b) (.bin o a' b')

theorem writtenLiteralError_nonneg {δ : ℝ} (r : ℝ) : 0 ≤ writtenLiteralError δ r := by
  unfold writtenLiteralError
  split
  · exact le_refl _
  · have := abs_nonneg r
    have : (0 : ℝ) ≤ max δ (1 / 2 ^ 53) := le_trans (by positivity) (le_max_right _ _)
    positivity

theorem writtenLit_is {δ : ℝ} {y : Double L} {p : ℚ} (h : y.Is p) : WrittenLit δ (.fin (p : ℝ)) y :=
  ⟨p, rfl, fun _ => ⟨p, h, by rw [sub_self, abs_zero]; exact writtenLiteralError_nonneg _⟩⟩

theorem writtenLit_int {δ : ℝ} (i : ℤ) (h : |i| ≤ 2 ^ 53) : WrittenLit δ (Dbl.ofInt i : XNum ℝ) (Dbl.ofInt i : Double L) := by
  rw [← toReal_ofInt (L := L) i h, toReal_is (is_ofInt h)]
  exact writtenLit_is (is_ofInt h)

theorem tinyReal_le : (1 : ℝ) / 2 ^ 1074 ≤ 1 / 2 ^ 53 := one_div_pow_le_one_div_pow_of_le (by norm_num) (by norm_num)

theorem bigReal_lt : (2 : ℝ) ^ 1022 + 2 ^ 1022 = 2 ^ 1023 := by rw [pow_succ (2 : ℝ) 1022]; ring

theorem writtenLit_log {δ : ℝ} (hW : L.Within δ) (i : ℤ) (h1 : i = 2 ∨ i = 10) :
    WrittenLit δ (Dbl.log (Dbl.ofInt i : XNum ℝ)) (Dbl.log (Dbl.ofInt i : Double L)) := by
  obtain ⟨r, hr, h⟩ := ruleLit_log hW i h1
  refine ⟨r, hr, fun hb => ?_⟩
  have hpos : (0 : ℝ) < (i : ℝ) := by rcases h1 with rfl | rfl <;> norm_num
  have hlog : r = Real.log i := by
    have : XNum.mapO UnOp.log.real (.fin (i : ℝ)) = .fin r := hr
    simp [XNum.mapO, UnOp.real, hpos] at this
    exact this.symm
  have hpow : (0 : ℝ) < 2 ^ 1022 := by positivity
  obtain ⟨p, hp, he⟩ := h (.inr (by rw [← bigReal_lt]; generalize (2 : ℝ) ^ 1022 = B at *; linarith))
  refine ⟨p, hp, he.trans ?_⟩
  have hne : ¬ (r ≠ Real.log 2 ∧ r ≠ Real.log 10) := by
    rw [hlog]; rcases h1 with rfl | rfl <;> push_cast <;> tauto
  unfold ruleLiteralError writtenLiteralError
  rw [if_neg (by tauto), if_neg (by tauto)]
  have hm : (1 : ℝ) / 2 ^ 53 ≤ max δ (1 / 2 ^ 53) := le_max_right _ _
  have ht := tinyReal_le
  have h53 : (0 : ℝ) < 1 / 2 ^ 53 := by positivity
  have h0 := abs_nonneg r
  generalize max δ (1 / 2 ^ 53) = m at *
  generalize (1 : ℝ) / 2 ^ 1074 = T at *
  nlinarith

theorem literalError_le {δ r : ℝ} : literalError r ≤ writtenLiteralError δ r := by
  have hm : (1 : ℝ) / 2 ^ 53 ≤ max δ (1 / 2 ^ 53) := le_max_right _ _
  have h53 : (0 : ℝ) < 1 / 2 ^ 53 := by positivity
  have h0 := abs_nonneg r
  unfold literalError
  split
  · exact writtenLiteralError_nonneg r
  · unfold writtenLiteralError
    rw [if_neg (by tauto)]
    generalize max δ (1 / 2 ^ 53) = m at *
    nlinarith

theorem writtenLit_reads {δ : ℝ} {v : XNum ℝ} {y : Double L} (h : Reads v y) : WrittenLit δ v y := by
  obtain ⟨r, p, rfl, h1, h2⟩ := h
  exact ⟨r, rfl, fun _ => ⟨p, h1, h2.trans literalError_le⟩⟩

theorem writtenLit_pred {δ : ℝ} (hW : L.Within δ) {v : XNum ℝ} {y : Double L} (h : Reads v y) :
    WrittenLit δ (Arith.sub v (Dbl.ofInt 1)) (Arith.sub y (Dbl.ofInt 1)) := by
  obtain ⟨c, p, rfl, hp, herr⟩ := h
  have h1 : (Dbl.ofInt 1 : Double L).Is 1 := by simpa using is_ofInt (L := L) (i := 1) (by norm_num)
  have hsub : (Arith.sub (.fin c) (Dbl.ofInt 1) : XNum ℝ) = .fin (c - 1) := by
    show XNum.fin _ = XNum.fin _
    norm_num
  refine ⟨_, hsub, fun hb => ?_⟩
  have hm : (1 : ℝ) / 2 ^ 53 ≤ max δ (1 / 2 ^ 53) := le_max_right _ _
  have h53 : (0 : ℝ) < 1 / 2 ^ 53 := by positivity
  have h0 := abs_nonneg (c - 1)
  have hc : |c| ≤ |c - 1| + 1 := by
    have := abs_add_le (c - 1) 1
    rwa [sub_add_cancel, abs_one] at this
  have herr' : |(p : ℝ) - c| ≤ 1 / 2 ^ 53 * (|c - 1| + 1) := by
    refine herr.trans ?_
    unfold literalError
    split
    · positivity
    · exact mul_le_mul_of_nonneg_left hc h53.le
  by_cases hd : IsDouble (p - 1)
  · have := sub_is hp h1 (by rw [rnd_of_isDouble hd]; exact isDouble_lt hd)
    rw [rnd_of_isDouble hd] at this
    refine ⟨_, this, ?_⟩
    push_cast
    have e : (p : ℝ) - 1 - (c - 1) = p - c := by ring
    rw [e]
    unfold writtenLiteralError
    split
    · rename_i hx
      rw [sub_add_cancel] at hx
      refine herr.trans ?_
      unfold literalError
      rw [if_pos hx.2.1]
    · refine herr'.trans ?_
      generalize max δ (1 / 2 ^ 53) = m at *
      nlinarith
  · have hnd : ¬ IsDoubleReal ((p : ℝ) - 1) := by
      rintro ⟨q, hq, he⟩
      have : q = p - 1 := by exact_mod_cast he
      exact hd (this ▸ hq)
    have hp1 : |(p : ℝ) - 1| ≤ |c - 1| + 1 / 2 ^ 53 * (|c - 1| + 1) := by
      have e : (p : ℝ) - 1 = (c - 1) + (p - c) := by ring
      rw [e]
      exact (abs_add_le _ _).trans (by linarith)
    have hlt : |(p : ℝ) - 1| < 2 ^ 1023 := by
      have hpow : (2 : ℝ) ^ 10 ≤ 2 ^ 1022 := pow_le_pow_right₀ (by norm_num) (by norm_num)
      have h10 : (1 : ℝ) / 2 ^ 53 ≤ 1 / 4 := by norm_num
      rw [← bigReal_lt]
      refine lt_of_le_of_lt hp1 ?_
      have := mul_le_mul_of_nonneg_right h10 (by linarith : 0 ≤ |c - 1| + 1)
      generalize (2 : ℝ) ^ 1022 = B at *
      norm_num at hpow
      linarith
    obtain ⟨z, q, g1, g2, g3⟩ := bin_step hW (o := .sub) hp h1 (r := (p : ℝ) - 1) (D := 0)
      (r' := (p : ℝ) - 1) (by simp [BinOp.real]) (by simp) (by simpa using hlt)
    have hz : z = Arith.sub y (Dbl.ofInt 1) := (Option.some.inj g1).symm
    rw [hz] at g2
    refine ⟨q, g2, ?_⟩
    simp only [BinOp.roundoff] at g3
    rw [if_neg (by tauto), add_zero, zero_add] at g3
    unfold writtenLiteralError
    rw [if_neg]
    · have e : (q : ℝ) - (c - 1) = (q - (p - 1)) + (p - c) := by ring
      rw [e]
      refine (abs_add_le _ _).trans ?_
      have k1 := mul_le_mul_of_nonneg_left hp1 h53.le
      have k2 : (1 : ℝ) / 2 ^ 53 ≤ 1 := by norm_num
      have k3 : 1 / 2 ^ 53 * (1 / 2 ^ 53 * (|c - 1| + 1)) ≤ 1 / 2 ^ 53 * (|c - 1| + 1) := by
        apply mul_le_mul_of_nonneg_left _ h53.le
        have := mul_le_mul_of_nonneg_right k2 (by linarith : 0 ≤ |c - 1| + 1)
        linarith
      have k4 := mul_le_mul_of_nonneg_right hm (by linarith : 0 ≤ |c - 1| + 1)
      generalize max δ (1 / 2 ^ 53) = m at *
      generalize (1 : ℝ) / 2 ^ 53 = u at *
      linarith
    · rintro ⟨hx1, hx2, -⟩
      rw [sub_add_cancel] at hx2
      unfold literalError at herr
      rw [if_pos hx2] at herr
      have : (p : ℝ) = c := by
        have := abs_nonpos_iff.mp herr
        linarith
      rw [this] at hnd
      exact hnd hx1

theorem writtenReads_self {δ : ℝ} {e : Expr (XNum ℝ)} {e' : Expr (Double L)} (h : TreeReads e e') : WrittenReads δ e e' := by
  induction h with
  | num h => exact .num (writtenLit_reads h)
  | var s => exact .var s
  | un o _ ih => exact .un o ih
  | bin o _ _ iha ihb => exact .bin o iha ihb

theorem treeReads_isNum {e : Expr (XNum ℝ)} {e' : Expr (Double L)} (h : TreeReads e e') : e'.isNum = e.isNum := by cases h <;> rfl
theorem treeReads_isVar {e : Expr (XNum ℝ)} {e' : Expr (Double L)} (h : TreeReads e e') : e'.isVar = e.isVar := by cases h <;> rfl

theorem writtenReads_dE {δ : ℝ} (hW : L.Within δ) (x : Str) {e : Expr (XNum ℝ)} {e' : Expr (Double L)} (h : TreeReads e e') :
    WrittenReads δ (dE x e) (dE x e') := by
  have h0 := WrittenReads.num (writtenLit_int (L := L) (δ := δ) 0 (by norm_num))
  have h1 := WrittenReads.num (writtenLit_int (L := L) (δ := δ) 1 (by norm_num))
  have h2 := WrittenReads.num (writtenLit_int (L := L) (δ := δ) 2 (by norm_num))
  have hm := WrittenReads.num (writtenLit_int (L := L) (δ := δ) (-1) (by norm_num))
  have hl2 := WrittenReads.num (writtenLit_log hW 2 (.inl rfl))
  have hl10 := WrittenReads.num (writtenLit_log hW 10 (.inr rfl))
  induction h with
  | num _ => exact h0
  | var y => simp only [dE]; split <;> assumption
  | un o he ih =>
    have hs := writtenReads_self (δ := δ) he
    cases o <;> simp only [dE, treeReads_isNum he, treeReads_isVar he] <;> (repeat' split) <;>
      (repeat' first | assumption | apply WrittenReads.bin | apply WrittenReads.un)
  | bin o ha hb iha ihb =>
    have hsa := writtenReads_self (δ := δ) ha
    have hsb := writtenReads_self (δ := δ) hb
    cases o
    case pow =>
      cases hb with
      | num hc =>
        have hc := WrittenReads.num (writtenLit_pred hW hc)
        cases ha <;> simp only [dE] at iha hsa hsb ⊢ <;>
          (repeat' first | assumption | apply WrittenReads.bin | apply WrittenReads.un)
      | _ =>
        cases ha <;> simp only [dE] at iha ihb hsa hsb ⊢ <;>
          (repeat' first | assumption | apply WrittenReads.bin | apply WrittenReads.un)
    all_goals
      simp only [dE, treeReads_isNum ha, treeReads_isNum hb] <;> (repeat' split) <;>
        (repeat' first | assumption | apply WrittenReads.bin | apply WrittenReads.un)

theorem writtenEnclosure_nums {δ : ℝ} {ρ : Str → ℝ} {e : Expr (XNum ℝ)} {e' : Expr (Double L)} (ht : WrittenReads δ e e') (w : ℝ × ℝ)
    (h : writtenEnclosure δ ρ e = some w) : ∀ v ∈ e'.nums, Dbl.isInvalid v = false := by
  induction ht generalizing w with
  | @num v y hy =>
    obtain ⟨r, rfl, hy⟩ := hy
    simp only [writtenEnclosure, XNum.val?, Option.bind_some] at h
    split at h
    · rename_i hc
      obtain ⟨p, hp, -⟩ := hy hc
      intro v hv
      simp only [Expr.nums, List.mem_singleton] at hv
      subst hv
      exact hp.1
    · cases h
  | var s => simp [Expr.nums]
  | un o _ ih =>
    simp only [writtenEnclosure] at h
    obtain ⟨w', h1, -⟩ := Option.bind_eq_some_iff.mp h
    exact ih w' h1
  | bin o _ _ iha ihb =>
    simp only [writtenEnclosure] at h
    obtain ⟨w1, h1, h2⟩ := Option.bind_eq_some_iff.mp h
    obtain ⟨w2, h3, -⟩ := Option.bind_eq_some_iff.mp h2
    intro v hv
    rcases List.mem_append.mp hv with hv | hv
    · exact iha w1 h1 v hv
    · exact ihb w2 h3 v hv

theorem writtenEnclosure_value (δ : ℝ) (ρ : Str → ℝ) (e : Expr (XNum ℝ)) (v E : ℝ) (h : writtenEnclosure δ ρ e = some (v, E)) :
    realVal ρ e = some v := by
  induction e generalizing v E with
  | num x =>
    simp only [writtenEnclosure] at h
    obtain ⟨r, h1, h2⟩ := Option.bind_eq_some_iff.mp h
    split at h2
    · rw [realVal, h1, (Prod.mk.inj (Option.some.inj h2)).1]
    · cases h2
  | var s =>
    simp only [writtenEnclosure] at h
    simp only [realVal, (Prod.mk.inj (Option.some.inj h)).1]
  | un o e ih =>
    simp only [writtenEnclosure] at h
    obtain ⟨⟨w, F⟩, h1, h⟩ := Option.bind_eq_some_iff.mp h
    obtain ⟨r, h2, h⟩ := Option.bind_eq_some_iff.mp h
    obtain ⟨D, h3, h⟩ := Option.bind_eq_some_iff.mp h
    split at h
    · simp only [realVal, ih w F h1, Option.bind_some, h2, (Prod.mk.inj (Option.some.inj h)).1]
    · cases h
  | bin o a b iha ihb =>
    simp only [writtenEnclosure] at h
    obtain ⟨⟨w, F⟩, h1, h⟩ := Option.bind_eq_some_iff.mp h
    obtain ⟨⟨w', F'⟩, h1', h⟩ := Option.bind_eq_some_iff.mp h
    obtain ⟨r, h2, h⟩ := Option.bind_eq_some_iff.mp h
    obtain ⟨D, h3, h⟩ := Option.bind_eq_some_iff.mp h
    split at h
    · simp only [realVal, iha w F h1, ihb w' F' h1', Option.bind_some, h2, (Prod.mk.inj (Option.some.inj h)).1]
    · cases h

theorem writtenEnclosure_eval (δ : ℝ) (hL : L.Within δ) (strict : Bool) (env : Str → Res (Double L)) (ρ : Str → ℝ)
    (e : Expr (XNum ℝ)) (e' : Expr (Double L)) (ht : WrittenReads δ e e')
    (henv : ∀ s ∈ e'.vars, ∃ x p, env s = .ok x ∧ x.Is p ∧ ρ s = ((p : ℚ) : ℝ)) (v E : ℝ) (h : writtenEnclosure δ ρ e = some (v, E)) :
    ∃ x p, e'.eval strict env = .ok x ∧ x.Is p ∧ |((p : ℚ) : ℝ) - v| ≤ E := by
  induction ht generalizing v E with
  | @num w y hy =>
    obtain ⟨r, rfl, hy⟩ := hy
    simp only [writtenEnclosure, XNum.val?, Option.bind_some] at h
    split at h
    · rename_i hc
      obtain ⟨p, h2, h3⟩ := hy hc
      obtain ⟨rfl, rfl⟩ := Prod.mk.inj (Option.some.inj h)
      exact ⟨y, p, rfl, h2, h3⟩
    · cases h
  | var s =>
    simp only [writtenEnclosure] at h
    obtain ⟨rfl, rfl⟩ := Prod.mk.inj (Option.some.inj h)
    obtain ⟨x, p, h1, h2, h3⟩ := henv s (by simp [Expr.vars])
    exact ⟨x, p, h1, h2, by simp [h3]⟩
  | un o _ ih =>
    simp only [writtenEnclosure] at h
    obtain ⟨⟨w, F⟩, h1, h⟩ := Option.bind_eq_some_iff.mp h
    obtain ⟨r, h2, h⟩ := Option.bind_eq_some_iff.mp h
    obtain ⟨D, h3, h⟩ := Option.bind_eq_some_iff.mp h
    split at h
    · rename_i hb
      obtain ⟨rfl, rfl⟩ := Prod.mk.inj (Option.some.inj h)
      obtain ⟨x, p, e1, e2, e3⟩ := ih (fun s hs => henv s (by simpa [Expr.vars] using hs)) w F h1
      obtain ⟨r', g1, g2⟩ := un_spread h2 h3 e3
      obtain ⟨q, g3, g4⟩ := un_step hL e2 g1 g2 hb
      exact ⟨_, q, by simp only [Expr.eval, e1, Res.bind_ok, checked_is g3], g3, g4⟩
    · cases h
  | bin o _ _ iha ihb =>
    simp only [writtenEnclosure] at h
    obtain ⟨⟨w, F⟩, h1, h⟩ := Option.bind_eq_some_iff.mp h
    obtain ⟨⟨w', F'⟩, h1', h⟩ := Option.bind_eq_some_iff.mp h
    obtain ⟨r, h2, h⟩ := Option.bind_eq_some_iff.mp h
    obtain ⟨D, h3, h⟩ := Option.bind_eq_some_iff.mp h
    split at h
    · rename_i hb
      obtain ⟨rfl, rfl⟩ := Prod.mk.inj (Option.some.inj h)
      obtain ⟨x, p, e1, e2, e3⟩ := iha (fun s hs => henv s (by simp [Expr.vars, hs])) w F h1
      obtain ⟨y, q, f1, f2, f3⟩ := ihb (fun s hs => henv s (by simp [Expr.vars, hs])) w' F' h1'
      obtain ⟨r', g1, g2⟩ := bin_spread h2 h3 e3 f3
      obtain ⟨z, t, g3, g4, g5⟩ := bin_step hL e2 f2 g1 g2 hb
      exact ⟨z, t, by simp only [Expr.eval, e1, f1, Res.bind_ok, g3, checked_is g4], g4, g5⟩
    · cases h

/-- as `enclosure_log`: an enclosed logarithm has an argument that is not computed as zero -/
theorem writtenEnclosure_log {δ : ℝ} (hW : L.Within δ) {env : Str → Res (Double L)} {ρ : Str → ℝ} {b : Expr (XNum ℝ)} {a : Expr (Double L)}
    (ht : WrittenReads δ b a)
    (henv : ∀ s ∈ a.vars, ∃ x p, env s = .ok x ∧ x.Is p ∧ ρ s = ((p : ℚ) : ℝ)) {w : ℝ × ℝ}
    (h : writtenEnclosure δ ρ (.un .log b) = some w) (y : Double L) (hy : a.eval true env = .ok y) : ¬ y.Is 0 := by
  intro h0
  simp only [writtenEnclosure] at h
  obtain ⟨⟨v, E⟩, h1, h⟩ := Option.bind_eq_some_iff.mp h
  obtain ⟨r, h2, h⟩ := Option.bind_eq_some_iff.mp h
  obtain ⟨D, h3, h⟩ := Option.bind_eq_some_iff.mp h
  obtain ⟨x, p, e1, e2, e3⟩ := writtenEnclosure_eval δ hW true env ρ b a ht henv v E h1
  rw [hy] at e1
  obtain rfl := Res.ok.inj e1
  have hp : p = 0 := e2.2.symm.trans h0.2
  subst hp
  simp only [UnOp.spread] at h3
  split at h3
  · rename_i hlt
    rw [Rat.cast_zero, zero_sub, abs_neg] at e3
    exact absurd (lt_of_le_of_lt ((le_abs_self v).trans e3) hlt) (lt_irrefl _)
  · cases h3

theorem treeReads_hasIntOp {e : Expr (XNum ℝ)} {e' : Expr (Double L)} (h : TreeReads e e') : e'.hasIntOp = e.hasIntOp := by
  induction h with
  | num _ => rfl
  | var _ => rfl
  | un o _ ih => exact ih
  | bin o _ _ iha ihb => simp only [Expr.hasIntOp, iha, ihb]

/-- C127 for the tree read from the text -/
theorem written_deriv {δ : ℝ} (hW : L.Within δ) (hF : L.AnnexF) (cfg : Config (Double L)) (hs : cfg.throwOnInvalidValue = true)
    {e : Expr (XNum ℝ)} {e' : Expr (Double L)} (hr : TreeReads e e') (x : Str) (hfe : e.NoForeignExp x)
    (values : List (Str × Double L)) (hval : ∀ b ∈ values, Dbl.isInvalid b.2 = false) (ρ : Str → ℝ)
    (hρ : ∀ s ∈ e.vars, ∃ y p, values.lookup s = some y ∧ y.Is p ∧ ρ s = ((p : ℚ) : ℝ)) (hsm : Smooth 1 ρ e)
    (d E : ℝ) (h : writtenEnclosure δ ρ (dE x e) = some (d, E)) :
    HasPartialDeriv ρ x e d ∧
    ∃ t' y p, diff cfg (embed e') x 1 = .ok t' ∧
      (subsValues t' values >>= fun t => vpa cfg t) = .ok y ∧ y.Is p ∧ |((p : ℚ) : ℝ) - d| ≤ E := by
  obtain ⟨d', hd', hpd⟩ := dE_correct ρ x e hsm hfe
  rw [writtenEnclosure_value δ ρ _ d E h] at hd'
  obtain rfl := Option.some.inj hd'
  refine ⟨hpd, ?_⟩
  have hint : e'.hasIntOp = false := by rw [treeReads_hasIntOp hr]; exact smooth_hasIntOp _ hsm
  have hvars := TreeReads.vars hr
  have ht := writtenReads_dE hW x hr
  have hρ' : ∀ a : Expr (Double L), (∀ s ∈ a.vars, s ∈ e'.vars) → ∀ s ∈ a.vars, ∃ y p, tableEnv values s = .ok y ∧ y.Is p ∧ ρ s = ((p : ℚ) : ℝ) := by
    intro a ha s hs
    obtain ⟨y, p, r1, r2, r3⟩ := hρ s (hvars ▸ ha s hs)
    exact ⟨y, p, by rw [tableEnv, r1], r2, r3⟩
  obtain ⟨y, p, g1, g2, g3⟩ := writtenEnclosure_eval δ hW true (tableEnv values) ρ _ _ ht (hρ' _ (dE_vars x e')) d E h
  have hv : (subsValues (embed (dE x e')) values >>= fun t => vpa cfg t) = .ok y := by
    rw [C17_subsValues_vpa, hs]
    exact g1
  have hz : e'.NoZeroPow (tableEnv values) := noZeroPow_of_deriv
    (P := fun a => (∀ s ∈ a.vars, s ∈ e'.vars) ∧ ∃ b w, WrittenReads δ b a ∧ writtenEnclosure δ ρ b = some w)
    (fun o a ⟨q1, b, w, q0, q2⟩ => ⟨q1, by
      cases q0 with
      | un _ q0 =>
        simp only [writtenEnclosure] at q2
        obtain ⟨w', q3, -⟩ := Option.bind_eq_some_iff.mp q2
        exact ⟨_, w', q0, q3⟩⟩)
    (fun o a b ⟨q1, c, w, q0, q2⟩ => by
      cases q0 with
      | bin _ q6 q7 =>
        simp only [writtenEnclosure] at q2
        obtain ⟨w1, q3, q4⟩ := Option.bind_eq_some_iff.mp q2
        obtain ⟨w2, q5, -⟩ := Option.bind_eq_some_iff.mp q4
        exact ⟨⟨fun s hs => q1 s (by simp [Expr.vars, hs]), _, w1, q6, q3⟩, ⟨fun s hs => q1 s (by simp [Expr.vars, hs]), _, w2, q7, q5⟩⟩)
    (fun a ⟨q1, b, w, q0, q2⟩ => by
      cases q0 with
      | un _ q0 => exact writtenEnclosure_log hW q0 (hρ' a q1) q2) x e' hint ⟨dE_vars x e', _, _, ht, h⟩
  obtain ⟨t, y', k1, k2, k3⟩ := C82_partial hF cfg hs (dE x e') (writtenEnclosure_nums ht _ h) values hval (noZeroPow_dE _ x e' hz) y hv
  refine ⟨t, y', p, ?_, k2, is_of_eq g2 k3, g3⟩
  rw [diff_ok cfg x 1 (by decide) e' hint]
  exact k1

/-- C127, partial: let a text be an expression of the grammar, its literals taken as the real numbers written.  Let its derivative over the
reals, written out by the rules, have the exact value `d` at a point of doubles, with the error bound `E`.  Then `d` is the partial derivative
of the function of real numbers the text denotes, and `Parse`, `Diff`, `Subs` and `Vpa` with doubles give a number that differs from `d` by at
most `E`: reading the literals, the rounding of the rules' own constants, Simplify and every operation are accounted for.  Left out is what is
false: `exp(y)` of another variable (C26_false). -/
theorem C127_partial (δ : ℝ) (hW : L.Within δ) (hF : L.AnnexF) (cfg : Config (Double L)) (hs : cfg.throwOnInvalidValue = true)
    (s : Str) (e : Expr (XNum ℝ)) (hw : Writes s e) (hl : e.NormalLiterals) (x : Str) (hfe : e.NoForeignExp x)
    (values : List (Str × Double L)) (hval : ∀ b ∈ values, Dbl.isInvalid b.2 = false) (ρ : Str → ℝ)
    (hρ : ∀ s ∈ e.vars, ∃ y p, values.lookup s = some y ∧ y.Is p ∧ ρ s = ((p : ℚ) : ℝ)) (hsm : Smooth 1 ρ e)
    (d E : ℝ) (h : writtenEnclosure δ ρ (dE x e) = some (d, E)) :
    HasPartialDeriv ρ x e d ∧
    ∃ t t' y p, (parse s : Res (Raw (Double L))) = .ok t ∧ diff cfg t x 1 = .ok t' ∧
      (subsValues t' values >>= fun t => vpa cfg t) = .ok y ∧ y.Is p ∧ |((p : ℚ) : ℝ) - d| ≤ E := by
  obtain ⟨ts, w1, w2, w3⟩ := hw
  obtain ⟨e', hp, hr⟩ := parse_reads (L := L) s ts e w1 w2 w3 hl
  obtain ⟨k1, t', y, p, k2, k3, k4, k5⟩ := written_deriv hW hF cfg hs hr x hfe values hval ρ hρ hsm d E h
  exact ⟨k1, _, t', y, p, hp, k2, k3, k4, k5⟩

/-- C127 is false for `exp(x)` and another variable: with any libm accurate to a quarter, the derivative of the text `exp(x)` with respect to `y`
at `x = 0` is computed as at least 1/2, and it is 0. -/
theorem C127_false (δ : ℝ) (hW : L.Within δ) (hδ : δ ≤ 1 / 4) (cfg : Config (Double L)) (ρ : Str → ℝ) (v : Double L) (hv : v.Is 0) :
    HasPartialDeriv ρ ['y'] (.un .exp (.var ['x'])) 0 ∧
    ∃ t t' y q, (parse "exp(x)".toList : Res (Raw (Double L))) = .ok t ∧ diff cfg t ['y'] 1 = .ok t' ∧
      (subsValues t' [(['x'], v)] >>= fun t => vpa cfg t) = .ok y ∧ y.Is q ∧ (1 : ℝ) / 2 ≤ q := by
  have hbig : (2 : ℝ) ^ 10 ≤ 2 ^ 1023 := pow_le_pow_right₀ (by norm_num) (by norm_num)
  obtain ⟨q, h1, h2⟩ := hW.un .exp (by decide) (by decide) v 0 1 hv (by simp [UnOp.real]) (lt_of_lt_of_le (by norm_num) hbig)
  refine ⟨pd_const ρ ['y'] _ (Real.exp (ρ ['x'])) (by decide) rfl, embed (.un .exp (.var ['x'])), embed (.un .exp (.var ['x'])), _, q, rfl,
    C31_false cfg, ?_, h1, ?_⟩
  · rw [C17_subsValues_vpa]
    simp only [Expr.eval, tableEnv, List.lookup, beq_self_eq_true, Res.bind_ok, checked_is h1]
  · have ht := tinyReal_le
    rw [abs_le] at h2
    rw [abs_one, mul_one] at h2
    have : (1 : ℝ) / 2 ^ 53 ≤ 1 / 8 := by norm_num
    generalize (1 : ℝ) / 2 ^ 1074 = T at *
    linarith [h2.1]

/-! ### A case: the text `0.1*x*x` -/

theorem tenthSquare_writes : Writes "0.1*x*x".toList (.bin .mul (.bin .mul (.num (.fin ((1 : ℕ) / 10))) (.var ['x'])) (.var ['x'])) := by
  have d1 : DecDigits ['1'] := by intro c hc; simp at hc; subst hc; decide
  have w1 := means_tenth '1' d1 1 (by decide)
  have hw : ∀ c ∈ ['x', '0', '.', '1'], WordChar c := by
    intro c hc
    simp at hc
    rcases hc with rfl | rfl | rfl | rfl <;> exact ⟨by unfold OpChar; decide, by unfold BlankChar; decide⟩
  have hx : WordMeans ['x'] (.var ['x'] : Tok (XNum ℝ)) := by
    refine .var ((C08_varNameIsLegal _).mp (by decide)) ((stodFull_none_iff _).mp rfl) ?_
    rintro ⟨f, hf⟩; cases hf
  have up : ∀ {n p : Nat} {ts : List (Tok (XNum ℝ))} {e : Expr (XNum ℝ)}, Gram (p + n) ts e → Gram p ts e := by
    intro n
    induction n with
    | zero => intro p ts e h; exact h
    | succ n ih => intro p ts e h; exact ih (.lift h)
  refine ⟨[(.num (.fin ((1 : ℕ) / 10)), 0), (.sym '*', 3), (.var ['x'], 4), (.sym '*', 5), (.var ['x'], 6)], ?_, ?_, ?_⟩
  · exact .word (w := []) (u := ['0', '.', '1']) (rest := ['*', 'x', '*', 'x']) (by simp) (by simp) (fun c hc => hw c (by simp at hc ⊢; tauto))
      (by intro c hc; simp at hc; subst hc; exact fun h => h.1 (by unfold OpChar; decide)) w1
      (.sym (w := []) (c := '*') (rest := ['x', '*', 'x']) (by simp) (by unfold OpChar; decide)
        (.word (w := []) (u := ['x']) (rest := ['*', 'x']) (by simp) (by simp) (fun c hc => hw c (by simp at hc ⊢; tauto))
          (by intro c hc; simp at hc; subst hc; exact fun h => h.1 (by unfold OpChar; decide)) hx
          (.sym (w := []) (c := '*') (rest := ['x']) (by simp) (by unfold OpChar; decide)
            (.word (w := []) (u := ['x']) (rest := []) (by simp) (by simp) (fun c hc => hw c (by simp at hc ⊢; tauto))
              (by simp) hx (.blank (by simp))))))
  · exact up (n := 10) (.left (ts := [_, _, _]) .mul (by decide) (.left (ts := [_]) .mul (by decide) (up (n := 5) (.num _)) (up (n := 4) (.var _))) (up (n := 4) (.var _)))
  · intro x hx s f h he
    simp at hx
    subst hx
    cases h <;> exact absurd he (by decide +kernel)

theorem writtenEnclosure_bin (o : BinOp) (ρ : Str → ℝ) (a b : Expr (XNum ℝ)) :
    writtenEnclosure (1 / 2 ^ 53) ρ (.bin o a b) = binEncl o (writtenEnclosure (1 / 2 ^ 53) ρ a) (writtenEnclosure (1 / 2 ^ 53) ρ b) := rfl

theorem written_num (ρ : Str → ℝ) {r : ℝ} (h : |r| ≤ 1) : Encl (writtenEnclosure (1 / 2 ^ 53) ρ (.num (.fin r))) r (1 / 2 ^ 50) := by
  have hbig : (2 : ℝ) ^ 10 ≤ 2 ^ 1022 := pow_le_pow_right₀ (by norm_num) (by norm_num)
  refine ⟨writtenLiteralError (1 / 2 ^ 53) r, ?_, writtenLiteralError_nonneg r, ?_⟩
  · simp only [writtenEnclosure, XNum.val?, Option.bind_some]
    rw [if_pos (lt_of_lt_of_le (by linarith [(by norm_num : (1 : ℝ) < 2 ^ 10)]) hbig)]
  · unfold writtenLiteralError
    split
    · positivity
    · rw [max_self]
      have := mul_le_mul_of_nonneg_left (by linarith : |r| + 1 ≤ 2) (by positivity : (0 : ℝ) ≤ 3 * (1 / 2 ^ 53))
      exact this.trans (by norm_num)

/-- C127 applied to the text `0.1*x*x`: its derivative at any double `p` between 1 and 2 is computed within `2^-40` of `p / 5` -/
example (cfg : Config (Double accurate)) (hs : cfg.throwOnInvalidValue = true) (v : Double accurate) (p : ℚ) (hv : v.Is p)
    (hp1 : 1 ≤ p) (hp2 : p ≤ 2) :
    ∃ t t' y q, (parse "0.1*x*x".toList : Res (Raw (Double accurate))) = .ok t ∧ diff cfg t ['x'] 1 = .ok t' ∧
      (subsValues t' [(['x'], v)] >>= fun t => vpa cfg t) = .ok y ∧ y.Is q ∧ |(q : ℝ) - p / 5| ≤ 1 / 2 ^ 40 := by
  have hp1' : (1 : ℝ) ≤ p := by exact_mod_cast hp1
  have hp2' : (p : ℝ) ≤ 2 := by exact_mod_cast hp2
  set ρ : Str → ℝ := fun _ => (p : ℝ) with hρ
  have hd : dE ['x'] (.bin .mul (.bin .mul (.num (.fin ((1 : ℕ) / 10))) (.var ['x'])) (.var ['x']) : Expr (XNum ℝ)) =
      .bin .add (.bin .mul (.bin .mul (.num (.fin ((1 : ℕ) / 10))) (.num (.fin 1))) (.var ['x']))
        (.bin .mul (.bin .mul (.num (.fin ((1 : ℕ) / 10))) (.var ['x'])) (.num (.fin 1))) := by
    have h1 : (Dbl.ofInt 1 : XNum ℝ) = .fin 1 := by show XNum.fin _ = _; norm_num
    simp [dE, Expr.isNum, h1]
  have hx : Encl (writtenEnclosure (1 / 2 ^ 53) ρ (.var ['x'])) (p : ℝ) 0 := ⟨0, rfl, le_rfl, le_rfl⟩
  have k0 := written_num ρ (r := ((1 : ℕ) : ℝ) / 10) (by norm_num)
  have k1 := written_num ρ (r := 1) (by norm_num)
  have k2 := encl_mul k0 k1 (V := 1) (W := 1) (by norm_num) (by norm_num) (by norm_num)
  have hpabs : |(p : ℝ)| ≤ 2 := by rw [abs_of_nonneg (by linarith)]; exact hp2'
  have k3 := encl_mul k2 hx (V := 1) (W := 2) (by norm_num) hpabs (by norm_num)
  have k4 := encl_mul k0 hx (V := 1) (W := 2) (by norm_num) hpabs (by norm_num)
  have k5 := encl_mul k4 k1 (V := 2) (W := 1) (by rw [abs_of_nonneg (by push_cast; linarith)]; push_cast; linarith) (by norm_num) (by norm_num)
  have k6 := encl_add k3 k5 (by
    rw [abs_of_nonneg (by push_cast; linarith)]
    have : ((1 : ℕ) : ℝ) / 10 * 1 * p + ((1 : ℕ) : ℝ) / 10 * p * 1 ≤ 1 := by push_cast; linarith
    refine (add_le_add this le_rfl).trans ?_
    norm_num)
  obtain ⟨E, e1, -, e3⟩ := k6
  obtain ⟨-, t, t', y, q, g1, g2, g3, g4, g5⟩ := C127_partial _ accurate_within accurate_annexF cfg hs _ _ tenthSquare_writes (by
      intro w hw
      simp [Expr.nums] at hw
      refine ⟨((1 : ℕ) : ℝ) / 10, by rw [hw]; norm_num, .inr ?_⟩
      have hbig : (2 : ℝ) ^ 10 ≤ 2 ^ 1023 := pow_le_pow_right₀ (by norm_num) (by norm_num)
      have hsmall : (1 : ℝ) / 2 ^ 1022 ≤ 1 / 2 ^ 10 := one_div_pow_le_one_div_pow_of_le (by norm_num) (by norm_num)
      rw [abs_of_nonneg (by positivity)]
      push_cast
      exact ⟨hsmall.trans (by norm_num), lt_of_lt_of_le (by norm_num) hbig⟩) ['x'] (by simp [Expr.NoForeignExp]) [(['x'], v)]
    (by intro b hb; simp at hb; subst hb; exact hv.1) ρ (fun s hs => by
      simp [Expr.vars] at hs
      subst hs
      exact ⟨v, p, by simp, hv, rfl⟩) (by simp [Smooth]) _ E (by rw [hd]; exact e1)
  refine ⟨t, t', y, q, g1, g2, g3, g4, ?_⟩
  have e : ((1 : ℕ) : ℝ) / 10 * 1 * p + ((1 : ℕ) : ℝ) / 10 * p * 1 = p / 5 := by push_cast; ring
  rw [e] at g5
  exact g5.trans (e3.trans (by norm_num))

end Double
end Tom
