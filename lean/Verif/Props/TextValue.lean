import Verif.Spec.TextValue
import Verif.Spec.DoubleSimplify
import Verif.Props.Rounding
import Verif.Props.RoundingCases
import Verif.Props.Parse
import Verif.Props.Subs
import Verif.Lemmas.IeeeText
/-
C97: from the text of an expression to its value in IEEE doubles.
-/
namespace Tom
namespace Double
variable {L : Libm}

/-- the exact value of a hexadecimal numeral -/
def hexRat (m : ℕ) (e : ℤ) : ℚ := if 0 ≤ e then m * 2 ^ e.toNat else m / 2 ^ (-e).toNat

theorem hexRat_eq (m : ℕ) (e : ℤ) : hexRat m e = m * (2 : ℚ) ^ e := by
  unfold hexRat
  split
  · rename_i h
    rw [← zpow_natCast, Int.toNat_of_nonneg h]
  · rename_i h
    rw [div_eq_mul_inv, ← zpow_natCast, Int.toNat_of_nonneg (by omega), zpow_neg, inv_inv]

theorem ofHex_some {m : ℕ} {e : ℤ} {v : F64} (h : F64.ofNumeral (hexRat m e) = some v) :
    ∃ x : Double L, Dbl.ofHex m e = some x ∧ x.raw = v := by
  refine ⟨⟨v, F64.ok_ofNumeral h⟩, ?_, rfl⟩
  simp only [Dbl.ofHex]
  split
  · rename_i w hw
    have : some v = some w := h.symm.trans hw
    exact congrArg some (Subtype.ext (Option.some.inj this).symm)
  · rename_i hw
    exact absurd (h.symm.trans hw) (by simp)

/-- what reading a numeral does, in terms of its exact value -/
theorem ofNumeral_read {q : ℚ} (hq : 0 ≤ q) (h : NormalLiteral (q : ℝ)) :
    ∃ v, F64.ofNumeral q = some v ∧ ∀ y : Double L, y.raw = v → ∃ p, y.Is p ∧ |((p : ℚ) : ℝ) - q| ≤ literalError q := by
  rcases eq_or_ne q 0 with rfl | h0
  · refine ⟨_, ofNumeral_zero, fun y hy => ⟨0, ⟨by rw [hy]; rfl, by rw [hy]; rfl⟩, ?_⟩⟩
    simp only [Rat.cast_zero, sub_self, abs_zero, literalError]
    split <;> simp
  · rcases h with h | ⟨h1, h2⟩
    · exact absurd (by exact_mod_cast h) h0
    have hlo : 1 / 2 ^ 1022 ≤ |q| := by
      have : (((1 / 2 ^ 1022 : ℚ)) : ℝ) ≤ ((|q| : ℚ) : ℝ) := by push_cast; exact h1
      exact_mod_cast this
    have hhi : |q| < 2 ^ 1023 := by
      have : ((|q| : ℚ) : ℝ) < (((2 : ℚ) ^ 1023 : ℚ) : ℝ) := by push_cast; exact h2
      exact_mod_cast this
    have e : |q| = q := abs_of_nonneg hq
    have r1 : 1 / 2 ^ 1022 ≤ rnd q := le_rnd q _ ⟨1, -1022, by norm_num, by norm_num, by norm_num [zpow_neg]⟩ (e ▸ hlo)
    have r2 : rnd q ≤ 2 ^ 1023 := rnd_le q _ ⟨1, 1023, by norm_num, by norm_num, by
      push_cast; rw [one_mul, ← zpow_natCast]; rfl⟩ (by rw [e] at hhi; exact hhi.le)
    have r3 : rnd q < 2 ^ 1024 := lt_of_le_of_lt r2 (by
      rw [pow_succ (2 : ℚ) 1023]
      have : (0 : ℚ) < 2 ^ 1023 := by positivity
      generalize (2 : ℚ) ^ 1023 = A at this
      linarith)
    have hp : 0 < rnd q := lt_of_lt_of_le (by positivity) r1
    refine ⟨_, ofNumeral_normal r1 r3, fun y hy => ⟨rnd q, is_num hy, ?_⟩⟩
    unfold literalError
    split
    · rename_i hd
      obtain ⟨q', hd', hq'⟩ := hd
      have : q' = q := by exact_mod_cast hq'
      subst this
      rw [rnd_of_isDouble hd']; simp
    · have := cast_le (rnd_rel q hlo)
      push_cast at this
      exact this

/-- a literal, and the double it is read as -/
def Reads (v : XNum ℝ) (y : Double L) : Prop := ∃ (r : ℝ) (p : ℚ), v = .fin r ∧ y.Is p ∧ |(p : ℝ) - r| ≤ literalError r

theorem numeral_read {u : Str} {v : XNum ℝ} (h : Numeral u v) (r : ℝ) (hv : v = .fin r) (hr : NormalLiteral r) :
    ∃ y : Double L, Numeral u y ∧ Reads v y := by
  cases h with
  | @dec m ip fp ex n v hm he ho =>
    have hval : r = ((decRat (digitsVal 10 (ip ++ fp)) ((n : Int) - fp.length) : ℚ) : ℝ) := by
      have : XNum.fin _ = v := Option.some.inj ho
      rw [hv] at this
      rw [← XNum.fin.inj this, decRat_eq]
      push_cast; rfl
    have hq : 0 ≤ decRat (digitsVal 10 (ip ++ fp)) ((n : Int) - fp.length) := by rw [decRat_eq]; positivity
    rw [hval] at hr
    obtain ⟨w, h1, h2⟩ := ofNumeral_read (L := L) hq hr
    obtain ⟨y, h3, h4⟩ := ofDec_some (L := L) h1
    obtain ⟨p, h5, h6⟩ := h2 y h4
    exact ⟨y, .dec hm he h3, r, p, hv, h5, by rw [hval]; exact h6⟩
  | @hex c m ip fp ex n v hc hm he ho =>
    have hval : r = ((hexRat (digitsVal 16 (ip ++ fp)) ((n : Int) - 4 * fp.length) : ℚ) : ℝ) := by
      have : XNum.fin _ = v := Option.some.inj ho
      rw [hv] at this
      rw [← XNum.fin.inj this, hexRat_eq]
      push_cast; rfl
    have hq : 0 ≤ hexRat (digitsVal 16 (ip ++ fp)) ((n : Int) - 4 * fp.length) := by rw [hexRat_eq]; positivity
    rw [hval] at hr
    obtain ⟨w, h1, h2⟩ := ofNumeral_read (L := L) hq hr
    obtain ⟨y, h3, h4⟩ := ofHex_some (L := L) h1
    obtain ⟨p, h5, h6⟩ := h2 y h4
    exact ⟨y, .hex hc hm he h3, r, p, hv, h5, by rw [hval]; exact h6⟩
  | inf => cases hv
  | infinity => cases hv
  | nan => cases hv

/-- a word that is a numeral for doubles is one for reals -/
theorem numeral_real {u : Str} {y : Double L} (h : Numeral u y) : ∃ v : XNum ℝ, Numeral u v := by
  cases h with
  | dec hm he ho => exact ⟨_, .dec hm he rfl⟩
  | hex hc hm he ho => exact ⟨_, .hex hc hm he rfl⟩
  | inf h1 h2 h3 => exact ⟨_, .inf h1 h2 h3⟩
  | infinity h1 h2 h3 h4 h5 h6 h7 h8 => exact ⟨_, .infinity h1 h2 h3 h4 h5 h6 h7 h8⟩
  | nan h1 h2 h3 => exact ⟨_, .nan h1 h2 h3⟩

/-- the same token, literals read as doubles -/
inductive TokReads : Tok (XNum ℝ) → Tok (Double L) → Prop
  | num {v : XNum ℝ} {y : Double L} : Reads v y → TokReads (.num v) (.num y)
  | var (x : Str) : TokReads (.var x) (.var x)
  | fn (f : UnOp) : TokReads (.fn f) (.fn f)
  | sym (c : Char) : TokReads (.sym c) (.sym c)

/-- the same tree, literals read as doubles -/
inductive TreeReads : Expr (XNum ℝ) → Expr (Double L) → Prop
  | num {v : XNum ℝ} {y : Double L} : Reads v y → TreeReads (.num v) (.num y)
  | var (x : Str) : TreeReads (.var x) (.var x)
  | un (o : UnOp) {e : Expr (XNum ℝ)} {e' : Expr (Double L)} : TreeReads e e' → TreeReads (.un o e) (.un o e')
  | bin (o : BinOp) {a b : Expr (XNum ℝ)} {a' b' : Expr (Double L)} : TreeReads a a' → TreeReads b b' →
      TreeReads (.bin o a b) (.bin o a' b')

theorem forall2_sym {c : Char} {us : List (Tok (Double L))} (h : List.Forall₂ TokReads [Tok.sym c] us) : us = [.sym c] := by
  cases h with
  | cons h1 h2 => cases h1; cases h2; rfl

theorem forall2_append {as bs : List (Tok (XNum ℝ))} {us : List (Tok (Double L))} (h : List.Forall₂ TokReads (as ++ bs) us) :
    ∃ us1 us2, us = us1 ++ us2 ∧ List.Forall₂ TokReads as us1 ∧ List.Forall₂ TokReads bs us2 := by
  induction as generalizing us with
  | nil => exact ⟨[], us, rfl, .nil, h⟩
  | cons a as ih =>
    cases h with
    | cons h1 h2 =>
      obtain ⟨v1, v2, rfl, g1, g2⟩ := ih h2
      exact ⟨_ :: v1, v2, rfl, .cons h1 g1, g2⟩

theorem gram_reads {p : Nat} {ts : List (Tok (XNum ℝ))} {e : Expr (XNum ℝ)} (h : Gram p ts e) {us : List (Tok (Double L))}
    (hr : List.Forall₂ TokReads ts us) : ∃ e' : Expr (Double L), Gram p us e' ∧ TreeReads e e' := by
  induction h generalizing us with
  | num v => cases hr with | cons h1 h2 => cases h1 with | num h1 => cases h2; exact ⟨_, .num _, .num h1⟩
  | var x => cases hr with | cons h1 h2 => cases h1; cases h2; exact ⟨_, .var x, .var x⟩
  | paren _ ih =>
    obtain ⟨u1, u2, rfl, h1, h2⟩ := forall2_append hr
    obtain ⟨u3, u4, rfl, h3, h4⟩ := forall2_append h1
    obtain ⟨e', g1, g2⟩ := ih h4
    rw [forall2_sym h3, forall2_sym h2]
    exact ⟨e', .paren g1, g2⟩
  | @call f s ts e hf _ ih =>
    obtain ⟨u1, u2, rfl, h1, h2⟩ := forall2_append hr
    obtain ⟨u3, u4, rfl, h3, h4⟩ := forall2_append h1
    obtain ⟨e', g1, g2⟩ := ih h4
    rw [forall2_sym h2]
    cases h3 with
    | cons k1 k2 =>
      cases k1
      rw [forall2_sym k2]
      exact ⟨_, .call hf g1, .un f g2⟩
  | sign hc _ ih =>
    obtain ⟨u1, u2, rfl, h1, h2⟩ := forall2_append hr
    obtain ⟨e', g1, g2⟩ := ih h2
    rw [forall2_sym h1]
    exact ⟨_, .sign hc g1, .un _ g2⟩
  | left hc hp _ _ iha ihb =>
    obtain ⟨u1, u2, rfl, h1, h2⟩ := forall2_append hr
    obtain ⟨u3, u4, rfl, h3, h4⟩ := forall2_append h1
    obtain ⟨a', g1, g2⟩ := iha h3
    obtain ⟨b', g3, g4⟩ := ihb h2
    rw [forall2_sym h4]
    exact ⟨_, .left hc hp g1 g3, .bin _ g2 g4⟩
  | right _ _ iha ihb =>
    obtain ⟨u1, u2, rfl, h1, h2⟩ := forall2_append hr
    obtain ⟨u3, u4, rfl, h3, h4⟩ := forall2_append h1
    obtain ⟨a', g1, g2⟩ := iha h3
    obtain ⟨b', g3, g4⟩ := ihb h2
    rw [forall2_sym h4]
    exact ⟨_, .right g1 g3, .bin _ g2 g4⟩
  | lift _ ih =>
    obtain ⟨e', g1, g2⟩ := ih hr
    exact ⟨e', .lift g1, g2⟩

theorem gram_nums {α : Type} {p : Nat} {ts : List (Tok α)} {e : Expr α} (h : Gram p ts e) {v : α} (hv : Tok.num v ∈ ts) : v ∈ e.nums := by
  induction h with
  | num w => simpa [Expr.nums] using hv
  | var x => simp at hv
  | paren _ ih => exact ih (by simpa using hv)
  | call _ _ ih => exact ih (by simpa using hv)
  | sign _ _ ih => exact ih (by simpa using hv)
  | left _ _ _ _ iha ihb =>
    simp only [List.mem_append, List.mem_singleton, reduceCtorEq, or_false] at hv
    exact List.mem_append.mpr (hv.imp iha ihb)
  | right _ _ iha ihb =>
    simp only [List.mem_append, List.mem_singleton, reduceCtorEq, or_false] at hv
    exact List.mem_append.mpr (hv.imp iha ihb)
  | lift _ ih => exact ih hv

theorem lexed_reads {k : Nat} {s : Str} {ts : List (Tok (XNum ℝ) × Nat)} (h : Lexed WordMeans k s ts)
    (hn : ∀ v, Tok.num v ∈ ts.map Prod.fst → ∃ r, v = .fin r ∧ NormalLiteral r) :
    ∃ us : List (Tok (Double L) × Nat), Lexed WordMeans k s us ∧ List.Forall₂ TokReads (ts.map Prod.fst) (us.map Prod.fst) := by
  induction h with
  | blank hw => exact ⟨[], .blank hw, .nil⟩
  | @sym k w rest c ts hw hc _ ih =>
    obtain ⟨us, g1, g2⟩ := ih fun v hv => hn v (by simp only [List.map_cons, List.mem_cons]; exact .inr hv)
    exact ⟨_ :: us, .sym hw hc g1, .cons (.sym c) g2⟩
  | @word k w u rest t ts hw hne hu hd hm _ ih =>
    obtain ⟨us, g1, g2⟩ := ih fun v hv => hn v (by simp only [List.map_cons, List.mem_cons]; exact .inr hv)
    have : ∃ t' : Tok (Double L), WordMeans u t' ∧ TokReads t t' := by
      cases hm with
      | @num v hv =>
        obtain ⟨r, h1, h2⟩ := hn v (by simp)
        obtain ⟨y, h3, h4⟩ := numeral_read (L := L) hv r h1 h2
        exact ⟨_, .num h3, .num h4⟩
      | fn hf => exact ⟨_, .fn hf, .fn _⟩
      | var h1 h2 h3 => exact ⟨_, .var h1 (fun ⟨y, hy⟩ => h2 (numeral_real hy)) h3, .var _⟩
    obtain ⟨t', h1, h2⟩ := this
    exact ⟨_ :: us, .word hw hne hu hd h1 g1, .cons h2 g2⟩

theorem textEnclosure_nums (δ : ℝ) (ρ : Str → ℝ) (e : Expr (XNum ℝ)) (w : ℝ × ℝ) (h : textEnclosure δ ρ e = some w) :
    ∀ v ∈ e.nums, ∃ r, v = .fin r ∧ NormalLiteral r := by
  induction e generalizing w with
  | num x =>
    intro v hv
    simp only [Expr.nums, List.mem_singleton] at hv
    subst hv
    simp only [textEnclosure] at h
    obtain ⟨r, h1, h2⟩ := Option.bind_eq_some_iff.mp h
    split at h2
    · rename_i hr
      refine ⟨r, ?_, hr⟩
      cases v with
      | fin q => exact congrArg _ (Option.some.inj h1)
      | bad => cases h1
    · cases h2
  | var s => simp [Expr.nums]
  | un o e ih =>
    simp only [textEnclosure] at h
    obtain ⟨w', h1, -⟩ := Option.bind_eq_some_iff.mp h
    exact ih w' h1
  | bin o a b iha ihb =>
    simp only [textEnclosure] at h
    obtain ⟨w1, h1, h2⟩ := Option.bind_eq_some_iff.mp h
    obtain ⟨w2, h3, -⟩ := Option.bind_eq_some_iff.mp h2
    intro v hv
    rcases List.mem_append.mp hv with hv | hv
    · exact iha w1 h1 v hv
    · exact ihb w2 h3 v hv

theorem textEnclosure_value (δ : ℝ) (ρ : Str → ℝ) (e : Expr (XNum ℝ)) (v E : ℝ) (h : textEnclosure δ ρ e = some (v, E)) :
    realVal ρ e = some v := by
  induction e generalizing v E with
  | num x =>
    simp only [textEnclosure] at h
    obtain ⟨r, h1, h2⟩ := Option.bind_eq_some_iff.mp h
    split at h2
    · rw [realVal, h1, (Prod.mk.inj (Option.some.inj h2)).1]
    · cases h2
  | var s =>
    simp only [textEnclosure] at h
    simp only [realVal, (Prod.mk.inj (Option.some.inj h)).1]
  | un o e ih =>
    simp only [textEnclosure] at h
    obtain ⟨⟨w, F⟩, h1, h⟩ := Option.bind_eq_some_iff.mp h
    obtain ⟨r, h2, h⟩ := Option.bind_eq_some_iff.mp h
    obtain ⟨D, h3, h⟩ := Option.bind_eq_some_iff.mp h
    split at h
    · simp only [realVal, ih w F h1, Option.bind_some, h2, (Prod.mk.inj (Option.some.inj h)).1]
    · cases h
  | bin o a b iha ihb =>
    simp only [textEnclosure] at h
    obtain ⟨⟨w, F⟩, h1, h⟩ := Option.bind_eq_some_iff.mp h
    obtain ⟨⟨w', F'⟩, h1', h⟩ := Option.bind_eq_some_iff.mp h
    obtain ⟨r, h2, h⟩ := Option.bind_eq_some_iff.mp h
    obtain ⟨D, h3, h⟩ := Option.bind_eq_some_iff.mp h
    split at h
    · simp only [realVal, iha w F h1, ihb w' F' h1', Option.bind_some, h2, (Prod.mk.inj (Option.some.inj h)).1]
    · cases h

theorem textEnclosure_eval (δ : ℝ) (hL : L.Within δ) (strict : Bool) (env : Str → Res (Double L)) (ρ : Str → ℝ)
    (e : Expr (XNum ℝ)) (e' : Expr (Double L)) (ht : TreeReads e e')
    (henv : ∀ s ∈ e.vars, ∃ x p, env s = .ok x ∧ x.Is p ∧ ρ s = ((p : ℚ) : ℝ)) (v E : ℝ) (h : textEnclosure δ ρ e = some (v, E)) :
    ∃ x p, e'.eval strict env = .ok x ∧ x.Is p ∧ |((p : ℚ) : ℝ) - v| ≤ E := by
  induction ht generalizing v E with
  | @num w y hy =>
    obtain ⟨r, p, rfl, h2, h3⟩ := hy
    simp only [textEnclosure, XNum.val?, Option.bind_some] at h
    split at h
    · obtain ⟨rfl, rfl⟩ := Prod.mk.inj (Option.some.inj h)
      exact ⟨y, p, rfl, h2, h3⟩
    · cases h
  | var s =>
    simp only [textEnclosure] at h
    obtain ⟨rfl, rfl⟩ := Prod.mk.inj (Option.some.inj h)
    obtain ⟨x, p, h1, h2, h3⟩ := henv s (by simp [Expr.vars])
    exact ⟨x, p, h1, h2, by simp [h3]⟩
  | un o _ ih =>
    simp only [textEnclosure] at h
    obtain ⟨⟨w, F⟩, h1, h⟩ := Option.bind_eq_some_iff.mp h
    obtain ⟨r, h2, h⟩ := Option.bind_eq_some_iff.mp h
    obtain ⟨D, h3, h⟩ := Option.bind_eq_some_iff.mp h
    split at h
    · rename_i hb
      obtain ⟨rfl, rfl⟩ := Prod.mk.inj (Option.some.inj h)
      obtain ⟨x, p, e1, e2, e3⟩ := ih (fun s hs => henv s (by simpa [Expr.vars] using hs)) w F h1
      obtain ⟨r', g1, g2⟩ := un_spread h2 h3 e3
      obtain ⟨q, g3, g4⟩ := un_step hL e2 g1 g2 hb
      exact ⟨_, q, by simp only [Expr.eval, e1, Res.bind_ok, checked_is g3], g3, g4⟩
    · cases h
  | bin o _ _ iha ihb =>
    simp only [textEnclosure] at h
    obtain ⟨⟨w, F⟩, h1, h⟩ := Option.bind_eq_some_iff.mp h
    obtain ⟨⟨w', F'⟩, h1', h⟩ := Option.bind_eq_some_iff.mp h
    obtain ⟨r, h2, h⟩ := Option.bind_eq_some_iff.mp h
    obtain ⟨D, h3, h⟩ := Option.bind_eq_some_iff.mp h
    split at h
    · rename_i hb
      obtain ⟨rfl, rfl⟩ := Prod.mk.inj (Option.some.inj h)
      obtain ⟨x, p, e1, e2, e3⟩ := iha (fun s hs => henv s (by simp [Expr.vars, hs])) w F h1
      obtain ⟨y, q, f1, f2, f3⟩ := ihb (fun s hs => henv s (by simp [Expr.vars, hs])) w' F' h1'
      obtain ⟨r', g1, g2⟩ := bin_spread h2 h3 e3 f3
      obtain ⟨z, t, g3, g4, g5⟩ := bin_step hL e2 f2 g1 g2 hb
      exact ⟨z, t, by simp only [Expr.eval, e1, f1, Res.bind_ok, g3, checked_is g4], g4, g5⟩
    · cases h

/-- the tree read with doubles is the tree of the text with rounded literals -/
theorem parse_reads (s : Str) (ts : List (Tok (XNum ℝ) × Nat)) (e : Expr (XNum ℝ))
    (hlex : Lexed WordMeans 0 s ts) (hgram : Gram 0 (ts.map Prod.fst) e) (hcol : ∀ x, Tok.var x ∈ ts.map Prod.fst → NoCollision x)
    (hn : ∀ v ∈ e.nums, ∃ r, v = .fin r ∧ NormalLiteral r) :
    ∃ e' : Expr (Double L), parse s = .ok (embed e') ∧ TreeReads e e' := by
  obtain ⟨us, h1, h2⟩ := lexed_reads (L := L) hlex fun w hw => hn w (gram_nums hgram hw)
  obtain ⟨e', h3, h4⟩ := gram_reads hgram h2
  refine ⟨e', C01_parse s us e' h1 h3 fun x hx => hcol x ?_, h4⟩
  obtain ⟨t, ht, hr⟩ : ∃ t ∈ ts.map Prod.fst, TokReads t (Tok.var x : Tok (Double L)) := by
    clear h3 hgram hcol hlex h1 hn
    generalize ts.map Prod.fst = as at h2
    generalize us.map Prod.fst = bs at h2 hx
    induction h2 with
    | nil => cases hx
    | cons k1 _ ih =>
      rcases List.mem_cons.mp hx with rfl | hx
      · exact ⟨_, List.mem_cons_self, k1⟩
      · obtain ⟨t, h1, h2⟩ := ih hx
        exact ⟨t, List.mem_cons_of_mem _ h1, h2⟩
  cases hr
  exact ht

/-- C97: let a text be an expression of the grammar, its literals taken as the real numbers written.  If its exact value at a point of
doubles is `v`, with the error bound `E`, then `Parse`, `Subs` and `Vpa` with doubles give a number that differs from `v` by at most
`E`: reading the literals, and every operation, are accounted for. -/
theorem C97_text (δ : ℝ) (hL : L.Within δ) (cfg : Config (Double L)) (s : Str) (ts : List (Tok (XNum ℝ) × Nat)) (e : Expr (XNum ℝ))
    (hlex : Lexed WordMeans 0 s ts) (hgram : Gram 0 (ts.map Prod.fst) e) (hcol : ∀ x, Tok.var x ∈ ts.map Prod.fst → NoCollision x)
    (values : List (Str × Double L)) (ρ : Str → ℝ)
    (hρ : ∀ x ∈ e.vars, ∃ y p, values.lookup x = some y ∧ y.Is p ∧ ρ x = ((p : ℚ) : ℝ)) (v E : ℝ)
    (h : textEnclosure δ ρ e = some (v, E)) :
    realVal ρ e = some v ∧
    ∃ t y p, (parse s : Res (Raw (Double L))) = .ok t ∧ (subsValues t values >>= fun t => vpa cfg t) = .ok y ∧ y.Is p ∧
      |((p : ℚ) : ℝ) - v| ≤ E := by
  refine ⟨textEnclosure_value δ ρ e v E h, ?_⟩
  obtain ⟨e', h3, h4⟩ := parse_reads (L := L) s ts e hlex hgram hcol (textEnclosure_nums δ ρ e _ h)
  obtain ⟨y, p, g1, g2, g3⟩ := textEnclosure_eval δ hL cfg.throwOnInvalidValue (tableEnv values) ρ e e' h4 (fun x hx => by
    obtain ⟨y, p, r1, r2, r3⟩ := hρ x hx
    exact ⟨y, p, by rw [tableEnv, r1], r2, r3⟩) v E h
  exact ⟨_, y, p, h3, by rw [C17_subsValues_vpa]; exact g1, g2, g3⟩

/-- C97 without variables: `Parse(s)->Vpa()`. -/
theorem C97_vpa (δ : ℝ) (hL : L.Within δ) (cfg : Config (Double L)) (s : Str) (ts : List (Tok (XNum ℝ) × Nat)) (e : Expr (XNum ℝ))
    (hlex : Lexed WordMeans 0 s ts) (hgram : Gram 0 (ts.map Prod.fst) e) (hv : e.vars = [])
    (hcol : ∀ x, Tok.var x ∉ ts.map Prod.fst) (ρ : Str → ℝ) (v E : ℝ) (h : textEnclosure δ ρ e = some (v, E)) :
    realVal ρ e = some v ∧
    ∃ t y p, (parse s : Res (Raw (Double L))) = .ok t ∧ vpa cfg t = .ok y ∧ y.Is p ∧ |((p : ℚ) : ℝ) - v| ≤ E := by
  refine ⟨textEnclosure_value δ ρ e v E h, ?_⟩
  obtain ⟨e', h3, h4⟩ := parse_reads (L := L) s ts e hlex hgram (fun x hx => absurd hx (hcol x)) (textEnclosure_nums δ ρ e _ h)
  obtain ⟨y, p, g1, g2, g3⟩ := textEnclosure_eval δ hL cfg.throwOnInvalidValue _ ρ e e' h4 (by simp [hv]) v E h
  exact ⟨_, y, p, h3, by rw [C12_vpa]; exact g1, g2, g3⟩

/-! ### A case -/

theorem means_tenth (c : Char) (hc : DecDigits [c]) (d : ℕ) (hd : digitVal c = d) :
    WordMeans ['0', '.', c] (.num (.fin ((d : ℝ) / 10)) : Tok (XNum ℝ)) := by
  refine .num ?_
  have h0 : DecDigits ['0'] := by intro c hc; simp at hc; subst hc; decide
  have := Numeral.dec (α := XNum ℝ) (v := .fin ((d : ℝ) / 10)) (Mantissa.point h0 hc (by simp)) .none (by
    show some _ = some _
    congr 2
    have h0 : digitVal '0' = 0 := by decide
    simp [digitsVal, hd, h0, zpow_neg, div_eq_mul_inv])
  simpa using this

/-- `0.1+0.2` is computed within `2^-53` of 0.3: all conditions of C97 are met -/
example (cfg : Config (Double accurate)) : ∃ t y p, (parse "0.1+0.2".toList : Res (Raw (Double accurate))) = .ok t ∧ vpa cfg t = .ok y ∧
    y.Is p ∧ |((p : ℚ) : ℝ) - 3 / 10| ≤ 1 / 2 ^ 53 := by
  have d1 : DecDigits ['1'] := by intro c hc; simp at hc; subst hc; decide
  have d2 : DecDigits ['2'] := by intro c hc; simp at hc; subst hc; decide
  have w1 := means_tenth '1' d1 1 (by decide)
  have w2 := means_tenth '2' d2 2 (by decide)
  have hw : ∀ c ∈ ['0', '.', '1', '2'], WordChar c := by
    intro c hc
    simp at hc
    rcases hc with rfl | rfl | rfl | rfl <;> exact ⟨by unfold OpChar; decide, by unfold BlankChar; decide⟩
  have hlex : Lexed (WordMeans (α := XNum ℝ)) 0 "0.1+0.2".toList
      [(.num (.fin ((1 : ℕ) / 10)), 0), (.sym '+', 3), (.num (.fin ((2 : ℕ) / 10)), 4)] :=
    .word (w := []) (u := ['0', '.', '1']) (rest := ['+', '0', '.', '2']) (by simp) (by simp) (fun c hc => hw c (by simp at hc ⊢; tauto))
      (by intro c hc; simp at hc; subst hc; exact fun h => h.1 (by unfold OpChar; decide)) w1
      (.sym (w := []) (c := '+') (rest := ['0', '.', '2']) (by simp) (by unfold OpChar; decide)
        (.word (w := []) (u := ['0', '.', '2']) (rest := []) (by simp) (by simp) (fun c hc => hw c (by simp at hc ⊢; tauto))
          (by simp) w2 (.blank (by simp))))
  have up : ∀ {n p : Nat} {ts : List (Tok (XNum ℝ))} {e : Expr (XNum ℝ)}, Gram (p + n) ts e → Gram p ts e := by
    intro n
    induction n with
    | zero => intro p ts e h; exact h
    | succ n ih => intro p ts e h; exact ih (.lift h)
  have hgram : Gram 0 [.num (.fin ((1 : ℕ) / 10)), .sym '+', .num (.fin ((2 : ℕ) / 10))]
      (.bin .add (.num (.fin ((1 : ℕ) / 10))) (.num (.fin ((2 : ℕ) / 10))) : Expr (XNum ℝ)) :=
    up (n := 5) (.left .add (by decide) (up (n := 10) (.num _)) (up (n := 9) (.num _)))
  have hbig : (2 : ℝ) ^ 10 ≤ 2 ^ 1023 := pow_le_pow_right₀ (by norm_num) (by norm_num)
  have hsmall : (1 : ℝ) / 2 ^ 1022 ≤ 1 / 2 ^ 10 := one_div_pow_le_one_div_pow_of_le (by norm_num) (by norm_num)
  have hb : (1 : ℝ) < 2 ^ 1023 := lt_of_lt_of_le (by norm_num) hbig
  have n1 : NormalLiteral (((1 : ℕ) : ℝ) / 10) := .inr ⟨hsmall.trans (by norm_num [abs_of_pos]), lt_of_le_of_lt (by norm_num [abs_of_pos]) hb⟩
  have n2 : NormalLiteral (((2 : ℕ) : ℝ) / 10) := .inr ⟨hsmall.trans (by norm_num [abs_of_pos]), lt_of_le_of_lt (by norm_num [abs_of_pos]) hb⟩
  have e1 : 0 ≤ literalError (((1 : ℕ) : ℝ) / 10) ∧ literalError (((1 : ℕ) : ℝ) / 10) ≤ 1 / 2 ^ 53 * (1 / 10) := by
    unfold literalError
    split <;> norm_num [abs_of_pos]
  have e2 : 0 ≤ literalError (((2 : ℕ) : ℝ) / 10) ∧ literalError (((2 : ℕ) : ℝ) / 10) ≤ 1 / 2 ^ 53 * (2 / 10) := by
    unfold literalError
    split <;> norm_num [abs_of_pos]
  generalize hE1 : literalError (((1 : ℕ) : ℝ) / 10) = E1 at e1
  generalize hE2 : literalError (((2 : ℕ) : ℝ) / 10) = E2 at e2
  have hs : ((1 : ℕ) : ℝ) / 10 + ((2 : ℕ) : ℝ) / 10 = 3 / 10 := by norm_num
  have enc : textEnclosure (1 / 2 ^ 53) (fun _ => 0) (.bin .add (.num (.fin ((1 : ℕ) / 10))) (.num (.fin ((2 : ℕ) / 10))) : Expr (XNum ℝ)) =
      some (3 / 10, (E1 + E2) + BinOp.roundoff (1 / 2 ^ 53) .add (3 / 10) (E1 + E2)) := by
    simp only [textEnclosure, XNum.val?, Option.bind_some, if_pos n1, if_pos n2, BinOp.real, BinOp.spread, hs, hE1, hE2]
    rw [if_pos]
    refine lt_of_le_of_lt ?_ hb
    rw [abs_of_pos (by norm_num)]
    have : (1 : ℝ) / 2 ^ 53 * (1 / 10) + 1 / 2 ^ 53 * (2 / 10) ≤ 1 / 10 := by norm_num
    linarith [e1.2, e2.2]
  obtain ⟨-, t, y, p, g1, g2, g3, g4⟩ := C97_vpa _ accurate_within cfg _ _ _ hlex hgram rfl (by simp) _ _ _ enc
  refine ⟨t, y, p, g1, g2, g3, g4.trans ?_⟩
  have hro : BinOp.roundoff (1 / 2 ^ 53) .add (3 / 10) (E1 + E2) ≤ 1 / 2 ^ 53 * (3 / 10 + (1 / 2 ^ 53 * (1 / 10) + 1 / 2 ^ 53 * (2 / 10))) := by
    simp only [BinOp.roundoff]
    split
    · positivity
    · rw [abs_of_pos (by norm_num)]
      exact mul_le_mul_of_nonneg_left (by linarith [e1.2, e2.2]) (by positivity)
  have : (1 : ℝ) / 2 ^ 53 * (1 / 10) + 1 / 2 ^ 53 * (2 / 10) + 1 / 2 ^ 53 * (3 / 10 + (1 / 2 ^ 53 * (1 / 10) + 1 / 2 ^ 53 * (2 / 10))) ≤
    1 / 2 ^ 53 := by norm_num
  linarith [e1.2, e2.2]

end Double
end Tom
