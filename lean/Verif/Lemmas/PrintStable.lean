import Verif.Props.IeeePrint
import Verif.Props.Parse
import Verif.Spec.PrintStable
/-
Lemmas for property C112: which regroupings keep the text.
-/
set_option linter.unusedSectionVars false
namespace Tom
variable {α : Type} [Dbl α]

theorem parenthesised_addSub (p : BinOp) (r : Bool) : parenthesised p r .sub = parenthesised p r .add := by
  cases p <;> cases r <;> rfl

theorem parenthesised_mulDiv (p : BinOp) (r : Bool) : parenthesised p r .div = parenthesised p r .mul := by
  cases p <;> cases r <;> rfl

/-- where the context of an operand does not matter -/
theorem infixText_ctx (e : Expr α) {p q : BinOp} {r s : Bool} (h : ∀ o, parenthesised p r o = parenthesised q s o)
    (h1 : ¬ (p = .sub ∧ r = true)) (h2 : ¬ (q = .sub ∧ s = true)) : infixText (some (p, r)) e = infixText (some (q, s)) e := by
  cases e with
  | num v =>
    simp only [infixText]
    rw [if_neg (by rintro ⟨_, h⟩; cases h; exact h1 ⟨rfl, rfl⟩), if_neg (by rintro ⟨_, h⟩; cases h; exact h2 ⟨rfl, rfl⟩)]
  | var x => rfl
  | un o e => rfl
  | bin o a b => simp only [infixText, h]

/-- the arithmetic: a negative number is the negation of a number that is not negative, and is written with a minus sign before the text of
that number -/
def NegText (α : Type) [Dbl α] : Prop :=
  ∀ w : α, Arith.lt (Arith.neg w) (Dbl.ofInt 0) = true → Arith.lt w (Dbl.ofInt 0) = false ∧ Dbl.toStr (Arith.neg w) = '-' :: Dbl.toStr w

theorem Expr.SignsApart.of_nonneg {e : Expr α} (h : ∀ v ∈ e.nums, Arith.lt v (Dbl.ofInt 0) = false) : e.SignsApart := by
  induction e with
  | num v => trivial
  | var x => trivial
  | un o e ih =>
    refine ⟨ih h, fun _ v hv => ?_⟩
    subst hv
    exact h v (by simp [Expr.nums])
  | bin o a b iha ihb =>
    refine ⟨iha fun v hv => h v (by simp [Expr.nums, hv]), ihb fun v hv => h v (by simp [Expr.nums, hv]), fun _ v hv => ?_⟩
    subst hv
    exact h v (by simp [Expr.nums])

/-- what a regrouping keeps -/
theorem regroups_text (hT : NegText α) {e e' : Expr α} (h : Regroups e e') (hs : e.SignsApart) :
    e'.SignsApart ∧ (∀ v', e' = .num v' → e = .num v') ∧
    ((∀ v, e = .num v → Arith.lt v (Dbl.ofInt 0) = false) → e'.isLeaf = e.isLeaf) ∧
    ∀ ctx, (ctx = some (.sub, true) → ∀ v, e = .num v → Arith.lt v (Dbl.ofInt 0) = false) → infixText ctx e' = infixText ctx e := by
  induction h with
  | refl e => exact ⟨hs, fun _ h => h, fun _ => rfl, fun _ _ => rfl⟩
  | trans _ _ ih1 ih2 =>
    obtain ⟨a1, a2, a3, a4⟩ := ih1 hs
    obtain ⟨b1, b2, b3, b4⟩ := ih2 a1
    refine ⟨b1, fun v hv => a2 v (b2 v hv), fun hn => ?_, fun ctx hn => ?_⟩
    · rw [b3 fun v hv => hn v (a2 v hv), a3 hn]
    · rw [b4 ctx fun hc v hv => hn hc v (a2 v hv), a4 ctx hn]
  | un o _ ih =>
    obtain ⟨a1, a2, a3, a4⟩ := ih hs.1
    refine ⟨⟨a1, fun ho v hv => hs.2 ho v (a2 v hv)⟩, (by intro _ h; cases h), fun _ => rfl, fun ctx _ => ?_⟩
    simp only [infixText, a4 none (by intro h; cases h)]
    by_cases ho : o = .pos ∨ o = .neg
    · rw [a3 fun v hv => hs.2 ho v hv]
    · rw [if_neg fun h => ho h.1, if_neg fun h => ho h.1]
  | bin o _ _ ih1 ih2 =>
    obtain ⟨a1, a2, a3, a4⟩ := ih1 hs.1
    obtain ⟨b1, b2, b3, b4⟩ := ih2 hs.2.1
    refine ⟨⟨a1, b1, fun ho v hv => hs.2.2 ho v (b2 v hv)⟩, (by intro _ h; cases h), fun _ => rfl, fun ctx _ => ?_⟩
    simp only [infixText]
    rw [a4 _ (by intro h; cases h), b4 _ (by intro h; cases h; exact hs.2.2 rfl)]
  | @negative v w h1 h2 =>
    subst h2
    obtain ⟨h3, h4⟩ := hT w h1
    refine ⟨⟨trivial, fun _ u hu => by cases hu; exact h3⟩, (by intro _ h; cases h), fun hn => ?_, fun ctx hn => ?_⟩
    · rw [hn _ rfl] at h1; cases h1
    · have hc : ctx ≠ some (.sub, true) := by
        intro hc
        rw [hn hc _ rfl] at h1; cases h1
      simp only [infixText, if_neg (fun h : _ ∧ ctx = some (.sub, true) => hc h.2), h4]
      rw [if_pos (by simp [Expr.isLeaf]), if_neg (by rintro ⟨_, h⟩; cases h)]
      rfl
  | addAdd a b c =>
    obtain ⟨s1, ⟨s2, s3, _⟩, _⟩ := hs
    refine ⟨⟨⟨s1, s2, by intro h; cases h⟩, s3, by intro h; cases h⟩, (by intro _ h; cases h), fun _ => rfl, fun ctx _ => ?_⟩
    have hb := infixText_ctx b (p := .add) (r := false) (q := .add) (s := true) (by intro o; cases o <;> rfl) (by decide) (by decide)
    have e1 : parenthesised .add false .add = false := rfl
    have e2 : parenthesised .add true .add = false := rfl
    simp only [infixText, hb, e1, e2, Bool.false_eq_true, if_false]
    simp only [List.append_assoc]
  | addSub a b c =>
    obtain ⟨s1, ⟨s2, s3, s4⟩, _⟩ := hs
    refine ⟨⟨⟨s1, s2, by intro h; cases h⟩, s3, s4⟩, (by intro _ h; cases h), fun _ => rfl, fun ctx _ => ?_⟩
    have hb := infixText_ctx b (p := .add) (r := true) (q := .sub) (s := false) (by intro o; cases o <;> rfl) (by decide) (by decide)
    have e1 : parenthesised .sub false .add = false := rfl
    have e2 : parenthesised .add true .sub = false := rfl
    simp only [infixText, hb, e1, e2, parenthesised_addSub, Bool.false_eq_true, if_false]
    simp only [List.append_assoc]
  | mulMul a b c =>
    obtain ⟨s1, ⟨s2, s3, _⟩, _⟩ := hs
    refine ⟨⟨⟨s1, s2, by intro h; cases h⟩, s3, by intro h; cases h⟩, (by intro _ h; cases h), fun _ => rfl, fun ctx _ => ?_⟩
    have hb := infixText_ctx b (p := .mul) (r := false) (q := .mul) (s := true) (by intro o; cases o <;> rfl) (by decide) (by decide)
    have e1 : parenthesised .mul false .mul = false := rfl
    have e2 : parenthesised .mul true .mul = false := rfl
    simp only [infixText, hb, e1, e2, Bool.false_eq_true, if_false]
    simp only [List.append_assoc]
  | mulDiv a b c =>
    obtain ⟨s1, ⟨s2, s3, _⟩, _⟩ := hs
    refine ⟨⟨⟨s1, s2, by intro h; cases h⟩, s3, by intro h; cases h⟩, (by intro _ h; cases h), fun _ => rfl, fun ctx _ => ?_⟩
    have hb := infixText_ctx b (p := .mul) (r := true) (q := .div) (s := false) (by intro o; cases o <;> rfl) (by decide) (by decide)
    have e1 : parenthesised .div false .mul = false := rfl
    have e2 : parenthesised .mul true .div = false := rfl
    simp only [infixText, hb, e1, e2, parenthesised_mulDiv, Bool.false_eq_true, if_false]
    simp only [List.append_assoc]

/-- the literals after a regrouping: the same, or one whose negation is a negative literal of the expression -/
theorem regroups_nums {e e' : Expr α} (h : Regroups e e') (hT : NegText α) :
    ∀ w ∈ e'.nums, w ∈ e.nums ∨ Arith.neg w ∈ e.nums ∧ Arith.lt (Arith.neg w) (Dbl.ofInt 0) = true := by
  induction h with
  | refl e => exact fun w hw => .inl hw
  | trans _ _ ih1 ih2 =>
    intro w hw
    rcases ih2 w hw with h | ⟨h, h'⟩
    · exact ih1 w h
    · rcases ih1 _ h with g | ⟨_, g'⟩
      · exact .inr ⟨g, h'⟩
      · have := (hT _ g').1
        rw [h'] at this; cases this
  | un o _ ih => exact ih
  | bin o _ _ ih1 ih2 =>
    intro w hw
    simp only [Expr.nums, List.mem_append] at hw ⊢
    rcases hw with hw | hw
    · rcases ih1 w hw with h | ⟨h, h'⟩
      · exact .inl (.inl h)
      · exact .inr ⟨.inl h, h'⟩
    · rcases ih2 w hw with h | ⟨h, h'⟩
      · exact .inl (.inr h)
      · exact .inr ⟨.inr h, h'⟩
  | @negative v w h1 h2 =>
    intro u hu
    simp only [Expr.nums, List.mem_singleton] at hu
    subst hu; subst h2
    exact .inr ⟨by simp [Expr.nums], h1⟩
  | addAdd a b c => intro w hw; left; simpa [Expr.nums, or_assoc] using hw
  | addSub a b c => intro w hw; left; simpa [Expr.nums, or_assoc] using hw
  | mulMul a b c => intro w hw; left; simpa [Expr.nums, or_assoc] using hw
  | mulDiv a b c => intro w hw; left; simpa [Expr.nums, or_assoc] using hw

theorem regroups_vars {e e' : Expr α} (h : Regroups e e') : ∀ x, x ∈ e'.vars ↔ x ∈ e.vars := by
  induction h with
  | refl e => exact fun _ => .rfl
  | trans _ _ ih1 ih2 => exact fun x => (ih2 x).trans (ih1 x)
  | un o _ ih => exact ih
  | bin o _ _ ih1 ih2 => intro x; simp only [Expr.vars, List.mem_append, ih1 x, ih2 x]
  | negative _ _ => intro x; simp [Expr.vars]
  | addAdd a b c => intro x; simp [Expr.vars]
  | addSub a b c => intro x; simp [Expr.vars]
  | mulMul a b c => intro x; simp [Expr.vars]
  | mulDiv a b c => intro x; simp [Expr.vars]

theorem regroups_noArc {e e' : Expr α} (h : Regroups e e') (ha : e.NoArc) : e'.NoArc := by
  induction h with
  | refl e => exact ha
  | trans _ _ ih1 ih2 => exact ih2 (ih1 ha)
  | un o _ ih => exact ⟨ha.1, ha.2.1, ha.2.2.1, ih ha.2.2.2⟩
  | bin o _ _ ih1 ih2 => exact ⟨ih1 ha.1, ih2 ha.2⟩
  | negative _ _ => exact ⟨by decide, by decide, by decide, trivial⟩
  | addAdd a b c => exact ⟨⟨ha.1, ha.2.1⟩, ha.2.2⟩
  | addSub a b c => exact ⟨⟨ha.1, ha.2.1⟩, ha.2.2⟩
  | mulMul a b c => exact ⟨⟨ha.1, ha.2.1⟩, ha.2.2⟩
  | mulDiv a b c => exact ⟨⟨ha.1, ha.2.1⟩, ha.2.2⟩

/-! ### doubles -/

theorem stripE_minus' (cs : Str) : stripE ('-' :: cs) = '-' :: stripE cs := by
  have : matchE ('-' :: cs) = none := rfl
  simp only [stripE, this]

theorem stripEnd_minus' (cs : Str) : stripEnd ('-' :: cs) = '-' :: stripEnd cs := by
  have : matchEnd ('-' :: cs) = false := rfl
  simp only [stripEnd, this, Bool.false_eq_true, if_false]

theorem fmtFixed16_sign : ∃ F : Str → ℕ → ℕ → Str, (∀ v, fmtFixed16 v = F (if v < 0 then ['-'] else []) v.num.natAbs v.den) ∧
    ∀ s n d, F ('-' :: s) n d = '-' :: F s n d := by
  refine ⟨fun s n d => let n := roundHalfEven (n * 10 ^ 16) d
    s ++ Nat.toDigits 10 (n / 10 ^ 16) ++ ['.'] ++ padDigits 16 (n % 10 ^ 16), fun v => ?_, fun s n d => ?_⟩
  · unfold fmtFixed16 ratAbsNum; rfl
  · simp only [List.cons_append]

theorem fmtSci16_sign : ∃ F : Str → ℕ → ℕ → Str, (∀ v, fmtSci16 v = F (if v < 0 then ['-'] else []) v.num.natAbs v.den) ∧
    ∀ s n d, F ('-' :: s) n d = '-' :: F s n d := by
  refine ⟨fun s n d =>
    let e := decExponent n d
    let m := if e ≤ 16 then roundHalfEven (n * 10 ^ (16 - e).toNat) d
      else roundHalfEven n (d * 10 ^ (e - 16).toNat)
    let (m, e) := if m = 10 ^ 17 then (10 ^ 16, e + 1) else (m, e)
    s ++ (match Nat.toDigits 10 m with
      | [] => []
      | d :: ds => d :: '.' :: ds) ++
    ['e', if e < 0 then '-' else '+'] ++ padDigits 2 e.natAbs, fun v => ?_, fun s n d => ?_⟩
  · unfold fmtSci16 ratAbsNum; rfl
  · simp only [List.cons_append]

theorem formatDouble_neg {q : ℚ} (h : 0 < q) : formatDouble (-q) = '-' :: formatDouble q := by
  have h1 : -q < 0 := by linarith
  have h2 : ¬ q < 0 := by linarith
  have e1 : fmtFixed16 (-q) = '-' :: fmtFixed16 q := by
    obtain ⟨F, f1, f2⟩ := fmtFixed16_sign
    rw [f1, f1, if_pos h1, if_neg h2, Rat.neg_num, Int.natAbs_neg, Rat.neg_den, f2]
  have e2 : fmtSci16 (-q) = '-' :: fmtSci16 q := by
    obtain ⟨F, f1, f2⟩ := fmtSci16_sign
    rw [f1, f1, if_pos h1, if_neg h2, Rat.neg_num, Int.natAbs_neg, Rat.neg_den, f2]
  have h3 : ¬ -q = 0 := by intro h; linarith
  have h4 : ¬ q = 0 := by intro h; linarith
  unfold formatDouble
  rw [e1, e2]
  generalize fmtFixed16 q = A
  generalize fmtSci16 q = B
  simp only [h3, h4, if_pos h1, if_neg h2, neg_neg, stripE_minus', stripEnd_minus', if_false]
  by_cases c : q ≥ 10 ^ 16 ∨ q * 10 ^ 16 ≤ 1
  · simp only [if_pos c]
  · simp only [if_neg c]

namespace Double
variable {L : Libm}

theorem negative_iff (x : Double L) : Arith.lt x (Dbl.ofInt 0) = true ↔ x.raw = .inf true ∨ ∃ q, x.raw = .num q ∧ q < 0 := by
  have h0 : (Dbl.ofInt 0 : Double L).raw = .zero false := rfl
  have : (Arith.lt x (Dbl.ofInt 0)) = F64.lt x.raw (.zero false) := rfl
  rw [this]
  cases hx : x.raw with
  | nan => simp [F64.lt]
  | inf s => cases s <;> simp [F64.lt]
  | zero s => simp [F64.lt, F64.toRat]
  | num q =>
    simp only [F64.lt, F64.toRat, reduceCtorEq, false_or, F64.num.injEq, exists_eq_left']
    exact ⟨of_decide_eq_true, decide_eq_true⟩

theorem negText : NegText (Double L) := by
  intro w hw
  have hr : (Arith.neg w : Double L).raw = F64.neg w.raw := rfl
  have ht : Dbl.toStr (Arith.neg w : Double L) = F64.toStr (F64.neg w.raw) := rfl
  have ht' : Dbl.toStr w = F64.toStr w.raw := rfl
  rw [ht, ht']
  rw [negative_iff, hr] at hw
  have hno : ¬ (w.raw = .inf true ∨ ∃ q, w.raw = .num q ∧ q < 0) := by
    cases hx : w.raw with
    | nan => simp
    | inf s => rw [hx] at hw; cases s <;> simp_all [F64.neg]
    | zero s => simp
    | num q =>
      rw [hx] at hw
      simp [F64.neg] at hw ⊢
      linarith
  refine ⟨by rw [← negative_iff] at hno; simpa using hno, ?_⟩
  cases hx : w.raw with
  | nan => rw [hx] at hw; simp [F64.neg] at hw
  | inf s => rw [hx] at hw; cases s <;> simp_all [F64.neg, F64.toStr]
  | zero s => rw [hx] at hw; simp [F64.neg] at hw
  | num q =>
    rw [hx] at hw
    simp [F64.neg] at hw
    exact formatDouble_neg hw

theorem neg_inj {x y : Double L} (h : Arith.neg x = Arith.neg y) : x = y := by
  apply Double.ext
  have h' : F64.neg x.raw = F64.neg y.raw := congrArg Double.raw h
  cases hx : x.raw <;> cases hy : y.raw <;> rw [hx, hy] at h' <;> simp_all [F64.neg]

/-- what a numeral denotes is not negative -/
theorem ofNumeral_nonneg {q : ℚ} (hq : 0 ≤ q) {v : F64} (h : F64.ofNumeral q = some v) : ¬ (v = .inf true ∨ ∃ p, v = .num p ∧ p < 0) := by
  have h2 : ¬ q < 0 := by linarith
  unfold F64.ofNumeral at h
  have hp : ∀ e, 0 ≤ pow2 e := by intro e; unfold pow2; split <;> positivity
  revert h
  unfold F64.round
  simp only [h2, if_false, decide_false]
  generalize roundUnits q.num.natAbs q.den (ulpExp q.num.natAbs q.den) = m
  have hv : 0 ≤ (m : ℚ) * pow2 (ulpExp q.num.natAbs q.den) := mul_nonneg (by positivity) (hp _)
  generalize (m : ℚ) * pow2 (ulpExp q.num.natAbs q.den) = r at hv ⊢
  by_cases c1 : q = 0
  · simp only [c1, if_true]
    intro h; cases h; simp
  · simp only [c1, if_false]
    by_cases c2 : m = 0
    · simp only [c2, if_true]
      intro h; cases h
    · simp only [c2, if_false]
      by_cases c3 : 2 ^ 1024 ≤ r
      · simp only [c3, if_true]
        intro h; cases h
      · simp only [c3, if_false]
        by_cases c4 : r * 2 ^ 1022 < 1 ∧ r ≠ q
        · simp only [if_pos c4]; intro h; cases h
        · simp only [if_neg c4]
          intro h; cases h
          simpa using hv

theorem notNegative_inf : ¬ ((Dbl.inf : Double L).raw = .inf true ∨ ∃ q, (Dbl.inf : Double L).raw = .num q ∧ q < 0) := by
  have : (Dbl.inf : Double L).raw = .inf false := rfl
  rw [this]; simp

theorem notNegative_nan : ¬ ((Dbl.nan : Double L).raw = .inf true ∨ ∃ q, (Dbl.nan : Double L).raw = .num q ∧ q < 0) := by
  have : (Dbl.nan : Double L).raw = .nan := rfl
  rw [this]; simp

theorem numeral_nonneg {u : Str} {v : Double L} (h : Numeral u v) : Arith.lt v (Dbl.ofInt 0) = false := by
  rw [Bool.eq_false_iff, Ne, negative_iff]
  cases h with
  | dec _ _ h =>
    have := ofDec_inv h
    exact ofNumeral_nonneg (by unfold decRat; split <;> positivity) this
  | hex _ _ _ h =>
    have h' : ∀ {m : ℕ} {e : ℤ}, Dbl.ofHex m e = some v → ∃ q : ℚ, 0 ≤ q ∧ F64.ofNumeral q = some v.raw := by
      intro m e h
      refine ⟨if 0 ≤ e then m * 2 ^ e.toNat else m / 2 ^ (-e).toNat, by split <;> positivity, ?_⟩
      simp only [Dbl.ofHex] at h
      split at h
      · next hw => rw [hw]; cases h; rfl
      · cases h
    obtain ⟨q, hq, hv⟩ := h' h
    exact ofNumeral_nonneg hq hv
  | inf _ _ _ => exact notNegative_inf
  | infinity => exact notNegative_inf
  | nan _ _ _ => exact notNegative_nan

/-- after one reading, every literal is one that reads back without sign -/
theorem readsBack_neg {w : Double L} (h : ReadsBack (Arith.neg w : Double L)) (hn : Arith.lt (Arith.neg w : Double L) (Dbl.ofInt 0) = true) :
    ReadsBack w := by
  cases h with
  | plain h => rw [numeral_nonneg h] at hn; cases hn
  | @signed u w' h1 h2 h3 h4 =>
    have := neg_inj h4
    subst this
    rw [(negText w' hn).2] at h2
    have : Dbl.toStr w' = u := by simpa using h2
    subst this
    exact .plain h3

end Double

/-- the literals of a tree `Parse` returns are not negative -/
theorem parse_nonneg {L : Libm} {s : Str} {e : Expr (Double L)} (h : parse s = .ok (embed e)) :
    ∀ v ∈ e.nums, Arith.lt v (Dbl.ofInt 0) = false := by
  obtain ⟨ts, e1, h1, h2, _, _, h3⟩ := C56_partial s _ h
  have h2 := embed_injective h2
  subst h2
  have key : ∀ {k : Nat} {s : Str} {ts : List (Tok (Double L) × Nat)}, Lexed HashMeans k s ts → ∀ v, Tok.num v ∈ ts.map Prod.fst →
      Arith.lt v (Dbl.ofInt 0) = false := by
    intro k s ts h
    induction h with
    | blank _ => intro v hv; simp at hv
    | sym _ _ _ ih =>
      intro v hv
      simp only [List.map_cons, List.mem_cons] at hv
      rcases hv with hv | hv
      · cases hv
      · exact ih v hv
    | word _ _ _ _ hm _ ih =>
      intro v hv
      simp only [List.map_cons, List.mem_cons] at hv
      rcases hv with hv | hv
      · subst hv
        cases hm with
        | num hm => exact Double.numeral_nonneg hm
      · exact ih v hv
  have hsym : ∀ (e : Expr (Double L)) v, v ∈ e.nums → Tok.num v ∈ e.symbols := by
    intro e
    induction e with
    | num w => intro v hv; simpa [Expr.nums, Expr.symbols] using hv
    | var x => intro v hv; simp [Expr.nums] at hv
    | un o e ih => intro v hv; exact List.mem_cons_of_mem _ (ih v hv)
    | bin o a b iha ihb =>
      intro v hv
      simp only [Expr.nums, List.mem_append] at hv
      simp only [Expr.symbols, List.mem_append]
      rcases hv with hv | hv
      · exact .inl (.inl (iha v hv))
      · exact .inr (ihb v hv)
  intro v hv
  have := h3.symm.subset (hsym _ v hv)
  exact key h1 v (List.mem_filter.mp this).1

end Tom
