import Verif.Props.Recursive
import Verif.Props.Print
/-
C83, the text of `ToStringRecursively` and its meaning.
-/
namespace Tom
variable {α : Type} [Dbl α]

/-- the operand of a prefix sign is no binary operation -/
def Expr.SignsTight : Expr α → Prop
  | .num _ => True
  | .var _ => True
  | .un o e => ((o = .pos ∨ o = .neg) → ∀ p a b, e ≠ .bin p a b) ∧ e.SignsTight
  | .bin _ a b => a.SignsTight ∧ b.SignsTight

/-- the text of a binary operation without the parentheses around it -/
def bareBracketText (o : BinOp) (a b : Expr α) : Str := bracketText (some (o, false)) a ++ [o.char] ++ bracketText (some (o, true)) b

theorem bracketText_bin (c : Option (BinOp × Bool)) (o : BinOp) (a b : Expr α) : bracketText c (.bin o a b) =
    match c with
    | none => bareBracketText o a b
    | some (p, right) => if parenthesised p right o then ['('] ++ bareBracketText o a b ++ [')'] else bareBracketText o a b := by
  cases c <;> rfl

theorem der_bracket (e : Expr α) (hp : Printable e) (ht : e.SignsTight) :
    (∀ c, (∀ o a b, e ≠ .bin o a b) → Der 14 (bracketText c e) e) ∧
    (∀ o a b, e = .bin o a b → Der o.prec (bareBracketText o a b) e) ∧
    (∀ o a b, e = .bin o a b → ∀ (p : BinOp) (s : Str) (x : Expr α), Chain p o → Der p.prec s x →
      Der p.prec (s ++ [p.char] ++ bareBracketText o a b) (.bin p x e)) := by
  induction e with
  | num v =>
    refine ⟨fun c _ => ?_, fun _ _ _ h => (by cases h), fun _ _ _ h => (by cases h)⟩
    have h := Der.literal (hp.nums v (by simp [Expr.nums]))
    simp only [bracketText]
    split
    · exact (h.lower (p := 0) 14).paren.lower 1
    · exact h
  | var x =>
    refine ⟨fun c _ => ?_, fun _ _ _ h => (by cases h), fun _ _ _ h => (by cases h)⟩
    have h := hp.vars x (by simp [Expr.vars])
    exact (Der.variable h.1 h.2).lower 1
  | un o e ih =>
    refine ⟨fun c _ => ?_, fun _ _ _ h => (by cases h), fun _ _ _ h => (by cases h)⟩
    obtain ⟨i1, i2, _⟩ := ih hp.un ht.2
    have h0 : Der 0 (bracketText none e) e := by
      cases e with
      | bin o a b =>
        rw [bracketText_bin]
        exact (i2 o a b rfl).le (by omega)
      | _ => exact (i1 none (by intro _ _ _ h; cases h)).le (by omega)
    have harc := hp.arcs
    simp only [bracketText]
    by_cases hs : o = .pos ∨ o = .neg
    · have hsign : ∃ ch, o.text = [ch] ∧ SignChar ch o := by
        rcases hs with rfl | rfl
        · exact ⟨_, rfl, .pos⟩
        · exact ⟨_, rfl, .neg⟩
      obtain ⟨ch, ht', hch⟩ := hsign
      rw [ht', if_pos hs]
      have := (Der.sign hch (i1 none (ht.1 hs))).lower (p := 0) 14
      have := this.paren.lower (p := 14) 1
      simpa using this
    · rw [if_neg hs]
      exact (Der.call (fnText hs ⟨harc.1, harc.2.1, harc.2.2.1⟩) h0).lower 1
  | bin o a b iha ihb =>
    obtain ⟨a1, a2, a3⟩ := iha hp.left ht.1
    obtain ⟨b1, b2, b3⟩ := ihb hp.right ht.2
    -- an operand that is no unparenthesised operation of the same precedence
    have operand : ∀ (e : Expr α), (∀ c, (∀ o a b, e ≠ .bin o a b) → Der 14 (bracketText c e) e) →
        (∀ o a b, e = .bin o a b → Der o.prec (bareBracketText o a b) e) → ∀ (p : BinOp) (r : Bool),
        Der (p.prec + 1) (bracketText (some (p, r)) e) e ∨
        ∃ o a b, e = .bin o a b ∧ o.prec = p.prec ∧ parenthesised p r o = false ∧
          bracketText (some (p, r)) e = bareBracketText o a b := by
      intro e h1 h2 p r
      have hle : p.prec + 1 ≤ 14 := by cases p <;> decide
      by_cases hb : ∃ o a b, e = .bin o a b
      · obtain ⟨o, a, b, rfl⟩ := hb
        rw [bracketText_bin]
        simp only
        by_cases hpar : parenthesised p r o = true
        · left
          rw [if_pos hpar]
          exact ((h2 o a b rfl).le (Nat.zero_le _)).paren.le (by omega)
        · rw [if_neg hpar]
          by_cases heq : o.prec = p.prec
          · right
            exact ⟨o, a, b, rfl, heq, by simpa using hpar, rfl⟩
          · left
            refine (h2 o a b rfl).le ?_
            have : ¬ o.prec < p.prec := by
              intro hlt
              simp [parenthesised, hlt] at hpar
            omega
      · left
        refine (h1 _ ?_).le hle
        intro o a b h
        exact hb ⟨o, a, b, h⟩
    -- the left operand
    have hleft : o ≠ .pow → Der o.prec (bracketText (some (o, false)) a) a := by
      intro ho
      rcases operand a a1 a2 o false with h | ⟨o', a', b', rfl, he, _, ht⟩
      · exact h.lower 1
      · rw [ht, ← he]; exact a2 o' a' b' rfl
    -- the right operand
    have hright : Der (o.prec + 1) (bracketText (some (o, true)) b) b ∨
        ∃ o' a' b', b = .bin o' a' b' ∧ Chain o o' ∧ bracketText (some (o, true)) b = bareBracketText o' a' b' := by
      rcases operand b b1 b2 o true with h | ⟨o', a', b', rfl, he, hn, ht⟩
      · exact .inl h
      · refine .inr ⟨o', a', b', rfl, ?_, ht⟩
        revert he hn
        unfold Chain
        cases o <;> cases o' <;> decide
    have join : ∀ (s : Str) (x : Expr α), o ≠ .pow → Der o.prec s x → Der o.prec (s ++ [o.char] ++ bracketText (some (o, true)) b) (.bin o x b) := by
      intro s x ho hs
      rcases hright with h | ⟨o', a', b', hb, hch, ht⟩
      · exact Der.left ho hs h
      · rw [ht]; exact b3 o' a' b' hb o s x hch hs
    have bare : Der o.prec (bareBracketText o a b) (.bin o a b) := by
      by_cases ho : o = .pow
      · subst ho
        have hr : Der 12 (bracketText (some (.pow, true)) b) b := by
          rcases hright with h | ⟨o', a', b', hb, hch, ht⟩
          · exact h
          · rcases hch with ⟨h, _⟩ | ⟨h, _⟩ <;> cases h
        have hl : Der 12 (bracketText (some (.pow, false)) a) a := by
          rcases operand a a1 a2 .pow false with h | ⟨o', a', b', rfl, he, hn, ht⟩
          · exact h
          · exfalso
            revert he hn
            cases o' <;> decide
        exact Der.right hl (hr.lower 1)
      · exact join _ _ ho (hleft ho)
    refine ⟨fun c h => absurd rfl (h o a b), fun o' a' b' h => by cases h; exact bare, ?_⟩
    intro o' a' b' h p s x hch hs
    cases h
    have hpp : o.prec = p.prec ∧ o ≠ .pow ∧ p ≠ .pow := by
      rcases hch with ⟨rfl, rfl | rfl⟩ | ⟨rfl, rfl | rfl⟩ <;> exact ⟨rfl, by decide, by decide⟩
    refine Der.mono ?_ (chain_regroups hch x a b)
    have h1 : Der p.prec (s ++ [p.char] ++ bracketText (some (o, false)) a) (.bin p x a) := by
      rcases operand a a1 a2 o false with h | ⟨o', a', b', ha, he, hn, ht⟩
      · exact Der.left hpp.2.2 hs (by rw [← hpp.1]; exact h)
      · rw [ht]
        refine a3 o' a' b' ha p s x ?_ hs
        revert he
        rcases hch with ⟨rfl, rfl | rfl⟩ | ⟨rfl, rfl | rfl⟩ <;> unfold Chain <;> cases o' <;> decide
    have := join _ _ hpp.2.1 (by rw [hpp.1]; exact h1)
    rw [hpp.1] at this
    simpa [bareBracketText] using this

theorem parse_bracket (e : Expr α) (hp : Printable e) (ht : e.SignsTight) : ∃ e', parse (bracketText none e) = .ok (embed e') ∧ Regroups e e' := by
  obtain ⟨h1, h2, _⟩ := der_bracket e hp ht
  have h0 : Der 0 (bracketText none e) e := by
    cases e with
    | bin o a b =>
      rw [bracketText_bin]
      exact (h2 o a b rfl).le (by omega)
    | _ => exact (h1 none (by intro _ _ _ h; cases h)).le (by omega)
  obtain ⟨ps, e', hs, hps, hg, hr⟩ := h0
  obtain ⟨l, hl, hm⟩ := lexed_pieces (by simpa using (shaped_of_gram hg).2 [] .done) ps rfl hps 0
  rw [hs] at hl
  refine ⟨e', ?_, hr⟩
  have hne : bracketText none e ≠ [] := by
    intro h0
    rw [h0] at hl
    have : l = [] := by
      generalize hq : ([] : Str) = q at hl
      cases hl with
      | blank => rfl
      | sym => simp at hq
      | word _ hne => simp at hq; exact absurd hq.2.1 hne
    rw [this] at hm
    rw [← hm] at hg
    have : ∀ {p : Nat} {ts : List (Tok α)} {e : Expr α}, Gram p ts e → ts ≠ [] := by
      intro p ts e h
      induction h <;> simp_all
    exact this hg rfl
  rw [parse_lexed hl hne]
  exact build_gram (by rw [hm]; exact hg) _ (markToks_node true l)

/-- C83, what the text of `ToStringRecursively` means, partial: if no prefix sign has a binary operation as its operand (and names, literals and functions
are such as `Parse` reads, C06), the text is read, as the same expression up to regrouping of sums and products to the left - as for `ToString`. -/
theorem C83_reads_partial (e : Expr α) (hn : ∀ v ∈ e.nums, ReadsBack v) (hv : ∀ x ∈ e.vars, ReadableName α x) (ha : e.NoArc) (ht : e.SignsTight) :
    ∃ e', parse (toStringRecursively ⟨none, false⟩ (embed e)) = .ok (embed e') ∧ Regroups e e' := by
  rw [C83_toString]
  exact parse_bracket e ⟨hn, hv, ha⟩ ht

/-- so both texts are read as expressions that denote the same function of the real numbers -/
theorem C83_meaning_partial (f : α → XNum ℝ) (hf : ∀ w, f (Arith.neg w) = (f w).map fun x => -x) (e : Expr α) (hn : ∀ v ∈ e.nums, ReadsBack v)
    (hv : ∀ x ∈ e.vars, ReadableName α x) (ha : e.NoArc) (ht : e.SignsTight) (ρ : Str → ℝ) :
    ∃ s e₁ e₂, toStringNode (embed e) = .ok s ∧ parse s = .ok (embed e₁) ∧ parse (toStringRecursively ⟨none, false⟩ (embed e)) = .ok (embed e₂) ∧
      realVal ρ (e₁.mapNum f) = realVal ρ (e.mapNum f) ∧ realVal ρ (e₂.mapNum f) = realVal ρ (e.mapNum f) := by
  obtain ⟨s, e₁, h1, h2, h3⟩ := C06_partial e hn hv ha
  obtain ⟨e₂, h4, h5⟩ := C83_reads_partial e hn hv ha ht
  exact ⟨s, e₁, e₂, h1, h2, h4, regroups_real f hf h3 ρ, regroups_real f hf h5 ρ⟩

/-- `2^(-sin(x+x))` meets the conditions -/
example : ∃ e', parse (toStringRecursively ⟨none, false⟩ (embed (.bin .pow (.num (XNum.fin (2 : Rat))) (.un .neg (.un .sin (.bin .add (.var ['x']) (.var ['x']))))))) =
      .ok (embed e') ∧ Regroups (.bin .pow (.num (.fin 2)) (.un .neg (.un .sin (.bin .add (.var ['x']) (.var ['x'])))) : Expr (XNum Rat)) e' := by
  refine C83_reads_partial _ ?_ ?_ (by simp [Expr.NoArc]) (by simp [Expr.SignsTight])
  · intro v hv
    simp [Expr.nums] at hv
    subst hv
    exact C51_readsBack _ (.inr (by norm_num)) (by norm_num) 20000000000000000 (by norm_num)
  · intro x hx
    simp [Expr.vars] at hx
    subst hx
    exact readable_x

/-- C83 fails in meaning too: the negation of `x+1` is written `(-x+1)` by `ToStringRecursively`, which is read as `(-x)+1`; at `x = 1` the expression is -2,
what is read is 0.  `ToString` writes `-(x+1)`. -/
theorem C83_false_meaning : let e : Expr (XNum Rat) := .un .neg (.bin .add (.var ['x']) (.num (.fin 1)))
    let e' : Expr (XNum Rat) := .bin .add (.un .neg (.var ['x'])) (.num (.fin 1))
    toStringNode (embed e) = .ok "-(x+1)".toList ∧ toStringRecursively ⟨none, false⟩ (embed e) = "(-x+1)".toList ∧
    parse "(-x+1)".toList = .ok (embed e') ∧
    e.eval true (fun _ => .ok (.fin 1)) = .ok (.fin (-2)) ∧ e'.eval true (fun _ => .ok (.fin 1)) = .ok (.fin 0) := by
  refine ⟨?_, ?_, ?_, ?_, ?_⟩ <;> decide +kernel

end Tom
