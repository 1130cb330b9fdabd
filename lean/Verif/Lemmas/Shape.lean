import Verif.Lemmas.Paren
/-
A token sequence is derivable in the grammar exactly if its tokens are in sensible places and its parentheses are balanced.
-/
set_option linter.unusedSectionVars false
namespace Tom
variable {α : Type} [Dbl α]

/-- operands of precedence at least `p` separated by operators of lower precedence -/
inductive Units (p : Nat) : List (Tok α) → Prop
  | one {ts : List (Tok α)} {e : Expr α} : Gram p ts e → Units p ts
  | cons {ts us : List (Tok α)} {e : Expr α} {c : Char} {q : Nat} {o : BinOp} : Gram p ts e → BinChar c q o → q < p →
      Units p us → Units p (ts ++ [.sym c] ++ us)

theorem units_left {p : Nat} (hp : p ≠ 11) {ts : List (Tok α)} (h : Units (p + 1) ts) :
    Units p ts ∧ ∀ (acc : List (Tok α)) (e : Expr α) (c : Char) (o : BinOp), Gram p acc e → BinChar c p o →
      Units p (acc ++ [.sym c] ++ ts) := by
  have hpow : ∀ {c : Char} {o : BinOp}, BinChar c p o → o ≠ .pow := by
    intro c o h ho
    subst ho; cases h; exact hp rfl
  induction h with
  | one h1 => exact ⟨.one (.lift h1), fun acc e c o h2 h3 => .one (.left h3 (hpow h3) h2 h1)⟩
  | @cons ts us e c q o h1 h2 h3 h4 ih =>
    by_cases hq : q = p
    · subst hq
      refine ⟨ih.2 ts e c o (.lift h1) h2, ?_⟩
      intro acc e' c' o' h5 h6
      have := ih.2 (acc ++ [.sym c'] ++ ts) (.bin o' e' e) c o (.left h6 (hpow h6) h5 h1) h2
      simpa using this
    · refine ⟨.cons (.lift h1) h2 (by omega) ih.1, ?_⟩
      intro acc e' c' o' h5 h6
      have := Units.cons (.left h6 (hpow h6) h5 h1) h2 (by omega) ih.1
      simpa using this

theorem units_right {ts : List (Tok α)} (h : Units 12 ts) : Units 11 ts := by
  induction h with
  | one h1 => exact .one (.lift h1)
  | @cons ts us e c q o h1 h2 h3 h4 ih =>
    by_cases hq : q = 11
    · subst hq
      cases h2
      cases ih with
      | one h5 => exact .one (.right h1 h5)
      | @cons vs ws e' c' q' o' h5 h6 h7 h8 =>
        have := Units.cons (.right h1 h5) h6 h7 h8
        simpa using this
    · exact .cons (.lift h1) h2 (by omega) ih

theorem units_zero {p : Nat} {ts : List (Tok α)} (h : Units p ts) : ∃ e, Gram 0 ts e := by
  induction p with
  | zero =>
    cases h with
    | one h => exact ⟨_, h⟩
    | cons _ _ h _ => exact absurd h (Nat.not_lt_zero _)
  | succ p ih =>
    by_cases hp : p = 11
    · subst hp; exact ih (units_right h)
    · exact ih (units_left hp h).1

/-- a sign before the first operand -/
theorem units_sign {c : Char} {o : UnOp} {ts : List (Tok α)} (hs : SignChar c o) (h : Units 14 ts) : Units 14 (.sym c :: ts) := by
  cases h with
  | one h => exact .one (.sign hs h)
  | cons h1 h2 h3 h4 =>
    have := Units.cons (.sign hs h1) h2 h3 h4
    simpa using this

/-- parentheses balanced when starting `d` deep -/
def Bal (d : Nat) (ts : List (Tok α)) : Prop := NonNegFrom d ts ∧ numClose ts = numOpen ts + d

theorem bal_open {d : Nat} {ts : List (Tok α)} : Bal d (.sym '(' :: ts) ↔ Bal (d + 1) ts := by
  unfold Bal
  rw [nonNegFrom_open _ _ _ rfl, numOpen_cons, numClose_cons]
  have h1 : (Tok.sym '(' : Tok α).isSym '(' = true := rfl
  have h2 : (Tok.sym '(' : Tok α).isSym ')' = false := rfl
  simp only [h1, h2, if_true]
  refine and_congr_right fun _ => ?_
  constructor <;> intro h <;> simp at * <;> omega

theorem bal_close {d : Nat} {ts : List (Tok α)} : Bal (d + 1) (.sym ')' :: ts) ↔ Bal d ts := by
  unfold Bal
  rw [nonNegFrom_close _ _ _ rfl, numOpen_cons, numClose_cons]
  have h1 : (Tok.sym ')' : Tok α).isSym '(' = false := rfl
  have h2 : (Tok.sym ')' : Tok α).isSym ')' = true := rfl
  simp only [h1, h2, if_true]
  refine and_congr_right fun _ => ?_
  constructor <;> intro h <;> simp at * <;> omega

theorem bal_close_zero {ts : List (Tok α)} : ¬ Bal 0 (.sym ')' :: ts) := fun h => nonNegFrom_close_zero _ _ rfl h.1

theorem bal_other {d : Nat} {t : Tok α} {ts : List (Tok α)} (h : t.isParen = false) : Bal d (t :: ts) ↔ Bal d ts := by
  simp only [Tok.isParen, Bool.or_eq_false_iff] at h
  unfold Bal
  rw [nonNegFrom_other _ _ _ h.1 h.2, numOpen_cons, numClose_cons]
  simp [h.1, h.2]

theorem bal_append {d e : Nat} {ts us : List (Tok α)} (h1 : Bal d ts) (h2 : Bal e us) : Bal (d + e) (ts ++ us) := by
  induction ts generalizing d with
  | nil =>
    have : d = 0 := by simpa [Bal, numClose, numOpen, nonNegFrom_nil] using h1.2.symm
    subst this
    simpa using h2
  | cons t ts ih =>
    by_cases ho : t = .sym '('
    · subst ho
      rw [List.cons_append, bal_open]
      have := ih (bal_open.mp h1)
      rw [show d + e + 1 = d + 1 + e by omega]; exact this
    · by_cases hc : t = .sym ')'
      · subst hc
        cases d with
        | zero => exact absurd h1 bal_close_zero
        | succ d =>
          rw [List.cons_append, show d + 1 + e = d + e + 1 by omega, bal_close]
          exact ih (bal_close.mp h1)
      · have hp : t.isParen = false := by
          simp only [Tok.isParen, Bool.or_eq_false_iff]
          constructor
          · cases h : t.isSym '(' with
            | false => rfl
            | true => exact absurd ((isSym_iff _ _).mp h) ho
          · cases h : t.isSym ')' with
            | false => rfl
            | true => exact absurd ((isSym_iff _ _).mp h) hc
        rw [List.cons_append, bal_other hp]
        exact ih ((bal_other hp).mp h1)

theorem binChar_notParen {c : Char} {p : Nat} {o : BinOp} (h : BinChar c p o) : (Tok.sym c : Tok α).isParen = false := by
  cases h <;> rfl

theorem signChar_notParen {c : Char} {o : UnOp} (h : SignChar c o) : (Tok.sym c : Tok α).isParen = false := by
  cases h <;> rfl

theorem binChar_lt {c : Char} {p : Nat} {o : BinOp} (h : BinChar c p o) : p < 14 := by cases h <;> decide

/-- a shaped sequence `d` parentheses deep starts with an operand list that ends at the end or at a closing parenthesis -/
theorem shaped_split (n : Nat) : ∀ (d : Nat) (ts : List (Tok α)), ts.length ≤ n → Shaped true ts → Bal d ts →
    ∃ us rest, ts = us ++ rest ∧ Units 14 us ∧
      ((rest = [] ∧ d = 0) ∨ ∃ d' r, d = d' + 1 ∧ rest = .sym ')' :: r ∧ Shaped false r ∧ Bal d' r) := by
  induction n with
  | zero =>
    intro d ts hl hs
    have : ts = [] := List.eq_nil_of_length_eq_zero (by omega)
    subst this; cases hs
  | succ n ih =>
    -- continue after an operand
    have cont : ∀ (d : Nat) (u r : List (Tok α)) (e : Expr α), Gram 14 u e → r.length ≤ n → Shaped false r → Bal d r →
        ∃ us rest, u ++ r = us ++ rest ∧ Units 14 us ∧
          ((rest = [] ∧ d = 0) ∨ ∃ d' r, d = d' + 1 ∧ rest = .sym ')' :: r ∧ Shaped false r ∧ Bal d' r) := by
      intro d u r e hu hl hs hb
      cases hs with
      | done =>
        refine ⟨u, [], rfl, .one hu, .inl ⟨rfl, ?_⟩⟩
        have := hb.2
        simpa [numClose, numOpen] using this.symm
      | op hc hs =>
        rw [bal_other (binChar_notParen hc)] at hb
        obtain ⟨us, rest, he, h1, h2⟩ := ih d _ (by simp at hl; omega) hs hb
        rw [he]
        exact ⟨u ++ [.sym _] ++ us, rest, by simp, .cons hu hc (binChar_lt hc) h1, h2⟩
      | pclose hs =>
        cases d with
        | zero => exact absurd hb bal_close_zero
        | succ d => exact ⟨u, _, rfl, .one hu, .inr ⟨d, _, rfl, rfl, hs, bal_close.mp hb⟩⟩
    intro d ts hl hs hb
    cases hs with
    | num hs =>
      have hb := (bal_other (t := .num _) rfl).mp hb
      simpa using cont d [.num _] _ _ (.lift (.num _)) (by simpa using hl) hs hb
    | var hs =>
      have hb := (bal_other (t := .var _) rfl).mp hb
      simpa using cont d [.var _] _ _ (.lift (.var _)) (by simpa using hl) hs hb
    | sign hc hs =>
      rw [bal_other (signChar_notParen hc)] at hb
      obtain ⟨us, rest, he, h1, h2⟩ := ih d _ (by simpa using hl) hs hb
      rw [he]
      exact ⟨.sym _ :: us, rest, rfl, units_sign hc h1, h2⟩
    | @popen ts' hs =>
      obtain ⟨us, rest, he, h1, h2⟩ := ih (d + 1) _ (by simpa using hl) hs (bal_open.mp hb)
      rcases h2 with ⟨_, h⟩ | ⟨d', r, hd, hr, hs', hb'⟩
      · exact absurd h (Nat.succ_ne_zero _)
      · obtain rfl : d = d' := by omega
        obtain ⟨e, hg⟩ := units_zero h1
        subst hr he
        have := cont d ([.sym '('] ++ us ++ [.sym ')']) r e (.lift (.paren hg)) (by simp at hl; omega) hs' hb'
        simpa using this
    | @call s f ts' hf hs =>
      have hb := (bal_other (t := .fn _) rfl).mp hb
      obtain ⟨us, rest, he, h1, h2⟩ := ih (d + 1) _ (by simp at hl; omega) hs (bal_open.mp hb)
      rcases h2 with ⟨_, h⟩ | ⟨d', r, hd, hr, hs', hb'⟩
      · exact absurd h (Nat.succ_ne_zero _)
      · obtain rfl : d = d' := by omega
        obtain ⟨e, hg⟩ := units_zero h1
        subst hr he
        have := cont d ([.fn f, .sym '('] ++ us ++ [.sym ')']) r (.un f e) (.lift (.call hf hg)) (by simp at hl; omega) hs' hb'
        simpa using this

theorem gram_of_shaped {ts : List (Tok α)} (hs : Shaped true ts) (hb : Bal 0 ts) : ∃ e, Gram 0 ts e := by
  obtain ⟨us, rest, he, h1, h2⟩ := shaped_split ts.length 0 ts (Nat.le_refl _) hs hb
  rcases h2 with ⟨h, _⟩ | ⟨d', r, hd, _⟩
  · subst h
    rw [he, List.append_nil]; exact units_zero h1
  · omega

theorem shaped_of_gram {p : Nat} {ts : List (Tok α)} {e : Expr α} (h : Gram p ts e) :
    Bal 0 ts ∧ ∀ r, Shaped false r → Shaped true (ts ++ r) := by
  have b0 : Bal 0 ([] : List (Tok α)) := ⟨nonNegFrom_nil 0, rfl⟩
  have b1 : Bal 1 ([.sym ')'] : List (Tok α)) := bal_close.mpr b0
  induction h with
  | num v => exact ⟨(bal_other rfl).mpr b0, fun r h => .num h⟩
  | var x => exact ⟨(bal_other rfl).mpr b0, fun r h => .var h⟩
  | paren _ ih =>
    refine ⟨?_, ?_⟩
    · rw [List.append_assoc, List.singleton_append, bal_open]
      exact bal_append ih.1 b1
    · intro r h
      have := Shaped.popen (ih.2 _ (.pclose h))
      simpa using this
  | call hf _ ih =>
    refine ⟨?_, ?_⟩
    · rw [List.append_assoc, List.cons_append, List.singleton_append, bal_other rfl, bal_open]
      exact bal_append ih.1 b1
    · intro r h
      have := Shaped.call hf (ih.2 _ (.pclose h))
      simpa using this
  | sign hc _ ih =>
    refine ⟨?_, ?_⟩
    · rw [List.singleton_append, bal_other (signChar_notParen hc)]; exact ih.1
    · intro r h
      exact .sign hc (ih.2 r h)
  | left hc _ _ _ ih1 ih2 =>
    refine ⟨?_, ?_⟩
    · rw [List.append_assoc]
      exact bal_append ih1.1 ((bal_other (binChar_notParen hc)).mpr ih2.1)
    · intro r h
      have := ih1.2 _ (.op hc (ih2.2 r h))
      simpa using this
  | right _ _ ih1 ih2 =>
    refine ⟨?_, ?_⟩
    · rw [List.append_assoc]
      exact bal_append ih1.1 ((bal_other rfl).mpr ih2.1)
    · intro r h
      have := ih1.2 _ (.op .pow (ih2.2 r h))
      simpa using this
  | lift _ ih => exact ih

end Tom
