import Verif.Lemmas.Print
import Verif.Lemmas.Shape
import Verif.Lemmas.Columns
/-
The text `infixText` is derived by the grammar.
-/
namespace Tom
variable {α : Type} [Dbl α]

/-- a piece of text and the token it is: a single-character token, or a word with its meaning -/
inductive Piece : Str × Tok α → Prop
  | sym {c : Char} : OpChar c → Piece ([c], .sym c)
  | word {u : Str} {t : Tok α} : u ≠ [] → (∀ c ∈ u, WordChar c) → HashMeans u t → (∀ c, t ≠ .sym c) → Piece (u, t)

theorem piece_sym {u : Str} {c : Char} (h : Piece (u, (.sym c : Tok α))) : u = [c] ∧ OpChar c := by
  cases h with
  | sym h => exact ⟨rfl, h⟩
  | word _ _ _ h => exact absurd rfl (h c)

theorem opChar_not_word {c : Char} (h : OpChar c) : ¬ WordChar c := fun hw => hw.1 h

/-- after an operand comes nothing or a single-character token -/
theorem shaped_false_head {ts : List (Tok α)} (h : Shaped false ts) : ts = [] ∨ ∃ c r, ts = .sym c :: r := by
  cases h with
  | done => exact .inl rfl
  | op => exact .inr ⟨_, _, rfl⟩
  | pclose => exact .inr ⟨_, _, rfl⟩

theorem pieces_head {ps : List (Str × Tok α)} (h : ps.map Prod.snd = [] ∨ ∃ c r, ps.map Prod.snd = .sym c :: r)
    (hp : ∀ p ∈ ps, Piece p) : ∀ c ∈ (ps.flatMap Prod.fst).head?, ¬ WordChar c := by
  intro c hc
  cases ps with
  | nil => simp at hc
  | cons p ps =>
    rcases h with h | ⟨d, r, h⟩
    · simp at h
    · obtain ⟨u, t⟩ := p
      simp only [List.map_cons, List.cons.injEq] at h
      obtain ⟨rfl, _⟩ := h
      obtain ⟨rfl, ho⟩ := piece_sym (hp _ List.mem_cons_self)
      simp at hc
      subst hc
      exact opChar_not_word ho

theorem map_snd_cons {ps : List (Str × Tok α)} {t : Tok α} {ts : List (Tok α)} (h : ps.map Prod.snd = t :: ts) :
    ∃ u qs, ps = (u, t) :: qs ∧ qs.map Prod.snd = ts := by
  cases ps with
  | nil => simp at h
  | cons p ps =>
    obtain ⟨u, t'⟩ := p
    simp only [List.map_cons, List.cons.injEq] at h
    obtain ⟨rfl, h⟩ := h
    exact ⟨u, ps, rfl, h⟩

theorem lexed_pieces {b : Bool} {ts : List (Tok α)} (h : Shaped b ts) : ∀ (ps : List (Str × Tok α)), ps.map Prod.snd = ts →
    (∀ p ∈ ps, Piece p) → ∀ k, ∃ l : List (Tok α × Nat), Lexed HashMeans k (ps.flatMap Prod.fst) l ∧ l.map Prod.fst = ts := by
  have symStep : ∀ {u : Str} {c : Char} {ps : List (Str × Tok α)} {ts : List (Tok α)}, Piece (u, (.sym c : Tok α)) →
      (∀ k, ∃ l : List (Tok α × Nat), Lexed HashMeans k (ps.flatMap Prod.fst) l ∧ l.map Prod.fst = ts) → ∀ k,
      ∃ l : List (Tok α × Nat), Lexed HashMeans k (((u, (.sym c : Tok α)) :: ps).flatMap Prod.fst) l ∧
        l.map Prod.fst = .sym c :: ts := by
    intro u c ps ts hp ih k
    obtain ⟨rfl, ho⟩ := piece_sym hp
    obtain ⟨l, h1, h2⟩ := ih (k + 1)
    exact ⟨(.sym c, k) :: l, by simpa using Lexed.sym (w := []) (k := k) (by simp) ho (by simpa using h1), by simp [h2]⟩
  have wordStep : ∀ {u : Str} {t : Tok α} {ps : List (Str × Tok α)} {ts : List (Tok α)}, Piece (u, t) → (∀ c, t ≠ .sym c) →
      (∀ c ∈ (ps.flatMap Prod.fst).head?, ¬ WordChar c) →
      (∀ k, ∃ l : List (Tok α × Nat), Lexed HashMeans k (ps.flatMap Prod.fst) l ∧ l.map Prod.fst = ts) → ∀ k,
      ∃ l : List (Tok α × Nat), Lexed HashMeans k (((u, t) :: ps).flatMap Prod.fst) l ∧ l.map Prod.fst = t :: ts := by
    intro u t ps ts hp hn hh ih k
    cases hp with
    | sym => exact absurd rfl (hn _)
    | word hne hu hm _ =>
      obtain ⟨l, h1, h2⟩ := ih (k + u.length)
      exact ⟨(t, k) :: l, by simpa using Lexed.word (w := []) (k := k) (by simp) hne hu hh hm (by simpa using h1), by simp [h2]⟩
  induction h with
  | done =>
    intro ps hm hp k
    have : ps = [] := by simpa using hm
    subst this
    exact ⟨[], .blank (by simp), rfl⟩
  | num h ih =>
    intro ps hm hp
    obtain ⟨p, ps, rfl, hm1⟩ := map_snd_cons hm
    exact wordStep (hp _ (by simp)) (by simp) (pieces_head (by rw [hm1]; exact shaped_false_head h) (fun q hq => hp q (by simp [hq])))
      (ih ps hm1 (fun q hq => hp q (by simp [hq])))
  | var h ih =>
    intro ps hm hp
    obtain ⟨p, ps, rfl, hm1⟩ := map_snd_cons hm
    exact wordStep (hp _ (by simp)) (by simp) (pieces_head (by rw [hm1]; exact shaped_false_head h) (fun q hq => hp q (by simp [hq])))
      (ih ps hm1 (fun q hq => hp q (by simp [hq])))
  | op hc h ih =>
    intro ps hm hp
    obtain ⟨p, ps, rfl, hm1⟩ := map_snd_cons hm
    exact symStep (hp _ (by simp)) (ih ps hm1 (fun q hq => hp q (by simp [hq])))
  | sign hc h ih =>
    intro ps hm hp
    obtain ⟨p, ps, rfl, hm1⟩ := map_snd_cons hm
    exact symStep (hp _ (by simp)) (ih ps hm1 (fun q hq => hp q (by simp [hq])))
  | popen h ih =>
    intro ps hm hp
    obtain ⟨p, ps, rfl, hm1⟩ := map_snd_cons hm
    exact symStep (hp _ (by simp)) (ih ps hm1 (fun q hq => hp q (by simp [hq])))
  | pclose h ih =>
    intro ps hm hp
    obtain ⟨p, ps, rfl, hm1⟩ := map_snd_cons hm
    exact symStep (hp _ (by simp)) (ih ps hm1 (fun q hq => hp q (by simp [hq])))
  | call hf h ih =>
    intro ps hm hp
    obtain ⟨p, ps, rfl, hm1⟩ := map_snd_cons hm
    obtain ⟨q, qs, rfl, hm2⟩ := map_snd_cons hm1
    refine wordStep (hp _ (by simp)) (by simp) (pieces_head (.inr ⟨_, _, by simp only [List.map_cons]; rfl⟩)
      (fun q hq => hp q (by simp [hq]))) ?_
    exact symStep (hp _ (by simp)) (ih qs hm2 (fun q hq => hp q (by simp [hq])))

/-- The text is a sequence of tokens that the grammar derives, at precedence `p`, with a tree that regroups `e`. -/
def Der (p : Nat) (s : Str) (e : Expr α) : Prop :=
  ∃ (ps : List (Str × Tok α)) (e' : Expr α), ps.flatMap Prod.fst = s ∧ (∀ q ∈ ps, Piece q) ∧ Gram p (ps.map Prod.snd) e' ∧ Regroups e e'

theorem Der.mono {p : Nat} {s : Str} {e f : Expr α} (h : Der p s e) (hr : Regroups f e) : Der p s f := by
  obtain ⟨ps, e', h1, h2, h3, h4⟩ := h
  exact ⟨ps, e', h1, h2, h3, .trans hr h4⟩

theorem Der.lower {p : Nat} {s : Str} {e : Expr α} (n : Nat) (h : Der (p + n) s e) : Der p s e := by
  induction n with
  | zero => exact h
  | succ n ih =>
    obtain ⟨ps, e', h1, h2, h3, h4⟩ := h
    exact ih ⟨ps, e', h1, h2, .lift h3, h4⟩

theorem Der.le {p q : Nat} {s : Str} {e : Expr α} (h : Der p s e) (hq : q ≤ p) : Der q s e := by
  obtain ⟨n, rfl⟩ := Nat.exists_eq_add_of_le hq
  exact h.lower n

theorem Der.paren {s : Str} {e : Expr α} (h : Der 0 s e) : Der 15 (['('] ++ s ++ [')']) e := by
  obtain ⟨ps, e', h1, h2, h3, h4⟩ := h
  refine ⟨[(['('], .sym '(')] ++ ps ++ [([')'], .sym ')')], e', by simp [h1], ?_, by simpa using Gram.paren h3, h4⟩
  intro q hq
  simp only [List.mem_append, List.mem_singleton] at hq
  rcases hq with (rfl | hq) | rfl
  · exact .sym (by simp [OpChar])
  · exact h2 q hq
  · exact .sym (by simp [OpChar])

theorem fnName_word {u : Str} {f : UnOp} (h : FnName u f) : ∀ c ∈ u, WordChar c := by
  intro c hc
  rw [wordChar_iff]
  revert c
  cases h <;> decide

theorem Der.call {s u : Str} {f : UnOp} {e : Expr α} (hf : FnName u f) (h : Der 0 s e) : Der 15 (u ++ ['('] ++ s ++ [')']) (.un f e) := by
  obtain ⟨ps, e', h1, h2, h3, h4⟩ := h
  refine ⟨[(u, .fn f), (['('], .sym '(')] ++ ps ++ [([')'], .sym ')')], .un f e', by simp [h1], ?_, by simpa using Gram.call hf h3, .un f h4⟩
  intro q hq
  simp only [List.mem_append, List.mem_cons, List.not_mem_nil, or_false] at hq
  rcases hq with ((rfl | rfl) | hq) | rfl
  · exact .word (by cases hf <;> simp) (fnName_word hf) (hashMeans_of_wordMeans (.fn hf) (by simp)) (by simp)
  · exact .sym (by simp [OpChar])
  · exact h2 q hq
  · exact .sym (by simp [OpChar])

theorem signChar_opChar {c : Char} {o : UnOp} (h : SignChar c o) : OpChar c := by cases h <;> simp [OpChar]
theorem binChar_opChar {c : Char} {p : Nat} {o : BinOp} (h : BinChar c p o) : OpChar c := by cases h <;> simp [OpChar]
theorem binChar_char (o : BinOp) : BinChar o.char o.prec o := by cases o <;> constructor

theorem Der.sign {s : Str} {c : Char} {o : UnOp} {e : Expr α} (hc : SignChar c o) (h : Der 14 s e) : Der 14 ([c] ++ s) (.un o e) := by
  obtain ⟨ps, e', h1, h2, h3, h4⟩ := h
  refine ⟨[([c], .sym c)] ++ ps, .un o e', by simp [h1], ?_, by simpa using Gram.sign hc h3, .un o h4⟩
  intro q hq
  simp only [List.mem_append, List.mem_singleton] at hq
  rcases hq with rfl | hq
  · exact .sym (signChar_opChar hc)
  · exact h2 q hq

theorem Der.left {s t : Str} {o : BinOp} {a b : Expr α} (ho : o ≠ .pow) (ha : Der o.prec s a) (hb : Der (o.prec + 1) t b) :
    Der o.prec (s ++ [o.char] ++ t) (.bin o a b) := by
  obtain ⟨ps, a', h1, h2, h3, h4⟩ := ha
  obtain ⟨qs, b', k1, k2, k3, k4⟩ := hb
  refine ⟨ps ++ [([o.char], .sym o.char)] ++ qs, .bin o a' b', by simp [h1, k1], ?_,
    by simpa using Gram.left (binChar_char o) ho h3 k3, .bin o h4 k4⟩
  intro q hq
  simp only [List.mem_append, List.mem_singleton] at hq
  rcases hq with (hq | rfl) | hq
  · exact h2 q hq
  · exact .sym (binChar_opChar (binChar_char o))
  · exact k2 q hq

theorem Der.right {s t : Str} {a b : Expr α} (ha : Der 12 s a) (hb : Der 11 t b) :
    Der 11 (s ++ ['^'] ++ t) (.bin .pow a b) := by
  obtain ⟨ps, a', h1, h2, h3, h4⟩ := ha
  obtain ⟨qs, b', k1, k2, k3, k4⟩ := hb
  refine ⟨ps ++ [(['^'], .sym '^')] ++ qs, .bin .pow a' b', by simp [h1, k1], ?_,
    by simpa using Gram.right h3 k3, .bin _ h4 k4⟩
  intro q hq
  simp only [List.mem_append, List.mem_singleton] at hq
  rcases hq with (hq | rfl) | hq
  · exact h2 q hq
  · exact .sym (by simp [OpChar])
  · exact k2 q hq

/-! ### words -/

theorem wordChar_of_code {c : Char} (h : (48 ≤ c.toNat ∧ c.toNat ≤ 57) ∨ (97 ≤ c.toNat ∧ c.toNat ≤ 122) ∨
    (65 ≤ c.toNat ∧ c.toNat ≤ 90) ∨ c.toNat = 46 ∨ c.toNat = 95) : WordChar c := by
  constructor
  · intro ho
    simp only [OpChar, List.mem_cons, List.not_mem_nil, or_false] at ho
    have hlist : c.toNat ∈ ['(', ')', '+', '-', '*', '/', '^', '&', '|', '%'].map Char.toNat := by
      simp only [List.map_cons, List.map_nil, List.mem_cons, List.not_mem_nil, or_false]
      rcases ho with rfl | rfl | rfl | rfl | rfl | rfl | rfl | rfl | rfl | rfl <;> simp
    simp only [List.map_cons, List.map_nil, List.mem_cons, List.not_mem_nil, or_false] at hlist
    have : c.toNat = 40 ∨ c.toNat = 41 ∨ c.toNat = 43 ∨ c.toNat = 45 ∨ c.toNat = 42 ∨ c.toNat = 47 ∨ c.toNat = 94 ∨
      c.toNat = 38 ∨ c.toNat = 124 ∨ c.toNat = 37 := hlist
    omega
  · rintro (rfl | hb)
    · have : (' ' : Char).toNat = 32 := rfl
      omega
    · omega

theorem numeral_word {u : Str} {v : α} (h : Numeral u v) : u ≠ [] ∧ ∀ c ∈ u, WordChar c := by
  have ex : ∀ {lo up : Char} {ex : Str} {n : Nat}, ((65 ≤ lo.toNat ∧ lo.toNat ≤ 90) ∨ (97 ≤ lo.toNat ∧ lo.toNat ≤ 122)) →
      ((65 ≤ up.toNat ∧ up.toNat ≤ 90) ∨ (97 ≤ up.toNat ∧ up.toNat ≤ 122)) → Exponent lo up ex n → ∀ c ∈ ex, WordChar c := by
    intro lo up ex n hl hu h c hc
    cases h with
    | none => simp at hc
    | some h1 _ h3 =>
      simp only [List.mem_cons] at hc
      rcases hc with rfl | hc
      · rcases h1 with rfl | rfl <;> exact wordChar_of_code (by omega)
      · exact wordChar_of_code (.inl (h3 c hc))
  have mant : ∀ {ok : Str → Prop} {m ip fp : Str}, (∀ ds, ok ds → ∀ c ∈ ds, WordChar c) → Mantissa ok m ip fp →
      m ≠ [] ∧ ∀ c ∈ m, WordChar c := by
    intro ok m ip fp hok h
    cases h with
    | int h1 h2 => exact ⟨h2, hok _ h1⟩
    | point h1 h2 h3 =>
      refine ⟨by simp, fun c hc => ?_⟩
      simp only [List.mem_append, List.mem_singleton] at hc
      rcases hc with (hc | rfl) | hc
      · exact hok _ h1 c hc
      · exact wordChar_of_code (.inr (.inr (.inr (.inl rfl))))
      · exact hok _ h2 c hc
  cases h with
  | dec h1 h2 _ =>
    have := mant (fun ds h c hc => wordChar_of_code (.inl (h c hc))) h1
    refine ⟨by simp [this.1], fun c hc => ?_⟩
    rcases List.mem_append.mp hc with hc | hc
    · exact this.2 c hc
    · exact ex (by decide) (by decide) h2 c hc
  | hex h0 h1 h2 _ =>
    have := mant (fun ds h c hc => wordChar_of_code (by have := h c hc; omega)) h1
    refine ⟨by simp, fun c hc => ?_⟩
    simp only [List.mem_append, List.mem_cons, List.not_mem_nil, or_false] at hc
    rcases hc with ((rfl | rfl) | hc) | hc
    · exact wordChar_of_code (by decide)
    · rcases h0 with rfl | rfl <;> exact wordChar_of_code (by decide)
    · exact this.2 c hc
    · exact ex (by decide) (by decide) h2 c hc
  | inf h1 h2 h3 =>
    refine ⟨by simp, fun c hc => ?_⟩
    simp only [List.mem_cons, List.not_mem_nil, or_false] at hc
    rcases hc with rfl | rfl | rfl
    · rcases h1 with rfl | rfl <;> exact wordChar_of_code (by decide)
    · rcases h2 with rfl | rfl <;> exact wordChar_of_code (by decide)
    · rcases h3 with rfl | rfl <;> exact wordChar_of_code (by decide)
  | nan h1 h2 h3 =>
    refine ⟨by simp, fun c hc => ?_⟩
    simp only [List.mem_cons, List.not_mem_nil, or_false] at hc
    rcases hc with rfl | rfl | rfl
    · rcases h1 with rfl | rfl <;> exact wordChar_of_code (by decide)
    · rcases h2 with rfl | rfl <;> exact wordChar_of_code (by decide)
    · rcases h3 with rfl | rfl <;> exact wordChar_of_code (by decide)
  | infinity h1 h2 h3 h4 h5 h6 h7 h8 =>
    refine ⟨by simp, fun c hc => ?_⟩
    simp only [List.mem_cons, List.not_mem_nil, or_false] at hc
    rcases hc with rfl | rfl | rfl | rfl | rfl | rfl | rfl | rfl
    · rcases h1 with rfl | rfl <;> exact wordChar_of_code (by decide)
    · rcases h2 with rfl | rfl <;> exact wordChar_of_code (by decide)
    · rcases h3 with rfl | rfl <;> exact wordChar_of_code (by decide)
    · rcases h4 with rfl | rfl <;> exact wordChar_of_code (by decide)
    · rcases h5 with rfl | rfl <;> exact wordChar_of_code (by decide)
    · rcases h6 with rfl | rfl <;> exact wordChar_of_code (by decide)
    · rcases h7 with rfl | rfl <;> exact wordChar_of_code (by decide)
    · rcases h8 with rfl | rfl <;> exact wordChar_of_code (by decide)

theorem legalName_word {u : Str} (h : LegalName u) : u ≠ [] ∧ ∀ c ∈ u, WordChar c := by
  obtain ⟨h1, c, cs, rfl, _⟩ := h
  refine ⟨by simp, fun d hd => ?_⟩
  have := h1 d hd
  exact wordChar_of_code (by unfold LegalNameChar at this; omega)

theorem Der.numeral {u : Str} {v : α} (h : Numeral u v) : Der 15 u (.num v) := by
  refine ⟨[(u, .num v)], .num v, by simp, ?_, .num v, .refl _⟩
  intro q hq
  simp only [List.mem_singleton] at hq
  subst hq
  exact .word (numeral_word h).1 (numeral_word h).2 (.num h) (by simp)

theorem Der.literal {v : α} (h : ReadsBack v) : Der 14 (Dbl.toStr v) (.num v) := by
  cases h with
  | plain h => exact (Der.numeral h).lower 1
  | signed h0 h1 h2 h3 =>
    rw [h1]
    exact (Der.sign .neg ((Der.numeral h2).lower 1)).mono (.negative h0 h3)

theorem Der.variable {x : Str} (h : WordMeans x (.var x : Tok α)) (hc : NoCollision x) : Der 15 x (.var x : Expr α) := by
  have hl : LegalName x := by cases h; assumption
  refine ⟨[(x, .var x)], .var x, by simp, ?_, .var x, .refl _⟩
  intro q hq
  simp only [List.mem_singleton] at hq
  subst hq
  exact .word (legalName_word hl).1 (legalName_word hl).2 (hashMeans_of_wordMeans h (fun _ => hc)) (by simp)

/-! ### expressions -/

/-- what can be read back -/
structure Printable (e : Expr α) : Prop where
  nums : ∀ v ∈ e.nums, ReadsBack v
  vars : ∀ x ∈ e.vars, ReadableName α x
  arcs : e.NoArc

theorem Printable.un {o : UnOp} {e : Expr α} (h : Printable (.un o e)) : Printable e := ⟨h.nums, h.vars, h.arcs.2.2.2⟩
theorem Printable.left {o : BinOp} {a b : Expr α} (h : Printable (.bin o a b)) : Printable a :=
  ⟨fun v hv => h.nums v (by simp [Expr.nums, hv]), fun v hv => h.vars v (by simp [Expr.vars, hv]), h.arcs.1⟩
theorem Printable.right {o : BinOp} {a b : Expr α} (h : Printable (.bin o a b)) : Printable b :=
  ⟨fun v hv => h.nums v (by simp [Expr.nums, hv]), fun v hv => h.vars v (by simp [Expr.vars, hv]), h.arcs.2⟩

theorem fnText {o : UnOp} (h1 : ¬ (o = .pos ∨ o = .neg)) (h2 : o ≠ .asin ∧ o ≠ .acos ∧ o ≠ .atan) : FnName o.text o := by
  cases o <;> simp at h1 h2 <;> constructor

/-- the text of a binary operation without the parentheses around it -/
def bareText (o : BinOp) (a b : Expr α) : Str := infixText (some (o, false)) a ++ [o.char] ++ infixText (some (o, true)) b

theorem infixText_bin (c : Option (BinOp × Bool)) (o : BinOp) (a b : Expr α) : infixText c (.bin o a b) =
    match c with
    | none => bareText o a b
    | some (p, right) => if parenthesised p right o then ['('] ++ bareText o a b ++ [')'] else bareText o a b := by
  cases c <;> rfl

/-- `+` or `*` and the operators of the same precedence -/
def Chain (p o : BinOp) : Prop := (p = .add ∧ (o = .add ∨ o = .sub)) ∨ (p = .mul ∧ (o = .mul ∨ o = .div))

theorem chain_regroups {p o : BinOp} (h : Chain p o) (x a b : Expr α) :
    Regroups (.bin p x (.bin o a b)) (.bin o (.bin p x a) b) := by
  rcases h with ⟨rfl, rfl | rfl⟩ | ⟨rfl, rfl | rfl⟩
  · exact .addAdd ..
  · exact .addSub ..
  · exact .mulMul ..
  · exact .mulDiv ..

theorem der_text (e : Expr α) (hp : Printable e) :
    (∀ c, (∀ o a b, e ≠ .bin o a b) → Der 14 (infixText c e) e) ∧
    (∀ o a b, e = .bin o a b → Der o.prec (bareText o a b) e) ∧
    (∀ o a b, e = .bin o a b → ∀ (p : BinOp) (s : Str) (x : Expr α), Chain p o → Der p.prec s x →
      Der p.prec (s ++ [p.char] ++ bareText o a b) (.bin p x e)) := by
  induction e with
  | num v =>
    refine ⟨fun c _ => ?_, fun _ _ _ h => (by cases h), fun _ _ _ h => (by cases h)⟩
    have h := Der.literal (hp.nums v (by simp [Expr.nums]))
    simp only [infixText]
    split
    · exact (h.lower (p := 0) 14).paren.lower 1
    · exact h
  | var x =>
    refine ⟨fun c _ => ?_, fun _ _ _ h => (by cases h), fun _ _ _ h => (by cases h)⟩
    have h := hp.vars x (by simp [Expr.vars])
    exact (Der.variable h.1 h.2).lower 1
  | un o e ih =>
    refine ⟨fun c _ => ?_, fun _ _ _ h => (by cases h), fun _ _ _ h => (by cases h)⟩
    obtain ⟨i1, i2, _⟩ := ih hp.un
    have h0 : Der 0 (infixText none e) e := by
      cases e with
      | bin o a b =>
        rw [infixText_bin]
        exact (i2 o a b rfl).le (by omega)
      | _ => exact (i1 none (by intro _ _ _ h; cases h)).le (by omega)
    have harc := hp.arcs
    simp only [infixText]
    by_cases hs : o = .pos ∨ o = .neg
    · have hsign : ∃ ch, o.text = [ch] ∧ SignChar ch o := by
        rcases hs with rfl | rfl
        · exact ⟨_, rfl, .pos⟩
        · exact ⟨_, rfl, .neg⟩
      obtain ⟨ch, ht, hch⟩ := hsign
      rw [ht]
      by_cases hl : e.isLeaf = true
      · rw [if_pos ⟨hs, hl⟩]
        refine Der.sign hch (i1 none ?_)
        intro o a b h
        rw [h] at hl
        simp [Expr.isLeaf] at hl
      · rw [if_neg (fun h => hl h.2), List.append_assoc, List.append_assoc]
        have := Der.sign hch (h0.paren.lower 1)
        rwa [List.append_assoc] at this
    · rw [if_neg (fun h => hs h.1)]
      exact (Der.call (fnText hs ⟨harc.1, harc.2.1, harc.2.2.1⟩) h0).lower 1
  | bin o a b iha ihb =>
    obtain ⟨a1, a2, a3⟩ := iha hp.left
    obtain ⟨b1, b2, b3⟩ := ihb hp.right
    -- an operand that is no unparenthesised operation of the same precedence
    have operand : ∀ (e : Expr α), (∀ c, (∀ o a b, e ≠ .bin o a b) → Der 14 (infixText c e) e) →
        (∀ o a b, e = .bin o a b → Der o.prec (bareText o a b) e) → ∀ (p : BinOp) (r : Bool),
        Der (p.prec + 1) (infixText (some (p, r)) e) e ∨
        ∃ o a b, e = .bin o a b ∧ o.prec = p.prec ∧ parenthesised p r o = false ∧
          infixText (some (p, r)) e = bareText o a b := by
      intro e h1 h2 p r
      have hle : p.prec + 1 ≤ 14 := by cases p <;> decide
      by_cases hb : ∃ o a b, e = .bin o a b
      · obtain ⟨o, a, b, rfl⟩ := hb
        rw [infixText_bin]
        simp only
        by_cases hpar : parenthesised p r o = true
        · left
          rw [if_pos hpar]
          exact ((h2 o a b rfl).le (Nat.zero_le _)).paren.le (by omega)
        · rw [if_neg hpar]
          by_cases heq : o.prec = p.prec
          · right
            exact ⟨o, a, b, rfl, heq, by simpa using hpar, rfl⟩
          · left
            refine (h2 o a b rfl).le ?_
            have : ¬ o.prec < p.prec := by
              intro hlt
              simp [parenthesised, hlt] at hpar
            omega
      · left
        refine (h1 _ ?_).le hle
        intro o a b h
        exact hb ⟨o, a, b, h⟩
    -- the left operand
    have hleft : o ≠ .pow → Der o.prec (infixText (some (o, false)) a) a := by
      intro ho
      rcases operand a a1 a2 o false with h | ⟨o', a', b', rfl, he, _, ht⟩
      · exact h.lower 1
      · rw [ht, ← he]; exact a2 o' a' b' rfl
    -- the right operand
    have hright : Der (o.prec + 1) (infixText (some (o, true)) b) b ∨
        ∃ o' a' b', b = .bin o' a' b' ∧ Chain o o' ∧ infixText (some (o, true)) b = bareText o' a' b' := by
      rcases operand b b1 b2 o true with h | ⟨o', a', b', rfl, he, hn, ht⟩
      · exact .inl h
      · refine .inr ⟨o', a', b', rfl, ?_, ht⟩
        revert he hn
        unfold Chain
        cases o <;> cases o' <;> decide
    have join : ∀ (s : Str) (x : Expr α), o ≠ .pow → Der o.prec s x → Der o.prec (s ++ [o.char] ++ infixText (some (o, true)) b) (.bin o x b) := by
      intro s x ho hs
      rcases hright with h | ⟨o', a', b', hb, hch, ht⟩
      · exact Der.left ho hs h
      · rw [ht]; exact b3 o' a' b' hb o s x hch hs
    have bare : Der o.prec (bareText o a b) (.bin o a b) := by
      by_cases ho : o = .pow
      · subst ho
        have hr : Der 12 (infixText (some (.pow, true)) b) b := by
          rcases hright with h | ⟨o', a', b', hb, hch, ht⟩
          · exact h
          · rcases hch with ⟨h, _⟩ | ⟨h, _⟩ <;> cases h
        have hl : Der 12 (infixText (some (.pow, false)) a) a := by
          rcases operand a a1 a2 .pow false with h | ⟨o', a', b', rfl, he, hn, ht⟩
          · exact h
          · exfalso
            revert he hn
            cases o' <;> decide
        exact Der.right hl (hr.lower 1)
      · exact join _ _ ho (hleft ho)
    refine ⟨fun c h => absurd rfl (h o a b), fun o' a' b' h => by cases h; exact bare, ?_⟩
    intro o' a' b' h p s x hch hs
    cases h
    have hpp : o.prec = p.prec ∧ o ≠ .pow ∧ p ≠ .pow := by
      rcases hch with ⟨rfl, rfl | rfl⟩ | ⟨rfl, rfl | rfl⟩ <;> exact ⟨rfl, by decide, by decide⟩
    refine Der.mono ?_ (chain_regroups hch x a b)
    have h1 : Der p.prec (s ++ [p.char] ++ infixText (some (o, false)) a) (.bin p x a) := by
      rcases operand a a1 a2 o false with h | ⟨o', a', b', ha, he, hn, ht⟩
      · exact Der.left hpp.2.2 hs (by rw [← hpp.1]; exact h)
      · rw [ht]
        refine a3 o' a' b' ha p s x ?_ hs
        revert he
        rcases hch with ⟨rfl, rfl | rfl⟩ | ⟨rfl, rfl | rfl⟩ <;> unfold Chain <;> cases o' <;> decide
    have := join _ _ hpp.2.1 (by rw [hpp.1]; exact h1)
    rw [hpp.1] at this
    simpa [bareText] using this

theorem parse_text (e : Expr α) (hp : Printable e) : ∃ e', parse (infixText none e) = .ok (embed e') ∧ Regroups e e' := by
  obtain ⟨h1, h2, _⟩ := der_text e hp
  have h0 : Der 0 (infixText none e) e := by
    cases e with
    | bin o a b =>
      rw [infixText_bin]
      exact (h2 o a b rfl).le (by omega)
    | _ => exact (h1 none (by intro _ _ _ h; cases h)).le (by omega)
  obtain ⟨ps, e', hs, hps, hg, hr⟩ := h0
  obtain ⟨l, hl, hm⟩ := lexed_pieces (by simpa using (shaped_of_gram hg).2 [] .done) ps rfl hps 0
  rw [hs] at hl
  refine ⟨e', ?_, hr⟩
  have hne : infixText none e ≠ [] := by
    intro h0
    rw [h0] at hl
    have : l = [] := by
      generalize hq : ([] : Str) = q at hl
      cases hl with
      | blank => rfl
      | sym => simp at hq
      | word _ hne => simp at hq; exact absurd hq.2.1 hne
    rw [this] at hm
    rw [← hm] at hg
    have : ∀ {p : Nat} {ts : List (Tok α)} {e : Expr α}, Gram p ts e → ts ≠ [] := by
      intro p ts e h
      induction h <;> simp_all
    exact this hg rfl
  rw [parse_lexed hl hne]
  exact build_gram (by rw [hm]; exact hg) _ (markToks_node true l)

end Tom
