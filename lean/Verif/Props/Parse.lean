import Verif.Lemmas.Shape
/-
Properties C01-C05, C07, C09, C56: the parser.
-/
set_option linter.unusedSectionVars false
namespace Tom
variable {α : Type} [Dbl α]

theorem gram_ne_nil {p : Nat} {ts : List (Tok α)} {e : Expr α} (h : Gram p ts e) : ts ≠ [] := by
  induction h <;> simp_all

theorem lexed_nil {means : Str → Tok α → Prop} {k : Nat} {ts : List (Tok α × Nat)} (h : Lexed means k [] ts) : ts = [] := by
  generalize hs : ([] : Str) = s at h
  cases h with
  | blank => rfl
  | sym => simp at hs
  | word _ hne => simp at hs; exact absurd hs.2.1 hne

/-! ### C01 -/

/-- C01: if the text divides into tokens that the grammar derives with tree `e`, `Parse` returns exactly that tree.
The variables must not have the hash of a function name (see C07). -/
theorem C01_parse (s : Str) (ts : List (Tok α × Nat)) (e : Expr α) (hlex : Lexed WordMeans 0 s ts)
    (hgram : Gram 0 (ts.map Prod.fst) e) (hcol : ∀ x, Tok.var x ∈ ts.map Prod.fst → NoCollision x) :
    parse s = .ok (embed e) := by
  have hs : s ≠ [] := by
    rintro rfl
    have := lexed_nil hlex
    subst this
    exact gram_ne_nil hgram rfl
  have hlex' : Lexed HashMeans 0 s ts :=
    lexed_mono hlex (fun u t ht hm => hashMeans_of_wordMeans hm (fun h => hcol u (h ▸ ht)))
  rw [parse_lexed hlex' hs]
  exact build_gram hgram _ (markToks_node true ts)

/-- C01: the grammar is unambiguous. -/
theorem C01_unambiguous (ts : List (Tok α)) (e e' : Expr α) (h : Gram 0 ts e) (h' : Gram 0 ts e') : embed e = embed e' := by
  have hm : ((ts.map fun t => (t, 0)).map Prod.fst) = ts := by
    rw [List.map_map]; exact List.map_id ts
  have h1 := build_gram h (markToks true (ts.map fun t => (t, 0))) (by rw [markToks_node, hm])
  have h2 := build_gram h' (markToks true (ts.map fun t => (t, 0))) (by rw [markToks_node, hm])
  rw [h1] at h2
  simpa using h2

/-- `1 - -x^2*3` is `1 - (((-x)^2)*3)` -/
example : Gram 0 [.num (.fin 1), .sym '-', .sym '-', .var ['x'], .sym '^', .num (.fin 2), .sym '*', .num (.fin 3)]
    (.bin .sub (.num (.fin 1)) (.bin .mul (.bin .pow (.un .neg (.var ['x'])) (.num (.fin 2))) (.num (.fin 3))) :
      Expr (XNum Rat)) := by
  have up : ∀ {n p : Nat} {ts : List (Tok (XNum Rat))} {e : Expr (XNum Rat)}, Gram (p + n) ts e → Gram p ts e := by
    intro n
    induction n with
    | zero => exact fun h => h
    | succ n ih => exact fun h => ih (.lift h)
  have n1 : ∀ q, Gram 15 [.num (.fin q)] (.num (.fin q) : Expr (XNum Rat)) := fun q => .num _
  have hx : Gram 14 ([.sym '-'] ++ [.var ['x']]) (.un .neg (.var ['x']) : Expr (XNum Rat)) := .sign .neg (.lift (.var _))
  have hp : Gram 11 ([.sym '-', .var ['x']] ++ [.sym '^'] ++ [.num (.fin 2)])
      (.bin .pow (.un .neg (.var ['x'])) (.num (.fin 2)) : Expr (XNum Rat)) := .right (up (n := 2) hx) (up (n := 4) (n1 2))
  have hm : Gram 10 ([.sym '-', .var ['x'], .sym '^', .num (.fin 2)] ++ [.sym '*'] ++ [.num (.fin 3)])
      (.bin .mul (.bin .pow (.un .neg (.var ['x'])) (.num (.fin 2))) (.num (.fin 3)) : Expr (XNum Rat)) :=
    .left .mul (by decide) (.lift hp) (up (n := 4) (n1 3))
  have h5 : Gram 5 ([.num (.fin 1)] ++ [.sym '-'] ++ ([.sym '-', .var ['x'], .sym '^', .num (.fin 2)] ++ [.sym '*'] ++ [.num (.fin 3)]))
      (.bin .sub (.num (.fin 1)) (.bin .mul (.bin .pow (.un .neg (.var ['x'])) (.num (.fin 2))) (.num (.fin 3))) :
        Expr (XNum Rat)) := .left .sub (by decide) (up (n := 10) (n1 1)) (up (n := 4) hm)
  exact up (n := 5) (p := 0) h5

/-- A text with blanks divides into those tokens. -/
example : Lexed WordMeans 0 ['(', 'x', ' ', '+', '\t', 's', 'i', 'n', ')', ' ']
    ([(.sym '(', 0), (.var ['x'], 1), (.sym '+', 3), (.fn .sin, 5), (.sym ')', 8)] : List (Tok (XNum Rat) × Nat)) := by
  have hw : ∀ c, c ∈ ['x', 's', 'i', 'n'] → WordChar c := by
    intro c hc
    rw [wordChar_iff]
    revert c; decide
  have hb : ∀ c, c ∈ [' ', '\t'] → BlankChar c := by
    intro c hc
    rw [← isSpaceChar_iff]
    revert c; decide
  have hx : WordMeans ['x'] (.var ['x'] : Tok (XNum Rat)) := by
    refine .var ((C08_varNameIsLegal _).mp (by decide)) ((stodFull_none_iff _).mp rfl) ?_
    rintro ⟨f, hf⟩; cases hf
  refine .sym (w := []) (by simp) (by simp [OpChar]) ?_
  refine .word (w := []) (u := ['x']) (rest := [' ', '+', '\t', 's', 'i', 'n', ')', ' ']) (by simp) (by simp)
    (fun c hc => hw c (by simp at hc; simp [hc])) (by simp; rw [wordChar_iff]; decide) hx ?_
  refine .sym (w := [' ']) (rest := ['\t', 's', 'i', 'n', ')', ' ']) (fun c hc => hb c (by simp at hc; simp [hc])) (by simp [OpChar]) ?_
  refine .word (w := ['\t']) (u := ['s', 'i', 'n']) (rest := [')', ' ']) (fun c hc => hb c (by simp at hc; simp [hc])) (by simp)
    (fun c hc => hw c (by simp at hc ⊢; exact .inr hc)) (by simp; rw [wordChar_iff]; decide) (.fn .sin) ?_
  exact .sym (w := []) (rest := [' ']) (by simp) (by simp [OpChar]) (.blank (fun c hc => hb c (by simp at hc; simp [hc])))

/-- The hypothesis on hashes holds for the names of ordinary use, e.g. `x`. -/
example : NoCollision ['x'] := by
  intro s f h he
  cases h <;> exact absurd he (by decide +kernel)

/-! ### C02 -/

/-- C02 fails: `(1))` pops from an empty `std::stack`. -/
theorem C02_false_paren : parse ['(', '1', ')', ')'] = (.ub : Res (Raw (XNum Rat))) := by decide +kernel

/-- C02 fails: a blank text, and `()`, take the top of an empty `std::stack`. -/
theorem C02_false_blank : parse [' '] = (.ub : Res (Raw (XNum Rat))) ∧ parse ['(', ')'] = (.ub : Res (Raw (XNum Rat))) := by
  decide +kernel

/-- C02, exactly: a text whose words are readable leads to undefined behaviour if and only if a closing parenthesis appears at
depth zero after an earlier parenthesis pair, or the parentheses are balanced and there is nothing but parentheses. -/
theorem C02_partial (s : Str) (hs : s ≠ []) (ts : List (Tok α × Nat)) (hlex : Lexed HashMeans 0 s ts) :
    parse s = (.ub : Res (Raw α)) ↔
      (∃ pre suf, ts.map Prod.fst = pre ++ [.sym ')'] ++ suf ∧ NeverNegative pre ∧ numClose pre = numOpen pre ∧
        0 < numOpen pre) ∨
      (NeverNegative (ts.map Prod.fst) ∧ numClose (ts.map Prod.fst) = numOpen (ts.map Prod.fst) ∧
        ∀ t ∈ ts.map Prod.fst, t.isParen = true) := by
  have hsym := lexed_symOk hlex
  rw [parse_lexed hlex hs]
  have hub := scanT_ub_iff ts 0 [] (by simp)
  have hok := scanT_ok_iff ts 0 [] (by simp)
  have hpl := plain_markToks ts hsym true
  simp only [List.length_nil, Nat.add_zero, Nat.zero_add, NonNegFrom] at hub hok
  rcases build_cases ts hsym with ⟨h1, h2⟩ | ⟨e, h1, h2⟩ | ⟨h1, h3, h2⟩ | ⟨h1, h3, h2⟩
  · rw [h2]
    simp only [true_iff]
    exact .inl (hub.mp h1)
  · rw [h2]
    simp only [reduceCtorEq, false_iff]
    rintro (h | ⟨ha, hb, _⟩)
    · rw [hub.mpr h] at h1; cases h1
    · rw [hok.mpr ⟨ha, hb⟩] at h1; cases h1
  · rw [h2]
    simp only [true_iff]
    right
    obtain ⟨ha, hb⟩ := hok.mp h1
    exact ⟨ha, hb, hpl.mp h3⟩
  · have : (inOrderToPostOrder (markToks true ts) >>= buildExpressionTree) ≠ .ub := by
      rcases h2 with h | ⟨ks, h, _⟩ | ⟨e, h, _⟩ <;> rw [h] <;> simp
    simp only [this, false_iff]
    rintro (h | ⟨_, _, hc⟩)
    · rw [hub.mpr h] at h1; cases h1
    · exact h3 (hpl.mpr hc)

/-- C02: on an empty text or one with an unreadable word, `Parse` throws. -/
theorem C02_unreadable_partial (s : Str) (ts : List (Tok α × Nat)) (hlex : Lexed Spelled 0 s ts)
    (hbad : s = [] ∨ ∃ u k, (Tok.var u, k) ∈ ts ∧ Unreadable α u) (hno : ¬ ∃ us : List (Tok α × Nat), Lexed HashMeans 0 s us) :
    ∃ k, parse s = (.throw (.singleParse k) : Res (Raw α)) := by
  by_cases hs : s = []
  · subst hs
    exact ⟨0, rfl⟩
  · rcases lexLoop_cases hlex [] with h | ⟨u, c, _, _, h⟩
    · exact absurd h hno
    · refine ⟨c, ?_⟩
      unfold parse parseToTokens
      rw [if_neg hs, h]; rfl

/-! ### C03 -/

/-- C03 fails: a lone operator is reported as `MathError`, which is not a `ParseError`. -/
theorem C03_false : parse ['+'] = (.throw (.math .wrongExpression) : Res (Raw (XNum Rat))) ∧
    (Exc.math .wrongExpression).isParseError = false := by
  refine ⟨by decide +kernel, rfl⟩

/-- C03: whatever `Parse` throws is a `ParseError` or `MathError` with `ERROR_WRONG_EXPRESSION`. -/
theorem C03_partial (s : Str) (e : Exc) (h : parse s = (.throw e : Res (Raw α))) :
    e.isParseError = true ∨ e = .math .wrongExpression := by
  by_cases hs : s = []
  · subst hs
    simp only [parse, parseToTokens, if_true, Res.bind_throw, Res.throw.injEq] at h
    subst h; exact .inl rfl
  · obtain ⟨ps, hps⟩ := lexed_exists (α := α) s 0
    rcases lexLoop_cases hps [] with ⟨ts, hts⟩ | ⟨u, c, _, _, hl⟩
    · have hsym := lexed_symOk hts
      rw [parse_lexed hts hs] at h
      rcases build_cases ts hsym with ⟨h1, h2⟩ | ⟨e', h1, h2⟩ | ⟨h1, h3, h2⟩ | ⟨h1, h3, h2⟩
      · rw [h2] at h; cases h
      · rw [h2] at h
        cases h
        obtain ⟨k, he, _⟩ := scanT_throw ts 0 [] e h1
        subst he; exact .inl rfl
      · rw [h2] at h; cases h
      · rcases h2 with h2 | ⟨ks, h2, _⟩ | ⟨e', h2, _⟩ <;> rw [h2] at h
        · cases h; exact .inr rfl
        · cases h; exact .inl rfl
        · cases h
    · unfold parse parseToTokens at h
      rw [if_neg hs, hl] at h
      simp only [Res.bind_throw, Res.throw.injEq] at h
      subst h; exact .inl rfl

/-- `Parse` always finishes: no outcome but a tree, an exception, or the undefined behaviour of C02. -/
theorem C03_outcomes_partial (s : Str) :
    (∃ t, parse s = (.ok t : Res (Raw α))) ∨ (∃ e, parse s = (.throw e : Res (Raw α))) ∨ parse s = (.ub : Res (Raw α)) := by
  by_cases hs : s = []
  · subst hs; exact .inr (.inl ⟨_, rfl⟩)
  · obtain ⟨ps, hps⟩ := lexed_exists (α := α) s 0
    rcases lexLoop_cases hps [] with ⟨ts, hts⟩ | ⟨u, c, _, _, hl⟩
    · rw [parse_lexed hts hs]
      rcases build_cases ts (lexed_symOk hts) with ⟨h1, h2⟩ | ⟨e', h1, h2⟩ | ⟨h1, h3, h2⟩ | ⟨h1, h3, h2⟩
      · exact .inr (.inr h2)
      · exact .inr (.inl ⟨_, h2⟩)
      · exact .inr (.inr h2)
      · rcases h2 with h2 | ⟨ks, h2, _⟩ | ⟨e', h2, _⟩
        · exact .inr (.inl ⟨_, h2⟩)
        · exact .inr (.inl ⟨_, h2⟩)
        · exact .inl ⟨_, h2⟩
    · right; left
      refine ⟨.singleParse c, ?_⟩
      unfold parse parseToTokens
      rw [if_neg hs, hl]; rfl

/-! ### C04 -/

/-- C04: every text divides into pieces. -/
theorem C04_divides (s : Str) : ∃ ts : List (Tok α × Nat), Lexed Spelled 0 s ts := lexed_exists s 0

/-- C04: the pieces are the non-blank characters in order. -/
theorem C04_partition {k : Nat} {s : Str} {ts : List (Tok α × Nat)} (h : Lexed Spelled k s ts) :
    s.filter (fun c => !isSpaceChar c) = ((ts.map Prod.fst).map pieceText).flatten := by
  have hblank : ∀ w : Str, (∀ c ∈ w, BlankChar c) → w.filter (fun c => !isSpaceChar c) = [] := by
    intro w hw
    rw [List.filter_eq_nil_iff]
    intro c hc
    simp [(isSpaceChar_iff c).mpr (hw c hc)]
  induction h with
  | blank hw => simp [hblank _ hw]
  | @sym k w rest c ts hw hc _ ih =>
    have hc' : isSpaceChar c = false := by
      cases hsp : isSpaceChar c with
      | false => rfl
      | true =>
        have := not_op_of_blank ((isSpaceChar_iff c).mp hsp)
        rw [(isBasicOperator_iff c).mpr hc] at this; cases this
    rw [List.filter_append, List.filter_append, hblank w hw, ih]
    simp [pieceText, hc']
  | @word k w u rest t ts hw hne hu hd hm _ ih =>
    simp only [Spelled] at hm
    subst hm
    have hu' : u.filter (fun c => !isSpaceChar c) = u := by
      rw [List.filter_eq_self]
      intro c hc
      simp [((wordChar_iff c).mp (hu c hc)).2]
    rw [List.filter_append, List.filter_append, hblank w hw, ih, hu']
    simp [pieceText]

/-- C04: the column of a piece is where its text stands. -/
theorem C04_columns {k : Nat} {s : Str} {ts : List (Tok α × Nat)} (h : Lexed Spelled k s ts) :
    ∀ t c, (t, c) ∈ ts → k ≤ c ∧ pieceText t <+: s.drop (c - k) := by
  induction h with
  | blank hw => simp
  | @sym k w rest c ts hw hc _ ih =>
    intro t col hm
    rcases List.mem_cons.mp hm with hm | hm
    · obtain ⟨rfl, rfl⟩ := Prod.mk.inj hm
      refine ⟨by omega, ?_⟩
      rw [show k + w.length - k = w.length by omega, List.append_assoc, List.drop_left]
      exact ⟨rest, rfl⟩
    · obtain ⟨h1, h2⟩ := ih t col hm
      refine ⟨by omega, ?_⟩
      have e : col - k = (w ++ [c]).length + (col - (k + w.length + 1)) := by simp; omega
      rw [e, ← List.drop_drop, List.drop_left]
      exact h2
  | @word k w u rest t' ts hw hne hu hd hm' _ ih =>
    simp only [Spelled] at hm'
    subst hm'
    intro t col hm
    rcases List.mem_cons.mp hm with hm | hm
    · obtain ⟨rfl, rfl⟩ := Prod.mk.inj hm
      refine ⟨by omega, ?_⟩
      rw [show k + w.length - k = w.length by omega, List.append_assoc, List.drop_left]
      exact ⟨rest, rfl⟩
    · obtain ⟨h1, h2⟩ := ih t col hm
      refine ⟨by omega, ?_⟩
      have e : col - k = (w ++ u).length + (col - (k + w.length + u.length)) := by simp; omega
      rw [e, ← List.drop_drop, List.drop_left]
      exact h2

/-- C04: when lexing succeeds, the tokens are the pieces, in order, with their columns. -/
theorem C04_tokens (s : Str) (toks : List (Token α)) (h : parseToTokens s = .ok toks) :
    ∃ ts : List (Tok α × Nat), Lexed HashMeans 0 s ts ∧ toks.map Token.pos = ts.map Prod.snd ∧ toks.length = ts.length := by
  by_cases hs : s = []
  · subst hs; simp [parseToTokens] at h
  · obtain ⟨ps, hps⟩ := lexed_exists (α := α) s 0
    unfold parseToTokens at h
    rw [if_neg hs] at h
    rcases lexLoop_cases hps [] with ⟨ts, hts⟩ | ⟨u, c, _, _, hl⟩
    · rw [lexLoop_lexed hts] at h
      simp only [List.nil_append, Res.ok.injEq] at h
      subst h
      have := markToks_pos (unaryPosition ([] : List (Token α))) ts
      refine ⟨ts, hts, this, ?_⟩
      have h2 := congrArg List.length this
      simpa using h2
    · rw [hl] at h; cases h

/-- C04: two texts with the same pieces have the same outcome, up to the columns in errors. -/
theorem C04_same_pieces (s s' : Str) (ts ts' : List (Tok α × Nat)) (h : Lexed Spelled 0 s ts) (h' : Lexed Spelled 0 s' ts')
    (hs : s ≠ []) (hs' : s' ≠ []) (heq : ts.map Prod.fst = ts'.map Prod.fst) :
    (parse s : Res (Raw α)).mapCols (fun _ => 0) id = (parse s').mapCols (fun _ => 0) id := by
  rw [parse_pieces h hs, parse_pieces h' hs', ← parsePieces_mapCol, ← parsePieces_mapCol, mapPieces_zero ts ts' heq]

/-- pieces of a concatenation at a clean boundary, with blanks in between -/
theorem lexed_insert (a w b : Str) (hw : ∀ c ∈ w, BlankChar c) (hc : CleanBoundary a b ∨ w ≠ []) :
    ∃ ta tb : List (Tok α × Nat), Lexed Spelled 0 a ta ∧ Lexed Spelled 0 b tb ∧
      Lexed Spelled 0 (a ++ w ++ b) (ta ++ mapPieces (· + (a.length + w.length)) tb) := by
  obtain ⟨ta, hta⟩ := lexed_exists (α := α) a 0
  obtain ⟨tb, htb⟩ := lexed_exists (α := α) b 0
  refine ⟨ta, tb, hta, htb, ?_⟩
  have h1 := lexed_shift htb (a.length + w.length)
  rw [List.append_assoc]
  refine lexed_append hta ?_ ?_
  · apply lexed_blanks hw
    rw [show 0 + a.length + w.length = 0 + (a.length + w.length) by omega]
    exact h1
  · cases w with
    | nil =>
      rcases hc with hc | hc
      · exact hc
      · exact absurd rfl hc
    | cons x w =>
      intro c _ d hd
      simp only [List.cons_append, List.head?_cons, Option.mem_def, Option.some.injEq] at hd
      subst hd
      intro hh
      exact hh.2.2 (hw x (by simp))

/-- C04: inserting (or removing) white space anywhere but inside a word does not change the outcome, up to columns. -/
theorem C04_insert (a w b : Str) (hw : ∀ c ∈ w, BlankChar c) (hc : CleanBoundary a b) (hne : a ++ b ≠ []) :
    (parse (a ++ w ++ b) : Res (Raw α)).mapCols (fun _ => 0) id = (parse (a ++ b)).mapCols (fun _ => 0) id := by
  obtain ⟨ta, tb, h1, h2, h3⟩ := lexed_insert (α := α) a w b hw (.inl hc)
  have h4 : Lexed Spelled (0 + a.length) b (mapPieces (· + a.length) tb) := lexed_shift h2 a.length
  exact C04_same_pieces _ _ _ (ta ++ mapPieces (· + a.length) tb) h3 (lexed_append h1 h4 hc)
    (by intro h; apply hne; simp at h ⊢; exact ⟨h.1, h.2.2⟩) hne (by simp [mapPieces_fst])

/-- C04: replacing white space by other white space does not change the outcome, up to columns. -/
theorem C04_replace (a w w' b : Str) (hw : ∀ c ∈ w, BlankChar c) (hw' : ∀ c ∈ w', BlankChar c) (hne : w ≠ []) (hne' : w' ≠ []) :
    (parse (a ++ w ++ b) : Res (Raw α)).mapCols (fun _ => 0) id = (parse (a ++ w' ++ b)).mapCols (fun _ => 0) id := by
  obtain ⟨ta, hta⟩ := lexed_exists (α := α) a 0
  obtain ⟨tb, htb⟩ := lexed_exists (α := α) b 0
  have key : ∀ w : Str, (∀ c ∈ w, BlankChar c) → w ≠ [] →
      Lexed Spelled 0 (a ++ w ++ b) (ta ++ mapPieces (· + (a.length + w.length)) tb) := by
    intro w hw hne
    have h1 := lexed_shift htb (a.length + w.length)
    rw [List.append_assoc]
    refine lexed_append hta ?_ ?_
    · apply lexed_blanks hw
      rw [show 0 + a.length + w.length = 0 + (a.length + w.length) by omega]
      exact h1
    · cases w with
      | nil => exact absurd rfl hne
      | cons x w =>
        intro c _ d hd
        simp only [List.cons_append, List.head?_cons, Option.mem_def, Option.some.injEq] at hd
        subst hd
        intro hh
        exact hh.2.2 (hw x (by simp))
  exact C04_same_pieces _ _ _ _ (key w hw hne) (key w' hw' hne') (by simp [hne]) (by simp [hne']) (by simp [mapPieces_fst])

example : CleanBoundary ['2', '*'] ['x'] := by
  intro c hc d _ h
  simp at hc; subst hc
  exact h.1.1 (by simp [OpChar])

/-! ### C05 -/

/-- C05: the column of a `SingleParseError` is 0 for the empty text, or the column of an unreadable word, or of a closing
parenthesis with no opening one before it, or of an opening parenthesis that is never closed. -/
theorem C05_single (s : Str) (k : Nat) (h : parse s = (.throw (.singleParse k) : Res (Raw α))) :
    (s = [] ∧ k = 0) ∨
    (∃ (ts : List (Tok α × Nat)) (u : Str), Lexed Spelled 0 s ts ∧ (Tok.var u, k) ∈ ts ∧ Unreadable α u) ∨
    (∃ ts pre suf : List (Tok α × Nat), Lexed HashMeans 0 s ts ∧ ts = pre ++ [(.sym ')', k)] ++ suf ∧
      numOpen (pre.map Prod.fst) = 0) ∨
    (∃ ts pre suf : List (Tok α × Nat), Lexed HashMeans 0 s ts ∧ ts = pre ++ [(.sym '(', k)] ++ suf ∧
      NeverNegative (suf.map Prod.fst)) := by
  by_cases hs : s = []
  · subst hs
    simp only [parse, parseToTokens, if_true, Res.bind_throw, Res.throw.injEq, Exc.singleParse.injEq] at h
    exact .inl ⟨rfl, h.symm⟩
  · obtain ⟨ps, hps⟩ := lexed_exists (α := α) s 0
    rcases lexLoop_cases hps [] with ⟨ts, hts⟩ | ⟨u, c, hm, hu, hl⟩
    · have hsym := lexed_symOk hts
      rw [parse_lexed hts hs] at h
      right; right
      rcases build_cases ts hsym with ⟨h1, h2⟩ | ⟨e', h1, h2⟩ | ⟨h1, h3, h2⟩ | ⟨h1, h3, h2⟩
      · rw [h2] at h; cases h
      · rw [h2] at h
        cases h
        obtain ⟨k', he, hk⟩ := scanT_throw ts 0 [] _ h1
        cases he
        rcases hk with ⟨pre, suf, e1, e2⟩ | ⟨pre, suf, e1, e2⟩ | ⟨i, e1, _⟩
        · exact .inl ⟨ts, pre, suf, hts, e1, by omega⟩
        · exact .inr ⟨ts, pre, suf, hts, e1, e2⟩
        · simp at e1
      · rw [h2] at h; cases h
      · rcases h2 with h2 | ⟨ks, h2, _⟩ | ⟨e', h2, _⟩ <;> rw [h2] at h <;> cases h
    · right; left
      unfold parse parseToTokens at h
      rw [if_neg hs, hl] at h
      simp only [Res.bind_throw, Res.throw.injEq, Exc.singleParse.injEq] at h
      subst h
      exact ⟨ps, u, hps, hm, hu⟩

/-- C05: every column of a `MultiParseError` is the column of a token, and there is at least one. -/
theorem C05_multi (s : Str) (ks : List Nat) (h : parse s = (.throw (.multiParse ks) : Res (Raw α))) :
    ks ≠ [] ∧ ∃ ts : List (Tok α × Nat), Lexed HashMeans 0 s ts ∧ ∀ k ∈ ks, k ∈ ts.map Prod.snd := by
  by_cases hs : s = []
  · subst hs
    simp [parse, parseToTokens] at h
  · obtain ⟨ps, hps⟩ := lexed_exists (α := α) s 0
    rcases lexLoop_cases hps [] with ⟨ts, hts⟩ | ⟨u, c, hm, hu, hl⟩
    · have hsym := lexed_symOk hts
      rw [parse_lexed hts hs] at h
      rcases build_cases ts hsym with ⟨h1, h2⟩ | ⟨e', h1, h2⟩ | ⟨h1, h3, h2⟩ | ⟨h1, h3, h2⟩
      · rw [h2] at h; cases h
      · rw [h2] at h
        cases h
        obtain ⟨k', he, hk⟩ := scanT_throw ts 0 [] _ h1
        cases he
      · rw [h2] at h; cases h
      · rcases h2 with h2 | ⟨ks', h2, h4, h5⟩ | ⟨e', h2, _⟩ <;> rw [h2] at h <;> cases h
        exact ⟨h4, ts, hts, h5⟩
    · unfold parse parseToTokens at h
      rw [if_neg hs, hl] at h
      simp at h

example : parse ['1', '+', '(', 'x'] = (.throw (.singleParse 2) : Res (Raw (XNum Rat))) ∧
    parse ['x', ' ', 'y'] = (.throw (.multiParse [0]) : Res (Raw (XNum Rat))) ∧
    parse ['1', '+', '2', 'a'] = (.throw (.singleParse 2) : Res (Raw (XNum Rat))) := by decide +kernel

/-! ### C07 -/

/-- C07 fails: the identifier `yjzuxPlnfNv` is taken for the function `log2`, because only 64-bit hashes are compared. -/
theorem C07_false_hash : LegalName ['y','j','z','u','x','P','l','n','f','N','v'] ∧
    parse ['y','j','z','u','x','P','l','n','f','N','v','(','8',')'] =
      .ok (embed (.un .log2 (.num (.fin 8)) : Expr (XNum Rat))) := by
  refine ⟨(C08_varNameIsLegal _).mp (by decide), by decide +kernel⟩

/-- C07 fails: the identifiers `inf`, `nan` and `infinity` (in any case) are numbers, not variables. -/
theorem C07_false_inf : LegalName ['i','n','f'] ∧
    parse ['i','n','f'] = .ok (embed (.num Dbl.inf : Expr (XNum Rat))) ∧
    LegalName ['N','a','N'] ∧ parse ['N','a','N'] = .ok (embed (.num Dbl.nan : Expr (XNum Rat))) := by
  refine ⟨(C08_varNameIsLegal _).mp (by decide), by decide +kernel, (C08_varNameIsLegal _).mp (by decide), by decide +kernel⟩

theorem lexed_oneWord {u : Str} {t : Tok α} (hu : ∀ c ∈ u, WordChar c) (hne : u ≠ []) (hm : HashMeans u t) :
    Lexed HashMeans 0 u [(t, 0)] := by
  have := Lexed.word (means := HashMeans) (k := 0) (w := []) (u := u) (rest := []) (t := t) (ts := []) (by simp) hne hu (by simp) hm
    (.blank (by simp))
  simpa using this

theorem legal_wordChars {u : Str} (h : LegalName u) : ∀ c ∈ u, WordChar c := by
  intro c hc
  have hl := h.1 c hc
  rw [wordChar_iff]
  constructor
  · cases hb : isBasicOperator c with
    | false => rfl
    | true =>
      exfalso
      rw [isBasicOperator_iff] at hb
      simp only [OpChar, List.mem_cons, List.not_mem_nil, or_false] at hb
      rcases hb with hb | hb | hb | hb | hb | hb | hb | hb | hb | hb <;> subst hb <;> revert hl <;> unfold LegalNameChar <;> decide
  · cases hb : isSpaceChar c with
    | false => rfl
    | true =>
      exfalso
      rw [isSpaceChar_iff] at hb
      unfold BlankChar at hb
      unfold LegalNameChar at hl
      rcases hb with rfl | hb
      · revert hl; decide
      · omega

theorem legal_ne_nil {u : Str} (h : LegalName u) : u ≠ [] := by
  obtain ⟨_, c, cs, rfl, _⟩ := h; simp

theorem parse_word {u : Str} {t : Tok α} (hl : LegalName u) (hm : HashMeans u t) :
    parse u = (inOrderToPostOrder (markToks true [(t, 0)]) >>= buildExpressionTree) :=
  parse_lexed (lexed_oneWord (legal_wordChars hl) (legal_ne_nil hl) hm) (legal_ne_nil hl)

theorem hashMeans_x : HashMeans ['x'] (.var ['x'] : Tok α) := by
  refine .var ((C08_varNameIsLegal _).mp (by decide)) ((stodFull_none_iff _).mp rfl) ?_
  rintro ⟨s, f, h, he⟩
  cases h <;> exact absurd he (by decide +kernel)

theorem lexed_call {u : Str} {t : Tok α} (hl : LegalName u) (hm : HashMeans u t) :
    Lexed HashMeans 0 (u ++ ['(', 'x', ')'])
      [(t, 0), (.sym '(', u.length), (.var ['x'], u.length + 1), (.sym ')', u.length + 2)] := by
  have h3 : Lexed (α := α) HashMeans (u.length + 2) [')'] [(.sym ')', u.length + 2)] :=
    Lexed.sym (w := []) (rest := []) (by simp) (by simp [OpChar]) (.blank (by simp))
  have h2 : Lexed (α := α) HashMeans (u.length + 1) ['x', ')'] [(.var ['x'], u.length + 1), (.sym ')', u.length + 2)] :=
    Lexed.word (w := []) (u := ['x']) (rest := [')']) (by simp) (by simp)
      (by intro c hc; simp at hc; subst hc; rw [wordChar_iff]; decide) (by simp; rw [wordChar_iff]; decide) hashMeans_x h3
  have h1 : Lexed (α := α) HashMeans u.length ['(', 'x', ')']
      [(.sym '(', u.length), (.var ['x'], u.length + 1), (.sym ')', u.length + 2)] :=
    Lexed.sym (w := []) (rest := ['x', ')']) (by simp) (by simp [OpChar]) h2
  have := Lexed.word (means := HashMeans) (k := 0) (w := []) (u := u) (rest := ['(', 'x', ')']) (by simp) (legal_ne_nil hl)
    (legal_wordChars hl) (by simp; rw [wordChar_iff]; decide) hm (by simpa using h1)
  simpa using this

/-- C07: a legal identifier that is not spelled like a number and does not share its hash with a different function name
is a function if it is one of the documented names (then `name(x)` is a call, and the bare name an error), and otherwise a
variable (then the bare name is a variable, and `name(x)` an error). -/
theorem C07_partial (w : Str) (hl : LegalName w) (hc : NoCollision w) (hn : ¬ ∃ v : α, Numeral w v) :
    (∀ f, FnName w f → parse (w ++ ['(', 'x', ')']) = .ok (embed (.un f (.var ['x']) : Expr α)) ∧
      parse w = (.throw (.math .wrongExpression) : Res (Raw α))) ∧
    ((¬ ∃ f, FnName w f) → parse w = .ok (embed (.var w : Expr α)) ∧
      parse (w ++ ['(', 'x', ')']) = (.throw (.multiParse [0]) : Res (Raw α))) := by
  constructor
  · intro f hf
    have hm : HashMeans w (.fn f : Tok α) := .fn hn hf rfl
    rw [parse_word hl hm, parse_lexed (lexed_call hl hm) (by simp)]
    cases hf <;> exact ⟨rfl, rfl⟩
  · intro hf
    have hm : HashMeans w (.var w : Tok α) := hashMeans_of_wordMeans (.var hl hn hf) (fun _ => hc)
    rw [parse_word hl hm, parse_lexed (lexed_call hl hm) (by simp)]
    exact ⟨rfl, rfl⟩

example : LegalName ['x', '_', '1'] ∧ NoCollision ['x', '_', '1'] ∧ (¬ ∃ v : XNum Rat, Numeral ['x', '_', '1'] v) ∧
    ¬ ∃ f, FnName ['x', '_', '1'] f := by
  refine ⟨(C08_varNameIsLegal _).mp (by decide), ?_, (stodFull_none_iff _).mp rfl, ?_⟩
  · intro s f h he
    cases h <;> exact absurd he (by decide +kernel)
  · rintro ⟨f, hf⟩; cases hf

example : LegalName ['s', 'i', 'n'] ∧ NoCollision ['s', 'i', 'n'] ∧ (¬ ∃ v : XNum Rat, Numeral ['s', 'i', 'n'] v) ∧
    FnName ['s', 'i', 'n'] .sin := by
  refine ⟨(C08_varNameIsLegal _).mp (by decide), ?_, (stodFull_none_iff _).mp rfl, .sin⟩
  intro s f h he
  cases h <;> first | rfl | exact absurd he (by decide +kernel)

/-! ### C09 -/

theorem parse_ok {s : Str} {t : Raw α} (h : parse s = .ok t) : ∃ (ts : List (Tok α × Nat)) (e : Expr α),
    Lexed HashMeans 0 s ts ∧ t = embed e ∧ scanT ts 0 [] = .ok () ∧
      (post e).Perm ((plain (markToks true ts)).map Token.node) := by
  by_cases hs : s = []
  · subst hs
    simp [parse, parseToTokens] at h
  · obtain ⟨ps, hps⟩ := lexed_exists (α := α) s 0
    rcases lexLoop_cases hps [] with ⟨ts, hts⟩ | ⟨u, c, hm, hu, hl⟩
    · have hsym := lexed_symOk hts
      rw [parse_lexed hts hs] at h
      rcases build_cases ts hsym with ⟨h1, h2⟩ | ⟨e', h1, h2⟩ | ⟨h1, h3, h2⟩ | ⟨h1, h3, h2⟩
      · rw [h2] at h; cases h
      · rw [h2] at h; cases h
      · rw [h2] at h; cases h
      · rcases h2 with h2 | ⟨ks', h2, h4, h5⟩ | ⟨e', h2, h4⟩ <;> rw [h2] at h <;> cases h
        exact ⟨ts, e', hts, rfl, h1, h4⟩
    · unfold parse parseToTokens at h
      rw [if_neg hs, hl] at h
      simp at h

/-- C09: every tree `Parse` returns is a complete expression tree: a number or variable without children, a unary operator or
function with one child, or a binary operator with two. -/
theorem C09_complete (s : Str) (t : Raw α) (h : parse s = .ok t) : ∃ e : Expr α, t = embed e := by
  obtain ⟨_, e, _, he, _⟩ := parse_ok h
  exact ⟨e, he⟩

/-! ### C56 -/

/-- C56 fails: operators need not stand between their operands: `x sin`, `1 2 +` and `1(2)+` are accepted. -/
theorem C56_false : parse ['x', ' ', 's', 'i', 'n'] = .ok (embed (.un .sin (.var ['x']) : Expr (XNum Rat))) ∧
    parse ['1', ' ', '2', '+'] = .ok (embed (.bin .add (.num (.fin 1)) (.num (.fin 2)) : Expr (XNum Rat))) ∧
    (∀ e, ¬ Gram 0 [.num (.fin 1), .num (.fin 2), .sym '+'] (e : Expr (XNum Rat))) := by
  refine ⟨by decide +kernel, by decide +kernel, ?_⟩
  intro e h
  have := (shaped_of_gram h).2 [] .done
  cases this with
  | num h => cases h

/-- C56: a token sequence is derivable in the grammar if and only if operators, signs, function names and parentheses are in
the places the grammar has for them and the parentheses are balanced. -/
theorem C56_grammar (ts : List (Tok α)) :
    (∃ e, Gram 0 ts e) ↔ Shaped true ts ∧ NeverNegative ts ∧ numClose ts = numOpen ts := by
  constructor
  · rintro ⟨e, h⟩
    have := shaped_of_gram h
    refine ⟨by simpa using this.2 [] .done, ?_, by simpa using this.1.2⟩
    intro pre suf hp
    simpa using this.1.1 pre suf hp
  · rintro ⟨h1, h2, h3⟩
    exact gram_of_shaped h1 ⟨fun pre suf hp => by simpa using h2 pre suf hp, by simpa using h3⟩

/-- C56: among texts whose tokens are in sensible places, `Parse` accepts exactly the ones the grammar derives, with the tree
of the grammar; it rejects the others with an exception or, if a `)` is in excess, undefined behaviour. -/
theorem C56_shaped_partial (s : Str) (ts : List (Tok α × Nat)) (hlex : Lexed HashMeans 0 s ts)
    (hsh : Shaped true (ts.map Prod.fst)) (t : Raw α) :
    parse s = .ok t ↔ ∃ e, Gram 0 (ts.map Prod.fst) e ∧ t = embed e := by
  have hs : s ≠ [] := by
    rintro rfl
    have := lexed_nil hlex
    subst this
    cases hsh
  rw [parse_lexed hlex hs]
  constructor
  · intro h
    have hsym := lexed_symOk hlex
    have hok : scanT ts 0 [] = .ok () := by
      rcases build_cases ts hsym with ⟨h1, h2⟩ | ⟨e', h1, h2⟩ | ⟨h1, h3, h2⟩ | ⟨h1, h3, h2⟩
      · rw [h2] at h; cases h
      · rw [h2] at h; cases h
      · exact h1
      · exact h1
    obtain ⟨e, he⟩ := gram_of_shaped hsh (by simpa [Bal] using (scanT_ok_iff ts 0 [] (by simp)).mp hok)
    refine ⟨e, he, ?_⟩
    rw [build_gram he _ (markToks_node true ts)] at h
    exact (Res.ok.inj h).symm
  · rintro ⟨e, he, rfl⟩
    exact build_gram he _ (markToks_node true ts)

example : Shaped true ([.sym '-', .fn .sin, .sym '(', .var ['x'], .sym '+', .sym '(', .num (.fin 1), .sym ')', .sym ')'] :
    List (Tok (XNum Rat))) :=
  .sign .neg (.call .sin (.var (.op .add (.popen (.num (.pclose (.pclose .done)))))))

/-- C56: if `Parse` returns a tree, every word of the text is readable, the parentheses are balanced, and apart from
parentheses the text consists of exactly the symbols of the tree. -/
theorem C56_partial (s : Str) (t : Raw α) (h : parse s = .ok t) : ∃ (ts : List (Tok α × Nat)) (e : Expr α),
    Lexed HashMeans 0 s ts ∧ t = embed e ∧ NeverNegative (ts.map Prod.fst) ∧
    numClose (ts.map Prod.fst) = numOpen (ts.map Prod.fst) ∧
    ((ts.map Prod.fst).filter (fun t => !t.isParen)).Perm e.symbols := by
  obtain ⟨ts, e, h1, h2, h3, h4⟩ := parse_ok h
  have hok := (scanT_ok_iff ts 0 [] (by simp)).mp h3
  refine ⟨ts, e, h1, h2, ?_, by simpa using hok.2, ?_⟩
  · intro pre suf hp
    simpa using hok.1 pre suf hp
  · have h5 := h4.map nodeTok
    rw [plain_map_nodeTok ts (lexed_symOk h1) (lexed_fnOk h1) true] at h5
    exact h5.symm.trans (post_symbols e)

end Tom
