import Verif.Lemmas.Scan
/-
Columns only pass through the parser: changing the columns of the tokens changes the columns in errors and nothing else.
Concatenation of inputs at clean boundaries.
-/
namespace Tom
variable {α : Type} [Dbl α]

/-- rename the column of a token -/
def Token.mapCol (f : Nat → Nat) (t : Token α) : Token α := ⟨t.node, f t.pos⟩

@[simp] theorem Token.mapCol_node (f : Nat → Nat) (t : Token α) : (t.mapCol f).node = t.node := rfl
@[simp] theorem Token.mapCol_pos (f : Nat → Nat) (t : Token α) : (t.mapCol f).pos = f t.pos := rfl

theorem popToParen_mapCol (f : Nat → Nat) (S O : List (Token α)) :
    popToParen (S.map (Token.mapCol f)) (O.map (Token.mapCol f)) =
      (popToParen S O).mapCols f (fun p => (p.1.map (Token.mapCol f), p.2.map (Token.mapCol f))) := by
  induction S generalizing O with
  | nil => rfl
  | cons t S ih =>
    simp only [List.map_cons, popToParen, Token.mapCol_node]
    by_cases h : t.node.op = .lparen
    · simp only [h, if_true]; rfl
    · simp only [h, if_false]; rw [← ih]; simp

theorem popFunction_mapCol (f : Nat → Nat) (S O : List (Token α)) :
    popFunction (S.map (Token.mapCol f)) (O.map (Token.mapCol f)) =
      ((popFunction S O).1.map (Token.mapCol f), (popFunction S O).2.map (Token.mapCol f)) := by
  cases S with
  | nil => rfl
  | cons t S =>
    simp only [List.map_cons, popFunction, Token.mapCol_node]
    by_cases h : isFunction t.node.op = true
    · simp only [h, if_true]; simp
    · simp only [h, if_false]; simp

theorem popSigns_mapCol (f : Nat → Nat) (S O : List (Token α)) :
    popSigns (S.map (Token.mapCol f)) (O.map (Token.mapCol f)) =
      ((popSigns S O).1.map (Token.mapCol f), (popSigns S O).2.map (Token.mapCol f)) := by
  induction S generalizing O with
  | nil => rfl
  | cons t S ih =>
    simp only [List.map_cons, popSigns, Token.mapCol_node]
    by_cases h : t.node.op = .positive ∨ t.node.op = .negative
    · simp only [h, if_true]; rw [← ih]; simp
    · simp only [h, if_false]; simp

theorem popRank_mapCol (f : Nat → Nat) (op : MathOp) (S O : List (Token α)) :
    popRank op (S.map (Token.mapCol f)) (O.map (Token.mapCol f)) =
      ((popRank op S O).1.map (Token.mapCol f), (popRank op S O).2.map (Token.mapCol f)) := by
  induction S generalizing O with
  | nil => rfl
  | cons t S ih =>
    simp only [List.map_cons, popRank, Token.mapCol_node]
    by_cases hc : (if isLeft2Right op then rank op ≤ rank t.node.op else rank op < rank t.node.op)
    · simp only [hc, if_true]; rw [← ih]; simp
    · simp only [hc, if_false]; simp

theorem flushStack_mapCol (f : Nat → Nat) (S O : List (Token α)) :
    flushStack (S.map (Token.mapCol f)) (O.map (Token.mapCol f)) =
      (flushStack S O).mapCols f (List.map (Token.mapCol f)) := by
  induction S generalizing O with
  | nil => rfl
  | cons t S ih =>
    simp only [List.map_cons, flushStack, Token.mapCol_node]
    by_cases h : t.node.op = .lparen
    · simp only [h, if_true]; rfl
    · simp only [h, if_false]; rw [← ih]; simp

theorem shunt_mapCol (f : Nat → Nat) (toks : List (Token α)) : ∀ (B : Nat) (S O : List (Token α)),
    shunt (toks.map (Token.mapCol f)) B (S.map (Token.mapCol f)) (O.map (Token.mapCol f)) =
      (shunt toks B S O).mapCols f (List.map (Token.mapCol f)) := by
  induction toks with
  | nil => intro B S O; exact flushStack_mapCol f S O
  | cons t toks ih =>
    intro B S O
    have hleaf : shunt (toks.map (Token.mapCol f)) B (S.map (Token.mapCol f)) (O.map (Token.mapCol f) ++ [t.mapCol f]) =
        (shunt toks B S (O ++ [t])).mapCols f (List.map (Token.mapCol f)) := by rw [← ih]; simp
    have hpush : ∀ B, shunt (toks.map (Token.mapCol f)) B (t.mapCol f :: S.map (Token.mapCol f)) (O.map (Token.mapCol f)) =
        (shunt toks B (t :: S) O).mapCols f (List.map (Token.mapCol f)) := by intro B; rw [← ih]; simp
    have hrank : ∀ op, shunt (toks.map (Token.mapCol f)) B
          (t.mapCol f :: (popRank op (S.map (Token.mapCol f)) (O.map (Token.mapCol f))).1)
          (popRank op (S.map (Token.mapCol f)) (O.map (Token.mapCol f))).2 =
        (shunt toks B (t :: (popRank op S O).1) (popRank op S O).2).mapCols f (List.map (Token.mapCol f)) := by
      intro op; rw [← ih, popRank_mapCol]; simp
    rw [List.map_cons, shunt.eq_def, shunt.eq_def]
    simp only [Token.mapCol_node]
    cases hn : t.node with
    | nil => rfl
    | mk ty op v x l r =>
      cases ty with
      | number => exact hleaf
      | «variable» => exact hleaf
      | operator =>
        simp only
        cases op
        case lparen => exact hpush _
        case positive => exact hpush _
        case negative => exact hpush _
        case rparen =>
          simp only
          split
          · rfl
          · rw [popToParen_mapCol]
            cases popToParen S O with
            | ok p =>
              simp only [Res.mapCols, Res.bind_ok]
              rw [popFunction_mapCol, popSigns_mapCol]
              exact ih _ _ _
            | throw e => rfl
            | ub => rfl
            | terminate => rfl
            | assertFail => rfl
            | diverge => rfl
        all_goals exact hrank _

theorem buildLoop_mapCol (f : Nat → Nat) (toks : List (Token α)) : ∀ (S : List (Token α)),
    buildLoop (toks.map (Token.mapCol f)) (S.map (Token.mapCol f)) =
      (buildLoop toks S).mapCols f (List.map (Token.mapCol f)) := by
  induction toks with
  | nil => intro S; rfl
  | cons t toks ih =>
    intro S
    rw [List.map_cons, buildLoop.eq_def, buildLoop.eq_def]
    simp only [Token.mapCol_node]
    cases hn : t.node with
    | nil => rfl
    | mk ty op v x l r =>
      cases ty with
      | number => exact ih (t :: S)
      | «variable» => exact ih (t :: S)
      | operator =>
        simp only
        split
        · match S with
          | [] => rfl
          | [_] => rfl
          | r :: l :: S => simp only [List.map_cons]; rw [← ih]; rfl
        · split
          · match S with
            | [] => rfl
            | l :: S => simp only [List.map_cons]; rw [← ih]; rfl
          · rfl

/-- The part of `Parse` after the lexer passes columns through. -/
theorem build_mapCol (f : Nat → Nat) (toks : List (Token α)) :
    (inOrderToPostOrder (toks.map (Token.mapCol f)) >>= buildExpressionTree) =
      (inOrderToPostOrder toks >>= buildExpressionTree).mapCols f id := by
  have h := shunt_mapCol f toks 0 [] []
  simp only [List.map_nil] at h
  unfold inOrderToPostOrder
  rw [h]
  cases shunt toks 0 [] [] with
  | ok out =>
    simp only [Res.mapCols, Res.bind_ok, buildExpressionTree]
    have h2 := buildLoop_mapCol f out []
    rw [List.map_nil] at h2
    rw [h2]
    cases buildLoop out [] with
    | ok stk =>
      match stk with
      | [] => rfl
      | [t] => rfl
      | a :: b :: stk => simp [Res.mapCols, Exc.mapCols]
    | throw e => rfl
    | ub => rfl
    | terminate => rfl
    | assertFail => rfl
    | diverge => rfl
  | throw e => rfl
  | ub => rfl
  | terminate => rfl
  | assertFail => rfl
  | diverge => rfl

theorem unaryPosition_mapCol (f : Nat → Nat) (ret : List (Token α)) :
    unaryPosition (ret.map (Token.mapCol f)) = unaryPosition ret := by
  unfold unaryPosition
  rw [List.getLast?_map]
  cases ret.getLast? <;> rfl

theorem tryConfirm_mapCol (f : Nat → Nat) (u : Str) (k : Nat) (ret : List (Token α)) :
    tryConfirmToken u (f k) (ret.map (Token.mapCol f)) = (tryConfirmToken u k ret).mapCols f (List.map (Token.mapCol f)) := by
  unfold tryConfirmToken
  split
  · rfl
  · split
    · simp [Res.mapCols, Token.mapCol]
    · simp only
      split
      · rename_i h
        simp [mkOp, h, Res.mapCols, Token.mapCol]
      · split
        · rfl
        · rename_i h
          simp [mkVar, h, Res.mapCols, Token.mapCol]

/-- rename the columns of the pieces -/
def mapPieces (f : Nat → Nat) (ts : List (Tok α × Nat)) : List (Tok α × Nat) := ts.map fun t => (t.1, f t.2)

theorem lexPieces_mapCol (f : Nat → Nat) (ts : List (Tok α × Nat)) : ∀ ret : List (Token α),
    lexPieces (mapPieces f ts) (ret.map (Token.mapCol f)) = (lexPieces ts ret).mapCols f (List.map (Token.mapCol f)) := by
  induction ts with
  | nil => intro ret; rfl
  | cons t ts ih =>
    intro ret
    obtain ⟨t, k⟩ := t
    have hp : lexPiece (ret.map (Token.mapCol f)) (t, f k) = (lexPiece ret (t, k)).mapCols f (List.map (Token.mapCol f)) := by
      unfold lexPiece
      cases t with
      | num v => rfl
      | fn f => rfl
      | var u => exact tryConfirm_mapCol f u k ret
      | sym c =>
        simp only [unaryPosition_mapCol]
        unfold mkOp
        split
        · rfl
        · simp [Res.mapCols, Token.mapCol]
    simp only [mapPieces, List.map_cons, lexPieces]
    rw [hp]
    cases lexPiece ret (t, k) with
    | ok r => exact ih r
    | throw e => rfl
    | ub => rfl
    | terminate => rfl
    | assertFail => rfl
    | diverge => rfl

/-- `Parse` from the pieces of the input -/
def parsePieces (ts : List (Tok α × Nat)) : Res (Raw α) :=
  lexPieces ts [] >>= fun toks => inOrderToPostOrder toks >>= buildExpressionTree

theorem parsePieces_mapCol (f : Nat → Nat) (ts : List (Tok α × Nat)) :
    parsePieces (mapPieces f ts) = (parsePieces ts).mapCols f id := by
  have h := lexPieces_mapCol f ts []
  rw [List.map_nil] at h
  unfold parsePieces
  rw [h]
  cases lexPieces ts [] with
  | ok r => exact build_mapCol f r
  | throw e => rfl
  | ub => rfl
  | terminate => rfl
  | assertFail => rfl
  | diverge => rfl

theorem parse_pieces {s : Str} {ts : List (Tok α × Nat)} (h : Lexed Spelled 0 s ts) (hs : s ≠ []) :
    parse s = parsePieces ts := by
  unfold parse parseToTokens parsePieces
  rw [if_neg hs, lexLoop_pieces h]

/-! ### Concatenation -/

variable {means : Str → Tok α → Prop}

theorem lexed_blanks {k : Nat} {w b : Str} {us : List (Tok α × Nat)} (hw : ∀ c ∈ w, BlankChar c)
    (h : Lexed means (k + w.length) b us) : Lexed means k (w ++ b) us := by
  cases h with
  | blank hb =>
    refine .blank ?_
    intro c hc
    rcases List.mem_append.mp hc with hc | hc
    · exact hw c hc
    · exact hb c hc
  | @sym _ w' rest c ts hb hc hrest =>
    have h2 : ∀ c ∈ w ++ w', BlankChar c := by
      intro c hc
      rcases List.mem_append.mp hc with hc | hc
      · exact hw c hc
      · exact hb c hc
    have e : k + (w ++ w').length = k + w.length + w'.length := by simp; omega
    have := Lexed.sym (means := means) (k := k) (w := w ++ w') h2 hc (rest := rest) (ts := ts) (by rw [e]; exact hrest)
    rw [e] at this
    simpa using this
  | @word _ w' u rest t ts hb hne hu hd hm hrest =>
    have h2 : ∀ c ∈ w ++ w', BlankChar c := by
      intro c hc
      rcases List.mem_append.mp hc with hc | hc
      · exact hw c hc
      · exact hb c hc
    have e : k + (w ++ w').length = k + w.length + w'.length := by simp; omega
    have := Lexed.word (means := means) (k := k) (w := w ++ w') h2 hne hu hd hm (ts := ts) (by rw [e]; exact hrest)
    rw [e] at this
    simpa using this

theorem lexed_append {k : Nat} {a b : Str} {ts us : List (Tok α × Nat)} (ha : Lexed means k a ts)
    (hb : Lexed means (k + a.length) b us) (hc : CleanBoundary a b) : Lexed means k (a ++ b) (ts ++ us) := by
  induction ha with
  | blank hw => exact lexed_blanks hw hb
  | @sym k w rest c ts hw hop hrest ih =>
    rw [List.append_assoc, List.cons_append]
    refine .sym hw hop (ih ?_ ?_)
    · have e : k + w.length + 1 + rest.length = k + (w ++ [c] ++ rest).length := by simp; omega
      rw [e]; exact hb
    · cases rest with
      | nil => intro x hx; simp at hx
      | cons r rs =>
        intro x hx d hd
        exact hc x (by rw [List.getLast?_append, Option.mem_def.mp hx]; rfl) d hd
  | @word k w u rest t ts hw hne hu hd hm hrest ih =>
    rw [List.append_assoc, List.cons_append]
    refine .word hw hne hu ?_ hm (ih ?_ ?_)
    · cases rest with
      | nil =>
        intro d hd'
        rw [List.nil_append] at hd'
        obtain ⟨x, hx⟩ : ∃ x, u.getLast? = some x := by
          cases h : u.getLast? with
          | none => exact absurd (List.getLast?_eq_none_iff.mp h) hne
          | some x => exact ⟨x, rfl⟩
        have hxm : x ∈ u := List.mem_of_getLast? hx
        intro hwd
        refine hc x ?_ d hd' ⟨hu x hxm, hwd⟩
        rw [List.append_nil, List.getLast?_append, hx]; rfl
      | cons r rs => simpa using hd
    · have e : k + w.length + u.length + rest.length = k + (w ++ u ++ rest).length := by simp; omega
      rw [e]; exact hb
    · cases rest with
      | nil => intro x hx; simp at hx
      | cons r rs =>
        intro x hx d hd
        exact hc x (by rw [List.getLast?_append, Option.mem_def.mp hx]; rfl) d hd

theorem lexed_shift {k : Nat} {s : Str} {ts : List (Tok α × Nat)} (h : Lexed means k s ts) (j : Nat) :
    Lexed means (k + j) s (mapPieces (· + j) ts) := by
  induction h with
  | blank hw => exact .blank hw
  | @sym k w rest c ts hw hop hrest ih =>
    have e : k + w.length + 1 + j = k + j + w.length + 1 := by omega
    rw [e] at ih
    have := Lexed.sym hw hop ih
    rw [show k + j + w.length = k + w.length + j by omega] at this
    exact this
  | @word k w u rest t ts hw hne hu hd hm hrest ih =>
    have e : k + w.length + u.length + j = k + j + w.length + u.length := by omega
    rw [e] at ih
    have := Lexed.word hw hne hu hd hm ih
    rw [show k + j + w.length = k + w.length + j by omega] at this
    exact this

theorem mapPieces_fst (f : Nat → Nat) (ts : List (Tok α × Nat)) : (mapPieces f ts).map Prod.fst = ts.map Prod.fst := by
  simp [mapPieces]

/-- pieces with all columns forgotten -/
theorem mapPieces_zero (ts us : List (Tok α × Nat)) (h : ts.map Prod.fst = us.map Prod.fst) :
    mapPieces (fun _ => 0) ts = mapPieces (fun _ => 0) us := by
  have e : ∀ ts : List (Tok α × Nat), mapPieces (fun _ => 0) ts = (ts.map Prod.fst).map (fun t => (t, 0)) := by
    intro ts; simp [mapPieces]
  rw [e, e, h]

end Tom
