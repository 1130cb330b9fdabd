import Verif.Lemmas.Shape
/-
Lemmas for C116, C117: the run of the parser on a parenthesised part of a text.
-/
set_option linter.unusedSectionVars false
namespace Tom
variable {α : Type} [Dbl α]

/-- the state after a closing parenthesis: pop a function, then signs -/
def afterClose (S O : List (Token α)) : List (Token α) × List (Token α) :=
  popSigns (popFunction S O).1 (popFunction S O).2

/-- how many parentheses have been opened does not matter once one has -/
theorem shunt_bal (toks : List (Token α)) : ∀ (B B' : Nat) (S O : List (Token α)), 1 ≤ B → 1 ≤ B' →
    shunt toks B S O = shunt toks B' S O := by
  induction toks with
  | nil => intro B B' S O _ _; rfl
  | cons t toks ih =>
    intro B B' S O h h'
    rw [shunt.eq_def, shunt.eq_def]
    simp only
    cases hn : t.node with
    | nil => rfl
    | mk ty op v x l r =>
      cases ty with
      | number => exact ih _ _ _ _ h h'
      | «variable» => exact ih _ _ _ _ h h'
      | operator =>
        simp only
        cases op
        case lparen => exact ih _ _ _ _ (by omega) (by omega)
        case rparen =>
          simp only
          rw [if_neg (by omega), if_neg (by omega)]
          cases popToParen S O with
          | ok p => simp only [Res.bind_ok]; exact ih _ _ _ _ h h'
          | throw e => rfl
          | ub => rfl
          | terminate => rfl
          | assertFail => rfl
          | diverge => rfl
        all_goals exact ih _ _ _ _ h h'

theorem flush_inside (p : Token α) (hp : p.node.op = .lparen) (T O' : List (Token α)) (S : List (Token α)) :
    ∀ O out, flushStack S O = .ok out → popToParen (S ++ p :: T) (O' ++ O) = .ok (T, O' ++ out) := by
  induction S with
  | nil => intro O out h; simp only [flushStack, Res.ok.injEq] at h; subst h; simp [popToParen, hp]
  | cons t S ih =>
    intro O out h
    simp only [flushStack] at h
    simp only [List.cons_append, popToParen]
    split at h
    · cases h
    · rename_i hne
      rw [if_neg hne, List.append_assoc]
      exact ih _ _ h

theorem popToParen_inside (T O' : List (Token α)) (S : List (Token α)) :
    ∀ O r, popToParen S O = .ok r → popToParen (S ++ T) (O' ++ O) = .ok (r.1 ++ T, O' ++ r.2) := by
  induction S with
  | nil => intro O r h; cases h
  | cons t S ih =>
    intro O r h
    simp only [popToParen] at h
    simp only [List.cons_append, popToParen]
    split at h
    · rename_i he
      simp only [Res.ok.injEq] at h; subst h; rw [if_pos he]
    · rename_i hne
      rw [if_neg hne, List.append_assoc]
      exact ih _ _ h

theorem popFunction_inside (p : Token α) (hp : p.node.op = .lparen) (T O' S O : List (Token α)) :
    popFunction (S ++ p :: T) (O' ++ O) = ((popFunction S O).1 ++ p :: T, O' ++ (popFunction S O).2) := by
  cases S with
  | nil => simp [popFunction, hp, isFunction]
  | cons t S =>
    simp only [List.cons_append, popFunction]
    split <;> simp

theorem popSigns_inside (p : Token α) (hp : p.node.op = .lparen) (T O' S : List (Token α)) : ∀ O,
    popSigns (S ++ p :: T) (O' ++ O) = ((popSigns S O).1 ++ p :: T, O' ++ (popSigns S O).2) := by
  induction S with
  | nil => intro O; simp [popSigns, hp]
  | cons t S ih =>
    intro O
    simp only [List.cons_append, popSigns]
    split
    · rw [List.append_assoc]; exact ih _
    · simp

theorem popRank_inside (f : MathOp) (p : Token α) (hp : p.node.op = .lparen) (T O' S : List (Token α)) (hf : f ≠ .lparen ∧ f ≠ .rparen) :
    ∀ O, popRank f (S ++ p :: T) (O' ++ O) = ((popRank f S O).1 ++ p :: T, O' ++ (popRank f S O).2) := by
  induction S with
  | nil =>
    intro O
    simp only [List.nil_append, popRank, hp]
    rw [if_neg]
    cases f <;> simp [isLeft2Right, rank] at hf ⊢
  | cons t S ih =>
    intro O
    simp only [List.cons_append, popRank]
    by_cases hc : (if isLeft2Right f then rank f ≤ rank t.node.op else rank f < rank t.node.op)
    · rw [if_pos hc, if_pos hc, List.append_assoc]; exact ih _
    · simp [hc]

/-- A sequence of tokens that converts to `out` on its own converts to `out` between parentheses, whatever surrounds it. -/
theorem shunt_inside (p r : Token α) (hp : p.node.op = .lparen) (hr : r.node = opNode .rparen) (T O' rest : List (Token α))
    (toks : List (Token α)) : ∀ (B B' : Nat) (S O out : List (Token α)), shunt toks B S O = .ok out → 1 ≤ B' →
    shunt (toks ++ r :: rest) B' (S ++ p :: T) (O' ++ O) =
      shunt rest 1 (afterClose T (O' ++ out)).1 (afterClose T (O' ++ out)).2 := by
  induction toks with
  | nil =>
    intro B B' S O out h hB
    have h1 := flush_inside p hp T O' S O out h
    rw [List.nil_append, shunt.eq_def]
    simp only [hr, opNode]
    rw [if_neg (by omega), h1]
    simp only [Res.bind_ok]
    exact shunt_bal _ _ _ _ _ hB (Nat.le_refl _)
  | cons t toks ih =>
    intro B B' S O out h hB
    rw [shunt.eq_def] at h
    rw [List.cons_append, shunt.eq_def]
    simp only at h ⊢
    cases hn : t.node with
    | nil => rw [hn] at h; cases h
    | mk ty op v x l r =>
      rw [hn] at h
      cases ty with
      | number =>
        simp only at h ⊢
        rw [List.append_assoc]; exact ih _ _ _ _ _ h hB
      | «variable» =>
        simp only at h ⊢
        rw [List.append_assoc]; exact ih _ _ _ _ _ h hB
      | operator =>
        simp only at h ⊢
        cases op
        case lparen => exact ih _ (B' + 1) (t :: S) _ _ h (by omega)
        case positive => exact ih _ B' (t :: S) _ _ h hB
        case negative => exact ih _ B' (t :: S) _ _ h hB
        case rparen =>
          simp only at h ⊢
          by_cases hz : B = 0
          · rw [if_pos hz] at h; cases h
          · rw [if_neg hz] at h
            rw [if_neg (by omega)]
            cases hpp : popToParen S O with
            | ok q =>
              rw [hpp] at h
              simp only [Res.bind_ok] at h
              rw [popToParen_inside _ _ _ _ _ hpp]
              simp only [Res.bind_ok]
              rw [popFunction_inside p hp, popSigns_inside p hp]
              exact ih _ B' _ _ _ h hB
            | throw e => rw [hpp] at h; cases h
            | ub => rw [hpp] at h; cases h
            | terminate => rw [hpp] at h; cases h
            | assertFail => rw [hpp] at h; cases h
            | diverge => rw [hpp] at h; cases h
        all_goals
          simp only at h ⊢
          rw [popRank_inside _ p hp _ _ _ (by decide)]
          exact ih _ B' (t :: _) _ _ h hB

/-- Two sequences with the same conversion can be exchanged between parentheses. -/
theorem shunt_block (p r : Token α) (hp : p.node = opNode .lparen) (hr : r.node = opNode .rparen) (A A' out : List (Token α))
    (h : shunt A 0 [] [] = .ok out) (h' : shunt A' 0 [] [] = .ok out) (X L : List (Token α)) : ∀ (B : Nat) (S O : List (Token α)),
    shunt (L ++ p :: (A ++ r :: X)) B S O = shunt (L ++ p :: (A' ++ r :: X)) B S O := by
  have hp' : p.node.op = .lparen := by rw [hp]; rfl
  induction L with
  | nil =>
    intro B S O
    rw [List.nil_append, List.nil_append, shunt_lparen p hp, shunt_lparen p hp]
    have e1 := shunt_inside p r hp' hr S O X A 0 (B + 1) [] [] out h (by omega)
    have e2 := shunt_inside p r hp' hr S O X A' 0 (B + 1) [] [] out h' (by omega)
    simp only [List.nil_append, List.append_nil] at e1 e2
    rw [e1, e2]
  | cons t L ih =>
    intro B S O
    rw [List.cons_append, List.cons_append, shunt.eq_def, shunt.eq_def]
    simp only
    cases hn : t.node with
    | nil => rfl
    | mk ty op v x l r =>
      cases ty with
      | number => exact ih _ _ _
      | «variable» => exact ih _ _ _
      | operator =>
        simp only
        cases op
        case rparen =>
          simp only
          split
          · rfl
          · cases popToParen S O with
            | ok p => simp only [Res.bind_ok]; exact ih _ _ _
            | throw e => rfl
            | ub => rfl
            | terminate => rfl
            | assertFail => rfl
            | diverge => rfl
        all_goals exact ih _ _ _

/-! ### Lexing in context -/

theorem lexPieces_append (ts us : List (Tok α × Nat)) : ∀ ret : List (Token α),
    lexPieces (ts ++ us) ret = (lexPieces ts ret >>= lexPieces us) := by
  induction ts with
  | nil => intro ret; rfl
  | cons t ts ih =>
    intro ret
    simp only [List.cons_append, lexPieces]
    cases lexPiece ret t <;> simp [ih]

/-- what has been read before matters only through the question whether a sign may come next -/
theorem lexPiece_context (t : Tok α × Nat) (b : Bool) : ∃ (q : Res (List (Token α))) (b' : Bool), ∀ R : List (Token α), unaryPosition R = b →
    lexPiece R t = (q >>= fun x => .ok (R ++ x)) ∧ ∀ x, q = .ok x → unaryPosition (R ++ x) = b' := by
  have hlast : ∀ (R : List (Token α)) (n : Token α), unaryPosition (R ++ [n]) = (n.node.isOperator && n.node.op != .rparen) := by
    intro R n; simp [unaryPosition]
  obtain ⟨t, k⟩ := t
  cases t with
  | sym c =>
    cases hm : (mkOp (baseOperatorCharToEnum c b) : Res (Raw α)) with
    | ok n =>
      refine ⟨.ok [⟨n, k⟩], n.isOperator && n.op != .rparen, fun R hR => ⟨?_, ?_⟩⟩
      · simp [lexPiece, hR, hm]
      · intro x hx; cases hx; exact hlast _ _
    | throw e => exact ⟨.throw e, b, fun R hR => ⟨by simp [lexPiece, hR, hm], by intro x hx; cases hx⟩⟩
    | ub => exact ⟨.ub, b, fun R hR => ⟨by simp [lexPiece, hR, hm], by intro x hx; cases hx⟩⟩
    | terminate => exact ⟨.terminate, b, fun R hR => ⟨by simp [lexPiece, hR, hm], by intro x hx; cases hx⟩⟩
    | assertFail => exact ⟨.assertFail, b, fun R hR => ⟨by simp [lexPiece, hR, hm], by intro x hx; cases hx⟩⟩
    | diverge => exact ⟨.diverge, b, fun R hR => ⟨by simp [lexPiece, hR, hm], by intro x hx; cases hx⟩⟩
  | num v => exact ⟨.ok [], b, fun R hR => ⟨by simp [lexPiece], by intro x hx; cases hx; simpa using hR⟩⟩
  | fn v => exact ⟨.ok [], b, fun R hR => ⟨by simp [lexPiece], by intro x hx; cases hx; simpa using hR⟩⟩
  | var u =>
    have key : ∀ q : Res (Raw α), (∀ R, tryConfirmToken u k R = (q >>= fun n => .ok (R ++ [⟨n, k⟩]))) → ∃ (q : Res (List (Token α))) (b' : Bool), ∀ R : List (Token α), unaryPosition R = b →
        lexPiece R (.var u, k) = (q >>= fun x => .ok (R ++ x)) ∧ ∀ x, q = .ok x → unaryPosition (R ++ x) = b' := by
      intro q hq
      cases q with
      | ok n =>
        refine ⟨.ok [⟨n, k⟩], n.isOperator && n.op != .rparen, fun R hR => ⟨?_, ?_⟩⟩
        · simp [lexPiece, hq]
        · intro x hx; cases hx; exact hlast _ _
      | throw e => exact ⟨.throw e, b, fun R hR => ⟨by simp [lexPiece, hq], by intro x hx; cases hx⟩⟩
      | ub => exact ⟨.ub, b, fun R hR => ⟨by simp [lexPiece, hq], by intro x hx; cases hx⟩⟩
      | terminate => exact ⟨.terminate, b, fun R hR => ⟨by simp [lexPiece, hq], by intro x hx; cases hx⟩⟩
      | assertFail => exact ⟨.assertFail, b, fun R hR => ⟨by simp [lexPiece, hq], by intro x hx; cases hx⟩⟩
      | diverge => exact ⟨.diverge, b, fun R hR => ⟨by simp [lexPiece, hq], by intro x hx; cases hx⟩⟩
    by_cases h0 : u = []
    · exact ⟨.ok [], b, fun R hR => ⟨by simp [lexPiece, tryConfirmToken, h0], by intro x hx; cases hx; simpa using hR⟩⟩
    · cases hs : (stodFull u : Option α) with
      | some d => exact key (.ok (mkNum d)) (fun R => by simp [tryConfirmToken, h0, hs])
      | none =>
        by_cases hop : str2Function u = .null
        · cases hl : varNameIsLegal u with
          | false => exact key (.throw (.singleParse k)) (fun R => by simp [tryConfirmToken, h0, hs, hop, hl])
          | true => exact key (mkVar u) (fun R => by simp [tryConfirmToken, h0, hs, hop, hl])
        · exact key (mkOp (str2Function u)) (fun R => by simp [tryConfirmToken, h0, hs, hop])

theorem lexPieces_context (ts : List (Tok α × Nat)) : ∀ b : Bool, ∃ q : Res (List (Token α)), ∀ R : List (Token α), unaryPosition R = b →
    lexPieces ts R = (q >>= fun x => .ok (R ++ x)) := by
  induction ts with
  | nil => intro b; exact ⟨.ok [], fun R _ => by simp [lexPieces]⟩
  | cons t ts ih =>
    intro b
    obtain ⟨q, b', hq⟩ := lexPiece_context t b
    obtain ⟨q', hq'⟩ := ih b'
    refine ⟨q >>= fun x => q' >>= fun y => .ok (x ++ y), fun R hR => ?_⟩
    obtain ⟨h1, h2⟩ := hq R hR
    simp only [lexPieces, h1]
    cases q with
    | ok x =>
      simp only [Res.bind_ok]
      rw [hq' _ (h2 x rfl)]
      cases q' <;> simp
    | throw e => rfl
    | ub => rfl
    | terminate => rfl
    | assertFail => rfl
    | diverge => rfl

/-- The intermediate results of a successful `Parse`. -/
theorem parse_stages {a : Str} {e : Expr α} {pa : List (Tok α × Nat)} (hl : Lexed Spelled 0 a pa) (h : parse a = .ok (embed e)) :
    ∃ A out, lexPieces pa [] = .ok A ∧ shunt A 0 [] [] = .ok out ∧ out.map Token.node = post e := by
  have hs : a ≠ [] := by
    rintro rfl
    simp [parse, parseToTokens] at h
  have h1 := h
  rw [parse_pieces hl hs, parsePieces] at h1
  rcases lexLoop_cases hl [] with ⟨ts, hts⟩ | ⟨u, c, hm, hu, hlx⟩
  · have hlp := lexLoop_pieces hl ([] : List (Token α))
    rw [lexLoop_lexed hts, List.nil_append] at hlp
    have hlp' : lexPieces pa [] = .ok (markToks true ts) := hlp.symm
    rw [hlp', Res.bind_ok] at h1
    have hsym := lexed_symOk hts
    have hsc := shunt_scan (markToks true ts) 0 [] [] (markToks_good ts hsym true) (by simp)
    unfold inOrderToPostOrder at h1
    cases hsh : shunt (markToks true ts) 0 [] [] with
    | ok out =>
      refine ⟨_, out, hlp', hsh, ?_⟩
      rw [hsh, Res.bind_ok] at h1
      have hp : out.Perm (plain (markToks true ts)) := by
        revert hsc
        split
        · rintro ⟨o, h2, h3⟩
          rw [hsh] at h2; cases h2
          simpa [plain] using h3
        · intro h2; rw [hsh] at h2; cases h2
        · intro h2; rw [hsh] at h2; cases h2
        · exact False.elim
      have hbt : ∀ t ∈ out, BuildTok t := by
        intro t ht
        have := hp.mem_iff.mp ht
        rw [plain, List.mem_filter] at this
        exact buildTok_of_good (markToks_good ts hsym true t this.1) this.2
      unfold buildExpressionTree at h1
      rcases buildLoop_cases out [] [] hbt rfl with hw | ⟨stk, es, k1, k2, k3, k4, k5⟩
      · rw [hw] at h1; cases h1
      · rw [k1, Res.bind_ok] at h1
        match stk, es with
        | [], _ => cases h1
        | [t], [] => simp at k2
        | [t], [e'] =>
          simp only [Res.ok.injEq] at h1
          simp only [List.map_cons, List.map_nil, List.cons.injEq, and_true] at k2
          rw [k2] at h1
          have := embed_injective h1
          subst this
          have k3' : post e' = out.map Token.node := by simpa [posts] using k3
          exact k3'.symm
        | [t], _ :: _ :: _ => simp at k2
        | _ :: _ :: _, _ => cases h1
    | throw e => rw [hsh] at h1; cases h1
    | ub => rw [hsh] at h1; cases h1
    | terminate => rw [hsh] at h1; cases h1
    | assertFail => rw [hsh] at h1; cases h1
    | diverge => rw [hsh] at h1; cases h1
  · unfold parse parseToTokens at h
    rw [if_neg hs, hlx] at h
    cases h

/-- tokens with all columns forgotten are determined by their nodes -/
theorem mapCol_zero_eq {A B : List (Token α)} (h : A.map Token.node = B.map Token.node) :
    A.map (Token.mapCol fun _ => 0) = B.map (Token.mapCol fun _ => 0) := by
  have e : ∀ A : List (Token α), A.map (Token.mapCol fun _ => 0) = (A.map Token.node).map (fun n => ⟨n, 0⟩) := by
    intro A; rw [List.map_map]; rfl
  rw [e, e, h]

/-- pieces of a text with a parenthesised part -/
theorem lexed_around (l a r : Str) {pl pa pr : List (Tok α × Nat)} (hl : Lexed Spelled 0 l pl) (ha : Lexed Spelled 0 a pa)
    (hr : Lexed Spelled 0 r pr) : ∃ ts, Lexed Spelled 0 (l ++ ['('] ++ a ++ [')'] ++ r) ts ∧
      mapPieces (fun _ => 0) ts = mapPieces (fun _ => 0) pl ++ (.sym '(', 0) :: (mapPieces (fun _ => 0) pa ++
        (.sym ')', 0) :: mapPieces (fun _ => 0) pr) := by
  have z : ∀ (j : Nat) (ts : List (Tok α × Nat)), mapPieces (fun _ => 0) (mapPieces (· + j) ts) = mapPieces (fun _ => 0) ts := by
    intro j ts; simp [mapPieces]
  have hnw : ∀ c, c = '(' ∨ c = ')' → ¬ WordChar c := by
    rintro c (rfl | rfl) ⟨h, _⟩ <;> exact h (by simp [OpChar])
  have h1 : Lexed Spelled (0 + (l.length + 1 + a.length + 1)) r _ := lexed_shift hr (l.length + 1 + a.length + 1)
  have h2 := Lexed.sym (means := Spelled) (k := l.length + 1 + a.length) (w := []) (c := ')') (rest := r) (by simp)
    (by simp [OpChar]) (by simpa using h1)
  have h3 : Lexed Spelled (0 + (l.length + 1)) a _ := lexed_shift ha (l.length + 1)
  have h4 := lexed_append h3 (b := [] ++ [')'] ++ r) (by simpa using h2) (by
    intro c _ d hd hh
    simp only [List.nil_append, List.singleton_append, List.head?_cons, Option.mem_def, Option.some.injEq] at hd
    exact hnw d (.inr hd.symm) hh.2)
  have h5 := Lexed.sym (means := Spelled) (k := l.length) (w := []) (c := '(') (by simp) (by simp [OpChar]) (by simpa using h4)
  have h6 := lexed_append hl (by simpa using h5) (by
    intro c _ d hd hh
    simp only [List.head?_cons, Option.mem_def, Option.some.injEq] at hd
    exact hnw d (.inl hd.symm) hh.2)
  refine ⟨_, by simpa using h6, ?_⟩
  simp only [mapPieces, List.map_append, List.map_cons, List.map_map]
  rfl

end Tom
