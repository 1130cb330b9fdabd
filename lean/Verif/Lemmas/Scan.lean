import Verif.Lemmas.Shunt
/-
What the conversion and the tree builder do with an arbitrary token list: outcomes, positions, no token lost.
-/
namespace Tom
variable {α : Type} [Dbl α]

/-- the tokens the lexer produces -/
def GoodTok (t : Token α) : Prop :=
  (∃ v, t.node = mkNum v) ∨ (∃ x, t.node = varNode x) ∨ ∃ op, op ≠ .null ∧ t.node = opNode op

/-- is it this parenthesis? -/
def isOp (op : MathOp) (t : Token α) : Bool := t.node.isOperator && decide (t.node.op = op)

/-- neither parenthesis -/
def notParen (t : Token α) : Bool := !isOp .lparen t && !isOp .rparen t

/-- outcome of the parenthesis bookkeeping: `d` are the columns of the open parentheses, innermost first -/
def scan : List (Token α) → Nat → List Nat → Res Unit
  | [], _, [] => .ok ()
  | [], _, p :: _ => .throw (.singleParse p)
  | t :: ts, B, d =>
    if isOp .lparen t then scan ts (B + 1) (t.pos :: d)
    else if isOp .rparen t then
      if B = 0 then .throw (.singleParse t.pos)
      else
        match d with
        | [] => .ub
        | _ :: d => scan ts B d
    else scan ts B d

/-- stack elements -/
def StkTok (t : Token α) : Prop := ∃ op, op ≠ .null ∧ op ≠ .rparen ∧ t.node = opNode op

theorem StkTok.isOperator {t : Token α} (h : StkTok t) : t.node.isOperator = true := by
  obtain ⟨op, _, _, h⟩ := h; rw [h]; rfl

theorem StkTok.isLparen {t : Token α} (h : StkTok t) : isOp .lparen t = decide (t.node.op = .lparen) := by
  simp [isOp, h.isOperator]

/-- columns of the open parentheses on the stack -/
def opens (S : List (Token α)) : List Nat := (S.filter (isOp .lparen)).map Token.pos

theorem opens_append_of_not {S1 S2 : List (Token α)} (h : ∀ t ∈ S1, isOp .lparen t = false) : opens (S1 ++ S2) = opens S2 := by
  unfold opens
  rw [List.filter_append, List.filter_eq_nil_iff.mpr (by intro t ht; simp [h t ht])]
  rfl

theorem popRank_split (f : MathOp) (hf : isPlain f = true) (hn : f ≠ .null) (S O : List (Token α)) :
    ∃ S1 S2, S = S1 ++ S2 ∧ popRank f S O = (S2, O ++ S1) ∧ ∀ t ∈ S1, t.node.op ≠ .lparen := by
  induction S generalizing O with
  | nil => exact ⟨[], [], rfl, by simp [popRank], by simp⟩
  | cons t S ih =>
    simp only [popRank]
    by_cases hc : (if isLeft2Right f then rank f ≤ rank t.node.op else rank f < rank t.node.op)
    · rw [if_pos hc]
      obtain ⟨S1, S2, rfl, h2, h3⟩ := ih (O ++ [t])
      refine ⟨t :: S1, S2, rfl, by rw [h2]; simp, ?_⟩
      intro u hu
      rcases List.mem_cons.mp hu with rfl | hu
      · intro hl
        rw [hl] at hc
        cases f <;> simp_all [isPlain, isLeft2Right, rank]
      · exact h3 u hu
    · rw [if_neg hc]
      exact ⟨[], t :: S, rfl, by simp, by simp⟩

theorem popFunction_split (S O : List (Token α)) :
    ∃ S1 S2, S = S1 ++ S2 ∧ popFunction S O = (S2, O ++ S1) ∧ ∀ t ∈ S1, t.node.op ≠ .lparen := by
  cases S with
  | nil => exact ⟨[], [], rfl, by simp [popFunction], by simp⟩
  | cons t S =>
    simp only [popFunction]
    split
    · rename_i h
      refine ⟨[t], S, rfl, rfl, ?_⟩
      intro u hu hl
      simp at hu; subst hu
      rw [hl] at h; simp [isFunction] at h
    · exact ⟨[], t :: S, rfl, by simp, by simp⟩

theorem popSigns_split (S O : List (Token α)) :
    ∃ S1 S2, S = S1 ++ S2 ∧ popSigns S O = (S2, O ++ S1) ∧ ∀ t ∈ S1, t.node.op ≠ .lparen := by
  induction S generalizing O with
  | nil => exact ⟨[], [], rfl, by simp [popSigns], by simp⟩
  | cons t S ih =>
    simp only [popSigns]
    split
    · rename_i hc
      obtain ⟨S1, S2, rfl, h2, h3⟩ := ih (O ++ [t])
      refine ⟨t :: S1, S2, rfl, by rw [h2]; simp, ?_⟩
      intro u hu
      rcases List.mem_cons.mp hu with rfl | hu
      · intro hl
        rw [hl] at hc; simp at hc
      · exact h3 u hu
    · exact ⟨[], t :: S, rfl, by simp, by simp⟩

theorem popToParen_cases (S O : List (Token α)) :
    ((∀ t ∈ S, t.node.op ≠ .lparen) ∧ popToParen S O = .ub) ∨
    ∃ S1 p S2, S = S1 ++ p :: S2 ∧ p.node.op = .lparen ∧ (∀ t ∈ S1, t.node.op ≠ .lparen) ∧
      popToParen S O = .ok (S2, O ++ S1) := by
  induction S generalizing O with
  | nil => exact .inl ⟨by simp, rfl⟩
  | cons t S ih =>
    by_cases ht : t.node.op = .lparen
    · exact .inr ⟨[], t, S, rfl, ht, by simp, by simp [popToParen, ht]⟩
    · simp only [popToParen, ht, if_false]
      rcases ih (O ++ [t]) with ⟨h1, h2⟩ | ⟨S1, p, S2, rfl, hp, h1, h2⟩
      · left
        refine ⟨?_, h2⟩
        intro u hu
        rcases List.mem_cons.mp hu with rfl | hu
        · exact ht
        · exact h1 u hu
      · right
        refine ⟨t :: S1, p, S2, rfl, hp, ?_, by rw [h2]; simp⟩
        intro u hu
        rcases List.mem_cons.mp hu with rfl | hu
        · exact ht
        · exact h1 u hu

theorem flushStack_cases (S O : List (Token α)) :
    ((∀ t ∈ S, t.node.op ≠ .lparen) ∧ flushStack S O = .ok (O ++ S)) ∨
    ∃ S1 p S2, S = S1 ++ p :: S2 ∧ p.node.op = .lparen ∧ (∀ t ∈ S1, t.node.op ≠ .lparen) ∧
      flushStack S O = .throw (.singleParse p.pos) := by
  induction S generalizing O with
  | nil => exact .inl ⟨by simp, by simp [flushStack]⟩
  | cons t S ih =>
    by_cases ht : t.node.op = .lparen
    · exact .inr ⟨[], t, S, rfl, ht, by simp, by simp [flushStack, ht]⟩
    · simp only [flushStack, ht, if_false]
      rcases ih (O ++ [t]) with ⟨h1, h2⟩ | ⟨S1, p, S2, rfl, hp, h1, h2⟩
      · left
        refine ⟨?_, by rw [h2]; simp⟩
        intro u hu
        rcases List.mem_cons.mp hu with rfl | hu
        · exact ht
        · exact h1 u hu
      · right
        refine ⟨t :: S1, p, S2, rfl, hp, ?_, h2⟩
        intro u hu
        rcases List.mem_cons.mp hu with rfl | hu
        · exact ht
        · exact h1 u hu

/-- the non-parenthesis elements -/
def plain (l : List (Token α)) : List (Token α) := l.filter notParen

theorem plain_append (a b : List (Token α)) : plain (a ++ b) = plain a ++ plain b := List.filter_append ..

theorem plain_of_stk {S : List (Token α)} (hS : ∀ t ∈ S, StkTok t) (h : ∀ t ∈ S, t.node.op ≠ .lparen) : plain S = S := by
  unfold plain
  rw [List.filter_eq_self]
  intro t ht
  obtain ⟨op, _, h2, h3⟩ := hS t ht
  have := h t ht
  simp only [notParen, isOp, h3, opNode, Raw.isOperator, Raw.op, Bool.true_and, Bool.and_eq_true, Bool.not_eq_true',
    decide_eq_false_iff_not]
  rw [h3] at this
  exact ⟨this, h2⟩

theorem not_lparen {S : List (Token α)} (h : ∀ t ∈ S, t.node.op ≠ .lparen) : ∀ t ∈ S, isOp .lparen t = false := by
  intro t ht; simp [isOp, h t ht]

/-- a token whose node is no parenthesis -/
theorem notParen_iff_op (t : Token α) (op : MathOp) (h : t.node = opNode op) :
    notParen t = true ↔ op ≠ .lparen ∧ op ≠ .rparen := by
  simp [notParen, isOp, h, opNode, Raw.isOperator, Raw.op]

theorem perm_helper {β : Type} (O A B C : List β) : (O ++ A ++ B ++ C).Perm (O ++ (A ++ B) ++ C) := by simp

/-- The conversion: outcome by parentheses alone; the output is a rearrangement of the tokens that are no parentheses. -/
theorem shunt_scan (toks : List (Token α)) : ∀ (B : Nat) (S O : List (Token α)), (∀ t ∈ toks, GoodTok t) → (∀ t ∈ S, StkTok t) →
    match scan toks B (opens S) with
    | .ok _ => ∃ out, shunt toks B S O = .ok out ∧ out.Perm (O ++ plain S ++ plain toks)
    | .throw e => shunt toks B S O = .throw e
    | .ub => shunt toks B S O = .ub
    | _ => False := by
  induction toks with
  | nil =>
    intro B S O _ hS
    rcases flushStack_cases S O with ⟨h1, h2⟩ | ⟨S1, p, S2, rfl, hp, h1, h2⟩
    · have ho : opens S = [] := by
        have := opens_append_of_not (S2 := []) (not_lparen h1)
        simpa [opens] using this
      rw [ho]
      refine ⟨O ++ S, by simp [shunt, h2], ?_⟩
      rw [plain_of_stk hS h1]
      simp [plain]
    · have hp' : isOp .lparen p = true := by rw [(hS p (by simp)).isLparen]; simp [hp]
      have ho : opens (S1 ++ p :: S2) = p.pos :: opens S2 := by
        rw [opens_append_of_not (not_lparen h1)]
        simp [opens, hp']
      rw [ho]
      simp only [scan]
      simp [shunt, h2]
  | cons f toks ih =>
    intro B S O hT hS
    have hT' : ∀ t ∈ toks, GoodTok t := fun t ht => hT t (by simp [ht])
    have hleaf : ∀ (hs : shunt (f :: toks) B S O = shunt toks B S (O ++ [f])) (h1 : isOp .lparen f = false)
        (h2 : isOp .rparen f = false), match scan (f :: toks) B (opens S) with
          | .ok _ => ∃ out, shunt (f :: toks) B S O = .ok out ∧ out.Perm (O ++ plain S ++ plain (f :: toks))
          | .throw e => shunt (f :: toks) B S O = .throw e
          | .ub => shunt (f :: toks) B S O = .ub
          | _ => False := by
      intro hs h1 h2
      rw [hs]
      simp only [scan, h1, h2, Bool.false_eq_true, if_false]
      have := ih B S (O ++ [f]) hT' hS
      revert this
      cases scan toks B (opens S) with
      | ok _ =>
        rintro ⟨out, ho, hp⟩
        refine ⟨out, ho, hp.trans ?_⟩
        have : plain (f :: toks) = f :: plain toks := by simp [plain, notParen, h1, h2]
        rw [this]
        simp only [List.append_assoc, List.singleton_append]
        exact List.Perm.append_left O List.perm_middle.symm
      | throw e => exact id
      | ub => exact id
      | terminate => exact id
      | assertFail => exact id
      | diverge => exact id
    rcases hT f (by simp) with ⟨v, hf⟩ | ⟨x, hf⟩ | ⟨op, hop, hf⟩
    · exact hleaf (shunt_num f v hf toks B S O) (by simp [isOp, hf, mkNum, Raw.isOperator]) (by simp [isOp, hf, mkNum, Raw.isOperator])
    · exact hleaf (shunt_var f x hf toks B S O) (by simp [isOp, hf, varNode, Raw.isOperator]) (by simp [isOp, hf, varNode, Raw.isOperator])
    · have hisOp : ∀ o, isOp o f = decide (op = o) := by
        intro o; simp [isOp, hf, opNode, Raw.isOperator, Raw.op]
      -- pushing `f` after moving `S1` from the stack to the output
      have hpush : ∀ S1 S2, S = S1 ++ S2 → (∀ t ∈ S1, t.node.op ≠ .lparen) → op ≠ .lparen → op ≠ .rparen →
          shunt (f :: toks) B S O = shunt toks B (f :: S2) (O ++ S1) →
          match scan (f :: toks) B (opens S) with
          | .ok _ => ∃ out, shunt (f :: toks) B S O = .ok out ∧ out.Perm (O ++ plain S ++ plain (f :: toks))
          | .throw e => shunt (f :: toks) B S O = .throw e
          | .ub => shunt (f :: toks) B S O = .ub
          | _ => False := by
        rintro S1 S2 rfl h1 hl hr hs
        rw [hs]
        have hpf : notParen f = true := (notParen_iff_op f op hf).mpr ⟨hl, hr⟩
        simp only [scan, hisOp, hl, hr, decide_false, Bool.false_eq_true, if_false]
        have hS2 : ∀ t ∈ f :: S2, StkTok t := by
          intro t ht
          rcases List.mem_cons.mp ht with rfl | ht
          · exact ⟨op, hop, hr, hf⟩
          · exact hS t (by simp [ht])
        have hopen : opens (f :: S2) = opens (S1 ++ S2) := by
          rw [opens_append_of_not (not_lparen h1)]
          simp [opens, hisOp, hl]
        have := ih B (f :: S2) (O ++ S1) hT' hS2
        rw [hopen] at this
        revert this
        cases scan toks B (opens (S1 ++ S2)) with
        | ok _ =>
          rintro ⟨out, ho, hp⟩
          refine ⟨out, ho, hp.trans ?_⟩
          have e1 : plain (f :: S2) = f :: plain S2 := by simp [plain, hpf]
          have e2 : plain (f :: toks) = f :: plain toks := by simp [plain, hpf]
          have e3 : plain S1 = S1 := plain_of_stk (fun t ht => hS t (by simp [ht])) h1
          rw [e1, e2, plain_append, e3]
          simp only [List.append_assoc, List.cons_append]
          exact List.Perm.append_left O (List.Perm.append_left S1 List.perm_middle.symm)
        | throw e => exact id
        | ub => exact id
        | terminate => exact id
        | assertFail => exact id
        | diverge => exact id
      by_cases hl : op = .lparen
      · subst hl
        rw [shunt_lparen f hf]
        simp only [scan, hisOp, decide_true, if_true]
        have hS2 : ∀ t ∈ f :: S, StkTok t := by
          intro t ht
          rcases List.mem_cons.mp ht with rfl | ht
          · exact ⟨.lparen, by decide, by decide, hf⟩
          · exact hS t ht
        have hopen : opens (f :: S) = f.pos :: opens S := by simp [opens, hisOp]
        have := ih (B + 1) (f :: S) O hT' hS2
        rw [hopen] at this
        have e1 : plain (f :: S) = plain S := by simp [plain, notParen, hisOp]
        have e2 : plain (f :: toks) = plain toks := by simp [plain, notParen, hisOp]
        rw [e1] at this
        rw [e2]
        exact this
      · by_cases hr : op = .rparen
        · subst hr
          simp only [scan, hisOp, decide_true, if_true, reduceCtorEq, decide_false, Bool.false_eq_true, if_false]
          cases B with
          | zero =>
            simp only [if_true]
            rw [shunt.eq_def]; simp only [hf, opNode]; simp
          | succ B =>
            rw [shunt_rparen f hf]
            rw [if_neg (by omega)]
            rcases popToParen_cases S O with ⟨h1, h2⟩ | ⟨S1, p, S2, rfl, hp, h1, h2⟩
            · have ho : opens S = [] := by
                have := opens_append_of_not (S2 := []) (not_lparen h1)
                simpa [opens] using this
              rw [ho, h2]
              rfl
            · have hp' : isOp .lparen p = true := by rw [(hS p (by simp)).isLparen]; simp [hp]
              have ho : opens (S1 ++ p :: S2) = p.pos :: opens S2 := by
                rw [opens_append_of_not (not_lparen h1)]
                simp [opens, hp']
              rw [ho, h2]
              simp only [Res.bind_ok]
              obtain ⟨F1, F2, rfl, hF, hFl⟩ := popFunction_split S2 (O ++ S1)
              obtain ⟨G1, G2, rfl, hG, hGl⟩ := popSigns_split F2 (O ++ S1 ++ F1)
              rw [hF, hG]
              have hGs : ∀ t ∈ G2, StkTok t := fun t ht => hS t (by simp [ht])
              have := ih (B + 1) G2 (O ++ S1 ++ F1 ++ G1) hT' hGs
              have hopen : opens (F1 ++ (G1 ++ G2)) = opens G2 := by
                rw [opens_append_of_not (not_lparen hFl), opens_append_of_not (not_lparen hGl)]
              rw [hopen]
              revert this
              cases scan toks (B + 1) (opens G2) with
              | ok _ =>
                rintro ⟨out, ho, hperm⟩
                refine ⟨out, ho, hperm.trans ?_⟩
                have e2 : plain (f :: toks) = plain toks := by simp [plain, notParen, hisOp]
                have e3 : plain S1 = S1 := plain_of_stk (fun t ht => hS t (by simp [ht])) h1
                have e4 : plain F1 = F1 := plain_of_stk (fun t ht => hS t (by simp [ht])) hFl
                have e5 : plain G1 = G1 := plain_of_stk (fun t ht => hS t (by simp [ht])) hGl
                have e6 : plain (p :: (F1 ++ (G1 ++ G2))) = plain (F1 ++ (G1 ++ G2)) := by simp [plain, notParen, hp']
                rw [e2, plain_append, e6, plain_append, plain_append, e3, e4, e5]
                simp
              | throw e => exact id
              | ub => exact id
              | terminate => exact id
              | assertFail => exact id
              | diverge => exact id
        · by_cases hs : op = .positive ∨ op = .negative
          · exact hpush [] S rfl (by simp) hl hr (by simpa using shunt_sign f op hs hf toks B S O)
          · have hpl : isPlain op = true := by
              cases op <;> simp_all [isPlain]
            obtain ⟨S1, S2, h1, h2, h3⟩ := popRank_split op hpl hop S O
            exact hpush S1 S2 h1 h3 hl hr (by rw [shunt_plain f op hpl hf, h2])

/-- What the tree builder can meet: leaves and operators with operands. -/
def BuildTok (t : Token α) : Prop :=
  (∃ v, t.node = mkNum v) ∨ (∃ x, t.node = varNode x) ∨ (∃ o : UnOp, t.node = opNode o.toMathOp) ∨
    ∃ o : BinOp, t.node = opNode o.toMathOp

theorem buildTok_of_good {t : Token α} (h : GoodTok t) (hp : notParen t = true) : BuildTok t := by
  rcases h with h | h | ⟨op, hop, h⟩
  · exact .inl h
  · exact .inr (.inl h)
  · have := (notParen_iff_op t op h).mp hp
    right; right
    cases op
    case null => exact absurd rfl hop
    case lparen => exact absurd rfl this.1
    case rparen => exact absurd rfl this.2
    case positive => exact .inl ⟨.pos, h⟩
    case negative => exact .inl ⟨.neg, h⟩
    case sin => exact .inl ⟨.sin, h⟩
    case cos => exact .inl ⟨.cos, h⟩
    case tan => exact .inl ⟨.tan, h⟩
    case arcsin => exact .inl ⟨.asin, h⟩
    case arccos => exact .inl ⟨.acos, h⟩
    case arctan => exact .inl ⟨.atan, h⟩
    case sqrt => exact .inl ⟨.sqrt, h⟩
    case log => exact .inl ⟨.log, h⟩
    case log2 => exact .inl ⟨.log2, h⟩
    case log10 => exact .inl ⟨.log10, h⟩
    case exp => exact .inl ⟨.exp, h⟩
    case add => exact .inr ⟨.add, h⟩
    case sub => exact .inr ⟨.sub, h⟩
    case mul => exact .inr ⟨.mul, h⟩
    case div => exact .inr ⟨.div, h⟩
    case pow => exact .inr ⟨.pow, h⟩
    case and => exact .inr ⟨.and, h⟩
    case or => exact .inr ⟨.or, h⟩
    case mod => exact .inr ⟨.mod, h⟩

/-- a complete subtree on the builder's stack -/
def TreeTok (t : Token α) (e : Expr α) : Prop := t.node = embed e

/-- postfix nodes of the trees on the stack, bottom to top -/
def posts (es : List (Expr α)) : List (Raw α) := (es.reverse.map post).flatten

theorem posts_cons (e : Expr α) (es : List (Expr α)) : posts (e :: es) = posts es ++ post e := by simp [posts]

/-- The builder either throws `WRONG_EXPRESSION` or leaves complete trees made of exactly its input. -/
theorem buildLoop_cases (toks : List (Token α)) : ∀ (stk : List (Token α)) (es : List (Expr α)), (∀ t ∈ toks, BuildTok t) →
    stk.map Token.node = es.map embed →
    buildLoop toks stk = .throw (.math .wrongExpression) ∨
    ∃ stk' es', buildLoop toks stk = .ok stk' ∧ stk'.map Token.node = es'.map embed ∧
      posts es' = posts es ++ toks.map Token.node ∧ (∀ p ∈ stk'.map Token.pos, p ∈ stk.map Token.pos ∨ p ∈ toks.map Token.pos) ∧
      (stk ≠ [] ∨ toks ≠ [] → stk' ≠ []) := by
  induction toks with
  | nil =>
    intro stk es _ h
    exact .inr ⟨stk, es, rfl, h, by simp, by simp, by simp⟩
  | cons t toks ih =>
    intro stk es hT h
    have hT' : ∀ t ∈ toks, BuildTok t := fun t ht => hT t (by simp [ht])
    obtain ⟨n, p⟩ := t
    have key : ∀ (stk2 : List (Token α)) (es2 : List (Expr α)),
        buildLoop (⟨n, p⟩ :: toks) stk = buildLoop toks stk2 → stk2.map Token.node = es2.map embed →
        posts es2 = posts es ++ [n] → (∀ q ∈ stk2.map Token.pos, q ∈ stk.map Token.pos ∨ q = p) → stk2 ≠ [] →
        buildLoop (⟨n, p⟩ :: toks) stk = .throw (.math .wrongExpression) ∨
        ∃ stk' es', buildLoop (⟨n, p⟩ :: toks) stk = .ok stk' ∧ stk'.map Token.node = es'.map embed ∧
          posts es' = posts es ++ (⟨n, p⟩ :: toks).map Token.node ∧
          (∀ q ∈ stk'.map Token.pos, q ∈ stk.map Token.pos ∨ q ∈ ((⟨n, p⟩ : Token α) :: toks).map Token.pos) ∧
          (stk ≠ [] ∨ (⟨n, p⟩ : Token α) :: toks ≠ [] → stk' ≠ []) := by
      intro stk2 es2 hb h2 hp hq hne
      rw [hb]
      rcases ih stk2 es2 hT' h2 with h | ⟨stk', es', k1, k2, k3, k4, k5⟩
      · exact .inl h
      · refine .inr ⟨stk', es', k1, k2, by rw [k3, hp]; simp, ?_, fun _ => k5 (.inl hne)⟩
        intro q hqm
        rcases k4 q hqm with hh | hh
        · rcases hq q hh with hh | rfl
          · exact .inl hh
          · right; simp
        · right; simp only [List.map_cons, List.mem_cons]; exact .inr hh
    rcases hT ⟨n, p⟩ (by simp) with ⟨v, hn⟩ | ⟨x, hn⟩ | ⟨o, hn⟩ | ⟨o, hn⟩ <;> simp only at hn <;> subst hn
    · exact key (⟨mkNum v, p⟩ :: stk) (.num v :: es) rfl (by simp [h, embed, mkNum]) (by simp [posts_cons, post])
        (by simp only [List.map_cons, List.mem_cons]; intro q hq; rcases hq with h | h; exact .inr h; exact .inl h) (by simp)
    · exact key (⟨varNode x, p⟩ :: stk) (.var x :: es) rfl (by simp [h, embed, varNode]) (by simp [posts_cons, post])
        (by simp only [List.map_cons, List.mem_cons]; intro q hq; rcases hq with h | h; exact .inr h; exact .inl h) (by simp)
    · cases stk with
      | nil => left; cases o <;> rfl
      | cons l stk =>
        cases es with
        | nil => simp at h
        | cons a es =>
          simp only [List.map_cons, List.cons.injEq] at h
          refine key (⟨embed (.un o a), p⟩ :: stk) (.un o a :: es) ?_ (by simp [h]) ?_ ?_ (by simp)
          · cases l with
            | mk ln lp => simp only at h; cases o <;> simp [buildLoop, opNode, UnOp.toMathOp, operatorNum, embed, h.1, Raw.setLeft]
          · simp [posts_cons, post]
          · simp only [List.map_cons, List.mem_cons]; intro q hq; rcases hq with h | h; exact .inr h; exact .inl (.inr h)
    · cases stk with
      | nil => left; cases o <;> rfl
      | cons r stk =>
        cases stk with
        | nil => left; cases o <;> rfl
        | cons l stk =>
          cases es with
          | nil => simp at h
          | cons b es =>
          cases es with
          | nil => simp at h
          | cons a es =>
            simp only [List.map_cons, List.cons.injEq] at h
            refine key (⟨embed (.bin o a b), p⟩ :: stk) (.bin o a b :: es) ?_ (by simp [h]) ?_ ?_ (by simp)
            · cases l with
              | mk ln lp => cases r with
                | mk rn rp => simp only at h; cases o <;> simp [buildLoop, opNode, BinOp.toMathOp, operatorNum, embed, h.1, h.2.1, Raw.setLeft, Raw.setRight]
            · simp [posts_cons, post]
            · simp only [List.map_cons, List.mem_cons]; intro q hq; rcases hq with h | h; exact .inr h; exact .inl (.inr (.inr h))

end Tom
