import Verif.Lemmas.Words
/-
The shunting-yard conversion and the tree builder implement the grammar.
-/
namespace Tom
variable {α : Type} [Dbl α]

/-- a childless operator node -/
def opNode (op : MathOp) : Raw α := .mk .operator op (Dbl.ofInt 0) [] .nil .nil

/-- postfix sequence of nodes of an expression -/
def post : Expr α → List (Raw α)
  | .num v => [mkNum v]
  | .var x => [varNode x]
  | .un o e => post e ++ [opNode o.toMathOp]
  | .bin o a b => post a ++ post b ++ [opNode o.toMathOp]

/-- operators of the "default" branch of the conversion -/
def isPlain : MathOp → Bool
  | .lparen | .rparen | .positive | .negative => false
  | _ => true

theorem shunt_num (f : Token α) (v : α) (h : f.node = mkNum v) (rest : List (Token α)) (B : Nat) (S O : List (Token α)) :
    shunt (f :: rest) B S O = shunt rest B S (O ++ [f]) := by
  rw [shunt.eq_def]; simp only [h, mkNum]

theorem shunt_var (f : Token α) (x : Str) (h : f.node = varNode x) (rest : List (Token α)) (B : Nat) (S O : List (Token α)) :
    shunt (f :: rest) B S O = shunt rest B S (O ++ [f]) := by
  rw [shunt.eq_def]; simp only [h, varNode]

theorem shunt_lparen (f : Token α) (h : f.node = opNode .lparen) (rest : List (Token α)) (B : Nat) (S O : List (Token α)) :
    shunt (f :: rest) B S O = shunt rest (B + 1) (f :: S) O := by
  rw [shunt.eq_def]; simp only [h, opNode]

theorem shunt_sign (f : Token α) (op : MathOp) (hop : op = .positive ∨ op = .negative) (h : f.node = opNode op)
    (rest : List (Token α)) (B : Nat) (S O : List (Token α)) :
    shunt (f :: rest) B S O = shunt rest B (f :: S) O := by
  rw [shunt.eq_def]; rcases hop with rfl | rfl <;> simp only [h, opNode]

theorem shunt_plain (f : Token α) (op : MathOp) (hop : isPlain op = true) (h : f.node = opNode op)
    (rest : List (Token α)) (B : Nat) (S O : List (Token α)) :
    shunt (f :: rest) B S O = shunt rest B (f :: (popRank op S O).1) (popRank op S O).2 := by
  rw [shunt.eq_def]
  cases op <;> first | (simp [isPlain] at hop; done) | simp only [h, opNode]

theorem shunt_rparen (f : Token α) (h : f.node = opNode .rparen) (rest : List (Token α)) (B : Nat) (S O : List (Token α)) :
    shunt (f :: rest) (B + 1) S O = (popToParen S O >>= fun p =>
      shunt rest (B + 1) (popSigns (popFunction p.1 p.2).1 (popFunction p.1 p.2).2).1
        (popSigns (popFunction p.1 p.2).1 (popFunction p.1 p.2).2).2) := by
  rw [shunt.eq_def]; simp only [h, opNode]
  rw [if_neg (by omega)]

/-- the comparison of `popRank` -/
def squeezes (f g : MathOp) : Bool := if isLeft2Right f then decide (rank f ≤ rank g) else decide (rank f < rank g)

theorem popRank_append (f : MathOp) (R S O : List (Token α)) (hR : ∀ t ∈ R, squeezes f t.node.op = true)
    (hS : ∀ t ∈ S.head?, squeezes f t.node.op = false) : popRank f (R ++ S) O = (S, O ++ R) := by
  induction R generalizing O with
  | nil =>
    cases S with
    | nil => simp [popRank]
    | cons t S =>
      have := hS t (by simp)
      simp only [squeezes] at this
      simp only [List.nil_append, popRank, List.append_nil]
      rw [if_neg]
      split at this <;> simp_all
  | cons t R ih =>
    have ht := hR t (by simp)
    simp only [squeezes] at ht
    simp only [List.cons_append, popRank]
    rw [if_pos, ih _ (fun t h => hR t (by simp [h]))]
    · simp
    · split at ht <;> simp_all

theorem popToParen_append (R S O : List (Token α)) (p : Token α) (hR : ∀ t ∈ R, t.node.op ≠ .lparen)
    (hp : p.node.op = .lparen) : popToParen (R ++ p :: S) O = .ok (S, O ++ R) := by
  induction R generalizing O with
  | nil => simp [popToParen, hp]
  | cons t R ih =>
    have ht := hR t (by simp)
    simp only [List.cons_append, popToParen, ht, if_false]
    rw [ih _ (fun t h => hR t (by simp [h]))]
    simp

/-- What may follow a complete expression: nothing, a binary operator or a closing parenthesis. -/
def Next (rest : List (Token α)) : Prop :=
  rest = [] ∨ ∃ f rest', rest = f :: rest' ∧ (f.node = opNode .rparen ∨ ∃ o : BinOp, f.node = opNode o.toMathOp)

theorem binop_plain (o : BinOp) : isPlain o.toMathOp = true := by cases o <;> rfl

theorem binop_squeezes_sign (o : BinOp) (g : MathOp) (h : g = .positive ∨ g = .negative) :
    squeezes o.toMathOp g = true := by
  rcases h with rfl | rfl <;> cases o <;> rfl

/-- A sign on top of the stack is popped by whatever follows a complete expression. -/
theorem shunt_popSign (t : Token α) (ht : t.node.op = .positive ∨ t.node.op = .negative) {rest : List (Token α)} (hn : Next rest)
    (B : Nat) (S O : List (Token α)) : shunt rest B (t :: S) O = shunt rest B S (O ++ [t]) := by
  have hl : t.node.op ≠ .lparen := by rcases ht with h | h <;> simp [h]
  rcases hn with rfl | ⟨f, rest', rfl, hf | ⟨o, hf⟩⟩
  · simp [shunt, flushStack, hl]
  · cases B with
    | zero =>
      rw [shunt.eq_def, shunt.eq_def]; simp only [hf, opNode]; simp
    | succ B =>
      rw [shunt_rparen f hf, shunt_rparen f hf]
      simp only [popToParen, hl, if_false]
  · rw [shunt_plain f _ (binop_plain o) hf, shunt_plain f _ (binop_plain o) hf]
    have : popRank o.toMathOp (t :: S) O = popRank o.toMathOp S (O ++ [t]) := by
      have hs := binop_squeezes_sign o _ ht
      simp only [squeezes] at hs
      simp only [popRank]
      rw [if_pos]
      split at hs <;> simp_all
    rw [this]

/-- Popping the signs on top of the stack early makes no difference then. -/
theorem shunt_popSigns {rest : List (Token α)} (hn : Next rest) (B : Nat) (S O : List (Token α)) :
    shunt rest B (popSigns S O).1 (popSigns S O).2 = shunt rest B S O := by
  induction S generalizing O with
  | nil => rfl
  | cons t S ih =>
    simp only [popSigns]
    split
    · rename_i ht
      rw [ih, shunt_popSign t ht hn]
    · rfl

/-- The context in which an expression of level `p` may stand. -/
def Block (S : List (Token α)) (p : Nat) : Prop :=
  ∀ t ∈ S.head?, t.node.op = .lparen ∨ rank t.node.op < p ∨ (rank t.node.op = p ∧ (p = 11 ∨ p = 14))

theorem Block.mono {S : List (Token α)} {p : Nat} (h : Block S p) : Block S (p + 1) := by
  intro t ht
  rcases h t ht with h | h | h
  · exact .inl h
  · exact .inr (.inl (by omega))
  · exact .inr (.inl (by omega))

/-- the plain tokens, without positions -/
def markNodes : Bool → List (Tok α) → List (Raw α)
  | _, [] => []
  | u, t :: ts => tokNode t u :: markNodes (signAfter t) ts

/-- the sign flag after a token sequence -/
def endFlag : Bool → List (Tok α) → Bool
  | u, [] => u
  | _, t :: ts => endFlag (signAfter t) ts

theorem markNodes_append (u : Bool) (a b : List (Tok α)) :
    markNodes u (a ++ b) = markNodes u a ++ markNodes (endFlag u a) b := by
  induction a generalizing u with
  | nil => rfl
  | cons t a ih => simp [markNodes, endFlag, ih]

theorem endFlag_append (u : Bool) (a b : List (Tok α)) : endFlag u (a ++ b) = endFlag (endFlag u a) b := by
  induction a generalizing u with
  | nil => rfl
  | cons t a ih => simp [endFlag, ih]

theorem gram_endFlag {p : Nat} {ts : List (Tok α)} {e : Expr α} (h : Gram p ts e) (u : Bool) : endFlag u ts = false := by
  induction h generalizing u with
  | num v => rfl
  | var x => rfl
  | paren _ ih => rw [endFlag_append]; rfl
  | call _ _ ih => rw [endFlag_append]; rfl
  | sign _ _ ih => rw [endFlag_append]; exact ih _
  | left _ _ _ _ _ ih => rw [endFlag_append]; exact ih _
  | right _ _ _ ih => rw [endFlag_append]; exact ih _
  | lift _ ih => exact ih u

theorem binChar_op {c : Char} {p : Nat} {o : BinOp} (h : BinChar c p o) :
    baseOperatorCharToEnum c false = o.toMathOp ∧ rank o.toMathOp = p := by
  cases h <;> exact ⟨by decide, rfl⟩

theorem signChar_op {c : Char} {o : UnOp} (h : SignChar c o) :
    baseOperatorCharToEnum c true = o.toMathOp ∧ (o.toMathOp = .positive ∨ o.toMathOp = .negative) := by
  cases h
  · exact ⟨by decide, .inl rfl⟩
  · exact ⟨by decide, .inr rfl⟩

theorem fnName_op {s : Str} {f : UnOp} (h : FnName s f) :
    isFunction f.toMathOp = true ∧ isPlain f.toMathOp = true ∧ rank f.toMathOp = 15 ∧ isLeft2Right f.toMathOp = true := by
  cases h <;> exact ⟨rfl, rfl, rfl, rfl⟩

/-- The conversion of one expression of the grammar: its tokens are consumed, its postfix form is on the output (`P`) and on
the stack (`R`). -/
theorem shunt_gram {p : Nat} {ts : List (Tok α)} {e : Expr α} (h : Gram p ts e) :
    ∀ (toks rest : List (Token α)) (B : Nat) (S O : List (Token α)), toks.map Token.node = markNodes true ts →
      Block S p → Next rest →
      ∃ B' P R, shunt (toks ++ rest) B S O = shunt rest B' (R ++ S) (O ++ P) ∧ (P ++ R).map Token.node = post e ∧ B ≤ B' ∧
        ∀ t ∈ R, p ≤ rank t.node.op ∧ t.node.op ≠ .lparen := by
  induction h with
  | num v =>
    intro toks rest B S O hm hb hn
    simp only [markNodes, List.map_eq_cons_iff, List.map_eq_nil_iff] at hm
    obtain ⟨f, _, rfl, hf, rfl⟩ := hm
    exact ⟨B, [f], [], by simpa using shunt_num f v hf rest B S O, by simpa [post, tokNode] using hf, Nat.le_refl _, by simp⟩
  | var x =>
    intro toks rest B S O hm hb hn
    simp only [markNodes, List.map_eq_cons_iff, List.map_eq_nil_iff] at hm
    obtain ⟨f, _, rfl, hf, rfl⟩ := hm
    exact ⟨B, [f], [], by simpa using shunt_var f x hf rest B S O, by simpa [post, tokNode] using hf, Nat.le_refl _, by simp⟩
  | @paren ts e hg ih =>
    intro toks rest B S O hm hb hn
    rw [List.append_assoc, markNodes_append, markNodes_append, gram_endFlag hg] at hm
    obtain ⟨tl, t', rfl, hl, hm⟩ := List.map_eq_append_iff.mp hm
    obtain ⟨tm, tr, rfl, hmid, hr⟩ := List.map_eq_append_iff.mp hm
    simp only [markNodes, List.map_eq_cons_iff, List.map_eq_nil_iff] at hl hr
    obtain ⟨lp, _, rfl, hlp, rfl⟩ := hl
    obtain ⟨rp, _, rfl, hrp, rfl⟩ := hr
    have hlp' : lp.node = opNode .lparen := hlp
    have hrp' : rp.node = opNode .rparen := hrp
    have hb' : Block (lp :: S) 0 := by
      intro t ht; simp at ht; subst ht; left; rw [hlp']; rfl
    obtain ⟨B', P, R, h1, h2, h3, h4⟩ := ih tm (rp :: rest) (B + 1) (lp :: S) O hmid hb' (.inr ⟨rp, rest, rfl, .inl hrp'⟩)
    refine ⟨B', P ++ R, [], ?_, by simpa using h2, by omega, by simp⟩
    simp only [List.singleton_append, List.cons_append, List.append_assoc, List.nil_append]
    rw [shunt_lparen lp hlp', h1]
    obtain ⟨B'', rfl⟩ : ∃ b, B' = b + 1 := ⟨B' - 1, by omega⟩
    rw [shunt_rparen rp hrp', popToParen_append R S _ lp (fun t ht => (h4 t ht).2) (by rw [hlp']; rfl)]
    simp only [Res.bind_ok]
    have hpf : ∀ O' : List (Token α), popFunction S O' = (S, O') := by
      intro O'
      cases S with
      | nil => rfl
      | cons t S =>
        have := hb t (by simp)
        simp only [popFunction]
        rw [if_neg]
        intro hfn
        have h15 : rank t.node.op = 15 ∧ t.node.op ≠ .lparen := by
          revert hfn; cases t.node.op <;> simp [isFunction, rank]
        rcases this with h | h | h
        · exact h15.2 h
        · omega
        · omega
    rw [hpf, shunt_popSigns hn, List.append_assoc]
  | @call f s ts e hf hg ih =>
    intro toks rest B S O hm hb hn
    rw [List.append_assoc, markNodes_append, markNodes_append, gram_endFlag hg] at hm
    obtain ⟨tl, t', rfl, hl, hm⟩ := List.map_eq_append_iff.mp hm
    obtain ⟨tm, tr, rfl, hmid, hr⟩ := List.map_eq_append_iff.mp hm
    simp only [markNodes, List.map_eq_cons_iff, List.map_eq_nil_iff] at hl hr
    obtain ⟨fn, _, rfl, hfn, lp, _, rfl, hlp, rfl⟩ := hl
    obtain ⟨rp, _, rfl, hrp, rfl⟩ := hr
    have hfn' : fn.node = opNode f.toMathOp := hfn
    have hlp' : lp.node = opNode .lparen := hlp
    have hrp' : rp.node = opNode .rparen := hrp
    obtain ⟨hf1, hf2, hf3, hf4⟩ := fnName_op hf
    have hb' : Block (lp :: fn :: S) 0 := by
      intro t ht; simp at ht; subst ht; left; rw [hlp']; rfl
    obtain ⟨B', P, R, h1, h2, h3, h4⟩ := ih tm (rp :: rest) (B + 1) (lp :: fn :: S) O hmid hb' (.inr ⟨rp, rest, rfl, .inl hrp'⟩)
    refine ⟨B', P ++ R ++ [fn], [], ?_, ?_, by omega, by simp⟩
    · simp only [List.singleton_append, List.cons_append, List.append_assoc, List.nil_append]
      rw [shunt_plain fn _ hf2 hfn']
      have hpop : popRank f.toMathOp S O = (S, O) := by
        have := popRank_append f.toMathOp [] S O (by simp) (by
          intro t ht
          simp only [squeezes, hf4, if_true, hf3, decide_eq_false_iff_not]
          rcases hb t ht with h | h | h
          · rw [h]; decide
          · omega
          · omega)
        simpa using this
      rw [hpop, shunt_lparen lp hlp', h1]
      obtain ⟨B'', rfl⟩ : ∃ b, B' = b + 1 := ⟨B' - 1, by omega⟩
      rw [shunt_rparen rp hrp', popToParen_append R (fn :: S) _ lp (fun t ht => (h4 t ht).2) (by rw [hlp']; rfl)]
      simp only [Res.bind_ok]
      have hpf : ∀ O' : List (Token α), popFunction (fn :: S) O' = (S, O' ++ [fn]) := by
        intro O'
        simp only [popFunction, hfn', opNode, Raw.op, hf1, if_true]
      rw [hpf, shunt_popSigns hn]
      simp
    · rw [List.append_nil, List.map_append, h2]
      simp [post, hfn']
  | @sign c o ts e hc hg ih =>
    intro toks rest B S O hm hb hn
    rw [markNodes_append] at hm
    obtain ⟨tl, tm, rfl, hl, hmid⟩ := List.map_eq_append_iff.mp hm
    simp only [markNodes, List.map_eq_cons_iff, List.map_eq_nil_iff] at hl
    obtain ⟨sg, _, rfl, hsg, rfl⟩ := hl
    obtain ⟨hc1, hc2⟩ := signChar_op hc
    have hsg' : sg.node = opNode o.toMathOp := by rw [hsg]; simp [tokNode, opNode, hc1]
    have hfl : endFlag true [(Tok.sym c : Tok α)] = true := by cases hc <;> rfl
    rw [hfl] at hmid
    have hrk : rank sg.node.op = 14 := by rw [hsg']; rcases hc2 with h | h <;> simp [opNode, Raw.op, h, rank]
    have hb' : Block (sg :: S) 14 := by
      intro t ht; simp at ht; subst ht; right; right; exact ⟨hrk, .inr rfl⟩
    obtain ⟨B', P, R, h1, h2, h3, h4⟩ := ih tm rest B (sg :: S) O hmid hb' hn
    refine ⟨B', P, R ++ [sg], ?_, ?_, h3, ?_⟩
    · simp only [List.singleton_append, List.cons_append, List.nil_append]
      rw [shunt_sign sg _ hc2 hsg', h1]
      simp
    · rw [← List.append_assoc, List.map_append, h2]
      simp [post, hsg']
    · intro t ht
      rcases List.mem_append.mp ht with ht | ht
      · exact h4 t ht
      · simp at ht; subst ht
        refine ⟨by omega, ?_⟩
        rw [hsg']; rcases hc2 with h | h <;> simp [opNode, Raw.op, h]
  | @left c p o ts us a b hc hne hg1 hg2 ih1 ih2 =>
    intro toks rest B S O hm hb hn
    rw [List.append_assoc, markNodes_append, markNodes_append, gram_endFlag hg1] at hm
    obtain ⟨tl, t', rfl, hl, hm⟩ := List.map_eq_append_iff.mp hm
    obtain ⟨tm, tr, rfl, hmid, hr⟩ := List.map_eq_append_iff.mp hm
    simp only [markNodes, List.map_eq_cons_iff, List.map_eq_nil_iff] at hmid
    obtain ⟨op, _, rfl, hop, rfl⟩ := hmid
    obtain ⟨hc1, hc2⟩ := binChar_op hc
    have hop' : op.node = opNode o.toMathOp := by rw [hop]; simp [tokNode, opNode, hc1]
    have hfl : endFlag false [(Tok.sym c : Tok α)] = true := by cases hc <;> rfl
    rw [hfl] at hr
    have hl2r : isLeft2Right o.toMathOp = true := by cases o <;> first | rfl | exact absurd rfl hne
    have hp : p ≠ 11 ∧ p ≠ 14 ∧ 0 < p := by cases hc <;> first | (exact ⟨by omega, by omega, by omega⟩) | exact absurd rfl hne
    obtain ⟨B1, P1, R1, h1, h2, h3, h4⟩ := ih1 tl (op :: (tr ++ rest)) B S O hl hb (.inr ⟨op, _, rfl, .inr ⟨o, hop'⟩⟩)
    have hb' : Block (op :: S) (p + 1) := by
      intro t ht; simp at ht; subst ht; right; left; rw [hop']; simp only [opNode, Raw.op, hc2]; omega
    have hpop : popRank o.toMathOp (R1 ++ S) (O ++ P1) = (S, O ++ P1 ++ R1) := by
      apply popRank_append
      · intro t ht
        simp only [squeezes, hl2r, if_true, hc2, decide_eq_true_eq]
        exact (h4 t ht).1
      · intro t ht
        simp only [squeezes, hl2r, if_true, hc2, decide_eq_false_iff_not]
        rcases hb t ht with h | h | h
        · rw [h]; simp [rank]; omega
        · omega
        · omega
    obtain ⟨B2, P2, R2, k1, k2, k3, k4⟩ := ih2 tr rest B1 (op :: S) (O ++ P1 ++ R1) hr hb' hn
    refine ⟨B2, P1 ++ R1 ++ P2, R2 ++ [op], ?_, ?_, by omega, ?_⟩
    · simp only [List.append_assoc, List.singleton_append, List.cons_append, List.nil_append]
      rw [h1, shunt_plain op _ (binop_plain o) hop', hpop, k1]
      simp
    · rw [show P1 ++ R1 ++ P2 ++ (R2 ++ [op]) = (P1 ++ R1) ++ (P2 ++ R2) ++ [op] by simp, List.map_append, List.map_append,
        h2, k2]
      simp [post, hop']
    · intro t ht
      rcases List.mem_append.mp ht with ht | ht
      · exact ⟨by have := (k4 t ht).1; omega, (k4 t ht).2⟩
      · simp at ht; subst ht
        rw [hop']
        simp only [opNode, Raw.op, hc2]
        exact ⟨Nat.le_refl _, by cases o <;> decide⟩
  | @right ts us a b hg1 hg2 ih1 ih2 =>
    intro toks rest B S O hm hb hn
    rw [List.append_assoc, markNodes_append, markNodes_append, gram_endFlag hg1] at hm
    obtain ⟨tl, t', rfl, hl, hm⟩ := List.map_eq_append_iff.mp hm
    obtain ⟨tm, tr, rfl, hmid, hr⟩ := List.map_eq_append_iff.mp hm
    simp only [markNodes, List.map_eq_cons_iff, List.map_eq_nil_iff] at hmid
    obtain ⟨op, _, rfl, hop, rfl⟩ := hmid
    have hop' : op.node = opNode (BinOp.pow).toMathOp := hop
    have hfl : endFlag false [(Tok.sym '^' : Tok α)] = true := rfl
    rw [hfl] at hr
    have hb12 : Block S 12 := hb.mono
    obtain ⟨B1, P1, R1, h1, h2, h3, h4⟩ := ih1 tl (op :: (tr ++ rest)) B S O hl hb12 (.inr ⟨op, _, rfl, .inr ⟨.pow, hop'⟩⟩)
    have hb' : Block (op :: S) 11 := by
      intro t ht; simp at ht; subst ht; right; right; rw [hop']; exact ⟨rfl, .inl rfl⟩
    have hpop : popRank (BinOp.pow).toMathOp (R1 ++ S) (O ++ P1) = (S, O ++ P1 ++ R1) := by
      apply popRank_append
      · intro t ht
        have := (h4 t ht).1
        show decide (11 < rank t.node.op) = true
        simp only [decide_eq_true_eq]
        omega
      · intro t ht
        show decide (11 < rank t.node.op) = false
        simp only [decide_eq_false_iff_not]
        rcases hb t ht with h | h | h
        · rw [h]; decide
        · omega
        · omega
    obtain ⟨B2, P2, R2, k1, k2, k3, k4⟩ := ih2 tr rest B1 (op :: S) (O ++ P1 ++ R1) hr hb' hn
    refine ⟨B2, P1 ++ R1 ++ P2, R2 ++ [op], ?_, ?_, by omega, ?_⟩
    · simp only [List.append_assoc, List.singleton_append, List.cons_append, List.nil_append]
      rw [h1, shunt_plain op _ (binop_plain .pow) hop', hpop, k1]
      simp
    · rw [show P1 ++ R1 ++ P2 ++ (R2 ++ [op]) = (P1 ++ R1) ++ (P2 ++ R2) ++ [op] by simp, List.map_append, List.map_append,
        h2, k2]
      simp [post, hop']
    · intro t ht
      rcases List.mem_append.mp ht with ht | ht
      · exact k4 t ht
      · simp at ht; subst ht
        rw [hop']
        exact ⟨Nat.le_refl _, by simp [opNode, Raw.op, BinOp.toMathOp]⟩
  | @lift p ts e hg ih =>
    intro toks rest B S O hm hb hn
    obtain ⟨B', P, R, h1, h2, h3, h4⟩ := ih toks rest B S O hm hb.mono hn
    exact ⟨B', P, R, h1, h2, h3, fun t ht => ⟨by have := (h4 t ht).1; omega, (h4 t ht).2⟩⟩

/-- Building the tree from the postfix form pushes exactly the tree of the expression. -/
theorem buildLoop_post (e : Expr α) : ∀ (toks rest stk : List (Token α)), toks.map Token.node = post e →
    ∃ pos, buildLoop (toks ++ rest) stk = buildLoop rest (⟨embed e, pos⟩ :: stk) := by
  induction e with
  | num v =>
    intro toks rest stk h
    simp only [post, List.map_eq_cons_iff, List.map_eq_nil_iff] at h
    obtain ⟨f, _, rfl, hf, rfl⟩ := h
    refine ⟨f.pos, ?_⟩
    cases f with
    | mk n p => cases hf; rfl
  | var x =>
    intro toks rest stk h
    simp only [post, List.map_eq_cons_iff, List.map_eq_nil_iff] at h
    obtain ⟨f, _, rfl, hf, rfl⟩ := h
    refine ⟨f.pos, ?_⟩
    cases f with
    | mk n p => cases hf; rfl
  | un o e ih =>
    intro toks rest stk h
    obtain ⟨tl, t', rfl, hl, hm⟩ := List.map_eq_append_iff.mp h
    simp only [List.map_eq_cons_iff, List.map_eq_nil_iff] at hm
    obtain ⟨f, _, rfl, hf, rfl⟩ := hm
    obtain ⟨pos, hp⟩ := ih tl ([f] ++ rest) stk hl
    refine ⟨f.pos, ?_⟩
    rw [List.append_assoc, hp]
    cases f with
    | mk n p => cases hf; cases o <;> rfl
  | bin o a b iha ihb =>
    intro toks rest stk h
    obtain ⟨tl, t', rfl, hl, hm⟩ := List.map_eq_append_iff.mp h
    obtain ⟨ta, tb, rfl, ha, hb⟩ := List.map_eq_append_iff.mp hl
    simp only [List.map_eq_cons_iff, List.map_eq_nil_iff] at hm
    obtain ⟨f, _, rfl, hf, rfl⟩ := hm
    obtain ⟨pa, hpa⟩ := iha ta (tb ++ ([f] ++ rest)) stk ha
    obtain ⟨pb, hpb⟩ := ihb tb ([f] ++ rest) (⟨embed a, pa⟩ :: stk) hb
    refine ⟨f.pos, ?_⟩
    rw [List.append_assoc, List.append_assoc, hpa, hpb]
    cases f with
    | mk n p => cases hf; cases o <;> rfl

theorem flushStack_ops (R O : List (Token α)) (h : ∀ t ∈ R, t.node.op ≠ .lparen) : flushStack R O = .ok (O ++ R) := by
  induction R generalizing O with
  | nil => simp [flushStack]
  | cons t R ih =>
    simp only [flushStack, h t (by simp), if_false]
    rw [ih _ (fun t ht => h t (by simp [ht]))]
    simp

theorem markToks_node (u : Bool) (ts : List (Tok α × Nat)) : (markToks u ts).map Token.node = markNodes u (ts.map Prod.fst) := by
  induction ts generalizing u with
  | nil => rfl
  | cons t ts ih => simp [markToks, markNodes, ih]

theorem markToks_pos (u : Bool) (ts : List (Tok α × Nat)) : (markToks u ts).map Token.pos = ts.map Prod.snd := by
  induction ts generalizing u with
  | nil => rfl
  | cons t ts ih => simp [markToks, ih]

/-- tokens of the grammar are converted and built into the tree -/
theorem build_gram {ts : List (Tok α)} {e : Expr α} (h : Gram 0 ts e) (toks : List (Token α))
    (hm : toks.map Token.node = markNodes true ts) :
    (inOrderToPostOrder toks >>= buildExpressionTree) = .ok (embed e) := by
  obtain ⟨B, P, R, h1, h2, _, h4⟩ := shunt_gram h toks [] 0 [] [] hm (by intro t ht; simp at ht) (.inl rfl)
  rw [List.append_nil] at h1
  rw [inOrderToPostOrder, h1, shunt, List.append_nil, List.nil_append, flushStack_ops R P (fun t ht => (h4 t ht).2), Res.bind_ok]
  obtain ⟨pos, hp⟩ := buildLoop_post e (P ++ R) [] [] h2
  rw [List.append_nil] at hp
  simp [buildExpressionTree, hp, buildLoop]

end Tom
