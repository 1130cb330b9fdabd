import Verif.Spec.Printing
import Verif.Lemmas.Tree
/-
`ToStringNonRecursively` writes `infixText`.
-/
namespace Tom
variable {α : Type} [Dbl α]

/-- the context the code reads through `parent` that corresponds to a context of the specification -/
def CtxOk (ctx : Ctx) (c : Option (BinOp × Bool)) : Prop :=
  match c with
  | none => ctx.isRight = false ∧ (∀ p, ctx.parent = some p → operatorNum p = 1)
  | some (p, right) => ctx.parent = some p.toMathOp ∧ ctx.isRight = right

theorem needParen_eq {ctx : Ctx} {c : Option (BinOp × Bool)} (h : CtxOk ctx c) (o : BinOp) :
    needParen ctx o.toMathOp = match c with
      | none => false
      | some (p, right) => parenthesised p right o := by
  obtain ⟨par, isR⟩ := ctx
  cases c with
  | none =>
    obtain ⟨h1, h2⟩ := h
    cases par with
    | none => rfl
    | some p =>
      have := h2 p rfl
      simp [needParen, this]
  | some q =>
    obtain ⟨p, right⟩ := q
    obtain ⟨h1, h2⟩ := h
    simp only at h1 h2
    subst h1 h2
    cases p <;> cases o <;> cases isR <;> rfl

theorem opText_un (o : UnOp) : o.toMathOp.toStr = o.text := by cases o <;> rfl
theorem opText_bin (o : BinOp) : o.toMathOp.toStr = [o.char] := by cases o <;> rfl
theorem opNum_un (o : UnOp) : operatorNum o.toMathOp = 1 := by cases o <;> rfl
theorem opNum_bin (o : BinOp) : operatorNum o.toMathOp = 2 := by cases o <;> rfl

/-- how many rounds of the loop an expression takes -/
def rounds : Option (BinOp × Bool) → Expr α → Nat
  | _, .num _ => 1
  | _, .var _ => 1
  | _, .un o e => if (o = .pos ∨ o = .neg) ∧ e.isLeaf = true then rounds none e else rounds none e + 1
  | ctx, .bin o a b =>
    rounds (some (o, false)) a + rounds (some (o, true)) b + 1 +
      match ctx with
      | none => 0
      | some (p, right) => if parenthesised p right o then 1 else 0

theorem sign_iff (o : UnOp) : (o.toMathOp = .positive ∨ o.toMathOp = .negative) ↔ (o = .pos ∨ o = .neg) := by
  cases o <;> decide

theorem isOperator_leaf (e : Expr α) : (embed e).isOperator = !e.isLeaf := by cases e <;> rfl

theorem addLeftLine_un (o : UnOp) (v : α) (x : Str) (l : Raw α) (hl : l.isSome = true) (ctx : Ctx) (stk : List (PItem α)) (out : Str) :
    addLeftLine (.mk .operator o.toMathOp v x l .nil) ctx stk out =
      if (o.toMathOp = .positive ∨ o.toMathOp = .negative) ∧ l.isOperator = false then
        addLeftLine l ⟨some o.toMathOp, false⟩ stk (out ++ o.toMathOp.toStr)
      else addLeftLine l ⟨some o.toMathOp, false⟩ (.rpar :: stk) (out ++ o.toMathOp.toStr ++ ['(']) := by
  cases l with
  | nil => simp [Raw.isSome] at hl
  | mk => rw [addLeftLine, if_pos (opNum_un o)]

theorem addLeftLine_bin (o : BinOp) (v : α) (x : Str) (l r : Raw α) (ctx : Ctx) (stk : List (PItem α)) (out : Str) :
    addLeftLine (.mk .operator o.toMathOp v x l r) ctx stk out =
      if needParen ctx o.toMathOp then
        addLeftLine l ⟨some o.toMathOp, false⟩ (.node (.mk .operator o.toMathOp v x l r) ctx :: .rpar :: stk) (out ++ ['('])
      else addLeftLine l ⟨some o.toMathOp, false⟩ (.node (.mk .operator o.toMathOp v x l r) ctx :: stk) out := by
  cases o <;> rfl


theorem addLeftLine_embed (e : Expr α) : ∀ (ctx : Ctx) (c : Option (BinOp × Bool)), CtxOk ctx c → ∀ (stk : List (PItem α)) (out : Str),
    ∃ stk' out', addLeftLine (embed e) ctx stk out = .ok (stk', out') ∧
      ∀ fuel, toStringLoop (fuel + rounds c e) stk' out' = toStringLoop fuel stk (out ++ infixText c e) := by
  induction e with
  | num v =>
    intro ctx c hc stk out
    refine ⟨_, _, rfl, ?_⟩
    intro fuel
    simp only [embed, rounds, toStringLoop, Raw.right, Raw.isSome, Bool.false_eq_true, if_false, printNode, infixText, nodeToStr]
    congr 2
    have : (Arith.lt v (Dbl.ofInt 0) && ctx.isRight && decide (ctx.parent = some .sub)) =
        decide (Arith.lt v (Dbl.ofInt 0) = true ∧ c = some (.sub, true)) := by
      cases c with
      | none =>
        obtain ⟨h1, _⟩ := hc
        simp [h1]
      | some q =>
        obtain ⟨p, right⟩ := q
        obtain ⟨h1, h2⟩ := hc
        rw [h1, h2]
        cases p <;> cases right <;> simp [BinOp.toMathOp]
    rw [this]
    simp only [decide_eq_true_eq]
  | var x =>
    intro ctx c hc stk out
    refine ⟨_, _, rfl, ?_⟩
    intro fuel
    simp only [embed, rounds, toStringLoop, Raw.right, Raw.isSome, Bool.false_eq_true, if_false, printNode, infixText, nodeToStr]
  | un o e ih =>
    intro ctx c hc stk out
    have hctx : CtxOk ⟨some o.toMathOp, false⟩ none := ⟨rfl, fun p hp => by cases hp; exact opNum_un o⟩
    simp only [embed, addLeftLine_un o _ _ _ (embed_isSome e), sign_iff, isOperator_leaf, rounds, infixText, opText_un]
    by_cases hs : (o = .pos ∨ o = .neg) ∧ e.isLeaf = true
    · rw [if_pos (by simpa using hs)]
      simp only [if_pos hs]
      obtain ⟨stk', out', h1, h2⟩ := ih _ none hctx stk (out ++ o.text)
      exact ⟨stk', out', h1, fun fuel => by rw [h2, List.append_assoc]⟩
    · rw [if_neg (by simpa using hs)]
      simp only [if_neg hs]
      obtain ⟨stk', out', h1, h2⟩ := ih _ none hctx (.rpar :: stk) (out ++ o.text ++ ['('])
      refine ⟨stk', out', h1, fun fuel => ?_⟩
      rw [show fuel + (rounds none e + 1) = (fuel + 1) + rounds none e by omega, h2]
      simp only [toStringLoop, List.append_assoc]
  | bin o a b iha ihb =>
    intro ctx c hc stk out
    have ha : CtxOk ⟨some o.toMathOp, false⟩ (some (o, false)) := ⟨rfl, rfl⟩
    have hb : CtxOk ⟨some o.toMathOp, true⟩ (some (o, true)) := ⟨rfl, rfl⟩
    have core : ∀ (stk1 : List (PItem α)) (out1 : Str), ∃ stk' out',
        addLeftLine (embed a) ⟨some o.toMathOp, false⟩ (.node (embed (.bin o a b)) ctx :: stk1) out1 = .ok (stk', out') ∧
        ∀ fuel, toStringLoop (fuel + (rounds (some (o, false)) a + rounds (some (o, true)) b + 1)) stk' out' =
          toStringLoop fuel stk1 (out1 ++ (infixText (some (o, false)) a ++ [o.char] ++ infixText (some (o, true)) b)) := by
      intro stk1 out1
      obtain ⟨stk', out', h1, h2⟩ := iha _ _ ha (.node (embed (.bin o a b)) ctx :: stk1) out1
      refine ⟨stk', out', h1, fun fuel => ?_⟩
      rw [show fuel + (rounds (some (o, false)) a + rounds (some (o, true)) b + 1) =
        (fuel + rounds (some (o, true)) b + 1) + rounds (some (o, false)) a by omega, h2]
      obtain ⟨stk2, out2, h3, h4⟩ := ihb _ _ hb stk1 (out1 ++ infixText (some (o, false)) a ++ [o.char])
      have hr : (embed (.bin o a b) : Raw α).right = embed b := rfl
      have hop : (embed (.bin o a b) : Raw α).op = o.toMathOp := rfl
      have hp : printNode (embed (.bin o a b) : Raw α) ctx = [o.char] := opText_bin o
      rw [toStringLoop, hr, hop, hp, if_pos (embed_isSome b), h3]
      show toStringLoop _ stk2 out2 = _
      rw [h4]
      simp only [List.append_assoc]
    have hn := needParen_eq hc o
    rw [show embed (.bin o a b) = (.mk .operator o.toMathOp (Dbl.ofInt 0) [] (embed a) (embed b) : Raw α) from rfl, addLeftLine_bin]
    cases c with
    | none =>
      simp only at hn
      rw [hn]
      simp only [Bool.false_eq_true, if_false, rounds, infixText, Nat.add_zero]
      exact core stk out
    | some q =>
      obtain ⟨p, right⟩ := q
      simp only at hn
      rw [hn]
      by_cases hp : parenthesised p right o = true
      · rw [if_pos hp]
        simp only [rounds, infixText, if_pos hp]
        obtain ⟨stk', out', h1, h2⟩ := core (.rpar :: stk) (out ++ ['('])
        refine ⟨stk', out', h1, fun fuel => ?_⟩
        rw [show fuel + (rounds (some (o, false)) a + rounds (some (o, true)) b + 1 + 1) =
          (fuel + 1) + (rounds (some (o, false)) a + rounds (some (o, true)) b + 1) by omega, h2, toStringLoop]
        simp only [List.append_assoc]
      · rw [if_neg hp]
        simp only [rounds, infixText, if_neg hp, Nat.add_zero]
        exact core stk out

theorem rounds_le (e : Expr α) : ∀ c, rounds c e + 1 ≤ 2 * (embed e).size := by
  induction e with
  | num v => intro c; simp [rounds, embed, Raw.size]
  | var x => intro c; simp [rounds, embed, Raw.size]
  | un o e ih =>
    intro c
    have := ih none
    simp only [rounds, embed, Raw.size]
    split <;> omega
  | bin o a b iha ihb =>
    intro c
    have h1 := iha (some (o, false))
    have h2 := ihb (some (o, true))
    simp only [rounds, embed, Raw.size]
    cases c with
    | none => simp only; omega
    | some q => simp only; split <;> omega

theorem toStringLoop_more (stk : List (PItem α)) (out s : Str) : ∀ (n m : Nat), n ≤ m → toStringLoop n stk out = .ok s →
    toStringLoop m stk out = .ok s := by
  intro n
  induction n generalizing stk out with
  | zero =>
    intro m _ h
    cases stk with
    | nil => cases m <;> exact h
    | cons => simp [toStringLoop] at h
  | succ n ih =>
    intro m hm h
    obtain ⟨m, rfl⟩ : ∃ k, m = k + 1 := ⟨m - 1, by omega⟩
    cases stk with
    | nil => exact h
    | cons it stk =>
      cases it with
      | rpar =>
        rw [toStringLoop] at h ⊢
        exact ih _ _ m (by omega) h
      | node t ctx =>
        rw [toStringLoop] at h ⊢
        simp only at h ⊢
        split
        · rename_i ht
          rw [if_pos ht, Res.bind_eq_ok] at h
          obtain ⟨p, h1, h2⟩ := h
          rw [h1]
          exact ih _ _ m (by omega) h2
        · rename_i ht
          rw [if_neg ht] at h
          exact ih _ _ m (by omega) h

theorem toString_embed (e : Expr α) : toStringNode (embed e) = .ok (infixText none e) := by
  unfold toStringNode
  rw [if_pos (embed_isSome e)]
  obtain ⟨stk', out', h1, h2⟩ := addLeftLine_embed e ⟨none, false⟩ none ⟨rfl, fun p hp => by cases hp⟩ [] []
  rw [h1]
  show toStringLoop _ stk' out' = _
  have := h2 0
  rw [Nat.zero_add] at this
  refine toStringLoop_more _ _ _ (rounds none e) _ (by have := rounds_le e none; omega) ?_
  rw [this]
  rfl

end Tom
