import Verif.Model.Recursive
import Verif.Lemmas.Print
import Verif.Props.Tree
import Verif.Model.Num
/-
C83: the recursive variants of Clone, Vpa and ToString compared with the iterative ones the library uses.
-/
namespace Tom
variable {α : Type} [Dbl α]

/-- C83: `CloneRecursively` and `Clone` return the same tree, for every non-null node, well-formed or not. -/
theorem C83_clone (t : Raw α) (h : t.isSome = true) : cloneRecursively t = clone t := by
  rw [clone_eq t h]
  cases t with
  | nil => cases h
  | mk ty op v x l r =>
    have hn : ∀ s : Raw α, s.isSome = false → s = .nil := fun s hs => by cases s <;> simp_all [Raw.isSome]
    simp only [cloneRecursively]
    cases hl : l.isSome <;> cases hr : r.isSome <;>
      simp only [if_true, Bool.false_eq_true, if_false, clone_eq, hl, hr, Res.bind_ok]
    · rw [hn l hl, hn r hr]
    · rw [hn l hl]
    · rw [hn r hr]

/-- C83: `VpaRecursively` has the same outcome as `Vpa` - the number or the exception - if the compiler evaluates arguments from left to
right. -/
theorem C83_vpa (cfg : Config α) (e : Expr α) : vpaRecursively false cfg (embed e) = vpa cfg (embed e) := by
  rw [vpa_embed]
  cases e with
  | num v => rfl
  | var x => rfl
  | un o a =>
    have h1 : (operatorNum o.toMathOp = 1 ∧ (embed a).isSome = true ∧ (Raw.nil : Raw α).isSome = false) ∨
      (operatorNum o.toMathOp = 2 ∧ (embed a).isSome = true ∧ (Raw.nil : Raw α).isSome = true) := .inl ⟨opNum_un o, embed_isSome a, rfl⟩
    simp only [embed, vpaRecursively]
    rw [if_pos h1]
    simp only [vpaOperand, embed_isSome, if_true, vpa_embed, calcOp_un, Expr.eval]
    rfl
  | bin o a b =>
    have h1 : (operatorNum o.toMathOp = 1 ∧ (embed a).isSome = true ∧ (embed b).isSome = false) ∨
      (operatorNum o.toMathOp = 2 ∧ (embed a).isSome = true ∧ (embed b).isSome = true) :=
      .inr ⟨opNum_bin o, embed_isSome a, embed_isSome b⟩
    simp only [embed, vpaRecursively]
    rw [if_pos h1]
    simp only [vpaOperand, embed_isSome, if_true, vpa_embed, calcOp_bin, Expr.eval]
    rfl

/-- C83: from right to left it returns the same number, and returns normally in the same cases. -/
theorem C83_vpa_right (cfg : Config α) (e : Expr α) (v : α) :
    vpaRecursively true cfg (embed e) = .ok v ↔ vpa cfg (embed e) = .ok v := by
  rw [← C83_vpa]
  cases e with
  | num v => rfl
  | var x => rfl
  | un o a =>
    simp only [embed, vpaRecursively, vpaOperand, Raw.isSome]
    split <;> simp
  | bin o a b =>
    simp only [embed, vpaRecursively]
    split
    · simp only [if_true, Bool.false_eq_true, if_false, Res.bind_eq_ok]
      constructor
      · rintro ⟨y, hy, x, hx, h⟩; exact ⟨x, hx, y, hy, h⟩
      · rintro ⟨x, hx, y, hy, h⟩; exact ⟨y, hy, x, hx, h⟩
    · rfl

/-- Which exception arrives may differ: `1/0 + x` (no value for `x`). -/
example : vpaRecursively true defaultConfig (embed (.bin .add (.bin .div (.num (.fin 1)) (.num (.fin 0))) (.var ['x']))) = .throw .runtime ∧
    vpa defaultConfig (embed (.bin .add (.bin .div (.num (.fin 1)) (.num (.fin 0))) (.var ['x']))) = .throw (.math .invalidNumber) := by
  refine ⟨?_, ?_⟩ <;> decide +kernel

/-- The text with every signed expression in parentheses: `(-x)` for `-x`. -/
def bracketText : Option (BinOp × Bool) → Expr α → Str
  | ctx, .num v =>
    if Arith.lt v (Dbl.ofInt 0) = true ∧ ctx = some (.sub, true) then ['('] ++ Dbl.toStr v ++ [')'] else Dbl.toStr v
  | _, .var x => x
  | _, .un o e =>
    if o = .pos ∨ o = .neg then ['('] ++ o.text ++ bracketText none e ++ [')']
    else o.text ++ ['('] ++ bracketText none e ++ [')']
  | ctx, .bin o a b =>
    let s := bracketText (some (o, false)) a ++ [o.char] ++ bracketText (some (o, true)) b
    match ctx with
    | none => s
    | some (p, right) => if parenthesised p right o then ['('] ++ s ++ [')'] else s

/-- no prefix sign in the expression -/
def Expr.NoSign : Expr α → Prop
  | .num _ => True
  | .var _ => True
  | .un o e => o ≠ .pos ∧ o ≠ .neg ∧ e.NoSign
  | .bin _ a b => a.NoSign ∧ b.NoSign

theorem toStringRecursively_embed (e : Expr α) {ctx : Ctx} {c : Option (BinOp × Bool)} (hc : CtxOk ctx c) :
    toStringRecursively ctx (embed e) = bracketText c e := by
  induction e generalizing ctx c with
  | num v =>
    simp only [embed, toStringRecursively, printNode, nodeToStr, bracketText]
    have : (Arith.lt v (Dbl.ofInt 0) && ctx.isRight && decide (ctx.parent = some .sub)) = true ↔
        Arith.lt v (Dbl.ofInt 0) = true ∧ c = some (.sub, true) := by
      cases c with
      | none =>
        obtain ⟨h1, h2⟩ := hc
        simp [h1]
      | some q =>
        obtain ⟨p, right⟩ := q
        obtain ⟨h1, h2⟩ := hc
        rw [h1, h2]
        cases p <;> cases right <;> simp [BinOp.toMathOp]
    by_cases h : Arith.lt v (Dbl.ofInt 0) = true ∧ c = some (.sub, true)
    · rw [if_pos h, if_pos (this.mpr h)]
    · rw [if_neg h, if_neg (fun h' => h (this.mp h'))]
  | var x => rfl
  | un o a ih =>
    have h : CtxOk ⟨some o.toMathOp, false⟩ none := ⟨rfl, fun p hp => by
      obtain rfl := Option.some.inj hp; exact opNum_un o⟩
    simp only [embed, toStringRecursively, opNum_un, if_true, ih h, sign_iff, opText_un, bracketText, List.append_nil]
    split <;> rfl
  | bin o a b iha ihb =>
    have h1 : CtxOk ⟨some o.toMathOp, false⟩ (some (o, false)) := ⟨rfl, rfl⟩
    have h2 : CtxOk ⟨some o.toMathOp, true⟩ (some (o, true)) := ⟨rfl, rfl⟩
    simp only [embed, toStringRecursively, opNum_bin, show ¬ (2 = 1) by decide, if_false, iha h1, ihb h2, opText_bin, bracketText]
    rw [needParen_eq hc o]
    cases c <;> rfl

/-- C83: the text `ToStringRecursively` writes. -/
theorem C83_toString (e : Expr α) : toStringRecursively ⟨none, false⟩ (embed e) = bracketText none e :=
  toStringRecursively_embed e ⟨rfl, fun _ h => by cases h⟩

theorem bracketText_noSign (e : Expr α) (h : e.NoSign) (c : Option (BinOp × Bool)) : bracketText c e = infixText c e := by
  induction e generalizing c with
  | num v => rfl
  | var x => rfl
  | un o a ih =>
    have ho : ¬ (o = .pos ∨ o = .neg) := by rintro (h' | h') <;> simp_all [Expr.NoSign]
    simp only [bracketText, infixText, ho, false_and, if_false, ih h.2.2]
  | bin o a b iha ihb =>
    simp only [bracketText, infixText, iha h.1, ihb h.2]
    cases c <;> rfl

/-- C83, partial: `ToStringRecursively` and `ToString` write the same text for expressions without prefix signs; in general they
do not (`C83_false`). -/
theorem C83_toString_partial (e : Expr α) (h : e.NoSign) :
    toStringNode (embed e) = .ok (toStringRecursively ⟨none, false⟩ (embed e)) := by
  rw [C83_toString, bracketText_noSign e h, toString_embed]

/-- C83 fails for `-x`: `ToString` writes `-x`, `ToStringRecursively` `(-x)`. -/
theorem C83_false : let e : Expr (XNum Rat) := .un .neg (.var ['x'])
    toStringNode (embed e) = .ok ['-', 'x'] ∧ toStringRecursively ⟨none, false⟩ (embed e) = ['(', '-', 'x', ')'] := by
  refine ⟨?_, ?_⟩ <;> decide +kernel

/-- `2-(sin(x)-(-3))` has no prefix sign (the literal is negative) and is written the same way by both. -/
example : Expr.NoSign (.bin .sub (.num (.fin 2)) (.bin .sub (.un .sin (.var ['x'])) (.num (.fin (-3)))) : Expr (XNum Rat)) ∧
    toStringRecursively ⟨none, false⟩ (embed (.bin .sub (.num (.fin 2)) (.bin .sub (.un .sin (.var ['x'])) (.num (.fin (-3)))) :
      Expr (XNum Rat))) = "2-(sin(x)-(-3))".toList := by
  refine ⟨⟨trivial, ⟨by decide, by decide, trivial⟩, trivial⟩, ?_⟩
  decide +kernel

end Tom
