import Verif.Lemmas.LinksMisc
import Mathlib.Data.List.Forall2
/-
`ToString`, with addresses.
-/
set_option linter.unusedSectionVars false
set_option linter.unusedSimpArgs false
set_option linter.unusedVariables false
namespace Tom
variable {α : Type} [Dbl α]
open Raw

/-- `ctx` is what is read through the stored parent pointer of `t` -/
def CtxAt (root t : PTree α) (ctx : Ctx) : Prop :=
  (t.parent? = none ∧ ctx = ⟨none, false⟩) ∨
  ∃ b, t.parent? = some b ∧ (root.find b).isSome = true ∧
    ctx = ⟨some (root.find b).op, (root.find b).right.addr? == t.addr?⟩

def ItemRel (root : PTree α) : Option (PTree α) → PItem α → Prop
  | none, .rpar => True
  | some t, .node u ctx => u = t.erase ∧ t.isSome = true ∧ (∃ p, t = root.getAt p) ∧ CtxAt root t ctx
  | _, _ => False

theorem ctxAt_child {root : PTree α} {n : Nat} (hs : Sound n root) (p : Path) (s : Bool)
    (h0 : (root.getAt p).isSome = true) (h1 : ((root.getAt p).child s).isSome = true) :
    CtxAt root ((root.getAt p).child s) ⟨some (root.getAt p).op, s⟩ := by
  obtain ⟨b, hb⟩ := addr?_of_isSome h0
  have hu : ∀ a, occurs a root ≤ 1 := fun a => (hs.2 a).1
  have hl := hs.1.at (p ++ [s])
  rw [parentAt_snoc, getAt_snoc, hb] at hl
  refine Or.inr ⟨b, hl.parent? h1, ?_, ?_⟩
  · rw [find_getAt hu hb]; exact h0
  · rw [find_getAt hu hb]
    congr 1
    cases s with
    | true => simp [child]
    | false =>
      obtain ⟨a, ha⟩ := addr?_of_isSome h1
      rw [ha]
      have hne : (root.getAt p).right.addr? ≠ some a := by
        intro hr
        have h2 := occurs_getAt_le root p a
        have h3 := hu a
        have h4 : (root.getAt p).left.addr? = some a := ha
        cases hg : root.getAt p with
        | nil => rw [hg] at h0; simp [isSome] at h0
        | mk ty op o x l r =>
          rw [hg] at h2 hr h4
          have e1 := occurs_of_addr hr
          have e2 := occurs_of_addr h4
          simp only [occurs, left_mk, right_mk] at h2 e1 e2
          omega
      simpa using hne

theorem pNeedParen_eq {root t : PTree α} {ctx : Ctx} (h : CtxAt root t ctx) :
    pNeedParen root t = .ok (needParen ctx t.op) := by
  rcases h with ⟨h, rfl⟩ | ⟨b, h, hb, rfl⟩
  · simp [pNeedParen, h, needParen]
  · simp [pNeedParen, h, hb]

theorem pPrintNode_eq {root t : PTree α} {ctx : Ctx} (h : CtxAt root t ctx) :
    pPrintNode root t = .ok (printNode t.erase ctx) := by
  cases t with
  | nil => rfl
  | mk ty op o x l r =>
    cases ty with
    | number =>
      rcases h with ⟨h, rfl⟩ | ⟨b, h, hb, rfl⟩
      · simp only [Raw.parent?] at h
        simp only [pPrintNode, h, printNode, erase_mk]
        split <;> simp
      · simp only [Raw.parent?] at h
        have ha : (Raw.mk .number op o x l r).addr? = some o.addr := rfl
        simp only [pPrintNode, h, printNode, erase_mk, hb, if_true, ha]
        by_cases c1 : Arith.lt o.value (Dbl.ofInt 0 : α) = true
        · by_cases c2 : (root.find b).right.addr? = some o.addr <;> by_cases c3 : (root.find b).op = .sub <;> simp [c1, c2, c3]
        · simp [c1]
    | «variable» => rfl
    | operator => rfl

theorem pAddLeftLine_sim {root : PTree α} {n : Nat} (hs : Sound n root) :
    ∀ (t : PTree α) (p : Path) (ctx : Ctx) (stk : List (Option (PTree α))) (stk' : List (PItem α)) (out : Str),
      t = root.getAt p → (t.isSome = true → CtxAt root t ctx) → List.Forall₂ (ItemRel root) stk stk' →
      Res.Same (fun x y => List.Forall₂ (ItemRel root) x.1 y.1 ∧ x.2 = y.2)
        (pAddLeftLine root t stk out) (addLeftLine t.erase ctx stk' out) := by
  intro t
  induction t with
  | nil => intro p ctx stk stk' out _ _ hst; exact .ok ⟨hst, rfl⟩
  | mk ty op o x l r ihl _ =>
    intro p ctx stk stk' out ht hc hst
    have hc := hc rfl
    have hl : l = root.getAt (p ++ [false]) := by rw [getAt_snoc, ← ht]; rfl
    have hlc : l.isSome = true → CtxAt root l ⟨some op, false⟩ := by
      intro h
      have := ctxAt_child hs p false (by rw [← ht]; rfl) (by rw [← ht]; exact h)
      rw [← ht] at this; exact this
    have hit : ItemRel root (some (.mk ty op o x l r)) (.node (.mk ty op o.value x l.erase r.erase) ctx) :=
      ⟨rfl, rfl, ⟨p, ht⟩, hc⟩
    cases ty with
    | number => exact ihl _ _ _ _ _ hl hlc (.cons hit hst)
    | «variable» => exact ihl _ _ _ _ _ hl hlc (.cons hit hst)
    | operator =>
      simp only [pAddLeftLine, erase_mk, addLeftLine]
      by_cases c1 : operatorNum op = 1
      · simp only [c1, if_true]
        cases l with
        | nil => exact .ub
        | mk lt lop lo lx ll lr =>
          rw [erase_mk]
          have e : (mk lt lop lo.value lx ll.erase lr.erase).isOperator = (mk lt lop lo lx ll lr : PTree α).isOperator := by
            cases lt <;> rfl
          simp only [e]
          by_cases c2 : (op = .positive ∨ op = .negative) ∧ (mk lt lop lo lx ll lr : PTree α).isOperator = false
          · simp only [if_pos c2]; exact ihl _ _ _ _ _ hl hlc hst
          · simp only [if_neg c2]; exact ihl _ _ _ _ _ hl hlc (.cons trivial hst)
      · simp only [c1, if_false]
        by_cases c2 : operatorNum op = 0
        · simp only [c2, if_true]; exact .assertFail
        · simp only [c2, if_false]
          rw [pNeedParen_eq hc]
          simp only [Res.bind_ok]
          show Res.Same _ _ (if needParen ctx op = true then _ else _)
          by_cases c3 : needParen ctx op = true
          · have c3' : needParen ctx (mk .operator op o x l r : PTree α).op = true := c3
            simp only [if_pos c3, if_pos c3']; exact ihl _ _ _ _ _ hl hlc (.cons hit (.cons trivial hst))
          · have c3' : ¬ needParen ctx (mk .operator op o x l r : PTree α).op = true := c3
            simp only [if_neg c3, if_neg c3']; exact ihl _ _ _ _ _ hl hlc (.cons hit hst)

theorem pToStringLoop_sim {root : PTree α} {n : Nat} (hs : Sound n root) (fuel : Nat) :
    ∀ (stk : List (Option (PTree α))) (stk' : List (PItem α)) (out : Str), List.Forall₂ (ItemRel root) stk stk' →
      Res.Same (fun x y => x = y) (pToStringLoop root fuel stk out) (toStringLoop fuel stk' out) := by
  induction fuel with
  | zero => intro stk stk' out h; cases h with
    | nil => exact .ok rfl
    | cons => exact .diverge
  | succ fuel ih =>
    intro stk stk' out h
    cases h with
    | nil => exact .ok rfl
    | @cons i j stk stk' hi h =>
      cases i with
      | none => cases j with
        | rpar => exact ih _ _ _ h
        | node => exact hi.elim
      | some t => cases j with
        | rpar => exact hi.elim
        | node u ctx =>
          obtain ⟨rfl, h1, ⟨p, hp⟩, hc⟩ := hi
          simp only [pToStringLoop, toStringLoop, pPrintNode_eq hc, Res.bind_ok, erase_right, erase_isSome, erase_op]
          by_cases c : t.right.isSome = true
          · simp only [if_pos c]
            refine Res.Same.bind (pAddLeftLine_sim hs t.right (p ++ [true]) _ stk stk' _ ?_ ?_ h) ?_
            · rw [getAt_snoc, ← hp]; rfl
            · intro _
              have := ctxAt_child hs p true (by rw [← hp]; exact h1) (by rw [← hp]; exact c)
              rw [← hp] at this; exact this
            · rintro ⟨a, b⟩ ⟨a', b'⟩ ⟨e1, e2⟩
              simp only at e1 e2
              subst e2
              exact ih _ _ _ e1
          · simp only [if_neg c]
            exact ih _ _ _ h

theorem pToString_sim {root : PTree α} {n : Nat} (hs : Sound n root) :
    Res.Same (fun x y => x = y) (pToString root) (toStringNode root.erase) := by
  unfold pToString toStringNode
  simp only [erase_isSome, erase_size]
  by_cases c : root.isSome = true
  · simp only [if_pos c]
    refine Res.Same.bind (pAddLeftLine_sim hs root [] _ [] [] _ (by simp [getAt]) ?_ .nil) ?_
    · intro _; exact Or.inl ⟨hs.1.parent? c, rfl⟩
    · rintro ⟨a, b⟩ ⟨a', b'⟩ ⟨e1, e2⟩
      simp only at e1 e2
      subst e2
      exact pToStringLoop_sim hs _ _ _ _ e1
  · simp only [if_neg c]; exact .ub

theorem Res.Same.eq {β : Type} {x y : Res β} (h : Res.Same (fun x y => x = y) x y) : x = y := by
  cases h with
  | ok h => rw [h]
  | _ => rfl

theorem pToString_eq {root : PTree α} {n : Nat} (hs : Sound n root) : pToString root = toStringNode root.erase :=
  (pToString_sim hs).eq

end Tom
