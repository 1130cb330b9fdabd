import Verif.Lemmas.Tree
import Verif.Lemmas.Path
import Verif.Model.SubsSimplifyDiff
/-
The work-list simplifier equals a recursive one, and what the recursive one does on expressions.
-/
set_option linter.unusedSectionVars false
set_option linter.unusedSimpArgs false
set_option linter.unusedVariables false
namespace Tom
variable {α : Type} [Dbl α]

/-- Recursive form of `SimplifyWholeNode`. -/
def simpRec (cfg : Config α) : Raw α → Res (Raw α)
  | .nil => .ok .nil
  | .mk ty op v x l r =>
    if ty = .operator then do
      let l' ← simpRec cfg l
      let r' ← simpRec cfg r
      simplifySingle cfg (.mk ty op v x l' r')
    else .ok (.mk ty op v x l r)

/-- The operator slots below `p`, in the order part I lists them. -/
def preOps : Raw α → Path → List Path
  | .nil, _ => []
  | .mk ty _ _ _ l r, p =>
    if ty = .operator then p :: (preOps r (p ++ [true]) ++ preOps l (p ++ [false])) else []

theorem preOps_of_not {t : Raw α} (h : t.isOperator = false) (p : Path) : preOps t p = [] := by
  cases t with
  | nil => rfl
  | mk ty => cases ty <;> simp_all [preOps, Raw.isOperator]

theorem preOps_of_op {t : Raw α} (h : t.isOperator = true) (p : Path) :
    preOps t p = p :: (preOps t.right (p ++ [true]) ++ preOps t.left (p ++ [false])) := by
  cases t with
  | nil => simp [Raw.isOperator] at h
  | mk ty => cases ty <;> simp_all [preOps, Raw.isOperator, Raw.left, Raw.right]

theorem size_of_op {t : Raw α} (h : t.isOperator = true) : t.size = t.left.size + t.right.size + 1 := by
  cases t with
  | nil => simp [Raw.isOperator] at h
  | mk ty => simp [Raw.size, Raw.left, Raw.right]

theorem simplifyPartI_eq (root : Raw α) (fuel : Nat) (stk out : List Path)
    (hop : ∀ p ∈ stk, (root.getAt p).isOperator = true)
    (hf : (stk.map fun p => (root.getAt p).size).sum ≤ fuel) :
    simplifyPartI root fuel stk out
      = .ok (out ++ (stk.map fun p => preOps (root.getAt p) p).flatten) := by
  induction fuel generalizing stk out with
  | zero =>
    cases stk with
    | nil => simp [simplifyPartI]
    | cons p stk =>
      have h1 := size_of_op (hop p (by simp))
      simp at hf; omega
  | succ fuel ih =>
    cases stk with
    | nil => simp [simplifyPartI]
    | cons p stk =>
      have hp := hop p (by simp)
      have h1 := size_of_op hp
      have hop' : ∀ q ∈ stk, (root.getAt q).isOperator = true := fun q hq => hop q (by simp [hq])
      simp only [List.map_cons, List.sum_cons] at hf
      unfold simplifyPartI
      rw [ih]
      · simp only [List.map_cons, List.flatten_cons, preOps_of_op hp]
        by_cases hl : (root.getAt p).left.isOperator = true <;>
          by_cases hr : (root.getAt p).right.isOperator = true <;>
          simp [hl, hr, Raw.getAt_false, Raw.getAt_true, preOps_of_not]
      · intro q hq
        by_cases hl : (root.getAt p).left.isOperator = true <;>
          by_cases hr : (root.getAt p).right.isOperator = true <;>
          simp [hl, hr] at hq
        · rcases hq with h | h | h
          · subst h; rw [Raw.getAt_true]; exact hr
          · subst h; rw [Raw.getAt_false]; exact hl
          · exact hop' q h
        · rcases hq with h | h
          · subst h; rw [Raw.getAt_false]; exact hl
          · exact hop' q h
        · rcases hq with h | h
          · subst h; rw [Raw.getAt_true]; exact hr
          · exact hop' q h
        · exact hop' q hq
      · by_cases hl : (root.getAt p).left.isOperator = true <;>
          by_cases hr : (root.getAt p).right.isOperator = true <;>
          simp [hl, hr, Raw.getAt_false, Raw.getAt_true] <;> omega

theorem simplifyPartII_append (cfg : Config α) (xs ys : List Path) (root : Raw α) :
    simplifyPartII cfg (xs ++ ys) root = (simplifyPartII cfg xs root >>= fun t => simplifyPartII cfg ys t) := by
  induction xs generalizing root with
  | nil => rfl
  | cons p xs ih =>
    simp only [List.cons_append, simplifyPartII, ih, Res.bind_assoc']

theorem simplifyPartII_pre (cfg : Config α) (t : Raw α) : ∀ (root : Raw α) (p : Path), root.getAt p = t →
    simplifyPartII cfg (preOps t p).reverse root = (simpRec cfg t >>= fun t' => .ok (root.setAt p t')) := by
  induction t with
  | nil =>
    intro root p h
    have := Raw.setAt_getAt root p
    rw [h] at this
    simp [preOps, simplifyPartII, simpRec, this]
  | mk ty op v x l r ihl ihr =>
    intro root p h
    by_cases ho : ty = .operator
    · have hv : root.Valid p := Raw.valid_of_getAt (by rw [h]; rfl)
      have hself := Raw.setAt_getAt root p
      rw [h] at hself
      simp only [preOps, ho, if_true, List.reverse_cons, List.reverse_append]
      rw [simplifyPartII_append, simplifyPartII_append, simpRec]
      rw [ihl root (p ++ [false]) (by rw [Raw.getAt_false, h]; rfl)]
      simp only [Res.bind_assoc', ho, if_true]
      congr 1; funext l'
      simp only [Res.bind_ok]
      rw [ihr (root.setAt (p ++ [false]) l') (p ++ [true])
        (by rw [Raw.getAt_setAt_incomp (Raw.incomp_siblings p), Raw.getAt_true, h]; rfl)]
      simp only [Res.bind_assoc']
      congr 1; funext r'
      simp only [Res.bind_ok, simplifyPartII]
      have e : (root.setAt (p ++ [false]) l').setAt (p ++ [true]) r' = root.setAt p (.mk .operator op v x l' r') := by
        subst ho
        rw [Raw.setAt_append' root, Raw.setAt_append, h]
        simp [Raw.setAt]
      rw [e, Raw.getAt_setAt_self hv]
      congr 1; funext n
      rw [Raw.setAt_setAt]
    · have hself := Raw.setAt_getAt root p
      rw [h] at hself
      simp [preOps, ho, simplifyPartII, simpRec, hself]

theorem simplifyWhole_eq (cfg : Config α) (t : Raw α) (h : t.isSome = true) :
    simplifyWhole cfg t = simpRec cfg t := by
  unfold simplifyWhole
  by_cases ho : t.isOperator = true
  · simp only [h, ho, Bool.true_eq_false, if_false]
    rw [simplifyPartI_eq t _ _ _ (by simpa using ho) (by simp)]
    have hp := simplifyPartII_pre cfg t t [] (by simp)
    simp only [Raw.getAt_nilPath, List.map_cons, List.map_nil, List.flatten_cons, List.flatten_nil,
      List.append_nil, List.nil_append, Res.bind_ok]
    rw [preOps_of_op ho] at hp ⊢
    simp only [List.tail_cons, List.reverse_cons] at hp ⊢
    rw [simplifyPartII_append] at hp
    simp only [simplifyPartII, Raw.getAt_nilPath, Raw.setAt_nilPath, Res.bind_pure'] at hp
    simpa using hp
  · simp only [h, ho, Bool.true_eq_false, if_false]
    cases t with
    | nil => simp [Raw.isSome] at h
    | mk ty => cases ty <;> simp_all [simpRec, Raw.isOperator]

/-- `v == c` on a literal operand -/
def isLit (c : α) : Expr α → Bool
  | .num v => Arith.eq v c
  | _ => false

theorem isNumEq_embed (e : Expr α) (c : α) : isNumEq (embed e) c = isLit c e := by
  cases e <;> rfl

/-- What `SimplifySingleNode` does on an operator expression. -/
def simpTop (cfg : Config α) : Expr α → Res (Expr α)
  | .un o (.num v) => Res.noexcept (checked cfg.throwOnInvalidValue (o.apply v)) >>= fun w => .ok (.num w)
  | .bin o (.num v) (.num w) =>
    match o.apply v w with
    | none => .ub
    | some z => Res.noexcept (checked cfg.throwOnInvalidValue z) >>= fun w => .ok (.num w)
  | .bin o a b =>
    let l0 := isLit (Dbl.ofInt 0) a
    let r0 := isLit (Dbl.ofInt 0) b
    let l1 := isLit (Dbl.ofInt 1) a
    let r1 := isLit (Dbl.ofInt 1) b
    if (o = .mul ∧ (l0 ∨ r0)) ∨ (o = .div ∧ l0) ∨ (o = .pow ∧ l0) then .ok (.num (Dbl.ofInt 0))
    else if (o = .add ∧ (l0 ∨ r0)) ∨ (o = .sub ∧ r0) ∨ (o = .mul ∧ (l1 ∨ r1)) ∨ (o = .div ∧ r1) ∨ (o = .pow ∧ r1) then
      if l1 ∨ l0 then .ok b
      else if r1 ∨ r0 then .ok a
      else .ok (.bin o a b)
    else .ok (.bin o a b)
  | e => .ok e

/-- Recursive simplification of an expression. -/
def simpE (cfg : Config α) : Expr α → Res (Expr α)
  | .num v => .ok (.num v)
  | .var x => .ok (.var x)
  | .un o e => do
    let e' ← simpE cfg e
    simpTop cfg (.un o e')
  | .bin o a b => do
    let a' ← simpE cfg a
    let b' ← simpE cfg b
    simpTop cfg (.bin o a' b')

theorem simplifySingle_un (cfg : Config α) (o : UnOp) (e : Expr α) :
    simplifySingle cfg (embed (.un o e)) = (simpTop cfg (.un o e) >>= fun e => .ok (embed e)) := by
  have hn : operatorNum o.toMathOp = 1 := by cases o <;> rfl
  cases e with
  | num v =>
    simp only [embed, simplifySingle, simplifyUnary, hn, calcOp_un, simpTop, if_true]
    cases checked cfg.throwOnInvalidValue (o.apply v) <;> rfl
  | var x => simp [embed, simplifySingle, simplifyUnary, hn, simpTop]
  | un o' e => simp [embed, simplifySingle, simplifyUnary, hn, simpTop]
  | bin o' a b => simp [embed, simplifySingle, simplifyUnary, hn, simpTop]

theorem toMathOp_iff (o : BinOp) : (o.toMathOp = .mul ↔ o = .mul) ∧ (o.toMathOp = .div ↔ o = .div) ∧
    (o.toMathOp = .pow ↔ o = .pow) ∧ (o.toMathOp = .add ↔ o = .add) ∧ (o.toMathOp = .sub ↔ o = .sub) := by
  cases o <;> decide

theorem simplifySingle_bin (cfg : Config α) (o : BinOp) (a b : Expr α) :
    simplifySingle cfg (embed (.bin o a b)) = (simpTop cfg (.bin o a b) >>= fun e => .ok (embed e)) := by
  have hn : operatorNum o.toMathOp = 2 := by cases o <;> rfl
  by_cases hnum : a.isNum = true ∧ b.isNum = true
  · cases a <;> simp [Expr.isNum] at hnum
    cases b <;> simp [Expr.isNum] at hnum
    rename_i v w
    simp only [embed, simplifySingle, simplifyBinary, hn, calcOp_bin, simpTop, if_true, and_self, (by decide : ¬ (2 = 1)), if_false]
    cases o.apply v w with
    | none => rfl
    | some z => simp only; cases checked cfg.throwOnInvalidValue z <;> rfl
  · have e1 : simplifySingle cfg (embed (.bin o a b)) =
        Res.noexcept (
        let l0 := isNumEq (embed a) (Dbl.ofInt 0)
        let r0 := isNumEq (embed b) (Dbl.ofInt 0)
        let l1 := isNumEq (embed a) (Dbl.ofInt 1)
        let r1 := isNumEq (embed b) (Dbl.ofInt 1)
        if (o.toMathOp = .mul ∧ (l0 ∨ r0)) ∨ (o.toMathOp = .div ∧ l0) ∨ (o.toMathOp = .pow ∧ l0) then
          .ok (mkNum (Dbl.ofInt 0))
        else if (o.toMathOp = .add ∧ (l0 ∨ r0)) ∨ (o.toMathOp = .sub ∧ r0) ∨ (o.toMathOp = .mul ∧ (l1 ∨ r1)) ∨
            (o.toMathOp = .div ∧ r1) ∨ (o.toMathOp = .pow ∧ r1) then
          if l1 ∨ l0 then .ok (embed b)
          else if r1 ∨ r0 then .ok (embed a)
          else .ok (embed (.bin o a b))
        else .ok (embed (.bin o a b))) := by
      cases a <;> cases b <;> simp [Expr.isNum] at hnum <;>
        simp [embed, simplifySingle, simplifyBinary, hn] <;> rfl
    have e2 : simpTop cfg (.bin o a b) =
        let l0 := isLit (Dbl.ofInt 0) a
        let r0 := isLit (Dbl.ofInt 0) b
        let l1 := isLit (Dbl.ofInt 1) a
        let r1 := isLit (Dbl.ofInt 1) b
        if (o = .mul ∧ (l0 ∨ r0)) ∨ (o = .div ∧ l0) ∨ (o = .pow ∧ l0) then .ok (.num (Dbl.ofInt 0))
        else if (o = .add ∧ (l0 ∨ r0)) ∨ (o = .sub ∧ r0) ∨ (o = .mul ∧ (l1 ∨ r1)) ∨ (o = .div ∧ r1) ∨ (o = .pow ∧ r1) then
          if l1 ∨ l0 then .ok b
          else if r1 ∨ r0 then .ok a
          else .ok (.bin o a b)
        else .ok (.bin o a b) := by
      cases a <;> cases b <;> simp [Expr.isNum] at hnum <;> simp only [simpTop]
    rw [e1, e2]
    obtain ⟨h1, h2, h3, h4, h5⟩ := toMathOp_iff o
    simp only [isNumEq_embed, h1, h2, h3, h4, h5]
    split
    · rfl
    · split
      · split
        · rfl
        · split <;> rfl
      · rfl

theorem simpRec_embed (cfg : Config α) (e : Expr α) :
    simpRec cfg (embed e) = (simpE cfg e >>= fun e' => .ok (embed e')) := by
  induction e with
  | num v => simp [embed, simpRec, simpE]
  | var x => simp [embed, simpRec, simpE]
  | un o e ih =>
    simp only [embed, simpRec, simpE, if_true, ih, Res.bind_assoc', Res.bind_ok]
    congr 1; funext e'
    exact simplifySingle_un cfg o e'
  | bin o a b iha ihb =>
    simp only [embed, simpRec, simpE, if_true, iha, ihb, Res.bind_assoc', Res.bind_ok]
    congr 1; funext a'
    congr 1; funext b'
    exact simplifySingle_bin cfg o a' b'

theorem noexcept_checked_cases (strict : Bool) (v : α) :
    Res.noexcept (checked strict v) = .ok v ∨ Res.noexcept (checked strict v) = .terminate := by
  unfold checked; split <;> simp

/-- The outcome of `simpTop`: a result, `terminate` or undefined behaviour. -/
theorem simpTop_cases (cfg : Config α) (e : Expr α) :
    (∃ e', simpTop cfg e = .ok e') ∨ simpTop cfg e = .terminate ∨ simpTop cfg e = .ub := by
  unfold simpTop
  split
  · rename_i o v
    rcases noexcept_checked_cases cfg.throwOnInvalidValue (o.apply v) with h | h <;> simp [h]
  · split
    · simp
    · rename_i z _
      rcases noexcept_checked_cases cfg.throwOnInvalidValue z with h | h <;> simp [h]
  · simp only
    split
    · simp
    · split
      · split
        · simp
        · split <;> simp
      · simp
  · simp

theorem simpE_cases (cfg : Config α) (e : Expr α) :
    (∃ e', simpE cfg e = .ok e') ∨ simpE cfg e = .terminate ∨ simpE cfg e = .ub := by
  induction e with
  | num v => simp [simpE]
  | var x => simp [simpE]
  | un o e ih =>
    rcases ih with ⟨e', h⟩ | h | h <;> simp [simpE, h]
    exact simpTop_cases cfg _
  | bin o a b iha ihb =>
    rcases iha with ⟨a', ha⟩ | ha | ha <;> simp [simpE, ha]
    rcases ihb with ⟨b', hb⟩ | hb | hb <;> simp [hb]
    exact simpTop_cases cfg _

theorem noexcept_simpE (cfg : Config α) (e : Expr α) : Res.noexcept (simpE cfg e) = simpE cfg e := by
  rcases simpE_cases cfg e with ⟨e', h⟩ | h | h <;> simp [h]

theorem simplify_embed (cfg : Config α) (e : Expr α) :
    simplify cfg (embed e) = (simpE cfg e >>= fun e' => .ok (embed e')) := by
  unfold simplify
  rw [simplifyWhole_eq cfg _ (embed_isSome e), simpRec_embed]
  rcases simpE_cases cfg e with ⟨e', h⟩ | h | h <;> simp [h]

end Tom
