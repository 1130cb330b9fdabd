import Verif.Model.SubsSimplifyDiff
import Verif.Spec.Expr
import Verif.Lemmas.Path
/-
Lemmas about the tree algorithms: the explicit-stack loops compute the recursive functions.
-/
set_option linter.unusedSectionVars false
set_option linter.unusedSimpArgs false
set_option linter.unusedVariables false
namespace Tom
variable {α : Type} [Dbl α]

@[simp] theorem UnOp.operatorNum_toMathOp (o : UnOp) : operatorNum o.toMathOp = 1 := by cases o <;> rfl
@[simp] theorem BinOp.operatorNum_toMathOp (o : BinOp) : operatorNum o.toMathOp = 2 := by cases o <;> rfl

@[simp] theorem embed_isSome (e : Expr α) : (embed e).isSome = true := by cases e <;> rfl
@[simp] theorem size_embed (e : Expr α) : (embed e).size = e.size := by
  induction e with
  | num _ => rfl
  | var _ => rfl
  | un o e ih => simp [embed, Raw.size, Expr.size, ih]
  | bin o a b iha ihb => simp [embed, Raw.size, Expr.size, iha, ihb]

theorem Expr.size_pos (e : Expr α) : 0 < e.size := by cases e <;> simp [Expr.size]

@[simp] theorem isNumber_embed (e : Expr α) : (embed e).isNumber = e.isNum := by cases e <;> rfl
@[simp] theorem isVariable_embed (e : Expr α) : (embed e).isVariable = e.isVar := by cases e <;> rfl
@[simp] theorem isOperator_embed (e : Expr α) :
    (embed e).isOperator = (!e.isNum && !e.isVar) := by cases e <;> rfl

theorem embed_injective : Function.Injective (embed : Expr α → Raw α) := by
  intro a
  induction a with
  | num v => intro b h; cases b <;> simp_all [embed]
  | var v => intro b h; cases b <;> simp_all [embed]
  | un o e ih =>
    intro b h
    cases b with
    | un o' e' =>
      simp only [embed, Raw.mk.injEq, true_and, and_true] at h
      have : o = o' := by cases o <;> cases o' <;> simp_all [UnOp.toMathOp]
      rw [this, ih h.2]
    | bin o' a' b' =>
      simp only [embed, Raw.mk.injEq, true_and] at h
      have := congrArg Raw.isSome h.2.2
      simp [Raw.isSome] at this
      cases b' <;> simp [embed] at this
    | _ => simp [embed] at h
  | bin o a b iha ihb =>
    intro c h
    cases c with
    | bin o' a' b' =>
      simp only [embed, Raw.mk.injEq, true_and] at h
      have : o = o' := by cases o <;> cases o' <;> simp_all [BinOp.toMathOp]
      rw [this, iha h.2.1, ihb h.2.2]
    | un o' a' =>
      simp only [embed, Raw.mk.injEq, true_and] at h
      have := congrArg Raw.isSome h.2.2
      cases b <;> simp [embed, Raw.isSome] at this
    | _ => simp [embed] at h

/-! ### Vpa -/

/-- post-order sequence of nodes -/
def postorder : Raw α → List (Raw α)
  | .nil => []
  | .mk t o v x l r => postorder l ++ postorder r ++ [.mk t o v x l r]

def sizes (stk : List (Raw α)) : Nat := (stk.map Raw.size).sum

theorem vpaPartI_eq (fuel : Nat) (stk out : List (Raw α)) (hs : ∀ t ∈ stk, t.isSome = true)
    (hf : sizes stk ≤ fuel) :
    vpaPartI fuel stk out = .ok ((stk.reverse.map postorder).flatten ++ out) := by
  induction fuel generalizing stk out with
  | zero =>
    cases stk with
    | nil => simp [vpaPartI]
    | cons t ts =>
      have := hs t (by simp)
      cases t with
      | nil => simp [Raw.isSome] at this
      | mk => simp [sizes, Raw.size] at hf
  | succ n ih =>
    cases stk with
    | nil => simp [vpaPartI]
    | cons t ts =>
      have ht := hs t (by simp)
      have hts : ∀ t ∈ ts, t.isSome = true := fun u hu => hs u (by simp [hu])
      cases t with
      | nil => simp [Raw.isSome] at ht
      | mk ty o v x l r =>
        simp only [sizes, List.map_cons, List.sum_cons, Raw.size] at hf
        have key : ∀ stk', (∀ t ∈ stk', t.isSome = true) → sizes stk' ≤ n →
            (stk'.reverse.map postorder).flatten
              = ((ts.reverse.map postorder).flatten ++ postorder l) ++ postorder r →
            vpaPartI n stk' (Raw.mk ty o v x l r :: out)
              = .ok (((Raw.mk ty o v x l r :: ts).reverse.map postorder).flatten ++ out) := by
          intro stk' h1 h2 h3
          rw [ih _ _ h1 h2, h3]
          simp [postorder]
        unfold vpaPartI
        simp only [Raw.left, Raw.right]
        cases l with
        | nil =>
          cases r with
          | nil =>
            simp only [Raw.isSome]
            refine key _ hts (by simp [Raw.size, sizes] at hf ⊢; omega) (by simp [postorder])
          | mk =>
            simp only [Raw.isSome]
            refine key _ ?_ ?_ ?_
            · intro t ht'; simp at ht'; rcases ht' with h | h
              · subst h; rfl
              · exact hts t h
            · simp [sizes, Raw.size] at hf ⊢; omega
            · simp [postorder]
        | mk =>
          cases r with
          | nil =>
            simp only [Raw.isSome]
            refine key _ ?_ ?_ ?_
            · intro t ht'; simp at ht'; rcases ht' with h | h
              · subst h; rfl
              · exact hts t h
            · simp [sizes, Raw.size] at hf ⊢; omega
            · simp [postorder]
          | mk =>
            simp only [Raw.isSome]
            refine key _ ?_ ?_ ?_
            · intro t ht'; simp at ht'; rcases ht' with h | h | h
              · subst h; rfl
              · subst h; rfl
              · exact hts t h
            · simp [sizes, Raw.size] at hf ⊢; omega
            · simp [postorder]

theorem vpaPartII_append (cfg : Config α) (xs ys : List (Raw α)) (st : List α) :
    vpaPartII cfg (xs ++ ys) st = (vpaPartII cfg xs st >>= fun st => vpaPartII cfg ys st) := by
  induction xs generalizing st with
  | nil => simp [vpaPartII]
  | cons x xs ih =>
    simp only [List.cons_append, vpaPartII]
    rw [Res.bind_assoc']
    congr 1
    funext st'
    exact ih st'

theorem calcOp_un (cfg : Config α) (o : UnOp) (v w : α) :
    calcOp cfg o.toMathOp v w = checked cfg.throwOnInvalidValue (o.apply v) := by
  cases o <;> simp [calcOp, calcRaw, UnOp.toMathOp, UnOp.apply, checked] <;>
    cases cfg.throwOnInvalidValue <;> simp

theorem calcOp_bin (cfg : Config α) (o : BinOp) (v w : α) :
    calcOp cfg o.toMathOp v w = (match o.apply v w with
      | none => .ub
      | some r => checked cfg.throwOnInvalidValue r) := by
  have aux : ∀ r : α, (if cfg.throwOnInvalidValue = false then Res.ok r
      else if Dbl.isInvalid r = true then .throw (.math .invalidNumber) else .ok r)
      = checked cfg.throwOnInvalidValue r := by
    intro r; cases h : cfg.throwOnInvalidValue <;> simp [checked]
  cases o <;> simp only [calcOp, calcRaw, BinOp.toMathOp, BinOp.apply, Res.bind_ok, aux]
  · cases Dbl.toInt32 v <;> cases Dbl.toInt32 w <;> simp [aux]
  · cases Dbl.toInt32 v <;> cases Dbl.toInt32 w <;> simp [aux]
  · cases Dbl.toInt32 v <;> cases Dbl.toInt32 w <;> simp [aux]
    rename_i a b
    by_cases hb : b = 0
    · simp [hb]
    · by_cases h2 : a = -2147483648 ∧ b = -1
      · simp [hb, h2]
      · simp [hb, h2, aux]

/-- Running part II over the post-order of an embedded expression pushes its value. -/
theorem vpaPartII_postorder (cfg : Config α) (e : Expr α) (st : List α) :
    vpaPartII cfg (postorder (embed e)) st
      = (e.eval cfg.throwOnInvalidValue noEnv >>= fun v => .ok (v :: st)) := by
  induction e generalizing st with
  | num v => simp [embed, postorder, vpaPartII, vpaStep, Expr.eval]
  | var x => simp [embed, postorder, vpaPartII, vpaStep, Expr.eval, noEnv]
  | un o e ih =>
    simp only [embed, postorder, vpaPartII_append, ih, Expr.eval, Res.bind_assoc', List.append_nil]
    congr 1; funext v
    simp [vpaPartII, vpaStep, calcOp_un]
  | bin o a b iha ihb =>
    simp only [embed, postorder, vpaPartII_append, iha, ihb, Expr.eval, Res.bind_assoc']
    congr 1; funext v
    simp only [Res.bind_ok, ihb, Res.bind_assoc']
    congr 1; funext w
    simp only [Res.bind_ok, vpaPartII, vpaStep, calcOp_bin, BinOp.operatorNum_toMathOp]
    cases o.apply v w <;> simp

theorem vpa_embed (cfg : Config α) (e : Expr α) :
    vpa cfg (embed e) = e.eval cfg.throwOnInvalidValue noEnv := by
  unfold vpa
  rw [if_pos (embed_isSome e), vpaPartI_eq _ _ _ (by simp) (by simp [sizes])]
  simp only [List.reverse_cons, List.reverse_nil, List.nil_append, List.map_cons, List.map_nil,
    List.flatten_cons, List.flatten_nil, List.append_nil, Res.bind_ok, vpaPartII_postorder]
  cases e.eval cfg.throwOnInvalidValue noEnv <;> simp

/-! ### Equal -/

/-- recursive comparison -/
def sameTree : Raw α → Raw α → Bool
  | .nil, .nil => true
  | .mk t1 o1 v1 x1 l1 r1, .mk t2 o2 v2 x2 l2 r2 =>
    sameFields (.mk t1 o1 v1 x1 l1 r1) (.mk t2 o2 v2 x2 l2 r2) && sameTree l1 l2 && sameTree r1 r2
  | _, _ => false

def pairSizes (stk : List (Raw α × Raw α)) : Nat := (stk.map fun ab => ab.1.size).sum

theorem checkChildren_spec (l r : Raw α) (stk : List (Raw α × Raw α)) :
    (checkChildren l r stk = none ∧ sameTree l r = false) ∨
    (∃ stk', checkChildren l r stk = some stk' ∧ pairSizes stk' = l.size + pairSizes stk ∧
      (stk'.all fun ab => sameTree ab.1 ab.2) = (sameTree l r && stk.all fun ab => sameTree ab.1 ab.2)) := by
  cases l <;> cases r
  · right; exact ⟨stk, by simp [checkChildren, Raw.isSome], by simp [Raw.size], by simp [sameTree]⟩
  · left; simp [checkChildren, Raw.isSome, sameTree]
  · left; simp [checkChildren, Raw.isSome, sameTree]
  · right; exact ⟨_, by simp [checkChildren, Raw.isSome]; rfl, by simp [pairSizes], by simp⟩

theorem checkNode_spec (a b : Raw α) (ha : a.isSome = true) (hb : b.isSome = true) (stk : List (Raw α × Raw α)) :
    (checkNode a b stk = none ∧ sameTree a b = false) ∨
    (∃ stk', checkNode a b stk = some stk' ∧ pairSizes stk' + 1 = a.size + pairSizes stk ∧
      (stk'.all fun ab => sameTree ab.1 ab.2) = (sameTree a b && stk.all fun ab => sameTree ab.1 ab.2)) := by
  cases a with
  | nil => simp [Raw.isSome] at ha
  | mk t1 o1 v1 x1 l1 r1 =>
  cases b with
  | nil => simp [Raw.isSome] at hb
  | mk t2 o2 v2 x2 l2 r2 =>
    simp only [checkNode, Raw.left, Raw.right, sameTree]
    by_cases hsf : sameFields (Raw.mk t1 o1 v1 x1 l1 r1) (Raw.mk t2 o2 v2 x2 l2 r2) = true
    · simp only [hsf, if_true, Bool.true_and]
      rcases checkChildren_spec l1 l2 stk with ⟨h1, h2⟩ | ⟨s1, h1, h2, h3⟩
      · left; simp [h1, h2]
      · simp only [h1]
        rcases checkChildren_spec r1 r2 s1 with ⟨h4, h5⟩ | ⟨s2, h4, h5, h6⟩
        · left; simp [h4, h5]
        · right
          refine ⟨s2, h4, ?_, ?_⟩
          · simp [Raw.size]; omega
          · rw [h6, h3]
            cases sameTree l1 l2 <;> cases sameTree r1 r2 <;> rfl
    · left; simp [hsf]

theorem checkChildren_some (l r : Raw α) (stk stk' : List (Raw α × Raw α))
    (hs : ∀ ab ∈ stk, ab.1.isSome = true ∧ ab.2.isSome = true)
    (h : checkChildren l r stk = some stk') : ∀ ab ∈ stk', ab.1.isSome = true ∧ ab.2.isSome = true := by
  unfold checkChildren at h
  split at h
  · cases h
  · split at h
    · rename_i h1
      cases h
      intro ab hab
      simp at hab
      rcases hab with h | h
      · subst h; simpa using h1
      · exact hs ab h
    · cases h; exact hs

theorem checkNode_some (a b : Raw α) (stk stk' : List (Raw α × Raw α))
    (hs : ∀ ab ∈ stk, ab.1.isSome = true ∧ ab.2.isSome = true)
    (h : checkNode a b stk = some stk') : ∀ ab ∈ stk', ab.1.isSome = true ∧ ab.2.isSome = true := by
  unfold checkNode at h
  split at h
  · split at h
    · cases h
    · rename_i s1 h1
      exact checkChildren_some _ _ _ _ (checkChildren_some _ _ _ _ hs h1) h
  · cases h

theorem equalLoop_eq (fuel : Nat) (stk : List (Raw α × Raw α))
    (hs : ∀ ab ∈ stk, ab.1.isSome = true ∧ ab.2.isSome = true) (hf : pairSizes stk ≤ fuel) :
    equalLoop fuel stk = .ok (stk.all fun ab => sameTree ab.1 ab.2) := by
  induction fuel generalizing stk with
  | zero =>
    cases stk with
    | nil => simp [equalLoop]
    | cons ab stk =>
      have := (hs ab (by simp)).1
      obtain ⟨a, b⟩ := ab
      cases a with
      | nil => simp [Raw.isSome] at this
      | mk => simp [pairSizes, Raw.size] at hf
  | succ n ih =>
    cases stk with
    | nil => simp [equalLoop]
    | cons ab stk =>
      obtain ⟨a, b⟩ := ab
      have hab := hs (a, b) (by simp)
      have hs' : ∀ ab ∈ stk, ab.1.isSome = true ∧ ab.2.isSome = true := fun u hu => hs u (by simp [hu])
      rcases checkNode_spec a b hab.1 hab.2 stk with ⟨h1, h2⟩ | ⟨s1, h1, h2, h3⟩
      · simp [equalLoop, h1, h2]
      · simp only [equalLoop, h1]
        rw [ih s1 (checkNode_some _ _ _ _ hs' h1) (by simp [pairSizes] at hf h2 ⊢; omega), h3]
        simp

theorem equal_eq (a b : Raw α) (ha : a.isSome = true) (hb : b.isSome = true) :
    equal false a b = .ok (sameTree a b) := by
  simp only [equal, ha, hb, Bool.and_self, if_true, Bool.false_eq_true, if_false]
  rcases checkNode_spec a b ha hb [] with ⟨h1, h2⟩ | ⟨s1, h1, h2, h3⟩
  · simp [h1, h2]
  · simp only [h1]
    rw [equalLoop_eq _ _ (checkNode_some _ _ _ _ (by simp) h1) (by simp [pairSizes] at h2 ⊢; omega), h3]
    simp

/-! ### Clone -/

def fill (root : Raw α) (stk : List (Raw α × Path)) : Raw α :=
  stk.foldl (fun t sp => t.setAt sp.2 sp.1) root

def srcSizes (stk : List (Raw α × Path)) : Nat := (stk.map fun ab => ab.1.size).sum

theorem fill_emplaceChildren (src : Raw α) (p : Path) (stk : List (Raw α × Path)) (root : Raw α) :
    fill (root.setAt p (shallow src)) (emplaceChildren src p stk) = fill (root.setAt p src) stk := by
  cases src with
  | nil => simp [emplaceChildren, Raw.left, Raw.right, Raw.isSome, shallow]
  | mk t o v x l r =>
    cases l <;> cases r <;>
      simp [emplaceChildren, Raw.left, Raw.right, Raw.isSome, shallow, fill, Raw.setAt_append, Raw.setAt]

theorem srcSizes_emplaceChildren (src : Raw α) (p : Path) (stk : List (Raw α × Path))
    (h : src.isSome = true) : srcSizes (emplaceChildren src p stk) + 1 = src.size + srcSizes stk := by
  cases src with
  | nil => simp [Raw.isSome] at h
  | mk t o v x l r =>
    cases l <;> cases r <;>
      simp [emplaceChildren, Raw.left, Raw.right, Raw.isSome, srcSizes, Raw.size] <;> omega

theorem emplaceChildren_some (src : Raw α) (p : Path) (stk : List (Raw α × Path))
    (hs : ∀ x ∈ stk, x.1.isSome = true) : ∀ x ∈ emplaceChildren src p stk, x.1.isSome = true := by
  cases src with
  | nil => simpa [emplaceChildren, Raw.left, Raw.right, Raw.isSome] using hs
  | mk t o v x l r =>
    cases l <;> cases r <;> intro y hy <;>
      simp [emplaceChildren, Raw.left, Raw.right, Raw.isSome] at hy <;>
      first
      | exact hs y hy
      | (rcases hy with h | h | h
         · subst h; rfl
         · subst h; rfl
         · exact hs y h)
      | (rcases hy with h | h
         · subst h; rfl
         · exact hs y h)

theorem cloneLoop_eq (fuel : Nat) (stk : List (Raw α × Path)) (root : Raw α)
    (hs : ∀ x ∈ stk, x.1.isSome = true) (hf : srcSizes stk ≤ fuel) :
    cloneLoop fuel stk root = .ok (fill root stk) := by
  induction fuel generalizing stk root with
  | zero =>
    cases stk with
    | nil => simp [cloneLoop, fill]
    | cons x stk =>
      have := hs x (by simp)
      obtain ⟨a, b⟩ := x
      cases a with
      | nil => simp [Raw.isSome] at this
      | mk => simp [srcSizes, Raw.size] at hf
  | succ n ih =>
    cases stk with
    | nil => simp [cloneLoop, fill]
    | cons x stk =>
      obtain ⟨src, p⟩ := x
      have hx := hs (src, p) (by simp)
      have hs' : ∀ x ∈ stk, x.1.isSome = true := fun u hu => hs u (by simp [hu])
      simp only [cloneLoop]
      rw [ih _ _ (emplaceChildren_some _ _ _ hs')
        (by have := srcSizes_emplaceChildren src p stk hx; simp [srcSizes] at this hf ⊢; omega),
        fill_emplaceChildren]
      simp [fill]

theorem clone_eq (t : Raw α) (h : t.isSome = true) : clone t = .ok t := by
  simp only [clone, h, if_true]
  rw [cloneLoop_eq _ _ _ (emplaceChildren_some _ _ _ (by simp))
    (by have := srcSizes_emplaceChildren t [] [] h; simp [srcSizes] at this ⊢; omega)]
  have := fill_emplaceChildren t [] [] t
  simp [fill] at this
  simp [fill, this]

/-! ### Sets and maps keyed by strings -/

theorem strLt_irrefl (x : Str) : strLt x x = false := by
  induction x with
  | nil => rfl
  | cons a as ih => simp [strLt, ih]

theorem strLt_cons (a b : Char) (as bs : Str) :
    strLt (a :: as) (b :: bs) = true ↔ a < b ∨ (a = b ∧ strLt as bs = true) := by
  simp only [strLt]
  split
  · rename_i h; simp [h]
  · rename_i h
    split
    · rename_i h2
      simp only [Bool.false_eq_true, false_iff, not_or, h, not_false_eq_true, true_and]
      rintro ⟨rfl, _⟩
      exact h h2
    · rename_i h2
      have : a = b := Char.le_antisymm (Char.not_lt.mp h2) (Char.not_lt.mp h)
      simp [h, this]

theorem strLt_trans {x y z : Str} (h1 : strLt x y = true) (h2 : strLt y z = true) : strLt x z = true := by
  induction x generalizing y z with
  | nil =>
    cases y with
    | nil => simp [strLt] at h1
    | cons b bs =>
      cases z with
      | nil => simp [strLt] at h2
      | cons c cs => rfl
  | cons a as ih =>
    cases y with
    | nil => simp [strLt] at h1
    | cons b bs =>
      cases z with
      | nil => simp [strLt] at h2
      | cons c cs =>
        rw [strLt_cons] at h1 h2 ⊢
        rcases h1 with h1 | ⟨h1, h1'⟩ <;> rcases h2 with h2 | ⟨h2, h2'⟩
        · exact .inl (Char.lt_trans h1 h2)
        · subst h2; exact .inl h1
        · subst h1; exact .inl h2
        · subst h1; subst h2; exact .inr ⟨rfl, ih h1' h2'⟩

theorem strLt_total {x y : Str} (h1 : strLt x y = false) (h2 : strLt y x = false) : x = y := by
  induction x generalizing y with
  | nil =>
    cases y with
    | nil => rfl
    | cons b bs => simp [strLt] at h1
  | cons a as ih =>
    cases y with
    | nil => simp [strLt] at h2
    | cons b bs =>
      have e1 : ¬ (a < b ∨ (a = b ∧ strLt as bs = true)) := by rw [← strLt_cons, h1]; simp
      have e2 : ¬ (b < a ∨ (b = a ∧ strLt bs as = true)) := by rw [← strLt_cons, h2]; simp
      simp only [not_or] at e1 e2
      have : a = b := Char.le_antisymm (Char.not_lt.mp e2.1) (Char.not_lt.mp e1.1)
      subst this
      rw [ih (by simpa using e1.2) (by simpa using e2.2)]

theorem mem_setInsert (x y : Str) (s : List Str) : y ∈ setInsert x s ↔ y = x ∨ y ∈ s := by
  induction s with
  | nil => simp [setInsert]
  | cons z zs ih =>
    simp only [setInsert]
    split
    · simp
    · split
      · simp [ih]; constructor
        · rintro (h | h | h) <;> simp [h]
        · rintro (h | h | h) <;> simp [h]
      · rename_i h1 h2
        have : x = z := strLt_total (by simpa using h1) (by simpa using h2)
        subst this
        simp

theorem setInsert_sorted (x : Str) (s : List Str) (h : s.Pairwise (fun a b => strLt a b = true)) :
    (setInsert x s).Pairwise (fun a b => strLt a b = true) := by
  induction s with
  | nil => simp [setInsert]
  | cons z zs ih =>
    rw [List.pairwise_cons] at h
    simp only [setInsert]
    split
    · rename_i hxz
      rw [List.pairwise_cons]
      refine ⟨?_, List.pairwise_cons.mpr h⟩
      intro b hb
      simp at hb
      rcases hb with hb | hb
      · subst hb; exact hxz
      · exact strLt_trans hxz (h.1 b hb)
    · split
      · rename_i hzx
        rw [List.pairwise_cons]
        refine ⟨?_, ih h.2⟩
        intro b hb
        rw [mem_setInsert] at hb
        rcases hb with hb | hb
        · subst hb; exact hzx
        · exact h.1 b hb
      · exact List.pairwise_cons.mpr h

/-! ### GetAllVarNames -/

/-- Is the string a variable name in the tree? -/
def HasVar (y : Str) : Raw α → Prop
  | .nil => False
  | .mk t _ _ x l r => (t = .variable ∧ x = y) ∨ HasVar y l ∨ HasVar y r

theorem varNamesLoop_spec (fuel : Nat) (stk : List (Raw α)) (ret : List Str)
    (hs : ∀ t ∈ stk, t.isSome = true) (hf : sizes stk ≤ fuel)
    (hr : ret.Pairwise (fun a b => strLt a b = true)) :
    ∃ out, varNamesLoop fuel stk ret = .ok out ∧ out.Pairwise (fun a b => strLt a b = true) ∧
      ∀ y, y ∈ out ↔ y ∈ ret ∨ ∃ t ∈ stk, HasVar y t := by
  induction fuel generalizing stk ret with
  | zero =>
    cases stk with
    | nil => exact ⟨ret, by simp [varNamesLoop], hr, by simp⟩
    | cons t ts =>
      have := hs t (by simp)
      cases t with
      | nil => simp [Raw.isSome] at this
      | mk => simp [sizes, Raw.size] at hf
  | succ n ih =>
    cases stk with
    | nil => exact ⟨ret, by simp [varNamesLoop], hr, by simp⟩
    | cons t ts =>
      have ht := hs t (by simp)
      have hts : ∀ t ∈ ts, t.isSome = true := fun u hu => hs u (by simp [hu])
      cases t with
      | nil => simp [Raw.isSome] at ht
      | mk ty o v x l r =>
        simp only [sizes, List.map_cons, List.sum_cons, Raw.size] at hf
        have hr' : (addVar (.mk ty o v x l r) ret).Pairwise (fun a b => strLt a b = true) := by
          cases ty <;> simp [addVar, hr, setInsert_sorted]
        have hmem : ∀ y, y ∈ addVar (.mk ty o v x l r) ret ↔ y ∈ ret ∨ (ty = .variable ∧ x = y) := by
          intro y
          cases ty <;> simp [addVar, mem_setInsert]
          constructor
          · rintro (h | h) <;> simp [h]
          · rintro (h | h) <;> simp [h]
        have key : ∀ stk' : List (Raw α), (∀ t ∈ stk', t.isSome = true) → sizes stk' ≤ n →
            (∀ y, (∃ t ∈ stk', HasVar y t) ↔ HasVar y l ∨ HasVar y r ∨ ∃ t ∈ ts, HasVar y t) →
            ∃ out, varNamesLoop n stk' (addVar (.mk ty o v x l r) ret) = .ok out ∧ out.Pairwise (fun a b => strLt a b = true) ∧
              ∀ y, y ∈ out ↔ y ∈ ret ∨ ∃ t ∈ (Raw.mk ty o v x l r :: ts), HasVar y t := by
          intro stk' h1 h2 h3
          obtain ⟨out, ho, hp, hm⟩ := ih stk' _ h1 h2 hr'
          refine ⟨out, ho, hp, ?_⟩
          intro y
          rw [hm, hmem, h3]
          simp [HasVar, or_assoc]
        unfold varNamesLoop
        simp only [Raw.left, Raw.right]
        cases l <;> cases r <;> simp only [Raw.isSome, if_true, Bool.false_eq_true, if_false] <;>
          refine key _ ?_ ?_ ?_ <;>
          first
          | exact hts
          | (intro t ht'; simp at ht'
             first
             | (rcases ht' with h | h | h
                · subst h; rfl
                · subst h; rfl
                · exact hts t h)
             | (rcases ht' with h | h
                · subst h; rfl
                · exact hts t h))
          | (simp [sizes, Raw.size] at hf ⊢; omega)
          | (intro y; simp [HasVar, or_assoc, or_left_comm])

theorem hasVar_embed (y : Str) (e : Expr α) : HasVar y (embed e) ↔ y ∈ e.vars := by
  induction e with
  | num v => simp [embed, HasVar, Expr.vars]
  | var x => simp [embed, HasVar, Expr.vars, eq_comm]
  | un o e ih => simp [embed, HasVar, Expr.vars, ih]
  | bin o a b iha ihb => simp [embed, HasVar, Expr.vars, iha, ihb]

theorem getAllVarNames_embed (e : Expr α) :
    ∃ out, getAllVarNames (embed e) = .ok out ∧ out.Pairwise (fun a b => strLt a b = true) ∧
      ∀ y, y ∈ out ↔ y ∈ e.vars := by
  unfold getAllVarNames
  rw [if_pos (embed_isSome e)]
  obtain ⟨out, h1, h2, h3⟩ := varNamesLoop_spec (embed e).size [embed e] [] (by simp) (by simp [sizes]) (by simp)
  exact ⟨out, h1, h2, by intro y; rw [h3]; simp [hasVar_embed]⟩

end Tom
