import Verif.Spec.Size
import Verif.Lemmas.Tree
import Verif.Lemmas.Simplify
import Verif.Lemmas.Subs
import Mathlib.Logic.Function.Iterate
/-
C100: how much work and memory the loops that replace recursion need.  The loops of the model take the number of iterations they are
allowed; `diverge` is the answer when that number is too small.
-/
namespace Tom
variable {α : Type} [Dbl α]

omit [Dbl α] in
theorem isSome_size {t : Raw α} (h : t.isSome = true) : t.size = t.left.size + t.right.size + 1 := by
  cases t with
  | nil => simp [Raw.isSome] at h
  | mk => simp [Raw.size, Raw.left, Raw.right]

omit [Dbl α] in
theorem size_of_none {t : Raw α} (h : ¬ t.isSome = true) : t.size = 0 := by
  cases t with
  | nil => rfl
  | mk => simp [Raw.isSome] at h

theorem embed_size_eq (e : Expr α) : (embed e).size = e.size := by
  induction e with
  | num => rfl
  | var => rfl
  | un o e ih => simp [embed, Raw.size, Expr.size, ih]
  | bin o a b iha ihb => simp [embed, Raw.size, Expr.size, iha, ihb]

/-- what one iteration of Vpa's first loop and of GetAllVarNames does to the stack: take the top, push its children, the right one last -/
def visitNext : List (Raw α) → List (Raw α)
  | [] => []
  | t :: stk =>
    let stk := if t.left.isSome then t.left :: stk else stk
    if t.right.isSome then t.right :: stk else stk

omit [Dbl α] in
theorem visitNext_some {t : Raw α} {stk : List (Raw α)} (hs : ∀ u ∈ t :: stk, u.isSome = true) :
    ∀ u ∈ visitNext (t :: stk), u.isSome = true := by
  intro u hu
  unfold visitNext at hu
  have h0 : ∀ u ∈ stk, u.isSome = true := fun u hu => hs u (List.mem_cons_of_mem _ hu)
  by_cases hl : t.left.isSome = true <;> by_cases hr : t.right.isSome = true <;> simp [hl, hr] at hu
  · rcases hu with rfl | rfl | hu
    · exact hr
    · exact hl
    · exact h0 u hu
  · rcases hu with rfl | hu
    · exact hl
    · exact h0 u hu
  · rcases hu with rfl | hu
    · exact hr
    · exact h0 u hu
  · exact h0 u hu

omit [Dbl α] in
theorem visitNext_sizes {t : Raw α} {stk : List (Raw α)} (ht : t.isSome = true) :
    sizes (visitNext (t :: stk)) + 1 = sizes (t :: stk) := by
  have h1 := isSome_size ht
  unfold visitNext
  by_cases hl : t.left.isSome = true <;> by_cases hr : t.right.isSome = true <;>
    simp only [hl, hr, if_true, if_false, sizes, List.map_cons, List.sum_cons, Bool.false_eq_true] <;>
    first
    | omega
    | (have := size_of_none hl; have := size_of_none hr; omega)
    | (have := size_of_none hl; omega)
    | (have := size_of_none hr; omega)

theorem vpaPartI_next (n : Nat) (t : Raw α) (stk out : List (Raw α)) :
    vpaPartI (n + 1) (t :: stk) out = vpaPartI n (visitNext (t :: stk)) (t :: out) := rfl

theorem varNamesLoop_next (n : Nat) (t : Raw α) (stk : List (Raw α)) (ret : List Str) :
    varNamesLoop (n + 1) (t :: stk) ret = varNamesLoop n (visitNext (t :: stk)) (addVar t ret) := rfl

theorem sizes_pos {t : Raw α} {stk : List (Raw α)} (ht : t.isSome = true) : 0 < sizes (t :: stk) := by
  have := isSome_size ht
  simp [sizes]; omega

theorem vpaPartI_work (n : Nat) (stk out : List (Raw α)) (hs : ∀ u ∈ stk, u.isSome = true) :
    vpaPartI n stk out = .diverge ↔ n < sizes stk := by
  induction n generalizing stk out with
  | zero =>
    cases stk with
    | nil => simp [vpaPartI, sizes]
    | cons t stk => simp [vpaPartI, sizes_pos (hs t List.mem_cons_self)]
  | succ n ih =>
    cases stk with
    | nil => simp [vpaPartI, sizes]
    | cons t stk =>
      rw [vpaPartI_next, ih _ _ (visitNext_some hs)]
      have := visitNext_sizes (stk := stk) (hs t List.mem_cons_self)
      omega

theorem varNamesLoop_work (n : Nat) (stk : List (Raw α)) (ret : List Str) (hs : ∀ u ∈ stk, u.isSome = true) :
    varNamesLoop n stk ret = .diverge ↔ n < sizes stk := by
  induction n generalizing stk ret with
  | zero =>
    cases stk with
    | nil => simp [varNamesLoop, sizes]
    | cons t stk => simp [varNamesLoop, sizes_pos (hs t List.mem_cons_self)]
  | succ n ih =>
    cases stk with
    | nil => simp [varNamesLoop, sizes]
    | cons t stk =>
      rw [varNamesLoop_next, ih _ _ (visitNext_some hs)]
      have := visitNext_sizes (stk := stk) (hs t List.mem_cons_self)
      omega

theorem cloneLoop_work (n : Nat) (stk : List (Raw α × Path)) (root : Raw α) (hs : ∀ x ∈ stk, x.1.isSome = true) :
    cloneLoop n stk root = .diverge ↔ n < srcSizes stk := by
  induction n generalizing stk root with
  | zero =>
    cases stk with
    | nil => simp [cloneLoop, srcSizes]
    | cons x stk =>
      have h := isSome_size (hs x List.mem_cons_self)
      simp [cloneLoop, srcSizes]; omega
  | succ n ih =>
    cases stk with
    | nil => simp [cloneLoop, srcSizes]
    | cons x stk =>
      obtain ⟨src, p⟩ := x
      have hs' : ∀ x ∈ stk, x.1.isSome = true := fun u hu => hs u (List.mem_cons_of_mem _ hu)
      simp only [cloneLoop]
      rw [ih _ _ (emplaceChildren_some _ _ _ hs')]
      have := srcSizes_emplaceChildren src p stk (hs _ List.mem_cons_self)
      simp only [srcSizes, List.map_cons, List.sum_cons] at this ⊢
      omega

/-- C100, Vpa: the loop that lists the nodes runs once for every node: `n` iterations are enough exactly when `n` is at least the size. -/
theorem C100_vpa_work (e : Expr α) (n : Nat) : vpaPartI n [embed e] [] = .diverge ↔ n < e.size := by
  rw [vpaPartI_work _ _ _ (by simp [embed_isSome])]
  simp [sizes, embed_size_eq]

/-- C100, GetAllVarNames: once for every node. -/
theorem C100_varNames_work (e : Expr α) (n : Nat) : varNamesLoop n [embed e] [] = .diverge ↔ n < e.size := by
  rw [varNamesLoop_work _ _ _ (by simp [embed_isSome])]
  simp [sizes, embed_size_eq]

/-- C100, Clone: once for every node but the root (which is copied before the loop). -/
theorem C100_clone_work (e : Expr α) (n : Nat) :
    cloneLoop n (emplaceChildren (embed e) [] []) (shallow (embed e)) = .diverge ↔ n < e.size - 1 := by
  rw [cloneLoop_work _ _ _ (emplaceChildren_some _ _ _ (by simp))]
  have := srcSizes_emplaceChildren (embed e) [] [] (embed_isSome e)
  rw [embed_size_eq] at this
  simp only [srcSizes, List.map_nil, List.sum_nil] at this ⊢
  omega

theorem simplifyPartI_work (root : Raw α) (n : Nat) (stk out : List Path) (hop : ∀ p ∈ stk, (root.getAt p).isOperator = true) :
    simplifyPartI root n stk out = .diverge ↔ n < (stk.map fun p => (preOps (root.getAt p) p).length).sum := by
  induction n generalizing stk out with
  | zero =>
    cases stk with
    | nil => simp [simplifyPartI]
    | cons p stk => simp [simplifyPartI, preOps_of_op (hop p List.mem_cons_self)]; omega
  | succ n ih =>
    cases stk with
    | nil => simp [simplifyPartI]
    | cons p stk =>
      have hp := hop p List.mem_cons_self
      have hop' : ∀ q ∈ stk, (root.getAt q).isOperator = true := fun q hq => hop q (List.mem_cons_of_mem _ hq)
      unfold simplifyPartI
      rw [ih]
      · by_cases hl : (root.getAt p).left.isOperator = true <;>
          by_cases hr : (root.getAt p).right.isOperator = true <;>
          simp [hl, hr, Raw.getAt_false, Raw.getAt_true, preOps_of_not, preOps_of_op hp] <;> omega
      · intro q hq
        by_cases hl : (root.getAt p).left.isOperator = true <;>
          by_cases hr : (root.getAt p).right.isOperator = true <;>
          simp [hl, hr] at hq
        · rcases hq with rfl | rfl | h
          · rw [Raw.getAt_true]; exact hr
          · rw [Raw.getAt_false]; exact hl
          · exact hop' q h
        · rcases hq with rfl | h
          · rw [Raw.getAt_false]; exact hl
          · exact hop' q h
        · rcases hq with rfl | h
          · rw [Raw.getAt_true]; exact hr
          · exact hop' q h
        · exact hop' q hq

theorem preOps_embed_length (e : Expr α) (p : Path) : (preOps (embed e) p).length = e.operators := by
  induction e generalizing p with
  | num => rfl
  | var => rfl
  | un o e ih => simp [embed, preOps, Expr.operators, ih]
  | bin o a b iha ihb => simp [embed, preOps, Expr.operators, iha, ihb]; omega

/-- C100, Simplify: the loop that lists the operators runs once for every operator. -/
theorem C100_simplify_work (o : UnOp) (e : Expr α) (n : Nat) :
    simplifyPartI (embed (.un o e)) n [[]] [] = .diverge ↔ n < (Expr.un o e).operators := by
  rw [simplifyPartI_work _ _ _ _ (by simp [Raw.getAt, embed, Raw.isOperator])]
  simp only [List.map_cons, List.map_nil, List.sum_cons, List.sum_nil, Raw.getAt, preOps_embed_length, Nat.add_zero]

/-- C100, Simplify of a binary operation. -/
theorem C100_simplify_work_bin (o : BinOp) (a b : Expr α) (n : Nat) :
    simplifyPartI (embed (.bin o a b)) n [[]] [] = .diverge ↔ n < (Expr.bin o a b).operators := by
  rw [simplifyPartI_work _ _ _ _ (by simp [Raw.getAt, embed, Raw.isOperator])]
  simp only [List.map_cons, List.map_nil, List.sum_cons, List.sum_nil, Raw.getAt, preOps_embed_length, Nat.add_zero]

/-! ### Memory -/

/-- height of a node tree -/
def Raw.height : Raw α → Nat
  | .nil => 0
  | .mk _ _ _ _ l r => max l.height r.height + 1

theorem embed_height (e : Expr α) : (embed e).height = e.height := by
  induction e with
  | num => rfl
  | var => rfl
  | un o e ih => simp [embed, Raw.height, Expr.height, ih]
  | bin o a b iha ihb => simp [embed, Raw.height, Expr.height, iha, ihb]

/-- every entry of the stack has height at most `H` less the number of entries below it -/
def StackFits (H : Nat) : List (Raw α) → Prop
  | [] => True
  | t :: stk => t.height + stk.length ≤ H ∧ StackFits H stk

omit [Dbl α] in
theorem stackFits_next {H : Nat} (stk : List (Raw α)) (h : StackFits H stk) : StackFits H (visitNext stk) := by
  cases stk with
  | nil => trivial
  | cons t stk =>
    obtain ⟨h1, h2⟩ := h
    have hh : t.left.height + 1 ≤ t.height ∨ t.left = .nil := by
      cases t with
      | nil => exact .inr rfl
      | mk => left; simp only [Raw.left, Raw.height]; omega
    have hh' : t.right.height + 1 ≤ t.height ∨ t.right = .nil := by
      cases t with
      | nil => exact .inr rfl
      | mk => left; simp only [Raw.right, Raw.height]; omega
    have sn : (Raw.nil : Raw α).isSome = true → False := by simp [Raw.isSome]
    unfold visitNext
    by_cases hl : t.left.isSome = true <;> by_cases hr : t.right.isSome = true <;>
      simp only [hl, hr, if_true, if_false, Bool.false_eq_true, StackFits, List.length_cons]
    · refine ⟨?_, ?_, h2⟩
      · rcases hh' with h | h
        · omega
        · rw [h] at hr; exact (sn hr).elim
      · rcases hh with h | h
        · omega
        · rw [h] at hl; exact (sn hl).elim
    · refine ⟨?_, h2⟩
      rcases hh with h | h
      · omega
      · rw [h] at hl; exact (sn hl).elim
    · refine ⟨?_, h2⟩
      rcases hh' with h | h
      · omega
      · rw [h] at hr; exact (sn hr).elim
    · exact h2

omit [Dbl α] in
theorem stackFits_length {H : Nat} {stk : List (Raw α)} (h : StackFits H stk) (hs : ∀ u ∈ stk, u.isSome = true) : stk.length ≤ H := by
  cases stk with
  | nil => simp
  | cons t stk =>
    have := hs t List.mem_cons_self
    have h1 : 1 ≤ t.height := by
      cases t with
      | nil => simp [Raw.isSome] at this
      | mk => simp [Raw.height]
    have := h.1
    simp only [List.length_cons]; omega

/-- C100, memory: after any number `k` of iterations the stack of Vpa's loop (and of GetAllVarNames, whose loop treats it alike) holds
no more entries than the expression is high; `visitNext` is what an iteration does to it. -/
theorem C100_stack (e : Expr α) (k : Nat) :
    (visitNext^[k] [embed e]).length ≤ e.height ∧
    (∀ n out, ∃ out', vpaPartI (n + k) [embed e] out = vpaPartI n (visitNext^[k] [embed e]) out') ∧
    (∀ n ret, ∃ ret', varNamesLoop (n + k) [embed e] ret = varNamesLoop n (visitNext^[k] [embed e]) ret') := by
  have h : StackFits e.height (visitNext^[k] [embed e]) ∧ ∀ u ∈ visitNext^[k] [embed e], u.isSome = true := by
    induction k with
    | zero => exact ⟨⟨by simp [embed_height], trivial⟩, by simp [embed_isSome]⟩
    | succ k ih =>
      rw [Function.iterate_succ_apply']
      refine ⟨stackFits_next _ ih.1, ?_⟩
      generalize visitNext^[k] [embed e] = stk at ih ⊢
      cases stk with
      | nil => simp [visitNext]
      | cons t stk => exact visitNext_some ih.2
  refine ⟨stackFits_length h.1 h.2, ?_, ?_⟩
  · clear h
    generalize [embed e] = stk
    induction k generalizing stk with
    | zero => exact fun n out => ⟨out, rfl⟩
    | succ k ih =>
      intro n out
      rw [Function.iterate_succ_apply, ← Nat.add_assoc]
      cases stk with
      | nil =>
        obtain ⟨out', ho⟩ := ih (visitNext []) n out
        exact ⟨out', ho ▸ by simp [visitNext, vpaPartI]⟩
      | cons t stk => rw [vpaPartI_next]; exact ih _ _ _
  · clear h
    generalize [embed e] = stk
    induction k generalizing stk with
    | zero => exact fun n out => ⟨out, rfl⟩
    | succ k ih =>
      intro n out
      rw [Function.iterate_succ_apply, ← Nat.add_assoc]
      cases stk with
      | nil =>
        obtain ⟨out', ho⟩ := ih (visitNext []) n out
        exact ⟨out', ho ▸ by simp [visitNext, varNamesLoop]⟩
      | cons t stk => rw [varNamesLoop_next]; exact ih _ _ _

/-- C100, non-vacuity: for `sin(1)+2*3` six nodes, three operators, height three. -/
example : (Expr.bin .add (.un .sin (.num 1)) (.bin .mul (.num 2) (.num 3)) : Expr Nat).size = 6 ∧
    (Expr.bin .add (.un .sin (.num 1)) (.bin .mul (.num 2) (.num 3)) : Expr Nat).operators = 3 ∧
    (Expr.bin .add (.un .sin (.num 1)) (.bin .mul (.num 2) (.num 3)) : Expr Nat).height = 3 := by decide

end Tom
