import Verif.Lemmas.LinksDiff2
import Verif.Lemmas.Print
/-
`CheckParent`, the operator overloads, the tree builder of the parser and `ToString`, with addresses.
-/
set_option linter.unusedSectionVars false
set_option linter.unusedSimpArgs false
set_option linter.unusedVariables false
namespace Tom
variable {α : Type} [Dbl α]
open Raw

/-! ### CheckParent -/

theorem checkOperatorNum_embed {t : PTree α} {e : Expr α} (h : t.erase = embed e) : checkOperatorNum t = true := by
  cases t with
  | nil => rfl
  | mk ty op o x l r =>
    cases e with
    | num v => simp only [erase_mk, embed, mkNum, Raw.mk.injEq] at h; obtain ⟨rfl, _⟩ := h; rfl
    | var y => simp only [erase_mk, embed, varNode, Raw.mk.injEq] at h; obtain ⟨rfl, _⟩ := h; rfl
    | un f e =>
      simp only [erase_mk, embed, Raw.mk.injEq] at h
      obtain ⟨rfl, rfl, _, _, h1, h2⟩ := h
      have e1 : l.isSome = true := by rw [← erase_isSome, h1]; simp
      have e2 : r.isSome = false := by rw [← erase_isSome, h2]; rfl
      simp [checkOperatorNum, e1, e2]
    | bin f e1 e2 =>
      simp only [erase_mk, embed, Raw.mk.injEq] at h
      obtain ⟨rfl, rfl, _, _, h1, h2⟩ := h
      have e1 : l.isSome = true := by rw [← erase_isSome, h1]; simp
      have e2 : r.isSome = true := by rw [← erase_isSome, h2]; simp
      simp [checkOperatorNum, e1, e2]

theorem embed_children (e : Expr α) : ((embed e).left = .nil ∨ ∃ e', (embed e).left = embed e') ∧
    ((embed e).right = .nil ∨ ∃ e', (embed e).right = embed e') := by
  cases e with
  | num v => exact ⟨.inl rfl, .inl rfl⟩
  | var y => exact ⟨.inl rfl, .inl rfl⟩
  | un f e => exact ⟨.inr ⟨e, rfl⟩, .inl rfl⟩
  | bin f a b => exact ⟨.inr ⟨a, rfl⟩, .inr ⟨b, rfl⟩⟩

/-- the stacked nodes are proper subtrees of the root and well formed -/
def SubOK (root f : PTree α) : Prop := ∃ p0 s, f = root.getAt (p0 ++ [s]) ∧ ∃ e, f.erase = embed e

theorem subOK_push {root t : PTree α} {p0 : Path} {stk : List (PTree α)} (ht : t = root.getAt p0) {e : Expr α}
    (he : t.erase = embed e) (hst : ∀ f ∈ stk, SubOK root f) :
    let stk1 := if t.left.isSome then t.left :: stk else stk
    let stk2 := if t.right.isSome then t.right :: stk1 else stk1
    (∀ f ∈ stk2, SubOK root f) ∧ sizes stk2 + 1 ≤ t.size + sizes stk := by
  have hc := embed_children e
  rw [← he, erase_left, erase_right] at hc
  have hL : t.left.isSome = true → SubOK root t.left := fun h => by
    refine ⟨p0, false, by rw [getAt_false, ht], ?_⟩
    rcases hc.1 with h' | h'
    · rw [← erase_isSome, h'] at h; simp [isSome] at h
    · exact h'
  have hR : t.right.isSome = true → SubOK root t.right := fun h => by
    refine ⟨p0, true, by rw [getAt_true, ht], ?_⟩
    rcases hc.2 with h' | h'
    · rw [← erase_isSome, h'] at h; simp [isSome] at h
    · exact h'
  have hsz : t.size = t.left.size + t.right.size + 1 := by
    cases t with
    | nil => rw [erase_nil] at he; cases e <;> cases he
    | mk => rfl
  have hz : ∀ u : PTree α, ¬ u.isSome = true → u.size = 0 := by
    intro u hu; cases u with
    | nil => rfl
    | mk => simp at hu
  by_cases h1 : t.left.isSome = true <;> by_cases h2 : t.right.isSome = true <;>
    simp only [h1, h2, if_true, if_false, Bool.false_eq_true]
  · refine ⟨?_, by simp [sizes]; omega⟩
    intro f hf
    simp only [List.mem_cons] at hf
    rcases hf with rfl | rfl | hf
    · exact hR h2
    · exact hL h1
    · exact hst f hf
  · refine ⟨?_, by simp [sizes]; omega⟩
    intro f hf
    simp only [List.mem_cons] at hf
    rcases hf with rfl | hf
    · exact hL h1
    · exact hst f hf
  · refine ⟨?_, by simp [sizes]; omega⟩
    intro f hf
    simp only [List.mem_cons] at hf
    rcases hf with rfl | hf
    · exact hR h2
    · exact hst f hf
  · exact ⟨hst, by omega⟩

theorem checkParentLoop_ok {root : PTree α} {n : Nat} (hs : Sound n root) (fuel : Nat) : ∀ (stk : List (PTree α)),
    (∀ f ∈ stk, SubOK root f) → sizes stk ≤ fuel → checkParentLoop root fuel stk = .ok () := by
  have hu : ∀ a, occurs a root ≤ 1 := fun a => (hs.2 a).1
  have hsome : ∀ (f : PTree α) (e : Expr α), f.erase = embed e → f.isSome = true := fun f e h => by
    rw [← erase_isSome, h]; simp
  induction fuel with
  | zero =>
    intro stk h hf
    cases stk with
    | nil => rfl
    | cons f stk =>
      obtain ⟨p0, s, h1, e, h2⟩ := h f (by simp)
      have := hsome f e h2
      cases f with
      | nil => simp [isSome] at this
      | mk => simp [sizes, size] at hf
  | succ fuel ih =>
    intro stk h hf
    cases stk with
    | nil => rfl
    | cons f stk =>
      obtain ⟨p0, s, h1, e, h2⟩ := h f (by simp)
      have hfs := hsome f e h2
      have hl := hs.1.at (p0 ++ [s])
      have hp0 : (root.getAt p0).isSome = true := by
        have hg := getAt_snoc root p0 s
        cases hq : root.getAt p0 with
        | nil =>
          rw [hq, ← h1] at hg
          rw [hg] at hfs
          cases s <;> simp [child, left, right, isSome] at hfs
        | mk => rfl
      obtain ⟨b, hb⟩ := addr?_of_isSome hp0
      rw [parentAt_snoc, hb, ← h1] at hl
      have hpar := hl.parent? hfs
      have hch : f = (root.getAt p0).child s := by rw [h1, getAt_snoc]
      have hor : (root.getAt p0).left.addr? = f.addr? ∨ (root.getAt p0).right.addr? = f.addr? := by
        cases s
        · left; rw [hch]; rfl
        · right; rw [hch]; rfl
      have hpush := subOK_push (stk := stk) h1 h2 (fun g hg => h g (by simp [hg]))
      simp only [checkParentLoop, hpar, find_getAt hu hb, hp0, Bool.true_eq_false, if_false, hor, if_true,
        checkOperatorNum_embed h2]
      refine ih _ hpush.1 ?_
      have := hpush.2
      simp only [sizes, List.map_cons, List.sum_cons] at hf this ⊢
      omega

/-- `CheckParent` accepts every sound tree. -/
theorem checkParent_ok {root : PTree α} {n : Nat} (hs : Sound n root) {e : Expr α} (he : root.erase = embed e) :
    checkParent root = .ok () := by
  have h1 : root.isSome = true := by rw [← erase_isSome, he]; simp
  have hpush := subOK_push (root := root) (p0 := []) (t := root) (stk := []) (by simp) he (by simp)
  unfold checkParent
  simp only [h1, Bool.true_eq_false, if_false, checkOperatorNum_embed he, if_true]
  refine checkParentLoop_ok hs _ _ hpush.1 ?_
  have := hpush.2
  simp only [sizes, List.map_nil, List.sum_nil] at this ⊢
  omega

/-! ### the tree builder of the parser -/

/-- the tokens without addresses -/
def eraseTokens (ts : List (PTree α × Nat)) : List (Token α) := ts.map fun t => ⟨t.1.erase, t.2⟩

/-- how many of the listed objects have the address `a` -/
def occursIn (a : Nat) (ts : List (PTree α × Nat)) : Nat := (ts.map fun t => occurs a t.1).sum

theorem pBuildLoop_sim : ∀ (ts stk : List (PTree α × Nat)),
    (∀ t ∈ ts, Linked none t.1 ∧ (t.1.isOperator = true → t.1.left = .nil ∧ t.1.right = .nil)) → (∀ t ∈ stk, Linked none t.1 ∧ t.1.isSome = true) →
    Res.Same (fun p c => eraseTokens p = c ∧ (∀ t ∈ p, Linked none t.1) ∧ ∀ a, occursIn a p = occursIn a ts + occursIn a stk)
      (pBuildLoop ts stk) (buildLoop (eraseTokens ts) (eraseTokens stk)) := by
  intro ts
  induction ts with
  | nil =>
    intro stk h1 h2
    exact .ok ⟨rfl, fun t ht => (h2 t ht).1, fun a => by simp [occursIn]⟩
  | cons t ts ih =>
    intro stk h1 h2
    obtain ⟨t, k⟩ := t
    have ht := h1 (t, k) (by simp)
    have hts : ∀ t ∈ ts, Linked none t.1 ∧ (t.1.isOperator = true → t.1.left = .nil ∧ t.1.right = .nil) := fun u hu => h1 u (by simp [hu])
    cases t with
    | nil => simp only [pBuildLoop, eraseTokens, List.map_cons, erase_nil, buildLoop]; exact .ub
    | mk ty op o x l r =>
      simp only [eraseTokens, List.map_cons, erase_mk]
      cases ty with
      | number =>
        simp only [pBuildLoop, buildLoop]
        refine (ih ((.mk .number op o x l r, k) :: stk) hts ?_).mono ?_
        · intro u hu
          simp only [List.mem_cons] at hu
          rcases hu with rfl | hu
          · exact ⟨ht.1, rfl⟩
          · exact h2 u hu
        · rintro b c ⟨g1, g2, g3⟩
          refine ⟨g1, g2, fun a => ?_⟩
          rw [g3]
          simp only [occursIn, List.map_cons, List.sum_cons]; omega
      | «variable» =>
        simp only [pBuildLoop, buildLoop]
        refine (ih ((.mk .variable op o x l r, k) :: stk) hts ?_).mono ?_
        · intro u hu
          simp only [List.mem_cons] at hu
          rcases hu with rfl | hu
          · exact ⟨ht.1, rfl⟩
          · exact h2 u hu
        · rintro b c ⟨g1, g2, g3⟩
          refine ⟨g1, g2, fun a => ?_⟩
          rw [g3]
          simp only [occursIn, List.map_cons, List.sum_cons]; omega
      | operator =>
        obtain ⟨hl0, hr0⟩ := ht.2 rfl
        simp only [left_mk, right_mk] at hl0 hr0
        subst hl0 hr0
        simp only [pBuildLoop, buildLoop]
        by_cases c2 : operatorNum op = 2
        · simp only [c2, if_true]
          cases stk with
          | nil => exact .throw _
          | cons u1 stk =>
            cases stk with
            | nil => exact .throw _
            | cons u2 stk =>
              obtain ⟨t1, k1⟩ := u1
              obtain ⟨t2, k2⟩ := u2
              have hu1 := h2 (t1, k1) (by simp)
              have hu2 := h2 (t2, k2) (by simp)
              obtain ⟨t1', a1, a2, a3, a4, a5, a6, a7, a8⟩ := setParent_mk (q := some o.addr) hu1.2
              obtain ⟨t2', b1, b2, b3, b4, b5, b6, b7, b8⟩ := setParent_mk (q := some o.addr) hu2.2
              simp only [a1, b1, Res.bind_ok, List.map_cons]
              have e : (⟨(Raw.setLeft (Raw.setRight (Raw.mk .operator op o.value x (Raw.nil : PTree α).erase (Raw.nil : PTree α).erase) t1.erase)
                  t2.erase), k⟩ : Token α) = ⟨(Raw.mk .operator op o x t2' t1').erase, k⟩ := by
                simp [Raw.setLeft, Raw.setRight, a2, b2]
              rw [e]
              refine (ih ((.mk .operator op o x t2' t1', k) :: stk) hts ?_).mono ?_
              · intro u hu
                simp only [List.mem_cons] at hu
                rcases hu with rfl | hu
                · exact ⟨⟨ht.1.1, b8 _ hu2.1, a8 _ hu1.1⟩, rfl⟩
                · exact h2 u (by simp [hu])
              · rintro b c ⟨g1, g2, g3⟩
                refine ⟨g1, g2, fun a => ?_⟩
                rw [g3]
                simp only [occursIn, List.map_cons, List.sum_cons, occurs_mk, occurs_nil, a3, b3]; omega
        · simp only [c2, if_false]
          by_cases c1 : operatorNum op = 1
          · simp only [c1, if_true]
            cases stk with
            | nil => exact .throw _
            | cons u1 stk =>
              obtain ⟨t1, k1⟩ := u1
              have hu1 := h2 (t1, k1) (by simp)
              obtain ⟨t1', a1, a2, a3, a4, a5, a6, a7, a8⟩ := setParent_mk (q := some o.addr) hu1.2
              simp only [a1, Res.bind_ok, List.map_cons]
              have e : (⟨(Raw.setLeft (Raw.mk .operator op o.value x (Raw.nil : PTree α).erase (Raw.nil : PTree α).erase) t1.erase), k⟩
                  : Token α) = ⟨(Raw.mk .operator op o x t1' .nil).erase, k⟩ := by
                simp [Raw.setLeft, Raw.setRight, a2]
              rw [e]
              refine (ih ((.mk .operator op o x t1' .nil, k) :: stk) hts ?_).mono ?_
              · intro u hu
                simp only [List.mem_cons] at hu
                rcases hu with rfl | hu
                · exact ⟨⟨ht.1.1, a8 _ hu1.1, trivial⟩, rfl⟩
                · exact h2 u (by simp [hu])
              · rintro b c ⟨g1, g2, g3⟩
                refine ⟨g1, g2, fun a => ?_⟩
                rw [g3]
                simp only [occursIn, List.map_cons, List.sum_cons, occurs_mk, occurs_nil, a3]; omega
          · simp only [c1, if_false]; exact .assertFail

/-- `BuildExpressionTree` with addresses: the tokens are childless objects without parent, all different. -/
theorem pBuild_sim (ts : List (PTree α × Nat)) (n : Nat)
    (h1 : ∀ t ∈ ts, Linked none t.1 ∧ (t.1.isOperator = true → t.1.left = .nil ∧ t.1.right = .nil))
    (h2 : ∀ a, occursIn a ts ≤ 1 ∧ (n ≤ a → occursIn a ts = 0)) :
    Res.Same (fun t c => t.erase = c ∧ Sound n t ∧ ∀ a, occurs a t ≤ occursIn a ts) (pBuildExpressionTree ts) (buildExpressionTree (eraseTokens ts)) := by
  unfold pBuildExpressionTree buildExpressionTree
  refine Res.Same.bind (pBuildLoop_sim ts [] h1 (by simp)) ?_
  rintro p c ⟨rfl, g2, g3⟩
  cases p with
  | nil => exact .ub
  | cons u p =>
    cases p with
    | nil =>
      refine .ok ⟨rfl, ⟨g2 u (by simp), fun a => ?_⟩, fun a => ?_⟩
      · have := g3 a
        have := h2 a
        simp only [occursIn, List.map_cons, List.map_nil, List.sum_cons, List.sum_nil] at *
        omega
      · have := g3 a
        simp only [occursIn, List.map_cons, List.map_nil, List.sum_cons, List.sum_nil] at *
        omega
    | cons v p =>
      have e : ((⟨v.1.erase, v.2⟩ : Token α) :: List.map (fun t : PTree α × Nat => (⟨t.1.erase, t.2⟩ : Token α)) p).map Token.pos
          = (v :: p).map Prod.snd := by
        simp [List.map_map, Function.comp_def]
      simp only [eraseTokens, List.map_cons] at e ⊢
      rw [e]
      exact .throw _

end Tom
