import Verif.Lemmas.LinksMisc
/-
What a successful `CheckParent` says.
-/
set_option linter.unusedSectionVars false
set_option linter.unusedSimpArgs false
set_option linter.unusedVariables false
namespace Tom
variable {α : Type} [Dbl α]
open Raw

theorem find_path {root : PTree α} {a : Nat} (h : (root.find a).isSome = true) :
    ∃ q, root.find a = root.getAt q ∧ (root.getAt q).addr? = some a := by
  induction root with
  | nil => simp [find, isSome] at h
  | mk ty op o x l r ihl ihr =>
    simp only [find] at h ⊢
    by_cases h1 : o.addr = a
    · simp only [h1, if_true]
      exact ⟨[], by simp, by simp [addr?, h1]⟩
    · simp only [h1, if_false] at h ⊢
      by_cases h2 : (l.find a).isSome = true
      · simp only [h2, if_true]
        obtain ⟨q, e1, e2⟩ := ihl h2
        exact ⟨false :: q, by simpa [getAt] using e1, by simpa [getAt] using e2⟩
      · simp only [h2, if_false, Bool.false_eq_true] at h ⊢
        obtain ⟨q, e1, e2⟩ := ihr h
        exact ⟨true :: q, by simpa [getAt] using e1, by simpa [getAt] using e2⟩

theorem occurs_pos_of_path {t : PTree α} {q : Path} {a : Nat} (h : (t.getAt q).addr? = some a) : 0 < occurs a t :=
  Nat.lt_of_lt_of_le (occurs_of_addr h) (occurs_getAt_le t q a)

theorem path_unique {t : PTree α} {a : Nat} (hu : occurs a t ≤ 1) {q1 q2 : Path} (h1 : (t.getAt q1).addr? = some a)
    (h2 : (t.getAt q2).addr? = some a) : q1 = q2 := by
  induction t generalizing q1 q2 with
  | nil => simp [addr?] at h1
  | mk ty op o x l r ihl ihr =>
    simp only [occurs] at hu
    have top : ∀ (q : Path) (b : Bool), ((Raw.mk ty op o x l r).getAt (b :: q)).addr? = some a → o.addr ≠ a := by
      intro q b h e
      rw [if_pos e] at hu
      cases b
      · have := occurs_pos_of_path (t := l) (q := q) h; omega
      · have := occurs_pos_of_path (t := r) (q := q) h; omega
    cases q1 with
    | nil =>
      cases q2 with
      | nil => rfl
      | cons b q2 =>
        have := top q2 b h2
        simp [addr?] at h1
        exact absurd h1 this
    | cons b q1 =>
      cases q2 with
      | nil =>
        have := top q1 b h1
        simp [addr?] at h2
        exact absurd h2 this
      | cons c q2 =>
        cases b <;> cases c
        · rw [ihl (by omega) (q1 := q1) (q2 := q2) h1 h2]
        · have := occurs_pos_of_path (t := l) (q := q1) h1
          have := occurs_pos_of_path (t := r) (q := q2) h2
          omega
        · have := occurs_pos_of_path (t := r) (q := q1) h1
          have := occurs_pos_of_path (t := l) (q := q2) h2
          omega
        · rw [ihr (by omega) (q1 := q1) (q2 := q2) h1 h2]

/-- the stacked nodes hang below the root -/
def Below (root f : PTree α) : Prop := f.isSome = true ∧ ∃ p0 s, f = root.getAt (p0 ++ [s])

theorem checkParentLoop_sound {root : PTree α} (hu : ∀ a, occurs a root ≤ 1) (fuel : Nat) : ∀ (stk : List (PTree α)),
    (∀ f ∈ stk, Below root f) → checkParentLoop root fuel stk = .ok () →
    ∀ f ∈ stk, ∀ p0 s, f = root.getAt (p0 ++ [s]) → Linked (root.getAt p0).addr? f := by
  induction fuel with
  | zero =>
    intro stk _ h
    cases stk with
    | nil => simp
    | cons => simp [checkParentLoop] at h
  | succ fuel ih =>
    intro stk hB h
    cases stk with
    | nil => simp
    | cons f stk =>
      simp only [checkParentLoop] at h
      cases hp : f.parent? with
      | none => rw [hp] at h; simp at h
      | some p =>
        rw [hp] at h
        simp only at h
        by_cases h1 : (root.find p).isSome = false
        · simp [h1] at h
        · simp only [h1, if_false] at h
          have h1' : (root.find p).isSome = true := by simpa using h1
          by_cases h2 : (root.find p).left.addr? = f.addr? ∨ (root.find p).right.addr? = f.addr?
          · simp only [h2, if_true] at h
            by_cases h3 : checkOperatorNum f = true
            · simp only [h3, if_true] at h
              have hsub : ∀ g ∈ (if f.right.isSome then f.right :: (if f.left.isSome then f.left :: stk else stk)
                  else (if f.left.isSome then f.left :: stk else stk)), Below root g := by
                obtain ⟨hf, p0, s, hfp⟩ := hB f (by simp)
                intro g hg
                have : (g = f.right ∧ f.right.isSome = true) ∨ (g = f.left ∧ f.left.isSome = true) ∨ g ∈ stk := by
                  by_cases c1 : f.right.isSome = true <;> by_cases c2 : f.left.isSome = true <;>
                    simp [c1, c2] at hg ⊢ <;> tauto
                rcases this with ⟨rfl, c⟩ | ⟨rfl, c⟩ | hg
                · exact ⟨c, p0 ++ [s], true, by rw [getAt_true, ← hfp]⟩
                · exact ⟨c, p0 ++ [s], false, by rw [getAt_false, ← hfp]⟩
                · exact hB g (by simp [hg])
              have key := ih _ hsub h
              intro g hg p0 s hgp
              rcases List.mem_cons.mp hg with rfl | hg
              · obtain ⟨hf, _⟩ := hB g (by simp)
                -- the stored parent is the owner
                obtain ⟨q, e1, e2⟩ := find_path h1'
                obtain ⟨a, ha⟩ := addr?_of_isSome hf
                have hpar : (root.getAt p0).addr? = some p := by
                  rw [e1, ha] at h2
                  have : ∃ s', q ++ [s'] = p0 ++ [s] := by
                    rcases h2 with h2 | h2
                    · exact ⟨false, path_unique (hu a) (by rw [getAt_false]; exact h2) (by rw [← hgp]; exact ha)⟩
                    · exact ⟨true, path_unique (hu a) (by rw [getAt_true]; exact h2) (by rw [← hgp]; exact ha)⟩
                  obtain ⟨s', hs'⟩ := this
                  have : q = p0 := by
                    have := congrArg List.dropLast hs'
                    simpa using this
                  rw [← this]; exact e2
                rw [hpar]
                have hl : g.left.isSome = true → Linked g.addr? g.left := by
                  intro c
                  have := key g.left (by simp [c]; split <;> simp) (p0 ++ [s]) false (by rw [getAt_false, ← hgp])
                  rw [← hgp] at this; exact this
                have hr : g.right.isSome = true → Linked g.addr? g.right := by
                  intro c
                  have := key g.right (by simp [c]) (p0 ++ [s]) true (by rw [getAt_true, ← hgp])
                  rw [← hgp] at this; exact this
                clear hgp hg key hsub h3 h2 h ha
                cases g with
                | nil => simp [isSome] at hf
                | mk ty op o x l r =>
                  refine ⟨hp, ?_, ?_⟩
                  · cases l with
                    | nil => trivial
                    | mk => exact hl rfl
                  · cases r with
                    | nil => trivial
                    | mk => exact hr rfl
              · refine key g ?_ p0 s hgp
                split <;> split <;> simp [hg]
            · simp [h3] at h
          · simp [h2] at h

/-- A tree of different objects that passes `CheckParent` has right parent pointers. -/
theorem checkParent_sound {root : PTree α} (hu : ∀ a, occurs a root ≤ 1) (h : checkParent root = .ok ()) :
    Linked root.parent? root := by
  unfold checkParent at h
  by_cases h1 : root.isSome = false
  · simp [h1] at h
  · simp only [h1, if_false] at h
    by_cases h2 : checkOperatorNum root = true
    · simp only [h2, if_true] at h
      have key := checkParentLoop_sound hu _ _ ?_ h
      · have hl : root.left.isSome = true → Linked root.addr? root.left := by
          intro c
          have := key root.left (by simp [c]; split <;> simp) [] false (by simpa using (getAt_false root []).symm)
          simpa using this
        have hr : root.right.isSome = true → Linked root.addr? root.right := by
          intro c
          have := key root.right (by simp [c]) [] true (by simpa using (getAt_true root []).symm)
          simpa using this
        clear key h
        cases root with
        | nil => simp [isSome] at h1
        | mk ty op o x l r =>
          refine ⟨rfl, ?_, ?_⟩
          · cases l with
            | nil => trivial
            | mk => exact hl rfl
          · cases r with
            | nil => trivial
            | mk => exact hr rfl
      · intro g hg
        have : (g = root.right ∧ root.right.isSome = true) ∨ (g = root.left ∧ root.left.isSome = true) := by
          by_cases c1 : root.right.isSome = true <;> by_cases c2 : root.left.isSome = true <;>
            simp [c1, c2] at hg ⊢ <;> tauto
        rcases this with ⟨rfl, c⟩ | ⟨rfl, c⟩
        · exact ⟨c, [], true, by simpa using (getAt_true root []).symm⟩
        · exact ⟨c, [], false, by simpa using (getAt_false root []).symm⟩
    · simp [h2] at h

end Tom
