import Verif.Lemmas.Links
import Verif.Lemmas.Tree
import Mathlib.Data.List.Forall2
/-
Clone and the operator overloads, with addresses.
-/
set_option linter.unusedSectionVars false
set_option linter.unusedSimpArgs false
set_option linter.unusedVariables false
namespace Tom
variable {α : Type}
open Raw

theorem Raw.Incomp.not_prefix {p q : Path} (h : Raw.Incomp p q) : ¬ p <+: q := by
  induction h with
  | fork b p q => intro h; simp [List.cons_prefix_cons] at h
  | cons b _ ih => intro h; exact ih (by simpa [List.cons_prefix_cons] using h)

theorem Raw.Incomp.not_prefix_snoc {p q : Path} {s : Bool} (h : Raw.Incomp p (q ++ [s])) : ¬ p <+: q := fun hp =>
  h.not_prefix (hp.trans (List.prefix_append q [s]))

/-- a tree made of objects allocated in `[lo, n)` only -/
def New (lo n : Nat) (t : PTree α) : Prop :=
  lo ≤ n ∧ ∀ a, occurs a t ≤ 1 ∧ (a < lo → occurs a t = 0) ∧ (n ≤ a → occurs a t = 0)

/-- an entry of the stack of `Clone`, with the path of its target -/
structure CloneEntry (root : PTree α) (e : PTree α × Nat × Slot) (v : Raw α × Path) : Prop where
  src : v.1 = e.1.erase
  some : e.1.isSome = true
  target : ∃ q s, v.2 = q ++ [s] ∧ e.2.2 = .field e.2.1 s ∧ (root.getAt q).addr? = Option.some e.2.1 ∧
    root.getAt (q ++ [s]) = .nil

theorem CloneEntry.setAt {root s : PTree α} {e : PTree α × Nat × Slot} {v : Raw α × Path} {p : Path}
    (h : CloneEntry root e v) (hp : Incomp p v.2) : CloneEntry (root.setAt p s) e v := by
  obtain ⟨q, sd, h1, h2, h3, h4⟩ := h.target
  rw [h1] at hp
  refine ⟨h.src, h.some, q, sd, h1, h2, ?_, ?_⟩
  · rw [addr?_getAt_setAt hp.not_prefix_snoc]; exact h3
  · rw [getAt_setAt_incomp hp]; exact h4

theorem pCloneLoop_sim (fuel : Nat) (lo : Nat) : ∀ (n : Nat) (stk : List (PTree α × Nat × Slot)) (vs : List (Raw α × Path))
    (root : PTree α), List.Forall₂ (CloneEntry root) stk vs → (vs.map Prod.snd).Pairwise Incomp →
    Linked none root → New lo n root →
    Res.Same (fun p c => p.1.erase = c ∧ Linked none p.1 ∧ New lo p.2 p.1) (pCloneLoop fuel stk root n)
      (cloneLoop fuel vs root.erase) := by
  induction fuel with
  | zero =>
    intro n stk vs root h hp hl hn
    cases h with
    | nil => simp only [pCloneLoop, cloneLoop, LM.pure_run]; exact .ok ⟨rfl, hl, hn⟩
    | cons h1 h2 => simp only [pCloneLoop, cloneLoop]; exact .diverge
  | succ fuel ih =>
    intro n stk vs root h hp hl hn
    cases h with
    | nil => simp only [pCloneLoop, cloneLoop, LM.pure_run]; exact .ok ⟨rfl, hl, hn⟩
    | @cons e v stk vs h1 h2 =>
      obtain ⟨src, par, slot⟩ := e
      obtain ⟨vsrc, vp⟩ := v
      obtain ⟨q, s, e1, e2, e3, e4⟩ := h1.target
      have e0 := h1.src
      have hsome := h1.some
      simp only at e0 e1 e2 e3 e4 hsome
      subst e0 e1 e2
      simp only [List.map_cons, List.pairwise_cons] at hp
      cases src with
      | nil => simp [isSome] at hsome
      | mk ty op o x l r =>
        have hu : ∀ a, occurs a root ≤ 1 := fun a => (hn.2 a).1
        simp only [pCloneLoop, cloneLoop, pMakeNode, newNode, LM.bind_run, LM.fresh_run, LM.pure_run, Res.bind_ok,
          LM.lift_run, setParent, Slot.set_path hu e3]
        have hv : root.Valid (q ++ [s]) := valid_snoc (addr?_some_isSome e3) s
        have her : (root.setAt (q ++ [s]) (.mk ty op ⟨o.value, n, some par⟩ x .nil .nil)).erase
            = root.erase.setAt (q ++ [s]) (shallow (Raw.mk ty op o x l r).erase) := by
          rw [erase_setAt]; rfl
        rw [← her]
        have hself : (root.setAt (q ++ [s]) (.mk ty op ⟨o.value, n, some par⟩ x .nil .nil)).getAt (q ++ [s])
            = .mk ty op ⟨o.value, n, some par⟩ x .nil .nil := getAt_setAt_self hv
        have hnew : ∀ c : PTree α, ∀ b, c.isSome = true →
            CloneEntry (root.setAt (q ++ [s]) (.mk ty op ⟨o.value, n, some par⟩ x .nil .nil))
              (c, n, .field n b) (c.erase, q ++ [s] ++ [b]) := by
          intro c b hc
          refine ⟨rfl, hc, q ++ [s], b, rfl, rfl, by rw [hself]; rfl, ?_⟩
          rw [getAt_snoc, hself]
          cases b <;> rfl
        have hold : List.Forall₂ (CloneEntry (root.setAt (q ++ [s]) (.mk ty op ⟨o.value, n, some par⟩ x .nil .nil))) stk vs := by
          have hp1 := hp.1
          clear hp her hself hnew ih
          induction h2 with
          | nil => exact .nil
          | @cons e v stk vs g1 g2 ih2 =>
            refine .cons (g1.setAt (hp1 _ (by simp))) (ih2 (fun p hp => hp1 p (by simp at hp ⊢; exact Or.inr hp)))
        have hinc : ∀ b, ∀ p ∈ vs.map Prod.snd, Incomp (q ++ [s] ++ [b]) p := fun b p hp' =>
          (hp.1 p hp').append_left _
        apply ih
        · simp only [pEmplaceChildren, emplaceChildren, erase_mk, left_mk, right_mk, erase_isSome]
          by_cases hr' : r.isSome = true <;> by_cases hl' : l.isSome = true <;> simp only [hl', hr', if_true, if_false]
          · exact .cons (hnew _ _ hr') (.cons (hnew _ _ hl') hold)
          · exact .cons (hnew _ _ hr') hold
          · exact .cons (hnew _ _ hl') hold
          · exact hold
        · simp only [emplaceChildren, erase_mk, left_mk, right_mk, erase_isSome]
          by_cases hr' : r.isSome = true <;> by_cases hl' : l.isSome = true <;>
            simp only [hl', hr', if_true, if_false, Bool.false_eq_true, List.map_cons, List.pairwise_cons]
          · refine ⟨?_, hinc _, hp.2⟩
            intro p hp'
            simp only [List.mem_cons] at hp'
            rcases hp' with h | h
            · subst h; exact (incomp_siblings _).symm
            · exact hinc _ _ h
          · exact ⟨hinc _, hp.2⟩
          · exact ⟨hinc _, hp.2⟩
          · exact hp.2
        · refine hl.setAt _ _ ⟨?_, trivial, trivial⟩
          rw [parentAt_snoc, e3]
        · refine ⟨by have := hn.1; omega, fun a => ?_⟩
          have h5 := occurs_setAt hv (.mk ty op ⟨o.value, n, some par⟩ x .nil .nil) a
          obtain ⟨h6, h7, h8⟩ := hn.2 a
          have := hn.1
          rw [e4] at h5
          simp only [occurs] at h5
          by_cases ha : n = a
          · have := h8 (by omega)
            simp only [ha, if_true] at h5
            subst ha
            exact ⟨by omega, by omega, by omega⟩
          · simp only [ha, if_false] at h5
            refine ⟨by omega, fun h => ?_, fun h => ?_⟩
            · have := h7 h; omega
            · have := h8 (by omega); omega

/-- `Clone` makes an equal tree of new objects with right parent pointers, whatever the source's pointers are. -/
theorem pClone_spec [Dbl α] (src : PTree α) (h : src.isSome = true) (n : Nat) :
    ∃ t n', pClone src n = .ok (t, n') ∧ t.erase = src.erase ∧ Linked none t ∧ New n n' t := by
  cases src with
  | nil => simp [isSome] at h
  | mk ty op o x l r =>
    have hc := clone_eq (Raw.mk ty op o x l r).erase rfl
    have hnew : ∀ c : PTree α, ∀ b, c.isSome = true →
        CloneEntry (.mk ty op ⟨o.value, n, none⟩ x .nil .nil) (c, n, .field n b) (c.erase, [b]) := by
      intro c b hc
      refine ⟨rfl, hc, [], b, rfl, rfl, by simp [addr?], ?_⟩
      cases b <;> rfl
    have hs := pCloneLoop_sim (Raw.mk ty op o x l r).size n (n + 1)
      (pEmplaceChildren (Raw.mk ty op o x l r) (.mk ty op ⟨o.value, n, none⟩ x .nil .nil) [])
      (emplaceChildren (Raw.mk ty op o x l r).erase [] []) (.mk ty op ⟨o.value, n, none⟩ x .nil .nil)
      (by
        simp only [pEmplaceChildren, emplaceChildren, erase_mk, left_mk, right_mk, erase_isSome]
        by_cases hr' : r.isSome = true <;> by_cases hl' : l.isSome = true <;> simp only [hl', hr', if_true, if_false]
        · exact .cons (hnew _ _ hr') (.cons (hnew _ _ hl') .nil)
        · exact .cons (hnew _ _ hr') .nil
        · exact .cons (hnew _ _ hl') .nil
        · exact .nil)
      (by
        simp only [emplaceChildren, erase_mk, left_mk, right_mk, erase_isSome]
        by_cases hr' : r.isSome = true <;> by_cases hl' : l.isSome = true <;> simp [hl', hr']
        exact .fork true [] [])
      ⟨rfl, trivial, trivial⟩
      ⟨by omega, fun a => by simp only [occurs]; split <;> omega⟩
    unfold clone at hc
    rw [if_pos (by rfl), erase_size] at hc
    have he : (Raw.mk ty op (⟨o.value, n, none⟩ : Obj α) x .nil .nil).erase = shallow (Raw.mk ty op o x l r).erase := rfl
    rw [he, hc] at hs
    obtain ⟨⟨t, n'⟩, h1, h2, h3, h4⟩ := hs.of_ok
    refine ⟨t, n', ?_, h2, h3, h4⟩
    simp only [pClone, pMakeNode, newNode, LM.bind_run, LM.fresh_run, LM.pure_run, Res.bind_ok, LM.lift_run, setParent]
    exact h1

end Tom
