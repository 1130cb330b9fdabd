import Verif.Lemmas.Tree
import Verif.Spec.Subst
/-
The in-place substitution loop computes the structural substitution.
-/
set_option linter.unusedSectionVars false
set_option linter.unusedSimpArgs false
set_option linter.unusedVariables false
namespace Tom
variable {α : Type} [Dbl α]

/-- the image of a node, if it is a mapped variable -/
def imageOf (dict : List (Str × Raw α)) : Raw α → Option (Raw α)
  | .mk .variable _ _ x _ _ => mapFind x dict
  | _ => none

/-- structural substitution on node trees -/
def substRaw (dict : List (Str × Raw α)) : Raw α → Raw α
  | .nil => .nil
  | .mk t o v x l r =>
    match imageOf dict (.mk t o v x l r) with
    | some img => img
    | none => .mk t o v x (substRaw dict l) (substRaw dict r)

/-- substitution in the children only -/
def substChildren (dict : List (Str × Raw α)) : Raw α → Raw α
  | .nil => .nil
  | .mk t o v x l r => .mk t o v x (substRaw dict l) (substRaw dict r)

theorem subsReplace_eq (dict : List (Str × Raw α)) (root : Raw α) (p : Path) :
    subsReplace dict root p = (imageOf dict (root.getAt p)).map (root.setAt p) := by
  unfold subsReplace imageOf
  split
  · rename_i x _ _ h
    split <;> simp_all
  · rename_i h
    split
    · rename_i a b c d e h2; exact absurd h2 (h _ _ _ _ _)
    · rfl

theorem substRaw_some {dict : List (Str × Raw α)} {t img : Raw α} (h : imageOf dict t = some img) :
    substRaw dict t = img := by
  cases t with
  | nil => simp [imageOf] at h
  | mk => simp only [substRaw, h]

theorem substRaw_none {dict : List (Str × Raw α)} {t : Raw α} (h : imageOf dict t = none) :
    substRaw dict t = substChildren dict t := by
  cases t with
  | nil => rfl
  | mk => simp only [substRaw, h, substChildren]

/-- what the loop still has to do -/
def subsRun (dict : List (Str × Raw α)) (s : Raw α × List Path) : Raw α :=
  s.2.foldl (fun t p => t.setAt p (substChildren dict (t.getAt p))) s.1

theorem subsRun_try (dict : List (Str × Raw α)) (q : Path) (s : Raw α × List Path) :
    subsRun dict (subsTry dict q s) = subsRun dict (s.1.setAt q (substRaw dict (s.1.getAt q)), s.2) := by
  unfold subsTry
  split
  · rename_i hs
    rw [subsReplace_eq]
    cases hi : imageOf dict (s.1.getAt q) with
    | some img => simp [substRaw_some hi]
    | none => simp [subsRun, substRaw_none hi]
  · rename_i hs
    have : s.1.getAt q = .nil := by
      cases h : s.1.getAt q with
      | nil => rfl
      | mk => simp [h, Raw.isSome] at hs
    rw [this, substRaw, ← this, Raw.setAt_getAt]

theorem subsTry_fst_getAt (dict : List (Str × Raw α)) (q q' : Path) (s : Raw α × List Path)
    (h : Raw.Incomp q q') : (subsTry dict q s).1.getAt q' = s.1.getAt q' := by
  unfold subsTry
  split
  · rw [subsReplace_eq]
    cases imageOf dict (s.1.getAt q) <;> simp [Raw.getAt_setAt_incomp h]
  · rfl

theorem subsRun_step (dict : List (Str × Raw α)) (p : Path) (root : Raw α) (stk : List Path) :
    subsRun dict (subsTry dict (p ++ [false]) (subsTry dict (p ++ [true]) (root, stk)))
      = subsRun dict (root, p :: stk) := by
  rw [subsRun_try, subsTry_fst_getAt _ _ _ _ (Raw.incomp_siblings p).symm]
  have e1 : ∀ s : Raw α × List Path, subsRun dict s
      = s.2.foldl (fun t p => t.setAt p (substChildren dict (t.getAt p))) s.1 := fun _ => rfl
  have key : (root.setAt (p ++ [false]) (substRaw dict (root.getAt (p ++ [false])))).setAt (p ++ [true])
      (substRaw dict (root.getAt (p ++ [true]))) = root.setAt p (substChildren dict (root.getAt p)) := by
    rw [Raw.getAt_false, Raw.getAt_true, Raw.setAt_append' root _ p [false], Raw.setAt_append]
    cases root.getAt p <;> simp [Raw.setAt, substChildren, Raw.left, Raw.right]
  unfold subsTry
  split
  · rename_i hs
    rw [subsReplace_eq]
    cases hi : imageOf dict (root.getAt (p ++ [true])) with
    | some img =>
      simp only [Option.map_some]
      rw [Raw.setAt_comm (Raw.incomp_siblings p).symm, ← substRaw_some hi, key]
      simp [e1]
    | none =>
      simp only [Option.map_none, e1, List.foldl_cons]
      rw [Raw.getAt_setAt_incomp (Raw.incomp_siblings p), ← substRaw_none hi, key]
  · rename_i hs
    have hnil : root.getAt (p ++ [true]) = .nil := by
      cases h : root.getAt (p ++ [true]) with
      | nil => rfl
      | mk => simp [h, Raw.isSome] at hs
    rw [hnil] at key
    simp only [e1, List.foldl_cons]
    rw [← key, substRaw]
    congr 1
    have : (root.setAt (p ++ [false]) (substRaw dict (root.getAt (p ++ [false])))).getAt (p ++ [true]) = .nil := by
      rw [Raw.getAt_setAt_incomp (Raw.incomp_siblings p), hnil]
    have h2 := Raw.setAt_getAt (root.setAt (p ++ [false]) (substRaw dict (root.getAt (p ++ [false])))) (p ++ [true])
    rw [this] at h2
    exact h2.symm

/-- sizes of the subtrees still on the stack -/
def stkSize (root : Raw α) (stk : List Path) : Nat := (stk.map fun p => (root.getAt p).size).sum

theorem stkSize_setAt {root : Raw α} {stk : List Path} {p : Path} (s : Raw α)
    (h : ∀ q ∈ stk, Raw.Incomp p q) : stkSize (root.setAt p s) stk = stkSize root stk := by
  unfold stkSize
  congr 1
  apply List.map_congr_left
  intro q hq
  rw [Raw.getAt_setAt_incomp (h q hq)]

/-- invariant: the stacked paths are pairwise disjoint and designate existing nodes -/
structure StkOK (root : Raw α) (stk : List Path) : Prop where
  pair : stk.Pairwise Raw.Incomp
  some : ∀ p ∈ stk, (root.getAt p).isSome = true

theorem subsTry_ok (dict : List (Str × Raw α)) (q : Path) (s : Raw α × List Path)
    (h : StkOK s.1 s.2) (hq : ∀ p ∈ s.2, Raw.Incomp q p) :
    StkOK (subsTry dict q s).1 (subsTry dict q s).2 ∧
    (∀ p ∈ (subsTry dict q s).2, p = q ∨ p ∈ s.2) ∧
    stkSize (subsTry dict q s).1 (subsTry dict q s).2 ≤ (s.1.getAt q).size + stkSize s.1 s.2 := by
  unfold subsTry
  split
  · rename_i hs
    rw [subsReplace_eq]
    cases hi : imageOf dict (s.1.getAt q) with
    | some img =>
      simp only [Option.map_some]
      refine ⟨⟨h.pair, ?_⟩, fun p hp => .inr hp, ?_⟩
      · intro p hp
        rw [Raw.getAt_setAt_incomp (hq p hp)]
        exact h.some p hp
      · rw [stkSize_setAt _ hq]; omega
    | none =>
      simp only [Option.map_none]
      refine ⟨⟨List.pairwise_cons.mpr ⟨hq, h.pair⟩, ?_⟩, ?_, ?_⟩
      · intro p hp
        simp at hp
        rcases hp with hp | hp
        · subst hp; exact hs
        · exact h.some p hp
      · intro p hp; simpa using hp
      · simp [stkSize]
  · exact ⟨h, fun p hp => .inr hp, by omega⟩

theorem subsLoop_eq (dict : List (Str × Raw α)) (fuel : Nat) (root : Raw α) (stk : List Path)
    (h : StkOK root stk) (hf : stkSize root stk ≤ fuel) :
    subsLoop dict fuel (root, stk) = .ok (subsRun dict (root, stk)) := by
  induction fuel generalizing root stk with
  | zero =>
    cases stk with
    | nil => simp [subsLoop, subsRun]
    | cons p stk =>
      have := h.some p (by simp)
      cases hp : root.getAt p with
      | nil => simp [hp, Raw.isSome] at this
      | mk => simp [stkSize, hp, Raw.size] at hf
  | succ n ih =>
    cases stk with
    | nil => simp [subsLoop, subsRun]
    | cons p stk =>
      simp only [subsLoop]
      have hpair := List.pairwise_cons.mp h.pair
      have h0 : StkOK root stk := ⟨hpair.2, fun q hq => h.some q (by simp [hq])⟩
      have hp := h.some p (by simp)
      have hinc : ∀ b, ∀ q ∈ stk, Raw.Incomp (p ++ [b]) q := fun b q hq => (hpair.1 q hq).append_left _
      obtain ⟨ok1, mem1, sz1⟩ := subsTry_ok dict (p ++ [true]) (root, stk) h0 (hinc true)
      obtain ⟨ok2, mem2, sz2⟩ := subsTry_ok dict (p ++ [false]) (subsTry dict (p ++ [true]) (root, stk)) ok1
        (by
          intro q hq
          rcases mem1 q hq with h | h
          · subst h; exact Raw.incomp_siblings p
          · exact hinc false q h)
      have hsz : (root.getAt p).size = (root.getAt (p ++ [false])).size + (root.getAt (p ++ [true])).size + 1 := by
        rw [Raw.getAt_false, Raw.getAt_true]
        cases hq : root.getAt p with
        | nil => simp [hq, Raw.isSome] at hp
        | mk => simp [Raw.size, Raw.left, Raw.right]
      rw [subsTry_fst_getAt _ _ _ _ (Raw.incomp_siblings p).symm] at sz2
      have e : subsTry dict (p ++ [false]) (subsTry dict (p ++ [true]) (root, stk))
          = ((subsTry dict (p ++ [false]) (subsTry dict (p ++ [true]) (root, stk))).1,
             (subsTry dict (p ++ [false]) (subsTry dict (p ++ [true]) (root, stk))).2) := rfl
      rw [e, ih _ _ ok2 (by simp [stkSize] at hf sz1 sz2 ⊢; omega), ← e, subsRun_step]

theorem subsInner_raw (dict : List (Str × Raw α)) (t : Raw α) (h : t.isSome = true) :
    subsInner t dict = .ok (substRaw dict t) := by
  unfold subsInner
  rw [if_pos h, subsReplace_eq]
  cases hi : imageOf dict (t.getAt []) with
  | some img =>
    simp at hi
    simp [substRaw_some hi]
  | none =>
    simp at hi
    simp only [Option.map_none]
    have hs := subsRun_step dict [] t []
    simp only [List.nil_append] at hs
    obtain ⟨ok1, mem1, sz1⟩ := subsTry_ok dict [true] (t, []) ⟨by simp, by simp⟩ (by simp)
    obtain ⟨ok2, mem2, sz2⟩ := subsTry_ok dict [false] (subsTry dict [true] (t, [])) ok1
      (by
        intro q hq
        rcases mem1 q hq with h | h
        · subst h; exact Raw.incomp_siblings []
        · simp at h)
    rw [subsTry_fst_getAt _ _ _ _ (show Raw.Incomp [true] [false] from Raw.Incomp.fork true [] [])] at sz2
    have hsz : t.size = (t.getAt [false]).size + (t.getAt [true]).size + 1 := by
      cases t with
      | nil => simp [Raw.isSome] at h
      | mk => simp [Raw.size, Raw.getAt]
    have e : subsTry dict [false] (subsTry dict [true] (t, []))
          = ((subsTry dict [false] (subsTry dict [true] (t, []))).1,
             (subsTry dict [false] (subsTry dict [true] (t, []))).2) := rfl
    rw [e, subsLoop_eq _ _ _ _ ok2 (by simp [stkSize] at sz1 sz2 ⊢; omega), ← e, hs]
    simp [subsRun, substRaw_none hi]

theorem mapFind_map (x : Str) (m : List (Str × Expr α)) :
    mapFind x (m.map fun kv => (kv.1, embed kv.2)) = (mapFind x m).map embed := by
  induction m with
  | nil => rfl
  | cons kv m ih =>
    simp only [List.map_cons, mapFind]
    split <;> simp [ih]

theorem substRaw_embed (m : List (Str × Expr α)) (e : Expr α) :
    substRaw (m.map fun kv => (kv.1, embed kv.2)) (embed e) = embed (e.subst fun x => mapFind x m) := by
  induction e with
  | num v => simp [embed, substRaw, imageOf, Expr.subst]
  | var x =>
    simp only [embed, substRaw, imageOf, Expr.subst, mapFind_map]
    cases mapFind x m <;> simp [embed]
  | un o e ih => simp [embed, substRaw, imageOf, Expr.subst, ih]
  | bin o a b iha ihb => simp [embed, substRaw, imageOf, Expr.subst, iha, ihb]

theorem subsInner_embed (m : List (Str × Expr α)) (e : Expr α) :
    subsInner (embed e) (m.map fun kv => (kv.1, embed kv.2)) = .ok (embed (e.subst fun x => mapFind x m)) := by
  rw [subsInner_raw _ _ (embed_isSome e), substRaw_embed]

end Tom
