import Verif.Lemmas.LinksClone
import Verif.Lemmas.Subs
/-
Substitution with addresses.
-/
set_option linter.unusedSectionVars false
set_option linter.unusedSimpArgs false
set_option linter.unusedVariables false
namespace Tom
variable {α : Type} [Dbl α]
open Raw

/-- the dictionary without addresses -/
def eraseDict (dict : List (Str × PTree α)) : List (Str × Raw α) := dict.map fun kv => (kv.1, kv.2.erase)

theorem mapFind_eraseDict (x : Str) (dict : List (Str × PTree α)) :
    mapFind x (eraseDict dict) = (mapFind x dict).map Raw.erase := by
  induction dict with
  | nil => rfl
  | cons kv m ih =>
    simp only [eraseDict, List.map_cons, mapFind] at ih ⊢
    split <;> simp [ih]

theorem mapFind_mem {β : Type} {x : Str} {dict : List (Str × β)} {b : β} (h : mapFind x dict = some b) :
    ∃ k, (k, b) ∈ dict := by
  induction dict with
  | nil => simp [mapFind] at h
  | cons kv m ih =>
    simp only [mapFind] at h
    split at h
    · cases h; exact ⟨kv.1, by simp⟩
    · obtain ⟨k, hk⟩ := ih h; exact ⟨k, by simp [hk]⟩

/-- a stacked reference and the path it stands for -/
def AddrAt (root : PTree α) (a : Nat) (p : Path) : Prop := (root.getAt p).addr? = some a

theorem setParent_mk {q : Option Nat} {c : PTree α} (h : c.isSome = true) :
    ∃ c', setParent q c = .ok c' ∧ c'.erase = c.erase ∧ (∀ a, occurs a c' = occurs a c) ∧ c'.isSome = true ∧
      c'.addr? = c.addr? ∧ c'.left = c.left ∧ c'.right = c.right ∧ (∀ q0, Linked q0 c → Linked q c') := by
  cases c with
  | nil => simp [isSome] at h
  | mk ty op o x l r =>
    exact ⟨_, rfl, rfl, fun a => rfl, rfl, rfl, rfl, rfl, fun q0 h => ⟨rfl, h.2.1, h.2.2⟩⟩

/-- `Replace` on the slot at a path -/
theorem pReplace_sim {dict : List (Str × PTree α)} (hd : ∀ kv ∈ dict, kv.2.isSome = true) {root : PTree α} {n : Nat}
    (hs : Sound n root) {slot : Slot} {p : Path} (hget : slot.get root = root.getAt p)
    (hset : ∀ u, slot.set root u = .ok (root.setAt p u)) (hp : (root.getAt p).isSome = true) :
    (pReplace dict root slot n = .ok (none, n) ∧ subsReplace (eraseDict dict) root.erase p = none) ∨
    (∃ root' n', pReplace dict root slot n = .ok (some root', n') ∧
      subsReplace (eraseDict dict) root.erase p = some root'.erase ∧ Sound n' root' ∧ Frame n n' root root' ∧
      ∃ s, root' = root.setAt p s) := by
  have hv := valid_of_getAt hp
  have hl := hs.1.at p
  unfold pReplace subsReplace
  rw [hget, ← erase_getAt]
  cases hg : root.getAt p with
  | nil => simp [hg, isSome] at hp
  | mk ty op o x l r =>
    cases ty with
    | number => left; simp [erase]
    | operator => left; simp [erase]
    | «variable» =>
      simp only [erase_mk, mapFind_eraseDict]
      cases hm : mapFind x dict with
      | none => left; simp
      | some img =>
        right
        obtain ⟨k, hk⟩ := mapFind_mem hm
        obtain ⟨c, n', h1, h2, h3, h4⟩ := pClone_spec img (hd _ hk) n
        have hc : c.isSome = true := by
          have := congrArg Raw.isSome h2
          rw [erase_isSome, erase_isSome] at this
          rw [this]; exact hd _ hk
        obtain ⟨c', g1, g2, g3, g4, g5, g6, g7, g8⟩ := setParent_mk (q := o.parent) hc
        rw [hg] at hl
        have hfrom : From n n' (root.getAt p) c' := ⟨h4.1, fun a => by
            obtain ⟨k1, k2, k3⟩ := h4.2 a
            rw [g3]
            refine ⟨fun h => ?_, fun h => k1, k3⟩
            rw [k2 h]; omega⟩
        refine ⟨root.setAt p c', n', ?_, ?_, ?_, Frame.setAt hv hfrom, c', rfl⟩
        · simp only [LM.bind_run, h1, Res.bind_ok, LM.lift_run, g1, hset, LM.pure_run]
        · rw [erase_setAt, g2, h2]; simp
        · refine hs.setAt hv ?_ hfrom
          rw [← hl.1]; exact g8 _ h3

theorem pTry_sim {dict : List (Str × PTree α)} (hd : ∀ kv ∈ dict, kv.2.isSome = true) {root : PTree α} {n : Nat}
    (hs : Sound n root) {a : Nat} {q : Path} {s : Bool} (ha : (root.getAt q).addr? = some a)
    {stk : List Nat} {vs : List Path} (hst : List.Forall₂ (AddrAt root) stk vs)
    (hinc : ∀ p ∈ vs, Incomp (q ++ [s]) p) :
    ∃ root' stk' n', pTry dict (.field a s) (root, stk) n = .ok ((root', stk'), n') ∧
      subsTry (eraseDict dict) (q ++ [s]) (root.erase, vs) =
        (root'.erase, (subsTry (eraseDict dict) (q ++ [s]) (root.erase, vs)).2) ∧
      List.Forall₂ (AddrAt root') stk' (subsTry (eraseDict dict) (q ++ [s]) (root.erase, vs)).2 ∧
      Sound n' root' ∧ Frame n n' root root' ∧ (∀ p, ¬ (q ++ [s]) <+: p → (root'.getAt p).addr? = (root.getAt p).addr?) := by
  have hu : ∀ a, occurs a root ≤ 1 := fun a => (hs.2 a).1
  have hget := Slot.get_path (s := s) hu ha
  unfold pTry
  simp only [hget]
  have hsome : (root.erase.getAt (q ++ [s])).isSome = (root.getAt (q ++ [s])).isSome := by
    rw [← erase_getAt, erase_isSome]
  cases hg : root.getAt (q ++ [s]) with
  | nil =>
    have hn : (root.erase.getAt (q ++ [s])).isSome = false := by rw [hsome, hg]; rfl
    refine ⟨root, stk, n, rfl, ?_, ?_, hs, Frame.refl _ _, fun _ _ => rfl⟩
    · simp [subsTry, hn]
    · simpa [subsTry, hn] using hst
  | mk ty op o x l r =>
    have hn : (root.erase.getAt (q ++ [s])).isSome = true := by rw [hsome, hg]; rfl
    rcases pReplace_sim hd hs hget (fun u => Slot.set_path hu ha) (by rw [hg]; rfl) with ⟨h1, h2⟩ | ⟨root', n', h1, h2, h3, h4, c, h5⟩
    · refine ⟨root, o.addr :: stk, n, ?_, ?_, ?_, hs, Frame.refl _ _, fun _ _ => rfl⟩
      · simp only [LM.bind_run, h1, Res.bind_ok, LM.pure_run]
      · simp [subsTry, hn, h2]
      · simp only [subsTry, hn, if_true, h2]
        refine .cons ?_ hst
        simp [AddrAt, hg, addr?]
    · refine ⟨root', stk, n', ?_, ?_, ?_, h3, h4, ?_⟩
      · simp only [LM.bind_run, h1, Res.bind_ok, LM.pure_run]
      · simp [subsTry, hn, h2]
      · simp only [subsTry, hn, if_true, h2]
        subst h5
        clear h1 h2 h3
        induction hst with
        | nil => exact .nil
        | @cons b p stk vs g1 g2 ih =>
          refine .cons ?_ (ih (fun p hp => hinc p (by simp [hp])))
          unfold AddrAt at g1 ⊢
          rw [addr?_getAt_setAt (hinc p (by simp)).not_prefix]; exact g1
      · intro p hp
        rw [h5, addr?_getAt_setAt hp]

theorem pSubsLoop_sim {dict : List (Str × PTree α)} (hd : ∀ kv ∈ dict, kv.2.isSome = true) (fuel : Nat) :
    ∀ (n : Nat) (root : PTree α) (stk : List Nat) (vs : List Path), Sound n root →
    List.Forall₂ (AddrAt root) stk vs → StkOK root.erase vs →
    Res.Same (fun p c => p.1.erase = c ∧ Sound p.2 p.1 ∧ Frame n p.2 root p.1) (pSubsLoop dict fuel (root, stk) n)
      (subsLoop (eraseDict dict) fuel (root.erase, vs)) := by
  induction fuel with
  | zero =>
    intro n root stk vs hs hst hok
    cases hst with
    | nil => simp only [pSubsLoop, subsLoop, LM.pure_run]; exact .ok ⟨rfl, hs, Frame.refl _ _⟩
    | cons => simp only [pSubsLoop, subsLoop]; exact .diverge
  | succ fuel ih =>
    intro n root stk vs hs hst hok
    cases hst with
    | nil => simp only [pSubsLoop, subsLoop, LM.pure_run]; exact .ok ⟨rfl, hs, Frame.refl _ _⟩
    | @cons a p stk vs h1 h2 =>
      have hu : ∀ a, occurs a root ≤ 1 := fun a => (hs.2 a).1
      have hpair := List.pairwise_cons.mp hok.pair
      have hok0 : StkOK root.erase vs := ⟨hpair.2, fun q hq => hok.some q (by simp [hq])⟩
      have hinc : ∀ b, ∀ q ∈ vs, Incomp (p ++ [b]) q := fun b q hq => (hpair.1 q hq).append_left _
      have hsome : (root.find a).isSome = true := by rw [find_getAt hu h1]; exact addr?_some_isSome h1
      obtain ⟨r1, s1, n1, e1, e2, e3, e4, e5, e6⟩ := pTry_sim hd hs (s := true) h1 h2 (hinc true)
      obtain ⟨ok1, mem1, _⟩ := subsTry_ok (eraseDict dict) (p ++ [true]) (root.erase, vs) hok0 (hinc true)
      have h1' : (r1.getAt p).addr? = some a := by
        rw [e6 p (by intro h; have := h.length_le; simp at this; omega)]; exact h1
      have hinc2 : ∀ q ∈ (subsTry (eraseDict dict) (p ++ [true]) (root.erase, vs)).2, Incomp (p ++ [false]) q := by
        intro q hq
        rcases mem1 q hq with h | h
        · subst h; exact incomp_siblings p
        · exact hinc false q h
      obtain ⟨r2, s2, n2, f1, f2, f3, f4, f5, f6⟩ := pTry_sim hd e4 (s := false) h1' e3 hinc2
      obtain ⟨ok2, _, _⟩ := subsTry_ok (eraseDict dict) (p ++ [false])
        (subsTry (eraseDict dict) (p ++ [true]) (root.erase, vs)) ok1 hinc2
      simp only [pSubsLoop, subsLoop, hsome, if_true, LM.bind_run, e1, Res.bind_ok, f1]
      rw [← e2] at f2
      rw [f2] at ok2 ⊢
      rw [e2] at ok2 ⊢
      exact (ih n2 r2 s2 _ f4 f3 ok2).mono fun b c h => ⟨h.1, h.2.1, (e5.trans f5).trans h.2.2⟩

/-- `Subs` with addresses does what `Subs` does, and keeps the parent pointers right. -/
theorem pSubsInner_sim {dict : List (Str × PTree α)} (hd : ∀ kv ∈ dict, kv.2.isSome = true) {root : PTree α} {n : Nat}
    (hs : Sound n root) (h : root.isSome = true) :
    Res.Same (fun p c => p.1.erase = c ∧ Sound p.2 p.1 ∧ Frame n p.2 root p.1) (pSubsInner root dict n)
      (subsInner root.erase (eraseDict dict)) := by
  unfold pSubsInner subsInner
  rw [if_pos (by rw [erase_isSome]; exact h)]
  cases root with
  | nil => simp [isSome] at h
  | mk ty op o x l r =>
    rcases pReplace_sim hd hs (slot := .root) (p := []) (by simp [Slot.get]) (by simp [Slot.set]) (by simp) with
      ⟨h1, h2⟩ | ⟨root', n', h1, h2, h3, h4, c, h5⟩
    · simp only [LM.bind_run, h1, h2, Res.bind_ok]
      have ha : ((Raw.mk ty op o x l r).getAt []).addr? = some o.addr := by simp [addr?]
      obtain ⟨r1, s1, n1, e1, e2, e3, e4, e5, e6⟩ := pTry_sim hd hs (s := true) ha (List.Forall₂.nil) (by simp)
      obtain ⟨ok1, mem1, _⟩ := subsTry_ok (eraseDict dict) [true] ((Raw.mk ty op o x l r).erase, []) ⟨by simp, by simp⟩ (by simp)
      have ha' : (r1.getAt []).addr? = some o.addr := by
        rw [e6 [] (by simp)]; exact ha
      have hinc2 : ∀ q ∈ (subsTry (eraseDict dict) [true] ((Raw.mk ty op o x l r).erase, [])).2, Incomp [false] q := by
        intro q hq
        rcases mem1 q hq with h | h
        · subst h; exact incomp_siblings []
        · simp at h
      obtain ⟨r2, s2, n2, f1, f2, f3, f4, f5, f6⟩ := pTry_sim hd e4 (s := false) ha' e3 hinc2
      obtain ⟨ok2, _, _⟩ := subsTry_ok (eraseDict dict) [false]
        (subsTry (eraseDict dict) [true] ((Raw.mk ty op o x l r).erase, [])) ok1 hinc2
      simp only [List.nil_append] at e1 e2 e3 f1 f2 f3
      simp only [e1, Res.bind_ok, f1, erase_size]
      rw [← e2] at f2
      rw [f2] at ok2 ⊢
      rw [e2] at ok2 ⊢
      exact (pSubsLoop_sim hd _ n2 r2 s2 _ f4 f3 ok2).mono fun b c h => ⟨h.1, h.2.1, (e5.trans f5).trans h.2.2⟩
    · simp only [LM.bind_run, h1, h2, Res.bind_ok, LM.pure_run]
      exact .ok ⟨rfl, h3, h4⟩

end Tom
