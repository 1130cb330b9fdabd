import Verif.Lemmas.LinksDiff
/-
The work list of differentiation, with addresses.
-/
set_option linter.unusedSectionVars false
set_option linter.unusedSimpArgs false
set_option linter.unusedVariables false
namespace Tom
variable {α : Type} [Dbl α]
open Raw

theorem fl_left : ∃ p0 : Path, ([false] : Path) = p0 ++ [!true] := ⟨[], rfl⟩

/-- the places `DiffOnceOperator` queues are disjoint and their flags are right -/
structure NewOK (new : List DiffNode) : Prop where
  inc : new.Pairwise fun a b => Raw.Incomp a.1 b.1
  flag : ∀ d ∈ new, ∃ p0, d.1 = p0 ++ [!d.2]

theorem newOK_nil : NewOK [] := ⟨by simp, by simp⟩
theorem newOK_l : NewOK [([false], true)] := ⟨by simp, by simpa using fl1⟩
theorem newOK_r : NewOK [([true], false)] := ⟨by simp, by simpa using fl2⟩
theorem newOK_lr : NewOK [([false], true), ([true], false)] := ⟨by simpa using inc_ft, by simpa using And.intro fl1 fl2⟩
theorem newOK_mul : NewOK [([false, false], true), ([true, true], false)] :=
  ⟨by simpa using inc_fftt, by simpa using And.intro fl3 fl4⟩
theorem newOK_div : NewOK [([false, false, false], true), ([false, true, true], false)] :=
  ⟨by simpa using inc_div, by simpa using And.intro fl5 fl6⟩

set_option maxHeartbeats 2000000 in
theorem diffOp_new (n m : Raw α) (new : List DiffNode) (h : diffOp n = .ok (m, new)) : NewOK new := by
  unfold diffOp at h
  simp only at h
  repeat' split at h
  all_goals first
    | (cases h; first | exact newOK_nil | exact newOK_l | exact newOK_r | exact newOK_lr | exact newOK_mul | exact newOK_div)
    | cases h

/-- a queue entry and its path in the tree -/
def QAt (root : PTree α) (e : Nat × Bool) (d : DiffNode) : Prop := (root.getAt d.1).addr? = some e.1 ∧ e.2 = d.2

/-- invariant of the queue -/
structure QOK (root : PTree α) (q : List DiffNode) : Prop where
  inc : q.Pairwise fun a b => Raw.Incomp a.1 b.1
  flag : ∀ d ∈ q, (root.getAt d.1).isOperator = true → ∃ p0, d.1 = p0 ++ [!d.2]

theorem qAt_setAt {root s : PTree α} {p : Path} {q : List (Nat × Bool)} {vq : List DiffNode}
    (h : List.Forall₂ (QAt root) q vq) (hinc : ∀ d ∈ vq, Incomp p d.1) : List.Forall₂ (QAt (root.setAt p s)) q vq := by
  induction h with
  | nil => exact .nil
  | @cons e d q vq h1 h2 ih =>
    refine .cons ⟨?_, h1.2⟩ (ih fun d hd => hinc d (by simp [hd]))
    rw [getAt_setAt_incomp (hinc d (by simp))]; exact h1.1

theorem qOK_setAt {root s : PTree α} {p : Path} {vq : List DiffNode} (h : QOK root vq) (hinc : ∀ d ∈ vq, Incomp p d.1) :
    QOK (root.setAt p s) vq :=
  ⟨h.inc, fun d hd ho => h.flag d hd (by rwa [getAt_setAt_incomp (hinc d hd)] at ho)⟩

theorem From.same {n : Nat} {old new : PTree α} (h : ∀ a, occurs a new = occurs a old) (hb : ∀ a, n ≤ a → occurs a old = 0) :
    From n n old new :=
  ⟨Nat.le_refl _, fun a => ⟨fun _ => by rw [h]; omega, fun ha => by rw [h, hb a ha]; omega, fun ha => by rw [h, hb a ha]⟩⟩

theorem pDiffLoop_sim (varname : Str) (fuel : Nat) : ∀ (n : Nat) (root : PTree α) (q : List (Nat × Bool)) (vq : List DiffNode),
    Sound n root → List.Forall₂ (QAt root) q vq → QOK root vq →
    Res.Same (fun p c => p.1.erase = c ∧ Sound p.2 p.1 ∧ Frame n p.2 root p.1) (pDiffLoop varname fuel q root n)
      (diffLoop varname fuel vq root.erase) := by
  induction fuel with
  | zero =>
    intro n root q vq hs h hok
    cases h with
    | nil => simp only [pDiffLoop, diffLoop, LM.pure_run]; exact .ok ⟨rfl, hs, Frame.refl _ _⟩
    | cons => simp only [pDiffLoop, diffLoop]; exact .diverge
  | succ fuel ih =>
    intro n root q vq hs h hok
    cases h with
    | nil => simp only [pDiffLoop, diffLoop, LM.pure_run]; exact .ok ⟨rfl, hs, Frame.refl _ _⟩
    | @cons e d q vq h1 h2 =>
      obtain ⟨a, fl⟩ := e
      obtain ⟨p, fl'⟩ := d
      obtain ⟨ha, hfl⟩ := h1
      simp only at ha hfl
      subst hfl
      have hu : ∀ a, occurs a root ≤ 1 := fun a => (hs.2 a).1
      have hincp := List.pairwise_cons.mp hok.inc
      have hinc : ∀ d ∈ vq, Incomp p d.1 := hincp.1
      have hok' : QOK root vq := ⟨hincp.2, fun d hd => hok.flag d (by simp [hd])⟩
      have hsome := addr?_some_isSome ha
      have hv := valid_of_getAt hsome
      have hl := hs.1.at p
      have hb : ∀ a, n ≤ a → occurs a (root.getAt p) = 0 := fun a ha => by
        have := occurs_getAt_le root p a
        have := (hs.2 a).2 ha
        omega
      have hum : ∀ a, occurs a (root.getAt p) ≤ 1 := fun a => by
        have := occurs_getAt_le root p a
        have := hu a
        omega
      have hfind := find_getAt hu ha
      simp only [pDiffLoop, diffLoop, hfind]
      have hoflag := hok.flag (p, fl) (by simp)
      simp only at hoflag
      cases hg : root.getAt p with
      | nil => simp [hg, isSome] at hsome
      | mk ty op o x l r =>
        have hge : root.erase.getAt p = .mk ty op o.value x l.erase r.erase := by rw [← erase_getAt, hg]; rfl
        rw [hg] at hl hb hum hfind hoflag
        cases ty with
        | «variable» =>
          simp only [hge, isOperator, Bool.false_eq_true, if_false, diffStep, Res.bind_ok, List.map_nil, List.append_nil,
            modify_getAt _ hu ha, hg]
          have he : root.erase.setAt p (.mk .number op (if x = varname then Dbl.ofInt 1 else Dbl.ofInt 0) [] l.erase r.erase)
              = (root.setAt p (.mk .number op ⟨if x = varname then Dbl.ofInt 1 else Dbl.ofInt 0, o.addr, o.parent⟩ [] l r)).erase := by
            rw [erase_setAt]; rfl
          rw [he]
          have hfr : From n n (root.getAt p) (.mk .number op ⟨if x = varname then Dbl.ofInt 1 else Dbl.ofInt 0, o.addr, o.parent⟩ [] l r) := by rw [hg]; exact From.same (fun a => rfl) hb
          refine (ih n _ q vq (hs.setAt hv ?_ hfr) (qAt_setAt h2 hinc) (qOK_setAt hok' hinc)).mono
            (fun b c h => ⟨h.1, h.2.1, (Frame.setAt hv hfr).trans h.2.2⟩)
          exact ⟨hl.1, hl.2.1, hl.2.2⟩
        | number =>
          simp only [hge, isOperator, Bool.false_eq_true, if_false, diffStep, Res.bind_ok, List.map_nil, List.append_nil,
            modify_getAt _ hu ha, hg]
          have he : root.erase.setAt p (.mk .number op (Dbl.ofInt 0) x l.erase r.erase)
              = (root.setAt p (.mk .number op ⟨Dbl.ofInt 0, o.addr, o.parent⟩ x l r)).erase := by
            rw [erase_setAt]; rfl
          rw [he]
          have hfr : From n n (root.getAt p) (.mk .number op ⟨Dbl.ofInt 0, o.addr, o.parent⟩ x l r) := by rw [hg]; exact From.same (fun a => rfl) hb
          refine (ih n _ q vq (hs.setAt hv ?_ hfr) (qAt_setAt h2 hinc) (qOK_setAt hok' hinc)).mono
            (fun b c h => ⟨h.1, h.2.1, (Frame.setAt hv hfr).trans h.2.2⟩)
          exact ⟨hl.1, hl.2.1, hl.2.2⟩
        | operator =>
          obtain ⟨p0, rfl⟩ := hoflag rfl
          have hp0 : (root.getAt p0).isSome = true := by
            have hg' := getAt_snoc root p0 (!fl)
            cases hq : root.getAt p0 with
            | nil =>
              rw [hq, hg] at hg'
              cases fl <;> simp [child, left, right] at hg'
            | mk => rfl
          obtain ⟨b, hb'⟩ := addr?_of_isSome hp0
          have hpar : o.parent = some b := by rw [hl.1, parentAt_snoc, hb']
          have hslot : diffSlot (p0 ++ [!fl]) fl = p0 ++ [!fl] := by simp [diffSlot]
          simp only [hge, isOperator, if_true, hslot, diffStep, hpar, find_getAt hu hb', hp0, LM.bind_run, LM.lift_run,
            Slot.get_path hu hb', Slot.set_path hu hb', hg, Res.bind_ok]
          have haddr : o.addr = a := by rw [hg] at ha; simpa [addr?] using ha
          have hctx : DiffCtx root (root.parentAt (p0 ++ [!fl])) n .operator op o x l r :=
            ⟨by rw [haddr]; exact hfind, hl, hum, hb⟩
          have hsim := pDiffOp_sim hctx
          simp only [erase_mk] at hsim
          cases hd : diffOp (Raw.mk .operator op o.value x l.erase r.erase) with
          | ok c =>
            obtain ⟨m, new⟩ := c
            rw [hd] at hsim
            obtain ⟨⟨⟨t, es⟩, n'⟩, e1, e2, e3, e4, e5⟩ := hsim.of_ok
            simp only at e2 e3 e4 e5
            have hnew := diffOp_new _ _ _ hd
            simp only [e1, Res.bind_ok]
            have he : root.erase.setAt (p0 ++ [!fl]) m = (root.setAt (p0 ++ [!fl]) t).erase := by
              rw [erase_setAt, e2]
            rw [he]
            have hs' : Sound n' (root.setAt (p0 ++ [!fl]) t) := hs.setAt hv e3 (by rw [hg]; exact e4)
            refine (ih n' _ (q ++ es) _ hs' ?_ ?_).mono (fun b c h =>
              ⟨h.1, h.2.1, (Frame.setAt hv (by rw [hg]; exact e4)).trans h.2.2⟩)
            · refine List.rel_append (qAt_setAt h2 hinc) ?_
              clear hd he hs' hnew e1 hsim
              induction e5 with
              | nil => exact .nil
              | @cons e d es ds g1 g2 ih2 =>
                refine .cons ⟨?_, g1.2⟩ ih2
                rw [getAt_setAt_append _ hv]; exact g1.1
            · have hok2 := qOK_setAt (s := t) hok' hinc
              refine ⟨?_, ?_⟩
              · rw [List.pairwise_append, List.pairwise_map]
                refine ⟨hok2.inc, hnew.inc.imp fun h => Incomp.prefix _ h, ?_⟩
                intro c hc d hd
                simp only [List.mem_map] at hd
                obtain ⟨d', hd', rfl⟩ := hd
                exact (hinc c hc).symm.append_right _
              · intro c hc hop
                simp only [List.mem_append, List.mem_map] at hc
                rcases hc with hc | ⟨d', hd', rfl⟩
                · exact hok2.flag c hc hop
                · obtain ⟨p1, hp1⟩ := hnew.flag d' hd'
                  exact ⟨p0 ++ [!fl] ++ p1, by simp [hp1]⟩
          | _ =>
            rw [hd] at hsim
            revert hsim
            generalize pDiffOp root (.mk .operator op o x l r) n = w
            intro hsim
            cases hsim <;> constructor

theorem pDiffOnce_sim (varname : Str) {root : PTree α} {n : Nat} (hs : Sound n root) :
    Res.Same (fun p c => p.1.erase = c ∧ Sound p.2 p.1 ∧ Frame n p.2 root p.1) (pDiffOnce varname root n) (diffOnce varname root.erase) := by
  cases root with
  | nil => exact .ub
  | mk ty op o x l r =>
    have hu : ∀ a, occurs a (Raw.mk ty op o x l r) ≤ 1 := fun a => (hs.2 a).1
    have hb : ∀ a, n ≤ a → occurs a (Raw.mk ty op o x l r) = 0 := fun a => (hs.2 a).2
    have leaf : Raw.isOperator (Raw.mk ty op o x l r) = false → Res.Same (fun p c => p.1.erase = c ∧ Sound p.2 p.1 ∧ Frame n p.2 (Raw.mk ty op o x l r) p.1)
        (pDiffLoop varname (diffFuel (Raw.mk ty op o x l r).erase) [(o.addr, false)] (.mk ty op o x l r) n)
        (diffLoop varname (diffFuel (Raw.mk ty op o x l r).erase) [([], false)] (Raw.mk ty op o x l r).erase) := by
      intro hno
      refine pDiffLoop_sim varname _ n _ _ _ hs (.cons ⟨by simp [addr?], rfl⟩ .nil) ⟨by simp, ?_⟩
      intro d hd ho
      simp only [List.mem_singleton] at hd
      subst hd
      simp [hno] at ho
    have hpar : o.parent = none := hs.1.1
    cases ty with
    | number =>
      simp only [pDiffOnce, diffOnce, erase_mk, LM.bind_run, LM.lift_run, pDiffNode, hpar, Res.bind_ok]
      exact leaf rfl
    | «variable» =>
      simp only [pDiffOnce, diffOnce, erase_mk, LM.bind_run, LM.lift_run, pDiffNode, hpar, Res.bind_ok]
      exact leaf rfl
    | operator =>
      simp only [pDiffOnce, diffOnce, erase_mk, LM.bind_run]
      have hctx : DiffCtx (.mk .operator op o x l r) none n .operator op o x l r :=
        ⟨by simp [find], hs.1, hu, hb⟩
      have hsim := pDiffOp_sim hctx
      simp only [erase_mk] at hsim
      cases hd : diffOp (Raw.mk .operator op o.value x l.erase r.erase) with
      | ok c =>
        obtain ⟨m, new⟩ := c
        rw [hd] at hsim
        obtain ⟨⟨⟨t, es⟩, n'⟩, e1, e2, e3, e4, e5⟩ := hsim.of_ok
        simp only at e2 e3 e4 e5
        have hnew := diffOp_new _ _ _ hd
        simp only [e1, Res.bind_ok]
        rw [← e2]
        have hs' : Sound n' t := by
          have := hs.setAt (p := []) (by simp) e3 (by simpa using e4)
          simpa using this
        refine (pDiffLoop_sim varname _ n' t es new hs' ?_ ⟨hnew.inc, fun d hd _ => hnew.flag d hd⟩).mono
          (fun b c h => ⟨h.1, h.2.1, e4.frame.trans h.2.2⟩)
        exact e5
      | _ =>
        rw [hd] at hsim
        revert hsim
        generalize pDiffOp (.mk .operator op o x l r) (.mk .operator op o x l r) n = w
        intro hsim
        cases hsim <;> constructor

theorem pDiffTimes_sim (varname : Str) (i : Nat) : ∀ {root : PTree α} {n : Nat}, Sound n root →
    Res.Same (fun p c => p.1.erase = c ∧ Sound p.2 p.1 ∧ Frame n p.2 root p.1) (pDiffTimes varname i root n)
      (diffTimes varname i root.erase) := by
  induction i with
  | zero => intro root n hs; exact .ok ⟨rfl, hs, Frame.refl _ _⟩
  | succ i ih =>
    intro root n hs
    simp only [pDiffTimes, diffTimes, LM.bind_run]
    refine Res.Same.bind (pDiffOnce_sim varname hs) ?_
    rintro ⟨t, n'⟩ c ⟨h1, h2, h3⟩
    simp only at h1 h2 h3
    subst h1
    exact (ih h2).mono fun b c h => ⟨h.1, h.2.1, h3.trans h.2.2⟩

end Tom
