import Verif.Lemmas.LinksSubs
import Verif.Lemmas.Simplify
/-
Simplification with addresses.
-/
set_option linter.unusedSectionVars false
set_option linter.unusedSimpArgs false
set_option linter.unusedVariables false
namespace Tom
variable {α : Type} [Dbl α]
open Raw

/-- what a step leaves in a slot -/
def StepTo (q : Option Nat) (n : Nat) (old : PTree α) (p : PTree α × Nat) (c : Raw α) : Prop :=
  p.1.erase = c ∧ Linked q p.1 ∧ From n p.2 old p.1

theorem simplifyBinary_num (cfg : Config α) (op : MathOp) (x : Str) (n l r : Raw α) (lo ro : MathOp) (lv rv : α) (lx rx : Str)
    (ll lr rl rr : Raw α) (hl : l = .mk .number lo lv lx ll lr) (hr : r = .mk .number ro rv rx rl rr) :
    simplifyBinary cfg op x n l r = (calcOp cfg op lv rv >>= fun v => .ok (.mk .number .null v x .nil .nil)) := by
  subst hl hr
  simp [simplifyBinary]

theorem simplifyBinary_rest (cfg : Config α) (op : MathOp) (x : Str) (n l r : Raw α) (hl : l.isSome = true) (hr : r.isSome = true)
    (h : ¬ (l.isNumber = true ∧ r.isNumber = true)) :
    simplifyBinary cfg op x n l r =
      if (op = .mul ∧ (isNumEq l (Dbl.ofInt 0) = true ∨ isNumEq r (Dbl.ofInt 0) = true)) ∨
          (op = .div ∧ isNumEq l (Dbl.ofInt 0) = true) ∨ (op = .pow ∧ isNumEq l (Dbl.ofInt 0) = true) then
        .ok (mkNum (Dbl.ofInt 0))
      else if (op = .add ∧ (isNumEq l (Dbl.ofInt 0) = true ∨ isNumEq r (Dbl.ofInt 0) = true)) ∨
          (op = .sub ∧ isNumEq r (Dbl.ofInt 0) = true) ∨
          (op = .mul ∧ (isNumEq l (Dbl.ofInt 1) = true ∨ isNumEq r (Dbl.ofInt 1) = true)) ∨
          (op = .div ∧ isNumEq r (Dbl.ofInt 1) = true) ∨ (op = .pow ∧ isNumEq r (Dbl.ofInt 1) = true) then
        if isNumEq l (Dbl.ofInt 1) = true ∨ isNumEq l (Dbl.ofInt 0) = true then .ok r
        else if isNumEq r (Dbl.ofInt 1) = true ∨ isNumEq r (Dbl.ofInt 0) = true then .ok l
        else .ok n
      else .ok n := by
  cases l with
  | nil => simp [isSome] at hl
  | mk lt =>
    cases r with
    | nil => simp [isSome] at hr
    | mk rt =>
      have h' : ¬ (lt = .number ∧ rt = .number) := by
        rintro ⟨rfl, rfl⟩; exact h ⟨rfl, rfl⟩
      simp only [simplifyBinary, h', if_false]

theorem pSimplifySingle_sim (cfg : Config α) {t : PTree α} {q : Option Nat} {n : Nat} (hl : Linked q t)
    (hb : ∀ a, n ≤ a → occurs a t = 0) :
    Res.Same (StepTo q n t) (pSimplifySingle cfg t n) (simplifySingle cfg t.erase) := by
  have hid : StepTo q n t (t, n) t.erase := ⟨rfl, hl, Nat.le_refl _, fun a =>
    ⟨fun _ => Nat.le_refl _, fun h => by rw [hb a h]; omega, fun h => hb a h⟩⟩
  unfold pSimplifySingle simplifySingle
  simp only [LM.noexcept_run]
  apply Res.Same.noexcept
  cases t with
  | nil => exact .ub
  | mk ty op o x l r =>
    simp only [erase_mk]
    by_cases h1 : operatorNum op = 1
    · simp only [h1, if_true, simplifyUnary]
      cases l with
      | nil => exact .ub
      | mk lt lop lo lx ll lr =>
        simp only [erase_mk]
        by_cases h2 : lt = .number
        · simp only [h2, if_true, LM.bind_run, LM.lift_run, LM.pure_run]
          cases calcOp cfg op lo.value (Dbl.ofInt 0) with
          | ok v =>
            simp only [Res.bind_ok]
            refine .ok ⟨rfl, ⟨hl.1, trivial, hl.2.2⟩, Nat.le_refl _, fun a => ?_⟩
            have := hb a
            simp only [occurs] at this ⊢
            exact ⟨fun _ => by omega, fun h => by have := this h; omega, fun h => by have := this h; omega⟩
          | _ => constructor
        · simp only [h2, if_false, LM.pure_run]
          exact .ok hid
    · simp only [h1, if_false]
      by_cases h2 : operatorNum op = 2
      · simp only [h2, if_true]
        cases l with
        | nil => simp only [erase, simplifyBinary]; exact .ub
        | mk lt lop lo lx ll lr =>
          cases r with
          | nil =>
            by_cases h3 : lt = .number
            · simp only [h3, if_true, erase, simplifyBinary]; exact .ub
            · simp only [h3, if_false, erase, simplifyBinary]; exact .assertFail
          | mk rt rop ro rx rl rr =>
            by_cases h3 : lt = .number ∧ rt = .number
            · rw [simplifyBinary_num cfg op x _ _ _ lop rop lo.value ro.value lx rx ll.erase lr.erase rl.erase rr.erase
                (by rw [h3.1]; rfl) (by rw [h3.2]; rfl)]
              simp only [h3, and_self, if_true, LM.bind_run, LM.lift_run, LM.pure_run]
              cases calcOp cfg op lo.value ro.value with
              | ok v =>
                simp only [Res.bind_ok]
                refine .ok ⟨rfl, ⟨hl.1, trivial, trivial⟩, Nat.le_refl _, fun a => ?_⟩
                have := hb a
                simp only [occurs] at this ⊢
                exact ⟨fun _ => by omega, fun h => by have := this h; omega, fun h => by have := this h; omega⟩
              | _ => constructor
            · rw [simplifyBinary_rest cfg op x _ _ _ rfl rfl (by
                rintro ⟨g1, g2⟩
                apply h3
                cases lt <;> cases rt <;> simp_all [isNumber, erase])]
              simp only [h3, if_false]
              by_cases c1 : (op = .mul ∧ (isNumEq (mk lt lop lo lx ll lr).erase (Dbl.ofInt 0) = true ∨ isNumEq (mk rt rop ro rx rl rr).erase (Dbl.ofInt 0) = true)) ∨ (op = .div ∧ isNumEq (mk lt lop lo lx ll lr).erase (Dbl.ofInt 0) = true) ∨ (op = .pow ∧ isNumEq (mk lt lop lo lx ll lr).erase (Dbl.ofInt 0) = true)
              · simp only [if_pos c1]
                simp only [pNum, newNode, LM.bind_run, LM.fresh_run, LM.pure_run, Res.bind_ok, LM.lift_run, setParent]
                refine .ok ⟨rfl, ⟨hl.1, trivial, trivial⟩, by simp, fun a => ?_⟩
                simp only [occurs]
                refine ⟨fun h => ?_, fun h => ?_, fun h => ?_⟩
                · rw [if_neg (by omega)]; omega
                · split <;> omega
                · rw [if_neg (by omega)]
              · simp only [if_neg c1]
                by_cases c2 : (op = .add ∧ (isNumEq (mk lt lop lo lx ll lr).erase (Dbl.ofInt 0) = true ∨ isNumEq (mk rt rop ro rx rl rr).erase (Dbl.ofInt 0) = true)) ∨ (op = .sub ∧ isNumEq (mk rt rop ro rx rl rr).erase (Dbl.ofInt 0) = true) ∨
                    (op = .mul ∧ (isNumEq (mk lt lop lo lx ll lr).erase (Dbl.ofInt 1) = true ∨ isNumEq (mk rt rop ro rx rl rr).erase (Dbl.ofInt 1) = true)) ∨ (op = .div ∧ isNumEq (mk rt rop ro rx rl rr).erase (Dbl.ofInt 1) = true) ∨ (op = .pow ∧ isNumEq (mk rt rop ro rx rl rr).erase (Dbl.ofInt 1) = true)
                · simp only [if_pos c2]
                  by_cases c3 : isNumEq (mk lt lop lo lx ll lr).erase (Dbl.ofInt 1) = true ∨ isNumEq (mk lt lop lo lx ll lr).erase (Dbl.ofInt 0) = true
                  · simp only [if_pos c3]
                    simp only [LM.lift_run, setParent, Res.bind_ok]
                    refine .ok ⟨rfl, ⟨hl.1, hl.2.2.2.1, hl.2.2.2.2⟩, Nat.le_refl _, fun a => ?_⟩
                    have := hb a
                    simp only [occurs] at this ⊢
                    exact ⟨fun _ => by omega, fun h => by have := this h; omega, fun h => by have := this h; omega⟩
                  · simp only [if_neg c3]
                    by_cases c4 : isNumEq (mk rt rop ro rx rl rr).erase (Dbl.ofInt 1) = true ∨ isNumEq (mk rt rop ro rx rl rr).erase (Dbl.ofInt 0) = true
                    · simp only [if_pos c4]
                      simp only [LM.lift_run, setParent, Res.bind_ok]
                      refine .ok ⟨rfl, ⟨hl.1, hl.2.1.2.1, hl.2.1.2.2⟩, Nat.le_refl _, fun a => ?_⟩
                      have := hb a
                      simp only [occurs] at this ⊢
                      exact ⟨fun _ => by omega, fun h => by have := this h; omega, fun h => by have := this h; omega⟩
                    · simp only [if_neg c4]
                      exact .ok hid
                · simp only [if_neg c2]
                  exact .ok hid
      · simp only [h2, if_false]
        exact .assertFail

/-- a queue entry: the reference and `isLeftChild`, with the path it stands for -/
def EntryAt (root : PTree α) (e : Nat × Bool) (p : Path) : Prop :=
  (root.getAt p).addr? = some e.1 ∧ (p = [] ∧ e.2 = true ∨ ∃ p0, p = p0 ++ [!e.2])

theorem left_addr_ne {root : PTree α} (hu : ∀ a, occurs a root ≤ 1) {p0 : Path} {a : Nat}
    (h : (root.getAt (p0 ++ [true])).addr? = some a) : (root.getAt p0).left.addr? ≠ some a := by
  intro h2
  have h3 := occurs_of_addr h
  have h4 := occurs_of_addr h2
  have h5 := occurs_getAt_le root p0 a
  have h6 := hu a
  rw [getAt_true] at h3
  cases hg : root.getAt p0 with
  | nil => simp [hg, left, occurs] at h4
  | mk =>
    rw [hg] at h3 h4 h5
    simp only [left_mk, right_mk, occurs] at h3 h4 h5
    omega

/-- `SimplifyNode`'s flag is right -/
theorem pSimplifyNode_path {root : PTree α} {n : Nat} (hs : Sound n root) {p0 : Path} {s : Bool}
    (h : (root.getAt (p0 ++ [s])).isSome = true) :
    ∃ a, pSimplifyNode root (root.getAt (p0 ++ [s])) = .ok (a, !s) ∧ (root.getAt (p0 ++ [s])).addr? = some a := by
  have hu : ∀ a, occurs a root ≤ 1 := fun a => (hs.2 a).1
  have hl := hs.1.at (p0 ++ [s])
  have hg := getAt_snoc root p0 s
  have hne := fun a => left_addr_ne hu (p0 := p0) (a := a)
  cases hn : root.getAt (p0 ++ [s]) with
  | nil => simp [hn, isSome] at h
  | mk ty op o x l r =>
    rw [hn] at hl hg
    refine ⟨o.addr, ?_, rfl⟩
    have hp0 : (root.getAt p0).isSome = true := by
      cases hq : root.getAt p0 with
      | nil => rw [hq] at hg; cases s <;> simp [child, left, right] at hg
      | mk => rfl
    obtain ⟨b, hb⟩ := addr?_of_isSome hp0
    have hpar : o.parent = some b := by rw [hl.1, parentAt_snoc, hb]
    simp only [pSimplifyNode, hpar, find_getAt hu hb, hp0, if_true]
    cases s
    · simp only [child, Bool.false_eq_true, if_false] at hg
      rw [← hg]; simp [addr?]
    · have := hne o.addr (by rw [hn]; rfl)
      simp [this]

theorem pSimplifyPartI_sim {root : PTree α} {n : Nat} (hs : Sound n root) (fuel : Nat) :
    ∀ (stk out : List (Nat × Bool)) (vs vout : List Path), List.Forall₂ (EntryAt root) stk vs →
    List.Forall₂ (EntryAt root) out vout →
    Res.Same (List.Forall₂ (EntryAt root)) (pSimplifyPartI root fuel stk out) (simplifyPartI root.erase fuel vs vout) := by
  have hu : ∀ a, occurs a root ≤ 1 := fun a => (hs.2 a).1
  induction fuel with
  | zero =>
    intro stk out vs vout h ho
    cases h with
    | nil => exact .ok ho
    | cons => exact .diverge
  | succ fuel ih =>
    intro stk out vs vout h ho
    cases h with
    | nil => exact .ok ho
    | @cons e p stk vs h1 h2 =>
      obtain ⟨a, fl⟩ := e
      have ha := h1.1
      simp only at ha
      have hchild : ∀ s, (root.getAt (p ++ [s])).isOperator = true →
          ∃ b, pSimplifyNode root (root.getAt (p ++ [s])) = .ok (b, !s) ∧ EntryAt root (b, !s) (p ++ [s]) := by
        intro s hop
        obtain ⟨b, g1, g2⟩ := pSimplifyNode_path hs (p0 := p) (s := s) (by
          cases hx : root.getAt (p ++ [s]) with
          | nil => simp [hx, isOperator] at hop
          | mk => rfl)
        exact ⟨b, g1, g2, .inr ⟨p, by simp⟩⟩
      have hout : List.Forall₂ (EntryAt root) (out ++ [(a, fl)]) (vout ++ [p]) :=
        List.rel_append ho (.cons h1 .nil)
      have hL := hchild false
      have hR := hchild true
      rw [getAt_false] at hL
      rw [getAt_true] at hR
      simp only [pSimplifyPartI, simplifyPartI, find_getAt hu ha, ← erase_getAt, erase_left, erase_right, erase_isOperator]
      by_cases hl : (root.getAt p).left.isOperator = true
      · obtain ⟨b, g1, g2⟩ := hL hl
        by_cases hr : (root.getAt p).right.isOperator = true
        · obtain ⟨c, g3, g4⟩ := hR hr
          simp only [hl, hr, if_true, g1, g3, Res.bind_ok]
          exact ih _ _ _ _ (.cons g4 (.cons g2 h2)) hout
        · simp only [hl, hr, if_true, if_false, Bool.false_eq_true, g1, Res.bind_ok]
          exact ih _ _ _ _ (.cons g2 h2) hout
      · by_cases hr : (root.getAt p).right.isOperator = true
        · obtain ⟨c, g3, g4⟩ := hR hr
          simp only [hl, hr, if_true, if_false, Bool.false_eq_true, g3, Res.bind_ok]
          exact ih _ _ _ _ (.cons g4 h2) hout
        · simp only [hl, hr, if_false, Bool.false_eq_true, Res.bind_ok]
          exact ih _ _ _ _ h2 hout

theorem pSimplifyPartII_sim (cfg : Config α) :
    ∀ (es : List (Nat × Bool)) (ps : List Path) (n : Nat) (root : PTree α), Sound n root →
    List.Forall₂ (EntryAt root) es ps → (∀ p ∈ ps, p ≠ []) → ps.Pairwise (fun p q => ¬ p <+: q) →
    Res.Same (fun p c => p.1.erase = c ∧ Sound p.2 p.1 ∧ Frame n p.2 root p.1) (pSimplifyPartII cfg es root n)
      (simplifyPartII cfg ps root.erase) := by
  intro es
  induction es with
  | nil =>
    intro ps n root hs h hne hp
    cases h
    simp only [pSimplifyPartII, simplifyPartII, LM.pure_run]
    exact .ok ⟨rfl, hs, Frame.refl _ _⟩
  | cons e es ih =>
    intro ps n root hs h hne hp
    cases h with
    | @cons _ p _ ps h1 h2 =>
    obtain ⟨a, fl⟩ := e
    have hu : ∀ a, occurs a root ≤ 1 := fun a => (hs.2 a).1
    obtain ⟨ha, hpath⟩ := h1
    simp only at ha hpath
    have hp' := List.pairwise_cons.mp hp
    obtain ⟨p0, rfl⟩ : ∃ p0, p = p0 ++ [!fl] := by
      rcases hpath with h | h
      · exact absurd h.1 (hne p (by simp))
      · exact h
    have hsome := addr?_some_isSome ha
    have hp0 : (root.getAt p0).isSome = true := by
      have hg := getAt_snoc root p0 (!fl)
      cases hq : root.getAt p0 with
      | nil =>
        rw [hq] at hg
        have : root.getAt (p0 ++ [!fl]) = .nil := by rw [hg]; cases fl <;> rfl
        rw [this] at hsome; simp [isSome] at hsome
      | mk => rfl
    obtain ⟨b, hb⟩ := addr?_of_isSome hp0
    have hl := hs.1.at (p0 ++ [!fl])
    have hpar : (root.getAt (p0 ++ [!fl])).parent? = some b := by
      rw [hl.parent? hsome, parentAt_snoc, hb]
    simp only [pSimplifyPartII, simplifyPartII, find_getAt hu ha, hpar, find_getAt hu hb, hp0, if_true, LM.bind_run,
      Slot.get_path hu hb, LM.lift_run, Slot.set_path hu hb, Res.bind_ok, ← erase_getAt]
    apply Res.Same.bind (pSimplifySingle_sim cfg hl (fun a ha => by
      have := occurs_getAt_le root (p0 ++ [!fl]) a
      have := (hs.2 a).2 ha
      omega))
    rintro ⟨t, n'⟩ c ⟨h3, h4, h5⟩
    simp only at h3 h4 h5
    subst h3
    rw [← erase_setAt]
    have hs' := hs.setAt (valid_snoc hp0 _) h4 h5
    refine (ih ps n' _ hs' ?_ (fun p hp => hne p (by simp [hp])) hp'.2).mono
      (fun x c h => ⟨h.1, h.2.1, (Frame.setAt (valid_snoc hp0 _) h5).trans h.2.2⟩)
    have hnp := hp'.1
    clear hp hp' ih hne hs'
    induction h2 with
    | nil => exact .nil
    | @cons e q es qs g1 g2 ih2 =>
      refine .cons ⟨?_, g1.2⟩ (ih2 (fun q hq => hnp q (by simp [hq])))
      rw [addr?_getAt_setAt (hnp q (by simp))]
      exact g1.1

theorem preOps_prefix (t : Raw α) (p q : Path) (h : q ∈ preOps t p) : p <+: q := by
  induction t generalizing p with
  | nil => simp [preOps] at h
  | mk ty op v x l r ihl ihr =>
    simp only [preOps] at h
    split at h
    · simp only [List.mem_cons, List.mem_append] at h
      rcases h with h | h | h
      · subst h; exact List.prefix_rfl
      · exact (List.prefix_append p [true]).trans (ihr _ h)
      · exact (List.prefix_append p [false]).trans (ihl _ h)
    · simp at h

theorem not_prefix_sib {p q r : Path} {s : Bool} (h1 : (p ++ [s]) <+: q) (h2 : (p ++ [!s]) <+: r) : ¬ r <+: q := by
  intro h
  obtain ⟨u, rfl⟩ := h1
  obtain ⟨v, rfl⟩ := h2
  obtain ⟨w, hw⟩ := h
  simp only [List.append_assoc, List.append_cancel_left_eq, List.singleton_append, List.cons_append, List.cons.injEq] at hw
  cases s <;> simp at hw

theorem preOps_pairwise (t : Raw α) (p : Path) : (preOps t p).Pairwise (fun p q => ¬ q <+: p) := by
  induction t generalizing p with
  | nil => simp [preOps]
  | mk ty op v x l r ihl ihr =>
    simp only [preOps]
    split
    · rw [List.pairwise_cons, List.pairwise_append]
      refine ⟨?_, ihr _, ihl _, ?_⟩
      · intro q hq hpre
        have hlen : ∀ s, (p ++ [s]) <+: q → False := fun s h => by
          have := (h.trans hpre).length_le
          simp at this
          omega
        simp only [List.mem_append] at hq
        rcases hq with h | h
        · exact hlen _ (preOps_prefix _ _ _ h)
        · exact hlen _ (preOps_prefix _ _ _ h)
      · intro a ha b hb
        exact not_prefix_sib (s := true) (preOps_prefix _ _ _ ha) (preOps_prefix _ _ _ hb)
    · simp

/-- `Simplify` with addresses does what `Simplify` does, and keeps the parent pointers right. -/
theorem pSimplify_sim (cfg : Config α) {root : PTree α} {n : Nat} (hs : Sound n root) :
    Res.Same (fun p c => p.1.erase = c ∧ Sound p.2 p.1 ∧ Frame n p.2 root p.1) (pSimplify cfg root n) (simplify cfg root.erase) := by
  unfold pSimplify simplify simplifyWhole
  simp only [LM.noexcept_run]
  apply Res.Same.noexcept
  rw [erase_isSome, erase_isOperator]
  by_cases h : root.isSome = true
  · by_cases ho : root.isOperator = true
    · simp only [h, ho, Bool.true_eq_false, if_false, LM.bind_run, LM.lift_run]
      cases hr : root with
      | nil => rw [hr] at h; simp [isSome] at h
      | mk ty op o x l r =>
        have hsn : pSimplifyNode root root = .ok (o.addr, true) := by
          rw [hr] at hs ⊢
          simp [pSimplifyNode, hs.1.1]
        rw [← hr, hsn]
        have he : EntryAt root (o.addr, true) [] := ⟨by simp [hr, addr?], .inl ⟨rfl, rfl⟩⟩
        have hI := pSimplifyPartI_sim hs root.size [(o.addr, true)] [] [[]] [] (.cons he .nil) .nil
        have hv := simplifyPartI_eq root.erase root.size [[]] []
          (by simpa using ho) (by simp)
        rw [erase_size]
        rw [hv] at hI ⊢
        obtain ⟨order, h1, h2⟩ := hI.of_ok
        simp only [Res.bind_ok, h1]
        have hop : (root.erase).isOperator = true := by simpa using ho
        simp only [List.map_cons, List.map_nil, List.flatten_cons, List.flatten_nil, List.append_nil, List.nil_append,
          getAt_nilPath] at h2 ⊢
        have hpw := preOps_pairwise root.erase []
        rw [preOps_of_op hop] at h2 hpw ⊢
        cases h2 with
        | @cons e p es ps g1 g2 =>
          simp only [List.tail_cons]
          rw [List.pairwise_cons] at hpw
          have hne : ∀ p ∈ (preOps root.erase.right ([] ++ [true]) ++ preOps root.erase.left ([] ++ [false])).reverse, p ≠ [] := by
            intro p hp e
            exact hpw.1 p (by rwa [List.mem_reverse] at hp) (by simp [e])
          apply Res.Same.bind (pSimplifyPartII_sim cfg es.reverse _ n root hs (List.forall₂_reverse_iff.mpr g2) hne
            (by rw [List.pairwise_reverse]; exact hpw.2))
          rintro ⟨t, n'⟩ c ⟨h3, h4, h5⟩
          simp only at h3 h4 h5
          subst h3
          refine (pSimplifySingle_sim cfg h4.1 (fun a ha => (h4.2 a).2 ha)).mono ?_
          rintro ⟨t2, n2⟩ c ⟨k1, k2, k3⟩
          refine ⟨k1, ?_, h5.trans k3.frame⟩
          have := h4.setAt (p := []) (by simp) k2 (by simpa using k3)
          simpa using this
    · simp only [h, ho, Bool.true_eq_false, if_false, if_true, LM.pure_run]
      exact .ok ⟨rfl, hs, Frame.refl _ _⟩
  · simp only [h, if_true, LM.ub_run]
    exact .ub

end Tom
