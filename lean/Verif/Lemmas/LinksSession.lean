import Verif.Spec.Session
import Verif.Lemmas.LinksPrint
import Verif.Lemmas.Dict
import Verif.Props.Parse
/-
Programs over `Node` variables: the objects represent the expressions.
-/
set_option linter.unusedSectionVars false
set_option linter.unusedSimpArgs false
set_option linter.unusedVariables false
namespace Tom
variable {α : Type} [Dbl α]
open Raw

/-! ### variables -/

@[simp] theorem VEnv.set_self {β : Type} (env : VEnv β) (x : Str) (t : Raw β) : env.set x t x = t := by simp [VEnv.set]

theorem VEnv.set_ne {β : Type} (env : VEnv β) {x y : Str} (t : Raw β) (h : y ≠ x) : env.set x t y = env y := by
  simp [VEnv.set, h]

@[simp] theorem eraseEnv_set (env : Env α) (x : Str) (t : PTree α) : eraseEnv (env.set x t) = (eraseEnv env).set x t.erase := by
  funext y
  by_cases h : y = x
  · subst h; simp [eraseEnv]
  · simp [eraseEnv, VEnv.set_ne _ _ h]

@[simp] theorem eraseEnv_after (env : Env α) (o : Operand) : eraseEnv (o.after env) = o.after (eraseEnv env) := by
  cases o <;> simp [Operand.after]

theorem EnvSound.mono {n n' : Nat} {env : Env α} (h : EnvSound n env) (hn : n ≤ n') : EnvSound n' env :=
  ⟨fun x => (h.sound x).mono hn, h.apart⟩

theorem sound_nil (n : Nat) : Sound n (.nil : PTree α) := ⟨trivial, fun a => ⟨by simp [occurs], fun _ => rfl⟩⟩

/-- a tree whose objects are in no variable may be stored in a variable -/
theorem EnvSound.set {n : Nat} {env : Env α} (h : EnvSound n env) {x : Str} {t : PTree α} (ht : Sound n t)
    (hap : ∀ y a, occurs a t = 0 ∨ occurs a (env y) = 0) : EnvSound n (env.set x t) := by
  refine ⟨fun y => ?_, fun y z hyz a => ?_⟩
  · by_cases hy : y = x
    · subst hy; simpa using ht
    · rw [VEnv.set_ne _ _ hy]; exact h.sound y
  · by_cases hy : y = x
    · subst hy
      rw [VEnv.set_self, VEnv.set_ne _ _ (Ne.symm hyz)]
      exact hap z a
    · by_cases hz : z = x
      · subst hz
        rw [VEnv.set_self, VEnv.set_ne _ _ hy]
        exact (hap y a).symm
      · rw [VEnv.set_ne _ _ hy, VEnv.set_ne _ _ hz]; exact h.apart y z hyz a

theorem EnvSound.null {n : Nat} {env : Env α} (h : EnvSound n env) (x : Str) : EnvSound n (env.set x .nil) :=
  h.set (sound_nil n) (fun y a => .inl rfl)

theorem EnvSound.after {n : Nat} {env : Env α} (h : EnvSound n env) (o : Operand) : EnvSound n (o.after env) := by
  cases o with
  | lvalue => exact h
  | rvalue y => exact h.null y

/-- a tree made of new objects -/
theorem EnvSound.set_new {n n' : Nat} {env : Env α} (h : EnvSound n env) {x : Str} {t : PTree α} (hl : Linked none t)
    (ht : New n n' t) : EnvSound n' (env.set x t) := by
  refine (h.mono ht.1).set ⟨hl, fun a => ⟨(ht.2 a).1, (ht.2 a).2.2⟩⟩ (fun y a => ?_)
  by_cases ha : a < n
  · exact .inl ((ht.2 a).2.1 ha)
  · exact .inr (((h.sound y).2 a).2 (by omega))

/-- what an operand gives, and what stays in the variables -/
structure Taken (n n' : Nat) (env : Env α) (o : Operand) (t : PTree α) : Prop where
  le : n ≤ n'
  erase : t.erase = eraseEnv env o.name
  distinct : Distinct n' t
  from_env : ∀ a, a < n → 0 < occurs a t → 0 < occurs a (env o.name)
  apart : ∀ y a, occurs a t = 0 ∨ occurs a (o.after env y) = 0

theorem taken_new {n n' : Nat} {env : Env α} (h : EnvSound n env) {y : Str} {t : PTree α} (ht : New n n' t)
    (he : t.erase = (env y).erase) : Taken n n' env (.lvalue y) t := by
  refine ⟨ht.1, he, fun a => ⟨(ht.2 a).1, (ht.2 a).2.2⟩, fun a ha h0 => ?_, fun z a => ?_⟩
  · have := (ht.2 a).2.1 ha; omega
  · by_cases ha : a < n
    · exact .inl ((ht.2 a).2.1 ha)
    · exact .inr (((h.sound z).2 a).2 (by omega))

theorem taken_move {n : Nat} {env : Env α} (h : EnvSound n env) {y : Str} {t : PTree α}
    (ho : ∀ a, occurs a t = occurs a (env y)) (he : t.erase = (env y).erase) : Taken n n env (.rvalue y) t := by
  refine ⟨Nat.le_refl _, he, fun a => by rw [ho]; exact (h.sound y).2 a, fun a ha h0 => by rw [ho] at h0; exact h0,
    fun z a => ?_⟩
  by_cases hz : z = y
  · subst hz; right; simp [Operand.after, occurs]
  · rw [ho]
    simp only [Operand.after, VEnv.set_ne _ _ hz]
    exact h.apart y z (Ne.symm hz) a

/-- `take` for `Subs` and `Diff` -/
theorem take_spec {n : Nat} {env : Env α} (h : EnvSound n env) (o : Operand)
    (hs : (env o.name).isSome = true ∨ ∃ y, o = .rvalue y) :
    ∃ t n', o.take env n = .ok (t, n') ∧ Linked none t ∧ Taken n n' env o t := by
  cases o with
  | rvalue y => exact ⟨env y, n, rfl, (h.sound y).1, taken_move h (fun _ => rfl) rfl⟩
  | lvalue y =>
    rcases hs with hs | ⟨y', h'⟩
    · obtain ⟨t, n', h1, h2, h3, h4⟩ := pClone_spec (env y) hs n
      exact ⟨t, n', h1, h3, taken_new h h4 h2⟩
    · cases h'

/-- the result of a function that keeps its objects may be stored -/
theorem Taken.store {n n1 n2 : Nat} {env : Env α} (h : EnvSound n env) {o : Operand} {t t' : PTree α}
    (ht : Taken n n1 env o t) (hs : Sound n2 t') (hf : Frame n1 n2 t t') (x : Str) :
    EnvSound n2 ((o.after env).set x t') := by
  refine ((h.after o).mono (Nat.le_trans ht.le hf.1)).set hs (fun y a => ?_)
  by_cases ha : a < n1
  · rcases ht.apart y a with h1 | h1
    · left; have := hf.2 a ha; omega
    · exact .inr h1
  · exact .inr ((((h.after o).sound y).2 a).2 (by have := ht.le; omega))

/-! ### operator overloads -/

theorem pCopyCtor_spec (t : PTree α) (h : t.isSome = true) (n : Nat) :
    ∃ c n', pCopyCtor t n = .ok (c, n') ∧ c.erase = t.erase ∧ Linked t.parent? c ∧ New n n' c ∧ c.isSome = true := by
  cases t with
  | nil => simp [isSome] at h
  | mk ty op o x l r =>
    have key : ∀ (s : PTree α) (m : Nat), ∃ c m',
        pCopyChild n s m = .ok (c, m') ∧
        c.erase = s.erase ∧ Linked (some n) c ∧ New m m' c := by
      intro s m
      by_cases hs : s.isSome = true
      · obtain ⟨c, m', h1, h2, h3, h4⟩ := pClone_spec s hs m
        have hc : c.isSome = true := by
          have := congrArg Raw.isSome h2
          rw [erase_isSome, erase_isSome] at this
          rw [this]; exact hs
        obtain ⟨c', g1, g2, g3, g4, g5, g6, g7, g8⟩ := setParent_mk (q := some n) hc
        refine ⟨c', m', ?_, g2.trans h2, g8 _ h3, h4.1, fun a => by rw [g3]; exact h4.2 a⟩
        simp only [pCopyChild, hs, if_true, LM.bind_run, h1, Res.bind_ok, LM.lift_run, g1]
      · have : s = .nil := by cases s with
          | nil => rfl
          | mk => simp at hs
        subst this
        exact ⟨.nil, m, by simp [pCopyChild, isSome], rfl, trivial, Nat.le_refl _, fun a => by simp [occurs]⟩
    obtain ⟨l', n1, h1, h2, h3, h4⟩ := key l (n + 1)
    obtain ⟨r', n2, g1, g2, g3, g4⟩ := key r n1
    refine ⟨.mk ty op ⟨o.value, n, o.parent⟩ x l' r', n2, ?_, by simp [h2, g2], ⟨rfl, h3, g3⟩, ⟨?_, fun a => ?_⟩, rfl⟩
    · simp only [pCopyCtor, LM.bind_run, LM.fresh_run, Res.bind_ok, LM.pure_run, h1, g1]
    · have := h4.1; have := g4.1; omega
    · have e1 := h4.1
      have e2 := g4.1
      obtain ⟨k1, k2, k3⟩ := h4.2 a
      obtain ⟨m1, m2, m3⟩ := g4.2 a
      simp only [occurs]
      by_cases ha : a < n + 1
      · have := k2 ha
        have := m2 (by omega)
        refine ⟨by split <;> omega, fun h => ?_, fun h => by omega⟩
        have : ¬ n = a := by omega
        simp only [if_neg this]; omega
      · have hna : ¬ n = a := by omega
        simp only [if_neg hna]
        by_cases hb : a < n1
        · have := m2 hb
          exact ⟨by omega, fun h => by omega, fun h => by omega⟩
        · have := k3 (by omega)
          exact ⟨by omega, fun h => by omega, fun h => by have := m3 h; omega⟩

theorem copyOrMove_spec {n : Nat} {env : Env α} (h : EnvSound n env) (p : Nat) (o : Operand) :
    (env o.name).isSome = true →
    ∃ c n', copyOrMove env p o n = .ok ((c, o.after env), n') ∧ Linked (some p) c ∧ Taken n n' env o c := by
  intro hs
  cases o with
  | lvalue y =>
    obtain ⟨c, n', h1, h2, h3, h4, h5⟩ := pCopyCtor_spec (env y) hs n
    obtain ⟨c', g1, g2, g3, g4, g5, g6, g7, g8⟩ := setParent_mk (q := some p) h5
    refine ⟨c', n', ?_, g8 _ h3, taken_new h ⟨h4.1, fun a => by rw [g3]; exact h4.2 a⟩ (g2.trans h2)⟩
    simp only [copyOrMove, LM.bind_run, h1, Res.bind_ok, LM.lift_run, g1, LM.pure_run, Operand.after]
  | rvalue y =>
    obtain ⟨c', g1, g2, g3, g4, g5, g6, g7, g8⟩ := setParent_mk (q := some p) hs
    refine ⟨c', n, ?_, g8 _ (h.sound y).1, taken_move h g3 g2⟩
    simp only [copyOrMove, LM.bind_run, LM.lift_run, Operand.name] at g1 ⊢
    simp only [g1, Res.bind_ok, LM.pure_run, Operand.after]

theorem copyOrMove_ub {n : Nat} {env : Env α} (p : Nat) (o : Operand) (hs : ¬ (env o.name).isSome = true) :
    copyOrMove env p o n = .ub := by
  have : env o.name = .nil := by
    cases h : env o.name with
    | nil => rfl
    | mk => rw [h] at hs; simp at hs
  cases o with
  | lvalue y =>
    simp only [Operand.name] at this
    simp [copyOrMove, this, pCopyCtor]
  | rvalue y =>
    simp only [Operand.name] at this
    simp [copyOrMove, this, setParent]

/-- the observable outcome: same values, right pointers -/
def EnvRel (n : Nat) (p : Env α × Nat) (c : VEnv α) : Prop := eraseEnv p.1 = c ∧ EnvSound p.2 p.1 ∧ n ≤ p.2

theorem eraseEnv_isSome (env : Env α) (x : Str) : (eraseEnv env x).isSome = (env x).isSome := by simp [eraseEnv]

/-- an operand of a new operator node, with the operator's address already reserved -/
theorem unary_sim {n : Nat} {env : Env α} (h : EnvSound n env) (op : MathOp) (x : Str) (o : Operand) :
    Res.Same (EnvRel n) ((do let p ← unaryOperator op env o; pure (p.2.set x p.1) : LM (Env α)) n)
      (if (eraseEnv env o.name).isSome then .ok ((o.after (eraseEnv env)).set x (unaryNode op (eraseEnv env o.name))) else .ub) := by
  rw [eraseEnv_isSome]
  by_cases hs : (env o.name).isSome = true
  · obtain ⟨c, n', h1, h2, h3⟩ := copyOrMove_spec (h.mono (Nat.le_succ n)) n o hs
    simp only [hs, if_true, unaryOperator, LM.bind_run, LM.fresh_run, Res.bind_ok, h1, LM.pure_run]
    refine .ok ⟨?_, ?_, by have := h3.le; simp only; omega⟩
    · simp [h3.erase, unaryNode]
    · have hn : occurs n c = 0 := by
        by_contra hne
        have := h3.from_env n (by omega) (by omega)
        have := ((h.sound o.name).2 n).2 (Nat.le_refl _)
        omega
      have hle := h3.le
      refine ((h.after o).mono (by omega)).set ⟨⟨rfl, h2, trivial⟩, fun a => ?_⟩ (fun y a => ?_)
      · obtain ⟨k1, k2⟩ := h3.distinct a
        simp only [occurs]
        by_cases ha : n = a
        · subst ha; simp only [if_true, hn]; exact ⟨by omega, fun h => by omega⟩
        · simp only [if_neg ha]; exact ⟨by omega, fun h => by have := k2 h; omega⟩
      · simp only [occurs]
        by_cases ha : n = a
        · subst ha; right; exact (((h.after o).sound y).2 n).2 (Nat.le_refl _)
        · simp only [if_neg ha]
          rcases h3.apart y a with k | k
          · left; omega
          · exact .inr k
  · simp only [hs, if_false, unaryOperator, LM.bind_run, LM.fresh_run, Res.bind_ok, copyOrMove_ub n o hs]
    exact .ub

theorem binary_sim {n : Nat} {env : Env α} (h : EnvSound n env) (op : MathOp) (x : Str) (o1 o2 : Operand) :
    Res.Same (EnvRel n) ((do let p ← binaryOperator op env o1 o2; pure (p.2.set x p.1) : LM (Env α)) n)
      (if (eraseEnv env o1.name).isSome ∧ (o1.after (eraseEnv env) o2.name).isSome then
        .ok ((o2.after (o1.after (eraseEnv env))).set x
          (binaryNode op (eraseEnv env o1.name) (o1.after (eraseEnv env) o2.name)))
      else .ub) := by
  rw [eraseEnv_isSome, ← eraseEnv_after, eraseEnv_isSome]
  by_cases hs : (env o1.name).isSome = true
  · obtain ⟨c, n1, h1, h2, h3⟩ := copyOrMove_spec (h.mono (Nat.le_succ n)) n o1 hs
    have hle := h3.le
    have hE1 : EnvSound n1 (o1.after env) := (h.after o1).mono (by omega)
    simp only [binaryOperator, LM.bind_run, LM.fresh_run, Res.bind_ok, h1]
    by_cases hs2 : (o1.after env o2.name).isSome = true
    · obtain ⟨d, n2, g1, g2, g3⟩ := copyOrMove_spec hE1 n o2 hs2
      have hle2 := g3.le
      simp only [hs, hs2, and_self, if_true, g1, Res.bind_ok, LM.pure_run]
      refine .ok ⟨?_, ?_, by simp only; omega⟩
      · simp [h3.erase, g3.erase, binaryNode]
      · have hn : occurs n c = 0 := by
          by_contra hne
          have := h3.from_env n (by omega) (by omega)
          have := ((h.sound o1.name).2 n).2 (Nat.le_refl _)
          omega
        have hn2 : occurs n d = 0 := by
          by_contra hne
          have := g3.from_env n (by omega) (by omega)
          have := (((h.after o1).sound o2.name).2 n).2 (Nat.le_refl _)
          omega
        have hcd : ∀ a, occurs a c = 0 ∨ occurs a d = 0 := by
          intro a
          by_cases ha : a < n1
          · by_cases hd : occurs a d = 0
            · exact .inr hd
            · have := g3.from_env a ha (by omega)
              rcases h3.apart o2.name a with k | k
              · exact .inl k
              · omega
          · exact .inl ((h3.distinct a).2 (by omega))
        have hE2 := (hE1.after o2).mono hle2
        refine hE2.set ⟨⟨rfl, h2, g2⟩, fun a => ?_⟩ (fun y a => ?_)
        · obtain ⟨k1, k2⟩ := h3.distinct a
          obtain ⟨m1, m2⟩ := g3.distinct a
          have := hcd a
          simp only [occurs]
          by_cases ha : n = a
          · subst ha; simp only [if_true, hn, hn2]; exact ⟨by omega, fun h => by omega⟩
          · simp only [if_neg ha]
            exact ⟨by omega, fun h => by have := k2 (by omega); have := m2 h; omega⟩
        · simp only [occurs]
          by_cases ha : n = a
          · subst ha; right
            exact ((((h.after o1).after o2).sound y).2 n).2 (Nat.le_refl _)
          · simp only [if_neg ha]
            have hy : occurs a (o2.after (o1.after env) y) ≤ occurs a (o1.after env y) := by
              cases o2 with
              | lvalue => exact Nat.le_refl _
              | rvalue z =>
                by_cases hz : y = z
                · subst hz; simp [Operand.after, occurs]
                · simp [Operand.after, VEnv.set_ne _ _ hz]
            rcases h3.apart y a with k | k
            · rcases g3.apart y a with k' | k'
              · left; omega
              · exact .inr k'
            · right; omega
    · simp only [hs2, and_false, if_false, copyOrMove_ub n o2 hs2, Bool.false_eq_true]
      exact .ub
  · simp only [hs, false_and, if_false, binaryOperator, LM.bind_run, LM.fresh_run, Res.bind_ok, copyOrMove_ub n o1 hs, Bool.false_eq_true]
    exact .ub

end Tom
