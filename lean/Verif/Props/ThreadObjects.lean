import Verif.Props.Schedule
/-
C92 on the level of objects: which objects (nodes with addresses and parent pointers) a statement reads and writes.
-/
set_option linter.unusedSectionVars false
namespace Tom
variable {α : Type} [Dbl α] {ι : Type} [DecidableEq ι]

/-- two computations that allocate alike and end alike, with related results -/
def LM.Alike {β γ : Type} (R : β → γ → Prop) (m : LM β) (m' : LM γ) : Prop :=
  ∀ n, (∃ b c k, m n = .ok (b, k) ∧ m' n = .ok (c, k) ∧ R b c) ∨ (∃ e, m n = .throw e ∧ m' n = .throw e) ∨ (m n = .ub ∧ m' n = .ub) ∨
    (m n = .terminate ∧ m' n = .terminate) ∨ (m n = .assertFail ∧ m' n = .assertFail) ∨ (m n = .diverge ∧ m' n = .diverge)

theorem LM.Alike.refl {β : Type} (m : LM β) : LM.Alike (· = ·) m m := by
  intro n
  cases h : m n with
  | ok p => exact .inl ⟨p.1, p.1, p.2, rfl, rfl, rfl⟩
  | throw e => exact .inr (.inl ⟨e, rfl, rfl⟩)
  | ub => simp
  | terminate => simp
  | assertFail => simp
  | diverge => simp

theorem LM.Alike.pure {β γ : Type} {R : β → γ → Prop} {b : β} {c : γ} (h : R b c) : LM.Alike R (Pure.pure b : LM β) (Pure.pure c : LM γ) :=
  fun n => .inl ⟨b, c, n, rfl, rfl, h⟩

theorem LM.Alike.bind {β γ β' γ' : Type} {R : β → γ → Prop} {S : β' → γ' → Prop} {m : LM β} {m' : LM γ} {f : β → LM β'} {g : γ → LM γ'}
    (h : LM.Alike R m m') (hf : ∀ b c, R b c → LM.Alike S (f b) (g c)) : LM.Alike S (m >>= f) (m' >>= g) := by
  intro n
  have e1 : (m >>= f) n = Res.bind (m n) fun p => f p.1 p.2 := rfl
  have e2 : (m' >>= g) n = Res.bind (m' n) fun p => g p.1 p.2 := rfl
  rw [e1, e2]
  rcases h n with ⟨b, c, k, h1, h2, h3⟩ | ⟨e, h1, h2⟩ | ⟨h1, h2⟩ | ⟨h1, h2⟩ | ⟨h1, h2⟩ | ⟨h1, h2⟩ <;> rw [h1, h2]
  · exact hf b c h3 k
  · exact .inr (.inl ⟨e, rfl, rfl⟩)
  · exact .inr (.inr (.inl ⟨rfl, rfl⟩))
  · exact .inr (.inr (.inr (.inl ⟨rfl, rfl⟩)))
  · exact .inr (.inr (.inr (.inr (.inl ⟨rfl, rfl⟩))))
  · exact .inr (.inr (.inr (.inr (.inr ⟨rfl, rfl⟩))))

/-- The two states hold the very same objects in the variables of `P`, and each holds its own state outside. -/
structure Framed (P : Str → Prop) (a b a' b' : Env α) : Prop where
  inside : ∀ x, P x → a' x = b' x
  left : ∀ x, ¬ P x → a' x = a x
  right : ∀ x, ¬ P x → b' x = b x

theorem Framed.set {P : Str → Prop} {a b a' b' : Env α} (h : Framed P a b a' b') {x : Str} (hx : P x) (t : PTree α) :
    Framed P a b (a'.set x t) (b'.set x t) := by
  refine ⟨fun y hy => ?_, fun y hy => ?_, fun y hy => ?_⟩
  · unfold VEnv.set; split
    · rfl
    · exact h.inside y hy
  · have : y ≠ x := by rintro rfl; exact hy hx
    rw [VEnv.set_ne _ _ this]; exact h.left y hy
  · have : y ≠ x := by rintro rfl; exact hy hx
    rw [VEnv.set_ne _ _ this]; exact h.right y hy

theorem Framed.after {P : Str → Prop} {a b a' b' : Env α} (h : Framed P a b a' b') {o : Operand} (hx : P o.source) :
    Framed P a b (o.after a') (o.after b') := by
  cases o with
  | lvalue y => exact h
  | rvalue y => exact h.set hx _

theorem copyOrMove_framed {P : Str → Prop} {a b a' b' : Env α} (h : Framed P a b a' b') (p : Nat) {o : Operand} (hx : P o.source) :
    LM.Alike (fun u v => u.1 = v.1 ∧ Framed P a b u.2 v.2) (copyOrMove a' p o) (copyOrMove b' p o) := by
  cases o with
  | lvalue y =>
    have : a' y = b' y := h.inside y hx
    simp only [copyOrMove, this]
    exact (LM.Alike.refl _).bind fun c _ e => by subst e; exact (LM.Alike.refl _).bind fun c _ e => by subst e; exact .pure ⟨rfl, h⟩
  | rvalue y =>
    have : a' y = b' y := h.inside y hx
    simp only [copyOrMove, this]
    exact (LM.Alike.refl _).bind fun c _ e => by subst e; exact .pure ⟨rfl, h.set hx _⟩

theorem binaryOperator_framed {P : Str → Prop} {a b : Env α} (h : Framed P a b a b) (op : MathOp) {o1 o2 : Operand} (h1 : P o1.source) (h2 : P o2.source) :
    LM.Alike (fun u v => u.1 = v.1 ∧ Framed P a b u.2 v.2) (binaryOperator op a o1 o2) (binaryOperator op b o1 o2) := by
  unfold binaryOperator
  refine (LM.Alike.refl _).bind fun p _ e => ?_
  subst e
  refine (copyOrMove_framed h p h1).bind fun u v e => ?_
  obtain ⟨l, a'⟩ := u
  obtain ⟨l', b'⟩ := v
  obtain ⟨rfl, h'⟩ := e
  refine (copyOrMove_framed h' p h2).bind fun u v e => ?_
  obtain ⟨r, a''⟩ := u
  obtain ⟨r', b''⟩ := v
  obtain ⟨rfl, h''⟩ := e
  exact .pure ⟨rfl, h''⟩

/-- A statement reads and writes only the objects of the variables it mentions (and new ones). -/
theorem step_framed (cfg : Config α) {P : Str → Prop} {a b : Env α} (hab : ∀ x, P x → a x = b x) (s : Stmt α) (hs : ∀ x ∈ s.names, P x) :
    LM.Alike (Framed P a b) (s.step cfg a) (s.step cfg b) := by
  have h : Framed P a b a b := ⟨hab, fun _ _ => rfl, fun _ _ => rfl⟩
  have take : ∀ o : Operand, P o.source → o.take a = o.take b := by
    intro o ho
    cases o with
    | lvalue y => simp only [Operand.take, hab y ho]
    | rvalue y => simp only [Operand.take, hab y ho]
  have one : ∀ (m : LM (PTree α)) (x : Str), P x → LM.Alike (Framed P a b) (m >>= fun t => pure (a.set x t)) (m >>= fun t => pure (b.set x t)) := by
    intro m x hx
    exact (LM.Alike.refl _).bind fun t _ e => by subst e; exact .pure (h.set hx t)
  cases s with
  | num x v => exact one _ x (hs x (by simp [Stmt.names]))
  | var x name => exact (LM.Alike.refl _).bind fun _ _ _ => one _ x (hs x (by simp [Stmt.names]))
  | parse x text => exact one _ x (hs x (by simp [Stmt.names]))
  | clone x y =>
    simp only [Stmt.step, hab y (hs y (by simp [Stmt.names]))]
    exact one _ x (hs x (by simp [Stmt.names]))
  | move x y =>
    simp only [Stmt.step, hab y (hs y (by simp [Stmt.names]))]
    exact .pure ((h.set (hs y (by simp [Stmt.names])) _).set (hs x (by simp [Stmt.names])) _)
  | unary x op o =>
    simp only [Stmt.step, unaryOperator]
    refine LM.Alike.bind (R := fun u v => u.1 = v.1 ∧ Framed P a b u.2 v.2) ?_ fun u v e => ?_
    · refine (LM.Alike.refl _).bind fun p _ e => ?_
      subst e
      refine (copyOrMove_framed h p (hs o.source (by simp [Stmt.names]))).bind fun u v e => ?_
      exact .pure ⟨by rw [e.1], e.2⟩
    · obtain ⟨t, a'⟩ := u
      obtain ⟨t', b'⟩ := v
      obtain ⟨rfl, h'⟩ := e
      exact .pure (h'.set (hs x (by simp [Stmt.names])) _)
  | binary x op o1 o2 =>
    simp only [Stmt.step]
    refine (binaryOperator_framed h op (hs o1.source (by simp [Stmt.names])) (hs o2.source (by simp [Stmt.names]))).bind fun u v e => ?_
    obtain ⟨t, a'⟩ := u
    obtain ⟨t', b'⟩ := v
    obtain ⟨rfl, h'⟩ := e
    exact .pure (h'.set (hs x (by simp [Stmt.names])) _)
  | compound op x o =>
    simp only [Stmt.step, compoundAssign]
    refine (binaryOperator_framed h op (o1 := .rvalue x) (hs x (by simp [Stmt.names])) (hs o.source (by simp [Stmt.names]))).bind fun u v e => ?_
    obtain ⟨t, a'⟩ := u
    obtain ⟨t', b'⟩ := v
    obtain ⟨rfl, h'⟩ := e
    exact .pure (h'.set (hs x (by simp [Stmt.names])) _)
  | subs x o names images =>
    have hi : images.map a = images.map b := List.map_congr_left fun y hy => hab y (hs y (by simp [Stmt.names, hy]))
    simp only [Stmt.step, take o (hs o.source (by simp [Stmt.names])), hi]
    refine (LM.Alike.refl _).bind fun t _ e => ?_
    subst e
    refine (LM.Alike.refl _).bind fun _ _ _ => (LM.Alike.refl _).bind fun d _ e => ?_
    subst e
    refine (LM.Alike.refl _).bind fun t _ e => ?_
    subst e
    exact .pure ((h.after (hs o.source (by simp [Stmt.names]))).set (hs x (by simp [Stmt.names])) _)
  | subsValues x o values =>
    simp only [Stmt.step, take o (hs o.source (by simp [Stmt.names]))]
    refine (LM.Alike.refl _).bind fun t _ e => ?_
    subst e
    refine (LM.Alike.refl _).bind fun d _ e => ?_
    subst e
    refine (LM.Alike.refl _).bind fun t _ e => ?_
    subst e
    exact .pure ((h.after (hs o.source (by simp [Stmt.names]))).set (hs x (by simp [Stmt.names])) _)
  | simplify x =>
    simp only [Stmt.step, hab x (hs x (by simp [Stmt.names]))]
    exact one _ x (hs x (by simp [Stmt.names]))
  | diff x o name i =>
    simp only [Stmt.step, take o (hs o.source (by simp [Stmt.names]))]
    refine (LM.Alike.refl _).bind fun t _ e => ?_
    subst e
    refine (LM.Alike.refl _).bind fun t _ e => ?_
    subst e
    exact .pure ((h.after (hs o.source (by simp [Stmt.names]))).set (hs x (by simp [Stmt.names])) _)

/-- **C92** (what a statement reads): a statement behaves the same — same objects made, same outcome, same objects in its variables — whatever
objects the variables it does not mention hold. -/
theorem C92_reads (cfg : Config α) {a b : Env α} (s : Stmt α) (hab : ∀ x ∈ s.names, a x = b x) (n : Nat) :
    (∀ a' k, s.step cfg a n = .ok (a', k) → ∃ b', s.step cfg b n = .ok (b', k) ∧ ∀ x ∈ s.names, a' x = b' x) ∧
    (∀ e, s.step cfg a n = .throw e → s.step cfg b n = .throw e) := by
  have h := step_framed cfg (P := fun x => x ∈ s.names) hab s (fun _ h => h) n
  constructor
  · intro a' k ha
    rcases h with ⟨u, v, m, h1, h2, h3⟩ | ⟨e, h1, _⟩ | ⟨h1, _⟩ | ⟨h1, _⟩ | ⟨h1, _⟩ | ⟨h1, _⟩ <;> rw [h1] at ha <;> cases ha
    exact ⟨v, h2, h3.inside⟩
  · intro e ha
    rcases h with ⟨u, v, m, h1, h2, h3⟩ | ⟨e, h1, h2⟩ | ⟨h1, _⟩ | ⟨h1, _⟩ | ⟨h1, _⟩ | ⟨h1, _⟩ <;> rw [h1] at ha <;> cases ha
    exact h2

/-- **C92** (what a statement writes): the variables a statement does not mention hold the very same objects afterwards, parent pointers
included, whether it returns or throws. -/
theorem C92_writes (cfg : Config α) (a : Env α) (s : Stmt α) (n : Nat) {x : Str} (hx : x ∉ s.names) :
    (∀ a' k, s.step cfg a n = .ok (a', k) → a' x = a x) ∧ s.thrown a x = a x := by
  constructor
  · intro a' k ha
    have h := step_framed cfg (P := fun x => x ∈ s.names) (a := a) (b := a) (fun _ _ => rfl) s (fun _ h => h) n
    rcases h with ⟨u, v, m, h1, h2, h3⟩ | ⟨e, h1, _⟩ | ⟨h1, _⟩ | ⟨h1, _⟩ | ⟨h1, _⟩ | ⟨h1, _⟩ <;> rw [h1] at ha <;> cases ha
    exact h3.left x hx
  · cases s with
    | diff y o name i =>
      cases o with
      | lvalue z => rfl
      | rvalue z =>
        simp only [Stmt.names, Operand.source, List.mem_cons, List.not_mem_nil, or_false, not_or] at hx
        exact VEnv.set_ne _ _ hx.2
    | _ => rfl

/-- **C92** (no object is shared by two threads): after any interleaving of the statements of several threads, each with variables of its own, no
object belongs to variables of two threads. -/
theorem C92_disjoint (cfg : Config α) (cs : List (ι × Stmt α)) (hp : ∀ p ∈ cs, p.2.Proper) (owner : Str → ι) (env : Env α) (n : Nat)
    (h : execute cfg (cs.map Prod.snd) (fun _ => .nil) 0 = .ok (env, n)) (x y : Str) (hxy : owner x ≠ owner y) (a : Nat) :
    occurs a (env x) = 0 ∨ occurs a (env y) = 0 := by
  have hr : Reachable cfg n env := by
    refine ⟨_, ?_, h⟩
    intro s hs
    obtain ⟨p, h1, rfl⟩ := List.mem_map.mp hs
    exact hp p h1
  exact (C52_reachable hr x).2.2 y (by rintro rfl; exact hxy rfl) a

/-- The two threads of `twoThreads` (Props/Schedule) own different objects: `y` of the one holds the nodes of `a+a`, `v` of the other those of
`sin(2)`. -/
example : (match execute defaultConfig (twoThreads.map Prod.snd) (fun _ => .nil) 0 with
      | .ok (env, n) => decide (0 < n) && (List.range n).all fun a => decide (occurs a (env ['y']) = 0 ∨ occurs a (env ['v']) = 0)
      | _ => false) = true ∧
    (match execute defaultConfig (twoThreads.map Prod.snd) (fun _ => .nil) 0 with
      | .ok (env, n) => ((List.range n).filter fun a => decide (occurs a (env ['y']) = 1)).length == 3
      | _ => false) = true := by
  decide +kernel

end Tom
