import Verif.Spec.Schedule
import Verif.Props.Links
/-
C92: expressions of different threads do not interfere.
-/
set_option linter.unusedSectionVars false
namespace Tom
variable {α : Type} [Dbl α]

/-- agreement on the variables in `P` -/
def Agree (P : Str → Prop) (a b : VEnv α) : Prop := ∀ x, P x → a x = b x

theorem Agree.set {P : Str → Prop} {a b : VEnv α} (h : Agree P a b) (x : Str) (t : Raw α) : Agree P (a.set x t) (b.set x t) := by
  intro y hy
  unfold VEnv.set
  split
  · rfl
  · exact h y hy

theorem Agree.leaves {P : Str → Prop} {a b : VEnv α} (h : Agree P a b) (o : Operand) : Agree P (o.leaves a) (o.leaves b) := by
  cases o with
  | lvalue y => exact h
  | rvalue y =>
    intro x hx
    unfold Operand.leaves
    simp only
    split
    · rfl
    · exact h x hx

theorem leaves_other {env : VEnv α} {o : Operand} {x : Str} (h : x ≠ o.source) : o.leaves env x = env x := by
  cases o with
  | lvalue y => rfl
  | rvalue y => simp only [Operand.leaves, Operand.source] at *; rw [if_neg h]

theorem same_refl {β : Type} {R : β → β → Prop} (hR : ∀ b, R b b) (r : Res β) : Res.Same R r r := by
  cases r with
  | ok b => exact .ok (hR b)
  | throw e => exact .throw e
  | ub => exact .ub
  | terminate => exact .terminate
  | assertFail => exact .assertFail
  | diverge => exact .diverge

/-- A statement does the same in states that agree on the variables it mentions. -/
theorem value_agree (cfg : Config α) {P : Str → Prop} {a b : VEnv α} (h : Agree P a b) (s : Stmt α) (hs : ∀ x ∈ s.names, P x) :
    Res.Same (Agree P) (s.value cfg a) (s.value cfg b) := by
  have bindSet : ∀ (r : Res (Raw α)) (f g : VEnv α) (x : Str), Agree P f g →
      Res.Same (Agree P) (r >>= fun t => .ok (f.set x t)) (r >>= fun t => .ok (g.set x t)) := by
    intro r f g x hfg
    exact (same_refl (R := fun b c => b = c) (fun _ => rfl) r).bind (by rintro t _ rfl; exact .ok (hfg.set x t))
  cases s with
  | num x v => exact .ok (h.set _ _)
  | var x name => exact bindSet _ _ _ _ h
  | parse x text => exact bindSet _ _ _ _ h
  | clone x y =>
    have hy := h y (hs y (by simp [Stmt.names]))
    simp only [Stmt.value, hy]
    split
    · exact .ok (h.set _ _)
    · exact .ub
  | move x y =>
    have hy := h y (hs y (by simp [Stmt.names]))
    simp only [Stmt.value, hy]
    exact .ok ((h.set _ _).set _ _)
  | unary x op o =>
    have hy := h o.source (hs _ (by simp [Stmt.names]))
    simp only [Stmt.value, hy]
    split
    · exact .ok ((h.leaves o).set _ _)
    · exact .ub
  | binary x op o1 o2 =>
    have hy := h o1.source (hs _ (by simp [Stmt.names]))
    have hz := h.leaves o1 o2.source (hs _ (by simp [Stmt.names]))
    simp only [Stmt.value, hy, hz]
    split
    · exact .ok (((h.leaves o1).leaves o2).set _ _)
    · exact .ub
  | compound op x o =>
    have hy := h x (hs _ (by simp [Stmt.names]))
    have hz := h.set x .nil o.source (hs _ (by simp [Stmt.names]))
    simp only [Stmt.value, hy, hz]
    split
    · exact .ok (((h.set x .nil).leaves o).set _ _)
    · exact .ub
  | subs x o names images =>
    have hi : images.map a = images.map b := by
      apply List.map_congr_left
      intro y hy
      exact h y (hs y (by simp [Stmt.names, hy]))
    have hy := h o.source (hs _ (by simp [Stmt.names]))
    cases o with
    | lvalue y =>
      simp only [Operand.source] at hy
      simp only [Stmt.value, hi, hy]
      exact bindSet _ _ _ _ h
    | rvalue y =>
      simp only [Operand.source] at hy
      simp only [Stmt.value, hi, hy]
      exact bindSet _ _ _ _ (h.set _ _)
  | subsValues x o values =>
    have hy := h o.source (hs _ (by simp [Stmt.names]))
    cases o with
    | lvalue y =>
      simp only [Operand.source] at hy
      simp only [Stmt.value, hy]
      exact bindSet _ _ _ _ h
    | rvalue y =>
      simp only [Operand.source] at hy
      simp only [Stmt.value, hy]
      exact bindSet _ _ _ _ (h.set _ _)
  | simplify x =>
    have hy := h x (hs _ (by simp [Stmt.names]))
    simp only [Stmt.value, hy]
    exact bindSet _ _ _ _ h
  | diff x o name i =>
    have hy := h o.source (hs _ (by simp [Stmt.names]))
    cases o with
    | lvalue y =>
      simp only [Operand.source] at hy
      simp only [Stmt.value, hy]
      exact bindSet _ _ _ _ h
    | rvalue y =>
      simp only [Operand.source] at hy
      simp only [Stmt.value, hy]
      exact bindSet _ _ _ _ (h.set _ _)

/-- A statement changes no variable it does not mention. -/
theorem value_other (cfg : Config α) {a c : VEnv α} (s : Stmt α) (h : s.value cfg a = .ok c) {x : Str} (hx : x ∉ s.names) : c x = a x := by
  have bindSet : ∀ (r : Res (Raw α)) (f : VEnv α) (y : Str), x ≠ y → f x = a x → (r >>= fun t => Res.ok (f.set y t)) = .ok c → c x = a x := by
    intro r f y hxy hf hr
    obtain ⟨t, _, ht⟩ := Res.bind_eq_ok.mp hr
    injection ht with ht
    rw [← ht, VEnv.set_ne _ _ hxy, hf]
  cases s with
  | num y v =>
    simp only [Stmt.names, List.mem_singleton] at hx
    simp only [Stmt.value, Res.ok.injEq] at h
    rw [← h, VEnv.set_ne _ _ hx]
  | var y name =>
    simp only [Stmt.names, List.mem_singleton] at hx
    exact bindSet _ _ _ hx rfl h
  | parse y text =>
    simp only [Stmt.names, List.mem_singleton] at hx
    exact bindSet _ _ _ hx rfl h
  | clone y z =>
    simp only [Stmt.names, List.mem_cons, List.not_mem_nil, or_false, not_or] at hx
    simp only [Stmt.value] at h
    split at h
    · injection h with h
      rw [← h, VEnv.set_ne _ _ hx.1]
    · cases h
  | move y z =>
    simp only [Stmt.names, List.mem_cons, List.not_mem_nil, or_false, not_or] at hx
    simp only [Stmt.value, Res.ok.injEq] at h
    rw [← h, VEnv.set_ne _ _ hx.1, VEnv.set_ne _ _ hx.2]
  | unary y op o =>
    simp only [Stmt.names, List.mem_cons, List.not_mem_nil, or_false, not_or] at hx
    simp only [Stmt.value] at h
    split at h
    · injection h with h
      rw [← h, VEnv.set_ne _ _ hx.1, leaves_other hx.2]
    · cases h
  | binary y op o1 o2 =>
    simp only [Stmt.names, List.mem_cons, List.not_mem_nil, or_false, not_or] at hx
    simp only [Stmt.value] at h
    split at h
    · injection h with h
      rw [← h, VEnv.set_ne _ _ hx.1, leaves_other hx.2.2, leaves_other hx.2.1]
    · cases h
  | compound op y o =>
    simp only [Stmt.names, List.mem_cons, List.not_mem_nil, or_false, not_or] at hx
    simp only [Stmt.value] at h
    split at h
    · injection h with h
      rw [← h, VEnv.set_ne _ _ hx.1, leaves_other hx.2, VEnv.set_ne _ _ hx.1]
    · cases h
  | subs y o names images =>
    simp only [Stmt.names, List.mem_cons, not_or] at hx
    cases o with
    | lvalue z => exact bindSet _ _ _ hx.1 rfl h
    | rvalue z => exact bindSet _ _ _ hx.1 (VEnv.set_ne _ _ hx.2.1) h
  | subsValues y o values =>
    simp only [Stmt.names, List.mem_cons, List.not_mem_nil, or_false, not_or] at hx
    cases o with
    | lvalue z => exact bindSet _ _ _ hx.1 rfl h
    | rvalue z => exact bindSet _ _ _ hx.1 (VEnv.set_ne _ _ hx.2) h
  | simplify y =>
    simp only [Stmt.names, List.mem_singleton] at hx
    exact bindSet _ _ _ hx rfl h
  | diff y o name i =>
    simp only [Stmt.names, List.mem_cons, List.not_mem_nil, or_false, not_or] at hx
    cases o with
    | lvalue z => exact bindSet _ _ _ hx.1 rfl h
    | rvalue z => exact bindSet _ _ _ hx.1 (VEnv.set_ne _ _ hx.2) h

theorem stmt_leaves_agree {P : Str → Prop} {a b : VEnv α} (h : Agree P a b) (s : Stmt α) : Agree P (s.leaves a) (s.leaves b) := by
  cases s with
  | diff x o name i => exact h.leaves o |> fun k => by cases o <;> exact k
  | _ => exact h

theorem stmt_leaves_other (s : Stmt α) {a : VEnv α} {x : Str} (hx : x ∉ s.names) : s.leaves a x = a x := by
  cases s with
  | diff y o name i =>
    simp only [Stmt.names, List.mem_cons, List.not_mem_nil, or_false, not_or] at hx
    cases o with
    | lvalue z => rfl
    | rvalue z => simp only [Stmt.leaves]; exact if_neg hx.2
  | _ => rfl

variable {ι : Type} [DecidableEq ι]

theorem thread_cons (i : ι) (p : ι × Stmt α) (cs : List (ι × Stmt α)) :
    thread i (p :: cs) = if p.1 = i then p.2 :: thread i cs else thread i cs := by
  unfold thread
  by_cases h : p.1 = i <;> simp [h]

/-- the interleaving and the threads by themselves, from states that agree -/
theorem schedule_meaning (cfg : Config α) (owner : Str → ι) (cs : List (ι × Stmt α)) (ho : ∀ p ∈ cs, ∀ x ∈ p.2.names, owner x = p.1)
    (env : VEnv α) (own : ι → VEnv α) (h : ∀ i, Agree (fun x => owner x = i) env (own i)) :
    (∀ e, meaning cfg (cs.map Prod.snd) env = .ok e →
      ∀ i, ∃ e', meaning cfg (thread i cs) (own i) = .ok e' ∧ Agree (fun x => owner x = i) e e') ∧
    ((∀ i, ∃ e', meaning cfg (thread i cs) (own i) = .ok e') → ∃ e, meaning cfg (cs.map Prod.snd) env = .ok e) := by
  induction cs generalizing env own with
  | nil => exact ⟨fun e he i => ⟨own i, rfl, by injection he with he; exact he ▸ h i⟩, fun _ => ⟨env, rfl⟩⟩
  | cons p cs ih =>
    obtain ⟨j, s⟩ := p
    have hs : ∀ x ∈ s.names, owner x = j := ho (j, s) (by simp)
    have ho' : ∀ p ∈ cs, ∀ x ∈ p.2.names, owner x = p.1 := fun p hp => ho p (by simp [hp])
    have hv := value_agree cfg (h j) s hs
    have notin : ∀ i, i ≠ j → ∀ x, owner x = i → x ∉ s.names := fun i hi x hx hm => hi (hx.symm.trans (hs x hm))
    have next : ∀ env' ownj, Agree (fun x => owner x = j) env' ownj → (∀ x, x ∉ s.names → env' x = env x) →
        ∀ i, Agree (fun x => owner x = i) env' (if i = j then ownj else own i) := by
      intro env' ownj h1 h2 i
      split
      · rename_i hi; subst hi; exact h1
      · rename_i hi
        intro x hx
        rw [h2 x (notin i hi x hx)]
        exact h i x hx
    have step : ∀ env' ownj, Agree (fun x => owner x = j) env' ownj → (∀ x, x ∉ s.names → env' x = env x) →
        (∀ rest, meaning cfg (s :: rest) env = meaning cfg rest env') → (∀ rest, meaning cfg (s :: rest) (own j) = meaning cfg rest ownj) →
        (∀ e, meaning cfg (((j, s) :: cs).map Prod.snd) env = .ok e →
          ∀ i, ∃ e', meaning cfg (thread i ((j, s) :: cs)) (own i) = .ok e' ∧ Agree (fun x => owner x = i) e e') ∧
        ((∀ i, ∃ e', meaning cfg (thread i ((j, s) :: cs)) (own i) = .ok e') → ∃ e, meaning cfg (((j, s) :: cs).map Prod.snd) env = .ok e) := by
      intro env' ownj h1 h2 h3 h4
      have k := ih ho' env' (fun i => if i = j then ownj else own i) (next env' ownj h1 h2)
      have e1 : ∀ i, meaning cfg (thread i ((j, s) :: cs)) (own i) = meaning cfg (thread i cs) (if i = j then ownj else own i) := by
        intro i
        rw [thread_cons]
        by_cases hi : i = j
        · subst hi; simp only [if_true]; exact h4 _
        · rw [if_neg (fun h => hi h.symm), if_neg hi]
      rw [List.map_cons, h3]
      simp only [e1]
      exact k
    have bad : ∀ r : Res (VEnv α), (∀ e, r ≠ .ok e) → (∀ rest, meaning cfg (s :: rest) env = r) → (∀ rest, meaning cfg (s :: rest) (own j) = r) →
        (∀ e, meaning cfg (((j, s) :: cs).map Prod.snd) env = .ok e →
          ∀ i, ∃ e', meaning cfg (thread i ((j, s) :: cs)) (own i) = .ok e' ∧ Agree (fun x => owner x = i) e e') ∧
        ((∀ i, ∃ e', meaning cfg (thread i ((j, s) :: cs)) (own i) = .ok e') → ∃ e, meaning cfg (((j, s) :: cs).map Prod.snd) env = .ok e) := by
      intro r hr h1 h2
      constructor
      · intro e he
        rw [List.map_cons, h1] at he
        exact absurd he (hr e)
      · intro hall
        obtain ⟨e, he⟩ := hall j
        rw [thread_cons, if_pos rfl, h2] at he
        exact absurd he (hr e)
    generalize hv1 : s.value cfg env = v1 at hv
    generalize hv2 : s.value cfg (own j) = v2 at hv
    cases hv with
    | @ok a b hab =>
      exact step a b hab (fun x hx => value_other cfg s hv1 hx) (fun rest => by simp only [meaning, hv1])
        (fun rest => by simp only [meaning, hv2])
    | throw e =>
      exact step (s.leaves env) (s.leaves (own j)) (stmt_leaves_agree (h j) s) (fun x hx => stmt_leaves_other s hx)
        (fun rest => by simp only [meaning, hv1]) (fun rest => by simp only [meaning, hv2])
    | ub => exact bad .ub (by simp) (fun rest => by simp only [meaning, hv1]) (fun rest => by simp only [meaning, hv2])
    | terminate => exact bad .terminate (by simp) (fun rest => by simp only [meaning, hv1]) (fun rest => by simp only [meaning, hv2])
    | assertFail => exact bad .assertFail (by simp) (fun rest => by simp only [meaning, hv1]) (fun rest => by simp only [meaning, hv2])
    | diverge => exact bad .diverge (by simp) (fun rest => by simp only [meaning, hv1]) (fun rest => by simp only [meaning, hv2])

theorem execute_meaning (cfg : Config α) (ss : List (Stmt α)) (hp : ∀ s ∈ ss, s.Proper) :
    (∀ env n, execute cfg ss (fun _ => .nil) 0 = .ok (env, n) → meaning cfg ss (fun _ => .nil) = .ok fun x => (env x).erase) ∧
    (∀ venv, meaning cfg ss (fun _ => .nil) = .ok venv → ∃ env n, execute cfg ss (fun _ => .nil) 0 = .ok (env, n) ∧
      ∀ x, (env x).erase = venv x) := by
  have h := C52_meaning cfg ss hp
  generalize execute cfg ss (fun _ => .nil) 0 = a at h
  generalize meaning cfg ss (fun _ => .nil) = b at h
  cases a <;> cases b <;> simp at h
  case ok.ok p v =>
    obtain ⟨env, n⟩ := p
    simp only at h
    exact ⟨fun e m he => by simp only [Res.ok.injEq, Prod.mk.injEq] at he ⊢; rw [← he.1]; exact (funext h).symm,
      fun venv hv => ⟨env, n, rfl, by injection hv with hv; exact hv ▸ h⟩⟩
  all_goals
    constructor
    · intro _ _ he
      cases he
    · intro _ he
      cases he

/-- C92: any number of threads, each with `Node` variables of its own, execute statements of the library in any order: if the
interleaved execution goes through, then every thread by itself does, and every variable holds the expression it holds when its thread
runs alone; and the interleaved execution goes through if every thread does.  (Statements are atomic here; exceptions are caught around
them.) -/
theorem C92 (cfg : Config α) (cs : List (ι × Stmt α)) (hp : ∀ p ∈ cs, p.2.Proper) (owner : Str → ι)
    (ho : ∀ p ∈ cs, ∀ x ∈ p.2.names, owner x = p.1) :
    (∀ env n, execute cfg (cs.map Prod.snd) (fun _ => .nil) 0 = .ok (env, n) →
      ∀ i, ∃ env' n', execute cfg (thread i cs) (fun _ => .nil) 0 = .ok (env', n') ∧
        ∀ x, owner x = i → (env x).erase = (env' x).erase ∧ pToString (env x) = pToString (env' x)) ∧
    ((∀ i, ∃ r, execute cfg (thread i cs) (fun _ => .nil) 0 = .ok r) → ∃ r, execute cfg (cs.map Prod.snd) (fun _ => .nil) 0 = .ok r) := by
  have hp1 : ∀ s ∈ cs.map Prod.snd, s.Proper := by
    intro s hs
    obtain ⟨p, h1, rfl⟩ := List.mem_map.mp hs
    exact hp p h1
  have hp2 : ∀ i, ∀ s ∈ thread i cs, s.Proper := by
    intro i s hs
    obtain ⟨p, h1, rfl⟩ := List.mem_map.mp hs
    exact hp p (List.mem_filter.mp h1).1
  obtain ⟨h1, h2⟩ := schedule_meaning cfg owner cs ho (fun _ => .nil) (fun _ _ => .nil) (fun _ _ _ => rfl)
  constructor
  · intro env n he i
    obtain ⟨e', h3, h4⟩ := h1 _ ((execute_meaning cfg _ hp1).1 env n he) i
    obtain ⟨env', n', h5, h6⟩ := (execute_meaning cfg _ (hp2 i)).2 _ h3
    refine ⟨env', n', h5, fun x hx => ?_⟩
    have e : (env x).erase = (env' x).erase := (h4 x hx).trans (h6 x).symm
    exact ⟨e, by rw [C52_toString ⟨_, hp1, he⟩, C52_toString ⟨_, hp2 i, h5⟩, e]⟩
  · intro hall
    have : ∀ i, ∃ e', meaning cfg (thread i cs) (fun _ => .nil) = .ok e' := by
      intro i
      obtain ⟨⟨env, n⟩, hr⟩ := hall i
      exact ⟨_, (execute_meaning cfg _ (hp2 i)).1 env n hr⟩
    obtain ⟨e, he⟩ := h2 this
    obtain ⟨env, n, h5, _⟩ := (execute_meaning cfg _ hp1).2 _ he
    exact ⟨_, h5⟩

/-- two threads, interleaved: one builds `a * a` and derives it, the other moves an expression around -/
def twoThreads : List (Bool × Stmt (XNum Rat)) :=
  [(true, .var ['x'] ['a']), (false, .num ['u'] (.fin 2)), (true, .binary ['y'] .mul (.lvalue ['x']) (.lvalue ['x'])),
   (false, .move ['v'] ['u']), (true, .diff ['y'] (.rvalue ['y']) ['a'] 1), (false, .unary ['v'] .sin (.rvalue ['v'])),
   (true, .simplify ['y'])]

example : (∀ p ∈ twoThreads, p.2.Proper) ∧
    (∀ p ∈ twoThreads, ∀ x ∈ p.2.names, decide (x = ['x'] ∨ x = ['y']) = p.1) ∧
    (match execute defaultConfig (twoThreads.map Prod.snd) (fun _ => .nil) 0 with
      | .ok (env, _) => decide (pToString (env ['y']) = .ok "a+a".toList) && decide (pToString (env ['v']) = .ok "sin(2)".toList)
      | _ => false) = true := by
  refine ⟨?_, by decide, by decide +kernel⟩
  intro p hp
  simp only [twoThreads, List.mem_cons, List.not_mem_nil, or_false] at hp
  rcases hp with rfl | rfl | rfl | rfl | rfl | rfl | rfl <;> simp only [Stmt.Proper]
  · exact ⟨.mul, rfl⟩
  · exact ⟨.sin, rfl⟩

end Tom
