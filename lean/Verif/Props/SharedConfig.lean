import Verif.Spec.SharedConfig
import Verif.Props.Schedule
import Verif.Lemmas.Settings
/-
C122: threads and the shared configuration.
-/
set_option linter.unusedSectionVars false
namespace Tom
variable {α : Type} [Dbl α]

section
variable {c c' : Config α} (h : c.throwOnInvalidValue = c'.throwOnInvalidValue)
include h

theorem pSimplifySingle_cfg : pSimplifySingle c = pSimplifySingle c' := by
  funext n
  simp only [pSimplifySingle, calcOp_cfg h]

theorem pSimplifyPartII_cfg (es : List (Nat × Bool)) : pSimplifyPartII c es = pSimplifyPartII c' es := by
  induction es with
  | nil => rfl
  | cons e es ih =>
    funext root
    simp only [pSimplifyPartII, pSimplifySingle_cfg h, ih]

theorem pSimplify_cfg : pSimplify c = pSimplify c' := by
  funext n
  simp only [pSimplify, pSimplifyPartII_cfg h, pSimplifySingle_cfg h]

theorem pDiff_cfg : pDiff c = pDiff c' := by
  funext n x i
  simp only [pDiff, pSimplify_cfg h]

theorem step_cfg (env : Env α) (s : Stmt α) : s.step c env = s.step c' env := by
  cases s <;> simp only [Stmt.step, pSimplify_cfg h, pDiff_cfg h]

end

/-- **C122** (settings without influence): assignments to the configuration other than to `throwOnInvalidValue` do not change what statements on
`Node` variables do, whenever they happen. -/
theorem C122_settings (s : Settings α) (as : List (Action α)) (hk : ∀ a ∈ as, a.keepsCheck s.throwOnInvalidValue) (env : Env α) (n : Nat) :
    executeShared s as env n = execute s.toConfig (as.filterMap Action.stmt?) env n := by
  suffices H : ∀ (c : Config α), s.throwOnInvalidValue = c.throwOnInvalidValue →
      executeShared s as env n = execute c (as.filterMap Action.stmt?) env n from H s.toConfig rfl
  intro c hc
  induction as generalizing s env n with
  | nil => rfl
  | cons a as ih =>
    have hk' : ∀ a ∈ as, a.keepsCheck s.throwOnInvalidValue := fun b hb => hk b (by simp [hb])
    cases a with
    | setting st =>
      have e : (s.exec st).throwOnInvalidValue = s.throwOnInvalidValue := by
        have := hk (.setting st) (by simp)
        cases st <;> first | rfl | exact this | exact this.symm
      exact ih (s.exec st) (by rw [e]; exact hk') env n (e.trans hc)
    | node st =>
      simp only [executeShared, List.filterMap_cons, Action.stmt?, execute, step_cfg hc]
      cases st.step c env n with
      | ok p => exact ih s hk' _ _ hc
      | throw e => exact ih s hk' _ _ hc
      | _ => rfl

/-- **C122.** Any number of threads, each with `Node` variables of its own, execute statements of the library in any order and change the settings
of the one configuration meanwhile, except `throwOnInvalidValue`: if the interleaved execution goes through, then every thread by itself does,
with its own assignments to the configuration, and every variable holds the same expression, with the same text; and the interleaved execution
goes through if every thread does. -/
theorem C122 {ι : Type} [DecidableEq ι] (s : Settings α) (cs : List (ι × Action α)) (hp : ∀ p ∈ cs, p.2.Proper)
    (hk : ∀ p ∈ cs, p.2.keepsCheck s.throwOnInvalidValue) (owner : Str → ι) (ho : ∀ p ∈ cs, ∀ x ∈ p.2.names, owner x = p.1) :
    (∀ env n, executeShared s (cs.map Prod.snd) (fun _ => .nil) 0 = .ok (env, n) →
      ∀ i, ∃ env' n', executeShared s (actionsOf i cs) (fun _ => .nil) 0 = .ok (env', n') ∧
        ∀ x, owner x = i → (env x).erase = (env' x).erase ∧ pToString (env x) = pToString (env' x)) ∧
    ((∀ i, ∃ r, executeShared s (actionsOf i cs) (fun _ => .nil) 0 = .ok r) →
      ∃ r, executeShared s (cs.map Prod.snd) (fun _ => .nil) 0 = .ok r) := by
  let ds : List (ι × Stmt α) := cs.filterMap fun p => p.2.stmt?.map fun st => (p.1, st)
  have hmem : ∀ p ∈ ds, (p.1, Action.node p.2) ∈ cs := by
    intro p hp
    obtain ⟨q, h1, h2⟩ := List.mem_filterMap.mp hp
    obtain ⟨i, a⟩ := q
    cases a with
    | setting c => cases h2
    | node st =>
      simp only [Action.stmt?, Option.map_some, Option.some.injEq] at h2
      subst h2
      exact h1
  have e1 : (cs.map Prod.snd).filterMap Action.stmt? = ds.map Prod.snd := by
    simp only [ds, List.filterMap_map, List.map_filterMap]
    congr 1; funext p
    cases h : p.2.stmt? <;> simp [h]
  have e2 : ∀ i, (actionsOf i cs).filterMap Action.stmt? = thread i ds := by
    intro i
    simp only [actionsOf, thread, ds]
    clear hmem e1 hp hk ho
    induction cs with
    | nil => rfl
    | cons p cs ih =>
      obtain ⟨j, a⟩ := p
      by_cases hj : j = i
      · cases a <;> simp [List.filter_cons, hj, Action.stmt?, ih]
        all_goals exact ih
      · cases a <;> simp [List.filter_cons, hj, Action.stmt?, ih]
        all_goals exact ih
  have h1 : executeShared s (cs.map Prod.snd) (fun _ => .nil) 0 = execute s.toConfig (ds.map Prod.snd) (fun _ => .nil) 0 := by
    rw [C122_settings s _ (fun a ha => ?_), e1]
    obtain ⟨p, hp, rfl⟩ := List.mem_map.mp ha
    exact hk p hp
  have h2 : ∀ i, executeShared s (actionsOf i cs) (fun _ => .nil) 0 = execute s.toConfig (thread i ds) (fun _ => .nil) 0 := by
    intro i
    rw [C122_settings s _ (fun a ha => ?_), e2]
    obtain ⟨p, hp, rfl⟩ := List.mem_map.mp ha
    exact hk p (List.mem_filter.mp hp).1
  have := C92 s.toConfig ds (fun p hp' => hp _ (hmem p hp')) owner (fun p hp' => ho _ (hmem p hp'))
  simp only [h1, h2]
  exact this

/-- C122 ends with `throwOnInvalidValue`: a thread simplifying `1/0` ends the process (`Simplify` is noexcept, C24); if another thread has switched
`throwOnInvalidValue` off, it goes on with inf. -/
theorem C122_false :
    (∃ cs : List (Bool × Action (XNum Rat)), (∀ p ∈ cs, p.2.Proper) ∧ (∀ p ∈ cs, ∀ x ∈ p.2.names, p.1 = true) ∧
      executeShared Settings.initial (actionsOf true cs) (fun _ => .nil) 0 = .terminate ∧
      (match executeShared Settings.initial (cs.map Prod.snd) (fun _ => .nil) 0 with | .ok _ => true | _ => false) = true) := by
  have key : ∀ r : Res (Env (XNum Rat) × Nat), (match r with | .terminate => true | _ => false) = true → r = .terminate := by
    intro r h
    cases r <;> first | rfl | cases h
  refine ⟨[(true, .node (.parse ['x'] "1/0".toList)), (false, .setting (.throwOnInvalidValue false)), (true, .node (.simplify ['x']))],
    ?_, ?_, key _ (by decide +kernel), by decide +kernel⟩
  · intro p hp
    simp only [List.mem_cons, List.not_mem_nil, or_false] at hp
    rcases hp with rfl | rfl | rfl <;> simp [Action.Proper, Stmt.Proper]
  · intro p hp
    simp only [List.mem_cons, List.not_mem_nil, or_false] at hp
    rcases hp with rfl | rfl | rfl <;> simp [Action.names]

/-- the threads of C92, while a third one changes the limit, the method and the log level -/
def threeThreads : List (Nat × Action (XNum Rat)) :=
  [(0, .node (.var ['x'] ['a'])), (2, .setting (.maxIterations 5)), (1, .node (.num ['u'] (.fin 2))),
   (0, .node (.binary ['y'] .mul (.lvalue ['x']) (.lvalue ['x']))), (2, .setting (.nonlinearMethod .lm)),
   (1, .node (.move ['v'] ['u'])), (0, .node (.diff ['y'] (.rvalue ['y']) ['a'] 1)), (2, .setting .reset),
   (1, .node (.unary ['v'] .sin (.rvalue ['v']))), (2, .setting (.logLevel .trace)), (0, .node (.simplify ['y']))]

example : (∀ p ∈ threeThreads, p.2.Proper) ∧ (∀ p ∈ threeThreads, p.2.keepsCheck (Settings.initial : Settings (XNum Rat)).throwOnInvalidValue) ∧
    (∀ p ∈ threeThreads, ∀ x ∈ p.2.names, (if x = ['x'] ∨ x = ['y'] then 0 else 1) = p.1) ∧
    (match executeShared Settings.initial (threeThreads.map Prod.snd) (fun _ => .nil) 0 with
      | .ok (env, _) => decide (pToString (env ['y']) = .ok "a+a".toList) && decide (pToString (env ['v']) = .ok "sin(2)".toList)
      | _ => false) = true := by
  refine ⟨?_, ?_, ?_, by decide +kernel⟩
  · intro p hp
    simp only [threeThreads, List.mem_cons, List.not_mem_nil, or_false] at hp
    rcases hp with rfl | rfl | rfl | rfl | rfl | rfl | rfl | rfl | rfl | rfl | rfl <;> simp only [Action.Proper, Stmt.Proper]
    · exact ⟨.mul, rfl⟩
    · exact ⟨.sin, rfl⟩
  · intro p hp
    simp only [threeThreads, List.mem_cons, List.not_mem_nil, or_false] at hp
    rcases hp with rfl | rfl | rfl | rfl | rfl | rfl | rfl | rfl | rfl | rfl | rfl <;> simp [Action.keepsCheck, Settings.initial]
  · intro p hp
    simp only [threeThreads, List.mem_cons, List.not_mem_nil, or_false] at hp
    rcases hp with rfl | rfl | rfl | rfl | rfl | rfl | rfl | rfl | rfl | rfl | rfl <;> simp [Action.names, Stmt.names, Operand.source]

end Tom
