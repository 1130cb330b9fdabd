import Verif.Spec.DiffMachine
import Verif.Lemmas.Print
import Verif.Props.VarsTable
import Verif.Props.Parse
import Verif.Props.Diff
import Verif.Props.RealDiff
import Verif.Props.Print
/-
C98: the program examples/diff_machine.
-/
namespace Tom
variable {α : Type} [Dbl α]

theorem Prog.bind_eq {β γ : Type} (m : Prog β) (f : β → Prog γ) : (m >>= f) = Prog.bind m f := rfl

theorem names_ok (e : Expr α) (h : e.vars ≠ []) : ∃ names t, getAllVarNames (embed e) = .ok names ∧
    VarsTable.ofVars names (Dbl.ofInt 0 : α) = .ok t ∧ t.vars = names ∧ names.Nodup ∧ (∀ y, y ∈ names ↔ y ∈ e.vars) ∧
    ∀ y, t.has y = true ↔ y ∈ e.vars := by
  obtain ⟨names, h1, _, h2, h3⟩ := C16_getAllVarNames e
  have hne : names ≠ [] := by
    obtain ⟨y, hy⟩ := List.exists_mem_of_ne_nil _ h
    exact List.ne_nil_of_mem ((h3 y).2 hy)
  obtain ⟨t, ht⟩ := (C46_ofVars names (Dbl.ofInt 0 : α)).2 ⟨hne, h2⟩
  have h4 := (C47_ofVars ht).1
  refine ⟨names, t, h1, ht, h4, h2, h3, fun y => ?_⟩
  rw [(C46 (.ofVars ht)).2.2.2.2.2.1, h4, h3]

/-- how the rest of a round goes once the variable is known -/
theorem round_tail (cfg : Config α) (e : Expr α) (x : Str) (input : List Str) :
    (∃ e', diff cfg (embed e) x 1 = .ok (embed e') ∧
      (do
        let dnode ← Prog.run (diff cfg (embed e) x 1)
        Prog.writeLine "ans = ".toList
        let text ← Prog.run (toStringNode dnode)
        Prog.writeLine ("  ".toList ++ text) : Prog Unit) input = (machineAnswer (infixText none e'), input, .ok ())) ∨
    (e.hasIntOp = true ∧
      (do
        let dnode ← Prog.run (diff cfg (embed e) x 1)
        Prog.writeLine "ans = ".toList
        let text ← Prog.run (toStringNode dnode)
        Prog.writeLine ("  ".toList ++ text) : Prog Unit) input = ([], input, .throw .runtime)) ∨
    (diff cfg (embed e) x 1 = .terminate ∧
      (do
        let dnode ← Prog.run (diff cfg (embed e) x 1)
        Prog.writeLine "ans = ".toList
        let text ← Prog.run (toStringNode dnode)
        Prog.writeLine ("  ".toList ++ text) : Prog Unit) input = ([], input, .terminate)) := by
  cases h : e.hasIntOp with
  | true =>
    refine .inr (.inl ⟨rfl, ?_⟩)
    rw [diff_throw cfg x 1 (by decide) e h]
    rfl
  | false =>
    have hd := diff_ok cfg x 1 (by decide) e h
    rcases C24_outcomes cfg ((dE x)^[(1 : Int).toNat] e) with ⟨e', h'⟩ | h' | ⟨h'', _⟩
    · refine .inl ⟨e', by rw [hd, h'], ?_⟩
      rw [hd, h']
      simp only [Prog.bind_eq, Prog.bind, Prog.run, Prog.writeLine, toString_embed, machineAnswer]
      simp
    · refine .inr (.inr ⟨by rw [hd, h'], ?_⟩)
      rw [hd, h']
      rfl
    · rw [iterate_hasIntOp x _ e h] at h''
      cases h''

theorem machineRound_eq (cfg : Config α) (w : Str) (ws : List Str) :
    machineRound cfg (w :: ws) = (.out ">>".toList :: (tryCatch cfg w ws).1, (tryCatch cfg w ws).2) := by
  simp only [machineRound, Prog.bind_eq, Prog.bind, Prog.write, Prog.readWord]
  simp

theorem parse_exc (w : Str) (e : Exc) (h : parse w = (.throw e : Res (Raw α))) : e.isRuntimeError = true := by
  rcases C03_partial w e h with h | h
  · cases e <;> simp_all [Exc.isParseError, Exc.isRuntimeError]
  · subst h; rfl

theorem readWord_eq (ws : List Str) : Prog.readWord ws = ([], ws.tail, .ok (ws.head?.getD [])) := by
  cases ws <;> rfl

/-- C98: what each round of the program does, for every word typed: it prompts, reads the word, asks for the variable if there are several,
and prints the text of the derivative or the error.  It ends the program in exactly three ways: undefined behaviour of `Parse`, an expression
without variables, and `Diff` aborting. -/
theorem C98_round (cfg : Config α) (w : Str) (ws : List Str) : RoundDoes cfg w ws (machineRound cfg (w :: ws)) := by
  rw [machineRound_eq]
  rcases C03_outcomes_partial (α := α) w with ⟨t, h⟩ | ⟨e, h⟩ | h
  · obtain ⟨e, rfl⟩ := C09_complete w t h
    by_cases hv : e.vars = []
    · have : tryCatch cfg w ws = ([], ws, .assertFail) := by
        obtain ⟨names, h1, _, _, h3⟩ := C16_getAllVarNames e
        have hn : names = [] := by
          rw [List.eq_nil_iff_forall_not_mem]
          intro y hy
          rw [h3, hv] at hy
          cases hy
        subst hn
        simp [tryCatch, tryBlock, Prog.bind_eq, Prog.bind, Prog.run, h, h1, VarsTable.ofVars, Mat.new]
      rw [this]
      exact .constant e h hv
    · obtain ⟨names, t, h1, h2, h3, h4, h5, h6⟩ := names_ok e hv
      match names, h3, h4, h5 with
      | [], _, _, h5 =>
        exact absurd (List.eq_nil_iff_forall_not_mem.2 fun y hy => by have := (h5 y).2 hy; cases this) hv
      | [x], h3, h4, h5 =>
        have hall : ∀ y ∈ e.vars, y = x := fun y hy => by simpa using (h5 y).2 hy
        have hb : tryBlock cfg w ws = (do
            let dnode ← Prog.run (diff cfg (embed e) x 1)
            Prog.writeLine "ans = ".toList
            let text ← Prog.run (toStringNode dnode)
            Prog.writeLine ("  ".toList ++ text) : Prog Unit) ws := by
          simp only [tryBlock, Prog.bind_eq, Prog.bind, Prog.run, h, h1, h2, askVariable, h3]
          simp [pure]
        unfold tryCatch
        rw [hb]
        rcases round_tail cfg e x ws with ⟨e', hd, hr⟩ | ⟨hi, hr⟩ | ⟨hd, hr⟩ <;> rw [hr]
        · exact .one e e' x h hv hall hd
        · exact .oneRefused e x h hv hall hi
        · exact .oneAborted e x h hv hall hd
      | y :: z :: rest, h3, h4, h5 =>
        have hy : y ∈ e.vars := (h5 y).1 (by simp)
        have hz : z ∈ e.vars := (h5 z).1 (by simp)
        have hyz : y ≠ z := by
          intro hh; subst hh; simp at h4
        by_cases hx : ws.head?.getD [] ∈ e.vars
        · have hb : tryBlock cfg w ws = (machineQuestion ++ ((do
              let dnode ← Prog.run (diff cfg (embed e) (ws.head?.getD []) 1)
              Prog.writeLine "ans = ".toList
              let text ← Prog.run (toStringNode dnode)
              Prog.writeLine ("  ".toList ++ text) : Prog Unit) ws.tail).1, ((do
              let dnode ← Prog.run (diff cfg (embed e) (ws.head?.getD []) 1)
              Prog.writeLine "ans = ".toList
              let text ← Prog.run (toStringNode dnode)
              Prog.writeLine ("  ".toList ++ text) : Prog Unit) ws.tail).2) := by
            have hh := (h6 _).2 hx
            simp only [tryBlock, Prog.bind_eq, Prog.bind, Prog.run, h, h1, h2, askVariable, h3, Prog.writeLine, Prog.write, readWord_eq, hh]
            simp [pure, machineQuestion]
          unfold tryCatch
          rw [hb]
          rcases round_tail cfg e (ws.head?.getD []) ws.tail with ⟨e', hd, hr⟩ | ⟨hi, hr⟩ | ⟨hd, hr⟩ <;> rw [hr]
          · exact .many e e' _ y z h hy hz hyz hx rfl hd
          · exact .manyRefused e _ y z h hy hz hyz hx rfl hi
          · exact .manyAborted e _ y z h hy hz hyz hx rfl hd
        · have hh : t.has (ws.head?.getD []) = false := by
            rw [← Bool.not_eq_true, h6]; exact hx
          have hb : tryBlock cfg w ws = (machineQuestion, ws.tail, .throw .runtime) := by
            simp only [tryBlock, Prog.bind_eq, Prog.bind, Prog.run, h, h1, h2, askVariable, h3, Prog.writeLine, Prog.write, readWord_eq, hh]
            simp [machineQuestion, Prog.run]
          unfold tryCatch
          rw [hb]
          exact .unknown e y z h hy hz hyz hx
  · have hr := parse_exc w e h
    have : tryCatch cfg w ws = ([.err e], ws, .ok ()) := by
      simp [tryCatch, tryBlock, Prog.bind_eq, Prog.bind, Prog.run, h, hr]
    rw [this]
    exact .refused e h
  · have : tryCatch cfg w ws = ([], ws, .ub) := by
      simp [tryCatch, tryBlock, Prog.bind_eq, Prog.bind, Prog.run, h]
    rw [this]
    exact .undefined h


/-- C98: `n` rounds are one round and `n - 1` more on what is left of the input; the program goes on exactly after rounds that end normally. -/
theorem C98_rounds (cfg : Config α) (n : Nat) (input : List Str) :
    (∀ ws rest, machineRound cfg input = (ws, rest, .ok ()) →
      diffMachine cfg (n + 1) input = (ws ++ (diffMachine cfg n rest).1, (diffMachine cfg n rest).2)) ∧
    ((machineRound cfg input).2.2 ≠ .ok () → diffMachine cfg (n + 1) input = machineRound cfg input) := by
  refine ⟨fun ws rest h => by simp only [diffMachine, Prog.bind_eq, Prog.bind, h], fun h => ?_⟩
  rcases hr : machineRound cfg input with ⟨ws, rest, r⟩
  rw [hr] at h
  simp only [diffMachine, Prog.bind_eq, Prog.bind, hr]
  cases r <;> first | rfl | exact absurd rfl h

/-- C98: at the end of the input the program goes on forever, prompting and complaining about an empty expression. -/
theorem C98_end_of_input (cfg : Config α) (n : Nat) :
    diffMachine cfg n [] = ((List.replicate n [Wrote.out ">>".toList, .err (.singleParse 0)]).flatten, [], .ok ()) := by
  have h1 : machineRound cfg [] = ([.out ">>".toList, .err (.singleParse 0)], [], .ok ()) := by
    have : (parse [] : Res (Raw α)) = .throw (.singleParse 0) := rfl
    simp [machineRound, Prog.bind_eq, Prog.bind, Prog.write, Prog.readWord, tryCatch, tryBlock, Prog.run, this, Exc.isRuntimeError]
  induction n with
  | zero => rfl
  | succ n ih =>
    rw [(C98_rounds cfg n []).1 _ _ h1, ih]
    simp [List.replicate_succ]

/-- The ways a program of this kind can end within `n` rounds: it never throws, and never gets stuck inside a round. -/
theorem C98_outcomes (cfg : Config α) (n : Nat) (input : List Str) :
    (diffMachine cfg n input).2.2 = .ok () ∨ (diffMachine cfg n input).2.2 = .ub ∨ (diffMachine cfg n input).2.2 = .assertFail ∨
      (diffMachine cfg n input).2.2 = .terminate := by
  induction n generalizing input with
  | zero => exact .inl rfl
  | succ n ih =>
    cases input with
    | nil => rw [C98_end_of_input]; exact .inl rfl
    | cons w ws =>
      have h := C98_round cfg w ws
      rcases hr : machineRound cfg (w :: ws) with ⟨out, rest, r⟩
      rw [hr] at h
      by_cases hok : r = .ok ()
      · subst hok
        rw [(C98_rounds cfg n _).1 _ _ hr]
        exact ih rest
      · rw [(C98_rounds cfg n _).2 (by rw [hr]; exact hok), hr]
        cases h <;> simp_all

theorem noForeignExp_of_one (x : Str) (e : Expr α) (h : ∀ y ∈ e.vars, y = x) : e.NoForeignExp x := by
  induction e with
  | num v => trivial
  | var v => trivial
  | un o e ih =>
    refine ⟨fun _ y hy => ?_, ih h⟩
    subst hy
    exact h y (by simp [Expr.vars])
  | bin o a b iha ihb =>
    exact ⟨iha fun y hy => h y (by simp [Expr.vars, hy]), ihb fun y hy => h y (by simp [Expr.vars, hy])⟩

/-- C98: on an expression in one variable the program prints the text of its derivative.  Exact real arithmetic: the expression the text is
written for has the value of the derivative wherever the rules apply. -/
theorem C98_derivative (cfg : Config (XNum ℝ)) (w : Str) (ws : List Str) (e : Expr (XNum ℝ)) (x : Str) (hp : parse w = .ok (embed e))
    (hv : e.vars ≠ []) (hx : ∀ y ∈ e.vars, y = x) (ρ₀ : Str → ℝ) (hs : Smooth 1 ρ₀ e) :
    ∃ e', machineRound cfg (w :: ws) = (.out ">>".toList :: machineAnswer (infixText none e'), ws, .ok ()) ∧
      ∀ ρ, Smooth 1 ρ e → ∃ d, realVal ρ e' = some d ∧ HasPartialDeriv ρ x e d := by
  have hf := noForeignExp_of_one x e hx
  obtain ⟨e', d, h1, _, _⟩ := C26_C28_partial cfg ρ₀ x e hs hf
  have hall : ∀ ρ, Smooth 1 ρ e → ∃ d, realVal ρ e' = some d ∧ HasPartialDeriv ρ x e d := by
    intro ρ hρ
    obtain ⟨e'', d, h2, h3, h4⟩ := C26_C28_partial cfg ρ x e hρ hf
    rw [h1, Res.ok.injEq] at h2
    rw [embed_injective h2]
    exact ⟨d, h3, h4⟩
  have hi := smooth_hasIntOp e hs
  refine ⟨e', ?_, hall⟩
  have h := C98_round cfg w ws
  generalize machineRound cfg (w :: ws) = r at h ⊢
  have key : ∀ {u : Expr (XNum ℝ)}, parse w = .ok (embed u) → u = e := fun hu => by
    rw [hp, Res.ok.injEq] at hu; exact (embed_injective hu).symm
  have hvar : ∀ {y : Str}, (∀ z ∈ e.vars, z = y) → y = x := fun hy => by
    obtain ⟨z, hz⟩ := List.exists_mem_of_ne_nil _ hv
    rw [← hy z hz, hx z hz]
  cases h with
  | refused _ h => rw [hp] at h; cases h
  | undefined h => rw [hp] at h; cases h
  | constant u h1 h2 => rw [key h1] at h2; exact absurd h2 hv
  | one u u' y g1 g2 g3 g4 =>
    rw [key g1] at g3 g4
    rw [hvar g3, h1, Res.ok.injEq] at g4
    rw [embed_injective g4]
  | oneRefused u y g1 g2 g3 g4 => rw [key g1, hi] at g4; cases g4
  | oneAborted u y g1 g2 g3 g4 =>
    rw [key g1] at g3 g4
    rw [hvar g3, h1] at g4; cases g4
  | many u u' x' y z g1 g2 g3 g4 => rw [key g1] at g2 g3; exact absurd ((hx y g2).trans (hx z g3).symm) g4
  | manyRefused u x' y z g1 g2 g3 g4 => rw [key g1] at g2 g3; exact absurd ((hx y g2).trans (hx z g3).symm) g4
  | manyAborted u x' y z g1 g2 g3 g4 => rw [key g1] at g2 g3; exact absurd ((hx y g2).trans (hx z g3).symm) g4
  | unknown u y z g1 g2 g3 g4 => rw [key g1] at g2 g3; exact absurd ((hx y g2).trans (hx z g3).symm) g4

/-- The hypotheses of `C98_derivative` hold for the input `sin(x)`. -/
example : ∃ (e : Expr (XNum ℝ)), parse "sin(x)".toList = .ok (embed e) ∧ e.vars ≠ [] ∧ (∀ y ∈ e.vars, y = ['x']) ∧
    ∀ ρ, Smooth 1 ρ e :=
  ⟨.un .sin (.var ['x']), by with_unfolding_all rfl, by simp [Expr.vars], by simp [Expr.vars],
    fun ρ => ⟨trivial, ρ ['x'], rfl, .inl trivial⟩⟩

/-- The session shown in the usage text, and two more commands. -/
example : diffMachine defaultConfig 3 ["x^5".toList, "x*y+x".toList, "x".toList, "x*y".toList, "q".toList] =
    ([.out ">>".toList, .out "ans = \n".toList, .out "  5*x^4\n".toList] ++
     .out ">>".toList :: machineQuestion ++ [.out "ans = \n".toList, .out "  y+1\n".toList] ++
     .out ">>".toList :: machineQuestion ++ [.err .runtime], [], .ok ()) := by decide +kernel

/-- C98 fails: `x/0` aborts the program. -/
theorem C98_false_abort : (diffMachine defaultConfig 1 ["x/0".toList]).2.2 = .terminate := by decide +kernel

/-- C98 fails: a constant violates an assertion. -/
theorem C98_false_constant : (diffMachine defaultConfig 1 ["2*3".toList]).2.2 = .assertFail := by decide +kernel

/-- C98 fails: a closing parenthesis too many is undefined behaviour. -/
theorem C98_false_paren : (diffMachine defaultConfig 1 ["(x))".toList]).2.2 = .ub := by decide +kernel

/-- C98 fails: the usage text offers `asin(x)`, `acos(x)` and `atan(x)`; the program does not know them. -/
theorem C98_false_usage : ∀ w ∈ ["asin(x)".toList, "acos(x)".toList, "atan(x)".toList],
    (diffMachine defaultConfig 1 [w]).1 = [.out ">>".toList, .err (.multiParse [0])] := by decide +kernel

/-- An expression typed with blanks is taken for several. -/
example : (diffMachine defaultConfig 2 ["x".toList, "+".toList, "1".toList]).1 =
    [.out ">>".toList, .out "ans = \n".toList, .out "  1\n".toList, .out ">>".toList, .err (.math .wrongExpression)] := by decide +kernel

/-- **C98** (what is not caught): the `catch` is for `std::runtime_error`; were the block to throw `std::out_of_range`, a `std::logic_error`, the
program would end.  Everything else it throws is caught. -/
theorem C98_uncaught (cfg : Config α) (expr : Str) (input rest : List Str) (ws : List Wrote) (e : Exc)
    (h : tryBlock cfg expr input = (ws, rest, .throw e)) :
    tryCatch cfg expr input = if e = .outOfRange then (ws, rest, .terminate) else (ws ++ [.err e], rest, .ok ()) := by
  unfold tryCatch
  rw [h]
  cases e <;> simp [Exc.isRuntimeError]

end Tom
