import Verif.Lemmas.Settings
import Verif.Props.Logging
/-
C110: each setting influences only what it is for.  C111: loosening a limit never changes an answer.
-/
set_option linter.unusedSectionVars false
namespace Tom
variable {α : Type} [Dbl α]

/-! ### C110 -/

/-- **C110** (values and expressions): `Vpa`, `Calc`, `Simplify`, `Diff` and what is built of them read no setting but `throwOnInvalidValue`. -/
theorem C110_expressions {c c' : Config α} (h : c.throwOnInvalidValue = c'.throwOnInvalidValue) (n : Raw α) (x : Str) (k : Int)
    (m : SymMat α) (vars : List Str) (t : VarsTable α) :
    vpa c n = vpa c' n ∧ calcNode c n = calcNode c' n ∧ simplify c n = simplify c' n ∧ diff c n x k = diff c' n x k ∧
      diffConst c n x k = diffConst c' n x k ∧ m.jacobian c vars = m.jacobian c' vars ∧ m.calcAll c = m.calcAll c' ∧
      evalMat c m t = evalMat c' m t := by
  rw [vpa_cfg h, calcNode_cfg h, simplify_cfg h, diff_cfg h, diffConst_cfg h, jacobian_cfg h, calcAll_cfg h, evalMat_cfg h]
  exact ⟨rfl, rfl, rfl, rfl, rfl, rfl, rfl, rfl⟩

/-- **C110** (linear systems): `SolveLinear` reads `epsilon` and `allowIndeterminateEquation` only only. -/
theorem C110_linear {c c' : Config α} (he : c.epsilon = c'.epsilon) (ha : c.allowIndeterminateEquation = c'.allowIndeterminateEquation)
    (A b : Mat α) : solveLinear c A b = solveLinear c' A b := by
  rw [solveLinear_cfg he ha]

/-- **C110** (`Solve` with a table): the initial value of the configuration has no influence, the values of the table count. -/
theorem C110_solve (c : Config α) (v : α) (lsFuel fuel : Nat) (eqs : SymMat α) (t : VarsTable α) :
    solve { c with initialValue := v } lsFuel fuel eqs t = solve c lsFuel fuel eqs t := by
  have h : ({ c with initialValue := v } : Config α).throwOnInvalidValue = c.throwOnInvalidValue := rfl
  have hL : solveLinear { c with initialValue := v } = solveLinear c := solveLinear_cfg rfl rfl
  have hN : ∀ (ja : SymMat α) (f it : Nat) (t : VarsTable α) (q : Mat α),
      newtonLoop { c with initialValue := v } eqs ja f it t q = newtonLoop c eqs ja f it t q := by
    intro ja f
    induction f with
    | zero => intros; rfl
    | succ f ih =>
      intro it t q
      simp only [newtonLoop, evalVec_cfg h, evalMat_cfg h, hL, ih]
  have hI : ∀ (ja : SymMat α) (q F : Mat α) (f : Nat) (t : VarsTable α) (mu : α) (it : Nat),
      lmInner { c with initialValue := v } lsFuel eqs ja q F f t mu it = lmInner c lsFuel eqs ja q F f t mu it := by
    intro ja q F f
    induction f with
    | zero => intros; rfl
    | succ f ih =>
      intro t mu it
      simp only [lmInner, evalVec_cfg h, evalMat_cfg h, hL, ih]
  have hO : ∀ (ja : SymMat α) (f g : Nat) (t : VarsTable α) (q : Mat α) (it : Nat),
      lmOuter { c with initialValue := v } lsFuel g eqs ja f t q it = lmOuter c lsFuel g eqs ja f t q it := by
    intro ja f
    induction f with
    | zero => intros; rfl
    | succ f ih =>
      intro g t q it
      simp only [lmOuter, evalVec_cfg h, hI, ih]
  simp only [solve, solveByNewtonRaphson, solveByLM, jacobian_cfg h, hN, hO]

/-- **C110** (linear systems that are not underdetermined): `allowIndeterminateEquation` has no influence on them. -/
theorem C110_square {c c' : Config α} (he : c.epsilon = c'.epsilon) (A b : Mat α) (hA : A.cols ≤ A.rows) :
    solveLinear c A b = solveLinear c' A b := by
  unfold solveLinear
  rw [he]
  split
  · rfl
  · congr 1
    funext ret
    split
    · rfl
    · have h : A.rows = A.cols := by omega
      have h' : ¬ A.rows ≠ A.cols := by omega
      simp only [if_neg h']

theorem Mat.ones_square {m n : Mat α} (h : m.ones = .ok n) : n.rows = n.cols := by
  unfold Mat.ones at h
  split at h
  case isTrue hm =>
    obtain ⟨d, _, h2⟩ := Res.bind_eq_ok.mp h
    cases h2
    exact hm
  case isFalse => cases h

theorem Mat.add_square {m n r : Mat α} (h : m.add n = .ok r) (hn : n.rows = n.cols) : r.rows = r.cols := by
  unfold Mat.add at h
  split at h
  case isTrue hm =>
    obtain ⟨d, _, h2⟩ := Res.bind_eq_ok.mp h
    cases h2
    exact hm.1.trans (hn.trans hm.2.symm)
  case isFalse => cases h

theorem Res.bind_congr_ok {β γ : Type} {r : Res β} {f g : β → Res γ} (h : ∀ b, r = .ok b → f b = g b) : (r >>= f) = (r >>= g) := by
  cases r with
  | ok b => exact h b rfl
  | _ => rfl

/-- **C110** (Levenberg-Marquardt): `allowIndeterminateEquation` has no influence on it. -/
theorem C110_lm (c : Config α) (hm : c.nonlinearMethod = .lm) (b : Bool) (lsFuel fuel : Nat) (eqs : SymMat α) (t : VarsTable α) :
    solve { c with allowIndeterminateEquation := b } lsFuel fuel eqs t = solve c lsFuel fuel eqs t := by
  have h : ({ c with allowIndeterminateEquation := b } : Config α).throwOnInvalidValue = c.throwOnInvalidValue := rfl
  have hI : ∀ (ja : SymMat α) (q F : Mat α) (f : Nat) (t : VarsTable α) (mu : α) (it : Nat),
      lmInner { c with allowIndeterminateEquation := b } lsFuel eqs ja q F f t mu it = lmInner c lsFuel eqs ja q F f t mu it := by
    intro ja q F f
    induction f with
    | zero => intros; rfl
    | succ f ih =>
      intro t mu it
      simp only [lmInner, evalVec_cfg h, evalMat_cfg h, ih]
      refine Res.bind_congr_ok fun j _ => Res.bind_congr_ok fun jt _ => Res.bind_congr_ok fun jtj _ => Res.bind_congr_ok fun z _ =>
        Res.bind_congr_ok fun one h1 => Res.bind_congr_ok fun m h2 => Res.bind_congr_ok fun g _ => Res.bind_congr_ok fun g' _ => ?_
      have hsq : m.rows = m.cols := Mat.add_square h2 (show one.rows = one.cols from Mat.ones_square h1)
      rw [C110_square (c := { c with allowIndeterminateEquation := b }) (c' := c) rfl m g'.neg hsq.ge]
  have hO : ∀ (ja : SymMat α) (f g : Nat) (t : VarsTable α) (q : Mat α) (it : Nat),
      lmOuter { c with allowIndeterminateEquation := b } lsFuel g eqs ja f t q it = lmOuter c lsFuel g eqs ja f t q it := by
    intro ja f
    induction f with
    | zero => intros; rfl
    | succ f ih =>
      intro g t q it
      simp only [lmOuter, evalVec_cfg h, hI, ih]
  have hS : solveByLM { c with allowIndeterminateEquation := b } lsFuel fuel eqs t = solveByLM c lsFuel fuel eqs t := by
    simp only [solveByLM, jacobian_cfg h, hO]
  unfold solve
  simp only [hm]
  rw [← hm]
  exact hS

/-- For systems with fewer equations than unknowns it does matter: `x + y = 1`. -/
example :
    let A : Mat (XNum Rat) := ⟨1, 2, [.fin 1, .fin 1]⟩
    let b : Mat (XNum Rat) := ⟨1, 1, [.fin 1]⟩
    solveLinear defaultConfig A b = .throw (.math .indeterminateEquation) ∧
    solveLinear { defaultConfig with allowIndeterminateEquation := true } A b = .ok ⟨2, 1, [.fin 1, .fin 0]⟩ := by decide +kernel

/-- **C110** (`Solve` without a table): it is `Solve` with all variables of the equations at the initial value of the configuration. -/
theorem C110_initial (c : Config α) (lsFuel fuel : Nat) (eqs : SymMat α) {names : List Str} (hn : eqs.getAllVarNames = .ok names)
    {t : VarsTable α} (ht : VarsTable.ofVars names c.initialValue = .ok t) :
    solveAuto c lsFuel fuel eqs = solve c lsFuel fuel eqs t := by
  simp only [solveAuto, hn, Res.bind_ok, ht]

/-- The member of the configuration, as a value of its own type. -/
def Settings.same (m : Member) (s s' : Settings α) : Prop :=
  match m with
  | .throwOnInvalidValue => s.throwOnInvalidValue = s'.throwOnInvalidValue
  | .epsilon => s.epsilon = s'.epsilon
  | .logLevel => s.logLevel = s'.logLevel
  | .maxIterations => s.maxIterations = s'.maxIterations
  | .nonlinearMethod => s.nonlinearMethod = s'.nonlinearMethod
  | .initialValue => s.initialValue = s'.initialValue
  | .allowIndeterminateEquation => s.allowIndeterminateEquation = s'.allowIndeterminateEquation

theorem Settings.same_refl (m : Member) (s : Settings α) : s.same m s := by cases m <;> rfl

theorem Settings.same_trans {m : Member} {s s' s'' : Settings α} (h : s.same m s') (h' : s'.same m s'') : s.same m s'' := by
  cases m <;> exact Eq.trans h h'

/-- **C110** (histories): assignments to other members do not change a member, however many there are. -/
theorem C110_frame (m : Member) (s : Settings α) (cs : List (SettingStmt α)) (h : ∀ c ∈ cs, ∃ m', c.member = some m' ∧ m' ≠ m) :
    (s.run cs).same m s := by
  induction cs generalizing s with
  | nil => exact s.same_refl m
  | cons c cs ih =>
    have h1 : (s.exec c).same m s := by
      obtain ⟨m', hm, hne⟩ := h c (by simp)
      cases c <;> simp only [SettingStmt.member, Option.some.injEq, reduceCtorEq] at hm <;> subst hm <;>
        cases m <;> first | exact absurd rfl hne | rfl
    exact Settings.same_trans (ih (s.exec c) fun c' hc' => h c' (by simp [hc'])) h1

/-- **C110** (histories): after any history a member has the value last assigned to it. -/
theorem C110_last (s s' : Settings α) (before after : List (SettingStmt α)) (c : SettingStmt α) (m : Member) (hc : c.member = some m)
    (h : ∀ c ∈ after, ∃ m', c.member = some m' ∧ m' ≠ m) : (s.run (before ++ c :: after)).same m (s'.exec c) := by
  unfold Settings.run
  rw [List.foldl_append, List.foldl_cons]
  refine Settings.same_trans (C110_frame m _ after h) ?_
  cases c <;> simp only [SettingStmt.member, Option.some.injEq, reduceCtorEq] at hc <;> subst hc <;> rfl

/-- the member an assignment is about has the value written in the assignment -/
def SettingStmt.holds (s : Settings α) : SettingStmt α → Prop
  | .throwOnInvalidValue b => s.throwOnInvalidValue = b
  | .epsilon x => s.epsilon = x
  | .logLevel l => s.logLevel = l
  | .maxIterations n => s.maxIterations = n
  | .nonlinearMethod m => s.nonlinearMethod = m
  | .initialValue x => s.initialValue = x
  | .allowIndeterminateEquation b => s.allowIndeterminateEquation = b
  | .reset => True

/-- **C110** (histories): the value is the one written in the last assignment to the member. -/
theorem C110_value (s : Settings α) (before after : List (SettingStmt α)) (c : SettingStmt α) (m : Member) (hc : c.member = some m)
    (h : ∀ c ∈ after, ∃ m', c.member = some m' ∧ m' ≠ m) : c.holds (s.run (before ++ c :: after)) := by
  have h1 := C110_last s s before after c m hc h
  cases c <;> simp only [SettingStmt.member, Option.some.injEq, reduceCtorEq] at hc <;> subst hc <;> exact h1

/-- **C110** (`Reset`): after any history followed by `Reset` and any further history, the configuration is as if the program had started with
that further history. -/
theorem C110_reset (s : Settings α) (before after : List (SettingStmt α)) :
    s.run (before ++ .reset :: after) = Settings.initial.run after := by
  unfold Settings.run
  rw [List.foldl_append, List.foldl_cons]
  rfl

/-- **C110** (the start): the values a program starts with. -/
theorem C110_initially : (Settings.initial : Settings α).throwOnInvalidValue = true ∧
    (Settings.initial : Settings α).epsilon = lit 1 (-9) ∧ (Settings.initial : Settings α).logLevel = .warn ∧
    (Settings.initial : Settings α).maxIterations = 100 ∧ (Settings.initial : Settings α).nonlinearMethod = .newtonRaphson ∧
    (Settings.initial : Settings α).initialValue = Dbl.ofInt 1 ∧ (Settings.initial : Settings α).allowIndeterminateEquation = false :=
  ⟨rfl, rfl, rfl, rfl, rfl, rfl, rfl⟩

/-- The default configuration of the other theorems is the one a program starts with. -/
example : (Settings.initial : Settings (XNum Rat)).toConfig = defaultConfig := rfl

/-- A history: the initial value set twice, with a `Reset` and other assignments between. -/
example : ((Settings.initial : Settings (XNum Rat)).run [.initialValue (.fin 5), .maxIterations 3, .reset, .initialValue (.fin 7),
    .logLevel .info, .nonlinearMethod .lm]).toConfig = { defaultConfig with initialValue := .fin 7, nonlinearMethod := .lm } := rfl

/-- `throwOnInvalidValue` does matter for values, `allowIndeterminateEquation` for linear systems. -/
example :
    let quotient := embed (Expr.bin .div (.num (.fin 1)) (.num (.fin 0)) : Expr (XNum Rat))
    vpa defaultConfig quotient ≠ vpa { defaultConfig with throwOnInvalidValue := false } quotient := by decide +kernel

/-! ### C111 -/

/-- **C111** (values and expressions): turning off the check for invalid values changes no result that was returned. -/
theorem C111_expressions {c c' : Config α} (h : Looser c c') (n : Raw α) (x : Str) (k : Int) :
    (∀ v, vpa c n = .ok v → vpa c' n = .ok v) ∧ (∀ m, simplify c n = .ok m → simplify c' n = .ok m) ∧
      (∀ m, diff c n x k = .ok m → diff c' n x k = .ok m) :=
  ⟨vpa_le h n, simplify_le h n, diff_le h n x k⟩

/-- **C111** (linear systems): allowing indeterminate equations changes no answer that was returned. -/
theorem C111_linear {c c' : Config α} (h : Looser c c') (A b x : Mat α) (hx : solveLinear c A b = .ok x) : solveLinear c' A b = .ok x :=
  solveLinear_le h A b x hx

/-- **C111** (nonlinear systems): raising the limit of iterations, allowing indeterminate equations and turning off the check for invalid
values change no answer that was returned. -/
theorem C111_partial {c c' : Config α} (h : Looser c c') (lsFuel fuel : Nat) (eqs : SymMat α) (t s : VarsTable α)
    (hs : solve c lsFuel fuel eqs t = .ok s) : solve c' lsFuel fuel eqs t = .ok s :=
  solve_le h lsFuel fuel eqs t s hs

/-- **C111** (nonlinear systems without a table). -/
theorem C111_auto {c c' : Config α} (h : Looser c c') (lsFuel fuel : Nat) (eqs : SymMat α) (s : VarsTable α)
    (hs : solveAuto c lsFuel fuel eqs = .ok s) : solveAuto c' lsFuel fuel eqs = .ok s :=
  solveAuto_le h lsFuel fuel eqs s hs

/-- One configuration that is looser than another. -/
def strictLimits : Config (XNum Rat) := { defaultConfig with maxIterations := 2 }
def looseLimits : Config (XNum Rat) :=
  { defaultConfig with maxIterations := 100, throwOnInvalidValue := false, allowIndeterminateEquation := true }

example : Looser strictLimits looseLimits where
  epsilon := rfl
  method := rfl
  initial := rfl
  invalid := fun _ => rfl
  indeterminate := fun h => by cases h
  limit := by decide
  nonneg := fun h => by cases h

/-- Both find the root of `x - 3`, and with a limit of zero there is no answer. -/
example : solve strictLimits 0 0 (symOf minusThree) xIsOne = .ok ⟨[['x']], ⟨1, 1, [.fin 3]⟩, [(['x'], .fin 3)]⟩ ∧
    solve looseLimits 0 0 (symOf minusThree) xIsOne = .ok ⟨[['x']], ⟨1, 1, [.fin 3]⟩, [(['x'], .fin 3)]⟩ ∧
    solve { strictLimits with maxIterations := 0 } 0 0 (symOf minusThree) xIsOne = .throw .runtime := by decide +kernel

/-- Levenberg-Marquardt with a limit of iterations. -/
def lmLimit (n : Int) : Config (XNum Rat) := { defaultConfig with maxIterations := n, nonlinearMethod := .lm }

/-- **C111** is false without the condition on negative limits: Levenberg-Marquardt finds the root of `x - 3` with the limit -1 (it compares for
equality only, so there is no limit), and has no answer with the larger limit 0. -/
theorem C111_false : (-1 : Int) < 0 ∧
    (∃ s, solve (lmLimit (-1)) 5 5 (symOf minusThree) xIsOne = .ok s) ∧
    solve (lmLimit 0) 5 5 (symOf minusThree) xIsOne = .throw .runtime :=
  ⟨by decide, ⟨⟨[['x']], ⟨1, 1, [.fin (30000600001 / 10000200001)]⟩, [(['x'], .fin (30000600001 / 10000200001))]⟩, by decide +kernel⟩, by decide +kernel⟩

/-- With nonnegative limits it holds for Levenberg-Marquardt too. -/
example : Looser (lmLimit 3) (lmLimit 100) ∧ (∃ s, solve (lmLimit 3) 5 5 (symOf minusThree) xIsOne = .ok s) :=
  ⟨⟨rfl, rfl, rfl, fun h => h, fun h => h, by decide, fun _ => by decide⟩,
    ⟨⟨[['x']], ⟨1, 1, [.fin (30000600001 / 10000200001)]⟩, [(['x'], .fin (30000600001 / 10000200001))]⟩, by decide +kernel⟩⟩

end Tom
