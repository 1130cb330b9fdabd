import Verif.Lemmas.SolveMessages
import Verif.Lemmas.Fine
import Verif.Props.Counters
/-
C106: the texts of the exceptions of the solvers.
-/
set_option linter.unusedSectionVars false
namespace Tom
variable {α : Type} [Dbl α] {β γ : Type}

/-! ### the same outcome -/

theorem solveByNewtonRaphsonM_forget (cfg : Config α) (eqs : SymMat α) (t : VarsTable α) :
    (solveByNewtonRaphsonM cfg eqs t).forget = solveByNewtonRaphson cfg eqs t :=
  MRes.forget_bind _ _ _ fun _ => MRes.forget_bind _ _ _ fun _ => newtonLoopM_forget _ _ _ _ _ _ _

theorem solveByLMM_forget (cfg : Config α) (lsFuel fuel : Nat) (eqs : SymMat α) (t : VarsTable α) :
    (solveByLMM cfg lsFuel fuel eqs t).forget = solveByLM cfg lsFuel fuel eqs t :=
  MRes.forget_bind _ _ _ fun _ => MRes.forget_bind _ _ _ fun _ => lmOuterM_forget _ _ _ _ _ _ _ _ _

theorem solveM_forget (cfg : Config α) (method : Str) (lsFuel fuel : Nat) (eqs : SymMat α) (t : VarsTable α) :
    (solveM cfg method lsFuel fuel eqs t).forget = solve cfg lsFuel fuel eqs t := by
  unfold solveM solve
  cases cfg.nonlinearMethod with
  | newtonRaphson => exact solveByNewtonRaphsonM_forget _ _ _
  | lm => exact solveByLMM_forget _ _ _ _ _
  | other => rfl

theorem solveAutoM_forget (cfg : Config α) (method : Str) (lsFuel fuel : Nat) (eqs : SymMat α) :
    (solveAutoM cfg method lsFuel fuel eqs).forget = solveAuto cfg lsFuel fuel eqs :=
  MRes.forget_bind _ _ _ fun _ => MRes.forget_bind _ _ _ fun _ => solveM_forget _ _ _ _ _ _

/-- **C106** (the models with texts are the models without them): apart from the text of the exception, the solvers do what the other theorems
say of them. -/
theorem C106_same (cfg : Config α) (A b : Mat α) (method : Str) (lsFuel fuel : Nat) (eqs : SymMat α) (t : VarsTable α) :
    (solveLinearM cfg A b).forget = solveLinear cfg A b ∧
    (solveByNewtonRaphsonM cfg eqs t).forget = solveByNewtonRaphson cfg eqs t ∧
    (solveByLMM cfg lsFuel fuel eqs t).forget = solveByLM cfg lsFuel fuel eqs t ∧
    (solveM cfg method lsFuel fuel eqs t).forget = solve cfg lsFuel fuel eqs t ∧
    (solveAutoM cfg method lsFuel fuel eqs).forget = solveAuto cfg lsFuel fuel eqs :=
  ⟨solveLinearM_forget _ _ _, solveByNewtonRaphsonM_forget _ _ _, solveByLMM_forget _ _ _ _ _, solveM_forget _ _ _ _ _ _, solveAutoM_forget _ _ _ _ _⟩

/-! ### linear systems -/

theorem solveLinearM_says_flat (cfg : Config α) (A b : Mat α) (hA : A.rows ≤ A.cols) :
    (solveLinearM cfg A b).Says fun e => e.kind ≠ .math .overDeterminedEquations := by
  unfold solveLinearM
  refine says_ite (says_plain still_assertFail) (says_bind (says_plain (still_new _ _ _)) fun _ _ => ?_)
  rw [if_neg (by omega)]
  refine says_bind (says_plain (still_ite (still_resize _ _ _) (still_ok _))) fun _ _ =>
      says_bind (elimLoop_bare_says _ _ _ _ _ (by simp [MExc.kind, mathError, MathErrorObj.getErrorType])) fun s _ => ?_
  refine says_ite (says_bind (says_plain (still_resize _ _ _)) fun _ _ => says_bind (says_plain (still_resize _ _ _)) fun _ _ =>
    says_bind (says_plain (still_placeRows _ _ _)) fun Ab _ => says_bind (says_plain (still_backSubst _ _ _)) fun _ _ =>
      says_ite (says_ite (says_plain (still_ok _)) (says_raised (by simp [MExc.kind, mathError, MathErrorObj.getErrorType]))) (says_plain (still_ok _)))
    (says_bind (says_plain (still_backSubst _ _ _)) fun _ _ => says_ite (says_raised (by
      simp [MExc.kind, mathError, MathErrorObj.getErrorType])) (says_plain (still_ok _)))

theorem solveLinearM_tall {cfg : Config α} {A b : Mat α} (hA : A.cols < A.rows) {e : MExc} (h : solveLinearM cfg A b = .raised e) :
    e.kind = .math .overDeterminedEquations := by
  unfold solveLinearM at h
  split at h
  · cases h
  · unfold Mat.new at h
    split at h
    · rw [MRes.bind_ok] at h
      cases h
      rfl
    · cases h

/-- **C106** (linear systems): every exception of `SolveLinear` is one of four, with these texts; of a square system, one of two; the system is
called overdetermined exactly when it has more equations than variables. -/
theorem C106_linear (cfg : Config α) (A b : Mat α) (e : MExc) (h : solveLinearM cfg A b = .raised e) :
    LinearText (α := α) e ∧
    (A.rows = A.cols → (e.kind = .math .singularMatrix ∧ e.what = "singular matrix".toList) ∨
      (e.kind = .math .infinitySolutions ∧ e.what = "infinite solutions".toList)) ∧
    (e.kind = .math .overDeterminedEquations ↔ A.rows > A.cols) :=
  ⟨(solveLinearM_says cfg A b).2 e h, fun hA => (solveLinearM_says_square cfg A b hA).2 e h, by
    by_cases hA : A.rows > A.cols
    · exact ⟨fun _ => hA, fun _ => solveLinearM_tall hA h⟩
    · exact ⟨fun hk => absurd hk ((solveLinearM_says_flat cfg A b (by omega)).2 e h), fun h => absurd h hA⟩⟩

/-! ### Newton's method -/

theorem retell_says {cfg : Config α} {eqs : SymMat α} {vars : List Str} {d : MRes β} (h : d.Says (LinearText (α := α))) :
    (retell d).Says (NewtonText cfg eqs vars) := by
  rcases d with r | e
  · exact says_plain fun e he => h.1 e (by rw [he])
  · have h := h.2 e rfl
    cases e with
    | runtime s => cases h with
      | overDetermined h => cases h
      | singular h => cases h
      | infinite h => cases h
      | indeterminate _ _ h => cases h
    | math m =>
      show (if m.getErrorType = ErrorType.singularMatrix then (MRes.raised (MExc.math (mathError .singularMatrix tipText)) : MRes β)
        else .raised (.math m)).Says _
      split
      · exact says_raised (.singular rfl text_tip)
      · rename_i hm
        exact says_raised (.linear h fun hk => hm (Exc.math.inj hk))

theorem newtonLoopM_says {cfg : Config α} {eqs ja : SymMat α} {vars : List Str} (hc : eqs.cols = 1) (hja : eqs.jacobian cfg vars = .ok ja)
    (fuel it : Nat) (t : VarsTable α) (q : Mat α) (ht : t.vars = vars) : (newtonLoopM cfg eqs ja fuel it t q).Says (NewtonText cfg eqs vars) := by
  induction fuel generalizing it t q with
  | zero => exact says_plain still_diverge
  | succ fuel ih =>
    refine says_bind (says_mono (fun e he => .equation (ht ▸ he)) (evalVecM_says cfg eqs hc t)) fun phi _ => says_ite (says_plain (still_ok _))
      (says_ite (says_raised (.limit rfl text_limit)) (says_bind (says_mono (fun e he => .derivative hja (ht ▸ he)) (evalMatM_says cfg ja t))
        fun j _ => says_bind (retell_says (says_bind (solveLinearM_says _ _ _) fun _ _ => says_plain (still_add _ _))) fun q _ =>
          says_bind (says_plain (still_setValues _ _)) fun t' ht' => ih _ _ _ ((setValues_vars (MRes.plain.inj ht')).trans ht)))

theorem solveByNewtonRaphsonM_says (cfg : Config α) (eqs : SymMat α) (hc : eqs.cols = 1) (t : VarsTable α) :
    (solveByNewtonRaphsonM cfg eqs t).Says (NewtonText cfg eqs t.vars) :=
  says_bind (says_plain (still_new _ _ _)) fun _ _ => says_bind (says_plain (still_noexcept _)) fun _ hja =>
    newtonLoopM_says hc (MRes.plain.inj hja) _ _ _ _ rfl

/-! ### the Levenberg-Marquardt method -/

theorem MRes.bind_eq_ok {d : MRes β} {f : β → MRes γ} {c : γ} (h : (d >>= f) = .plain (.ok c)) :
    ∃ b, d = .plain (.ok b) ∧ f b = .plain (.ok c) := by
  rcases d with (b | _ | _ | _ | _ | _) | e
  · exact ⟨b, rfl, h⟩
  all_goals cases h

theorem transpose_rows {m m' : Mat α} (h : m.transpose = .ok m') : m'.rows = m.cols ∧ m'.cols = m.rows := by
  obtain ⟨z, h1, h2⟩ := Res.bind_eq_ok.mp h
  refine forRes_pres (P := fun a : Mat α => a.rows = m.cols ∧ a.cols = m.rows) (fun s i s' hs he => ?_) _ _ _ ?_ h2
  · obtain ⟨_, -, he⟩ := Res.bind_eq_ok.mp he
    obtain ⟨_, -, he⟩ := Res.bind_eq_ok.mp he
    cases he; exact hs
  · unfold Mat.new at h1
    split at h1
    · cases h1; exact ⟨rfl, rfl⟩
    · cases h1

theorem mul_rows {a b c : Mat α} (h : a.mul b = .ok c) : c.rows = a.rows ∧ c.cols = b.cols := by
  unfold Mat.mul at h
  split at h
  swap
  · cases h
  obtain ⟨z, h1, h2⟩ := Res.bind_eq_ok.mp h
  refine forRes_pres (P := fun x : Mat α => x.rows = a.rows ∧ x.cols = b.cols) (fun s i s' hs he => ?_) _ _ _ ?_ h2
  · refine forRes_pres (P := fun x : Mat α => x.rows = a.rows ∧ x.cols = b.cols) (fun s i s' hs he => ?_) _ _ _ hs he
    obtain ⟨_, -, he⟩ := Res.bind_eq_ok.mp he
    obtain ⟨_, -, he⟩ := Res.bind_eq_ok.mp he
    obtain ⟨_, -, he⟩ := Res.bind_eq_ok.mp he
    obtain ⟨_, -, he⟩ := Res.bind_eq_ok.mp he
    obtain ⟨_, -, he⟩ := Res.bind_eq_ok.mp he
    cases he; exact hs
  · unfold Mat.new at h1
    split at h1
    · cases h1; exact ⟨rfl, rfl⟩
    · cases h1

theorem add_rows {a b c : Mat α} (h : a.add b = .ok c) : c.rows = a.rows ∧ c.cols = a.cols := by
  unfold Mat.add at h
  split at h
  · obtain ⟨_, -, h⟩ := Res.bind_eq_ok.mp h
    cases h; exact ⟨rfl, rfl⟩
  · cases h

theorem toVecM_says {P : MExc → Prop} {m : Mat α} (h : m.cols = 1) : (toVecM m).Says P := by
  unfold toVecM
  rw [if_neg (by simpa using h : ¬ m.cols ≠ 1)]
  exact says_ite (says_plain still_assertFail) (says_plain (still_ok _))

theorem armijoLoopM_says {P : MExc → Prop} {f df : Mat α → MRes (Mat α)} (hf : ∀ v, (f v).Says P) (hdf : ∀ v, (df v).Says P) (x d : Mat α)
    (fuel : Nat) (alpha : α) : (armijoLoopM f df x d fuel alpha).Says P := by
  induction fuel generalizing alpha with
  | zero => exact says_plain still_diverge
  | succ fuel ih =>
    exact says_bind (says_plain (still_add _ _)) fun _ _ => says_bind (hf _) fun _ _ => says_bind (says_plain (still_norm2 _)) fun _ _ =>
      says_bind (hf _) fun _ _ => says_bind (hdf _) fun _ _ => says_bind (says_plain (still_transpose _)) fun _ _ =>
        says_bind (says_plain (still_mul _ _)) fun _ _ => says_bind (says_plain (still_add _ _)) fun _ _ =>
          says_bind (says_plain (still_norm2 _)) fun _ _ => says_ite (says_plain (still_ok _)) (ih _)

theorem lmInnerM_says {cfg : Config α} {lsFuel : Nat} {eqs ja : SymMat α} {vars : List Str} (hc : eqs.cols = 1)
    (hja : eqs.jacobian cfg vars = .ok ja) (q F : Mat α) (hF : F.cols = 1) (fuel : Nat) (t : VarsTable α) (mu : α) (it : Nat)
    (ht : t.vars = vars) :
    (lmInnerM cfg lsFuel eqs ja q F fuel t mu it).Says (LMText cfg eqs vars) ∧
      ∀ r, lmInnerM cfg lsFuel eqs ja q F fuel t mu it = .plain (.ok r) → r.2.2.1.vars = vars := by
  induction fuel generalizing t mu it with
  | zero => exact ⟨says_plain still_diverge, fun _ h => by cases h⟩
  | succ fuel ih =>
    constructor
    · refine says_bind (says_mono (fun e he => .derivative hja (ht ▸ he)) (evalMatM_says cfg ja t)) fun j _ =>
        says_bind (says_plain (still_transpose _)) fun jt hjt => says_bind (says_plain (still_mul _ _)) fun jtj hjtj =>
        says_bind (says_plain (still_new _ _ _)) fun z _ => says_bind (says_plain (still_ones _)) fun one _ =>
        says_bind (says_plain (still_add _ _)) fun m hm => says_bind (says_plain (still_mul _ _)) fun g hg => ?_
      have h1 := transpose_rows (MRes.plain.inj hjt)
      have h2 := mul_rows (MRes.plain.inj hjtj)
      have h3 := add_rows (MRes.plain.inj hm)
      have h4 := mul_rows (MRes.plain.inj hg)
      refine says_bind (toVecM_says (h4.2.trans hF)) fun g' _ => says_bind (says_mono (fun e he => ?_) (solveLinearM_says_square cfg m g'.neg
        (by rw [h3.1, h3.2, h2.1, h2.2, h1.1]))) fun d _ => ?_
      · rcases he with ⟨h, h'⟩ | ⟨h, h'⟩
        · exact .singular h h'
        · exact .infinite h h'
      have hv : ∀ v, (do let t' ← MRes.plain (t.setValues v); evalVecM cfg eqs t').Says (LMText cfg eqs vars) := fun v =>
        says_bind (says_plain (still_setValues _ _)) fun t' ht' =>
          says_mono (fun e he => .equation (((setValues_vars (MRes.plain.inj ht')).trans ht) ▸ he)) (evalVecM_says cfg eqs hc t')
      have hm' : ∀ v, (do let t' ← MRes.plain (t.setValues v); evalMatM cfg ja t').Says (LMText cfg eqs vars) := fun v =>
        says_bind (says_plain (still_setValues _ _)) fun t' ht' =>
          says_mono (fun e he => .derivative hja (((setValues_vars (MRes.plain.inj ht')).trans ht) ▸ he)) (evalMatM_says cfg ja t')
      refine says_bind (armijoLoopM_says hv hm' _ _ _ _) fun alpha _ => says_bind (says_plain (still_add _ _)) fun qT _ =>
        says_bind (says_plain (still_setValues _ _)) fun t' ht' => ?_
      have ht'' := (setValues_vars (MRes.plain.inj ht')).trans ht
      exact says_bind (says_mono (fun e he => .equation (ht'' ▸ he)) (evalVecM_says cfg eqs hc t')) fun FN _ =>
        says_bind (says_plain (still_norm2 _)) fun _ _ => says_bind (says_plain (still_norm2 _)) fun _ _ => says_ite (says_plain (still_ok _))
          (says_ite (says_raised (.limit rfl text_limit)) (ih _ _ _ ht'').1)
    · intro r hr
      unfold lmInnerM at hr
      obtain ⟨_, -, hr⟩ := MRes.bind_eq_ok hr
      obtain ⟨_, -, hr⟩ := MRes.bind_eq_ok hr
      obtain ⟨_, -, hr⟩ := MRes.bind_eq_ok hr
      obtain ⟨_, -, hr⟩ := MRes.bind_eq_ok hr
      obtain ⟨_, -, hr⟩ := MRes.bind_eq_ok hr
      obtain ⟨_, -, hr⟩ := MRes.bind_eq_ok hr
      obtain ⟨_, -, hr⟩ := MRes.bind_eq_ok hr
      obtain ⟨_, -, hr⟩ := MRes.bind_eq_ok hr
      obtain ⟨_, -, hr⟩ := MRes.bind_eq_ok hr
      obtain ⟨_, -, hr⟩ := MRes.bind_eq_ok hr
      obtain ⟨_, -, hr⟩ := MRes.bind_eq_ok hr
      obtain ⟨t', ht', hr⟩ := MRes.bind_eq_ok hr
      have ht'' := (setValues_vars (MRes.plain.inj ht')).trans ht
      obtain ⟨_, -, hr⟩ := MRes.bind_eq_ok hr
      obtain ⟨_, -, hr⟩ := MRes.bind_eq_ok hr
      obtain ⟨_, -, hr⟩ := MRes.bind_eq_ok hr
      split at hr
      · cases hr; exact ht''
      · split at hr
        · cases hr
        · exact (ih _ _ _ ht'').2 r hr

theorem lmOuterM_says {cfg : Config α} {lsFuel innerFuel : Nat} {eqs ja : SymMat α} {vars : List Str} (hc : eqs.cols = 1)
    (hja : eqs.jacobian cfg vars = .ok ja) (fuel : Nat) (t : VarsTable α) (q : Mat α) (it : Nat) (ht : t.vars = vars) :
    (lmOuterM cfg lsFuel innerFuel eqs ja fuel t q it).Says (LMText cfg eqs vars) := by
  induction fuel generalizing t q it with
  | zero => exact says_plain still_diverge
  | succ fuel ih =>
    refine says_bind (says_mono (fun e he => .equation (ht ▸ he)) (evalVecM_says cfg eqs hc t)) fun F hF => says_ite (says_plain (still_ok _)) ?_
    have h := lmInnerM_says (lsFuel := lsFuel) hc hja q F (evalVecM_cols hF) innerFuel t (lit 1 (-5)) it ht
    exact says_bind h.1 fun r hr => says_bind (says_plain (still_add _ _)) fun q _ => says_bind (says_plain (still_setValues _ _)) fun t' ht' =>
      says_ite (says_raised (.limit rfl text_limit)) (ih _ _ _ ((setValues_vars (MRes.plain.inj ht')).trans (h.2 r hr)))

theorem solveByLMM_says (cfg : Config α) (lsFuel fuel : Nat) (eqs : SymMat α) (hc : eqs.cols = 1) (t : VarsTable α) :
    (solveByLMM cfg lsFuel fuel eqs t).Says (LMText cfg eqs t.vars) :=
  says_bind (says_plain (still_new _ _ _)) fun _ _ => says_bind (says_plain (still_noexcept _)) fun _ hja =>
    lmOuterM_says hc (MRes.plain.inj hja) _ _ _ _ rfl

theorem ofVars_vars {vars : List Str} {v : α} {t : VarsTable α} (h : VarsTable.ofVars vars v = .ok t) : t.vars = vars := by
  obtain ⟨_, -, h⟩ := Res.bind_eq_ok.mp h
  simp only at h
  split at h
  · cases h; rfl
  · cases h

/-! ### the property -/

/-- **C106** (Newton's method): the exceptions are those of an equation or a partial derivative without a value, of the limit of iterations, and of
the linear systems, where a singular Jacobian comes with advice. -/
theorem C106_newton (cfg : Config α) (eqs : SymMat α) (hc : eqs.cols = 1) (t : VarsTable α) (e : MExc)
    (h : solveByNewtonRaphsonM cfg eqs t = .raised e) : NewtonText cfg eqs t.vars e := (solveByNewtonRaphsonM_says cfg eqs hc t).2 e h

/-- **C106** (Levenberg-Marquardt): the same, without advice; the linear systems are square, hence never called overdetermined or indeterminate. -/
theorem C106_lm (cfg : Config α) (lsFuel fuel : Nat) (eqs : SymMat α) (hc : eqs.cols = 1) (t : VarsTable α) (e : MExc)
    (h : solveByLMM cfg lsFuel fuel eqs t = .raised e) : LMText cfg eqs t.vars e := (solveByLMM_says cfg lsFuel fuel eqs hc t).2 e h

theorem solveM_says (cfg : Config α) (method : Str) (lsFuel fuel : Nat) (eqs : SymMat α) (hc : eqs.cols = 1) (t : VarsTable α) :
    (solveM cfg method lsFuel fuel eqs t).Says fun e =>
      (cfg.nonlinearMethod = .newtonRaphson ∧ NewtonText cfg eqs t.vars e) ∨ (cfg.nonlinearMethod = .lm ∧ LMText cfg eqs t.vars e) ∨
      (cfg.nonlinearMethod = .other ∧ e.kind = .runtime ∧ e.what = "invalid config.NonlinearMethod value: ".toList ++ method) := by
  unfold solveM
  cases cfg.nonlinearMethod with
  | newtonRaphson => exact says_mono (fun e h => .inl ⟨rfl, h⟩) (solveByNewtonRaphsonM_says cfg eqs hc t)
  | lm => exact says_mono (fun e h => .inr (.inl ⟨rfl, h⟩)) (solveByLMM_says cfg lsFuel fuel eqs hc t)
  | other => exact says_raised (.inr (.inr ⟨rfl, rfl, rfl⟩))

/-- **C106** (`Solve`, with given initial values and without): every exception is one of those, according to the method of the configuration; a
method that is neither of the two is named. -/
theorem C106_solve (cfg : Config α) (method : Str) (lsFuel fuel : Nat) (eqs : SymMat α) (hc : eqs.cols = 1) (e : MExc) (vars : List Str)
    (h : (∃ t, t.vars = vars ∧ solveM cfg method lsFuel fuel eqs t = .raised e) ∨
      (∃ names, eqs.getAllVarNames = .ok names ∧ names = vars ∧ solveAutoM cfg method lsFuel fuel eqs = .raised e)) :
    (cfg.nonlinearMethod = .newtonRaphson ∧ NewtonText cfg eqs vars e) ∨ (cfg.nonlinearMethod = .lm ∧ LMText cfg eqs vars e) ∨
      (cfg.nonlinearMethod = .other ∧ e.kind = .runtime ∧ e.what = "invalid config.NonlinearMethod value: ".toList ++ method) := by
  rcases h with ⟨t, rfl, h⟩ | ⟨names, hn, rfl, h⟩
  · exact (solveM_says cfg method lsFuel fuel eqs hc t).2 e h
  · unfold solveAutoM at h
    rw [hn, MRes.bind_ok] at h
    cases ht : VarsTable.ofVars names cfg.initialValue with
    | ok t =>
      rw [ht, MRes.bind_ok] at h
      have := ofVars_vars ht
      exact this ▸ (solveM_says cfg method lsFuel fuel eqs hc t).2 e h
    | throw e' => exact absurd ht (still_ofVars _ _ e')
    | _ => rw [ht] at h; cases h

/-- **C106** (no exception without a text). -/
theorem C106_told (cfg : Config α) (A b : Mat α) (method : Str) (lsFuel fuel : Nat) (eqs : SymMat α) (hc : eqs.cols = 1) (t : VarsTable α) (e : Exc) :
    solveLinearM cfg A b ≠ .plain (.throw e) ∧ solveM cfg method lsFuel fuel eqs t ≠ .plain (.throw e) ∧
      solveAutoM cfg method lsFuel fuel eqs ≠ .plain (.throw e) :=
  ⟨(solveLinearM_says cfg A b).1 e, (solveM_says cfg method lsFuel fuel eqs hc t).1 e,
    (says_bind (P := fun _ => True) (says_plain (still_symVarNames _)) fun _ _ => says_bind (says_plain (still_ofVars _ _)) fun t _ =>
      says_mono (fun _ _ => trivial) (solveM_says cfg method lsFuel fuel eqs hc t)).1 e⟩

/-! ### negation -/

/-- The text about an indeterminate equation shows the system that was given. -/
def C106_full : Prop :=
  ∀ (cfg : Config (XNum Rat)) (A b : Mat (XNum Rat)) (e : MExc), solveLinearM cfg A b = .raised e → e.kind = .math .indeterminateEquation →
    e.what = "indeterminate equation: \"A = ".toList ++ A.toString ++ "\nb = ".toList ++ b.toString ++ "\"".toList

/-- `2x + 4y + 6z = 8` -/
def oneEq : Mat (XNum Rat) × Mat (XNum Rat) := (⟨1, 3, [.fin 2, .fin 4, .fin 6]⟩, ⟨1, 1, [.fin 8]⟩)

theorem oneEq_says : (solveLinearM defaultConfig oneEq.1 oneEq.2) = .raised (.math (mathError .indeterminateEquation
    ("A = ".toList ++ "[1,  2,  3\n 0,  0,  0\n 0,  0,  0]\n".toList ++ "\nb = ".toList ++ "[4\n 0\n 0]\n".toList))) := by decide +kernel

/-- **C106 is false in this part**: `2x + 4y + 6z = 8` is reported as `A = [1, 2, 3; 0, 0, 0; 0, 0, 0]`, `b = [4; 0; 0]`. -/
theorem C106_false : ¬ C106_full := by
  intro h
  have h := h defaultConfig oneEq.1 oneEq.2 _ oneEq_says rfl
  revert h
  decide +kernel

/-! ### cases -/

/-- `x² + 1 = 0` at 0: the Jacobian is singular, and the text has the advice -/
example : ∃ e, solveByNewtonRaphsonM defaultConfig (symOf (r := 1) (c := 1) fun _ _ => .bin .add (.bin .mul (.var ['x']) (.var ['x'])) (.num (.fin 1)))
      (oneVar 0) = .raised e ∧
    e.what = "singular matrix: \"tip: consider using different initial values\"".toList :=
  ⟨.math (mathError .singularMatrix tipText), by decide +kernel, by decide +kernel⟩

/-- the limit of iterations, at once -/
example : solveByNewtonRaphsonM { defaultConfig with maxIterations := -1 }
    (symOf (r := 1) (c := 1) fun _ _ => .bin .sub (.var ['x']) (.num (.fin 3))) (oneVar 1) = .raised (.runtime limitText) := by decide +kernel

/-- an equation without a value: `1/x` at 0 -/
example : ∃ e, solveByLMM defaultConfig 9 9 (symOf (r := 1) (c := 1) fun _ _ => .bin .div (.num (.fin 1)) (.var ['x'])) (oneVar 0) = .raised e ∧
    e.what = "invalid number: \"expression: \"1 / 0\"\"".toList ∧
    LMText defaultConfig (symOf (r := 1) (c := 1) fun _ _ => .bin .div (.num (.fin 1)) (.var ['x'])) (oneVar 0).vars e := by
  refine ⟨.math (mathError .invalidNumber ?_), ?_, ?_, C106_lm _ 9 9 _ rfl (oneVar 0) _ ?_⟩
  · exact calcInfo (α := XNum Rat) .div (.fin 1) (.fin 0)
  all_goals decide +kernel

/-- neither of the two methods -/
example : solveM { defaultConfig with nonlinearMethod := .other } "7".toList 9 9
    (symOf (r := 1) (c := 1) fun _ _ => .bin .sub (.var ['x']) (.num (.fin 3))) (oneVar 1) =
      .raised (.runtime "invalid config.NonlinearMethod value: 7".toList) := by decide +kernel

/-- a singular square system, and an overdetermined one -/
example : (∃ e, solveLinearM defaultConfig ⟨2, 2, [.fin 1, .fin 2, .fin 2, .fin 4]⟩ ⟨2, 1, [.fin 1, .fin 2]⟩ = .raised e) ∧
    ∃ e, solveLinearM defaultConfig ⟨2, 1, [.fin 1, .fin 2]⟩ ⟨2, 1, [.fin 1, .fin 2]⟩ = .raised e ∧ e.kind = .math .overDeterminedEquations :=
  ⟨⟨.math (mathError .infinitySolutions []), by decide +kernel⟩, .math (mathError .overDeterminedEquations []), by decide +kernel, rfl⟩

/-! ### conversions -/

/-- **C106** (`ToVec`): on a matrix that does not have exactly one column it throws, with this text. -/
theorem C106_toVec (m : Mat α) (hr : 0 < m.rows) :
    toVecM m = if m.cols = 1 then .plain (.ok m) else .raised (.runtime "Mat::ToVec fail. rows is not one".toList) := by
  obtain ⟨r, c, d⟩ := m
  unfold toVecM
  rw [if_neg (by simp only at hr ⊢; omega)]
  by_cases h : c = 1
  · subst h; simp
  · simp [h]

/-- **C106** (`ToMat`): it returns the numbers if all entries are numbers; if the first entry that is not a number is there at all, it throws
with this text. -/
theorem C106_toMat (m : SymMat α) (pre suf : List (Raw α)) (e : Expr α) (vs : List α) (hpre : pre = vs.map fun v => embed (.num v))
    (he : ∀ v, e ≠ .num v) (hd : m.data = pre ++ embed e :: suf) :
    toMatM m = .raised (.runtime "ToMat error: node is not number".toList) := by
  have h : mapResM numberOfM m.data = .raised (.runtime "ToMat error: node is not number".toList) := by
    rw [hd]
    subst hpre
    clear hd
    induction vs with
    | nil =>
      cases e with
      | num v => exact absurd rfl (he v)
      | var x => rfl
      | un o e => rfl
      | bin o a b => rfl
    | cons v vs ih =>
      simp only [List.map_cons, List.cons_append, mapResM]
      rw [ih]
      rfl
  unfold toMatM
  rw [h]
  rfl

example : toMatM (⟨1, 2, [embed (.num (.fin 1)), embed (.var ['x'])]⟩ : SymMat (XNum Rat)) =
    .raised (.runtime "ToMat error: node is not number".toList) :=
  C106_toMat _ [embed (.num (.fin 1))] [] (.var ['x']) [.fin 1] rfl (by simp) rfl

end Tom
