import Verif.Lemmas.Still
import Verif.Spec.SolverTexts
import Verif.Props.EvalMessages
/-
Lemmas for C106.
-/
set_option linter.unusedSectionVars false
namespace Tom
variable {α : Type} [Dbl α] {β γ : Type}

/-- every exception comes with a text, and satisfies `P` -/
def MRes.Says (P : MExc → Prop) (d : MRes β) : Prop := (∀ e, d ≠ .plain (.throw e)) ∧ ∀ e, d = .raised e → P e

theorem says_plain {P : MExc → Prop} {r : Res β} (h : r.Still) : (MRes.plain r).Says P :=
  ⟨fun e he => h e (MRes.plain.inj he), fun _ he => by cases he⟩

theorem says_raised {P : MExc → Prop} {e : MExc} (h : P e) : (MRes.raised e : MRes β).Says P :=
  ⟨fun _ he => (by cases he), fun _ he => by cases he; exact h⟩

theorem says_bind {P : MExc → Prop} {d : MRes β} {f : β → MRes γ} (h : d.Says P) (hf : ∀ b, d = .plain (.ok b) → (f b).Says P) : (d >>= f).Says P := by
  rcases d with (b | e | _ | _ | _ | _) | e
  · exact hf b rfl
  · exact absurd rfl (h.1 e)
  · exact says_plain still_ub
  · exact says_plain fun _ h => by cases h
  · exact says_plain still_assertFail
  · exact says_plain still_diverge
  · exact says_raised (h.2 e rfl)

theorem says_ite {P : MExc → Prop} {c : Prop} [Decidable c] {a b : MRes β} (ha : a.Says P) (hb : b.Says P) : (if c then a else b).Says P := by
  split <;> assumption

theorem says_mono {P Q : MExc → Prop} (hPQ : ∀ e, P e → Q e) {d : MRes β} (h : d.Says P) : d.Says Q := ⟨h.1, fun e he => hPQ e (h.2 e he)⟩

/-! ### the same outcome -/

theorem bare_forget (r : Res β) : (bare r).forget = r := by
  cases r with
  | throw e => cases e <;> rfl
  | _ => rfl

theorem retell_forget (r : MRes β) : (retell r).forget = r.forget := by
  rcases r with r | e
  · rfl
  · cases e with
    | runtime s => rfl
    | math m =>
      show (if m.getErrorType = ErrorType.singularMatrix then (MRes.raised (MExc.math (mathError .singularMatrix tipText)) : MRes β)
        else .raised (.math m)).forget = _
      by_cases h : m.getErrorType = ErrorType.singularMatrix
      · rw [if_pos h]
        show Res.throw (Exc.math (mathError ErrorType.singularMatrix tipText).getErrorType) = Res.throw (Exc.math m.getErrorType)
        rw [h]; rfl
      · rw [if_neg h]

theorem mapResM_forget {f : β → MRes γ} {g : β → Res γ} (h : ∀ b, (f b).forget = g b) (l : List β) : (mapResM f l).forget = mapRes g l := by
  induction l with
  | nil => rfl
  | cons b l ih =>
    unfold mapResM mapRes
    rw [← h b]
    refine MRes.forget_bind _ _ _ fun c => ?_
    rw [← ih]
    exact MRes.forget_bind _ _ _ fun _ => rfl

theorem solveLinearM_forget (cfg : Config α) (A b : Mat α) : (solveLinearM cfg A b).forget = solveLinear cfg A b := by
  unfold solveLinearM solveLinear
  split
  · rfl
  · refine MRes.forget_bind _ _ _ fun ret => ?_
    split
    · rfl
    · refine MRes.forget_bind _ _ _ fun ret => ?_
      conv_rhs => rw [← bare_forget (elimLoop _ _ _ _ _)]
      refine MRes.forget_bind _ _ _ fun s => ?_
      split
      · refine MRes.forget_bind _ _ _ fun A' => MRes.forget_bind _ _ _ fun b' => MRes.forget_bind _ _ _ fun Ab =>
          MRes.forget_bind _ _ _ fun ret => ?_
        split
        · split <;> rfl
        · rfl
      · refine MRes.forget_bind _ _ _ fun ret => ?_
        split <;> rfl

theorem numberOfM_forget (n : Raw α) : (numberOfM n).forget = SymMat.numberOf n := by
  rcases n with _ | ⟨ty, op, v, x, l, r⟩
  · rfl
  · cases ty <;> rfl

theorem toMatM_forget (m : SymMat α) : (toMatM m).forget = m.toMat := by
  unfold toMatM SymMat.toMat
  rw [← mapResM_forget numberOfM_forget]
  exact MRes.forget_bind _ _ _ fun _ => rfl

theorem calcList_eq (cfg : Config α) (l : List (Raw α)) :
    ((SymMat.calcList cfg l).1 >>= fun _ => Res.ok (SymMat.calcList cfg l).2) = mapRes (fun n => (vpa cfg n) >>= fun d => Res.ok (mkNum d)) l := by
  induction l with
  | nil => rfl
  | cons n l ih =>
    unfold SymMat.calcList mapRes
    unfold calcNode
    cases vpa cfg n with
    | ok d =>
      simp only [Res.bind_ok]
      rw [← ih]
      cases (SymMat.calcList cfg l).1 <;> rfl
    | _ => rfl

theorem calcChainM_forget (cfg : Config α) (m : SymMat α) : (calcChainM cfg m).forget = m.calcChain cfg := by
  have h : m.calcChain cfg = ((SymMat.calcList cfg m.data).1 >>= fun _ => Res.ok (SymMat.calcList cfg m.data).2) >>=
      fun d => Res.ok { m with data := d } := by
    unfold SymMat.calcChain SymMat.calcAll
    cases (SymMat.calcList cfg m.data).1 <;> rfl
  rw [h, calcList_eq]
  unfold calcChainM
  rw [← mapResM_forget (f := calcNodeM cfg) fun n => ?_]
  · exact MRes.forget_bind _ _ _ fun _ => rfl
  · rw [← C101_same]
    exact MRes.forget_bind _ _ _ fun _ => rfl

theorem evalMatM_forget (cfg : Config α) (m : SymMat α) (t : VarsTable α) : (evalMatM cfg m t).forget = evalMat cfg m t := by
  refine MRes.forget_bind _ _ _ fun c => MRes.forget_bind _ _ _ fun s => ?_
  rw [← calcChainM_forget]
  exact MRes.forget_bind _ _ _ fun v => toMatM_forget v

theorem toVecM_forget (m : Mat α) : (toVecM m).forget = m.toVec := by
  unfold toVecM Mat.toVec
  split
  · rfl
  · split <;> rfl

theorem evalVecM_forget (cfg : Config α) (m : SymMat α) (t : VarsTable α) : (evalVecM cfg m t).forget = evalVec cfg m t := by
  unfold evalVecM evalVec
  rw [← evalMatM_forget]
  exact MRes.forget_bind _ _ _ fun v => toVecM_forget v

theorem newtonLoopM_forget (cfg : Config α) (eqs ja : SymMat α) (fuel it : Nat) (t : VarsTable α) (q : Mat α) :
    (newtonLoopM cfg eqs ja fuel it t q).forget = newtonLoop cfg eqs ja fuel it t q := by
  induction fuel generalizing it t q with
  | zero => rfl
  | succ fuel ih =>
    unfold newtonLoopM newtonLoop
    rw [← evalVecM_forget]
    refine MRes.forget_bind _ _ _ fun phi => ?_
    split
    · rfl
    · split
      · rfl
      · rw [← evalMatM_forget]
        refine MRes.forget_bind _ _ _ fun j => ?_
        rw [← solveLinearM_forget, ← Res.bind_assoc']
        have : ((solveLinearM cfg j phi.neg).forget >>= fun dq => q.add dq) =
            (retell (do let dq ← solveLinearM cfg j phi.neg; .plain (q.add dq))).forget := by
          rw [retell_forget]
          exact (MRes.forget_bind _ _ (fun dq => q.add dq) fun _ => rfl).symm
        rw [this]
        exact MRes.forget_bind _ _ _ fun q => MRes.forget_bind _ _ _ fun t => ih _ _ _

theorem armijoLoopM_forget {f df : Mat α → MRes (Mat α)} {f' df' : Mat α → Res (Mat α)} (hf : ∀ v, (f v).forget = f' v)
    (hdf : ∀ v, (df v).forget = df' v) (x d : Mat α) (fuel : Nat) (alpha : α) :
    (armijoLoopM f df x d fuel alpha).forget = armijoLoop f' df' x d fuel alpha := by
  induction fuel generalizing alpha with
  | zero => rfl
  | succ fuel ih =>
    unfold armijoLoopM armijoLoop
    refine MRes.forget_bind _ _ _ fun xNew => ?_
    rw [← hf]
    refine MRes.forget_bind _ _ _ fun fNew => MRes.forget_bind _ _ _ fun l => ?_
    rw [← hf]
    refine MRes.forget_bind _ _ _ fun f0 => ?_
    rw [← hdf]
    refine MRes.forget_bind _ _ _ fun j => MRes.forget_bind _ _ _ fun jt => MRes.forget_bind _ _ _ fun p => MRes.forget_bind _ _ _ fun s =>
      MRes.forget_bind _ _ _ fun r => ?_
    split
    · rfl
    · exact ih _

theorem lmInnerM_forget (cfg : Config α) (lsFuel : Nat) (eqs ja : SymMat α) (q F : Mat α) (fuel : Nat) (t : VarsTable α) (mu : α) (it : Nat) :
    (lmInnerM cfg lsFuel eqs ja q F fuel t mu it).forget = lmInner cfg lsFuel eqs ja q F fuel t mu it := by
  induction fuel generalizing t mu it with
  | zero => rfl
  | succ fuel ih =>
    unfold lmInnerM lmInner
    rw [← evalMatM_forget]
    refine MRes.forget_bind _ _ _ fun j => MRes.forget_bind _ _ _ fun jt => MRes.forget_bind _ _ _ fun jtj => MRes.forget_bind _ _ _ fun z =>
      MRes.forget_bind _ _ _ fun one => MRes.forget_bind _ _ _ fun m => MRes.forget_bind _ _ _ fun g => ?_
    rw [← toVecM_forget]
    refine MRes.forget_bind _ _ _ fun g => ?_
    rw [← solveLinearM_forget]
    refine MRes.forget_bind _ _ _ fun d => ?_
    unfold armijo
    rw [← armijoLoopM_forget (f := fun v => do
        let t ← .plain (t.setValues v)
        evalVecM cfg eqs t) (df := fun v => do
        let t ← .plain (t.setValues v)
        evalMatM cfg ja t) (f' := fun v => do
        let t ← t.setValues v
        evalVec cfg eqs t) (df' := fun v => do
        let t ← t.setValues v
        evalMat cfg ja t)
      (fun v => MRes.forget_bind _ _ _ fun t => evalVecM_forget _ _ _) (fun v => MRes.forget_bind _ _ _ fun t => evalMatM_forget _ _ _)]
    refine MRes.forget_bind _ _ _ fun alpha => MRes.forget_bind _ _ _ fun qTemp => MRes.forget_bind _ _ _ fun t => ?_
    rw [← evalVecM_forget]
    refine MRes.forget_bind _ _ _ fun FNew => MRes.forget_bind _ _ _ fun nNew => MRes.forget_bind _ _ _ fun nOld => ?_
    split
    · rfl
    · split
      · rfl
      · exact ih _ _ _

theorem lmOuterM_forget (cfg : Config α) (lsFuel innerFuel : Nat) (eqs ja : SymMat α) (fuel : Nat) (t : VarsTable α) (q : Mat α) (it : Nat) :
    (lmOuterM cfg lsFuel innerFuel eqs ja fuel t q it).forget = lmOuter cfg lsFuel innerFuel eqs ja fuel t q it := by
  induction fuel generalizing t q it with
  | zero => rfl
  | succ fuel ih =>
    unfold lmOuterM lmOuter
    rw [← evalVecM_forget]
    refine MRes.forget_bind _ _ _ fun F => ?_
    split
    · rfl
    · rw [← lmInnerM_forget]
      refine MRes.forget_bind _ _ _ fun r => ?_
      obtain ⟨dq, FN, t', it'⟩ := r
      refine MRes.forget_bind _ _ _ fun q => MRes.forget_bind _ _ _ fun t => ?_
      split
      · rfl
      · exact ih _ _ _

/-! ### what is said -/

theorem elimLoop_bare_says {P : MExc → Prop} (eps : α) (fuel : Nat) (s : LinState α) (y x : Nat)
    (h : P (.math (mathError .singularMatrix []))) : (bare (elimLoop eps fuel s y x)).Says P := by
  cases hr : elimLoop eps fuel s y x with
  | throw e =>
    have := elimLoop_throws eps fuel s y x e hr
    subst this
    exact says_raised h
  | ok _ => exact says_plain (still_ok _)
  | ub => exact says_plain still_ub
  | terminate => exact says_plain fun _ h => by cases h
  | assertFail => exact says_plain still_assertFail
  | diverge => exact says_plain still_diverge

theorem text_singular : (MExc.math (mathError .singularMatrix [])).what = "singular matrix".toList := by decide +kernel
theorem text_tip : (MExc.math (mathError .singularMatrix tipText)).what =
    "singular matrix: \"tip: consider using different initial values\"".toList := by decide +kernel
theorem text_over : (MExc.math (mathError .overDeterminedEquations [])).what = "overdetermined equations".toList := by decide +kernel
theorem text_infinite : (MExc.math (mathError .infinitySolutions [])).what = "infinite solutions".toList := by decide +kernel
theorem text_limit : limitText = "迭代次数超出限制".toList := rfl

theorem what_ext (e : ErrorType) (x : Str) (h : x ≠ []) : (MExc.math (mathError e x)).what = getErrorInfo e ++ (": \"".toList ++ x ++ "\"".toList) := by
  simp only [MExc.what, mathError, MathErrorObj.what, if_neg h]

theorem text_indeterminate (A b : Mat α) :
    (MExc.math (mathError .indeterminateEquation ("A = ".toList ++ A.toString ++ "\nb = ".toList ++ b.toString))).what =
      "indeterminate equation: \"A = ".toList ++ A.toString ++ "\nb = ".toList ++ b.toString ++ "\"".toList := by
  have h1 : "indeterminate equation: \"A = ".toList = getErrorInfo .indeterminateEquation ++ (": \"".toList ++ "A = ".toList) := by decide +kernel
  have h2 : "A = ".toList ≠ [] := by decide +kernel
  have h3 : ("A = ".toList ++ A.toString ++ "\nb = ".toList ++ b.toString) ≠ [] := fun h => h2 (by
    have := List.append_eq_nil_iff.mp (List.append_eq_nil_iff.mp (List.append_eq_nil_iff.mp h).1).1
    exact this.1)
  rw [what_ext _ _ h3, h1]
  generalize "A = ".toList = u
  generalize "\nb = ".toList = v
  generalize ": \"".toList = w
  generalize "\"".toList = z
  generalize getErrorInfo _ = k
  simp only [List.append_assoc]

theorem solveLinearM_says (cfg : Config α) (A b : Mat α) : (solveLinearM cfg A b).Says (LinearText (α := α)) := by
  unfold solveLinearM
  refine says_ite (says_plain still_assertFail) (says_bind (says_plain (still_new _ _ _)) fun _ _ => says_ite
    (says_raised (.overDetermined rfl text_over)) (says_bind (says_plain (still_ite (still_resize _ _ _) (still_ok _))) fun _ _ =>
      says_bind (elimLoop_bare_says _ _ _ _ _ (.singular rfl text_singular)) fun s _ => ?_))
  refine says_ite (says_bind (says_plain (still_resize _ _ _)) fun _ _ => says_bind (says_plain (still_resize _ _ _)) fun _ _ =>
    says_bind (says_plain (still_placeRows _ _ _)) fun Ab _ => says_bind (says_plain (still_backSubst _ _ _)) fun _ _ =>
      says_ite (says_ite (says_plain (still_ok _)) (says_raised (.indeterminate Ab.1 Ab.2 rfl (text_indeterminate _ _)))) (says_plain (still_ok _)))
    (says_bind (says_plain (still_backSubst _ _ _)) fun _ _ => says_ite (says_raised (.infinite rfl text_infinite)) (says_plain (still_ok _)))

/-- a square system -/
theorem solveLinearM_says_square (cfg : Config α) (A b : Mat α) (hA : A.rows = A.cols) :
    (solveLinearM cfg A b).Says fun e => (e.kind = .math .singularMatrix ∧ e.what = "singular matrix".toList) ∨
      (e.kind = .math .infinitySolutions ∧ e.what = "infinite solutions".toList) := by
  unfold solveLinearM
  refine says_ite (says_plain still_assertFail) (says_bind (says_plain (still_new _ _ _)) fun _ _ => ?_)
  rw [if_neg (by omega)]
  refine says_bind (says_plain (still_ite (still_resize _ _ _) (still_ok _))) fun _ _ =>
      says_bind (elimLoop_bare_says _ _ _ _ _ (.inl ⟨rfl, text_singular⟩)) fun s _ => ?_
  rw [if_neg (by simpa using hA)]
  exact says_bind (says_plain (still_backSubst _ _ _)) fun _ _ => says_ite (says_raised (.inr ⟨rfl, text_infinite⟩)) (says_plain (still_ok _))

theorem mapResM_says {P : MExc → Prop} {f : β → MRes γ} (l : List β) (h : ∀ b ∈ l, (f b).Says P) : (mapResM f l).Says P := by
  induction l with
  | nil => exact says_plain (still_ok _)
  | cons b l ih => exact says_bind (h b (by simp)) fun _ _ => says_bind (ih fun c hc => h c (by simp [hc])) fun _ _ => says_plain (still_ok _)

theorem mapResM_mem {f : β → MRes γ} {l : List β} {cs : List γ} (h : mapResM f l = .plain (.ok cs)) : ∀ c ∈ cs, ∃ b ∈ l, f b = .plain (.ok c) := by
  induction l generalizing cs with
  | nil => cases h; simp
  | cons b l ih =>
    unfold mapResM at h
    cases h1 : f b with
    | raised e => rw [h1] at h; cases h
    | plain r =>
      rw [h1] at h
      cases r with
      | ok c =>
        rw [MRes.bind_ok] at h
        cases h2 : mapResM f l with
        | raised e => rw [h2] at h; cases h
        | plain r =>
          rw [h2] at h
          cases r with
          | ok cs' =>
            rw [MRes.bind_ok] at h
            cases h
            intro d hd
            rcases List.mem_cons.mp hd with rfl | hd
            · exact ⟨b, by simp, h1⟩
            · obtain ⟨b', hb', h3⟩ := ih h2 d hd
              exact ⟨b', by simp [hb'], h3⟩
          | _ => cases h
      | _ => cases h

theorem mapRes_mem {f : β → Res γ} {l : List β} {cs : List γ} (h : mapRes f l = .ok cs) : ∀ c ∈ cs, ∃ b ∈ l, f b = .ok c := by
  induction l generalizing cs with
  | nil => cases h; simp
  | cons b l ih =>
    obtain ⟨c, h1, h⟩ := Res.bind_eq_ok.mp h
    obtain ⟨cs', h2, h⟩ := Res.bind_eq_ok.mp h
    cases h
    intro d hd
    rcases List.mem_cons.mp hd with rfl | hd
    · exact ⟨b, by simp, h1⟩
    · obtain ⟨b', hb', h3⟩ := ih h2 d hd
      exact ⟨b', by simp [hb'], h3⟩

theorem says_told {P Q : MExc → Prop} {d : MRes β} (h : d.Says P) (hq : ∀ e, d = .raised e → Q e) : d.Says Q := ⟨h.1, hq⟩

theorem calcOpM_told (cfg : Config α) (op : MathOp) (x y : α) : (calcOpM cfg op x y).Says fun _ => True := by
  unfold calcOpM
  refine says_bind (says_plain ?_) fun v _ => says_ite (says_plain (still_ok _)) (says_ite (says_raised trivial) (says_plain (still_ok _)))
  intro e
  unfold calcRaw
  cases op <;> simp only <;> first | (intro h; cases h; done) | (repeat' split) <;> (intro h; cases h)

theorem vpaM_told (cfg : Config α) (n : Raw α) : (vpaM cfg n).Says fun _ => True := by
  have hI : ∀ fuel (stk out : List (Raw α)), (vpaPartI fuel stk out).Still := by
    intro fuel
    induction fuel with
    | zero => intro stk out; cases stk <;> first | exact still_ok _ | exact still_diverge
    | succ fuel ih =>
      intro stk out
      cases stk with
      | nil => exact still_ok _
      | cons n stk => exact ih _ _
  have hS : ∀ (st : List α) (n : Raw α), (vpaStepM cfg st n).Says fun _ => True := by
    intro st n
    rcases n with _ | ⟨ty, op, v, x, l, r⟩
    · exact says_plain still_ub
    cases ty with
    | number => exact says_plain (still_ok _)
    | «variable» => exact says_raised trivial
    | operator =>
      show (match operatorNum op with
        | 1 => _
        | 2 => _
        | _ => _ : MRes (List α)).Says _
      split
      · cases st with
        | nil => exact says_plain still_ub
        | cons a st => exact says_bind (calcOpM_told _ _ _ _) fun _ _ => says_plain (still_ok _)
      · rcases st with _ | ⟨a, _ | ⟨b, st⟩⟩
        · exact says_plain still_ub
        · exact says_plain still_ub
        · exact says_bind (calcOpM_told _ _ _ _) fun _ _ => says_plain (still_ok _)
      · exact says_plain still_assertFail
  have hII : ∀ (ns : List (Raw α)) (st : List α), (vpaPartIIM cfg ns st).Says fun _ => True := by
    intro ns
    induction ns with
    | nil => intro st; exact says_plain (still_ok _)
    | cons n ns ih => intro st; exact says_bind (hS st n) fun st _ => ih st
  unfold vpaM
  refine says_ite (says_bind (says_plain (hI _ _ _)) fun order _ => says_bind (hII _ _) fun st _ => ?_) (says_plain still_ub)
  rcases st with _ | ⟨a, _ | ⟨b, st⟩⟩ <;> first | exact says_plain (still_ok _) | exact says_plain still_assertFail

theorem noexcept_eq_ok {r : Res β} {b : β} (h : r.noexcept = .ok b) : r = .ok b := by
  cases r <;> first | (cases h; rfl) | cases h

/-- Evaluating all expressions of a matrix: exceptions come from one of them. -/
theorem evalMatM_says (cfg : Config α) (m : SymMat α) (t : VarsTable α) : (evalMatM cfg m t).Says (RaisedIn cfg t.vars m) := by
  unfold evalMatM
  refine says_bind (says_plain (still_symClone _)) fun c hc => says_bind (says_plain (still_noexcept _)) fun s hs => says_bind ?_ fun v hv => ?_
  · refine says_bind (mapResM_says _ fun n hn => ?_) fun _ _ => says_plain (still_ok _)
    have hc' := MRes.plain.inj hc
    have hs' := MRes.plain.inj hs
    unfold SymMat.clone at hc'
    split at hc'
    swap
    · cases hc'
    obtain ⟨d, h1, h2⟩ := Res.bind_eq_ok.mp hc'
    cases h2
    obtain ⟨d', h3, h4⟩ := Res.bind_eq_ok.mp (noexcept_eq_ok hs')
    cases h4
    obtain ⟨c, hcm, h5⟩ := mapRes_mem h3 n hn
    obtain ⟨n0, hn0, h6⟩ := mapRes_mem h1 c hcm
    refine says_bind (says_told (vpaM_told cfg n) fun e he => ?_) fun _ _ => says_plain (still_ok _)
    exact ⟨t, rfl, n0, hn0, c, n, h6, h5, he⟩
  · refine says_bind (mapResM_says _ fun n hn => ?_) fun _ _ => says_plain (still_ok _)
    unfold calcChainM at hv
    cases hd : mapResM (calcNodeM cfg) s.data with
    | raised e => rw [hd] at hv; cases hv
    | plain r =>
      rw [hd] at hv
      cases r with
      | ok d =>
        rw [MRes.bind_ok] at hv
        cases hv
        obtain ⟨b, -, hb⟩ := mapResM_mem hd n hn
        unfold calcNodeM at hb
        cases hv : vpaM cfg b with
        | raised e => rw [hv] at hb; cases hb
        | plain r =>
          rw [hv] at hb
          cases r with
          | ok x => rw [MRes.bind_ok] at hb; cases hb; exact says_plain (still_ok _)
          | _ => cases hb
      | _ => cases hv

theorem plain_forget {d : MRes β} {b : β} (h : d = .plain (.ok b)) : d.forget = .ok b := by rw [h]; rfl

theorem evalMat_cols {cfg : Config α} {m : SymMat α} {t : VarsTable α} {M : Mat α} (h : evalMat cfg m t = .ok M) : M.cols = m.cols := by
  obtain ⟨c, h1, h⟩ := Res.bind_eq_ok.mp h
  obtain ⟨s, h2, h⟩ := Res.bind_eq_ok.mp h
  obtain ⟨v, h3, h⟩ := Res.bind_eq_ok.mp h
  obtain ⟨d, h4, h⟩ := Res.bind_eq_ok.mp h
  cases h
  unfold SymMat.clone at h1
  split at h1
  swap
  · cases h1
  obtain ⟨d1, -, h1⟩ := Res.bind_eq_ok.mp h1
  cases h1
  obtain ⟨d2, -, h2⟩ := Res.bind_eq_ok.mp (noexcept_eq_ok h2)
  cases h2
  obtain ⟨_, -, h3⟩ := Res.bind_eq_ok.mp h3
  cases h3
  rfl

theorem evalVecM_says (cfg : Config α) (m : SymMat α) (hm : m.cols = 1) (t : VarsTable α) : (evalVecM cfg m t).Says (RaisedIn cfg t.vars m) := by
  refine says_bind (evalMatM_says cfg m t) fun M hM => ?_
  have h := plain_forget hM
  rw [evalMatM_forget] at h
  have hc := (evalMat_cols h).trans hm
  unfold toVecM
  refine says_ite (says_plain still_assertFail) ?_
  rw [if_neg (by simpa using hc)]
  exact says_plain (still_ok _)

theorem evalVecM_cols {cfg : Config α} {m : SymMat α} {t : VarsTable α} {M : Mat α} (h : evalVecM cfg m t = .plain (.ok M)) : M.cols = 1 := by
  have h := plain_forget h
  rw [evalVecM_forget] at h
  obtain ⟨_, -, h⟩ := Res.bind_eq_ok.mp h
  unfold Mat.toVec at h
  split at h
  · cases h
  · split at h
    · cases h
    · cases h; rfl

theorem setValues_vars {t t' : VarsTable α} {v : Mat α} (h : t.setValues v = .ok t') : t'.vars = t.vars := by
  unfold VarsTable.setValues at h
  split at h
  · obtain ⟨_, -, h⟩ := Res.bind_eq_ok.mp h
    cases h; rfl
  · cases h

end Tom
