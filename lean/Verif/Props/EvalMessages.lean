import Verif.Model.EvalMessages
import Verif.Spec.FirstFailure
import Verif.Lemmas.Tree
import Verif.Props.Format
import Verif.Model.Double
/-
C101: the error of an evaluation names the first operation that gives inf or nan, with the values of its operands.
-/
set_option linter.unusedSectionVars false
namespace Tom
variable {α : Type} [Dbl α]

/-! ### sequencing -/

namespace MRes
@[simp] theorem bind_ok {β γ : Type} (b : β) (f : β → MRes γ) : ((plain (.ok b) : MRes β) >>= f) = f b := rfl
@[simp] theorem bind_raised {β γ : Type} (e : MExc) (f : β → MRes γ) : ((raised e : MRes β) >>= f) = raised e := rfl

theorem forget_bind {β γ : Type} (d : MRes β) (f : β → MRes γ) (g : β → Res γ) (h : ∀ b, (f b).forget = g b) :
    (d >>= f).forget = (d.forget >>= g) := by
  rcases d with (b | _ | _ | _ | _ | _) | e
  · exact h b
  all_goals rfl

theorem bind_assoc' {β γ δ : Type} (d : MRes β) (f : β → MRes γ) (g : γ → MRes δ) : ((d >>= f) >>= g) = (d >>= fun b => f b >>= g) := by
  rcases d with (b | _ | _ | _ | _ | _) | e <;> rfl

end MRes

/-! ### the same outcome -/

theorem calcOpM_forget (cfg : Config α) (op : MathOp) (x y : α) : (calcOpM cfg op x y).forget = calcOp cfg op x y := by
  refine MRes.forget_bind _ _ _ fun b => ?_
  split
  · rfl
  · split <;> rfl

theorem vpaStepM_forget (cfg : Config α) (st : List α) (n : Raw α) : (vpaStepM cfg st n).forget = vpaStep cfg st n := by
  rcases n with _ | ⟨ty, op, v, x, l, r⟩
  · rfl
  rcases ty with _ | _ | _
  · rfl
  swap
  · rfl
  · have h1 : ∀ (a b : α) (st : List α), (calcOpM cfg op a b >>= fun v => (.plain (.ok (v :: st)) : MRes (List α))).forget =
        (calcOp cfg op a b >>= fun v => .ok (v :: st)) := by
      intro a b st
      rw [← calcOpM_forget]
      exact MRes.forget_bind _ _ _ fun _ => rfl
    cases op
    all_goals
      first
      | rfl
      | rcases st with _ | ⟨a, _ | ⟨b, st⟩⟩ <;> first | rfl | exact h1 _ _ _

theorem vpaPartIIM_forget (cfg : Config α) (ns : List (Raw α)) (st : List α) :
    (vpaPartIIM cfg ns st).forget = vpaPartII cfg ns st := by
  induction ns generalizing st with
  | nil => rfl
  | cons n ns ih =>
    unfold vpaPartIIM vpaPartII
    rw [← vpaStepM_forget]
    exact MRes.forget_bind _ _ _ fun st => ih st

/-- **C101** (the model with texts is the model without them): apart from the text of the exception, evaluation is `vpa`. -/
theorem C101_same (cfg : Config α) (t : Raw α) : (vpaM cfg t).forget = vpa cfg t := by
  unfold vpaM vpa
  split
  · refine MRes.forget_bind _ _ _ fun order => ?_
    rw [← vpaPartIIM_forget]
    refine MRes.forget_bind _ _ _ fun st => ?_
    rcases st with _ | ⟨a, _ | ⟨b, st⟩⟩ <;> rfl
  · rfl

/-! ### recursively -/

/-- evaluation, recursively, with the texts -/
def evalM (cfg : Config α) : Expr α → MRes α
  | .num v => .plain (.ok v)
  | .var _ => .raised (.runtime "wrong".toList)
  | .un o e => do
    let v ← evalM cfg e
    calcOpM cfg o.toMathOp v Dbl.nan
  | .bin o a b => do
    let x ← evalM cfg a
    let y ← evalM cfg b
    calcOpM cfg o.toMathOp x y

theorem vpaPartIIM_append (cfg : Config α) (xs ys : List (Raw α)) (st : List α) :
    vpaPartIIM cfg (xs ++ ys) st = (vpaPartIIM cfg xs st >>= fun st => vpaPartIIM cfg ys st) := by
  induction xs generalizing st with
  | nil => simp [vpaPartIIM]
  | cons x xs ih =>
    simp only [List.cons_append, vpaPartIIM]
    rw [MRes.bind_assoc']
    congr 1
    funext st
    exact ih st

theorem vpaPartIIM_postorder (cfg : Config α) (e : Expr α) (st : List α) :
    vpaPartIIM cfg (postorder (embed e)) st = (evalM cfg e >>= fun v => .plain (.ok (v :: st))) := by
  induction e generalizing st with
  | num v => simp [embed, postorder, vpaPartIIM, vpaStepM, evalM]
  | var x => simp [embed, postorder, vpaPartIIM, vpaStepM, evalM]
  | un o e ih =>
    simp only [embed, postorder, vpaPartIIM_append, ih, evalM, MRes.bind_assoc', List.append_nil]
    congr 1; funext v
    simp only [MRes.bind_ok, vpaPartIIM, vpaStepM, UnOp.operatorNum_toMathOp, MRes.bind_assoc']
  | bin o a b iha ihb =>
    simp only [embed, postorder, vpaPartIIM_append, iha, ihb, evalM, MRes.bind_assoc']
    congr 1; funext x
    simp only [MRes.bind_ok, MRes.bind_assoc']
    congr 1; funext y
    simp only [MRes.bind_ok, vpaPartIIM, vpaStepM, BinOp.operatorNum_toMathOp, MRes.bind_assoc']

theorem vpaM_eq (cfg : Config α) (e : Expr α) : vpaM cfg (embed e) = evalM cfg e := by
  unfold vpaM
  rw [if_pos (embed_isSome e), vpaPartI_eq _ _ _ (by simp) (by simp [sizes])]
  simp only [List.reverse_cons, List.reverse_nil, List.nil_append, List.map_cons, List.map_nil, List.flatten_cons, List.flatten_nil,
    List.append_nil, MRes.bind_ok, vpaPartIIM_postorder, MRes.bind_assoc']
  rcases evalM cfg e with (b | _ | _ | _ | _ | _) | e <;> rfl

/-! ### the first failure -/

/-- what an operation whose operands have values does -/
def localRun (cfg : Config α) : Expr α → MRes α
  | .num v => .plain (.ok v)
  | .var _ => .raised (.runtime "wrong".toList)
  | .un o e =>
    match e.eval cfg.throwOnInvalidValue noEnv with
    | .ok v => calcOpM cfg o.toMathOp v Dbl.nan
    | _ => .plain .ub
  | .bin o a b =>
    match a.eval cfg.throwOnInvalidValue noEnv, b.eval cfg.throwOnInvalidValue noEnv with
    | .ok x, .ok y => calcOpM cfg o.toMathOp x y
    | _, _ => .plain .ub

theorem evalM_forget (cfg : Config α) (e : Expr α) : (evalM cfg e).forget = e.eval cfg.throwOnInvalidValue noEnv := by
  rw [← vpaM_eq, C101_same, vpa_embed]

theorem evalM_ok (cfg : Config α) (e : Expr α) (v : α) :
    evalM cfg e = .plain (.ok v) ↔ e.eval cfg.throwOnInvalidValue noEnv = .ok v := by
  rw [← evalM_forget]
  rcases evalM cfg e with r | x
  · simp [MRes.forget]
  · simp [MRes.forget]

theorem parts_hasValue (strict : Bool) (e : Expr α) (h : e.HasValue strict) : ∀ p ∈ e.parts, p.HasValue strict := by
  induction e with
  | num v => intro p hp; simp [Expr.parts] at hp; subst hp; exact h
  | var x => intro p hp; simp [Expr.parts] at hp; subst hp; exact h
  | un o e ih =>
    intro p hp
    simp only [Expr.parts, List.mem_append, List.mem_singleton] at hp
    rcases hp with hp | rfl
    · obtain ⟨v, hv⟩ := h
      obtain ⟨w, h1, _⟩ := Res.bind_eq_ok.mp hv
      exact ih ⟨w, h1⟩ p hp
    · exact h
  | bin o a b iha ihb =>
    intro p hp
    simp only [Expr.parts, List.mem_append, List.mem_singleton] at hp
    rcases hp with (hp | hp) | rfl
    · obtain ⟨v, hv⟩ := h
      obtain ⟨w, h1, _⟩ := Res.bind_eq_ok.mp hv
      exact iha ⟨w, h1⟩ p hp
    · obtain ⟨v, hv⟩ := h
      obtain ⟨w, h1, hv⟩ := Res.bind_eq_ok.mp hv
      obtain ⟨w', h2, _⟩ := Res.bind_eq_ok.mp hv
      exact ihb ⟨w', h2⟩ p hp
    · exact h

/-- at `s` the evaluation of `e` stops: everything before has a value -/
def StopsAt (strict : Bool) (e s : Expr α) : Prop :=
  ∃ pre post, e.parts = pre ++ s :: post ∧ (∀ p ∈ pre, p.HasValue strict) ∧ ¬ s.HasValue strict

theorem StopsAt.unique {strict : Bool} {e s s' : Expr α} (h : StopsAt strict e s) (h' : StopsAt strict e s') : s = s' := by
  obtain ⟨pre, post, h1, h2, h3⟩ := h
  obtain ⟨pre', post', h1', h2', h3'⟩ := h'
  rw [h1] at h1'
  clear h1
  revert h1' h2'
  induction pre generalizing pre' with
  | nil =>
    intro h1' h2'
    cases pre' with
    | nil => exact (List.cons.inj h1').1
    | cons p pre' =>
      obtain ⟨rfl, _⟩ := List.cons.inj h1'
      exact absurd (h2' _ List.mem_cons_self) h3
  | cons p pre ih =>
    intro h1' h2'
    cases pre' with
    | nil =>
      obtain ⟨rfl, _⟩ := List.cons.inj h1'
      exact absurd (h2 _ List.mem_cons_self) h3'
    | cons q pre' =>
      exact ih (fun x hx => h2 x (List.mem_cons_of_mem _ hx)) pre' (List.cons.inj h1').2
        (fun x hx => h2' x (List.mem_cons_of_mem _ hx))

theorem not_ok_bind' {β : Type} {d : MRes β} (h : ¬ ∃ b, d = .plain (.ok b)) (f : β → MRes β) : (d >>= f) = d := by
  rcases d with (b | e | _ | _ | _ | _) | e
  · exact absurd ⟨b, rfl⟩ h
  all_goals rfl

theorem hasValue_iff (cfg : Config α) (e : Expr α) : e.HasValue cfg.throwOnInvalidValue ↔ ∃ v, evalM cfg e = .plain (.ok v) := by
  constructor
  · rintro ⟨v, h⟩; exact ⟨v, (evalM_ok cfg e v).mpr h⟩
  · rintro ⟨v, h⟩; exact ⟨v, (evalM_ok cfg e v).mp h⟩

/-- If the expression has no value, its evaluation ends at the first part without a value, with the outcome of this part. -/
theorem evalM_stops (cfg : Config α) (e : Expr α) (h : ¬ e.HasValue cfg.throwOnInvalidValue) :
    ∃ s, StopsAt cfg.throwOnInvalidValue e s ∧ localRun cfg s = evalM cfg e := by
  induction e with
  | num v => exact absurd ⟨v, rfl⟩ h
  | var x => exact ⟨.var x, ⟨[], [], rfl, by simp, h⟩, rfl⟩
  | un o e ih =>
    by_cases he : e.HasValue cfg.throwOnInvalidValue
    · refine ⟨.un o e, ⟨e.parts, [], rfl, parts_hasValue _ _ he, h⟩, ?_⟩
      obtain ⟨v, hv⟩ := he
      simp only [localRun, hv, evalM, (evalM_ok cfg e v).mpr hv, MRes.bind_ok]
    · obtain ⟨s, ⟨pre, post, h1, h2, h3⟩, h4⟩ := ih he
      refine ⟨s, ⟨pre, post ++ [.un o e], ?_, h2, h3⟩, ?_⟩
      · simp [Expr.parts, h1]
      · rw [h4, evalM, not_ok_bind' (fun hx => he ((hasValue_iff cfg e).mpr hx))]
  | bin o a b iha ihb =>
    by_cases ha : a.HasValue cfg.throwOnInvalidValue
    · obtain ⟨x, hx⟩ := id ha
      by_cases hb : b.HasValue cfg.throwOnInvalidValue
      · refine ⟨.bin o a b, ⟨a.parts ++ b.parts, [], rfl, ?_, h⟩, ?_⟩
        · intro p hp
          rcases List.mem_append.mp hp with hp | hp
          · exact parts_hasValue _ _ ha p hp
          · exact parts_hasValue _ _ hb p hp
        · obtain ⟨y, hy⟩ := hb
          simp only [localRun, hx, hy, evalM, (evalM_ok cfg a x).mpr hx, (evalM_ok cfg b y).mpr hy, MRes.bind_ok]
      · obtain ⟨s, ⟨pre, post, h1, h2, h3⟩, h4⟩ := ihb hb
        refine ⟨s, ⟨a.parts ++ pre, post ++ [.bin o a b], ?_, ?_, h3⟩, ?_⟩
        · simp [Expr.parts, h1]
        · intro p hp
          rcases List.mem_append.mp hp with hp | hp
          · exact parts_hasValue _ _ ha p hp
          · exact h2 p hp
        · rw [h4, evalM, (evalM_ok cfg a x).mpr hx, MRes.bind_ok, not_ok_bind' (fun hx => hb ((hasValue_iff cfg b).mpr hx))]
    · obtain ⟨s, ⟨pre, post, h1, h2, h3⟩, h4⟩ := iha ha
      refine ⟨s, ⟨pre, post ++ (b.parts ++ [.bin o a b]), ?_, h2, h3⟩, ?_⟩
      · simp [Expr.parts, h1]
      · rw [h4, evalM, not_ok_bind' (fun hx => ha ((hasValue_iff cfg a).mpr hx))]

theorem StopsAt.no_value {strict : Bool} {e s : Expr α} (h : StopsAt strict e s) : ¬ e.HasValue strict := by
  obtain ⟨pre, post, h1, _, h3⟩ := h
  exact fun he => h3 (parts_hasValue _ _ he s (h1 ▸ by simp))

theorem evalM_eq_iff (cfg : Config α) (e : Expr α) (r : MExc) :
    evalM cfg e = .raised r ↔ ∃ s, StopsAt cfg.throwOnInvalidValue e s ∧ localRun cfg s = .raised r := by
  constructor
  · intro h
    have hv : ¬ e.HasValue cfg.throwOnInvalidValue := by
      rintro ⟨v, hv⟩
      rw [(evalM_ok cfg e v).mpr hv] at h
      cases h
    obtain ⟨s, h1, h2⟩ := evalM_stops cfg e hv
    exact ⟨s, h1, h2.trans h⟩
  · rintro ⟨s, h1, h2⟩
    obtain ⟨s', h3, h4⟩ := evalM_stops cfg e h1.no_value
    obtain rfl := h1.unique h3
    exact h4.symm.trans h2

theorem calcRaw_un (o : UnOp) (x y : α) : calcRaw o.toMathOp x y = .ok (o.apply x) := by cases o <;> rfl

theorem calcRaw_bin (o : BinOp) (x y : α) : calcRaw o.toMathOp x y = (match o.apply x y with | some v => .ok v | none => .ub) := by
  cases o with
  | add => rfl
  | sub => rfl
  | mul => rfl
  | div => rfl
  | pow => rfl
  | and =>
    simp only [calcRaw, BinOp.apply, BinOp.toMathOp]
    rcases Dbl.toInt32 x with _ | a <;> rcases Dbl.toInt32 y with _ | b <;> simp
  | or =>
    simp only [calcRaw, BinOp.apply, BinOp.toMathOp]
    rcases Dbl.toInt32 x with _ | a <;> rcases Dbl.toInt32 y with _ | b <;> simp
  | mod =>
    simp only [calcRaw, BinOp.apply, BinOp.toMathOp]
    rcases Dbl.toInt32 x with _ | a <;> rcases Dbl.toInt32 y with _ | b
    · simp
    · simp
    · simp
    · by_cases hb : b = 0
      · simp [hb]
      · by_cases hab : a = -2147483648 ∧ b = -1
        · simp [hab]
        · simp [hb, hab]

theorem text_un (o : UnOp) : o.toMathOp.toStr = o.text := by cases o <;> rfl
theorem text_bin (o : BinOp) : o.toMathOp.toStr = [o.char] := by cases o <;> rfl

theorem blank_text : " ".toList = [' '] := by decide

theorem calcInfo_un (o : UnOp) (v w : α) :
    calcInfo o.toMathOp v w = "expression: \"".toList ++ sentence [o.text, Dbl.toStr v] ++ "\"".toList := by
  have h : o.text ++ " ".toList ++ Dbl.toStr v = sentence [o.text, Dbl.toStr v] := by
    rw [blank_text, List.append_assoc]; rfl
  unfold calcInfo
  rw [UnOp.operatorNum_toMathOp, if_pos rfl, text_un, h]

theorem calcInfo_bin (o : BinOp) (v w : α) :
    calcInfo o.toMathOp v w = "expression: \"".toList ++ sentence [Dbl.toStr v, [o.char], Dbl.toStr w] ++ "\"".toList := by
  have h : Dbl.toStr v ++ " ".toList ++ [o.char] ++ " ".toList ++ Dbl.toStr w = sentence [Dbl.toStr v, [o.char], Dbl.toStr w] := by
    rw [blank_text, List.append_assoc, List.append_assoc, List.append_assoc]; rfl
  unfold calcInfo
  rw [BinOp.operatorNum_toMathOp, if_neg (by decide), text_bin, h]

attribute [local irreducible] mathError in
theorem localRun_raised (cfg : Config α) (s : Expr α) (hs : ¬ s.HasValue cfg.throwOnInvalidValue) (r : MExc) :
    localRun cfg s = .raised r ↔
      (∃ x, s = .var x ∧ r = .runtime "wrong".toList) ∨
      cfg.throwOnInvalidValue = true ∧ ∃ ws, Invalid s ws ∧
        r = .math (mathError .invalidNumber ("expression: \"".toList ++ sentence ws ++ "\"".toList)) := by
  cases s with
  | num v => exact absurd ⟨v, rfl⟩ hs
  | var x =>
    constructor
    · rintro ⟨⟩
      exact .inl ⟨x, rfl, rfl⟩
    · rintro (⟨y, h1, rfl⟩ | ⟨_, ws, h1, _⟩)
      · rfl
      · cases h1
  | un o e =>
    constructor
    · intro h
      refine .inr ?_
      simp only [localRun] at h
      split at h
      · rename_i v hv
        unfold calcOpM at h
        rw [calcRaw_un, MRes.bind_ok] at h
        split at h
        · cases h
        · rename_i hc
          have hc : cfg.throwOnInvalidValue = true := by simpa using hc
          split at h
          · rename_i hi
            refine ⟨hc, _, .un (by rw [← hc]; exact hv) hi, ?_⟩
            rw [← calcInfo_un o v Dbl.nan]
            exact (MRes.raised.inj h).symm
          · cases h
      · cases h
    · rintro (⟨y, h1, _⟩ | ⟨hc, ws, h1, rfl⟩)
      · cases h1
      · cases h1 with
        | un h1 h2 =>
          simp only [localRun, h1, calcOpM, calcRaw_un, MRes.bind_ok, hc, h2, if_true, Bool.true_eq_false, if_false, calcInfo_un]
  | bin o a b =>
    constructor
    · intro h
      refine .inr ?_
      simp only [localRun] at h
      split at h
      · rename_i x y hx hy
        unfold calcOpM at h
        rw [calcRaw_bin] at h
        cases hv : o.apply x y with
        | none => rw [hv] at h; cases h
        | some v =>
          rw [hv] at h
          simp only [MRes.bind_ok] at h
          split at h
          · cases h
          · rename_i hc
            have hc : cfg.throwOnInvalidValue = true := by simpa using hc
            split at h
            · rename_i hi
              refine ⟨hc, _, .bin (by rw [← hc]; exact hx) (by rw [← hc]; exact hy) hv hi, ?_⟩
              rw [← calcInfo_bin]
              exact (MRes.raised.inj h).symm
            · cases h
      · cases h
    · rintro (⟨y, h1, _⟩ | ⟨hc, ws, h1, rfl⟩)
      · cases h1
      · cases h1 with
        | bin h1 h2 h3 h4 =>
          simp only [localRun, h1, h2, calcOpM, calcRaw_bin, h3, MRes.bind_ok, hc, h4, if_true, Bool.true_eq_false, if_false, calcInfo_bin]

theorem Invalid.no_value {s : Expr α} {ws : List Str} (h : Invalid s ws) : ¬ s.HasValue true := by
  rintro ⟨v, hv⟩
  cases h with
  | un h1 h2 =>
    simp only [Expr.eval, h1, Res.bind_ok, checked, h2, Bool.and_self, if_true] at hv
    cases hv
  | bin h1 h2 h3 h4 =>
    simp only [Expr.eval, h1, h2, h3, Res.bind_ok, checked, h4, Bool.and_self, if_true] at hv
    cases hv

/-- **C101.** `Vpa` throws a `MathError` exactly if invalid values are errors and there is an operation that gives inf or nan although all
the parts evaluated before it have values; the error is then "invalid number" and its text names the first such operation and the values of
its operands. -/
theorem C101_first (cfg : Config α) (e : Expr α) (m : MathErrorObj) :
    vpaM cfg (embed e) = .raised (.math m) ↔ cfg.throwOnInvalidValue = true ∧ ∃ pre s post ws, e.parts = pre ++ s :: post ∧
      (∀ p ∈ pre, p.HasValue true) ∧ Invalid s ws ∧ m.getErrorType = .invalidNumber ∧
      m.what = "invalid number: \"expression: \"".toList ++ sentence ws ++ "\"\"".toList := by
  have hm : ∀ ws, MExc.math m = .math (mathError .invalidNumber ("expression: \"".toList ++ sentence ws ++ "\"".toList)) ↔
      m.getErrorType = .invalidNumber ∧ m.what = "invalid number: \"expression: \"".toList ++ sentence ws ++ "\"\"".toList := by
    intro ws
    have h1 : mathError .invalidNumber ("expression: \"".toList ++ sentence ws ++ "\"".toList) =
        ⟨.invalidNumber, "invalid number: \"expression: \"".toList ++ sentence ws ++ "\"\"".toList⟩ := by
      have h2 : "expression: \"".toList ++ sentence ws ++ "\"".toList ≠ [] := by simp
      have h3 : "invalid number: \"expression: \"".toList = "invalid number".toList ++ (": \"".toList ++ "expression: \"".toList) := by decide
      have h4 : "\"\"".toList = "\"".toList ++ "\"".toList := by decide
      have h5 : getErrorInfo .invalidNumber ++ (": \"".toList ++ ("expression: \"".toList ++ sentence ws ++ "\"".toList) ++ "\"".toList) =
          "invalid number: \"expression: \"".toList ++ sentence ws ++ "\"\"".toList := by
        rw [h3, h4]
        unfold getErrorInfo
        generalize "invalid number".toList = q1
        generalize ": \"".toList = q2
        generalize "expression: \"".toList = q3
        generalize "\"".toList = q4
        rw [List.append_assoc, List.append_assoc, List.append_assoc, List.append_assoc, List.append_assoc, List.append_assoc]
      unfold mathError
      rw [← h5]
      refine congrArg _ ?_
      exact if_neg h2
    rw [h1]
    obtain ⟨a, b⟩ := m
    simp [MathErrorObj.getErrorType, MathErrorObj.what]
  rw [vpaM_eq, evalM_eq_iff]
  constructor
  · rintro ⟨s, hs, h⟩
    obtain ⟨pre, post, h1, h2, h3⟩ := hs
    rcases (localRun_raised cfg s h3 _).mp h with ⟨x, _, h⟩ | ⟨hc, ws, h4, h5⟩
    · cases h
    · obtain ⟨h6, h7⟩ := (hm ws).mp h5
      rw [hc] at h2
      exact ⟨hc, pre, s, post, ws, h1, h2, h4, h6, h7⟩
  · rintro ⟨hc, pre, s, post, ws, h1, h2, h3, h4, h5⟩
    have h6 : ¬ s.HasValue cfg.throwOnInvalidValue := by rw [hc]; exact h3.no_value
    refine ⟨s, ⟨pre, post, h1, by rw [hc]; exact h2, h6⟩, ?_⟩
    exact (localRun_raised cfg s h6 _).mpr (.inr ⟨hc, ws, h3, (hm ws).mpr ⟨h4, h5⟩⟩)

/-- **C101**, the other exception: `Vpa` throws a `std::runtime_error` exactly if a variable comes before any failure; its text is
`wrong`. -/
theorem C101_runtime (cfg : Config α) (e : Expr α) (w : Str) :
    vpaM cfg (embed e) = .raised (.runtime w) ↔ w = "wrong".toList ∧ ∃ pre x post, e.parts = pre ++ .var x :: post ∧
      ∀ p ∈ pre, p.HasValue cfg.throwOnInvalidValue := by
  rw [vpaM_eq, evalM_eq_iff]
  have hx : ∀ x, ¬ (.var x : Expr α).HasValue cfg.throwOnInvalidValue := by rintro x ⟨v, hv⟩; cases hv
  constructor
  · rintro ⟨s, ⟨pre, post, h1, h2, h3⟩, h⟩
    rcases (localRun_raised cfg s h3 _).mp h with ⟨x, rfl, h⟩ | ⟨hc, ws, h4, h5⟩
    · cases h
      exact ⟨rfl, pre, x, post, h1, h2⟩
    · cases h5
  · rintro ⟨rfl, pre, x, post, h1, h2⟩
    exact ⟨.var x, ⟨pre, post, h1, h2, hx x⟩, rfl⟩

/-! ### reading the message -/

theorem blank_split {a b a' b' : Str} (ha : ' ' ∉ a) (ha' : ' ' ∉ a') (h : a ++ ' ' :: b = a' ++ ' ' :: b') : a = a' ∧ b = b' := by
  induction a generalizing a' with
  | nil =>
    cases a' with
    | nil => exact ⟨rfl, (List.cons.inj h).2⟩
    | cons c a' =>
      obtain ⟨rfl, _⟩ := List.cons.inj h
      exact absurd List.mem_cons_self ha'
  | cons c a ih =>
    cases a' with
    | nil =>
      obtain ⟨rfl, _⟩ := List.cons.inj h
      exact absurd List.mem_cons_self ha
    | cons d a' =>
      obtain ⟨rfl, h'⟩ := List.cons.inj h
      obtain ⟨rfl, rfl⟩ := ih (fun hm => ha (List.mem_cons_of_mem _ hm)) (fun hm => ha' (List.mem_cons_of_mem _ hm)) h'
      exact ⟨rfl, rfl⟩

theorem text_no_blank (o : UnOp) : ' ' ∉ o.text := by cases o <;> decide

theorem char_no_blank (o : BinOp) : ' ' ∉ [o.char] := by cases o <;> decide

/-- The operation of an expression that is one. -/
def Expr.op? : Expr α → Option (UnOp ⊕ BinOp)
  | .un o _ => some (.inl o)
  | .bin o _ _ => some (.inr o)
  | _ => none

/-- **C101** (the text is unambiguous): if numbers are written without blanks, the text determines the operation and how the operands are
written. -/
theorem C101_unambiguous (hb : ∀ v : α, ' ' ∉ Dbl.toStr v) {s s' : Expr α} {ws ws' : List Str} (h : Invalid s ws) (h' : Invalid s' ws')
    (ht : sentence ws = sentence ws') : ws = ws' ∧ s.op? = s'.op? := by
  cases h with
  | un h1 h2 =>
    cases h' with
    | un h1' h2' =>
      simp only [sentence] at ht
      obtain ⟨h3, h4⟩ := blank_split (text_no_blank _) (text_no_blank _) ht
      have h5 : ∀ o o' : UnOp, o.text = o'.text → o = o' := by intro o o'; cases o <;> cases o' <;> decide
      rw [h3, h4, h5 _ _ h3]
      exact ⟨rfl, rfl⟩
    | bin h1' h2' h3' h4' =>
      simp only [sentence] at ht
      obtain ⟨_, h4⟩ := blank_split (text_no_blank _) (hb _) ht
      rename_i v _ _ _ _ _ _ _
      have h5 := hb v
      rw [h4] at h5
      simp at h5
  | bin h1 h2 h3 h4 =>
    cases h' with
    | un h1' h2' =>
      simp only [sentence] at ht
      obtain ⟨_, h4⟩ := blank_split (hb _) (text_no_blank _) ht
      rename_i v _
      have h5 := hb v
      rw [← h4] at h5
      simp at h5
    | bin h1' h2' h3' h4' =>
      simp only [sentence] at ht
      obtain ⟨h5, ht⟩ := blank_split (hb _) (hb _) ht
      obtain ⟨h6, h7⟩ := blank_split (char_no_blank _) (char_no_blank _) ht
      have h8 : ∀ o o' : BinOp, [o.char] = [o'.char] → o = o' := by intro o o'; cases o <;> cases o' <;> decide
      rw [h5, h6, h7, h8 _ _ h6]
      exact ⟨rfl, rfl⟩

theorem decDigits_no_blank {s : Str} (h : DecDigits s) : ' ' ∉ s := fun hm => by
  have := h _ hm
  revert this; decide

theorem formatDouble_no_blank (v : ℚ) : ' ' ∉ formatDouble v := by
  have hs : ' ' ∉ signText v := by unfold signText; split <;> decide
  have hf : ∀ fp, DecDigits fp → ' ' ∉ fracText fp := by
    intro fp hfp
    unfold fracText
    split
    · simp
    · have := decDigits_no_blank hfp
      simpa using this
  by_cases h0 : v = 0
  · rw [h0, C51_zero]; decide
  by_cases hr : abs v ≤ 1 / 10 ^ 16 ∨ 10 ^ 16 ≤ abs v
  · obtain ⟨d, fp, ed, e, h1, h2, _, _, _, h3, _⟩ := C51_scientific v h0 hr
    rw [h1]
    have h4 := decDigits_no_blank h2
    have h5 := hf fp (fun c hc => h2 c (List.mem_cons_of_mem _ hc))
    have h6 := decDigits_no_blank h3
    have h7 : ' ' ∉ expText e ed := by
      unfold expText
      split <;> simpa using h6
    simp only [List.mem_append, List.mem_cons, not_or] at h4 ⊢
    exact ⟨⟨hs, h4.1, h5⟩, h7⟩
  · obtain ⟨h3, h4⟩ := not_or.mp hr
    obtain ⟨ip, fp, h1, h2, h3, _⟩ := C51_fixed v (not_le.mp h3) (not_le.mp h4)
    rw [h1]
    simp only [List.mem_append, not_or]
    exact ⟨⟨hs, decDigits_no_blank h2⟩, hf fp h3⟩

/-- doubles are written without blanks -/
theorem double_no_blank (L : Libm) (v : Double L) : ' ' ∉ (Dbl.toStr v : Str) := by
  change ' ' ∉ F64.toStr v.1
  rcases v.1 with _ | s | s | q
  · decide
  · cases s <;> decide
  · cases s <;> decide
  · exact formatDouble_no_blank q

/-- **C101** for doubles: the message of `Vpa` determines the failing operation and how its operands are written. -/
theorem C101_double (L : Libm) (cfg : Config (Double L)) (e e' : Expr (Double L)) (m m' : MathErrorObj)
    (h : vpaM cfg (embed e) = .raised (.math m)) (h' : vpaM cfg (embed e') = .raised (.math m')) (hw : m.what = m'.what) :
    ∃ s ∈ e.parts, ∃ s' ∈ e'.parts, ∃ ws, Invalid s ws ∧ Invalid s' ws ∧ s.op? = s'.op? := by
  obtain ⟨_, pre, s, post, ws, h1, _, h3, _, h5⟩ := (C101_first cfg e m).mp h
  obtain ⟨_, pre', s', post', ws', h1', _, h3', _, h5'⟩ := (C101_first cfg e' m').mp h'
  have ht : sentence ws = sentence ws' := by
    rw [h5, h5'] at hw
    exact List.append_cancel_left (List.append_cancel_right hw)
  obtain ⟨rfl, h6⟩ := C101_unambiguous (double_no_blank L) h3 h3' ht
  exact ⟨s, h1 ▸ by simp, s', h1' ▸ by simp, ws, h3, h3', h6⟩

/-- `3 + ln(2-2) / (1/0)`: the first operation that fails is the logarithm, at 0. -/
example : ∃ m, vpaM defaultConfig (embed (.bin .add (.num (.fin 3)) (.bin .div (.un .log (.bin .sub (.num (.fin 2)) (.num (.fin 2))))
      (.bin .div (.num (.fin 1)) (.num (.fin 0)))) : Expr (XNum Rat))) = .raised (.math m) ∧
    m.what = "invalid number: \"expression: \"log 0\"\"".toList := by
  refine ⟨⟨.invalidNumber, "invalid number: \"expression: \"log 0\"\"".toList⟩, ?_, rfl⟩
  decide +kernel

/-- `5 / (2-2)` -/
example : ∃ m, vpaM defaultConfig (embed (.bin .div (.num (.fin 5)) (.bin .sub (.num (.fin 2)) (.num (.fin 2))) : Expr (XNum Rat))) =
    .raised (.math m) ∧ m.what = "invalid number: \"expression: \"5 / 0\"\"".toList := by
  refine ⟨⟨.invalidNumber, "invalid number: \"expression: \"5 / 0\"\"".toList⟩, ?_, rfl⟩
  decide +kernel

end Tom
