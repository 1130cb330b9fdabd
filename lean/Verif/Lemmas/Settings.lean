import Verif.Spec.Settings
/-
Lemmas for C110, C111.
-/
namespace Tom
variable {α : Type} [Dbl α]

/-! ### what depends on the configuration -/

section congr
variable {c c' : Config α} (h : c.throwOnInvalidValue = c'.throwOnInvalidValue)
include h

theorem calcOp_cfg : calcOp c = calcOp c' := by
  funext op v w
  simp only [calcOp, h]

theorem vpaStep_cfg : vpaStep c = vpaStep c' := by
  funext st n
  unfold vpaStep
  rw [calcOp_cfg h]

theorem vpaPartII_cfg : vpaPartII c = vpaPartII c' := by
  funext ns
  induction ns with
  | nil => rfl
  | cons n ns ih =>
    funext st
    simp only [vpaPartII, vpaStep_cfg h, ih]

theorem vpa_cfg : vpa c = vpa c' := by
  funext n
  simp only [vpa, vpaPartII_cfg h]

theorem calcNode_cfg : calcNode c = calcNode c' := by
  funext n
  simp only [calcNode, vpa_cfg h]

theorem simplifySingle_cfg : simplifySingle c = simplifySingle c' := by
  funext n
  simp only [simplifySingle, simplifyUnary, simplifyBinary, calcOp_cfg h]

theorem simplifyPartII_cfg : simplifyPartII c = simplifyPartII c' := by
  funext ps
  induction ps with
  | nil => rfl
  | cons p ps ih =>
    funext root
    simp only [simplifyPartII, simplifySingle_cfg h, ih]

theorem simplify_cfg : simplify c = simplify c' := by
  funext n
  simp only [simplify, simplifyWhole, simplifyPartII_cfg h, simplifySingle_cfg h]

theorem diff_cfg : diff c = diff c' := by
  funext n x i
  simp only [diff, simplify_cfg h]

theorem diffConst_cfg : diffConst c = diffConst c' := by
  funext n x i
  simp only [diffConst, diff_cfg h]

theorem jacLoop_cfg (eqs : List (Raw α)) (vars : List Str) (n iter i : Nat) : SymMat.jacLoop c eqs vars n iter i = SymMat.jacLoop c' eqs vars n iter i := by
  induction n generalizing iter i with
  | zero => rfl
  | succ n ih => simp only [SymMat.jacLoop, diffConst_cfg h, ih]

theorem jacobian_cfg : SymMat.jacobian c = SymMat.jacobian c' := by
  funext eqs vars
  simp only [SymMat.jacobian, jacLoop_cfg h]

theorem calcList_cfg : SymMat.calcList c = SymMat.calcList c' := by
  funext ns
  induction ns with
  | nil => rfl
  | cons n ns ih => simp only [SymMat.calcList, calcNode_cfg h, ih]

theorem calcAll_cfg : SymMat.calcAll c = SymMat.calcAll c' := by
  funext m
  simp only [SymMat.calcAll, calcList_cfg h]

theorem evalMat_cfg : evalMat c = evalMat c' := by
  funext m t
  simp only [evalMat, SymMat.calcChain, calcAll_cfg h]

theorem evalVec_cfg : evalVec c = evalVec c' := by
  funext m t
  simp only [evalVec, evalMat_cfg h]

end congr

theorem solveLinear_cfg {c c' : Config α} (he : c.epsilon = c'.epsilon) (ha : c.allowIndeterminateEquation = c'.allowIndeterminateEquation) :
    solveLinear c = solveLinear c' := by
  funext A b
  simp only [solveLinear, he, ha]

/-! ### loosening -/

/-- a normal result stays -/
def Res.Le {β : Type} (r s : Res β) : Prop := ∀ b, r = .ok b → s = .ok b

theorem Res.Le.refl {β : Type} (r : Res β) : r.Le r := fun _ h => h
theorem Res.Le.throw {β : Type} (e : Exc) (s : Res β) : (Res.throw e : Res β).Le s := fun _ h => by cases h
theorem Res.Le.diverge {β : Type} (s : Res β) : (Res.diverge : Res β).Le s := fun _ h => by cases h
theorem Res.Le.bind {β γ : Type} {r s : Res β} {f g : β → Res γ} (h : r.Le s) (hf : ∀ b, (f b).Le (g b)) : (r >>= f).Le (s >>= g) := by
  intro b hb
  obtain ⟨a, h1, h2⟩ := Res.bind_eq_ok.mp hb
  rw [h a h1]
  exact hf a b h2
theorem Res.Le.noexcept {β : Type} {r s : Res β} (h : r.Le s) : (Res.noexcept r).Le (Res.noexcept s) := by
  intro b hb
  cases r with
  | ok a =>
    rw [h a rfl]
    exact hb
  | _ => cases hb
theorem Res.Le.ite {β : Type} {p : Prop} [Decidable p] {r s r' s' : Res β} (h : r.Le s) (h' : r'.Le s') : (if p then r else r').Le (if p then s else s') := by
  split
  · exact h
  · exact h'

section loosen
variable {c c' : Config α} (h : Looser c c')
include h

theorem calcOp_le (op : MathOp) (v w : α) : (calcOp c op v w).Le (calcOp c' op v w) := by
  unfold calcOp
  refine (Res.Le.refl _).bind fun r => ?_
  cases h1 : c.throwOnInvalidValue with
  | false =>
    have : c'.throwOnInvalidValue = false := by
      cases h2 : c'.throwOnInvalidValue with
      | false => rfl
      | true => rw [h.invalid h2] at h1; cases h1
    simp only [this]
    exact Res.Le.refl _
  | true =>
    simp only [Bool.true_eq_false, if_false]
    split
    · exact Res.Le.throw _ _
    · split <;> exact Res.Le.refl _

theorem vpaStep_le (st : List α) (n : Raw α) : (vpaStep c st n).Le (vpaStep c' st n) := by
  unfold vpaStep
  split
  · exact Res.Le.refl _
  · exact Res.Le.refl _
  · split
    · split
      · exact Res.Le.refl _
      · exact (calcOp_le h _ _ _).bind fun _ => Res.Le.refl _
    · split
      · exact (calcOp_le h _ _ _).bind fun _ => Res.Le.refl _
      · exact Res.Le.refl _
    · exact Res.Le.refl _
  · exact Res.Le.refl _

theorem vpaPartII_le (ns : List (Raw α)) (st : List α) : (vpaPartII c ns st).Le (vpaPartII c' ns st) := by
  induction ns generalizing st with
  | nil => exact Res.Le.refl _
  | cons n ns ih =>
    unfold vpaPartII
    exact (vpaStep_le h _ _).bind fun _ => ih _

theorem vpa_le (n : Raw α) : (vpa c n).Le (vpa c' n) := by
  unfold vpa
  refine Res.Le.ite ?_ (Res.Le.refl _)
  exact (Res.Le.refl _).bind fun _ => (vpaPartII_le h _ _).bind fun _ => Res.Le.refl _

theorem simplifySingle_le (n : Raw α) : (simplifySingle c n).Le (simplifySingle c' n) := by
  unfold simplifySingle
  refine Res.Le.noexcept ?_
  split
  · exact Res.Le.refl _
  · refine Res.Le.ite ?_ (Res.Le.ite ?_ (Res.Le.refl _))
    · unfold simplifyUnary
      split
      · exact Res.Le.refl _
      · exact Res.Le.ite ((calcOp_le h _ _ _).bind fun _ => Res.Le.refl _) (Res.Le.refl _)
    · unfold simplifyBinary
      split
      · exact Res.Le.refl _
      · split
        · exact Res.Le.refl _
        · exact Res.Le.ite ((calcOp_le h _ _ _).bind fun _ => Res.Le.refl _) (Res.Le.refl _)

theorem simplifyPartII_le (ps : List Path) (root : Raw α) : (simplifyPartII c ps root).Le (simplifyPartII c' ps root) := by
  induction ps generalizing root with
  | nil => exact Res.Le.refl _
  | cons p ps ih =>
    unfold simplifyPartII
    exact (simplifySingle_le h _).bind fun _ => ih _

theorem simplify_le (n : Raw α) : (simplify c n).Le (simplify c' n) := by
  unfold simplify simplifyWhole
  refine Res.Le.noexcept (Res.Le.ite (Res.Le.refl _) (Res.Le.ite (Res.Le.refl _) ?_))
  exact (Res.Le.refl _).bind fun _ => (simplifyPartII_le h _ _).bind fun _ => simplifySingle_le h _

theorem diff_le (n : Raw α) (x : Str) (i : Int) : (diff c n x i).Le (diff c' n x i) := by
  unfold diff
  exact Res.Le.ite ((Res.Le.refl _).bind fun _ => simplify_le h _) (Res.Le.refl _)

theorem jacLoop_le (eqs : List (Raw α)) (vars : List Str) (n iter i : Nat) : (SymMat.jacLoop c eqs vars n iter i).Le (SymMat.jacLoop c' eqs vars n iter i) := by
  induction n generalizing iter i with
  | zero => exact Res.Le.refl _
  | succ n ih =>
    unfold SymMat.jacLoop diffConst
    exact (Res.Le.refl _).bind fun _ => (Res.Le.refl _).bind fun _ =>
      ((Res.Le.refl _).bind fun _ => diff_le h _ _ _).bind fun _ => (ih _ _).bind fun _ => Res.Le.refl _

theorem jacobian_le (eqs : SymMat α) (vars : List Str) : (eqs.jacobian c vars).Le (eqs.jacobian c' vars) := by
  unfold SymMat.jacobian
  exact Res.Le.noexcept (Res.Le.ite ((jacLoop_le h _ _ _ _ _).bind fun _ => Res.Le.refl _) (Res.Le.refl _))

theorem calcList_le (ns : List (Raw α)) (hn : (SymMat.calcList c ns).1 = .ok ()) : SymMat.calcList c' ns = SymMat.calcList c ns := by
  induction ns with
  | nil => rfl
  | cons n ns ih =>
    unfold SymMat.calcList at hn ⊢
    cases hv : vpa c n with
    | ok d =>
      have h1 : calcNode c n = (.ok (), mkNum d) := by simp [calcNode, hv]
      have h2 : calcNode c' n = (.ok (), mkNum d) := by simp [calcNode, vpa_le h n d hv]
      rw [h1] at hn ⊢
      rw [h2]
      simp only at hn ⊢
      rw [ih hn]
    | _ => simp [calcNode, hv] at hn

theorem calcChain_le (m : SymMat α) : (m.calcChain c).Le (m.calcChain c') := by
  intro b hb
  obtain ⟨u, h1, h2⟩ := Res.bind_eq_ok.mp hb
  have e : m.calcAll c' = m.calcAll c := by
    unfold SymMat.calcAll at h1 ⊢
    rw [calcList_le h m.data h1]
  unfold SymMat.calcChain
  rw [e]
  exact hb

theorem evalMat_le (m : SymMat α) (t : VarsTable α) : (evalMat c m t).Le (evalMat c' m t) := by
  unfold evalMat
  exact (Res.Le.refl _).bind fun _ => (Res.Le.refl _).bind fun _ => (calcChain_le h _).bind fun _ => Res.Le.refl _

theorem evalVec_le (m : SymMat α) (t : VarsTable α) : (evalVec c m t).Le (evalVec c' m t) := by
  unfold evalVec
  exact (evalMat_le h _ _).bind fun _ => Res.Le.refl _

theorem solveLinear_le (A b : Mat α) : (solveLinear c A b).Le (solveLinear c' A b) := by
  unfold solveLinear
  rw [h.epsilon]
  refine Res.Le.ite (Res.Le.refl _) ((Res.Le.refl _).bind fun _ => Res.Le.ite (Res.Le.refl _) ((Res.Le.refl _).bind fun _ =>
    (Res.Le.refl _).bind fun s => Res.Le.ite ?_ (Res.Le.refl _)))
  refine (Res.Le.refl _).bind fun _ => (Res.Le.refl _).bind fun _ => (Res.Le.refl _).bind fun p => ?_
  refine (Res.Le.refl _).bind fun _ => Res.Le.ite ?_ (Res.Le.refl _)
  cases h1 : c.allowIndeterminateEquation with
  | true => rw [h.indeterminate h1]; exact Res.Le.refl _
  | false => exact Res.Le.throw _ _

theorem newtonLoop_le (eqs ja : SymMat α) (f f' : Nat) (hf : f ≤ f') (it : Nat) (t : VarsTable α) (q : Mat α) :
    (newtonLoop c eqs ja f it t q).Le (newtonLoop c' eqs ja f' it t q) := by
  induction f generalizing f' it t q with
  | zero => exact Res.Le.diverge _
  | succ f ih =>
    obtain ⟨f', rfl⟩ : ∃ k, f' = k + 1 := ⟨f' - 1, by omega⟩
    unfold newtonLoop
    rw [h.epsilon]
    refine (evalVec_le h _ _).bind fun phi => Res.Le.ite (Res.Le.refl _) ?_
    by_cases h1 : (it : Int) > c.maxIterations
    · rw [if_pos h1]; exact Res.Le.throw _ _
    · have h2 : ¬ (it : Int) > c'.maxIterations := by have := h.limit; omega
      rw [if_neg h1, if_neg h2]
      exact (evalMat_le h _ _).bind fun _ => (solveLinear_le h _ _).bind fun _ => (Res.Le.refl _).bind fun _ => (Res.Le.refl _).bind fun _ =>
        ih f' (by omega) _ _ _

theorem solveByNewtonRaphson_le (eqs : SymMat α) (t : VarsTable α) : (solveByNewtonRaphson c eqs t).Le (solveByNewtonRaphson c' eqs t) := by
  unfold solveByNewtonRaphson
  exact (Res.Le.refl _).bind fun _ => (jacobian_le h _ _).bind fun _ => newtonLoop_le h _ _ _ _ (by have := h.limit; omega) _ _ _

omit h in
theorem armijoLoop_le {f g f' g' : Mat α → Res (Mat α)} (hf : ∀ v, (f v).Le (f' v)) (hg : ∀ v, (g v).Le (g' v)) (x d : Mat α) (n : Nat) (a : α) :
    (armijoLoop f g x d n a).Le (armijoLoop f' g' x d n a) := by
  induction n generalizing a with
  | zero => exact Res.Le.diverge _
  | succ n ih =>
    unfold armijoLoop
    exact (Res.Le.refl _).bind fun _ => (hf _).bind fun _ => (Res.Le.refl _).bind fun _ => (hf _).bind fun _ => (hg _).bind fun _ =>
      (Res.Le.refl _).bind fun _ => (Res.Le.refl _).bind fun _ => (Res.Le.refl _).bind fun _ => (Res.Le.refl _).bind fun _ =>
        Res.Le.ite (Res.Le.refl _) (ih _)

/-- The counter is below the limit as long as the loops go on. -/
theorem lmInner_le (lsFuel : Nat) (eqs ja : SymMat α) (q F : Mat α) (n : Nat) (t : VarsTable α) (mu : α) (it : Nat)
    (hit : (it : Int) ≤ c.maxIterations) :
    (lmInner c lsFuel eqs ja q F n t mu it).Le (lmInner c' lsFuel eqs ja q F n t mu it) ∧
      ∀ r, lmInner c lsFuel eqs ja q F n t mu it = .ok r → (r.2.2.2 : Int) ≤ c.maxIterations := by
  induction n generalizing t mu it with
  | zero => exact ⟨Res.Le.diverge _, fun r hr => by cases hr⟩
  | succ n ih =>
    have key : ∀ (tt : VarsTable α) (dq FNew : Mat α) (nNew nOld : α),
        ((if Arith.lt nNew nOld then Res.ok (dq, FNew, tt, it) else if (it : Int) = c.maxIterations then .throw .runtime
          else lmInner c lsFuel eqs ja q F n tt (Arith.mul mu (Dbl.ofInt 10)) (it + 1) : Res (Mat α × Mat α × VarsTable α × Nat)).Le
        (if Arith.lt nNew nOld then .ok (dq, FNew, tt, it) else if (it : Int) = c'.maxIterations then .throw .runtime
          else lmInner c' lsFuel eqs ja q F n tt (Arith.mul mu (Dbl.ofInt 10)) (it + 1))) ∧
        ∀ r, (if Arith.lt nNew nOld then Res.ok (dq, FNew, tt, it) else if (it : Int) = c.maxIterations then .throw .runtime
          else lmInner c lsFuel eqs ja q F n tt (Arith.mul mu (Dbl.ofInt 10)) (it + 1) : Res (Mat α × Mat α × VarsTable α × Nat)) = .ok r →
          (r.2.2.2 : Int) ≤ c.maxIterations := by
      intro tt dq FNew nNew nOld
      by_cases h0 : Arith.lt nNew nOld = true
      · rw [if_pos h0, if_pos h0]
        exact ⟨Res.Le.refl _, fun r hr => by cases hr; exact hit⟩
      · rw [if_neg h0, if_neg h0]
        by_cases h1 : (it : Int) = c.maxIterations
        · rw [if_pos h1]
          exact ⟨Res.Le.throw _ _, fun r hr => by cases hr⟩
        · have h2 : ¬ (it : Int) = c'.maxIterations := by have := h.limit; omega
          rw [if_neg h1, if_neg h2]
          exact ih tt _ (it + 1) (by push_cast; omega)
    have comb : ∀ {β γ : Type} {r s : Res β} {f g : β → Res γ} {P : γ → Prop}, r.Le s → (∀ b, (f b).Le (g b) ∧ ∀ x, f b = .ok x → P x) →
        (r >>= f).Le (s >>= g) ∧ ∀ x, (r >>= f) = .ok x → P x := by
      intro β γ r s f g P h1 h2
      refine ⟨h1.bind fun b => (h2 b).1, fun x hx => ?_⟩
      obtain ⟨b, h3, h4⟩ := Res.bind_eq_ok.mp hx
      exact (h2 b).2 x h4
    unfold lmInner
    refine comb (evalMat_le h _ _) fun j => comb (Res.Le.refl _) fun _ => comb (Res.Le.refl _) fun _ => comb (Res.Le.refl _) fun _ =>
      comb (Res.Le.refl _) fun _ => comb (Res.Le.refl _) fun _ => comb (Res.Le.refl _) fun _ => comb (Res.Le.refl _) fun _ =>
      comb (solveLinear_le h _ _) fun d => comb ?_ fun _ => comb (Res.Le.refl _) fun _ => comb (Res.Le.refl _) fun _ =>
      comb (evalVec_le h _ _) fun _ => comb (Res.Le.refl _) fun _ => comb (Res.Le.refl _) fun _ => key _ _ _ _ _
    exact armijoLoop_le (fun v => (Res.Le.refl _).bind fun _ => evalVec_le h _ _) (fun v => (Res.Le.refl _).bind fun _ => evalMat_le h _ _) _ _ _ _

theorem lmOuter_le (lsFuel innerFuel : Nat) (eqs ja : SymMat α) (n : Nat) (t : VarsTable α) (q : Mat α) (it : Nat)
    (hit : (it : Int) ≤ c.maxIterations) :
    (lmOuter c lsFuel innerFuel eqs ja n t q it).Le (lmOuter c' lsFuel innerFuel eqs ja n t q it) := by
  induction n generalizing t q it with
  | zero => exact Res.Le.diverge _
  | succ n ih =>
    unfold lmOuter
    rw [h.epsilon]
    refine (evalVec_le h _ _).bind fun F => Res.Le.ite (Res.Le.refl _) ?_
    intro b hb
    obtain ⟨⟨dq, FN, t', it'⟩, h1, h2⟩ := Res.bind_eq_ok.mp hb
    have hl := lmInner_le h lsFuel eqs ja q F innerFuel t (lit 1 (-5)) it hit
    rw [hl.1 _ h1, Res.bind_ok]
    have hit' := hl.2 _ h1
    simp only at hit' h2 ⊢
    refine Res.Le.bind (Res.Le.refl _) (fun q' => Res.Le.bind (Res.Le.refl _) fun t'' => ?_) b h2
    by_cases h3 : (it' : Int) = c.maxIterations
    · rw [if_pos h3]; exact Res.Le.throw _ _
    · have h4 : ¬ (it' : Int) = c'.maxIterations := by have := h.limit; omega
      rw [if_neg h3, if_neg h4]
      exact ih _ _ _ (by push_cast; omega)

theorem solve_le (lsFuel fuel : Nat) (eqs : SymMat α) (t : VarsTable α) : (solve c lsFuel fuel eqs t).Le (solve c' lsFuel fuel eqs t) := by
  unfold solve
  rw [h.method]
  cases hm : c.nonlinearMethod with
  | newtonRaphson => exact solveByNewtonRaphson_le h eqs t
  | lm =>
    unfold solveByLM
    exact (Res.Le.refl _).bind fun _ => (jacobian_le h _ _).bind fun _ => lmOuter_le h _ _ _ _ _ _ _ _ (by simpa using h.nonneg hm)
  | other => exact Res.Le.refl _

theorem solveAuto_le (lsFuel fuel : Nat) (eqs : SymMat α) : (solveAuto c lsFuel fuel eqs).Le (solveAuto c' lsFuel fuel eqs) := by
  unfold solveAuto
  rw [h.initial]
  exact (Res.Le.refl _).bind fun _ => (Res.Le.refl _).bind fun _ => solve_le h _ _ _ _

end loosen

end Tom
