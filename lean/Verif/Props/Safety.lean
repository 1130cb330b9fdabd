import Verif.Lemmas.Safety
/-
C72: `Solve` returns or throws, whatever the shape of the system.
-/
set_option linter.unusedSectionVars false
namespace Tom
open Matrix

/-! ### more equations than unknowns, any arithmetic -/

section
variable {α : Type} [Dbl α]

/-- C72, more equations than unknowns, for any arithmetic: Newton-Raphson throws OVER_DETERMINED_EQUATIONS if the initial point is not
a solution already (and the equations and derivatives can be evaluated there). -/
theorem C72_tall {r : ℕ} (cfg : Config α) (hmax : 0 ≤ cfg.maxIterations) (f : Matrix (Fin r) (Fin 1) (Expr α)) {t : VarsTable α}
    (ht : t.Reachable) (hr : t.vars.length < r) {J : SymMat α} (hJ : (symOf f).jacobian cfg t.vars = .ok J) {F A : Mat α}
    (hF : evalVec cfg (symOf f) t = .ok F) (hA : evalMat cfg J t = .ok A) (hs : ¬ Satisfies cfg f t) :
    solveByNewtonRaphson cfg (symOf f) t = .throw (.math .overDeterminedEquations) := by
  have h0 := ht.pos
  have hr0 : 0 < r := by omega
  obtain ⟨D, rfl⟩ := jacobian_symOf hr0 cfg f t.vars h0 J hJ
  obtain ⟨v, rfl, _⟩ := (evalVec_ok hr0 cfg f t F).mp hF
  obtain ⟨w, rfl, _⟩ := (C50_evaluate hr0 h0 cfg D t A).mp hA
  rw [newton_unfold cfg _ ht, hJ, Res.bind_ok, newtonLoop, hF, Res.bind_ok, if_neg, if_neg (by push_cast; omega), hA, Res.bind_ok,
    C33_neg, C37_tall cfg hr]
  · rfl
  · intro h
    exact hs ((satisfies_iff hr0 cfg f t).mpr ⟨_, hF, h⟩)

/-- C72 fails as stated for Levenberg-Marquardt: whenever the numbers of equations and unknowns differ, an assertion is violated
(the identity matrix is asked for with the shape of the Jacobian), unless the initial point is a solution. -/
theorem C72_false_lm {r : ℕ} (hr : 0 < r) (cfg : Config α) (lsFuel fuel : ℕ) (f : Matrix (Fin r) (Fin 1) (Expr α)) {t : VarsTable α}
    (ht : t.Reachable) (hne : r ≠ t.vars.length) {J : SymMat α} (hJ : (symOf f).jacobian cfg t.vars = .ok J) {F A : Mat α}
    (hF : evalVec cfg (symOf f) t = .ok F) (hA : evalMat cfg J t = .ok A) (hs : ¬ Satisfies cfg f t) :
    solveByLM cfg lsFuel (fuel + 1) (symOf f) t = .assertFail := by
  have h0 := ht.pos
  obtain ⟨D, rfl⟩ := jacobian_symOf hr cfg f t.vars h0 J hJ
  obtain ⟨w, rfl, _⟩ := (C50_evaluate hr h0 cfg D t A).mp hA
  have hdir : ∀ mu, lmDirection cfg (symOf D) F mu t = .assertFail := by
    intro mu
    unfold lmDirection
    have e2 : (ofEntries w).rows = r := rfl
    have e3 : (ofEntries w).cols = t.vars.length := rfl
    obtain ⟨m, hm⟩ : ∃ m, (ofEntries wᵀ).mul (ofEntries w) = .ok m := by
      rw [ofEntries_eq, ofEntries_eq]
      exact mul_returns h0 hr h0 _ _
    rw [hA, Res.bind_ok, C33_transpose hr h0, Res.bind_ok, hm, Res.bind_ok, e2, e3, new_mk' hr h0, Res.bind_ok]
    unfold Mat.ones
    rw [if_neg (by exact hne)]
    rfl
  rw [lm_unfold cfg _ _ _ ht, hJ, Res.bind_ok, lmOuter, hF, Res.bind_ok, if_neg, lmInner_succ,
    show (lit 1 (-5) : α) = lmDamping 0 from rfl, hdir]
  · rfl
  · intro h
    exact hs ((satisfies_iff hr cfg f t).mpr ⟨_, hF, h⟩)

end

/-! ### exact real numbers -/

/-- C72, partial, Newton-Raphson: for any number of equations (finite literals, differentiable by the library) and unknowns, any real
initial values (also where the equations are not defined), any limit and positive epsilon, with exact real arithmetic and
`throwOnInvalidValue` set, as it is by default, `SolveByNewtonRaphson` returns or throws. -/
theorem C72_partial {r : ℕ} (hr : 0 < r) {cfg : Config (XNum ℝ)} {eps : ℝ} (heps : 0 < eps) (he : cfg.epsilon = .fin eps)
    (hc : cfg.throwOnInvalidValue = true) {vars : List Str} (f : Matrix (Fin r) (Fin 1) (Expr (XNum ℝ))) (hf : ∀ i, (f i 0).Finite)
    {t : VarsTable (XNum ℝ)} {u : Fin vars.length → ℝ} (ht : TableAt t vars u) {J : SymMat (XNum ℝ)}
    (hJ : (symOf f).jacobian cfg vars = .ok J) : (solveByNewtonRaphson cfg (symOf f) t).Handled := by
  have hn := ht.pos
  obtain ⟨hi, D, rfl, hD⟩ := jacobian_finite hr hc f hf vars hn J hJ
  have key : ∀ n it (t : VarsTable (XNum ℝ)) (u w : Fin vars.length → ℝ), TableAt t vars u →
      newtonLoop cfg (symOf f) (symOf D) n it t (ofVec w) = .diverge ∨ (newtonLoop cfg (symOf f) (symOf D) n it t (ofVec w)).Handled := by
    intro n
    induction n with
    | zero => exact fun _ _ _ _ _ => .inl rfl
    | succ n ih =>
      intro it t u w ht
      unfold newtonLoop
      rcases ht.evalVec_outcome hc hr f fun i => ⟨hf i, hi i⟩ with ⟨F, h1⟩ | ⟨e, h1⟩
      swap
      · rw [h1]; exact .inr (.inr ⟨e, rfl⟩)
      rw [h1, Res.bind_ok]
      split
      · exact .inr (.inl ⟨_, rfl⟩)
      split
      · exact .inr (.inr ⟨_, rfl⟩)
      rcases ht.evalMat_outcome hc hr hn D hD with ⟨A, h2⟩ | ⟨e, h2⟩
      swap
      · rw [h2]; exact .inr (.inr ⟨e, rfl⟩)
      rw [h2, Res.bind_ok, neg_ofVec]
      rcases solveLinear_outcome heps he hr hn A (-F) with ⟨x, h3⟩ | ⟨e, h3⟩
      swap
      · rw [h3]; exact .inr (.inr ⟨e, rfl⟩)
      rw [h3, Res.bind_ok, ofVec_add, Res.bind_ok]
      obtain ⟨t', h4, h5⟩ := ht.setValues (w + x)
      rw [h4, Res.bind_ok]
      exact ih _ t' _ _ h5
  have h0 := (C43_newton hr cfg f ht.1).1
  rw [newton_unfold cfg _ ht.1, ht.2.1, hJ, Res.bind_ok, zeroVec_ofVec] at h0 ⊢
  exact (key _ _ t u 0 ht).resolve_left h0

/-- the line search on real numbers returns a real number, throws or goes on for ever -/
theorem armijoLoop_outcome {n : ℕ} (hn : 0 < n) {f df : Mat (XNum ℝ) → Res (Mat (XNum ℝ))}
    (hf : ∀ w : Fin n → ℝ, (∃ F : Fin n → ℝ, f (ofVec w) = .ok (ofVec F)) ∨ ∃ e, f (ofVec w) = .throw e)
    (hdf : ∀ w : Fin n → ℝ, (∃ A : Matrix (Fin n) (Fin n) ℝ, df (ofVec w) = .ok (ofMatrix A)) ∨ ∃ e, df (ofVec w) = .throw e)
    (x d : Fin n → ℝ) (fuel : ℕ) (a : ℝ) :
    (∃ a', armijoLoop f df (ofVec x) (ofVec d) fuel (.fin a) = .ok (.fin a')) ∨
    (∃ e, armijoLoop f df (ofVec x) (ofVec d) fuel (.fin a) = .throw e) ∨ armijoLoop f df (ofVec x) (ofVec d) fuel (.fin a) = .diverge := by
  induction fuel generalizing a with
  | zero => exact .inr (.inr rfl)
  | succ fuel ih =>
    unfold armijoLoop
    rw [show (XNum.fin a : XNum ℝ) = fin a from rfl, ofVec_scaleLeft, ofVec_add, Res.bind_ok]
    rcases hf (x + a • d) with ⟨F1, h1⟩ | ⟨e, h1⟩
    swap
    · rw [h1]; exact .inr (.inl ⟨e, rfl⟩)
    rw [h1, Res.bind_ok, C33_norm2 (K := ℝ) hn, Res.bind_ok]
    rcases hf x with ⟨F0, h2⟩ | ⟨e, h2⟩
    swap
    · rw [h2]; exact .inr (.inl ⟨e, rfl⟩)
    rw [h2, Res.bind_ok]
    rcases hdf x with ⟨A, h3⟩ | ⟨e, h3⟩
    swap
    · rw [h3]; exact .inr (.inl ⟨e, rfl⟩)
    have e4 : (lit 4 (-1) : XNum ℝ) = fin (4 / 10) := by
      simp only [lit, Dbl.ofDec, Option.getD_some]
      show XNum.fin _ = XNum.fin _
      norm_num
    rw [h3, Res.bind_ok, ofMatrix_transpose hn hn, Res.bind_ok, e4, Exact.mul, ofMatrix_scaleLeft, C33_mulVec hn hn, Res.bind_ok, ofVec_add,
      Res.bind_ok, C33_norm2 (K := ℝ) hn, Res.bind_ok]
    split
    · exact .inl ⟨a, rfl⟩
    · have e5 : (lit 5 (-1) : XNum ℝ) = fin (5 / 10) := by
        simp only [lit, Dbl.ofDec, Option.getD_some]
        show XNum.fin _ = XNum.fin _
        norm_num
      rw [e5, Exact.mul]
      exact ih _

/-- C72, partial, Levenberg-Marquardt: for square systems (finite literals, differentiable by the library), any real initial values, any
limit and positive epsilon, with exact real arithmetic and `throwOnInvalidValue` set, `SolveByLM` returns, throws or runs for ever. -/
theorem C72_lm_partial {cfg : Config (XNum ℝ)} {eps : ℝ} (heps : 0 < eps) (he : cfg.epsilon = .fin eps)
    (hc : cfg.throwOnInvalidValue = true) {vars : List Str} (f : Matrix (Fin vars.length) (Fin 1) (Expr (XNum ℝ)))
    (hf : ∀ i, (f i 0).Finite) {t : VarsTable (XNum ℝ)} {u : Fin vars.length → ℝ} (ht : TableAt t vars u) {J : SymMat (XNum ℝ)}
    (hJ : (symOf f).jacobian cfg vars = .ok J) (lsFuel fuel : ℕ) : (solveByLM cfg lsFuel fuel (symOf f) t).Defined := by
  have hn := ht.pos
  obtain ⟨hi, D, rfl, hD⟩ := jacobian_finite hn hc f hf vars hn J hJ
  have hF : ∀ (t : VarsTable (XNum ℝ)) (u : Fin vars.length → ℝ), TableAt t vars u → _ :=
    fun t u ht => ht.evalVec_outcome hc hn f fun i => ⟨hf i, hi i⟩
  have hA : ∀ (t : VarsTable (XNum ℝ)) (u : Fin vars.length → ℝ), TableAt t vars u → _ :=
    fun t u ht => ht.evalMat_outcome hc hn hn D hD
  have inner : ∀ n k it (t : VarsTable (XNum ℝ)) (u q F : Fin vars.length → ℝ), TableAt t vars u →
      (∃ (dq FN : Fin vars.length → ℝ) (t' : _) (u' : Fin vars.length → ℝ) (it' : ℕ),
        lmInner cfg lsFuel (symOf f) (symOf D) (ofVec q) (ofVec F) n t (lmDamping k) it = .ok (ofVec dq, ofVec FN, t', it') ∧
          TableAt t' vars u') ∨
      (∃ e, lmInner cfg lsFuel (symOf f) (symOf D) (ofVec q) (ofVec F) n t (lmDamping k) it = .throw e) ∨
      lmInner cfg lsFuel (symOf f) (symOf D) (ofVec q) (ofVec F) n t (lmDamping k) it = .diverge := by
    intro n
    induction n with
    | zero => exact fun _ _ _ _ _ _ _ => .inr (.inr rfl)
    | succ n ih =>
      intro k it t u q F ht
      rw [lmInner_succ, show (Arith.mul (lmDamping k) (Dbl.ofInt 10) : XNum ℝ) = lmDamping (k + 1) from
        (Function.iterate_succ_apply' (fun m => Arith.mul m (Dbl.ofInt 10)) k (lit 1 (-5))).symm]
      rcases hA t u ht with ⟨A, h1⟩ | ⟨e, h1⟩
      swap
      · refine .inr (.inl ⟨e, ?_⟩)
        unfold lmDirection
        rw [h1]; rfl
      rw [lmDamping_real, lmDirection_real hn h1]
      rcases solveLinear_outcome heps he hn hn (Aᵀ * A + damping k • (1 : Matrix (Fin vars.length) (Fin vars.length) ℝ)) (-(Aᵀ.mulVec F))
        with ⟨d, h2⟩ | ⟨e, h2⟩
      swap
      · rw [h2]; exact .inr (.inl ⟨e, rfl⟩)
      rw [h2, Res.bind_ok]
      unfold armijo
      rw [show (Dbl.ofInt 1 : XNum ℝ) = .fin ((1 : ℤ) : ℝ) from rfl]
      rcases armijoLoop_outcome hn (f := lmF cfg (symOf f) t) (df := lmDF cfg (symOf D) t)
        (fun w => by
          obtain ⟨t', g1, g2⟩ := ht.setValues w
          unfold lmF
          rw [g1, Res.bind_ok]
          exact hF t' w g2)
        (fun w => by
          obtain ⟨t', g1, g2⟩ := ht.setValues w
          unfold lmDF
          rw [g1, Res.bind_ok]
          exact hA t' w g2) q d lsFuel ((1 : ℤ) : ℝ) with ⟨a, h3⟩ | ⟨e, h3⟩ | h3
      rotate_left
      · rw [h3]; exact .inr (.inl ⟨e, rfl⟩)
      · rw [h3]; exact .inr (.inr rfl)
      rw [h3, Res.bind_ok, show (XNum.fin a : XNum ℝ) = fin a from rfl, ofVec_scaleLeft, ofVec_add, Res.bind_ok]
      obtain ⟨t', h4, h5⟩ := ht.setValues (q + a • d)
      rw [h4, Res.bind_ok]
      rcases hF t' _ h5 with ⟨FN, h6⟩ | ⟨e, h6⟩
      swap
      · rw [h6]; exact .inr (.inl ⟨e, rfl⟩)
      rw [h6, Res.bind_ok, C33_norm2 (K := ℝ) hn, Res.bind_ok, C33_norm2 (K := ℝ) hn, Res.bind_ok]
      split
      · exact .inl ⟨_, FN, t', _, it, rfl, h5⟩
      split
      · exact .inr (.inl ⟨_, rfl⟩)
      · exact ih (k + 1) (it + 1) t' _ q F h5
  have outer : ∀ n it (t : VarsTable (XNum ℝ)) (u q : Fin vars.length → ℝ), TableAt t vars u →
      (lmOuter cfg lsFuel fuel (symOf f) (symOf D) n t (ofVec q) it).Defined := by
    intro n
    induction n with
    | zero => exact fun _ _ _ _ _ => .inr (.inr rfl)
    | succ n ih =>
      intro it t u q ht
      unfold lmOuter
      rcases hF t u ht with ⟨F, h1⟩ | ⟨e, h1⟩
      swap
      · rw [h1]; exact .inr (.inl ⟨e, rfl⟩)
      rw [h1, Res.bind_ok]
      split
      · exact .inl ⟨_, rfl⟩
      rw [show (lit 1 (-5) : XNum ℝ) = lmDamping 0 from rfl]
      rcases inner fuel 0 it t u q F ht with ⟨dq, FN, t', u', it', h2, h3⟩ | ⟨e, h2⟩ | h2
      rotate_left
      · rw [h2]; exact .inr (.inl ⟨e, rfl⟩)
      · rw [h2]; exact .inr (.inr rfl)
      rw [h2, Res.bind_ok]
      simp only [ofVec_add, Res.bind_ok]
      obtain ⟨t2, h4, h5⟩ := h3.setValues (q + dq)
      rw [h4, Res.bind_ok]
      split
      · exact .inr (.inl ⟨_, rfl⟩)
      · exact ih _ t2 _ _ h5
  rw [lm_unfold cfg _ _ _ ht.1, ht.2.1, hJ, Res.bind_ok, ht.2.2]
  exact outer fuel 0 t u u ht

/-- `x / x - 2 = 0` -/
def zeroOverZero : Matrix (Fin 1) (Fin 1) (Expr (XNum Rat)) := fun _ _ =>
  .bin .sub (.bin .div (.var ['x']) (.var ['x'])) (.num (.fin 2))

/-- C72 fails as stated when `throwOnInvalidValue` is off: for `x / x - 2 = 0` from `x = 0` the derivative is 0 / 0, a NaN, and the search
for a pivot names a row that does not exist, which violates an assertion of `SwapRow` (without assertions, memory is overwritten). -/
theorem C72_false_nan : (oneVar 0).Reachable ∧
    (∃ J, (symOf zeroOverZero).jacobian { defaultConfig with throwOnInvalidValue := false } [['x']] = .ok J) ∧
    solveByNewtonRaphson { defaultConfig with throwOnInvalidValue := false } (symOf zeroOverZero) (oneVar 0) = .assertFail ∧
    solveByNewtonRaphson defaultConfig (symOf zeroOverZero) (oneVar 0) = .throw (.math .invalidNumber) := by
  refine ⟨.ofList (oneVar_ofList _), ⟨_, rfl⟩, by decide +kernel, by decide +kernel⟩

/-! ### the hypotheses are met -/

/-- `x - 1 = 0`, `x - 2 = 0` -/
def twoEqs : Matrix (Fin 2) (Fin 1) (Expr (XNum Rat)) := fun i _ => .bin .sub (.var ['x']) (.num (.fin (if i = 0 then 1 else 2)))

theorem twoEqs_not : ¬ Satisfies defaultConfig twoEqs (oneVar 5) := by
  rw [satisfies_iff (by omega)]
  rintro ⟨phi, h1, h2⟩
  have : evalVec defaultConfig (symOf twoEqs) (oneVar 5) = .ok ⟨2, 1, [.fin 4, .fin 3]⟩ := by decide +kernel
  rw [this, Res.ok.injEq] at h1
  subst h1
  exact absurd h2 (by decide +kernel)

/-- C72_tall and C72_false_lm apply to two equations in one unknown. -/
example : solveByNewtonRaphson defaultConfig (symOf twoEqs) (oneVar 5) = .throw (.math .overDeterminedEquations) :=
  C72_tall (r := 2) defaultConfig (by decide) twoEqs (.ofList (oneVar_ofList 5)) (by decide) (J := symOf (r := 2) (c := 1) fun _ _ => .num (.fin 1))
    (F := ⟨2, 1, [.fin 4, .fin 3]⟩) (A := ⟨2, 1, [.fin 1, .fin 1]⟩) (by decide +kernel) (by decide +kernel) (by decide +kernel) twoEqs_not

example : solveByLM defaultConfig 3 5 (symOf twoEqs) (oneVar 5) = .assertFail :=
  C72_false_lm (r := 2) (by omega) defaultConfig 3 4 twoEqs (.ofList (oneVar_ofList 5)) (by decide) (J := symOf (r := 2) (c := 1) fun _ _ => .num (.fin 1))
    (F := ⟨2, 1, [.fin 4, .fin 3]⟩) (A := ⟨2, 1, [.fin 1, .fin 1]⟩) (by decide +kernel) (by decide +kernel) (by decide +kernel) twoEqs_not

/-- `log(x) = 0`, and further equations `x - 1 = 0` -/
noncomputable def logs (r : ℕ) : Matrix (Fin r) (Fin 1) (Expr (XNum ℝ)) := Matrix.of fun i _ =>
  if i.val = 0 then .un .log (.var ['x']) else .bin .sub (.var ['x']) (.num (.fin 1))

theorem logs_finite (r : ℕ) (i : Fin r) : (logs r i 0).Finite := by
  unfold logs
  rw [Matrix.of_apply]
  split <;> simp [finite_num, finite_var, finite_un, finite_bin]

theorem logs_jacobian {r : ℕ} (hr : 0 < r) (cfg : Config (XNum ℝ)) : ∃ J, (symOf (logs r)).jacobian cfg [['x']] = .ok J := by
  refine jacobian_returns hr cfg (logs r) [['x']] (by simp) (fun _ => 1) ⟨?_, ?_, ?_⟩
  · intro i; unfold logs; rw [Matrix.of_apply]; split <;> simp [Expr.vars]
  · intro i; unfold logs; rw [Matrix.of_apply]; split <;> simp [Expr.NoForeignExp]
  · intro i; unfold logs; rw [Matrix.of_apply]
    split
    · exact ⟨trivial, 1, rfl, .inl (by simp [UnOp.smoothAt])⟩
    · simp [Smooth]

/-- C72_partial applies to any number of equations, one of them a logarithm, from any initial value, positive or not. -/
example (r : ℕ) (hr : 0 < r) (x : ℝ) : ∃ (cfg : Config (XNum ℝ)) (t : VarsTable (XNum ℝ)), cfg.throwOnInvalidValue = true ∧
    TableAt t [['x']] (fun _ => x) ∧ (solveByNewtonRaphson cfg (symOf (logs r)) t).Handled := by
  let cfg : Config (XNum ℝ) := ⟨true, .fin (1 / 10 ^ 9), 100, .newtonRaphson, .fin 1, false⟩
  obtain ⟨J, hJ⟩ := logs_jacobian hr cfg
  obtain ⟨t, ht⟩ := exists_holds (vars := [['x']]) (by simp) (by simp) (fun _ => x)
  exact ⟨cfg, t, rfl, ht, C72_partial hr (eps := 1 / 10 ^ 9) (by norm_num) rfl rfl (logs r) (logs_finite r) ht hJ⟩

/-- C72_lm_partial applies to `log(x) = 0` from any initial value. -/
example (x : ℝ) (lsFuel fuel : ℕ) : ∃ (cfg : Config (XNum ℝ)) (t : VarsTable (XNum ℝ)), cfg.throwOnInvalidValue = true ∧
    TableAt t [['x']] (fun _ => x) ∧ (solveByLM cfg lsFuel fuel (symOf (logs 1)) t).Defined := by
  let cfg : Config (XNum ℝ) := ⟨true, .fin (1 / 10 ^ 9), 100, .lm, .fin 1, false⟩
  obtain ⟨J, hJ⟩ := logs_jacobian (r := 1) (by omega) cfg
  obtain ⟨t, ht⟩ := exists_holds (vars := [['x']]) (by simp) (by simp) (fun _ => x)
  exact ⟨cfg, t, rfl, ht, C72_lm_partial (vars := [['x']]) (eps := 1 / 10 ^ 9) (by norm_num) rfl rfl (logs 1) (logs_finite 1) ht hJ _ _⟩

end Tom
