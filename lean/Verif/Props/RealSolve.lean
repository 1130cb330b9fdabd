import Verif.Lemmas.RealSolve
import Mathlib.Analysis.Calculus.Deriv.Add
import Mathlib.Analysis.Calculus.Deriv.Mul
/-
C44 and C70: what the Newton-Raphson steps are over the real numbers, and that affine systems are solved.
-/
set_option linter.unusedSectionVars false
namespace Tom
open Relation

/-! ### C44 -/

theorem newtonCorrection_real {cfg : Config (XNum ℝ)} {eps : ℝ} (heps : 0 < eps) (he : cfg.epsilon = .fin eps) {vars : List Str}
    {f : Matrix (Fin vars.length) (Fin 1) (Expr (XNum ℝ))} {J : SymMat (XNum ℝ)} (hJ : (symOf f).jacobian cfg vars = .ok J)
    {t : VarsTable (XNum ℝ)} {u : Fin vars.length → ℝ} (ht : TableAt t vars u) (hs : SmoothAt f vars u) {D : Mat (XNum ℝ)}
    (h : NewtonCorrection cfg (symOf f) J t D) :
    ∃ F A d B, IsValue f vars u F ∧ IsJacobian f vars u A ∧ D = ofVec d ∧ Near eps A B ∧ (B.mulVec d = -F ∨ B.det = 0) := by
  have hn := ht.pos
  obtain ⟨E, rfl, hE, hA⟩ := jacobian_real hn cfg f vars hn J hJ
  obtain ⟨A, hA1, hA2⟩ := hA u hs
  choose F hF using fun i => smooth_val (assign vars u) (f i 0) (hs.2.2 i)
  obtain ⟨phi, j, h1, h2, h3⟩ := h
  rw [ht.evalVec hn cfg f hs.1 hF, Res.ok.injEq] at h1
  rw [ht.evalMat hn hn cfg E (fun i j x hx => hs.1 i x (hE i j x hx)) hA2, Res.ok.injEq] at h2
  subst h1 h2
  rw [neg_ofVec] at h3
  obtain ⟨d, B, h4, h5, h6⟩ := C36_partial cfg heps he hn A (-F) h3
  exact ⟨F, A, d, B, hF, hA1, h4, h5, h6⟩

/-- C44 over the reals: a step of Newton-Raphson at a point `u` where the equations are smooth leads to `u + d` with `B d = -f(u)`,
where `B` differs from the Jacobian of the system (the matrix of the partial derivatives at `u`) by less than epsilon in every
entry; or such a `B` is singular. -/
theorem C44_real {cfg : Config (XNum ℝ)} {eps : ℝ} (heps : 0 < eps) (he : cfg.epsilon = .fin eps) {vars : List Str}
    {f : Matrix (Fin vars.length) (Fin 1) (Expr (XNum ℝ))} {J : SymMat (XNum ℝ)} (hJ : (symOf f).jacobian cfg vars = .ok J)
    {t t' : VarsTable (XNum ℝ)} {u : Fin vars.length → ℝ} (ht : TableAt t vars u) (ht' : t'.Reachable) (hs : SmoothAt f vars u)
    (h : NewtonStep cfg (symOf f) J t t') :
    ∃ F A d B, IsValue f vars u F ∧ IsJacobian f vars u A ∧ TableAt t' vars (u + d) ∧ Near eps A B ∧
      (B.mulVec d = -F ∨ B.det = 0) := by
  obtain ⟨D, h1, h2, h3⟩ := h
  obtain ⟨F, A, d, B, k1, k2, rfl, k4, k5⟩ := newtonCorrection_real heps he hJ ht hs h1
  refine ⟨F, A, d, B, k1, k2, ⟨ht', h3.trans ht.2.1, ?_⟩, k4, k5⟩
  rw [ht.2.2, ofVec_add, Res.ok.injEq] at h2
  exact h2.symm

/-- C44 over the reals, where the Jacobian is far from singular: the step solves the linearised system up to epsilon times the size
of the step. -/
theorem C44_real_regular {cfg : Config (XNum ℝ)} {eps : ℝ} (heps : 0 < eps) (he : cfg.epsilon = .fin eps) {vars : List Str}
    {f : Matrix (Fin vars.length) (Fin 1) (Expr (XNum ℝ))} {J : SymMat (XNum ℝ)} (hJ : (symOf f).jacobian cfg vars = .ok J)
    {t t' : VarsTable (XNum ℝ)} {u : Fin vars.length → ℝ} (ht : TableAt t vars u) (ht' : t'.Reachable) (hs : SmoothAt f vars u)
    (hreg : ∀ A, IsJacobian f vars u A → ∀ B, Near eps A B → B.det ≠ 0) (h : NewtonStep cfg (symOf f) J t t') :
    ∃ F A d, IsValue f vars u F ∧ IsJacobian f vars u A ∧ TableAt t' vars (u + d) ∧
      ∀ i, |A.mulVec d i + F i| ≤ eps * ∑ j, |d j| := by
  obtain ⟨F, A, d, B, k1, k2, k3, k4, k5⟩ := C44_real heps he hJ ht ht' hs h
  refine ⟨F, A, d, k1, k2, k3, fun i => ?_⟩
  have k6 := congrFun (k5.resolve_right (hreg A k2 B k4)) i
  have : A.mulVec d i + F i = ∑ j, (A i j - B i j) * d j := by
    have : F i = - B.mulVec d i := by rw [k6]; simp
    rw [this]
    simp only [Matrix.mulVec, dotProduct, sub_mul, Finset.sum_sub_distrib]
    ring
  rw [this, Finset.mul_sum]
  refine (Finset.abs_sum_le_sum_abs _ _).trans (Finset.sum_le_sum fun j _ => ?_)
  rw [abs_mul]
  exact mul_le_mul_of_nonneg_right (k4 i j).le (abs_nonneg _)

/-! ### C70 -/

/-- moving one coordinate -/
theorem at_assign {vars : List Str} (hn : vars.Nodup) (u : Fin vars.length → ℝ) (j : Fin vars.length) (s : ℝ) :
    at_ (assign vars u) vars[j] s = assign vars (Function.update u j s) := by
  funext x
  unfold at_ assign
  by_cases hx : x = vars[j]
  · subst hx
    rw [if_pos rfl]
    have e : vars.idxOf vars[j] = j := hn.idxOf_getElem j j.2
    rw [dif_pos (by rw [e]; exact j.2)]
    have : (⟨vars.idxOf vars[j], by rw [e]; exact j.2⟩ : Fin vars.length) = j := Fin.ext e
    rw [this, Function.update_self]
  · rw [if_neg hx]
    split
    · rename_i h
      rw [Function.update_of_ne]
      rintro rfl
      exact hx (List.getElem_idxOf h).symm
    · rfl

theorem assign_self {vars : List Str} (hn : vars.Nodup) (u : Fin vars.length → ℝ) (j : Fin vars.length) : assign vars u vars[j] = u j := by
  have e : vars.idxOf vars[j] = j := hn.idxOf_getElem j j.2
  unfold assign
  rw [dif_pos (by rw [e]; exact j.2)]
  congr 1
  exact Fin.ext e

/-- the Jacobian of an affine system is its matrix -/
theorem jacobian_affine {r : ℕ} {vars : List Str} (hn : vars.Nodup) {f : Matrix (Fin r) (Fin 1) (Expr (XNum ℝ))}
    {A : Matrix (Fin r) (Fin vars.length) ℝ} {b : Fin r → ℝ} (hf : ∀ u, IsValue f vars u (A.mulVec u + b)) {u : Fin vars.length → ℝ}
    {A' : Matrix (Fin r) (Fin vars.length) ℝ} (h : IsJacobian f vars u A') : A' = A := by
  ext i j
  obtain ⟨g, h1, h2⟩ := h i j
  rw [assign_self hn] at h1 h2
  have e : ∀ s, (A.mulVec (Function.update u j s) + b) i = A i j * s + (∑ k ∈ Finset.univ.erase j, A i k * u k + b i) := by
    intro s
    simp only [Pi.add_apply, Matrix.mulVec, dotProduct]
    rw [← Finset.add_sum_erase _ _ (Finset.mem_univ j), Function.update_self, add_assoc]
    congr 2
    refine Finset.sum_congr rfl fun k hk => ?_
    rw [Function.update_of_ne (Finset.ne_of_mem_erase hk)]
  have h3 : g =ᶠ[nhds (u j)] fun s => A i j * s + (∑ k ∈ Finset.univ.erase j, A i k * u k + b i) := by
    filter_upwards [h1] with s hs
    rw [at_assign hn, hf, Option.some.injEq, e] at hs
    exact hs.symm
  have h4 : HasDerivAt (fun s => A i j * s + (∑ k ∈ Finset.univ.erase j, A i k * u k + b i)) (A i j) (u j) := by
    simpa using ((hasDerivAt_id (u j)).const_mul (A i j)).add_const (∑ k ∈ Finset.univ.erase j, A i k * u k + b i)
  exact h2.unique (h4.congr_of_eventuallyEq h3)

/-- one round of Newton-Raphson on an affine system -/
theorem newton_round {vars : List Str} {f : Matrix (Fin vars.length) (Fin 1) (Expr (XNum ℝ))}
    {A : Matrix (Fin vars.length) (Fin vars.length) ℝ} {b : Fin vars.length → ℝ} (hf : ∀ u, IsValue f vars u (A.mulVec u + b))
    (hs : ∀ u, SmoothAt f vars u) {cfg : Config (XNum ℝ)} {eps : ℝ} (he : cfg.epsilon = .fin eps)
    (hsol : ∀ c, ∃ x : Fin vars.length → ℝ, solveLinear cfg (ofMatrix A) (ofVec c) = .ok (ofVec x) ∧ A.mulVec x = c)
    {J : SymMat (XNum ℝ)} (hJ : (symOf f).jacobian cfg vars = .ok J) (fuel it : ℕ) (hit : (it : ℤ) ≤ cfg.maxIterations)
    {t : VarsTable (XNum ℝ)} {u : Fin vars.length → ℝ} (ht : TableAt t vars u) (w : Fin vars.length → ℝ) :
    ((∀ i, |(A.mulVec u + b) i| < eps) ∧ newtonLoop cfg (symOf f) J (fuel + 1) it t (ofVec w) = .ok t) ∨
    ∃ t1 d, TableAt t1 vars (w + d) ∧ A.mulVec d = -(A.mulVec u + b) ∧
      newtonLoop cfg (symOf f) J (fuel + 1) it t (ofVec w) = newtonLoop cfg (symOf f) J fuel (it + 1) t1 (ofVec (w + d)) := by
  have hn := ht.pos
  obtain ⟨E, rfl, hE, hA⟩ := jacobian_real hn cfg f vars hn J hJ
  obtain ⟨A', hA1, hA2⟩ := hA u (hs u)
  rw [jacobian_affine ht.nodup hf hA1] at hA2
  have e1 := ht.evalVec hn cfg f (hs u).1 (hf u)
  have e2 := ht.evalMat hn hn cfg E (fun i j x hx => (hs u).1 i x (hE i j x hx)) hA2
  have e3 : (ofVec (A.mulVec u + b) : Mat (XNum ℝ)).eqNum cfg.epsilon (Dbl.ofInt 0) = true ↔ ∀ i, |(A.mulVec u + b) i| < eps := by
    unfold Mat.eqNum ofVec
    rw [he, List.all_eq_true]
    simp only [List.mem_ofFn, forall_exists_index, forall_apply_eq_imp_iff]
    refine forall_congr' fun i => ?_
    show Arith.lt (Arith.abs (Arith.sub (XNum.fin _) (XNum.fin ((0 : ℤ) : ℝ)))) (XNum.fin eps) = true ↔ _
    simp [Arith.lt, Arith.abs, Arith.sub, XNum.cmp, XNum.map, XNum.map2]
  rw [newtonLoop, e1, Res.bind_ok]
  by_cases h : ∀ i, |(A.mulVec u + b) i| < eps
  · exact .inl ⟨h, by rw [if_pos (e3.mpr h)]⟩
  · right
    obtain ⟨d, h1, h2⟩ := hsol (-(A.mulVec u + b))
    obtain ⟨t1, h3, h4⟩ := ht.setValues (w + d)
    refine ⟨t1, d, h4, h2, ?_⟩
    rw [if_neg (fun h' => h (e3.mp h')), if_neg (by omega), e2, Res.bind_ok, neg_ofVec, h1, Res.bind_ok, ofVec_add, Res.bind_ok, h3,
      Res.bind_ok]

/-- C70: Newton-Raphson solves affine systems.  Let every equation be, as a function, `∑ A_ij x_j + b_i` with `A` invertible (however it
is written, as long as it is smooth).  Then for every sufficiently small epsilon, from every initial table, `SolveByNewtonRaphson`
returns, if at least one repetition is allowed, and the residuals at the returned point are below epsilon; unless they were so at the
initial point or after one step, they are zero. -/
theorem C70 {vars : List Str} (hn : 0 < vars.length) {f : Matrix (Fin vars.length) (Fin 1) (Expr (XNum ℝ))}
    {A : Matrix (Fin vars.length) (Fin vars.length) ℝ} {b : Fin vars.length → ℝ} (hA : A.det ≠ 0)
    (hf : ∀ u, IsValue f vars u (A.mulVec u + b)) (hs : ∀ u, SmoothAt f vars u) :
    ∃ e : ℝ, 0 < e ∧ ∀ (cfg : Config (XNum ℝ)) (eps : ℝ), 0 < eps → eps ≤ e → cfg.epsilon = .fin eps → 1 ≤ cfg.maxIterations →
      ∀ (t : VarsTable (XNum ℝ)) (u : Fin vars.length → ℝ), TableAt t vars u →
        ∃ t' u', solveByNewtonRaphson cfg (symOf f) t = .ok t' ∧ TableAt t' vars u' ∧ (∀ i, |(A.mulVec u' + b) i| < eps) ∧
          (t' = t ∨ A.mulVec (u + u') + b = 0 ∨ A.mulVec u' + b = 0) := by
  obtain ⟨e, he0, h⟩ := C36_C38_exact (α := XNum ℝ) hn A
  refine ⟨e, he0, fun cfg eps k1 k2 he hmax t u ht => ?_⟩
  have hsol := fun c => (h cfg eps c k1 k2 he).1 hA
  obtain ⟨J, hJ⟩ := jacobian_returns hn cfg f vars hn u (hs u)
  obtain ⟨m, hm⟩ : ∃ m, (cfg.maxIterations + 2).toNat + 1 = m + 3 := ⟨(cfg.maxIterations + 2).toNat - 2, by omega⟩
  rw [newton_unfold cfg _ ht.1, ht.2.1, hJ, Res.bind_ok, hm, zeroVec_ofVec]
  rcases newton_round hf hs he hsol hJ (m + 2) 0 (by omega) ht 0 with ⟨h1, h2⟩ | ⟨t1, d, ht1, hd, h2⟩
  · exact ⟨t, u, h2, ht, h1, .inl rfl⟩
  · rw [zero_add d] at ht1 h2
    rw [h2]
    rcases newton_round hf hs he hsol hJ (m + 1) (0 + 1) (by push_cast; omega) ht1 d with ⟨h3, h4⟩ | ⟨t2, d2, ht2, hd2, h4⟩
    · refine ⟨t1, d, h4, ht1, h3, .inr (.inl ?_)⟩
      rw [Matrix.mulVec_add, hd]
      abel
    · have hz : A.mulVec (d + d2) + b = 0 := by
        rw [Matrix.mulVec_add, hd2]
        abel
      rw [h4]
      have hall : ∀ i, |(A.mulVec (d + d2) + b) i| < eps := by
        intro i
        rw [hz]
        simpa using k1
      refine ⟨t2, d + d2, ?_, ht2, hall, .inr (.inr hz)⟩
      obtain ⟨E, rfl, hE, _⟩ := jacobian_real hn cfg f vars hn J hJ
      rw [newtonLoop, ht2.evalVec hn cfg f (hs u).1 (hf _), Res.bind_ok, if_pos]
      unfold Mat.eqNum ofVec
      rw [he, List.all_eq_true]
      simp only [List.mem_ofFn, forall_exists_index, forall_apply_eq_imp_iff]
      intro i
      have := hall i
      show Arith.lt (Arith.abs (Arith.sub (XNum.fin _) (XNum.fin ((0 : ℤ) : ℝ)))) (XNum.fin eps) = true
      simpa [Arith.lt, Arith.abs, Arith.sub, XNum.cmp, XNum.map, XNum.map2] using this

/-- `2 x + y - 3 = 0`, `x - y = 0` -/
noncomputable def lines : Matrix (Fin 2) (Fin 1) (Expr (XNum ℝ)) := Matrix.of fun i _ =>
  if i = 0 then .bin .sub (.bin .add (.bin .mul (.num (.fin 2)) (.var ['x'])) (.var ['y'])) (.num (.fin 3))
  else .bin .sub (.var ['x']) (.var ['y'])

theorem lines_spec : (∀ u, IsValue lines [['x'], ['y']] u ((!![2, 1; 1, -1] : Matrix (Fin 2) (Fin 2) ℝ).mulVec u + ![-3, 0])) ∧
    ∀ u, SmoothAt lines [['x'], ['y']] u := by
  refine ⟨fun u i => ?_, fun u => ⟨?_, ?_, ?_⟩⟩
  · have hx : assign [['x'], ['y']] u ['x'] = u 0 := rfl
    have hy : assign [['x'], ['y']] u ['y'] = u 1 := rfl
    fin_cases i
    · simp [lines, realVal, BinOp.real, XNum.val?, hx, hy, Matrix.mulVec, dotProduct, Fin.sum_univ_two, sub_eq_add_neg]
    · simp [lines, realVal, BinOp.real, XNum.val?, hx, hy, Matrix.mulVec, dotProduct, Fin.sum_univ_two, sub_eq_add_neg]
  · intro i; fin_cases i <;> simp [lines, Expr.vars]
  · intro i; fin_cases i <;> simp [lines, Expr.NoForeignExp]
  · intro i; fin_cases i <;> simp [lines, Smooth]

/-- The hypotheses of C70 are met by `lines`. -/
example : ∃ (A : Matrix (Fin 2) (Fin 2) ℝ) (b : Fin 2 → ℝ), A.det ≠ 0 ∧ (∀ u, IsValue lines [['x'], ['y']] u (A.mulVec u + b)) ∧
    ∀ u, SmoothAt lines [['x'], ['y']] u :=
  ⟨!![2, 1; 1, -1], ![-3, 0], by norm_num [Matrix.det_fin_two], lines_spec⟩

/-- a table with any values -/
theorem exists_holds {vars : List Str} (h0 : vars ≠ []) (hn : vars.Nodup) (u : Fin vars.length → ℝ) : ∃ t, TableAt t vars u := by
  obtain ⟨t, ht⟩ := (C46_ofVars vars (XNum.fin (0 : ℝ))).mpr ⟨h0, hn⟩
  have hr : t.Reachable := .ofVars ht
  have hv : t.vars = vars := (ofVars_good ht).2.1
  have hw : IsVec (ofVec u : Mat (XNum ℝ)) := ⟨rfl, by simp [ofVec]⟩
  obtain ⟨t', h1, h2, h3⟩ := C46_setValues hr hw (by rw [VarsTable.varNums, hr.good.length, hv]; rfl)
  exact ⟨t', .setValues hr hw h1, h2.trans hv, h3⟩

/-- The hypotheses of C44_real and C44_real_regular are met by `lines` at every point: there is a step, and no matrix close to the
Jacobian is singular. -/
example (u : Fin 2 → ℝ) : ∃ (cfg : Config (XNum ℝ)) (eps : ℝ) (J : SymMat (XNum ℝ)) (t t' : VarsTable (XNum ℝ)), 0 < eps ∧
    cfg.epsilon = .fin eps ∧ (symOf lines).jacobian cfg [['x'], ['y']] = .ok J ∧ TableAt t [['x'], ['y']] u ∧ t'.Reachable ∧
    SmoothAt lines [['x'], ['y']] u ∧
    (∀ A, IsJacobian lines [['x'], ['y']] u A → ∀ B : Matrix (Fin 2) (Fin 2) ℝ, Near eps A B → B.det ≠ 0) ∧
    NewtonStep cfg (symOf lines) J t t' := by
  obtain ⟨hf, hs⟩ := lines_spec
  obtain ⟨e, he, hsol⟩ := C36_C38_exact (α := XNum ℝ) (n := 2) (by omega) !![2, 1; 1, -1]
  let eps : ℝ := min e (1 / 10)
  have h0 : 0 < eps := lt_min he (by norm_num)
  let cfg : Config (XNum ℝ) := ⟨true, .fin eps, 100, .newtonRaphson, .fin 1, false⟩
  obtain ⟨J, hJ⟩ := jacobian_returns (by omega) cfg lines [['x'], ['y']] (by decide) u (hs u)
  obtain ⟨t, ht⟩ := exists_holds (vars := [['x'], ['y']]) (by simp) (by simp) u
  obtain ⟨d, h1, _⟩ := (hsol cfg eps (-((!![2, 1; 1, -1] : Matrix (Fin 2) (Fin 2) ℝ).mulVec u + ![-3, 0])) h0 (min_le_left _ _) rfl).1
    (by norm_num [Matrix.det_fin_two])
  obtain ⟨t', ht', h2⟩ := ht.setValues (u + d)
  refine ⟨cfg, eps, J, t, t', h0, rfl, hJ, ht, h2.1, hs u, fun A hA B hB => ?_, ofVec d, ?_, ?_, ?_⟩
  · rw [jacobian_affine ht.nodup hf hA] at hB
    have le : eps ≤ 1 / 10 := min_le_right _ _
    have b00 := abs_lt.mp ((hB 0 0).trans_le le)
    have b01 := abs_lt.mp ((hB 0 1).trans_le le)
    have b10 := abs_lt.mp ((hB 1 0).trans_le le)
    have b11 := abs_lt.mp ((hB 1 1).trans_le le)
    simp only [Matrix.of_apply, Matrix.cons_val', Matrix.cons_val_zero, Matrix.cons_val_one, Matrix.cons_val_fin_one] at b00 b01 b10 b11
    rw [Matrix.det_fin_two]
    have : B 0 0 * B 1 1 < 0 := mul_neg_of_pos_of_neg (by linarith) (by linarith)
    have : 0 < B 0 1 * B 1 0 := mul_pos (by linarith) (by linarith)
    linarith
  · obtain ⟨E, rfl, hE, hA⟩ := jacobian_real (by omega) cfg lines [['x'], ['y']] (by decide) J hJ
    obtain ⟨A', hA1, hA2⟩ := hA u (hs u)
    rw [jacobian_affine ht.nodup hf hA1] at hA2
    have e1 := ht.evalVec (by omega) cfg lines (hs u).1 (hf u)
    have e2 := ht.evalMat (by omega) (by simp) cfg E (fun i j x hx => (hs u).1 i x (hE i j x hx)) hA2
    exact ⟨_, _, e1, e2, by rw [neg_ofVec]; exact h1⟩
  · rw [ht.2.2, ofVec_add, h2.2.2]
  · rw [h2.2.1, ht.2.1]

end Tom
