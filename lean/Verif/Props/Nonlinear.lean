import Verif.Lemmas.Nonlinear
import Verif.Props.VarsTable
import Verif.Props.RealSimplify
/-
C42-C45, C48, C49, C58, C59: the nonlinear solvers.  A system is a column of expressions `f`; the library holds it as `symOf f`.
-/
set_option linter.unusedSectionVars false
set_option linter.unusedSimpArgs false
namespace Tom
variable {α : Type} [Dbl α]
open Relation

theorem VarsTable.Reachable.pos {t : VarsTable α} (h : t.Reachable) : 0 < t.vars.length := by
  induction h with
  | ofVars h =>
    obtain ⟨_, h1, _⟩ := ofVars_good h
    rw [h1]
    exact List.length_pos_iff.mpr ((C46_ofVars _ _).mp ⟨_, h⟩).1
  | @ofMap m t hm h =>
    obtain ⟨h1, _⟩ := C47_ofMap h
    rw [h1, List.length_map]
    unfold VarsTable.ofMap Mat.new at h
    by_contra h0
    rw [if_neg (by omega)] at h
    cases h
  | @ofList l t h =>
    have h' := ofList_ofMap h
    obtain ⟨h1, _⟩ := C47_ofMap h'
    rw [h1, List.length_map]
    unfold VarsTable.ofMap Mat.new at h'
    by_contra h0
    rw [if_neg (by omega)] at h'
    cases h'
  | setValues ht hv h ih =>
    obtain ⟨_, h1, _⟩ := setValues_good ht.good hv h
    rw [h1]; exact ih

theorem isVec_zeroVec (n : ℕ) : IsVec (zeroVec n : Mat α) := ⟨rfl, by simp [zeroVec]⟩

theorem newton_unfold (cfg : Config α) (eqs : SymMat α) {t : VarsTable α} (ht : t.Reachable) :
    solveByNewtonRaphson cfg eqs t = (do
      let ja ← eqs.jacobian cfg t.vars
      newtonLoop cfg eqs ja ((cfg.maxIterations + 2).toNat + 1) 0 t (zeroVec t.vars.length)) := by
  unfold solveByNewtonRaphson Mat.new VarsTable.varNums
  rw [ht.good.length, if_pos ⟨ht.pos, by omega⟩]
  simp only [Res.bind_ok, Nat.mul_one]
  rfl

theorem lm_unfold (cfg : Config α) (lsFuel fuel : ℕ) (eqs : SymMat α) {t : VarsTable α} (ht : t.Reachable) :
    solveByLM cfg lsFuel fuel eqs t = (do
      let ja ← eqs.jacobian cfg t.vars
      lmOuter cfg lsFuel fuel eqs ja fuel t t.values 0) := by
  unfold solveByLM Mat.new VarsTable.varNums
  rw [ht.good.length, if_pos ⟨ht.pos, by omega⟩]
  simp only [Res.bind_ok]

theorem jacobian_rows {r : ℕ} (cfg : Config α) (f : Matrix (Fin r) (Fin 1) (Expr α)) (vars : List Str) (J : SymMat α)
    (h : (symOf f).jacobian cfg vars = .ok J) : 0 < r := by
  by_contra h0
  unfold SymMat.jacobian at h
  rw [if_neg (by simp only [symOf]; omega)] at h
  cases h

/-- everything about a table returned by one of the two solvers -/
theorem solve_ok {r : ℕ} {cfg : Config α} {lsFuel fuel : ℕ} {f : Matrix (Fin r) (Fin 1) (Expr α)} {t t' : VarsTable α}
    (ht : t.Reachable) (h : solve cfg lsFuel fuel (symOf f) t = .ok t') :
    Satisfies cfg f t' ∧ t'.vars = t.vars ∧ t'.Reachable := by
  unfold solve at h
  split at h
  · rw [newton_unfold cfg _ ht] at h
    obtain ⟨J, h1, h2⟩ := Res.bind_eq_ok.mp h
    exact newtonLoop_ok (jacobian_rows cfg f _ J h1) cfg f J _ _ t _ t' ht (isVec_zeroVec _) h2
  · rw [lm_unfold cfg _ _ _ ht] at h
    obtain ⟨J, h1, h2⟩ := Res.bind_eq_ok.mp h
    obtain ⟨a, b, c, _⟩ := lmOuter_ok (jacobian_rows cfg f _ J h1) cfg f J _ _ _ _ t t' ht h2
    exact ⟨a, b, c⟩
  · cases h

/-! ### C42 -/

/-- C42: whenever `Solve(equations, table)` returns a table (whichever method is configured), every equation evaluated at that
table is a number whose distance from 0 is below epsilon. -/
theorem C42 {r : ℕ} (cfg : Config α) (lsFuel fuel : ℕ) (f : Matrix (Fin r) (Fin 1) (Expr α)) {t t' : VarsTable α}
    (ht : t.Reachable) (h : solve cfg lsFuel fuel (symOf f) t = .ok t') : Satisfies cfg f t' := (solve_ok ht h).1

/-- C42: the two methods called directly. -/
theorem C42_methods {r : ℕ} (cfg : Config α) (lsFuel fuel : ℕ) (f : Matrix (Fin r) (Fin 1) (Expr α)) {t t' : VarsTable α}
    (ht : t.Reachable) (h : solveByNewtonRaphson cfg (symOf f) t = .ok t' ∨ solveByLM cfg lsFuel fuel (symOf f) t = .ok t') :
    Satisfies cfg f t' := by
  rcases h with h | h
  · rw [newton_unfold cfg _ ht] at h
    obtain ⟨J, h1, h2⟩ := Res.bind_eq_ok.mp h
    exact (newtonLoop_ok (jacobian_rows cfg f _ J h1) cfg f J _ _ t _ t' ht (isVec_zeroVec _) h2).1
  · rw [lm_unfold cfg _ _ _ ht] at h
    obtain ⟨J, h1, h2⟩ := Res.bind_eq_ok.mp h
    exact (lmOuter_ok (jacobian_rows cfg f _ J h1) cfg f J _ _ _ _ t t' ht h2).1

theorem solveAuto_unfold {r : ℕ} {cfg : Config α} {lsFuel fuel : ℕ} {f : Matrix (Fin r) (Fin 1) (Expr α)} {t' : VarsTable α}
    (h : solveAuto cfg lsFuel fuel (symOf f) = .ok t') :
    ∃ names t, (symOf f).getAllVarNames = .ok names ∧ VarsTable.ofVars names cfg.initialValue = .ok t ∧
      solve cfg lsFuel fuel (symOf f) t = .ok t' := by
  obtain ⟨names, h1, h⟩ := Res.bind_eq_ok.mp h
  obtain ⟨t, h2, h3⟩ := Res.bind_eq_ok.mp h
  exact ⟨names, t, h1, h2, h3⟩

/-- C42: `Solve(equations)` without a table. -/
theorem C42_auto {r : ℕ} (cfg : Config α) (lsFuel fuel : ℕ) (f : Matrix (Fin r) (Fin 1) (Expr α)) {t' : VarsTable α}
    (h : solveAuto cfg lsFuel fuel (symOf f) = .ok t') : Satisfies cfg f t' := by
  obtain ⟨names, t, _, h2, h3⟩ := solveAuto_unfold h
  exact C42 cfg lsFuel fuel f (.ofVars h2) h3

/-- the point a table of real numbers denotes -/
noncomputable def pointOf (t : VarsTable (XNum ℝ)) (x : Str) : ℝ := ((t.table.lookup x).bind XNum.val?).getD 0

theorem un_real_of_apply (o : UnOp) (u : XNum ℝ) (v : ℝ) (h : o.apply u = .fin v) : ∃ a, u = .fin a ∧ o.real a = some v := by
  cases u with
  | bad => cases o <;> cases h
  | fin a =>
    refine ⟨a, rfl, ?_⟩
    cases hr : o.real a with
    | some r => rw [apply_un_real o a r hr] at h; simpa using h
    | none =>
      exfalso
      cases o <;> first | (cases hr; done) | (simp [UnOp.apply, Dbl.tan, Dbl.asin, Dbl.acos, Dbl.sqrt, Dbl.log, Dbl.log2, Dbl.log10, XNum.mapO, hr] at h; done)

theorem bin_real_of_apply (o : BinOp) (u w : XNum ℝ) (v : ℝ) (h : o.apply u w = some (.fin v)) :
    ∃ a b, u = .fin a ∧ w = .fin b ∧ o.real a b = some v := by
  cases u with
  | bad => cases o <;> cases h
  | fin a =>
    cases w with
    | bad =>
      exfalso
      cases o <;> simp_all [BinOp.apply, Arith.add, Arith.sub, Arith.mul, Arith.div, Dbl.pow, Dbl.toInt32, XNum.map2, XNum.map2O, XNum.val?]
    | fin b =>
      refine ⟨a, b, rfl, rfl, ?_⟩
      cases hr : o.real a b with
      | some r => rw [apply_bin_real o a b r hr] at h; simpa using h
      | none =>
        exfalso
        cases o <;> simp_all [BinOp.real, BinOp.apply, Arith.div, Dbl.pow, Dbl.toInt32, Dbl.ofInt, XNum.map2O, XNum.val?]
        all_goals
          cases hu : realTrunc a <;> cases hw : realTrunc b <;> simp_all

/-- a finite value the library computes is the value of the function -/
theorem realVal_of_eval (strict : Bool) (t : VarsTable (XNum ℝ)) (e : Expr (XNum ℝ)) (v : ℝ)
    (h : e.eval strict (envOf t.table) = .ok (.fin v)) : realVal (pointOf t) e = some v := by
  have hc : ∀ w : XNum ℝ, checked strict w = .ok (.fin v) → w = .fin v := by
    intro w hw
    unfold checked at hw
    split at hw
    · cases hw
    · simpa using hw
  induction e generalizing v with
  | num w =>
    simp only [Expr.eval, Res.ok.injEq] at h
    subst h; rfl
  | var x =>
    simp only [Expr.eval, envOf] at h
    simp only [realVal, pointOf]
    cases hx : t.table.lookup x with
    | none => rw [hx] at h; cases h
    | some w =>
      rw [hx] at h
      simp only [Res.ok.injEq] at h
      subst h; rfl
  | un o e ih =>
    obtain ⟨u, h1, h2⟩ := Res.bind_eq_ok.mp h
    obtain ⟨a, rfl, h3⟩ := un_real_of_apply o u v (hc _ h2)
    have hc' : ∀ w : XNum ℝ, checked strict w = .ok (.fin a) → w = .fin a := by
      intro w hw
      unfold checked at hw
      split at hw
      · cases hw
      · simpa using hw
    simp only [realVal, ih a h1 hc', Option.bind_some, h3]
  | bin o a b iha ihb =>
    obtain ⟨u, h1, h⟩ := Res.bind_eq_ok.mp h
    obtain ⟨w, h2, h⟩ := Res.bind_eq_ok.mp h
    cases hv : o.apply u w with
    | none => rw [hv] at h; cases h
    | some z =>
      rw [hv] at h
      rw [hc z h] at hv
      obtain ⟨x, y, rfl, rfl, h3⟩ := bin_real_of_apply o u w v hv
      have hc' : ∀ (v : ℝ) (w : XNum ℝ), checked strict w = .ok (.fin v) → w = .fin v := by
        intro v w hw
        unfold checked at hw
        split at hw
        · cases hw
        · simpa using hw
      simp only [realVal, iha x h1 (hc' x), ihb y h2 (hc' y), Option.bind_some, h3]

/-- C42 over the reals: the returned values are a point at which each equation, as a function of real numbers, is defined and
below epsilon in absolute value. -/
theorem C42_real {r : ℕ} (cfg : Config (XNum ℝ)) (ε : ℝ) (hε : cfg.epsilon = .fin ε) (lsFuel fuel : ℕ)
    (f : Matrix (Fin r) (Fin 1) (Expr (XNum ℝ))) {t t' : VarsTable (XNum ℝ)} (ht : t.Reachable)
    (h : solve cfg lsFuel fuel (symOf f) t = .ok t') :
    ∀ i, ∃ v : ℝ, realVal (pointOf t') (f i 0) = some v ∧ |v| < ε := by
  intro i
  obtain ⟨v, h1, h2⟩ := C42 cfg lsFuel fuel f ht h i
  rw [C17_subsValues_vpa] at h1
  rw [hε] at h2
  cases v with
  | fin v =>
    refine ⟨v, realVal_of_eval _ _ _ _ h1, ?_⟩
    have e : Arith.lt (Arith.abs (Arith.sub (XNum.fin v) (Dbl.ofInt 0))) (XNum.fin ε) = decide (|v - (0 : ℤ)| < ε) := by
      simp [Arith.lt, Arith.abs, Arith.sub, Dbl.ofInt, XNum.cmp, XNum.map, XNum.map2]
    rw [e] at h2
    simpa using h2
  | bad => cases h2

/-! ### C43 -/

/-- C43: Newton-Raphson always ends: after at most `maxIterations + 3` evaluations of the equations (more fuel changes nothing). -/
theorem C43_newton {r : ℕ} (hr : 0 < r) (cfg : Config α) (f : Matrix (Fin r) (Fin 1) (Expr α)) {t : VarsTable α} (ht : t.Reachable) :
    solveByNewtonRaphson cfg (symOf f) t ≠ .diverge ∧
    ∀ J k, (symOf f).jacobian cfg t.vars = .ok J →
      newtonLoop cfg (symOf f) J ((cfg.maxIterations + 2).toNat + 1 + k) 0 t (zeroVec t.vars.length)
        = solveByNewtonRaphson cfg (symOf f) t := by
  rw [newton_unfold cfg _ ht]
  have key : ∀ J, (symOf f).jacobian cfg t.vars = .ok J →
      newtonLoop cfg (symOf f) J ((cfg.maxIterations + 2).toNat + 1) 0 t (zeroVec t.vars.length) ≠ .diverge := by
    intro J hJ
    obtain ⟨D, rfl⟩ := jacobian_symOf hr cfg f t.vars ht.pos J hJ
    exact (newtonLoop_fine hr ht.pos cfg f D _ 0 t _ (by omega) (by push_cast; omega)).1
  constructor
  · by_cases h : ∃ J, (symOf f).jacobian cfg t.vars = .ok J
    · obtain ⟨J, hJ⟩ := h
      rw [hJ]
      exact key J hJ
    · rw [(C32_returns hr cfg f t.vars ht.pos).2 fun J hJ => h ⟨J, hJ⟩]
      simp
  · intro J k hJ
    rw [hJ, newtonLoop_mono cfg _ _ _ _ _ _ _ (key J hJ)]
    rfl

/-- C43, partial: LM with a non-negative `maxIterations` ends if the line searches it may carry out do.  `P` is any property of points
that additions of steps preserve: only line searches from points with `P` matter. -/
theorem C43_lm_inv_partial {r : ℕ} (hr : 0 < r) (cfg : Config α) (hmax : 0 ≤ cfg.maxIterations) (lsFuel fuel : ℕ)
    (hfuel : cfg.maxIterations < fuel) (f : Matrix (Fin r) (Fin 1) (Expr α)) {t : VarsTable α} (ht : t.Reachable)
    (P : Mat α → Prop) (hP : ∀ q d q' : Mat α, P q → q.add d = .ok q' → P q') (hPt : P t.values)
    (hls : ∀ J, (symOf f).jacobian cfg t.vars = .ok J →
      ∀ (t0 : VarsTable α) k (t1 : VarsTable α) (d : Mat α), t0.vars = t.vars → P t0.values → LMSearch cfg (symOf f) J t0 k t1 d →
        armijo lsFuel t0.values d (lmF cfg (symOf f) t1) (lmDF cfg J t1) ≠ .diverge) :
    solveByLM cfg lsFuel fuel (symOf f) t ≠ .diverge := by
  rw [lm_unfold cfg _ _ _ ht]
  by_cases h : ∃ J, (symOf f).jacobian cfg t.vars = .ok J
  · obtain ⟨J, hJ⟩ := h
    rw [hJ]
    have hls := hls J hJ
    obtain ⟨D, rfl⟩ := jacobian_symOf hr cfg f t.vars ht.pos J hJ
    exact (lmOuter_calm hr ht.pos cfg f D true lsFuel fuel t.vars P (fun _ => hls) hP (fun _ => hfuel) fuel t 0 ht rfl hPt
      (fun _ => ⟨by simpa using hmax, by simpa using hfuel⟩)).2 rfl
  · rw [(C32_returns hr cfg f t.vars ht.pos).2 fun J hJ => h ⟨J, hJ⟩]
    simp

/-- C43, partial: LM with a non-negative `maxIterations` ends if the line searches it may carry out do. -/
theorem C43_lm_partial {r : ℕ} (hr : 0 < r) (cfg : Config α) (hmax : 0 ≤ cfg.maxIterations) (lsFuel fuel : ℕ)
    (hfuel : cfg.maxIterations < fuel) (f : Matrix (Fin r) (Fin 1) (Expr α)) {t : VarsTable α} (ht : t.Reachable)
    (hls : ∀ J, (symOf f).jacobian cfg t.vars = .ok J →
      ∀ (t0 : VarsTable α) k (t1 : VarsTable α) (d : Mat α), t0.vars = t.vars → LMSearch cfg (symOf f) J t0 k t1 d →
        armijo lsFuel t0.values d (lmF cfg (symOf f) t1) (lmDF cfg J t1) ≠ .diverge) :
    solveByLM cfg lsFuel fuel (symOf f) t ≠ .diverge :=
  C43_lm_inv_partial hr cfg hmax lsFuel fuel hfuel f ht (fun _ => True) (fun _ _ _ _ _ => trivial) trivial
    fun J hJ t0 k t1 d hv _ => hls J hJ t0 k t1 d hv

/-- `x^2 + 1` -/
def noRoot : Matrix (Fin 1) (Fin 1) (Expr (XNum Rat)) := fun _ _ => .bin .add (.bin .mul (.var ['x']) (.var ['x'])) (.num (.fin 1))

/-- C43 fails as documented (nonlinear.h promises `MathError`): when the limit is reached, a plain `runtime_error` is thrown. -/
theorem C43_false : ∃ t : VarsTable (XNum Rat), t.Reachable ∧
    solveByNewtonRaphson { defaultConfig with maxIterations := 0 } (symOf noRoot) t = .throw .runtime :=
  ⟨oneVar 1, .ofList (oneVar_ofList _), by decide +kernel⟩

/-! ### C48 -/

/-- C48: the table returned by `Solve` has exactly the variables of the initial table, in the same order. -/
theorem C48 {r : ℕ} (cfg : Config α) (lsFuel fuel : ℕ) (f : Matrix (Fin r) (Fin 1) (Expr α)) {t t' : VarsTable α}
    (ht : t.Reachable) (h : solve cfg lsFuel fuel (symOf f) t = .ok t') : t'.vars = t.vars ∧ t'.Reachable := (solve_ok ht h).2

/-- C48: the table returned by `Solve(equations)` has exactly the variables of the equations, in increasing order. -/
theorem C48_auto {r : ℕ} (cfg : Config α) (lsFuel fuel : ℕ) (f : Matrix (Fin r) (Fin 1) (Expr α)) {t' : VarsTable α}
    (h : solveAuto cfg lsFuel fuel (symOf f) = .ok t') :
    t'.Reachable ∧ t'.vars.Pairwise (fun a b => strLt a b = true) ∧ ∀ x, x ∈ t'.vars ↔ ∃ i, x ∈ (f i 0).vars := by
  obtain ⟨names, t, h1, h2, h3⟩ := solveAuto_unfold h
  obtain ⟨out, h4, h5, h6⟩ := C50_getAllVarNames f
  rw [h1, Res.ok.injEq] at h4
  subst h4
  obtain ⟨h7, h8⟩ := C48 cfg lsFuel fuel f (.ofVars h2) h3
  rw [h7, (C47_ofVars h2).1]
  refine ⟨h8, h5, fun x => (h6 x).trans ⟨?_, ?_⟩⟩
  · rintro ⟨i, j, hx⟩; rw [Subsingleton.elim j 0] at hx; exact ⟨i, hx⟩
  · rintro ⟨i, hx⟩; exact ⟨i, 0, hx⟩

/-! ### C45 -/

theorem diffReturns_jacobian {r : ℕ} (hr : 0 < r) (cfg : Config α) (f : Matrix (Fin r) (Fin 1) (Expr α)) (vars : List Str)
    (hv : 0 < vars.length) (h : DiffReturns cfg f vars) : ∃ J, (symOf f).jacobian cfg vars = .ok J :=
  (C32_returns hr cfg f vars hv).1.mpr fun i _ => h i _ (List.getElem_mem _)

/-- C45, partial: if the initial table already satisfies the equations, `Solve` returns it unchanged, provided that the
equations can be differentiated.  (The Jacobian is computed first.) -/
theorem C45_partial {r : ℕ} (hr : 0 < r) (cfg : Config α) (hm : cfg.nonlinearMethod ≠ .other) (lsFuel fuel : ℕ) (hfuel : 0 < fuel)
    (f : Matrix (Fin r) (Fin 1) (Expr α)) {t : VarsTable α} (ht : t.Reachable) (hd : DiffReturns cfg f t.vars)
    (hs : Satisfies cfg f t) : solve cfg lsFuel fuel (symOf f) t = .ok t := by
  obtain ⟨J, hJ⟩ := diffReturns_jacobian hr cfg f t.vars ht.pos hd
  obtain ⟨phi, h1, h2⟩ := (satisfies_iff hr cfg f t).mp hs
  unfold solve
  split
  · rw [newton_unfold cfg _ ht, hJ, Res.bind_ok]
    unfold newtonLoop
    rw [h1, Res.bind_ok, if_pos h2]
  · rw [lm_unfold cfg _ _ _ ht, hJ, Res.bind_ok]
    obtain ⟨n, rfl⟩ : ∃ n, fuel = n + 1 := ⟨fuel - 1, by omega⟩
    unfold lmOuter
    rw [h1, Res.bind_ok, if_pos h2]
  · contradiction

/-- `x % 2` -/
def modTwo : Matrix (Fin 1) (Fin 1) (Expr (XNum Rat)) := fun _ _ => .bin .mod (.var ['x']) (.num (.fin 2))

/-- C45 fails as stated: `x % 2 = 0` is satisfied at 4, but `Solve` terminates the process. -/
theorem C45_false : (oneVar 4).Reachable ∧ Satisfies defaultConfig modTwo (oneVar 4) ∧
    solve defaultConfig 0 0 (symOf modTwo) (oneVar 4) = .terminate := by
  refine ⟨.ofList (oneVar_ofList _), ?_, by decide +kernel⟩
  intro i
  rw [Subsingleton.elim i 0]
  exact ⟨.fin 0, by decide +kernel, by decide +kernel⟩

/-- C45: `Solve(equations)` is `Solve` with the table that gives every variable of the equations the initial value of the
configuration. -/
theorem C45_auto {r : ℕ} (cfg : Config α) (lsFuel fuel : ℕ) (f : Matrix (Fin r) (Fin 1) (Expr α)) (hv : ∃ i, (f i 0).vars ≠ []) :
    ∃ t : VarsTable α, t.Reachable ∧ (∀ x, x ∈ t.vars ↔ ∃ i, x ∈ (f i 0).vars) ∧
      (∀ x ∈ t.vars, t.get x = .ok cfg.initialValue) ∧
      solveAuto cfg lsFuel fuel (symOf f) = solve cfg lsFuel fuel (symOf f) t := by
  obtain ⟨names, h1, h2, h3⟩ := C50_getAllVarNames f
  have hne : names ≠ [] := by
    obtain ⟨i, hi⟩ := hv
    obtain ⟨x, hx⟩ := List.exists_mem_of_ne_nil _ hi
    exact List.ne_nil_of_mem ((h3 x).mpr ⟨i, 0, hx⟩)
  have hnd : names.Nodup := h2.imp fun h => strLt_ne h
  obtain ⟨t, ht⟩ := (C46_ofVars names cfg.initialValue).mpr ⟨hne, hnd⟩
  obtain ⟨h4, h5⟩ := C47_ofVars ht
  refine ⟨t, .ofVars ht, fun x => ?_, fun x hx => h5 x (h4 ▸ hx), ?_⟩
  · rw [h4, h3]
    refine ⟨?_, ?_⟩
    · rintro ⟨i, j, hx⟩; rw [Subsingleton.elim j 0] at hx; exact ⟨i, hx⟩
    · rintro ⟨i, hx⟩; exact ⟨i, 0, hx⟩
  · unfold solveAuto
    rw [h1, Res.bind_ok, ht, Res.bind_ok]

/-! ### C49 -/

/-- C49, partial: if the equations can be differentiated (in particular if they contain no `& | %`, see C28), `Solve` never
terminates the process. -/
theorem C49_partial {r : ℕ} (hr : 0 < r) (cfg : Config α) (lsFuel fuel : ℕ)
    (f : Matrix (Fin r) (Fin 1) (Expr α)) {t : VarsTable α} (ht : t.Reachable) (hd : DiffReturns cfg f t.vars) :
    solve cfg lsFuel fuel (symOf f) t ≠ .terminate := by
  obtain ⟨J, hJ⟩ := diffReturns_jacobian hr cfg f t.vars ht.pos hd
  unfold solve
  split
  · rw [newton_unfold cfg _ ht, hJ, Res.bind_ok]
    obtain ⟨D, rfl⟩ := jacobian_symOf hr cfg f t.vars ht.pos J hJ
    exact (newtonLoop_fine hr ht.pos cfg f D _ 0 t _ (by omega) (by push_cast; omega)).2
  · rw [lm_unfold cfg _ _ _ ht, hJ, Res.bind_ok]
    obtain ⟨D, rfl⟩ := jacobian_symOf hr cfg f t.vars ht.pos J hJ
    exact (lmOuter_calm hr ht.pos cfg f D false lsFuel fuel t.vars (fun _ => True) (by simp) (fun _ _ _ _ _ => trivial) (by simp) fuel t 0 ht rfl trivial (by simp)).1
  · simp

/-- C49 fails as stated: an equation with `%` makes `Solve` terminate the process, whatever the method. -/
theorem C49_false : ∃ (f : Matrix (Fin 1) (Fin 1) (Expr (XNum Rat))) (t : VarsTable (XNum Rat)), t.Reachable ∧ (f 0 0).hasIntOp = true ∧
    ∀ m lsFuel fuel, m ≠ .other → solve { defaultConfig with nonlinearMethod := m } lsFuel fuel (symOf f) t = .terminate := by
  refine ⟨modTwo, oneVar 4, .ofList (oneVar_ofList _), by decide, fun m lsFuel fuel hm => ?_⟩
  have hJ : ∀ m, (symOf modTwo).jacobian { defaultConfig with nonlinearMethod := m } (oneVar 4).vars = .terminate := by
    intro m; cases m <;> decide +kernel
  have hr : (oneVar 4).Reachable := .ofList (oneVar_ofList _)
  unfold solve
  cases m with
  | newtonRaphson => simp only; rw [newton_unfold _ _ hr, hJ]; rfl
  | lm => simp only; rw [lm_unfold _ _ _ _ hr, hJ]; rfl
  | other => exact absurd rfl hm

/-! ### C44 -/

/-- C44, partial: from the second step on, Newton-Raphson performs Newton steps: each replaces the current point `x` by `x + d`,
where `d` is what `SolveLinear(J(x), -f(x))` returns.  The first step is taken from the zero vector instead of the initial
values. -/
theorem C44_partial {r : ℕ} (cfg : Config α) (f : Matrix (Fin r) (Fin 1) (Expr α)) {t t' : VarsTable α}
    (ht : t.Reachable) (h : solveByNewtonRaphson cfg (symOf f) t = .ok t') :
    t' = t ∨ ∃ J d t1, (symOf f).jacobian cfg t.vars = .ok J ∧ NewtonCorrection cfg (symOf f) J t d ∧
      (zeroVec t.vars.length).add d = .ok t1.values ∧ t1.vars = t.vars ∧
      ReflTransGen (NewtonStep cfg (symOf f) J) t1 t' := by
  rw [newton_unfold cfg _ ht] at h
  obtain ⟨J, hJ, h⟩ := Res.bind_eq_ok.mp h
  obtain ⟨phi, h1, h⟩ := Res.bind_eq_ok.mp h
  split at h
  · rw [Res.ok.injEq] at h; exact .inl h.symm
  · split at h
    · cases h
    · obtain ⟨j, h2, h⟩ := Res.bind_eq_ok.mp h
      obtain ⟨dq, h3, h⟩ := Res.bind_eq_ok.mp h
      obtain ⟨q', h4, h⟩ := Res.bind_eq_ok.mp h
      obtain ⟨t1, h5, h⟩ := Res.bind_eq_ok.mp h
      obtain ⟨hq', _⟩ := isVec_add (isVec_zeroVec _) h4
      obtain ⟨_, hv, hx⟩ := setValues_good ht.good hq' h5
      subst hx
      exact .inr ⟨J, dq, t1, hJ, ⟨phi, j, h1, h2, h3⟩, h4, hv, newtonLoop_steps cfg _ J _ _ t1 t' (.setValues ht hq' h5) h⟩

/-- C44: if all initial values are zero, every step is a Newton step. -/
theorem C44_zero {r : ℕ} (cfg : Config α) (f : Matrix (Fin r) (Fin 1) (Expr α)) {t t' : VarsTable α} (ht : t.Reachable)
    (h0 : t.values = zeroVec t.vars.length) (h : solveByNewtonRaphson cfg (symOf f) t = .ok t') :
    ∃ J, (symOf f).jacobian cfg t.vars = .ok J ∧ ReflTransGen (NewtonStep cfg (symOf f) J) t t' := by
  rw [newton_unfold cfg _ ht, ← h0] at h
  obtain ⟨J, hJ, h⟩ := Res.bind_eq_ok.mp h
  exact ⟨J, hJ, newtonLoop_steps cfg _ J _ _ t t' ht h⟩

/-- `x^2 - 3.5 x + 2.5 = (x - 1) (x - 2.5)` -/
def twoRoots : Matrix (Fin 1) (Fin 1) (Expr (XNum Rat)) := fun _ _ =>
  .bin .add (.bin .sub (.bin .mul (.var ['x']) (.var ['x'])) (.bin .mul (.num (.fin (7 / 2))) (.var ['x']))) (.num (.fin (5 / 2)))

/-- its derivative as `Diff` writes it -/
def twoRootsJ : SymMat (XNum Rat) := symOf (r := 1) (c := 1) fun _ _ =>
  .bin .sub (.bin .add (.var ['x']) (.var ['x'])) (.num (.fin (7 / 2)))

/-- C44 fails as stated: for `(x - 1)(x - 2.5)` from `x = 2` the correction is `d = 1`, so a Newton step leads to 3; the solver
goes to `0 + 1` and returns 1. -/
theorem C44_false : (symOf twoRoots).jacobian { defaultConfig with maxIterations := 0 } [['x']] = .ok twoRootsJ ∧
    NewtonCorrection { defaultConfig with maxIterations := 0 } (symOf twoRoots) twoRootsJ (oneVar 2) ⟨1, 1, [.fin 1]⟩ ∧
    (oneVar 2).values.add ⟨1, 1, [.fin 1]⟩ = .ok (oneVar 3).values ∧
    solveByNewtonRaphson { defaultConfig with maxIterations := 0 } (symOf twoRoots) (oneVar 2) = .ok (oneVar 1) ∧
    ¬ NewtonStep { defaultConfig with maxIterations := 0 } (symOf twoRoots) twoRootsJ (oneVar 2) (oneVar 1) := by
  have hc : NewtonCorrection { defaultConfig with maxIterations := 0 } (symOf twoRoots) twoRootsJ (oneVar 2) ⟨1, 1, [.fin 1]⟩ :=
    ⟨⟨1, 1, [.fin (-1 / 2)]⟩, ⟨1, 1, [.fin (1 / 2)]⟩, by decide +kernel, by decide +kernel, by decide +kernel⟩
  refine ⟨by decide +kernel, hc, by decide +kernel, by decide +kernel, ?_⟩
  rintro ⟨d, ⟨phi, j, h1, h2, h3⟩, h4, _⟩
  obtain ⟨phi', j', h1', h2', h3'⟩ := hc
  rw [h1', Res.ok.injEq] at h1
  rw [h2', Res.ok.injEq] at h2
  subst h1 h2
  rw [h3', Res.ok.injEq] at h3
  subst h3
  revert h4
  decide +kernel

/-! ### C58, C59 -/

/-- C58: along the accepted steps of LM the sum of squares of the equations strictly decreases, from the initial table to the
returned one. -/
theorem C58 {r : ℕ} (cfg : Config α) (lsFuel fuel : ℕ) (f : Matrix (Fin r) (Fin 1) (Expr α)) {t t' : VarsTable α}
    (ht : t.Reachable) (h : solveByLM cfg lsFuel fuel (symOf f) t = .ok t') : ReflTransGen (Descends cfg (symOf f)) t t' := by
  rw [lm_unfold cfg _ _ _ ht] at h
  obtain ⟨J, h1, h2⟩ := Res.bind_eq_ok.mp h
  exact (lmOuter_ok (jacobian_rows cfg f _ J h1) cfg f J _ _ _ _ t t' ht h2).2.2.2

/-- C59: `Solve` uses the configured method and throws `runtime_error` if there is none. -/
theorem C59 (cfg : Config α) (lsFuel fuel : ℕ) (eqs : SymMat α) (t : VarsTable α) :
    (cfg.nonlinearMethod = .newtonRaphson → solve cfg lsFuel fuel eqs t = solveByNewtonRaphson cfg eqs t) ∧
    (cfg.nonlinearMethod = .lm → solve cfg lsFuel fuel eqs t = solveByLM cfg lsFuel fuel eqs t) ∧
    (cfg.nonlinearMethod = .other → solve cfg lsFuel fuel eqs t = .throw .runtime) := by
  unfold solve
  refine ⟨?_, ?_, ?_⟩ <;> intro h <;> rw [h]

/-! ### the hypotheses are met -/

/-- `x*x - 4` from `x = 3` with LM and from `x = 0 + ...` with Newton: both return. -/
example : ∃ t', solve { defaultConfig with maxIterations := 0 } 0 0 (symOf twoRoots) (oneVar 2) = .ok t' ∧ t' ≠ oneVar 2 :=
  ⟨oneVar 1, by decide +kernel, by decide⟩

example : DiffReturns defaultConfig twoRoots (oneVar 2).vars := by
  intro i x hx
  simp only [oneVar, List.mem_singleton] at hx
  subst hx
  rw [Subsingleton.elim i 0]
  exact ⟨embed (.bin .sub (.bin .add (.var ['x']) (.var ['x'])) (.num (.fin (7 / 2)))), by decide +kernel⟩

example : Satisfies defaultConfig twoRoots (oneVar 1) := by
  intro i
  rw [Subsingleton.elim i 0]
  exact ⟨.fin 0, by decide +kernel, by decide +kernel⟩

/-- LM: `x - 4` from `x = 1`, with a coarse tolerance, takes a step and returns. -/
example : ∃ t', solveByLM { defaultConfig with epsilon := .fin (1 / 1000) } 3 5
    (symOf (r := 1) (c := 1) fun _ _ => .bin .sub (.var ['x']) (.num (.fin 4))) (oneVar 1) = .ok t' ∧ t' ≠ oneVar 1 :=
  ⟨oneVar (400001 / 100001), by decide +kernel, by decide +kernel⟩

end Tom
