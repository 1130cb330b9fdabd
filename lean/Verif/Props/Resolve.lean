import Verif.Lemmas.Settings
import Verif.Props.Nonlinear
/-
C114: solving again.
-/
set_option linter.unusedSectionVars false
namespace Tom
variable {α : Type} [Dbl α]

/-- C114: a table that satisfies the equations is returned by `Solve` as it is, by either method and whatever the limit, provided that the
equations can be differentiated (a negative limit of Newton-Raphson is no obstacle: the residual is tested first). -/
theorem C114_fixed {r : ℕ} (cfg : Config α) (hm : cfg.nonlinearMethod ≠ .other) (lsFuel fuel : ℕ) (f : Matrix (Fin r) (Fin 1) (Expr α))
    {t : VarsTable α} (ht : t.Reachable) {J : SymMat α} (hJ : (symOf f).jacobian cfg t.vars = .ok J) (hs : Satisfies cfg f t) :
    solve cfg lsFuel (fuel + 1) (symOf f) t = .ok t := by
  obtain ⟨phi, h1, h2⟩ := (satisfies_iff (jacobian_rows cfg f _ J hJ) cfg f t).mp hs
  unfold solve
  split
  · rw [newton_unfold cfg _ ht, hJ, Res.bind_ok, newtonLoop, h1, Res.bind_ok, if_pos h2]
  · rw [lm_unfold cfg _ _ _ ht, hJ, Res.bind_ok, lmOuter, h1, Res.bind_ok, if_pos h2]
  · contradiction

/-- a solver that returns has differentiated the equations -/
theorem solve_jacobian {cfg : Config α} {lsFuel fuel : ℕ} {eqs : SymMat α} {t t' : VarsTable α} (ht : t.Reachable)
    (h : solve cfg lsFuel fuel eqs t = .ok t') : ∃ J, eqs.jacobian cfg t.vars = .ok J := by
  unfold solve at h
  split at h
  · rw [newton_unfold cfg _ ht] at h
    obtain ⟨J, h1, _⟩ := Res.bind_eq_ok.mp h
    exact ⟨J, h1⟩
  · rw [lm_unfold cfg _ _ _ ht] at h
    obtain ⟨J, h1, _⟩ := Res.bind_eq_ok.mp h
    exact ⟨J, h1⟩
  · cases h

/-- **C114**: solving again from a returned table returns the same table: with the same method or the other one, with any limit, any
`initialValue` and whether or not indeterminate equations are allowed, as long as epsilon and the treatment of inf and nan are the same.
This holds for every arithmetic. -/
theorem C114 {r : ℕ} {cfg cfg' : Config α} (he : cfg'.epsilon = cfg.epsilon) (hi : cfg'.throwOnInvalidValue = cfg.throwOnInvalidValue)
    (hm : cfg'.nonlinearMethod ≠ .other) (lsFuel fuel lsFuel' fuel' : ℕ) (f : Matrix (Fin r) (Fin 1) (Expr α)) {t t' : VarsTable α}
    (ht : t.Reachable) (h : solve cfg lsFuel fuel (symOf f) t = .ok t') : solve cfg' lsFuel' (fuel' + 1) (symOf f) t' = .ok t' := by
  obtain ⟨h1, h2, h3⟩ := solve_ok ht h
  obtain ⟨J, hJ⟩ := solve_jacobian ht h
  refine C114_fixed cfg' hm lsFuel' fuel' f h3 (J := J) ?_ ?_
  · rw [jacobian_cfg hi, h2]; exact hJ
  · have hr := jacobian_rows cfg f _ J hJ
    rw [satisfies_iff hr] at h1 ⊢
    obtain ⟨phi, k1, k2⟩ := h1
    exact ⟨phi, by rw [evalVec_cfg hi]; exact k1, by rw [he]; exact k2⟩

/-- C114 for `Solve(equations)`: the table it returns, handed to `Solve(equations, table)`, comes back unchanged. -/
theorem C114_auto {r : ℕ} {cfg cfg' : Config α} (he : cfg'.epsilon = cfg.epsilon) (hi : cfg'.throwOnInvalidValue = cfg.throwOnInvalidValue)
    (hm : cfg'.nonlinearMethod ≠ .other) (lsFuel fuel lsFuel' fuel' : ℕ) (f : Matrix (Fin r) (Fin 1) (Expr α)) {t' : VarsTable α}
    (h : solveAuto cfg lsFuel fuel (symOf f) = .ok t') : solve cfg' lsFuel' (fuel' + 1) (symOf f) t' = .ok t' := by
  obtain ⟨names, t, _, h2, h3⟩ := solveAuto_unfold h
  exact C114 he hi hm lsFuel fuel lsFuel' fuel' f (.ofVars h2) h3

/-- C114 is about the same epsilon and the same treatment of inf and nan; and the solver may return another root than the one given with a
smaller epsilon: `x^2 - 4 = 0` from 2.1 is solved by 2.1 itself for epsilon = 1/2, and by a point near -2 for epsilon = 1/10 (C44). -/
theorem C114_epsilon :
    (let f : Matrix (Fin 1) (Fin 1) (Expr (XNum Rat)) := fun _ _ => .bin .sub (.bin .mul (.var ['x']) (.var ['x'])) (.num (.fin 4))
     solveByNewtonRaphson { defaultConfig with epsilon := .fin (1 / 2) } (symOf f) (oneVar (21 / 10)) = .ok (oneVar (21 / 10)) ∧
     ∃ t, solveByNewtonRaphson { defaultConfig with epsilon := .fin (1 / 10) } (symOf f) (oneVar (21 / 10)) = .ok t ∧
       (t.values.data.all fun x => Arith.lt x (.fin (-2)) && Arith.lt (.fin (-21 / 10)) x) = true) := by
  refine ⟨by decide +kernel, ?_⟩
  have h : (match solveByNewtonRaphson { defaultConfig with epsilon := .fin (1 / 10) }
      (symOf (r := 1) (c := 1) fun _ _ => .bin .sub (.bin .mul (.var ['x']) (.var ['x'])) (.num (.fin 4))) (oneVar (21 / 10)) with
    | .ok t => (t.values.data.all fun x => Arith.lt x (.fin (-2)) && Arith.lt (.fin (-21 / 10)) x)
    | _ => false) = true := by
    decide +kernel
  split at h
  · exact ⟨_, by assumption, h⟩
  · cases h

/-- the hypotheses of C114 are met: Newton-Raphson (the default) solves `x^2 - 4 = 0` from 2.1, and LM confirms the result -/
example : (oneVar (21 / 10)).Reachable ∧
    (match solve { defaultConfig with epsilon := .fin (1 / 10) } 0 0
      (symOf (r := 1) (c := 1) fun _ _ => .bin .sub (.bin .mul (.var ['x']) (.var ['x'])) (.num (.fin 4))) (oneVar (21 / 10)) with
    | .ok t => decide (solve { defaultConfig with epsilon := .fin (1 / 10), nonlinearMethod := .lm, maxIterations := 0 } 0 1
      (symOf (r := 1) (c := 1) fun _ _ => .bin .sub (.bin .mul (.var ['x']) (.var ['x'])) (.num (.fin 4))) t = .ok t)
    | _ => false) = true :=
  ⟨.ofList (oneVar_ofList _), by decide +kernel⟩

end Tom
