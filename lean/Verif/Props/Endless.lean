import Verif.Props.Nonlinear
import Verif.Props.Linear
/-
C43, the Levenberg-Marquardt method does not end: two concrete systems.
-/
set_option linter.unusedSectionVars false
namespace Tom

/-! ### an invalid number -/

/-- `x + nan` -/
def plusNan : Matrix (Fin 1) (Fin 1) (Expr (XNum Rat)) := fun _ _ => .bin .add (.var ['x']) (.num .bad)

/-- invalid values are passed on instead of thrown -/
def laxConfig : Config (XNum Rat) := { defaultConfig with throwOnInvalidValue := false }

/-- the Jacobian of `plusNan` -/
def plusNanJ : SymMat (XNum Rat) := symOf (r := 1) (c := 1) fun _ _ => .num (.fin 1)

theorem plusNan_search (limit : ℤ) (lsFuel : ℕ) (alpha : XNum Rat) :
    armijoLoop (lmF { laxConfig with maxIterations := limit } (symOf plusNan) (oneVar 1))
      (lmDF { laxConfig with maxIterations := limit } plusNanJ (oneVar 1)) ⟨1, 1, [.fin 1]⟩ ⟨1, 1, [.bad]⟩
      lsFuel alpha = .diverge := by
  induction lsFuel generalizing alpha with
  | zero => rfl
  | succ n ih =>
    have h1 : (⟨1, 1, [.fin 1]⟩ : Mat (XNum Rat)).add (Mat.scaleLeft alpha ⟨1, 1, [.bad]⟩) = .ok ⟨1, 1, [.bad]⟩ := by
      cases alpha <;> rfl
    have h2 : lmF { laxConfig with maxIterations := limit } (symOf plusNan) (oneVar 1) ⟨1, 1, [.bad]⟩ = .ok ⟨1, 1, [.bad]⟩ := by
      show lmF laxConfig (symOf plusNan) (oneVar 1) ⟨1, 1, [.bad]⟩ = .ok ⟨1, 1, [.bad]⟩
      decide +kernel
    have h3 : (⟨1, 1, [.bad]⟩ : Mat (XNum Rat)).norm2 = .ok .bad := by decide +kernel
    have h4 : lmF { laxConfig with maxIterations := limit } (symOf plusNan) (oneVar 1) ⟨1, 1, [.fin 1]⟩ = .ok ⟨1, 1, [.bad]⟩ := by
      show lmF laxConfig (symOf plusNan) (oneVar 1) ⟨1, 1, [.fin 1]⟩ = .ok ⟨1, 1, [.bad]⟩
      decide +kernel
    have h5 : lmDF { laxConfig with maxIterations := limit } plusNanJ (oneVar 1) ⟨1, 1, [.fin 1]⟩ = .ok ⟨1, 1, [.fin 1]⟩ := by
      show lmDF laxConfig plusNanJ (oneVar 1) _ = _
      decide +kernel
    have h6 : (⟨1, 1, [.fin 1]⟩ : Mat (XNum Rat)).transpose = .ok ⟨1, 1, [.fin 1]⟩ := by decide +kernel
    have h7 : (Mat.scaleLeft (Arith.mul (lit 4 (-1)) alpha) ⟨1, 1, [.fin 1]⟩ : Mat (XNum Rat)).mul ⟨1, 1, [.bad]⟩ = .ok ⟨1, 1, [.bad]⟩ := by
      cases alpha <;> rfl
    have h8 : (⟨1, 1, [.bad]⟩ : Mat (XNum Rat)).add ⟨1, 1, [.bad]⟩ = .ok ⟨1, 1, [.bad]⟩ := by decide +kernel
    have h9 : Arith.le (XNum.bad : XNum Rat) .bad = false := rfl
    rw [armijoLoop, h1, Res.bind_ok, h2, Res.bind_ok, h3, Res.bind_ok, h4, Res.bind_ok, h5, Res.bind_ok, h6, Res.bind_ok, h7,
      Res.bind_ok, h8, Res.bind_ok, h3, Res.bind_ok, h9, if_neg (by simp)]
    exact ih _

/-- C43 fails for LM: with `throwOnInvalidValue = false`, an equation that is nan everywhere makes the line search, and with it
`SolveByLM`, run forever whatever `maxIterations` is: no bound on the rounds of its loops suffices. -/
theorem C43_false_nan (limit : ℤ) (lsFuel fuel : ℕ) : (oneVar 1).Reachable ∧
    solveByLM { laxConfig with maxIterations := limit } lsFuel fuel (symOf plusNan) (oneVar 1) = .diverge := by
  have hr : (oneVar 1).Reachable := .ofList (oneVar_ofList _)
  refine ⟨hr, ?_⟩
  have hJ : (symOf plusNan).jacobian { laxConfig with maxIterations := limit } (oneVar 1).vars = .ok plusNanJ := by
    show (symOf plusNan).jacobian laxConfig (oneVar 1).vars = .ok plusNanJ
    decide +kernel
  rw [lm_unfold _ _ _ _ hr, hJ, Res.bind_ok]
  cases fuel with
  | zero => rfl
  | succ fuel =>
    have e1 : evalVec { laxConfig with maxIterations := limit } (symOf plusNan) (oneVar 1) = .ok ⟨1, 1, [.bad]⟩ := by
      show evalVec laxConfig (symOf plusNan) (oneVar 1) = _
      decide +kernel
    have e2 : evalMat { laxConfig with maxIterations := limit } plusNanJ (oneVar 1) = .ok ⟨1, 1, [.fin 1]⟩ := by
      show evalMat laxConfig plusNanJ (oneVar 1) = _
      decide +kernel
    have e3 : (⟨1, 1, [.bad]⟩ : Mat (XNum Rat)).eqNum laxConfig.epsilon (Dbl.ofInt 0) = false := by decide +kernel
    have e4 : (⟨1, 1, [.fin 1]⟩ : Mat (XNum Rat)).transpose = .ok ⟨1, 1, [.fin 1]⟩ := by decide +kernel
    have e5 : (⟨1, 1, [.fin 1]⟩ : Mat (XNum Rat)).mul ⟨1, 1, [.fin 1]⟩ = .ok ⟨1, 1, [.fin 1]⟩ := by decide +kernel
    have e6 : (⟨1, 1, [.fin 1]⟩ : Mat (XNum Rat)).mul ⟨1, 1, [.bad]⟩ = .ok ⟨1, 1, [.bad]⟩ := by decide +kernel
    have e7 : ∃ z o m, Mat.new 1 1 (Arith.zero : XNum Rat) = .ok z ∧ z.ones = .ok o ∧
        (⟨1, 1, [.fin 1]⟩ : Mat (XNum Rat)).add (Mat.scaleLeft (lit 1 (-5)) o) = .ok m ∧
        solveLinear laxConfig m (⟨1, 1, [.bad]⟩ : Mat (XNum Rat)).neg = .ok ⟨1, 1, [.bad]⟩ :=
      ⟨⟨1, 1, [.fin 0]⟩, ⟨1, 1, [.fin 1]⟩, ⟨1, 1, [.fin (100001 / 100000)]⟩, by decide +kernel, by decide +kernel,
        by decide +kernel, by decide +kernel⟩
    obtain ⟨z, o, m, z1, z2, z3, z4⟩ := e7
    have e8 : (⟨1, 1, [.bad]⟩ : Mat (XNum Rat)).toVec = .ok ⟨1, 1, [.bad]⟩ := by decide +kernel
    have z4' : solveLinear { laxConfig with maxIterations := limit } m (⟨1, 1, [.bad]⟩ : Mat (XNum Rat)).neg = .ok ⟨1, 1, [.bad]⟩ := z4
    unfold lmOuter
    rw [e1, Res.bind_ok]
    rw [if_neg (by rw [e3]; simp)]
    unfold lmInner
    rw [e2, Res.bind_ok, e4, Res.bind_ok, e5, Res.bind_ok, z1, Res.bind_ok, z2, Res.bind_ok, z3, Res.bind_ok, e6, Res.bind_ok, e8,
      Res.bind_ok, z4', Res.bind_ok]
    have := plusNan_search limit lsFuel (Dbl.ofInt 1)
    have h : armijo lsFuel (oneVar 1).values ⟨1, 1, [.bad]⟩
      (fun v => do
        let t ← (oneVar 1).setValues v
        evalVec { laxConfig with maxIterations := limit } (symOf plusNan) t)
      (fun v => do
        let t ← (oneVar 1).setValues v
        evalMat { laxConfig with maxIterations := limit } plusNanJ t) = .diverge := this
    rw [h]
    rfl

/-! ### a negative limit -/

/-- the equation `1 = 0` -/
def justOne : Matrix (Fin 1) (Fin 1) (Expr (XNum Rat)) := fun _ _ => .num (.fin 1)

/-- a negative limit -/
def negConfig (limit : ℤ) : Config (XNum Rat) := { defaultConfig with maxIterations := limit }

/-- the derivative of `1` -/
def zeroJ : SymMat (XNum Rat) := symOf (r := 1) (c := 1) fun _ _ => .num (.fin 0)

theorem solve_mu (cfg : Config (XNum Rat)) (hcfg : cfg.epsilon = defaultConfig.epsilon) (mu : Rat) (hmu : 1 / 100000 ≤ mu) :
    solveLinear cfg ⟨1, 1, [.fin mu]⟩ ⟨1, 1, [.fin 0]⟩ = .ok ⟨1, 1, [.fin 0]⟩ := by
  have hd : ∀ B, Near (1 / 1000000000 : ℚ) (!![mu] : Matrix (Fin 1) (Fin 1) ℚ) B → B.det ≠ 0 := by
    intro B hB h0
    rw [Matrix.det_fin_one] at h0
    have := hB 0 0
    rw [h0] at this
    simp only [Matrix.of_apply, Matrix.cons_val_zero, Matrix.cons_val', Matrix.cons_val_fin_one, sub_zero] at this
    have := lt_of_abs_lt this
    linarith
  obtain ⟨x, h1, ⟨B, hB, h2⟩, _⟩ := C36_nonsingular (α := XNum Rat) cfg (eps := 1 / 1000000000) (by norm_num) hcfg Nat.one_pos !![mu] ![0] hd
  have hb := hd B hB
  have h3 := congrFun h2 0
  rw [Matrix.det_fin_one] at hb
  simp only [Matrix.mulVec, dotProduct, Fin.sum_univ_one, Matrix.cons_val_fin_one, mul_eq_zero] at h3
  have h4 : x 0 = 0 := h3.resolve_left hb
  have e1 : (ofMatrix !![mu] : Mat (XNum Rat)) = ⟨1, 1, [.fin mu]⟩ := rfl
  have e2 : (ofVec ![0] : Mat (XNum Rat)) = ⟨1, 1, [.fin 0]⟩ := rfl
  have e3 : (ofVec x : Mat (XNum Rat)) = ⟨1, 1, [.fin (x 0)]⟩ := rfl
  rw [← e1, ← e2, h1, e3, h4, e2]

theorem justOne_inner (limit : ℤ) (hl : limit < 0) (lsFuel fuel it : ℕ) (mu : Rat) (hmu : 1 / 100000 ≤ mu) :
    lmInner (negConfig limit) lsFuel (symOf justOne) zeroJ ⟨1, 1, [.fin 1]⟩ ⟨1, 1, [.fin 1]⟩ fuel (oneVar 1) (.fin mu) it = .diverge := by
  induction fuel generalizing mu it with
  | zero => rfl
  | succ fuel ih =>
    have e2 : evalMat (negConfig limit) zeroJ (oneVar 1) = .ok ⟨1, 1, [.fin 0]⟩ := by
      show evalMat defaultConfig zeroJ (oneVar 1) = _
      decide +kernel
    have e1 : evalVec (negConfig limit) (symOf justOne) (oneVar 1) = .ok ⟨1, 1, [.fin 1]⟩ := by
      show evalVec defaultConfig (symOf justOne) (oneVar 1) = _
      decide +kernel
    have e4 : (⟨1, 1, [.fin 0]⟩ : Mat (XNum Rat)).transpose = .ok ⟨1, 1, [.fin 0]⟩ := by decide +kernel
    have e5 : (⟨1, 1, [.fin 0]⟩ : Mat (XNum Rat)).mul ⟨1, 1, [.fin 0]⟩ = .ok ⟨1, 1, [.fin 0]⟩ := by decide +kernel
    have e6 : (⟨1, 1, [.fin 0]⟩ : Mat (XNum Rat)).mul ⟨1, 1, [.fin 1]⟩ = .ok ⟨1, 1, [.fin 0]⟩ := by decide +kernel
    have e7 : Mat.new 1 1 (Arith.zero : XNum Rat) = .ok ⟨1, 1, [.fin 0]⟩ := by decide +kernel
    have e8 : (⟨1, 1, [.fin 0]⟩ : Mat (XNum Rat)).ones = .ok ⟨1, 1, [.fin 1]⟩ := by decide +kernel
    have e9 : (⟨1, 1, [.fin 0]⟩ : Mat (XNum Rat)).add (Mat.scaleLeft (.fin mu) ⟨1, 1, [.fin 1]⟩) = .ok ⟨1, 1, [.fin mu]⟩ := by
      have : (⟨1, 1, [.fin 0]⟩ : Mat (XNum Rat)).add (Mat.scaleLeft (.fin mu) ⟨1, 1, [.fin 1]⟩) = .ok ⟨1, 1, [.fin (0 + 1 * mu)]⟩ := rfl
      rw [this, zero_add, one_mul]
    have e10 : (⟨1, 1, [.fin 0]⟩ : Mat (XNum Rat)).toVec = .ok ⟨1, 1, [.fin 0]⟩ := by decide +kernel
    have e11 : (⟨1, 1, [.fin 0]⟩ : Mat (XNum Rat)).neg = ⟨1, 1, [.fin 0]⟩ := by decide +kernel
    have e12 : ∀ lsFuel, armijo (lsFuel + 1) ⟨1, 1, [.fin 1]⟩ ⟨1, 1, [.fin 0]⟩ (lmF (negConfig limit) (symOf justOne) (oneVar 1))
        (lmDF (negConfig limit) zeroJ (oneVar 1)) = .ok (.fin 1) := by
      intro lsFuel
      show armijo (lsFuel + 1) ⟨1, 1, [.fin 1]⟩ ⟨1, 1, [.fin 0]⟩ (lmF defaultConfig (symOf justOne) (oneVar 1))
        (lmDF defaultConfig zeroJ (oneVar 1)) = .ok (.fin 1)
      have a1 : (⟨1, 1, [.fin 1]⟩ : Mat (XNum Rat)).add (Mat.scaleLeft (Dbl.ofInt 1) ⟨1, 1, [.fin 0]⟩) = .ok ⟨1, 1, [.fin 1]⟩ := by
        decide +kernel
      have a2 : lmF defaultConfig (symOf justOne) (oneVar 1) ⟨1, 1, [.fin 1]⟩ = .ok ⟨1, 1, [.fin 1]⟩ := by decide +kernel
      have a3 : lmDF defaultConfig zeroJ (oneVar 1) ⟨1, 1, [.fin 1]⟩ = .ok ⟨1, 1, [.fin 0]⟩ := by decide +kernel
      have a4 : (⟨1, 1, [.fin 1]⟩ : Mat (XNum Rat)).norm2 = .ok (.fin 1) := by decide +kernel
      have a5 : (Mat.scaleLeft (Arith.mul (lit 4 (-1)) (Dbl.ofInt 1)) ⟨1, 1, [.fin 0]⟩ : Mat (XNum Rat)).mul ⟨1, 1, [.fin 0]⟩
          = .ok ⟨1, 1, [.fin 0]⟩ := by decide +kernel
      have a6 : (⟨1, 1, [.fin 1]⟩ : Mat (XNum Rat)).add ⟨1, 1, [.fin 0]⟩ = .ok ⟨1, 1, [.fin 1]⟩ := by decide +kernel
      have a7 : Arith.le (XNum.fin 1 : XNum Rat) (.fin 1) = true := by decide +kernel
      unfold armijo
      rw [armijoLoop, a1, Res.bind_ok, a2, Res.bind_ok, a4, Res.bind_ok, a3, Res.bind_ok, Res.bind_ok, e4, Res.bind_ok, a5,
        Res.bind_ok, a6, Res.bind_ok, a4, Res.bind_ok, a7, if_pos rfl]
      rfl
    unfold lmInner
    rw [e2, Res.bind_ok, e4, Res.bind_ok, e5, Res.bind_ok, e7, Res.bind_ok, e8, Res.bind_ok, e9, Res.bind_ok, e6, Res.bind_ok, e10,
      Res.bind_ok, e11, solve_mu (negConfig limit) rfl mu hmu, Res.bind_ok]
    cases lsFuel with
    | zero => rfl
    | succ lsFuel =>
      have h := e12 lsFuel
      have a1 : (⟨1, 1, [.fin 1]⟩ : Mat (XNum Rat)).add (Mat.scaleLeft (.fin 1) ⟨1, 1, [.fin 0]⟩) = .ok ⟨1, 1, [.fin 1]⟩ := by
        decide +kernel
      have a2 : (oneVar 1).setValues ⟨1, 1, [.fin 1]⟩ = .ok (oneVar 1) := by decide +kernel
      have a4 : (⟨1, 1, [.fin 1]⟩ : Mat (XNum Rat)).norm2 = .ok (.fin 1) := by decide +kernel
      have a7 : Arith.lt (XNum.fin 1 : XNum Rat) (.fin 1) = false := by decide +kernel
      have a8 : Arith.mul (XNum.fin mu) (Dbl.ofInt 10) = XNum.fin (mu * 10) := rfl
      unfold lmF lmDF at h
      rw [h, Res.bind_ok]
      simp only
      rw [a1, Res.bind_ok, a2, Res.bind_ok, e1, Res.bind_ok, a4, Res.bind_ok, Res.bind_ok, a7, if_neg (by simp),
        if_neg (by show ¬ (it : ℤ) = limit; omega), a8]
      exact ih (it + 1) (mu * 10) (by linarith)

/-- C43 fails for LM with a negative limit: on the equation `1 = 0`, which no step improves, `SolveByLM` runs forever.  (`it` is
an `int` there, so that "forever" means until it overflows, after 2^31 rounds.) -/
theorem C43_false_negative (limit : ℤ) (hl : limit < 0) (lsFuel fuel : ℕ) : (oneVar 1).Reachable ∧
    solveByLM { defaultConfig with maxIterations := limit } lsFuel fuel (symOf justOne) (oneVar 1) = .diverge ∧
    solveByNewtonRaphson { defaultConfig with maxIterations := limit } (symOf justOne) (oneVar 1) = .throw .runtime := by
  have hr : (oneVar 1).Reachable := .ofList (oneVar_ofList _)
  have hJ : (symOf justOne).jacobian (negConfig limit) (oneVar 1).vars = .ok zeroJ := by
    show (symOf justOne).jacobian defaultConfig (oneVar 1).vars = .ok zeroJ
    decide +kernel
  have e1 : evalVec (negConfig limit) (symOf justOne) (oneVar 1) = .ok ⟨1, 1, [.fin 1]⟩ := by
    show evalVec defaultConfig (symOf justOne) (oneVar 1) = _
    decide +kernel
  have e3 : (⟨1, 1, [.fin 1]⟩ : Mat (XNum Rat)).eqNum defaultConfig.epsilon (Dbl.ofInt 0) = false := by decide +kernel
  refine ⟨hr, ?_, ?_⟩
  · show solveByLM (negConfig limit) lsFuel fuel (symOf justOne) (oneVar 1) = .diverge
    rw [lm_unfold _ _ _ _ hr, hJ, Res.bind_ok]
    cases fuel with
    | zero => rfl
    | succ fuel =>
      unfold lmOuter
      rw [e1, Res.bind_ok, if_neg (by rw [show (negConfig limit).epsilon = defaultConfig.epsilon from rfl, e3]; simp)]
      have e4 : (lit 1 (-5) : XNum Rat) = .fin (1 / 100000) := by decide +kernel
      rw [e4]
      have := justOne_inner limit hl lsFuel (fuel + 1) 0 (1 / 100000) (le_refl _)
      have e5 : (oneVar 1).values = ⟨1, 1, [.fin 1]⟩ := rfl
      rw [e5, this]
      rfl
  · show solveByNewtonRaphson (negConfig limit) (symOf justOne) (oneVar 1) = .throw .runtime
    rw [newton_unfold _ _ hr, hJ, Res.bind_ok]
    unfold newtonLoop
    rw [e1, Res.bind_ok, if_neg (by rw [show (negConfig limit).epsilon = defaultConfig.epsilon from rfl, e3]; simp),
      if_pos (by show ((0 : ℕ) : ℤ) > limit; omega)]

end Tom
