import Verif.Model.Counters
import Verif.Props.Endless
/-
C89: the iteration counters do not overflow.
-/
set_option linter.unusedSectionVars false
namespace Tom
variable {α : Type} [Dbl α]

theorem res_bind_congr {β γ : Type} (r : Res β) {f g : β → Res γ} (h : ∀ b, r = .ok b → f b = g b) : (r >>= f) = (r >>= g) := by
  cases r with
  | ok b => exact h b rfl
  | _ => rfl

theorem newtonLoopInt_eq (cfg : Config α) (h : cfg.maxIterations < intMax) (eqs ja : SymMat α) (fuel it : ℕ) (t : VarsTable α)
    (q : Mat α) : newtonLoopInt cfg eqs ja fuel it t q = newtonLoop cfg eqs ja fuel it t q := by
  induction fuel generalizing it t q with
  | zero => rfl
  | succ fuel ih =>
    unfold newtonLoopInt newtonLoop
    refine res_bind_congr _ fun phi _ => ?_
    split
    · rfl
    split
    · rfl
    rename_i hn
    refine res_bind_congr _ fun j _ => res_bind_congr _ fun dq _ => res_bind_congr _ fun q _ => res_bind_congr _ fun t _ => ?_
    rw [increment, if_pos (by omega), Res.bind_ok, ← ih]
    rfl

/-- what the inner loop returns, seen with a counter that is an `int` -/
def withInt (r : Mat α × Mat α × VarsTable α × ℕ) : Mat α × Mat α × VarsTable α × Int := (r.1, r.2.1, r.2.2.1, (r.2.2.2 : Int))

theorem lmInnerInt_eq (cfg : Config α) (h : cfg.maxIterations < intMax) (lsFuel : ℕ) (eqs ja : SymMat α) (q F : Mat α)
    (fuel it : ℕ) (hit : (it : Int) ≤ cfg.maxIterations) (t : VarsTable α) (mu : α) :
    lmInnerInt cfg lsFuel eqs ja q F fuel t mu it = (lmInner cfg lsFuel eqs ja q F fuel t mu it >>= fun r => .ok (withInt r)) ∧
      ∀ r, lmInner cfg lsFuel eqs ja q F fuel t mu it = .ok r → (r.2.2.2 : Int) ≤ cfg.maxIterations := by
  induction fuel generalizing it t mu with
  | zero => exact ⟨rfl, by intro r hr; simp [lmInner] at hr⟩
  | succ fuel ih =>
    constructor
    · unfold lmInnerInt lmInner
      simp only [Res.bind_assoc']
      refine res_bind_congr _ fun j _ => res_bind_congr _ fun jt _ => res_bind_congr _ fun jtj _ => res_bind_congr _ fun z _ =>
        res_bind_congr _ fun o _ => res_bind_congr _ fun m _ => res_bind_congr _ fun g _ => res_bind_congr _ fun g' _ =>
        res_bind_congr _ fun d _ => res_bind_congr _ fun a _ => res_bind_congr _ fun qt _ => res_bind_congr _ fun t _ =>
        res_bind_congr _ fun fn _ => res_bind_congr _ fun nn _ => res_bind_congr _ fun no _ => ?_
      split
      · rfl
      rw [increment, if_pos (by omega), Res.bind_ok]
      split
      · rfl
      · exact (ih (it + 1) (by omega) _ _).1
    · intro r hr
      unfold lmInner at hr
      simp only [Res.bind_eq_ok] at hr
      obtain ⟨j, _, jt, _, jtj, _, z, _, o, _, m, _, g, _, g', _, d, _, a, _, qt, _, t, _, fn, _, nn, _, no, _, hr⟩ := hr
      split at hr
      · injection hr with hr
        subst hr
        exact hit
      split at hr
      · cases hr
      · exact (ih (it + 1) (by omega) _ _).2 r hr

theorem lmOuterInt_eq (cfg : Config α) (h : cfg.maxIterations < intMax) (lsFuel innerFuel : ℕ) (eqs ja : SymMat α)
    (fuel it : ℕ) (hit : (it : Int) ≤ cfg.maxIterations) (t : VarsTable α) (q : Mat α) :
    lmOuterInt cfg lsFuel innerFuel eqs ja fuel t q it = lmOuter cfg lsFuel innerFuel eqs ja fuel t q it := by
  induction fuel generalizing it t q with
  | zero => rfl
  | succ fuel ih =>
    unfold lmOuterInt lmOuter
    refine res_bind_congr _ fun F _ => ?_
    split
    · rfl
    obtain ⟨e, hb⟩ := lmInnerInt_eq cfg h lsFuel eqs ja q F innerFuel it hit t (lit 1 (-5))
    rw [e, Res.bind_assoc']
    refine res_bind_congr _ fun r hr => ?_
    obtain ⟨dq, fn, t', it'⟩ := r
    have := hb _ hr
    simp only [Res.bind_ok, withInt]
    refine res_bind_congr _ fun q _ => res_bind_congr _ fun t _ => ?_
    simp only at this
    rw [increment, if_pos (by omega), Res.bind_ok]
    split
    · rfl
    · exact ih (it' + 1) (by omega) _ _

/-- C89, Newton-Raphson: if `maxIterations` is less than INT_MAX (it may be negative) then the 32-bit iteration counter does not
overflow: the program with that counter, whose overflow is undefined, behaves as the one with an unbounded counter, about which
the other theorems are. -/
theorem C89_newton (cfg : Config α) (h : cfg.maxIterations < 2147483647) (eqs : SymMat α) (t : VarsTable α) :
    solveByNewtonRaphsonInt cfg eqs t = solveByNewtonRaphson cfg eqs t := by
  unfold solveByNewtonRaphsonInt solveByNewtonRaphson
  exact res_bind_congr _ fun q _ => res_bind_congr _ fun j _ => newtonLoopInt_eq cfg h _ _ _ 0 _ _

/-- C89, Levenberg-Marquardt: likewise if `maxIterations` is at least 0 and less than INT_MAX, however long the run -/
theorem C89_lm (cfg : Config α) (h0 : 0 ≤ cfg.maxIterations) (h : cfg.maxIterations < 2147483647) (lsFuel fuel : ℕ)
    (eqs : SymMat α) (t : VarsTable α) :
    solveByLMInt cfg lsFuel fuel eqs t = solveByLM cfg lsFuel fuel eqs t := by
  unfold solveByLMInt solveByLM
  exact res_bind_congr _ fun q _ => res_bind_congr _ fun j _ => lmOuterInt_eq cfg h _ _ _ _ _ 0 h0 _ _

/-- C89 for `Solve(equations, varsTable)` and `Solve(equations)` -/
theorem C89 (cfg : Config α) (h0 : 0 ≤ cfg.maxIterations) (h : cfg.maxIterations < 2147483647) (lsFuel fuel : ℕ)
    (eqs : SymMat α) :
    (∀ t, solveInt cfg lsFuel fuel eqs t = solve cfg lsFuel fuel eqs t) ∧
      solveAutoInt cfg lsFuel fuel eqs = solveAuto cfg lsFuel fuel eqs := by
  have key : ∀ t, solveInt cfg lsFuel fuel eqs t = solve cfg lsFuel fuel eqs t := by
    intro t
    unfold solveInt solve
    cases cfg.nonlinearMethod with
    | newtonRaphson => exact C89_newton cfg h eqs t
    | lm => exact C89_lm cfg h0 h lsFuel fuel eqs t
    | other => rfl
  refine ⟨key, ?_⟩
  unfold solveAutoInt solveAuto
  exact res_bind_congr _ fun n _ => res_bind_congr _ fun t _ => key t

/-- the hypotheses hold of the default configuration, and the programs return -/
example : 0 ≤ defaultConfig.maxIterations ∧ defaultConfig.maxIterations < 2147483647 ∧
    solveByNewtonRaphsonInt defaultConfig (symOf (r := 1) (c := 1) fun _ _ => .bin .sub (.var ['x']) (.num (.fin 3))) (oneVar 1)
      = .ok (oneVar 3) := by
  decide +kernel

/-! ### negations -/

/-- `x x x - 2 x + 2`: from 0 Newton's method goes to 1, and from 1 back to 0 -/
def cycle : Matrix (Fin 1) (Fin 1) (Expr (XNum Rat)) := fun _ _ =>
  .bin .add (.bin .sub (.bin .mul (.bin .mul (.var ['x']) (.var ['x'])) (.var ['x'])) (.bin .mul (.num (.fin 2)) (.var ['x'])))
    (.num (.fin 2))

/-- the default configuration with `maxIterations = INT_MAX` -/
def maxConfig : Config (XNum Rat) := { defaultConfig with maxIterations := 2147483647 }

theorem cycle_overflow (ja : SymMat (XNum Rat)) (hja : (symOf cycle).jacobian maxConfig (oneVar 0).vars = .ok ja) (k fuel : ℕ)
    (b : Bool) :
    newtonLoopInt maxConfig (symOf cycle) ja (k + 1 + fuel) (2147483647 - (k : ℤ)) (oneVar (if b then 1 else 0))
      ⟨1, 1, [.fin (if b then 1 else 0)]⟩ = .ub := by
  have step : ∀ (f : ℕ) (it : ℤ) (b : Bool), it ≤ 2147483647 →
      newtonLoopInt maxConfig (symOf cycle) ja (f + 1) it (oneVar (if b then 1 else 0)) ⟨1, 1, [.fin (if b then 1 else 0)]⟩ =
      (increment it >>= fun it' => newtonLoopInt maxConfig (symOf cycle) ja f it' (oneVar (if !b then 1 else 0))
        ⟨1, 1, [.fin (if !b then 1 else 0)]⟩) := by
    intro f it b hit
    have key : ∀ b : Bool, ∃ phi j dq, evalVec maxConfig (symOf cycle) (oneVar (if b then 1 else 0)) = .ok phi ∧
        phi.eqNum maxConfig.epsilon (Dbl.ofInt 0) = false ∧
        (((symOf cycle).jacobian maxConfig (oneVar 0).vars) >>= fun ja => evalMat maxConfig ja (oneVar (if b then 1 else 0))) = .ok j ∧
        solveLinear maxConfig j phi.neg = .ok dq ∧
        (⟨1, 1, [.fin (if b then 1 else 0)]⟩ : Mat (XNum Rat)).add dq = .ok ⟨1, 1, [.fin (if !b then 1 else 0)]⟩ ∧
        (oneVar (if b then 1 else 0)).setValues ⟨1, 1, [.fin (if !b then 1 else 0)]⟩ = .ok (oneVar (if !b then 1 else 0)) := by
      intro b
      cases b
      · exact ⟨⟨1, 1, [.fin 2]⟩, ⟨1, 1, [.fin (-2)]⟩, ⟨1, 1, [.fin 1]⟩, by decide +kernel, by decide +kernel, by decide +kernel,
          by decide +kernel, by decide +kernel, by decide +kernel⟩
      · exact ⟨⟨1, 1, [.fin 1]⟩, ⟨1, 1, [.fin 1]⟩, ⟨1, 1, [.fin (-1)]⟩, by decide +kernel, by decide +kernel, by decide +kernel,
          by decide +kernel, by decide +kernel, by decide +kernel⟩
    obtain ⟨phi, j, dq, h1, h2, h3, h4, h5, h6⟩ := key b
    rw [hja, Res.bind_ok] at h3
    rw [newtonLoopInt.eq_2, h1, Res.bind_ok, if_neg (by rw [h2]; simp), if_neg (by show ¬ it > 2147483647; omega), h3, Res.bind_ok,
      h4, Res.bind_ok, h5, Res.bind_ok, h6, Res.bind_ok]
  induction k generalizing b with
  | zero =>
    rw [show 0 + 1 + fuel = fuel + 1 by omega, step _ _ _ (by omega)]
    rfl
  | succ k ih =>
    rw [show k + 1 + 1 + fuel = (k + 1 + fuel) + 1 by omega, step _ _ _ (by omega), increment,
      if_pos (by unfold intMax; omega), Res.bind_ok,
      show (2147483647 : ℤ) - ((k + 1 : ℕ) : ℤ) + 1 = 2147483647 - (k : ℤ) by omega]
    exact ih (!b)

/-- With `maxIterations = INT_MAX` the condition of C89 is needed: on `x x x - 2 x + 2 = 0` from 0, where Newton's method runs in
a circle, `it` overflows: undefined behaviour instead of an exception. -/
theorem C89_false_max : (oneVar 0).Reachable ∧
    solveByNewtonRaphsonInt { defaultConfig with maxIterations := 2147483647 } (symOf cycle) (oneVar 0) = .ub := by
  refine ⟨.ofList (oneVar_ofList _), ?_⟩
  have hn : Mat.new (oneVar 0).varNums 1 (Arith.zero : XNum Rat) = .ok ⟨1, 1, [.fin 0]⟩ := by decide +kernel
  have hj : ∃ ja, (symOf cycle).jacobian maxConfig (oneVar 0).vars = .ok ja := by
    have : (match (symOf cycle).jacobian maxConfig (oneVar 0).vars with | .ok _ => true | _ => false) = true := by decide +kernel
    generalize (symOf cycle).jacobian maxConfig (oneVar 0).vars = r at this ⊢
    cases r with
    | ok b => exact ⟨b, rfl⟩
    | _ => cases this
  obtain ⟨ja, hja⟩ := hj
  show solveByNewtonRaphsonInt maxConfig (symOf cycle) (oneVar 0) = .ub
  unfold solveByNewtonRaphsonInt
  rw [hn, Res.bind_ok, hja, Res.bind_ok]
  have key := cycle_overflow ja hja 2147483647 2 false
  rw [show (2147483647 : ℤ) - ((2147483647 : ℕ) : ℤ) = 0 by omega] at key
  rw [show (maxConfig.maxIterations + 2).toNat + 1 = 2147483647 + 1 + 2 by rfl]
  exact key

theorem justOne_overflow (limit : ℤ) (hl : limit < 0) (lsFuel k fuel : ℕ) (hk : k ≤ 2147483647) (mu : Rat)
    (hmu : 1 / 100000 ≤ mu) :
    lmInnerInt (negConfig limit) (lsFuel + 1) (symOf justOne) zeroJ ⟨1, 1, [.fin 1]⟩ ⟨1, 1, [.fin 1]⟩ (k + 1 + fuel) (oneVar 1) (.fin mu)
      (2147483647 - (k : ℤ)) = .ub := by
  have round : ∀ (f : ℕ) (it : ℤ) (mu : Rat), 0 ≤ it → 1 / 100000 ≤ mu →
      lmInnerInt (negConfig limit) (lsFuel + 1) (symOf justOne) zeroJ ⟨1, 1, [.fin 1]⟩ ⟨1, 1, [.fin 1]⟩ (f + 1) (oneVar 1) (.fin mu) it =
      (increment it >>= fun it' => lmInnerInt (negConfig limit) (lsFuel + 1) (symOf justOne) zeroJ ⟨1, 1, [.fin 1]⟩ ⟨1, 1, [.fin 1]⟩ f
        (oneVar 1) (.fin (mu * 10)) it') := by
    intro f it mu hit hmu
    have e2 : evalMat (negConfig limit) zeroJ (oneVar 1) = .ok ⟨1, 1, [.fin 0]⟩ := by
      show evalMat defaultConfig zeroJ (oneVar 1) = _
      decide +kernel
    have e1 : evalVec (negConfig limit) (symOf justOne) (oneVar 1) = .ok ⟨1, 1, [.fin 1]⟩ := by
      show evalVec defaultConfig (symOf justOne) (oneVar 1) = _
      decide +kernel
    have e4 : (⟨1, 1, [.fin 0]⟩ : Mat (XNum Rat)).transpose = .ok ⟨1, 1, [.fin 0]⟩ := by decide +kernel
    have e5 : (⟨1, 1, [.fin 0]⟩ : Mat (XNum Rat)).mul ⟨1, 1, [.fin 0]⟩ = .ok ⟨1, 1, [.fin 0]⟩ := by decide +kernel
    have e6 : (⟨1, 1, [.fin 0]⟩ : Mat (XNum Rat)).mul ⟨1, 1, [.fin 1]⟩ = .ok ⟨1, 1, [.fin 0]⟩ := by decide +kernel
    have e7 : Mat.new 1 1 (Arith.zero : XNum Rat) = .ok ⟨1, 1, [.fin 0]⟩ := by decide +kernel
    have e8 : (⟨1, 1, [.fin 0]⟩ : Mat (XNum Rat)).ones = .ok ⟨1, 1, [.fin 1]⟩ := by decide +kernel
    have e9 : (⟨1, 1, [.fin 0]⟩ : Mat (XNum Rat)).add (Mat.scaleLeft (.fin mu) ⟨1, 1, [.fin 1]⟩) = .ok ⟨1, 1, [.fin mu]⟩ := by
      have : (⟨1, 1, [.fin 0]⟩ : Mat (XNum Rat)).add (Mat.scaleLeft (.fin mu) ⟨1, 1, [.fin 1]⟩) = .ok ⟨1, 1, [.fin (0 + 1 * mu)]⟩ := rfl
      rw [this, zero_add, one_mul]
    have e10 : (⟨1, 1, [.fin 0]⟩ : Mat (XNum Rat)).toVec = .ok ⟨1, 1, [.fin 0]⟩ := by decide +kernel
    have e11 : (⟨1, 1, [.fin 0]⟩ : Mat (XNum Rat)).neg = ⟨1, 1, [.fin 0]⟩ := by decide +kernel
    have e12 : ∀ lsFuel, armijo (lsFuel + 1) ⟨1, 1, [.fin 1]⟩ ⟨1, 1, [.fin 0]⟩ (lmF (negConfig limit) (symOf justOne) (oneVar 1))
        (lmDF (negConfig limit) zeroJ (oneVar 1)) = .ok (.fin 1) := by
      intro lsFuel
      show armijo (lsFuel + 1) ⟨1, 1, [.fin 1]⟩ ⟨1, 1, [.fin 0]⟩ (lmF defaultConfig (symOf justOne) (oneVar 1))
        (lmDF defaultConfig zeroJ (oneVar 1)) = .ok (.fin 1)
      have a1 : (⟨1, 1, [.fin 1]⟩ : Mat (XNum Rat)).add (Mat.scaleLeft (Dbl.ofInt 1) ⟨1, 1, [.fin 0]⟩) = .ok ⟨1, 1, [.fin 1]⟩ := by
        decide +kernel
      have a2 : lmF defaultConfig (symOf justOne) (oneVar 1) ⟨1, 1, [.fin 1]⟩ = .ok ⟨1, 1, [.fin 1]⟩ := by decide +kernel
      have a3 : lmDF defaultConfig zeroJ (oneVar 1) ⟨1, 1, [.fin 1]⟩ = .ok ⟨1, 1, [.fin 0]⟩ := by decide +kernel
      have a4 : (⟨1, 1, [.fin 1]⟩ : Mat (XNum Rat)).norm2 = .ok (.fin 1) := by decide +kernel
      have a5 : (Mat.scaleLeft (Arith.mul (lit 4 (-1)) (Dbl.ofInt 1)) ⟨1, 1, [.fin 0]⟩ : Mat (XNum Rat)).mul ⟨1, 1, [.fin 0]⟩
          = .ok ⟨1, 1, [.fin 0]⟩ := by decide +kernel
      have a6 : (⟨1, 1, [.fin 1]⟩ : Mat (XNum Rat)).add ⟨1, 1, [.fin 0]⟩ = .ok ⟨1, 1, [.fin 1]⟩ := by decide +kernel
      have a7 : Arith.le (XNum.fin 1 : XNum Rat) (.fin 1) = true := by decide +kernel
      unfold armijo
      rw [armijoLoop, a1, Res.bind_ok, a2, Res.bind_ok, a4, Res.bind_ok, a3, Res.bind_ok, Res.bind_ok, e4, Res.bind_ok, a5,
        Res.bind_ok, a6, Res.bind_ok, a4, Res.bind_ok, a7, if_pos rfl]
      rfl
    have h := e12 lsFuel
    have a1 : (⟨1, 1, [.fin 1]⟩ : Mat (XNum Rat)).add (Mat.scaleLeft (.fin 1) ⟨1, 1, [.fin 0]⟩) = .ok ⟨1, 1, [.fin 1]⟩ := by
      decide +kernel
    have a2 : (oneVar 1).setValues ⟨1, 1, [.fin 1]⟩ = .ok (oneVar 1) := by decide +kernel
    have a4 : (⟨1, 1, [.fin 1]⟩ : Mat (XNum Rat)).norm2 = .ok (.fin 1) := by decide +kernel
    have a7 : Arith.lt (XNum.fin 1 : XNum Rat) (.fin 1) = false := by decide +kernel
    have a8 : Arith.mul (XNum.fin mu) (Dbl.ofInt 10) = XNum.fin (mu * 10) := rfl
    rw [lmInnerInt.eq_2]
    rw [e2, Res.bind_ok, e4, Res.bind_ok, e5, Res.bind_ok, e7, Res.bind_ok, e8, Res.bind_ok, e9, Res.bind_ok, e6, Res.bind_ok, e10,
      Res.bind_ok, e11, solve_mu (negConfig limit) rfl mu hmu, Res.bind_ok]
    unfold lmF lmDF at h
    rw [h, Res.bind_ok]
    simp only
    rw [a1, Res.bind_ok, a2, Res.bind_ok, e1, Res.bind_ok, a4, Res.bind_ok, Res.bind_ok, a7, if_neg (by simp), a8]
    refine res_bind_congr _ fun it' _ => ?_
    rw [if_neg (by show ¬ it = limit; omega)]
  induction k generalizing mu with
  | zero =>
    rw [show 0 + 1 + fuel = fuel + 1 by omega, round fuel _ mu (by omega) hmu]
    rfl
  | succ k ih =>
    rw [show k + 1 + 1 + fuel = (k + 1 + fuel) + 1 by omega, round (k + 1 + fuel) _ mu (by omega) hmu, increment,
      if_pos (by unfold intMax; omega), Res.bind_ok,
      show (2147483647 : ℤ) - ((k + 1 : ℕ) : ℤ) + 1 = 2147483647 - (k : ℤ) by omega]
    exact ih (by omega) (mu * 10) (by linarith)

/-- With a negative `maxIterations` SolveByLM never compares equal: on the equation `1 = 0`, which no step improves, `it` counts
up to INT_MAX and overflows.  (The fuels stand for the 2^31 rounds; every larger fuel gives the same.) -/
theorem C89_false_negative (limit : ℤ) (hl : limit < 0) (lsFuel fuel : ℕ) : (oneVar 1).Reachable ∧
    solveByLMInt { defaultConfig with maxIterations := limit } (lsFuel + 1) (2147483648 + fuel) (symOf justOne) (oneVar 1) = .ub := by
  refine ⟨.ofList (oneVar_ofList _), ?_⟩
  have hJ : (symOf justOne).jacobian (negConfig limit) (oneVar 1).vars = .ok zeroJ := by
    show (symOf justOne).jacobian defaultConfig (oneVar 1).vars = .ok zeroJ
    decide +kernel
  have e1 : evalVec (negConfig limit) (symOf justOne) (oneVar 1) = .ok ⟨1, 1, [.fin 1]⟩ := by
    show evalVec defaultConfig (symOf justOne) (oneVar 1) = _
    decide +kernel
  have e3 : (⟨1, 1, [.fin 1]⟩ : Mat (XNum Rat)).eqNum defaultConfig.epsilon (Dbl.ofInt 0) = false := by decide +kernel
  have hn : Mat.new (oneVar 1).varNums 1 (Arith.zero : XNum Rat) = .ok ⟨1, 1, [.fin 0]⟩ := by decide +kernel
  show solveByLMInt (negConfig limit) (lsFuel + 1) (2147483648 + fuel) (symOf justOne) (oneVar 1) = .ub
  unfold solveByLMInt
  rw [hn, Res.bind_ok, hJ, Res.bind_ok]
  have key := justOne_overflow limit hl lsFuel 2147483647 fuel (by omega) (1 / 100000) (le_refl _)
  rw [show (2147483647 : ℤ) - ((2147483647 : ℕ) : ℤ) = 0 by omega, show 2147483647 + 1 + fuel = 2147483648 + fuel by omega] at key
  generalize hN : 2147483648 + fuel = N at key ⊢
  obtain ⟨m, rfl⟩ : ∃ m, N = m + 1 := ⟨N - 1, by omega⟩
  rw [lmOuterInt.eq_2, e1, Res.bind_ok, if_neg (by rw [show (negConfig limit).epsilon = defaultConfig.epsilon from rfl, e3]; simp)]
  have e4 : (lit 1 (-5) : XNum Rat) = .fin (1 / 100000) := by decide +kernel
  have e5 : (oneVar 1).values = ⟨1, 1, [.fin 1]⟩ := rfl
  rw [e4, e5, key]
  rfl

end Tom
