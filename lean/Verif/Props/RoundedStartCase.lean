import Verif.Props.RoundedStart
import Verif.Props.RoundedNewtonCase
import Verif.Props.TextSolve
/-
A case of C105 from initial values: the text `(x+20)*x-20`, solved with every setting at its default (Newton's method from the value 1).
-/
set_option linter.unusedSectionVars false
namespace Tom
open Filter Topology
namespace Double

theorem rule_num20 (ρ : Str → ℝ) : Encl (ruleEnclosure (1 / 2 ^ 53) ρ (.num (.fin 20))) 20 (1 / 2 ^ 48) := by
  refine ⟨ruleLiteralError (1 / 2 ^ 53) 20, ?_, ruleLiteralError_nonneg (by positivity) 20, ?_⟩
  · simp only [ruleEnclosure, XNum.val?, Option.bind_some]
    rw [if_pos (.inr (lt_of_le_of_lt (by norm_num) hundred_lt))]
  · unfold ruleLiteralError
    split
    · positivity
    · rw [max_self]
      have h1 : (1 : ℝ) / 2 ^ 1074 ≤ 1 / 2 ^ 60 := one_div_pow_le_one_div_pow_of_le (by norm_num) (by norm_num)
      have h2 : (1 : ℝ) / 2 ^ 53 * |20| + 1 / 2 ^ 60 ≤ 1 / 2 ^ 48 := by norm_num
      linarith

/-- the equation `(x + 20) x - 20 = 0` -/
def nearTwenty {L : Libm} : Matrix (Fin 1) (Fin 1) (Expr (Double L)) := fun _ _ =>
  .bin .sub (.bin .mul (.bin .add (.var ['x']) (.num (Dbl.ofInt 20))) (.var ['x'])) (.num (Dbl.ofInt 20))

/-- its real counterpart -/
noncomputable def nearTwentyR : Matrix (Fin 1) (Fin 1) (Expr (XNum ℝ)) := fun _ _ =>
  .bin .sub (.bin .mul (.bin .add (.var ['x']) (.num (.fin 20))) (.var ['x'])) (.num (.fin 20))

theorem nearTwenty_real {L : Libm} : realSystem (nearTwenty (L := L)) = nearTwentyR := by
  have h : ∀ i : ℤ, |i| ≤ 2 ^ 53 → Double.toReal (Dbl.ofInt i : Double L) = .fin i := fun i hi => by
    rw [toReal_is (is_ofInt hi)]; push_cast; rfl
  funext i j
  simp [realSystem, nearTwenty, nearTwentyR, Expr.mapNum, h 20 (by norm_num), h 20 (by norm_num)]

theorem nearTwentyR_val (ρ : Str → ℝ) (i j : Fin 1) : realVal ρ (nearTwentyR i j) = some ((ρ ['x'] + 20) * ρ ['x'] - 20) := by
  simp [nearTwentyR, realVal, BinOp.real, XNum.val?]

theorem nearTwentyR_jacobian (u : Fin 1 → ℝ) (A : Matrix (Fin 1) (Fin 1) ℝ) (h : IsJacobian nearTwentyR [['x']] u A) : A = !![2 * u 0 + 20] := by
  have hd : HasDerivAt (fun s : ℝ => (s + 20) * s - 20) (2 * u 0 + 20) (u 0) := by
    have h2 : HasDerivAt (fun s : ℝ => (s + 20) * s - 20) (1 * u 0 + (u 0 + 20) * 1) (u 0) :=
      (((hasDerivAt_id (u 0)).add_const 20).mul (hasDerivAt_id (u 0))).sub_const 20
    exact h2.congr_deriv (by ring)
  have hv : ∀ s, realVal (at_ (assign [['x']] u) ['x'] s) (nearTwentyR 0 0) = some ((s + 20) * s - 20) := by
    intro s
    rw [nearTwentyR_val]
    simp [at_]
  ext i j
  rw [Fin.fin_one_eq_zero i, Fin.fin_one_eq_zero j]
  obtain ⟨g, h1, h2⟩ := h 0 0
  have h3 : g =ᶠ[𝓝 (u 0)] fun s => (s + 20) * s - 20 := by
    filter_upwards [h1] with s hs
    have := (hv s).symm.trans hs
    simpa using this.symm
  exact h2.unique (hd.congr_of_eventuallyEq h3)

/-- the root -/
noncomputable def rootT : Fin 1 → ℝ := fun _ => Real.sqrt 120 - 10

theorem rootT_bounds : (95 : ℝ) / 100 ≤ rootT 0 ∧ rootT 0 ≤ 96 / 100 ∧ (rootT 0 + 20) * rootT 0 - 20 = 0 := by
  have h := Real.sq_sqrt (by norm_num : (0 : ℝ) ≤ 120)
  have h0 := Real.sqrt_nonneg 120
  have e : rootT 0 = Real.sqrt 120 - 10 := rfl
  rw [e]
  refine ⟨?_, ?_, by nlinarith⟩
  · have : (1095 : ℝ) / 100 ≤ Real.sqrt 120 := Real.le_sqrt_of_sq_le (by norm_num)
    linarith
  · have : Real.sqrt 120 ≤ 1096 / 100 := Real.sqrt_le_iff.mpr ⟨by norm_num, by norm_num⟩
    linarith

theorem nearT_bounds {w : Fin 1 → ℝ} (h : ‖w - rootT‖ ≤ 9 / 8) : -18 / 100 ≤ w 0 ∧ w 0 ≤ 209 / 100 := by
  have h1 := (norm_le_pi_norm (w - rootT) 0).trans h
  rw [Real.norm_eq_abs, Pi.sub_apply, abs_le] at h1
  obtain ⟨b1, b2, -⟩ := rootT_bounds
  constructor <;> linarith [h1.1, h1.2]

theorem nearTwenty_region : RoundedRegion (L := accurate) (1 / 2 ^ 53) [['x']] nearTwenty rootT (9 / 8) (1 / 19) (9 / 2) 25 (1 / 2 ^ 43) (1 / 2 ^ 40) where
  root := by
    intro i
    rw [nearTwenty_real, nearTwentyR_val]
    exact congrArg some rootT_bounds.2.2
  closed := by intro i x hx; simpa [nearTwenty, Expr.vars] using hx
  noExp := by
    intro i x _
    simp [nearTwenty, Expr.NoForeignExp]
  smooth := by
    intro w _ i
    rw [nearTwenty_real]
    simp [nearTwentyR, Smooth]
  stretch := by
    intro w hw A hA x
    rw [nearTwenty_real] at hA
    rw [nearTwentyR_jacobian w A hA]
    obtain ⟨b1, b2⟩ := nearT_bounds hw
    apply norm_one_le
    have h1 := norm_le_pi_norm ((!![2 * w 0 + 20] : Matrix (Fin 1) (Fin 1) ℝ).mulVec x) 0
    have h2 : (!![2 * w 0 + 20] : Matrix (Fin 1) (Fin 1) ℝ).mulVec x 0 = (2 * w 0 + 20) * x 0 := by simp [Matrix.mulVec, dotProduct]
    rw [h2, Real.norm_eq_abs, abs_mul, abs_of_nonneg (by linarith : (0 : ℝ) ≤ 2 * w 0 + 20)] at h1
    have h3 := mul_le_mul_of_nonneg_right (by linarith : (19 : ℝ) ≤ 2 * w 0 + 20) (abs_nonneg (x 0))
    linarith
  bounded := by
    intro w hw A hA i j
    rw [nearTwenty_real] at hA
    obtain ⟨b1, b2⟩ := nearT_bounds hw
    rw [nearTwentyR_jacobian w A hA, Fin.fin_one_eq_zero i, Fin.fin_one_eq_zero j]
    show |2 * w 0 + 20| ≤ 25
    rw [abs_of_nonneg (by linarith)]
    linarith
  steady := by
    intro w w' hw hw' A A' hA hA' i j
    rw [nearTwenty_real] at hA hA'
    rw [nearTwentyR_jacobian w A hA, nearTwentyR_jacobian w' A' hA', Fin.fin_one_eq_zero i, Fin.fin_one_eq_zero j]
    show |(2 * w 0 + 20) - (2 * w' 0 + 20)| ≤ 9 / 2
    have h1 := (norm_le_pi_norm (w - rootT) 0).trans hw
    have h2 := (norm_le_pi_norm (w' - rootT) 0).trans hw'
    rw [Real.norm_eq_abs, Pi.sub_apply, abs_le] at h1 h2
    rw [abs_le]
    constructor <;> linarith [h1.1, h1.2, h2.1, h2.2]
  value := by
    intro w _ hw i
    obtain ⟨b1, b2⟩ := nearT_bounds hw
    have hx : assign [['x']] (realVec w) ['x'] = realVec w 0 := rfl
    have k1 := encl_add (encl_var (L := accurate) (assign [['x']] (realVec w)) ['x']) (encl_num (L := accurate) (assign [['x']] (realVec w)) 20 (by norm_num)) (by
      rw [hx, abs_of_nonneg (by push_cast; linarith)]; push_cast; linarith)
    have k2 := encl_mul k1 (encl_var (L := accurate) (assign [['x']] (realVec w)) ['x']) (V := 23) (W := 3) (by
      rw [hx, abs_of_nonneg (by push_cast; linarith)]; push_cast; linarith) (by rw [hx, abs_le]; constructor <;> linarith) (by norm_num)
    have k3 := encl_sub k2 (encl_num (L := accurate) (assign [['x']] (realVec w)) 20 (by norm_num)) (by
      rw [hx]
      have : |(realVec w 0 + (20 : ℤ)) * realVec w 0 - (20 : ℤ)| ≤ 50 := by
        push_cast; rw [abs_le]; constructor <;> nlinarith
      refine (add_le_add this le_rfl).trans ?_
      norm_num)
    obtain ⟨E, e1, -, e3⟩ := k3
    exact ⟨_, E, e1, e3.trans (by norm_num)⟩
  deriv := by
    intro w _ hw i j
    rw [nearTwenty_real]
    obtain ⟨b1, b2⟩ := nearT_bounds hw
    have hj : [['x']][j] = ['x'] := by
      match j with
      | ⟨0, _⟩ => rfl
    have hd : dE [['x']][j] (nearTwentyR i 0) = .bin .sub (.bin .add (.bin .mul (.bin .add (.num (.fin 1)) (.num (.fin 0))) (.var ['x']))
        (.bin .mul (.bin .add (.var ['x']) (.num (.fin 20))) (.num (.fin 1)))) (.num (.fin 0)) := by
      rw [hj]
      have h1 : (Dbl.ofInt 1 : XNum ℝ) = .fin 1 := by show XNum.fin _ = _; norm_num
      have h0 : (Dbl.ofInt 0 : XNum ℝ) = .fin 0 := by show XNum.fin _ = _; norm_num
      simp [nearTwentyR, dE, Expr.isNum, h1, h0]
    rw [hd]
    set ρ := assign [['x']] (realVec w) with hρ
    have hx : ρ ['x'] = realVec w 0 := rfl
    have k1 := encl_add (rule_num ρ (r := 1) (by norm_num)) (rule_num ρ (r := 0) (by norm_num)) (by norm_num)
    have k2 := encl_mul k1 (rule_var ρ ['x']) (V := 1) (W := 3) (by norm_num) (by rw [hx, abs_le]; constructor <;> linarith) (by norm_num)
    have k3 := encl_add (rule_var ρ ['x']) (rule_num20 ρ) (by
      rw [hx, abs_of_nonneg (by linarith)]
      linarith [(by norm_num : (0 : ℝ) + 1 / 2 ^ 48 ≤ 1)])
    have k4 := encl_mul k3 (rule_num ρ (r := 1) (by norm_num)) (V := 23) (W := 1) (by rw [hx, abs_of_nonneg (by linarith)]; linarith) (by norm_num) (by norm_num)
    have k5 := encl_add k2 k4 (by
      have : |(1 + 0) * ρ ['x'] + (ρ ['x'] + 20) * 1| ≤ 50 := by rw [hx, abs_le]; constructor <;> linarith
      refine (add_le_add this le_rfl).trans ?_
      norm_num)
    have k6 := encl_sub k5 (rule_num ρ (r := 0) (by norm_num)) (by
      have : |(1 + 0) * ρ ['x'] + (ρ ['x'] + 20) * 1 - 0| ≤ 50 := by rw [hx, abs_le]; constructor <;> linarith
      refine (add_le_add this le_rfl).trans ?_
      norm_num)
    obtain ⟨E, e1, -, e3⟩ := k6
    exact ⟨_, E, e1, e3.trans (by norm_num)⟩

theorem nearTwenty_room {ε : ℚ} (h1 : 1 / 10 ^ 10 ≤ ε) (h2 : ε ≤ 1 / 10 ^ 8) : RoundedRoom 1 ε 26 30 := by
  have hg : growth ≤ 201 / 100 := by norm_num [growth]
  have hg0 : 0 < growth := by norm_num [growth]
  have hε : 0 < ε := lt_of_lt_of_le (by norm_num) h1
  have hbig : (10 : ℚ) ^ 60 ≤ 2 ^ 998 := by
    have : (2 : ℚ) ^ 200 ≤ 2 ^ 998 := pow_le_pow_right₀ (by norm_num) (by norm_num)
    exact le_trans (by norm_num) this
  have hsmall : (1 : ℚ) / 2 ^ 900 ≤ 1 := by
    rw [div_le_one (by positivity)]
    exact one_le_pow₀ (by norm_num)
  have hsmall' : (1 : ℚ) / 2 ^ 1000 ≤ 1 / 10 := by
    have : (1 : ℚ) / 2 ^ 1000 ≤ 1 / 2 ^ 10 := one_div_pow_le_one_div_pow_of_le (by norm_num) (by norm_num)
    exact this.trans (by norm_num)
  have hinv : 1 / ε ≤ 10 ^ 10 := by
    rw [div_le_iff₀ hε]
    have := mul_le_mul_of_nonneg_left h1 (by norm_num : (0 : ℚ) ≤ 10 ^ 10)
    norm_num at this ⊢
    linarith
  have hinv0 : 0 < 1 / ε := by positivity
  refine ⟨hε, h2.trans (by norm_num), by linarith, by linarith, ?_, ?_, ?_, ?_⟩
  · push_cast
    generalize (1 : ℚ) / 2 ^ 1000 = t at *
    linarith
  · rw [pow_one]
    generalize (2 : ℚ) ^ 998 = B at *
    nlinarith
  · rw [pow_one]
    generalize (2 : ℚ) ^ 998 = B at *
    nlinarith
  · refine le_trans ?_ hbig
    rw [pow_one, pow_one]
    have q1 : 2 * growth * 30 / ε ≤ 150 * 10 ^ 10 := by
      rw [div_eq_mul_one_div]
      exact mul_le_mul (by linarith) hinv hinv0.le (by norm_num)
    have q2 : 2 * growth * 26 / ε ≤ 150 * 10 ^ 10 := by
      rw [div_eq_mul_one_div]
      exact mul_le_mul (by linarith) hinv hinv0.le (by norm_num)
    have q3 : 0 ≤ 2 * growth * 26 / ε := by positivity
    refine (mul_le_mul q1 (add_le_add le_rfl q2) (by positivity) (by norm_num)).trans ?_
    norm_num

/-- C105 applied to the text `(x+20)*x-20` with every setting at its default: Newton's method with doubles from the initial value 1, epsilon
`10^-9`, at most 100 iterations. `Solve` returns a number within `10^-9` of the root `√120 - 10`. -/
example : ∃ ans, (∀ lsFuel fuel, solveTexts defaultA lsFuel fuel ["(x+20)*x-20".toList] = .ok ans) ∧
    ∃ w : Double accurate, ans.table.lookup ['x'] = some w ∧ w.Finite ∧ |(w.rat : ℝ) - (Real.sqrt 120 - 10)| ≤ 1 / 10 ^ 9 := by
  set t : VarsTable (Double accurate) := ⟨[['x']], ⟨1, 1, [Dbl.ofInt 1]⟩, [(['x'], Dbl.ofInt 1)]⟩ with htdef
  have ht : VarsTable.ofVars [['x']] (Dbl.ofInt 1 : Double accurate) = .ok t := rfl
  have htab : DoubleTable t [['x']] fun _ : Fin 1 => Dbl.ofInt 1 := ⟨.ofVars ht, rfl, rfl⟩
  have hp : parse "(x+20)*x-20".toList = .ok (embed (nearTwenty (L := accurate) 0 0)) := by decide +kernel
  have heq : equationsOf ["(x+20)*x-20".toList] = .ok (symOf (nearTwenty (L := accurate))) :=
    equationsOf_eq (texts := fun _ => "(x+20)*x-20".toList) Nat.one_pos (fun _ => hp)
  have hnames : (symOf (nearTwenty (L := accurate))).getAllVarNames = .ok [['x']] := by decide +kernel
  have hε : defaultA.epsilon.Is defaultA.epsilon.raw.toRat := ⟨by decide +kernel, rfl⟩
  have hb : 1 / 10 ^ 10 ≤ defaultA.epsilon.raw.toRat ∧ defaultA.epsilon.raw.toRat ≤ 11 / 10 ^ 10 := by decide +kernel
  have hb1 : (1 : ℝ) / 10 ^ 10 ≤ ((defaultA.epsilon.raw.toRat : ℚ) : ℝ) := by
    have := (Rat.cast_le (K := ℝ)).mpr hb.1
    push_cast at this; exact this
  have hb2 : ((defaultA.epsilon.raw.toRat : ℚ) : ℝ) ≤ 11 / 10 ^ 10 := by
    have := (Rat.cast_le (K := ℝ)).mpr hb.2
    push_cast at this; exact this
  have h1is : (Dbl.ofInt 1 : Double accurate).Is 1 := one_is
  have hse : (solveError 1 : ℝ) ≤ 1 / 2 ^ 49 := by
    have := (Rat.cast_le (K := ℝ)).mpr solveError_one
    push_cast at this; exact this
  have hse0 : (0 : ℝ) ≤ solveError 1 := by exact_mod_cast solveError_one_nonneg
  obtain ⟨b1, b2, -⟩ := rootT_bounds
  have hz : ‖rootT‖ ≤ 1 := norm_one_le (by rw [abs_of_nonneg (by linarith)]; linarith)
  have hz0 := norm_nonneg rootT
  have hnoise : newtonNoise (n := 1) rootT (1 / 19) (1 / 2 ^ 43) 30 ≤ 1 / 2 ^ 43 := by
    unfold newtonNoise
    push_cast
    have := mul_le_mul_of_nonneg_left hz (by positivity : (0 : ℝ) ≤ 1 / 2 ^ 53)
    linarith [(by norm_num : 2 * (1 / 19 : ℝ) * (1 / 2 ^ 49 * 30 + 1 / 2 ^ 43) + 1 / 2 ^ 53 * 1 ≤ 1 / 2 ^ 43)]
  have hbig : (1024 : ℝ) ≤ 2 ^ 1000 := by
    have : (2 : ℝ) ^ 10 ≤ 2 ^ 1000 := pow_le_pow_right₀ (by norm_num) (by norm_num)
    exact le_trans (by norm_num) this
  have hw1 : realVec (fun _ : Fin 1 => (Dbl.ofInt 1 : Double accurate)) 0 = 1 := by
    have h2 : (Dbl.ofInt 1 : Double accurate).rat = 1 := h1is.2
    simp only [realVec, h2, Rat.cast_one]
  have hd1 : ‖realVec (fun _ : Fin 1 => (Dbl.ofInt 1 : Double accurate)) - rootT‖ ≤ 1 / 20 := norm_one_le (by
    rw [Pi.sub_apply, hw1, abs_le]; constructor <;> linarith)
  have hd2 : ‖realVec (fun _ : Fin 1 => (Dbl.ofInt 1 : Double accurate))‖ ≤ 1 := norm_one_le (by rw [hw1, abs_one])
  obtain ⟨t', w', r1, r2, r3, r4⟩ := C105_start accurate_within accurate_annexF nearTwenty_region Nat.one_pos defaultA rfl hε
    (nearTwenty_room hb.1 (hb.2.trans (by norm_num))) (by norm_num) (by push_cast; norm_num) (by push_cast; norm_num) (by
      show (1 / 19 : ℝ) * (((1 : ℕ) : ℝ) * (defaultA.epsilon.raw.toRat + solveError 1 * ((26 : ℚ) : ℝ) + 1 / 2 ^ 40)) ≤ 1 / 12
      push_cast
      linarith [(by norm_num : (11 : ℝ) / 10 ^ 10 ≤ 1 / 10), (by norm_num : (1 : ℝ) / 2 ^ 49 * 26 + 1 / 2 ^ 40 ≤ 1 / 10)])
    (by simp; norm_num) (le_trans (by linarith) hbig) (by linarith [(by norm_num : (1 : ℝ) / 2 ^ 43 ≤ 9 / 8 / 2)]) 60 (by show (60 : ℤ) ≤ 100; norm_num)
    (by
      show ((1 : ℕ) : ℝ) * 25 * (9 / 8 / 2 ^ 60 + 2 * newtonNoise (n := 1) rootT (1 / 19) (1 / 2 ^ 43) 30) + 1 / 2 ^ 43 < defaultA.epsilon.raw.toRat
      push_cast
      linarith [(by norm_num : (1 : ℝ) * 25 * (9 / 8 / 2 ^ 60 + 2 * (1 / 2 ^ 43)) + 1 / 2 ^ 43 < 1 / 10 ^ 10)]) t _ htab (fun _ => h1is.1) (by linarith) (by linarith [(by norm_num : (1 : ℝ) / 2 ^ 43 ≤ 1 / 20)])
  refine ⟨t', fun lsFuel fuel => ?_, w' 0, DoubleTable.lookup r2 (0 : Fin 1), r3 0, ?_⟩
  · unfold solveTexts solveAuto
    rw [heq, Res.bind_ok, hnames, Res.bind_ok]
    show (VarsTable.ofVars [['x']] (Dbl.ofInt 1) >>= _) = _
    rw [ht, Res.bind_ok]
    exact r1
  · have h := (norm_le_pi_norm (realVec w' - rootT) 0).trans r4
    rw [Real.norm_eq_abs, Pi.sub_apply] at h
    refine h.trans ?_
    linarith [(by norm_num : 4 / 3 * (1 / 19 : ℝ) * (11 / 10 ^ 10 + 1 / 2 ^ 43) ≤ 1 / 10 ^ 9)]

end Double
end Tom
