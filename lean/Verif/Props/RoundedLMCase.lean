import Verif.Props.RoundedLM
import Verif.Props.RoundedNewtonCase
import Verif.Props.TextSolve
/-
A case of C126: the text `(x+8)*x-10`, solved by the Levenberg-Marquardt method from the default initial value 1.
-/
set_option linter.unusedSectionVars false
namespace Tom
open Filter Topology
namespace Double

/-- the equation `(x + 8) x - 10 = 0` -/
def nearOne {L : Libm} : Matrix (Fin 1) (Fin 1) (Expr (Double L)) := fun _ _ =>
  .bin .sub (.bin .mul (.bin .add (.var ['x']) (.num (Dbl.ofInt 8))) (.var ['x'])) (.num (Dbl.ofInt 10))

/-- its real counterpart -/
noncomputable def nearOneR : Matrix (Fin 1) (Fin 1) (Expr (XNum ℝ)) := fun _ _ =>
  .bin .sub (.bin .mul (.bin .add (.var ['x']) (.num (.fin 8))) (.var ['x'])) (.num (.fin 10))

theorem nearOne_real {L : Libm} : realSystem (nearOne (L := L)) = nearOneR := by
  have h : ∀ i : ℤ, |i| ≤ 2 ^ 53 → Double.toReal (Dbl.ofInt i : Double L) = .fin i := fun i hi => by
    rw [toReal_is (is_ofInt hi)]; push_cast; rfl
  funext i j
  simp [realSystem, nearOne, nearOneR, Expr.mapNum, h 8 (by norm_num), h 10 (by norm_num)]

theorem nearOneR_val (ρ : Str → ℝ) (i j : Fin 1) : realVal ρ (nearOneR i j) = some ((ρ ['x'] + 8) * ρ ['x'] - 10) := by
  simp [nearOneR, realVal, BinOp.real, XNum.val?]

theorem nearOneR_jacobian (u : Fin 1 → ℝ) (A : Matrix (Fin 1) (Fin 1) ℝ) (h : IsJacobian nearOneR [['x']] u A) : A = !![2 * u 0 + 8] := by
  have hd : HasDerivAt (fun s : ℝ => (s + 8) * s - 10) (2 * u 0 + 8) (u 0) := by
    have h2 : HasDerivAt (fun s : ℝ => (s + 8) * s - 10) (1 * u 0 + (u 0 + 8) * 1) (u 0) :=
      (((hasDerivAt_id (u 0)).add_const 8).mul (hasDerivAt_id (u 0))).sub_const 10
    exact h2.congr_deriv (by ring)
  have hv : ∀ s, realVal (at_ (assign [['x']] u) ['x'] s) (nearOneR 0 0) = some ((s + 8) * s - 10) := by
    intro s
    rw [nearOneR_val]
    simp [at_]
  ext i j
  rw [Fin.fin_one_eq_zero i, Fin.fin_one_eq_zero j]
  obtain ⟨g, h1, h2⟩ := h 0 0
  have h3 : g =ᶠ[𝓝 (u 0)] fun s => (s + 8) * s - 10 := by
    filter_upwards [h1] with s hs
    have := (hv s).symm.trans hs
    simpa using this.symm
  exact h2.unique (hd.congr_of_eventuallyEq h3)

/-- the root -/
noncomputable def rootO : Fin 1 → ℝ := fun _ => Real.sqrt 26 - 4

theorem rootO_bounds : (109 : ℝ) / 100 ≤ rootO 0 ∧ rootO 0 ≤ 11 / 10 ∧ (rootO 0 + 8) * rootO 0 - 10 = 0 := by
  have h := Real.sq_sqrt (by norm_num : (0 : ℝ) ≤ 26)
  have h0 := Real.sqrt_nonneg 26
  have e : rootO 0 = Real.sqrt 26 - 4 := rfl
  rw [e]
  refine ⟨?_, ?_, by nlinarith⟩
  · have : (509 : ℝ) / 100 ≤ Real.sqrt 26 := Real.le_sqrt_of_sq_le (by norm_num)
    linarith
  · have : Real.sqrt 26 ≤ 51 / 10 := Real.sqrt_le_iff.mpr ⟨by norm_num, by norm_num⟩
    linarith

theorem nearO_bounds {w : Fin 1 → ℝ} (h : ‖w - rootO‖ ≤ 1 / 8) : 9 / 10 ≤ w 0 ∧ w 0 ≤ 123 / 100 := by
  have h1 := (norm_le_pi_norm (w - rootO) 0).trans h
  rw [Real.norm_eq_abs, Pi.sub_apply, abs_le] at h1
  obtain ⟨b1, b2, -⟩ := rootO_bounds
  constructor <;> linarith [h1.1, h1.2]

theorem nearOne_region : RoundedRegion (L := accurate) (1 / 2 ^ 53) [['x']] nearOne rootO (1 / 8) (1 / 9) (1 / 2) 11 (1 / 2 ^ 44) (1 / 2 ^ 40) where
  root := by
    intro i
    rw [nearOne_real, nearOneR_val]
    exact congrArg some rootO_bounds.2.2
  closed := by intro i x hx; simpa [nearOne, Expr.vars] using hx
  noExp := by
    intro i x _
    simp [nearOne, Expr.NoForeignExp]
  smooth := by
    intro w _ i
    rw [nearOne_real]
    simp [nearOneR, Smooth]
  stretch := by
    intro w hw A hA x
    rw [nearOne_real] at hA
    rw [nearOneR_jacobian w A hA]
    obtain ⟨b1, b2⟩ := nearO_bounds hw
    apply norm_one_le
    have h1 := norm_le_pi_norm ((!![2 * w 0 + 8] : Matrix (Fin 1) (Fin 1) ℝ).mulVec x) 0
    have h2 : (!![2 * w 0 + 8] : Matrix (Fin 1) (Fin 1) ℝ).mulVec x 0 = (2 * w 0 + 8) * x 0 := by simp [Matrix.mulVec, dotProduct]
    rw [h2, Real.norm_eq_abs, abs_mul, abs_of_nonneg (by linarith : (0 : ℝ) ≤ 2 * w 0 + 8)] at h1
    have h3 := mul_le_mul_of_nonneg_right (by linarith : (9 : ℝ) ≤ 2 * w 0 + 8) (abs_nonneg (x 0))
    linarith
  bounded := by
    intro w hw A hA i j
    rw [nearOne_real] at hA
    obtain ⟨b1, b2⟩ := nearO_bounds hw
    rw [nearOneR_jacobian w A hA, Fin.fin_one_eq_zero i, Fin.fin_one_eq_zero j]
    show |2 * w 0 + 8| ≤ 11
    rw [abs_of_nonneg (by linarith)]
    linarith
  steady := by
    intro w w' hw hw' A A' hA hA' i j
    rw [nearOne_real] at hA hA'
    rw [nearOneR_jacobian w A hA, nearOneR_jacobian w' A' hA', Fin.fin_one_eq_zero i, Fin.fin_one_eq_zero j]
    show |(2 * w 0 + 8) - (2 * w' 0 + 8)| ≤ 1 / 2
    have h1 := (norm_le_pi_norm (w - rootO) 0).trans hw
    have h2 := (norm_le_pi_norm (w' - rootO) 0).trans hw'
    rw [Real.norm_eq_abs, Pi.sub_apply, abs_le] at h1 h2
    rw [abs_le]
    constructor <;> linarith [h1.1, h1.2, h2.1, h2.2]
  value := by
    intro w _ hw i
    obtain ⟨b1, b2⟩ := nearO_bounds hw
    have hx : assign [['x']] (realVec w) ['x'] = realVec w 0 := rfl
    have k1 := encl_add (encl_var (L := accurate) (assign [['x']] (realVec w)) ['x']) (encl_num (L := accurate) (assign [['x']] (realVec w)) 8 (by norm_num)) (by
      rw [hx, abs_of_nonneg (by push_cast; linarith)]; push_cast; linarith)
    have k2 := encl_mul k1 (encl_var (L := accurate) (assign [['x']] (realVec w)) ['x']) (V := 10) (W := 2) (by
      rw [hx, abs_of_nonneg (by push_cast; linarith)]; push_cast; linarith) (by rw [hx, abs_le]; constructor <;> linarith) (by norm_num)
    have k3 := encl_sub k2 (encl_num (L := accurate) (assign [['x']] (realVec w)) 10 (by norm_num)) (by
      rw [hx]
      have : |(realVec w 0 + (8 : ℤ)) * realVec w 0 - (10 : ℤ)| ≤ 50 := by
        push_cast; rw [abs_le]; constructor <;> nlinarith
      refine (add_le_add this le_rfl).trans ?_
      norm_num)
    obtain ⟨E, e1, -, e3⟩ := k3
    exact ⟨_, E, e1, e3.trans (by norm_num)⟩
  deriv := by
    intro w _ hw i j
    rw [nearOne_real]
    obtain ⟨b1, b2⟩ := nearO_bounds hw
    have hj : [['x']][j] = ['x'] := by
      match j with
      | ⟨0, _⟩ => rfl
    have hd : dE [['x']][j] (nearOneR i 0) = .bin .sub (.bin .add (.bin .mul (.bin .add (.num (.fin 1)) (.num (.fin 0))) (.var ['x']))
        (.bin .mul (.bin .add (.var ['x']) (.num (.fin 8))) (.num (.fin 1)))) (.num (.fin 0)) := by
      rw [hj]
      have h1 : (Dbl.ofInt 1 : XNum ℝ) = .fin 1 := by show XNum.fin _ = _; norm_num
      have h0 : (Dbl.ofInt 0 : XNum ℝ) = .fin 0 := by show XNum.fin _ = _; norm_num
      simp [nearOneR, dE, Expr.isNum, h1, h0]
    rw [hd]
    set ρ := assign [['x']] (realVec w) with hρ
    have hx : ρ ['x'] = realVec w 0 := rfl
    have k1 := encl_add (rule_num ρ (r := 1) (by norm_num)) (rule_num ρ (r := 0) (by norm_num)) (by norm_num)
    have k2 := encl_mul k1 (rule_var ρ ['x']) (V := 1) (W := 2) (by norm_num) (by rw [hx, abs_le]; constructor <;> linarith) (by norm_num)
    have k3 := encl_add (rule_var ρ ['x']) (rule_num ρ (r := 8) (by norm_num)) (by
      rw [hx, abs_of_nonneg (by linarith)]
      linarith [(by norm_num : (0 : ℝ) + 1 / 2 ^ 49 ≤ 1)])
    have k4 := encl_mul k3 (rule_num ρ (r := 1) (by norm_num)) (V := 10) (W := 1) (by rw [hx, abs_of_nonneg (by linarith)]; linarith) (by norm_num) (by norm_num)
    have k5 := encl_add k2 k4 (by
      have : |(1 + 0) * ρ ['x'] + (ρ ['x'] + 8) * 1| ≤ 50 := by rw [hx, abs_le]; constructor <;> linarith
      refine (add_le_add this le_rfl).trans ?_
      norm_num)
    have k6 := encl_sub k5 (rule_num ρ (r := 0) (by norm_num)) (by
      have : |(1 + 0) * ρ ['x'] + (ρ ['x'] + 8) * 1 - 0| ≤ 50 := by rw [hx, abs_le]; constructor <;> linarith
      refine (add_le_add this le_rfl).trans ?_
      norm_num)
    obtain ⟨E, e1, -, e3⟩ := k6
    exact ⟨_, E, e1, e3.trans (by norm_num)⟩

theorem nearOne_room {ε : ℝ} (h1 : 1 / 10 ^ 10 ≤ ε) (h2 : ε ≤ 1 / 10 ^ 8) :
    LMRoom rootO (1 / 8) (1 / 9) (1 / 2) 11 (1 / 2 ^ 44) (1 / 2 ^ 40) ε := by
  obtain ⟨b1, b2, b3⟩ := rootO_bounds
  have hz : ‖rootO‖ ≤ 11 / 10 := norm_one_le (by rw [abs_of_nonneg (by linarith)]; linarith)
  refine ⟨by norm_num, by norm_num, ?_, by norm_num, by norm_num, ?_, ?_, ?_, by norm_num, by norm_num, ?_⟩
  · linarith [(by norm_num : (1 : ℝ) / 10 ^ 8 ≤ 1 / 4)]
  · linarith [(by norm_num : (1 : ℝ) / 2 ^ 44 ≤ 1 / 10 ^ 10 / 1000)]
  · have : 11 * ((‖rootO‖ + 1 / 8) / 2 ^ 53) ≤ 11 * ((11 / 10 + 1 / 8) / 2 ^ 53) := by
      apply mul_le_mul_of_nonneg_left _ (by norm_num)
      apply div_le_div_of_nonneg_right _ (by positivity)
      linarith
    linarith [(by norm_num : 11 * (((11 : ℝ) / 10 + 1 / 8) / 2 ^ 53) ≤ 1 / 10 ^ 10 / 1000)]
  · exact le_trans (by norm_num) h1
  · linarith [(by norm_num : (11 : ℝ) / 10 + 1 / 8 ≤ 2 ^ 100)]

/-- the default configuration, with the Levenberg-Marquardt method -/
noncomputable def defaultLM : Config (Double accurate) := { defaultA with nonlinearMethod := .lm }

/-- C126 applied to the text `(x+8)*x-10`, solved with doubles by the Levenberg-Marquardt method with the other settings at their defaults: the
initial value is 1, epsilon is `10^-9`. `Solve` returns a number within `epsilon` of the root `√26 - 4`. -/
example : ∃ ans, (∀ lsFuel fuel, 0 < lsFuel → 20 < fuel → solveTexts defaultLM lsFuel fuel ["(x+8)*x-10".toList] = .ok ans) ∧
    ∃ w : Double accurate, ans.table.lookup ['x'] = some w ∧ w.Finite ∧ |(w.rat : ℝ) - (Real.sqrt 26 - 4)| ≤ 1 / 10 ^ 9 := by
  set t : VarsTable (Double accurate) := ⟨[['x']], ⟨1, 1, [Dbl.ofInt 1]⟩, [(['x'], Dbl.ofInt 1)]⟩ with htdef
  have ht : VarsTable.ofVars [['x']] (Dbl.ofInt 1 : Double accurate) = .ok t := rfl
  have htab : DoubleTable t [['x']] fun _ : Fin 1 => Dbl.ofInt 1 := ⟨.ofVars ht, rfl, rfl⟩
  have hp : parse "(x+8)*x-10".toList = .ok (embed (nearOne (L := accurate) 0 0)) := by decide +kernel
  have heq : equationsOf ["(x+8)*x-10".toList] = .ok (symOf (nearOne (L := accurate))) :=
    equationsOf_eq (texts := fun _ => "(x+8)*x-10".toList) Nat.one_pos (fun _ => hp)
  have hnames : (symOf (nearOne (L := accurate))).getAllVarNames = .ok [['x']] := by decide +kernel
  have hε : defaultLM.epsilon.Is defaultLM.epsilon.raw.toRat := ⟨by decide +kernel, rfl⟩
  have hb : 1 / 10 ^ 10 ≤ defaultLM.epsilon.raw.toRat ∧ defaultLM.epsilon.raw.toRat ≤ 11 / 10 ^ 10 := by decide +kernel
  have hb1 : (1 : ℝ) / 10 ^ 10 ≤ ((defaultLM.epsilon.raw.toRat : ℚ) : ℝ) := by
    have := (Rat.cast_le (K := ℝ)).mpr hb.1
    push_cast at this; exact this
  have hb2 : ((defaultLM.epsilon.raw.toRat : ℚ) : ℝ) ≤ 11 / 10 ^ 10 := by
    have := (Rat.cast_le (K := ℝ)).mpr hb.2
    push_cast at this; exact this
  have h1is : (Dbl.ofInt 1 : Double accurate).Is 1 := one_is
  obtain ⟨b1, b2, -⟩ := rootO_bounds
  obtain ⟨t', w', r1, r2, r3, r4⟩ := C126_solve accurate_within accurate_annexF nearOne_region defaultLM rfl rfl hε
    (nearOne_room hb1 (hb2.trans (by norm_num))) 20 (by show (20 : ℤ) ≤ 100; norm_num)
    (by linarith [(by norm_num : (11 : ℝ) * (1 / 8 / 4 ^ 20) + 1 / 2 ^ 44 < 1 / 10 ^ 10)]) t _ htab (fun _ => h1is.1) (by
      have : realVec (fun _ : Fin 1 => (Dbl.ofInt 1 : Double accurate)) 0 = 1 := by
        have h2 : (Dbl.ofInt 1 : Double accurate).rat = 1 := h1is.2
        simp only [realVec, h2, Rat.cast_one]
      rw [this, abs_le]
      constructor <;> linarith)
  refine ⟨t', fun lsFuel fuel k1 k2 => ?_, w' 0, DoubleTable.lookup r2 (0 : Fin 1), r3, ?_⟩
  · unfold solveTexts solveAuto
    rw [heq, Res.bind_ok, hnames, Res.bind_ok]
    show (VarsTable.ofVars [['x']] (Dbl.ofInt 1) >>= _) = _
    rw [ht, Res.bind_ok]
    exact r1 lsFuel fuel k1 k2
  · refine r4.trans ?_
    linarith [(by norm_num : 4 / 3 * (1 / 9 : ℝ) * (11 / 10 ^ 10 + 1 / 2 ^ 44) ≤ 1 / 10 ^ 9)]

end Double
end Tom
