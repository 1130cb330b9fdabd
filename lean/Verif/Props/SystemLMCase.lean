import Verif.Props.SystemLM
import Verif.Props.RoundedLMCase
/-
A case of C129: the texts `(x+30)*x+y-33` and `(y+30)*y+x-33`, solved by the Levenberg-Marquardt method from the default initial value 1.
-/
set_option linter.unusedSectionVars false
namespace Tom
open Filter Topology
namespace Double

/-- the equation `(a + 30) a + b - 33 = 0` -/
def pairE {L : Libm} (a b : Str) : Expr (Double L) :=
  .bin .sub (.bin .add (.bin .mul (.bin .add (.var a) (.num (Dbl.ofInt 30))) (.var a)) (.var b)) (.num (Dbl.ofInt 33))

/-- its real counterpart -/
noncomputable def pairR (a b : Str) : Expr (XNum ℝ) :=
  .bin .sub (.bin .add (.bin .mul (.bin .add (.var a) (.num (.fin 30))) (.var a)) (.var b)) (.num (.fin 33))

/-- the two unknowns -/
abbrev xy : List Str := [['x'], ['y']]

/-- the two equations -/
def pairS {L : Libm} : Matrix (Fin 2) (Fin 1) (Expr (Double L)) := ![fun _ => pairE ['x'] ['y'], fun _ => pairE ['y'] ['x']]

noncomputable def pairSR : Matrix (Fin 2) (Fin 1) (Expr (XNum ℝ)) := ![fun _ => pairR ['x'] ['y'], fun _ => pairR ['y'] ['x']]

theorem pairS_real {L : Libm} : realSystem (pairS (L := L)) = pairSR := by
  have h : ∀ i : ℤ, |i| ≤ 2 ^ 53 → Double.toReal (Dbl.ofInt i : Double L) = .fin i := fun i hi => by
    rw [toReal_is (is_ofInt hi)]; push_cast; rfl
  funext i j
  fin_cases i <;> simp [realSystem, pairS, pairSR, pairE, pairR, Expr.mapNum, h 30 (by norm_num), h 33 (by norm_num)]

theorem pairR_val (ρ : Str → ℝ) (a b : Str) : realVal ρ (pairR a b) = some ((ρ a + 30) * ρ a + ρ b - 33) := by
  simp [pairR, realVal, BinOp.real, XNum.val?]

theorem pairR_partial {ρ : Str → ℝ} {v : Str} {e : Expr (XNum ℝ)} {h : ℝ → ℝ} {d D : ℝ} (hv : ∀ s, realVal (at_ ρ v s) e = some (h s))
    (hd : HasDerivAt h D (ρ v)) (hp : HasPartialDeriv ρ v e d) : d = D := by
  obtain ⟨g, h1, h2⟩ := hp
  have h3 : g =ᶠ[𝓝 (ρ v)] h := by
    filter_upwards [h1] with s hs
    have := (hv s).symm.trans hs
    simpa using this.symm
  exact h2.unique (hd.congr_of_eventuallyEq h3)

theorem pairR_own {ρ : Str → ℝ} {a b : Str} (hab : a ≠ b) {d : ℝ} (h : HasPartialDeriv ρ a (pairR a b) d) : d = 2 * ρ a + 30 := by
  refine pairR_partial (h := fun s => (s + 30) * s + ρ b - 33) (fun s => ?_) ?_ h
  · rw [pairR_val]; simp [at_, hab.symm]
  · have h2 : HasDerivAt (fun s : ℝ => (s + 30) * s + ρ b - 33) (1 * ρ a + (ρ a + 30) * 1) (ρ a) :=
      ((((hasDerivAt_id (ρ a)).add_const 30).mul (hasDerivAt_id (ρ a))).add_const _).sub_const 33
    exact h2.congr_deriv (by ring)

theorem pairR_other {ρ : Str → ℝ} {a b : Str} (hab : a ≠ b) {d : ℝ} (h : HasPartialDeriv ρ b (pairR a b) d) : d = 1 := by
  refine pairR_partial (h := fun s => (ρ a + 30) * ρ a + s - 33) (fun s => ?_) ?_ h
  · rw [pairR_val]; simp [at_, hab]
  · exact ((hasDerivAt_id (ρ b)).const_add _).sub_const 33

theorem pairSR_jacobian (u : Fin 2 → ℝ) (A : Matrix (Fin 2) (Fin 2) ℝ) (h : IsJacobian pairSR xy u A) :
    A = !![2 * u 0 + 30, 1; 1, 2 * u 1 + 30] := by
  have h00 := pairR_own (a := ['x']) (b := ['y']) (by decide) (h 0 (0 : Fin 2))
  have h01 := pairR_other (a := ['x']) (b := ['y']) (by decide) (h 0 (1 : Fin 2))
  have h10 := pairR_other (a := ['y']) (b := ['x']) (by decide) (h 1 (0 : Fin 2))
  have h11 := pairR_own (a := ['y']) (b := ['x']) (by decide) (h 1 (1 : Fin 2))
  ext i j
  fin_cases i <;> fin_cases j
  · exact h00
  · exact h01
  · exact h10
  · exact h11

/-- the root -/
noncomputable def rootP : Fin 2 → ℝ := fun _ => (Real.sqrt 1093 - 31) / 2

theorem rootP_bounds (i : Fin 2) : (103 : ℝ) / 100 ≤ rootP i ∧ rootP i ≤ 10304 / 10000 ∧ (rootP i + 30) * rootP i + rootP i - 33 = 0 := by
  have h := Real.sq_sqrt (by norm_num : (0 : ℝ) ≤ 1093)
  have h0 := Real.sqrt_nonneg 1093
  have e : rootP i = (Real.sqrt 1093 - 31) / 2 := rfl
  rw [e]
  refine ⟨?_, ?_, by nlinarith⟩
  · have : (3306 : ℝ) / 100 ≤ Real.sqrt 1093 := Real.le_sqrt_of_sq_le (by norm_num)
    linarith
  · have : Real.sqrt 1093 ≤ 330608 / 10000 := Real.sqrt_le_iff.mpr ⟨by norm_num, by norm_num⟩
    linarith

theorem nearP_bounds {w : Fin 2 → ℝ} (h : ‖w - rootP‖ ≤ 1 / 32) (i : Fin 2) : 99 / 100 ≤ w i ∧ w i ≤ 107 / 100 := by
  have h1 := (norm_le_pi_norm (w - rootP) i).trans h
  rw [Real.norm_eq_abs, Pi.sub_apply, abs_le] at h1
  obtain ⟨b1, b2, -⟩ := rootP_bounds i
  constructor <;> linarith [h1.1, h1.2]

theorem rule_num32 (ρ : Str → ℝ) {r : ℝ} (h : |r| ≤ 32) : Encl (ruleEnclosure (1 / 2 ^ 53) ρ (.num (.fin r))) r (1 / 2 ^ 47) := by
  refine ⟨ruleLiteralError (1 / 2 ^ 53) r, ?_, ruleLiteralError_nonneg (by positivity) r, ?_⟩
  · simp only [ruleEnclosure, XNum.val?, Option.bind_some]
    rw [if_pos (.inr (lt_of_le_of_lt (by linarith) hundred_lt))]
  · unfold ruleLiteralError
    split
    · positivity
    · rw [max_self]
      have h1 : (1 : ℝ) / 2 ^ 1074 ≤ 1 / 2 ^ 60 := one_div_pow_le_one_div_pow_of_le (by norm_num) (by norm_num)
      have := mul_le_mul_of_nonneg_left h (by positivity : (0 : ℝ) ≤ 1 / 2 ^ 53)
      have h2 : (1 : ℝ) / 2 ^ 53 * 32 + 1 / 2 ^ 60 ≤ 1 / 2 ^ 47 := by norm_num
      linarith

theorem pair_value (ρ : Str → ℝ) (a b : Str) (ha : 99 / 100 ≤ ρ a ∧ ρ a ≤ 107 / 100) (hb : 99 / 100 ≤ ρ b ∧ ρ b ≤ 107 / 100) :
    ∃ v E, enclosure (1 / 2 ^ 53) ρ (pairE (L := accurate) a b) = some (v, E) ∧ E ≤ 1 / 2 ^ 42 := by
  obtain ⟨a1, a2⟩ := ha
  obtain ⟨b1, b2⟩ := hb
  have k1 := encl_add (encl_var (L := accurate) ρ a) (encl_num (L := accurate) ρ 30 (by norm_num)) (by
    rw [abs_of_nonneg (by push_cast; linarith)]; push_cast; linarith)
  have k2 := encl_mul k1 (encl_var (L := accurate) ρ a) (V := 32) (W := 2) (by
    rw [abs_of_nonneg (by push_cast; linarith)]; push_cast; linarith) (by rw [abs_le]; constructor <;> linarith) (by norm_num)
  have k3 := encl_add k2 (encl_var (L := accurate) ρ b) (by
    have : |(ρ a + (30 : ℤ)) * ρ a + ρ b| ≤ 50 := by
      push_cast; rw [abs_le]; constructor <;> nlinarith
    refine (add_le_add this le_rfl).trans ?_
    norm_num)
  have k4 := encl_sub k3 (encl_num (L := accurate) ρ 33 (by norm_num)) (by
    have : |(ρ a + (30 : ℤ)) * ρ a + ρ b - (33 : ℤ)| ≤ 50 := by
      push_cast; rw [abs_le]; constructor <;> nlinarith
    refine (add_le_add this le_rfl).trans ?_
    norm_num)
  obtain ⟨E, e1, -, e3⟩ := k4
  exact ⟨_, E, e1, e3.trans (by norm_num)⟩

theorem pair_deriv (ρ : Str → ℝ) (a b x : Str) (hab : a ≠ b) (hx : x = a ∨ x = b) (ha : 99 / 100 ≤ ρ a ∧ ρ a ≤ 107 / 100) :
    ∃ v E, ruleEnclosure (1 / 2 ^ 53) ρ (dE x (pairR a b)) = some (v, E) ∧ E ≤ 1 / 2 ^ 38 := by
  obtain ⟨a1, a2⟩ := ha
  have h1 : (Dbl.ofInt 1 : XNum ℝ) = .fin 1 := by show XNum.fin _ = _; norm_num
  have h0 : (Dbl.ofInt 0 : XNum ℝ) = .fin 0 := by show XNum.fin _ = _; norm_num
  obtain ⟨p, q, hp, hq, hd⟩ : ∃ p q : ℝ, |p| ≤ 1 ∧ |q| ≤ 1 ∧ dE x (pairR a b) = .bin .sub (.bin .add (.bin .add (.bin .mul (.bin .add (.num (.fin p)) (.num (.fin 0))) (.var a))
      (.bin .mul (.bin .add (.var a) (.num (.fin 30))) (.num (.fin p)))) (.num (.fin q))) (.num (.fin 0)) := by
    rcases hx with rfl | rfl
    · exact ⟨1, 0, by norm_num, by norm_num, by simp [pairR, dE, Expr.isNum, h1, h0, hab.symm]⟩
    · exact ⟨0, 1, by norm_num, by norm_num, by simp [pairR, dE, Expr.isNum, h1, h0, hab]⟩
  rw [hd]
  have hp' := abs_le.mp hp
  have hq' := abs_le.mp hq
  have hpa : |p * ρ a| ≤ 2 := by
    rw [abs_mul, abs_of_nonneg (by linarith : 0 ≤ ρ a)]
    have := abs_nonneg p
    nlinarith
  have hpa2 : |(ρ a + 30) * p| ≤ 32 := by
    rw [abs_mul, abs_of_nonneg (by linarith : 0 ≤ ρ a + 30)]
    have := abs_nonneg p
    nlinarith
  have hs1 : |(p + 0) * ρ a + (ρ a + 30) * p| ≤ 34 := by
    rw [add_zero]
    refine (abs_add_le _ _).trans ?_
    linarith
  have hs2 : |(p + 0) * ρ a + (ρ a + 30) * p + q| ≤ 35 := (abs_add_le _ _).trans (by linarith)
  have k1 := encl_add (rule_num32 ρ (r := p) (by linarith)) (rule_num32 ρ (r := 0) (by norm_num)) (by
    rw [add_zero]
    linarith [(by norm_num : (1 : ℝ) / 2 ^ 47 + 1 / 2 ^ 47 ≤ 1)])
  have k2 := encl_mul k1 (rule_var ρ a) (V := 1) (W := 2) (by rw [add_zero]; exact hp) (by rw [abs_le]; constructor <;> linarith) (by norm_num)
  have k3 := encl_add (rule_var ρ a) (rule_num32 ρ (r := 30) (by norm_num)) (by
    rw [abs_of_nonneg (by linarith)]
    linarith [(by norm_num : (0 : ℝ) + 1 / 2 ^ 47 ≤ 1)])
  have k4 := encl_mul k3 (rule_num32 ρ (r := p) (by linarith)) (V := 32) (W := 1) (by rw [abs_of_nonneg (by linarith)]; linarith) hp (by norm_num)
  have k5 := encl_add k2 k4 (by
    refine (add_le_add hs1 le_rfl).trans ?_
    norm_num)
  have k6 := encl_add k5 (rule_num32 ρ (r := q) (by linarith)) (by
    refine (add_le_add hs2 le_rfl).trans ?_
    norm_num)
  have k7 := encl_sub k6 (rule_num32 ρ (r := 0) (by norm_num)) (by
    rw [sub_zero]
    refine (add_le_add hs2 le_rfl).trans ?_
    norm_num)
  obtain ⟨E, e1, -, e3⟩ := k7
  exact ⟨_, E, e1, e3.trans (by norm_num)⟩

theorem pair_region : RoundedRegion (L := accurate) (1 / 2 ^ 53) xy pairS rootP (1 / 32) (1 / 30) (1 / 8) 33 (1 / 2 ^ 42) (1 / 2 ^ 38) where
  root := by
    intro i
    rw [pairS_real]
    match i with
    | 0 => exact (pairR_val _ _ _).trans (congrArg some (rootP_bounds 0).2.2)
    | 1 => exact (pairR_val _ _ _).trans (congrArg some (rootP_bounds 0).2.2)
  closed := by
    intro i x hx
    match i with
    | 0 => simpa [pairS, pairE, Expr.vars] using hx
    | 1 =>
      simp [pairS, pairE, Expr.vars] at hx ⊢
      tauto
  noExp := by
    intro i x _
    match i with
    | 0 => simp [pairS, pairE, Expr.NoForeignExp]
    | 1 => simp [pairS, pairE, Expr.NoForeignExp]
  smooth := by
    intro w _ i
    rw [pairS_real]
    match i with
    | 0 => simp [pairSR, pairR, Smooth]
    | 1 => simp [pairSR, pairR, Smooth]
  stretch := by
    intro w hw A hA x
    rw [pairS_real] at hA
    have eA := pairSR_jacobian w A hA
    obtain ⟨b1, b2⟩ := nearP_bounds hw 0
    obtain ⟨c1, c2⟩ := nearP_bounds hw 1
    have h1 := norm_le_pi_norm (A.mulVec x) (0 : Fin 2)
    have h2 := norm_le_pi_norm (A.mulVec x) (1 : Fin 2)
    have e1 : A.mulVec x (0 : Fin 2) = (2 * w (0 : Fin 2) + 30) * x (0 : Fin 2) + x (1 : Fin 2) := by
      rw [eA]; simp [Matrix.mulVec, dotProduct, Fin.sum_univ_two]
    have e2 : A.mulVec x (1 : Fin 2) = x (0 : Fin 2) + (2 * w (1 : Fin 2) + 30) * x (1 : Fin 2) := by
      rw [eA]; simp [Matrix.mulVec, dotProduct, Fin.sum_univ_two]
    set N := ‖A.mulVec x‖
    obtain ⟨i, hi⟩ := norm_attained (n := 2) (by norm_num) x
    have x0 := norm_le_pi_norm x (0 : Fin 2)
    have x1 := norm_le_pi_norm x (1 : Fin 2)
    rw [Real.norm_eq_abs] at x0 x1 h1 h2
    rw [e1] at h1
    rw [e2] at h2
    match i, hi with
    | 0, hi =>
      have k1 := abs_sub_abs_le_abs_sub ((2 * w (0 : Fin 2) + 30) * x (0 : Fin 2)) (-x (1 : Fin 2))
      rw [sub_neg_eq_add, abs_neg, abs_mul, abs_of_nonneg (by linarith : 0 ≤ 2 * w (0 : Fin 2) + 30)] at k1
      have k2 := mul_le_mul_of_nonneg_right (by linarith : (31 : ℝ) ≤ 2 * w (0 : Fin 2) + 30) (abs_nonneg (x (0 : Fin 2)))
      rw [← hi] at k1 k2
      linarith
    | 1, hi =>
      have k1 := abs_sub_abs_le_abs_sub ((2 * w (1 : Fin 2) + 30) * x (1 : Fin 2)) (-x (0 : Fin 2))
      rw [sub_neg_eq_add, abs_neg, abs_mul, abs_of_nonneg (by linarith : 0 ≤ 2 * w (1 : Fin 2) + 30), add_comm _ (x (0 : Fin 2))] at k1
      have k2 := mul_le_mul_of_nonneg_right (by linarith : (31 : ℝ) ≤ 2 * w (1 : Fin 2) + 30) (abs_nonneg (x (1 : Fin 2)))
      rw [← hi] at k1 k2
      linarith
  bounded := by
    intro w hw A hA i j
    rw [pairS_real] at hA
    obtain ⟨b1, b2⟩ := nearP_bounds hw 0
    obtain ⟨c1, c2⟩ := nearP_bounds hw 1
    rw [pairSR_jacobian w A hA]
    match i, j with
    | 0, 0 => show |2 * w (0 : Fin 2) + 30| ≤ 33; rw [abs_of_nonneg (by linarith)]; linarith
    | 0, 1 => show |(1 : ℝ)| ≤ 33; norm_num
    | 1, 0 => show |(1 : ℝ)| ≤ 33; norm_num
    | 1, 1 => show |2 * w (1 : Fin 2) + 30| ≤ 33; rw [abs_of_nonneg (by linarith)]; linarith
  steady := by
    intro w w' hw hw' A A' hA hA' i j
    rw [pairS_real] at hA hA'
    rw [pairSR_jacobian w A hA, pairSR_jacobian w' A' hA']
    have h1 : ∀ k : Fin 2, |(2 * w k + 30) - (2 * w' k + 30)| ≤ 1 / 8 := fun k => by
      have h1 := (norm_le_pi_norm (w - rootP) k).trans hw
      have h2 := (norm_le_pi_norm (w' - rootP) k).trans hw'
      rw [Real.norm_eq_abs, Pi.sub_apply, abs_le] at h1 h2
      rw [abs_le]
      constructor <;> linarith [h1.1, h1.2, h2.1, h2.2]
    match i, j with
    | 0, 0 => exact h1 0
    | 0, 1 => show |(1 : ℝ) - 1| ≤ 1 / 8; norm_num
    | 1, 0 => show |(1 : ℝ) - 1| ≤ 1 / 8; norm_num
    | 1, 1 => exact h1 1
  value := by
    intro w _ hw i
    match i with
    | 0 => exact pair_value (assign xy (realVec w)) ['x'] ['y'] (nearP_bounds hw 0) (nearP_bounds hw 1)
    | 1 => exact pair_value (assign xy (realVec w)) ['y'] ['x'] (nearP_bounds hw 1) (nearP_bounds hw 0)
  deriv := by
    intro w _ hw i j
    rw [pairS_real]
    have hj : xy[j] = ['x'] ∨ xy[j] = ['y'] := by
      match j with
      | 0 => exact .inl rfl
      | 1 => exact .inr rfl
    match i with
    | 0 => exact pair_deriv (assign xy (realVec w)) ['x'] ['y'] xy[j] (by decide) hj (nearP_bounds hw 0)
    | 1 => exact pair_deriv (assign xy (realVec w)) ['y'] ['x'] xy[j] (by decide) hj.symm (nearP_bounds hw 1)

theorem solveError_two : 0 ≤ solveError 2 ∧ solveError 2 ≤ 1 / 2 ^ 46 := by norm_num [solveError, growth]

theorem pair_linear {ε : ℚ} (h1 : 1 / 10 ^ 10 ≤ ε) (h2 : ε ≤ 1 / 10 ^ 8) : RoundedRoom 2 ε (2 * (2 : ℕ) * 34 ^ 2) (2 * (2 : ℕ) * 34 * 3) := by
  have hg : growth ^ 2 ≤ 5 := by norm_num [growth]
  have hg0 : 0 < growth ^ 2 := by norm_num [growth]
  have hε : 0 < ε := lt_of_lt_of_le (by norm_num) h1
  have hbig : (10 : ℚ) ^ 60 ≤ 2 ^ 998 := by
    have : (2 : ℚ) ^ 200 ≤ 2 ^ 998 := pow_le_pow_right₀ (by norm_num) (by norm_num)
    exact le_trans (by norm_num) this
  have hsmall : (1 : ℚ) / 2 ^ 900 ≤ 1 := by
    rw [div_le_one (by positivity)]
    exact one_le_pow₀ (by norm_num)
  have hsmall' : (1 : ℚ) / 2 ^ 1000 ≤ 1 / 1000 := by
    have : (1 : ℚ) / 2 ^ 1000 ≤ 1 / 2 ^ 10 := one_div_pow_le_one_div_pow_of_le (by norm_num) (by norm_num)
    exact this.trans (by norm_num)
  have hinv : 1 / ε ≤ 10 ^ 10 := by
    rw [div_le_iff₀ hε]
    have := mul_le_mul_of_nonneg_left h1 (by norm_num : (0 : ℚ) ≤ 10 ^ 10)
    norm_num at this ⊢
    linarith
  have hinv0 : 0 < 1 / ε := by positivity
  have ea : (2 * (2 : ℕ) * 34 ^ 2 : ℚ) = 4624 := by norm_num
  have eb : (2 * (2 : ℕ) * 34 * 3 : ℚ) = 408 := by norm_num
  rw [ea, eb]
  refine ⟨hε, h2.trans (by norm_num), by linarith, by linarith, ?_, ?_, ?_, ?_⟩
  · push_cast
    generalize (1 : ℚ) / 2 ^ 1000 = t at *
    linarith
  · generalize (2 : ℚ) ^ 998 = B at *
    nlinarith
  · generalize (2 : ℚ) ^ 998 = B at *
    nlinarith
  · refine le_trans ?_ hbig
    have q1 : 2 * growth ^ 2 * 408 / ε ≤ 5000 * 10 ^ 10 := by
      rw [div_eq_mul_one_div]
      exact mul_le_mul (by linarith) hinv hinv0.le (by norm_num)
    have q2 : 2 * growth ^ 2 * 4624 / ε ≤ 50000 * 10 ^ 10 := by
      rw [div_eq_mul_one_div]
      exact mul_le_mul (by linarith) hinv hinv0.le (by norm_num)
    have q3 : 0 ≤ 2 * growth ^ 2 * 4624 / ε := by positivity
    refine (mul_le_mul q1 (pow_le_pow_left₀ (by positivity) (add_le_add le_rfl q2) 2) (by positivity) (by norm_num)).trans ?_
    norm_num

theorem rootP_norm : ‖rootP‖ ≤ 10304 / 10000 := (pi_norm_le_iff_of_nonneg (by norm_num)).mpr fun i => by
  obtain ⟨b1, b2, -⟩ := rootP_bounds i
  rw [Real.norm_eq_abs, abs_of_nonneg (by linarith)]
  exact b2

theorem pair_room {ε : ℚ} (h1 : 1 / 10 ^ 10 ≤ ε) (h2 : ε ≤ 1 / 10 ^ 8) :
    SystemLMRoom rootP (1 / 32) (1 / 30) (1 / 8) 33 (1 / 2 ^ 42) (1 / 2 ^ 38) (1 / 100) (3 / 5) ε 34 3 := by
  have h1' : (1 : ℝ) / 10 ^ 10 ≤ ε := by
    have := (Rat.cast_le (K := ℝ)).mpr h1
    push_cast at this; exact this
  have h2' : (ε : ℝ) ≤ 1 / 10 ^ 8 := by
    have := (Rat.cast_le (K := ℝ)).mpr h2
    push_cast at this; exact this
  have hse : (solveError 2 : ℝ) ≤ 1 / 2 ^ 46 := by
    have := (Rat.cast_le (K := ℝ)).mpr solveError_two.2
    push_cast at this; exact this
  have hz := rootP_norm
  refine ⟨by norm_num, by norm_num, by norm_num, by norm_num, by norm_num, ?_, ?_, ?_, by norm_num, by norm_num, pair_linear h1 h2, ?_, by norm_num, by norm_num, by norm_num, by norm_num, ?_⟩
  · push_cast
    linarith [(by norm_num : (1 : ℝ) / 30 * (2 * 33) * (1 / 2 ^ 42) ≤ 1 / 100 * (1 / 10 ^ 10))]
  · push_cast
    have : 2 * 33 * ((‖rootP‖ + 1 / 32) / 2 ^ 53) ≤ 2 * 33 * ((10304 / 10000 + 1 / 32) / 2 ^ 53) := by
      apply mul_le_mul_of_nonneg_left _ (by norm_num)
      apply div_le_div_of_nonneg_right _ (by positivity)
      linarith
    linarith [(by norm_num : 2 * 33 * (((10304 : ℝ) / 10000 + 1 / 32) / 2 ^ 53) ≤ 1 / 100 * (1 / 10 ^ 10))]
  · push_cast
    have k : (2 : ℝ) * ε + 3 * 2 ^ 2 * 34 ^ 2 * solveError 2 + 1 / 50000 ≤ 2 * (1 / 10 ^ 8) + 3 * 2 ^ 2 * 34 ^ 2 * (1 / 2 ^ 46) + 1 / 50000 := by linarith
    have := mul_le_mul_of_nonneg_left k (by norm_num : (0 : ℝ) ≤ 16 * (1 / 30 * (2 * 33)) * (2 * (1 / 30) ^ 2))
    linarith [(by norm_num : (16 : ℝ) * (1 / 30 * (2 * 33)) * (2 * (1 / 30) ^ 2) * (2 * (1 / 10 ^ 8) + 3 * 2 ^ 2 * 34 ^ 2 * (1 / 2 ^ 46) + 1 / 50000) ≤ 1 / 100)]
  · exact le_trans (by norm_num) h1
  · linarith [(by norm_num : (10304 : ℝ) / 10000 + 1 / 32 ≤ 2 ^ 100)]

theorem pair_search (w : Fin 2 → ℝ) (A : Matrix (Fin 2) (Fin 2) ℝ) (hA : IsJacobian (realSystem (pairS (L := accurate))) xy w A) : SearchFactor (3 / 5) A := by
  rw [pairS_real] at hA
  apply C129_symmetric
  rw [pairSR_jacobian w A hA]
  ext i j
  fin_cases i <;> fin_cases j <;> rfl

/-- C129 applied to the texts `(x+30)*x+y-33` and `(y+30)*y+x-33`, solved with doubles by the Levenberg-Marquardt method with the other settings at
their defaults: the initial value is 1, epsilon is `10^-9`.  `Solve` returns numbers within `epsilon` of the root, both coordinates of which are
`(√1093 - 31) / 2`. -/
example : ∃ ans, (∀ lsFuel fuel, 0 < lsFuel → 20 < fuel →
      solveTexts defaultLM lsFuel fuel ["(x+30)*x+y-33".toList, "(y+30)*y+x-33".toList] = .ok ans) ∧
    ∃ v w : Double accurate, ans.table.lookup ['x'] = some v ∧ ans.table.lookup ['y'] = some w ∧
      |(v.rat : ℝ) - (Real.sqrt 1093 - 31) / 2| ≤ 1 / 10 ^ 9 ∧ |(w.rat : ℝ) - (Real.sqrt 1093 - 31) / 2| ≤ 1 / 10 ^ 9 := by
  set t : VarsTable (Double accurate) := ⟨xy, ⟨2, 1, [Dbl.ofInt 1, Dbl.ofInt 1]⟩, [(['x'], Dbl.ofInt 1), (['y'], Dbl.ofInt 1)]⟩ with htdef
  have ht : VarsTable.ofVars xy (Dbl.ofInt 1 : Double accurate) = .ok t := rfl
  have htab : DoubleTable t xy fun _ : Fin 2 => Dbl.ofInt 1 := ⟨.ofVars ht, rfl, rfl⟩
  have hp : ∀ i : Fin 2, parse ((![("(x+30)*x+y-33".toList), "(y+30)*y+x-33".toList] : Fin 2 → Str) i) = .ok (embed (pairS (L := accurate) i 0)) := by
    intro i
    match i with
    | 0 => decide +kernel
    | 1 => decide +kernel
  have heq : equationsOf ["(x+30)*x+y-33".toList, "(y+30)*y+x-33".toList] = .ok (symOf (pairS (L := accurate))) :=
    equationsOf_eq (by norm_num) hp
  have hnames : (symOf (pairS (L := accurate))).getAllVarNames = .ok xy := by decide +kernel
  have hε : defaultLM.epsilon.Is defaultLM.epsilon.raw.toRat := ⟨by decide +kernel, rfl⟩
  have hb : 1 / 10 ^ 10 ≤ defaultLM.epsilon.raw.toRat ∧ defaultLM.epsilon.raw.toRat ≤ 11 / 10 ^ 10 := by decide +kernel
  have hb1 : (1 : ℝ) / 10 ^ 10 ≤ ((defaultLM.epsilon.raw.toRat : ℚ) : ℝ) := by
    have := (Rat.cast_le (K := ℝ)).mpr hb.1
    push_cast at this; exact this
  have hb2 : ((defaultLM.epsilon.raw.toRat : ℚ) : ℝ) ≤ 11 / 10 ^ 10 := by
    have := (Rat.cast_le (K := ℝ)).mpr hb.2
    push_cast at this; exact this
  have h1is : (Dbl.ofInt 1 : Double accurate).Is 1 := one_is
  obtain ⟨t', w', r1, r2, r3, r4⟩ := C129_solve accurate_within accurate_annexF pair_region (by norm_num) defaultLM rfl rfl hε
    (pair_room hb.1 (hb.2.trans (by norm_num))) (fun w _ A hA => pair_search w A hA) 20 (by show (20 : ℤ) ≤ 100; norm_num)
    (by
      show ((2 : ℕ) : ℝ) * 33 * (1 / 32 / 4 ^ 20) + 1 / 2 ^ 42 < _
      push_cast
      linarith [(by norm_num : (2 : ℝ) * 33 * (1 / 32 / 4 ^ 20) + 1 / 2 ^ 42 < 1 / 10 ^ 10)]) t _ htab (fun _ => h1is.1) (by
      refine (pi_norm_le_iff_of_nonneg (by norm_num)).mpr fun i => ?_
      have h2 : (Dbl.ofInt 1 : Double accurate).rat = 1 := h1is.2
      obtain ⟨b1, b2, -⟩ := rootP_bounds i
      rw [Real.norm_eq_abs, Pi.sub_apply]
      simp only [realVec, h2, Rat.cast_one]
      rw [abs_le]
      constructor <;> linarith)
  have hfin : ∀ i : Fin 2, |((w' i).rat : ℝ) - (Real.sqrt 1093 - 31) / 2| ≤ 1 / 10 ^ 9 := fun i => by
    refine ((norm_le_pi_norm (realVec w' - rootP) i).trans r4).trans ?_
    linarith [(by norm_num : 4 / 3 * (1 / 30 : ℝ) * (11 / 10 ^ 10 + 1 / 2 ^ 42) ≤ 1 / 10 ^ 9)]
  refine ⟨t', fun lsFuel fuel k1 k2 => ?_, w' (0 : Fin 2), w' (1 : Fin 2), DoubleTable.lookup r2 (0 : Fin 2), DoubleTable.lookup r2 (1 : Fin 2), hfin 0, hfin 1⟩
  unfold solveTexts solveAuto
  rw [heq, Res.bind_ok, hnames, Res.bind_ok]
  show (VarsTable.ofVars xy (Dbl.ofInt 1) >>= _) = _
  rw [ht, Res.bind_ok]
  exact r1 lsFuel fuel k1 k2

end Double
end Tom
