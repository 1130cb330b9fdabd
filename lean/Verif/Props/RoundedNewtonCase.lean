import Verif.Props.RoundedNewton
/-
C105, a case: `(x + 8) x - 1 = 0` from `x = 0`, with its root `√17 - 4`.
-/
set_option linter.unusedSectionVars false
namespace Tom
namespace Double
open Filter Topology

/-- an enclosure with a bound for its error -/
def Encl (o : Option (ℝ × ℝ)) (v e : ℝ) : Prop := ∃ E, o = some (v, E) ∧ 0 ≤ E ∧ E ≤ e

open Classical in
/-- one step of an enclosure -/
noncomputable def binEncl (o : BinOp) (p q : Option (ℝ × ℝ)) : Option (ℝ × ℝ) :=
  p.bind fun (v, E) => q.bind fun (w, F) => (o.real v w).bind fun r => (o.spread v E w F).bind fun D =>
    if |r| + D < 2 ^ 1023 then some (r, D + o.roundoff (1 / 2 ^ 53) r D) else none

theorem enclosure_bin {L : Libm} (o : BinOp) (ρ : Str → ℝ) (a b : Expr (Double L)) :
    enclosure (1 / 2 ^ 53) ρ (.bin o a b) = binEncl o (enclosure (1 / 2 ^ 53) ρ a) (enclosure (1 / 2 ^ 53) ρ b) := rfl

theorem ruleEnclosure_bin (o : BinOp) (ρ : Str → ℝ) (a b : Expr (XNum ℝ)) :
    ruleEnclosure (1 / 2 ^ 53) ρ (.bin o a b) = binEncl o (ruleEnclosure (1 / 2 ^ 53) ρ a) (ruleEnclosure (1 / 2 ^ 53) ρ b) := rfl

theorem hundred_lt : (100 : ℝ) < 2 ^ 1023 := by
  have h : (2 : ℝ) ^ 10 ≤ 2 ^ 1023 := pow_le_pow_right₀ (by norm_num) (by norm_num)
  exact lt_of_lt_of_le (by norm_num) h

theorem tinyR_le : (1 : ℝ) / 2 ^ 1075 ≤ 1 / 2 ^ 60 := one_div_pow_le_one_div_pow_of_le (by norm_num) (by norm_num)

theorem encl_add {p q : Option (ℝ × ℝ)} {v e w f : ℝ} (hp : Encl p v e) (hq : Encl q w f) (h : |v + w| + (e + f) ≤ 100) :
    Encl (binEncl .add p q) (v + w) (e + f + 1 / 2 ^ 46) := by
  obtain ⟨E, rfl, h1, h2⟩ := hp
  obtain ⟨F, rfl, h3, h4⟩ := hq
  have hro : 0 ≤ BinOp.roundoff (1 / 2 ^ 53) .add (v + w) (E + F) ∧ BinOp.roundoff (1 / 2 ^ 53) .add (v + w) (E + F) ≤ 1 / 2 ^ 46 := by
    simp only [BinOp.roundoff]
    have := abs_nonneg (v + w)
    split
    · exact ⟨le_rfl, by positivity⟩
    · refine ⟨by positivity, ?_⟩
      have := mul_le_mul_of_nonneg_left (by linarith : |v + w| + (E + F) ≤ 100) (by positivity : (0 : ℝ) ≤ 1 / 2 ^ 53)
      exact this.trans (by norm_num)
  refine ⟨E + F + BinOp.roundoff (1 / 2 ^ 53) .add (v + w) (E + F), ?_, by linarith, by linarith⟩
  simp only [binEncl, Option.bind_some, BinOp.real, BinOp.spread]
  rw [if_pos (lt_of_le_of_lt (by linarith) hundred_lt)]

theorem encl_sub {p q : Option (ℝ × ℝ)} {v e w f : ℝ} (hp : Encl p v e) (hq : Encl q w f) (h : |v - w| + (e + f) ≤ 100) :
    Encl (binEncl .sub p q) (v - w) (e + f + 1 / 2 ^ 46) := by
  obtain ⟨E, rfl, h1, h2⟩ := hp
  obtain ⟨F, rfl, h3, h4⟩ := hq
  have hro : 0 ≤ BinOp.roundoff (1 / 2 ^ 53) .sub (v - w) (E + F) ∧ BinOp.roundoff (1 / 2 ^ 53) .sub (v - w) (E + F) ≤ 1 / 2 ^ 46 := by
    simp only [BinOp.roundoff]
    have := abs_nonneg (v - w)
    split
    · exact ⟨le_rfl, by positivity⟩
    · refine ⟨by positivity, ?_⟩
      have := mul_le_mul_of_nonneg_left (by linarith : |v - w| + (E + F) ≤ 100) (by positivity : (0 : ℝ) ≤ 1 / 2 ^ 53)
      exact this.trans (by norm_num)
  refine ⟨E + F + BinOp.roundoff (1 / 2 ^ 53) .sub (v - w) (E + F), ?_, by linarith, by linarith⟩
  simp only [binEncl, Option.bind_some, BinOp.real, BinOp.spread]
  rw [if_pos (lt_of_le_of_lt (by linarith) hundred_lt)]

theorem encl_mul {p q : Option (ℝ × ℝ)} {v e w f V W : ℝ} (hp : Encl p v e) (hq : Encl q w f) (hV : |v| ≤ V) (hW : |w| ≤ W)
    (h : V * W + (V * f + W * e + e * f) ≤ 100) :
    Encl (binEncl .mul p q) (v * w) (V * f + W * e + e * f + 1 / 2 ^ 46) := by
  obtain ⟨E, rfl, h1, h2⟩ := hp
  obtain ⟨F, rfl, h3, h4⟩ := hq
  have hv := abs_nonneg v
  have hw := abs_nonneg w
  have a1 : |v| * F ≤ V * f := mul_le_mul hV h4 h3 (by linarith)
  have a2 : |w| * E ≤ W * e := mul_le_mul hW h2 h1 (by linarith)
  have a3 : E * F ≤ e * f := mul_le_mul h2 h4 h3 (by linarith)
  have a4 : |v * w| ≤ V * W := by rw [abs_mul]; exact mul_le_mul hV hW hw (by linarith)
  set D := |v| * F + |w| * E + E * F with hD
  have hD0 : 0 ≤ D := by positivity
  have hro : 0 ≤ BinOp.roundoff (1 / 2 ^ 53) .mul (v * w) D ∧ BinOp.roundoff (1 / 2 ^ 53) .mul (v * w) D ≤ 1 / 2 ^ 46 := by
    simp only [BinOp.roundoff]
    have := abs_nonneg (v * w)
    split
    · exact ⟨le_rfl, by positivity⟩
    · refine ⟨by positivity, ?_⟩
      have := mul_le_mul_of_nonneg_left (by linarith : |v * w| + D ≤ 100) (by positivity : (0 : ℝ) ≤ 1 / 2 ^ 53)
      have h60 := tinyR_le
      have : (1 : ℝ) / 2 ^ 53 * 100 + 1 / 2 ^ 60 ≤ 1 / 2 ^ 46 := by norm_num
      linarith
  refine ⟨D + BinOp.roundoff (1 / 2 ^ 53) .mul (v * w) D, ?_, by linarith, by linarith⟩
  simp only [binEncl, Option.bind_some, BinOp.real, BinOp.spread]
  rw [if_pos (lt_of_le_of_lt (by rw [← hD]; linarith) hundred_lt)]

theorem encl_var {L : Libm} (ρ : Str → ℝ) (s : Str) : Encl (enclosure (L := L) (1 / 2 ^ 53) ρ (.var s)) (ρ s) 0 := ⟨0, rfl, le_rfl, le_rfl⟩
theorem rule_var (ρ : Str → ℝ) (s : Str) : Encl (ruleEnclosure (1 / 2 ^ 53) ρ (.var s)) (ρ s) 0 := ⟨0, rfl, le_rfl, le_rfl⟩

theorem encl_num {L : Libm} (ρ : Str → ℝ) (i : ℤ) (h : |i| ≤ 2 ^ 53) : Encl (enclosure (L := L) (1 / 2 ^ 53) ρ (.num (Dbl.ofInt i))) i 0 := by
  have hi := is_ofInt (L := L) h
  refine ⟨0, ?_, le_rfl, le_rfl⟩
  have e1 : Dbl.isInvalid (Dbl.ofInt i : Double L) = false := hi.1
  have e2 : (Dbl.ofInt i : Double L).raw.toRat = i := hi.2
  simp only [enclosure, e1, e2]
  simp

theorem rule_num (ρ : Str → ℝ) {r : ℝ} (h : |r| ≤ 8) : Encl (ruleEnclosure (1 / 2 ^ 53) ρ (.num (.fin r))) r (1 / 2 ^ 49) := by
  refine ⟨ruleLiteralError (1 / 2 ^ 53) r, ?_, ruleLiteralError_nonneg (by positivity) r, ?_⟩
  · simp only [ruleEnclosure, XNum.val?, Option.bind_some]
    rw [if_pos (.inr (lt_of_le_of_lt (by linarith) hundred_lt))]
  · unfold ruleLiteralError
    split
    · positivity
    · rw [max_self]
      have h1 : (1 : ℝ) / 2 ^ 1074 ≤ 1 / 2 ^ 60 := one_div_pow_le_one_div_pow_of_le (by norm_num) (by norm_num)
      have := mul_le_mul_of_nonneg_left h (by positivity : (0 : ℝ) ≤ 1 / 2 ^ 53)
      have h2 : (1 : ℝ) / 2 ^ 53 * 8 + 1 / 2 ^ 60 ≤ 1 / 2 ^ 49 := by norm_num
      linarith

/-- `(x + 8) * x - 1` -/
def nearZero {L : Libm} : Matrix (Fin 1) (Fin 1) (Expr (Double L)) := fun _ _ =>
  .bin .sub (.bin .mul (.bin .add (.var ['x']) (.num (Dbl.ofInt 8))) (.var ['x'])) (.num (Dbl.ofInt 1))

/-- its real counterpart -/
noncomputable def nearZeroR : Matrix (Fin 1) (Fin 1) (Expr (XNum ℝ)) := fun _ _ =>
  .bin .sub (.bin .mul (.bin .add (.var ['x']) (.num (.fin 8))) (.var ['x'])) (.num (.fin 1))

theorem nearZero_real {L : Libm} : realSystem (nearZero (L := L)) = nearZeroR := by
  have h : ∀ i : ℤ, |i| ≤ 2 ^ 53 → Double.toReal (Dbl.ofInt i : Double L) = .fin i := fun i hi => by
    rw [toReal_is (is_ofInt hi)]; push_cast; rfl
  funext i j
  simp [realSystem, nearZero, nearZeroR, Expr.mapNum, h 8 (by norm_num), h 1 (by norm_num)]

theorem nearZeroR_val (ρ : Str → ℝ) (i j : Fin 1) : realVal ρ (nearZeroR i j) = some ((ρ ['x'] + 8) * ρ ['x'] - 1) := by
  simp [nearZeroR, realVal, BinOp.real, XNum.val?]

theorem nearZeroR_jacobian (u : Fin 1 → ℝ) (A : Matrix (Fin 1) (Fin 1) ℝ) (h : IsJacobian nearZeroR [['x']] u A) : A = !![2 * u 0 + 8] := by
  have hd : HasDerivAt (fun s : ℝ => (s + 8) * s - 1) (2 * u 0 + 8) (u 0) := by
    have h2 : HasDerivAt (fun s : ℝ => (s + 8) * s - 1) (1 * u 0 + (u 0 + 8) * 1) (u 0) :=
      (((hasDerivAt_id (u 0)).add_const 8).mul (hasDerivAt_id (u 0))).sub_const 1
    exact h2.congr_deriv (by ring)
  have hv : ∀ s, realVal (at_ (assign [['x']] u) ['x'] s) (nearZeroR 0 0) = some ((s + 8) * s - 1) := by
    intro s
    rw [nearZeroR_val]
    simp [at_]
  ext i j
  rw [Fin.fin_one_eq_zero i, Fin.fin_one_eq_zero j]
  obtain ⟨g, h1, h2⟩ := h 0 0
  have h3 : g =ᶠ[𝓝 (u 0)] fun s => (s + 8) * s - 1 := by
    filter_upwards [h1] with s hs
    have := (hv s).symm.trans hs
    simpa using this.symm
  exact h2.unique (hd.congr_of_eventuallyEq h3)

/-- the root -/
noncomputable def rootZ : Fin 1 → ℝ := fun _ => Real.sqrt 17 - 4

theorem rootZ_bounds : (12 : ℝ) / 100 ≤ rootZ 0 ∧ rootZ 0 ≤ 125 / 1000 ∧ (rootZ 0 + 8) * rootZ 0 - 1 = 0 := by
  have h := Real.sq_sqrt (by norm_num : (0 : ℝ) ≤ 17)
  have h0 := Real.sqrt_nonneg 17
  have e : rootZ 0 = Real.sqrt 17 - 4 := rfl
  rw [e]
  refine ⟨?_, ?_, by nlinarith⟩
  · have : (412 : ℝ) / 100 ≤ Real.sqrt 17 := Real.le_sqrt_of_sq_le (by norm_num)
    linarith
  · have : Real.sqrt 17 ≤ 4125 / 1000 := Real.sqrt_le_iff.mpr ⟨by norm_num, by norm_num⟩
    linarith

theorem norm_one_le {x : Fin 1 → ℝ} {c : ℝ} (h : |x 0| ≤ c) : ‖x‖ ≤ c :=
  (pi_norm_le_iff_of_nonneg ((abs_nonneg _).trans h)).mpr fun i => by rw [Fin.fin_one_eq_zero i]; exact h

theorem near_bounds {w : Fin 1 → ℝ} (h : ‖w - rootZ‖ ≤ 1 / 8) : -1 / 100 ≤ w 0 ∧ w 0 ≤ 1 / 4 := by
  have h1 := (norm_le_pi_norm (w - rootZ) 0).trans h
  rw [Real.norm_eq_abs, Pi.sub_apply, abs_le] at h1
  obtain ⟨b1, b2, -⟩ := rootZ_bounds
  constructor <;> linarith [h1.1, h1.2]

theorem nearZero_region : RoundedRegion (L := accurate) (1 / 2 ^ 53) [['x']] nearZero rootZ (1 / 8) (1 / 7) (1 / 2) 9 (1 / 2 ^ 44) (1 / 2 ^ 40) where
  root := by
    intro i
    rw [nearZero_real, nearZeroR_val]
    exact congrArg some rootZ_bounds.2.2
  closed := by intro i x hx; simpa [nearZero, Expr.vars] using hx
  noExp := by
    intro i x _
    simp [nearZero, Expr.NoForeignExp]
  smooth := by
    intro w _ i
    rw [nearZero_real]
    simp [nearZeroR, Smooth]
  stretch := by
    intro w hw A hA x
    rw [nearZero_real] at hA
    rw [nearZeroR_jacobian w A hA]
    obtain ⟨b1, b2⟩ := near_bounds hw
    apply norm_one_le
    have h1 := norm_le_pi_norm ((!![2 * w 0 + 8] : Matrix (Fin 1) (Fin 1) ℝ).mulVec x) 0
    have h2 : (!![2 * w 0 + 8] : Matrix (Fin 1) (Fin 1) ℝ).mulVec x 0 = (2 * w 0 + 8) * x 0 := by simp [Matrix.mulVec, dotProduct]
    rw [h2, Real.norm_eq_abs, abs_mul, abs_of_nonneg (by linarith : (0 : ℝ) ≤ 2 * w 0 + 8)] at h1
    have h3 := mul_le_mul_of_nonneg_right (by linarith : (7 : ℝ) ≤ 2 * w 0 + 8) (abs_nonneg (x 0))
    linarith
  bounded := by
    intro w hw A hA i j
    rw [nearZero_real] at hA
    obtain ⟨b1, b2⟩ := near_bounds hw
    rw [nearZeroR_jacobian w A hA, Fin.fin_one_eq_zero i, Fin.fin_one_eq_zero j]
    show |2 * w 0 + 8| ≤ 9
    rw [abs_of_nonneg (by linarith)]
    linarith
  steady := by
    intro w w' hw hw' A A' hA hA' i j
    rw [nearZero_real] at hA hA'
    rw [nearZeroR_jacobian w A hA, nearZeroR_jacobian w' A' hA', Fin.fin_one_eq_zero i, Fin.fin_one_eq_zero j]
    show |(2 * w 0 + 8) - (2 * w' 0 + 8)| ≤ 1 / 2
    have h1 := (norm_le_pi_norm (w - rootZ) 0).trans hw
    have h2 := (norm_le_pi_norm (w' - rootZ) 0).trans hw'
    rw [Real.norm_eq_abs, Pi.sub_apply, abs_le] at h1 h2
    rw [abs_le]
    constructor <;> linarith [h1.1, h1.2, h2.1, h2.2]
  value := by
    intro w _ hw i
    obtain ⟨b1, b2⟩ := near_bounds hw
    have hx : assign [['x']] (realVec w) ['x'] = realVec w 0 := rfl
    have k1 := encl_add (encl_var (L := accurate) (assign [['x']] (realVec w)) ['x']) (encl_num (L := accurate) (assign [['x']] (realVec w)) 8 (by norm_num)) (by
      rw [hx, abs_of_nonneg (by push_cast; linarith)]; push_cast; linarith)
    have k2 := encl_mul k1 (encl_var (L := accurate) (assign [['x']] (realVec w)) ['x']) (V := 9) (W := 1) (by
      rw [hx, abs_of_nonneg (by push_cast; linarith)]; push_cast; linarith) (by rw [hx, abs_le]; constructor <;> linarith) (by norm_num)
    have k3 := encl_sub k2 (encl_num (L := accurate) (assign [['x']] (realVec w)) 1 (by norm_num)) (by
      rw [hx]
      have : |(realVec w 0 + (8 : ℤ)) * realVec w 0 - (1 : ℤ)| ≤ 50 := by
        push_cast; rw [abs_le]; constructor <;> nlinarith
      refine (add_le_add this le_rfl).trans ?_
      norm_num)
    obtain ⟨E, e1, -, e3⟩ := k3
    exact ⟨_, E, e1, e3.trans (by norm_num)⟩
  deriv := by
    intro w _ hw i j
    rw [nearZero_real]
    obtain ⟨b1, b2⟩ := near_bounds hw
    have hj : [['x']][j] = ['x'] := by
      match j with
      | ⟨0, _⟩ => rfl
    have hd : dE [['x']][j] (nearZeroR i 0) = .bin .sub (.bin .add (.bin .mul (.bin .add (.num (.fin 1)) (.num (.fin 0))) (.var ['x']))
        (.bin .mul (.bin .add (.var ['x']) (.num (.fin 8))) (.num (.fin 1)))) (.num (.fin 0)) := by
      rw [hj]
      have h1 : (Dbl.ofInt 1 : XNum ℝ) = .fin 1 := by show XNum.fin _ = _; norm_num
      have h0 : (Dbl.ofInt 0 : XNum ℝ) = .fin 0 := by show XNum.fin _ = _; norm_num
      simp [nearZeroR, dE, Expr.isNum, h1, h0]
    rw [hd]
    set ρ := assign [['x']] (realVec w) with hρ
    have hx : ρ ['x'] = realVec w 0 := rfl
    have k1 := encl_add (rule_num ρ (r := 1) (by norm_num)) (rule_num ρ (r := 0) (by norm_num)) (by norm_num)
    have k2 := encl_mul k1 (rule_var ρ ['x']) (V := 1) (W := 1) (by norm_num) (by rw [hx, abs_le]; constructor <;> linarith) (by norm_num)
    have k3 := encl_add (rule_var ρ ['x']) (rule_num ρ (r := 8) (by norm_num)) (by
      rw [hx, abs_of_nonneg (by linarith)]
      linarith [(by norm_num : (0 : ℝ) + 1 / 2 ^ 49 ≤ 1)])
    have k4 := encl_mul k3 (rule_num ρ (r := 1) (by norm_num)) (V := 9) (W := 1) (by rw [hx, abs_of_nonneg (by linarith)]; linarith) (by norm_num) (by norm_num)
    have k5 := encl_add k2 k4 (by
      have : |(1 + 0) * ρ ['x'] + (ρ ['x'] + 8) * 1| ≤ 50 := by rw [hx, abs_le]; constructor <;> linarith
      refine (add_le_add this le_rfl).trans ?_
      norm_num)
    have k6 := encl_sub k5 (rule_num ρ (r := 0) (by norm_num)) (by
      have : |(1 + 0) * ρ ['x'] + (ρ ['x'] + 8) * 1 - 0| ≤ 50 := by rw [hx, abs_le]; constructor <;> linarith
      refine (add_le_add this le_rfl).trans ?_
      norm_num)
    obtain ⟨E, e1, -, e3⟩ := k6
    exact ⟨_, E, e1, e3.trans (by norm_num)⟩

theorem solveError_one : solveError 1 ≤ 1 / 2 ^ 49 := by norm_num [solveError, growth]
theorem solveError_one_nonneg : 0 ≤ solveError 1 := by norm_num [solveError, growth]

theorem nearZero_room {ε : ℚ} (h1 : 1 / 10 ^ 10 ≤ ε) (h2 : ε ≤ 1 / 10 ^ 8) : RoundedRoom 1 ε 10 2 := by
  have hg : growth ≤ 201 / 100 := by norm_num [growth]
  have hg0 : 0 < growth := by norm_num [growth]
  have hε : 0 < ε := lt_of_lt_of_le (by norm_num) h1
  have hbig : (10 : ℚ) ^ 60 ≤ 2 ^ 998 := by
    have : (2 : ℚ) ^ 200 ≤ 2 ^ 998 := pow_le_pow_right₀ (by norm_num) (by norm_num)
    exact le_trans (by norm_num) this
  have hsmall : (1 : ℚ) / 2 ^ 900 ≤ 1 := by
    rw [div_le_one (by positivity)]
    exact one_le_pow₀ (by norm_num)
  have hsmall' : (1 : ℚ) / 2 ^ 1000 ≤ 1 / 10 := by
    have : (1 : ℚ) / 2 ^ 1000 ≤ 1 / 2 ^ 10 := one_div_pow_le_one_div_pow_of_le (by norm_num) (by norm_num)
    exact this.trans (by norm_num)
  have hinv : 1 / ε ≤ 10 ^ 10 := by
    rw [div_le_iff₀ hε]
    have := mul_le_mul_of_nonneg_left h1 (by norm_num : (0 : ℚ) ≤ 10 ^ 10)
    norm_num at this ⊢
    linarith
  have hinv0 : 0 < 1 / ε := by positivity
  refine ⟨hε, h2.trans (by norm_num), by linarith, by linarith, ?_, ?_, ?_, ?_⟩
  · push_cast
    generalize (1 : ℚ) / 2 ^ 1000 = t at *
    linarith
  · rw [pow_one]
    generalize (2 : ℚ) ^ 998 = B at *
    nlinarith
  · rw [pow_one]
    generalize (2 : ℚ) ^ 998 = B at *
    nlinarith
  · refine le_trans ?_ hbig
    rw [pow_one, pow_one]
    have q1 : 2 * growth * 2 / ε ≤ 10 * 10 ^ 10 := by
      rw [div_eq_mul_one_div]
      exact mul_le_mul (by linarith) hinv hinv0.le (by norm_num)
    have q2 : 2 * growth * 10 / ε ≤ 50 * 10 ^ 10 := by
      rw [div_eq_mul_one_div]
      exact mul_le_mul (by linarith) hinv hinv0.le (by norm_num)
    have q3 : 0 ≤ 2 * growth * 10 / ε := by positivity
    refine (mul_le_mul q1 (add_le_add le_rfl q2) (by positivity) (by norm_num)).trans ?_
    norm_num

/-- C105 applied to `(x + 8) x - 1 = 0` from `x = 0`, with epsilon between `10^-10` and `10^-8` and at least 60 iterations: Newton's method with
doubles returns a number within `epsilon` of the root `√17 - 4`. -/
example (cfg : Config (Double accurate)) (hs : cfg.throwOnInvalidValue = true) (ε : ℚ) (he : cfg.epsilon.Is ε) (h1 : 1 / 10 ^ 10 ≤ ε)
    (h2 : ε ≤ 1 / 10 ^ 8) (hmax : 60 ≤ cfg.maxIterations) (t : VarsTable (Double accurate)) (ht : DoubleTable t [['x']] fun _ => Arith.zero) :
    ∃ t' w', solveByNewtonRaphson cfg (symOf nearZero) t = .ok t' ∧ DoubleTable t' [['x']] w' ∧ |realVec w' 0 - (Real.sqrt 17 - 4)| ≤ ε := by
  have h1' : (1 : ℝ) / 10 ^ 10 ≤ ε := by
    have := (Rat.cast_le (K := ℝ)).mpr h1
    push_cast at this; exact this
  have h2' : (ε : ℝ) ≤ 1 / 10 ^ 8 := by
    have := (Rat.cast_le (K := ℝ)).mpr h2
    push_cast at this; exact this
  have hse : (solveError 1 : ℝ) ≤ 1 / 2 ^ 49 := by
    have := (Rat.cast_le (K := ℝ)).mpr solveError_one
    push_cast at this; exact this
  have hse0 : (0 : ℝ) ≤ solveError 1 := by exact_mod_cast solveError_one_nonneg
  obtain ⟨b1, b2, b3⟩ := rootZ_bounds
  have hz : ‖rootZ‖ ≤ 1 / 8 := norm_one_le (by rw [abs_of_nonneg (by linarith)]; linarith)
  have hz0 := norm_nonneg rootZ
  have hnoise : newtonNoise (n := 1) rootZ (1 / 7) (1 / 2 ^ 44) 2 ≤ 1 / 2 ^ 44 := by
    unfold newtonNoise
    push_cast
    have := mul_le_mul_of_nonneg_left hz (by positivity : (0 : ℝ) ≤ 1 / 2 ^ 53)
    linarith [(by norm_num : 2 * (1 / 7 : ℝ) * (1 / 2 ^ 49 * 2 + 1 / 2 ^ 44) + 1 / 2 ^ 53 * (1 / 8) ≤ 1 / 2 ^ 44)]
  have hbig : (1 : ℝ) ≤ 2 ^ 1000 := one_le_pow₀ (by norm_num)
  obtain ⟨t', w', r1, r2, r3, r4⟩ := C105_zero accurate_within accurate_annexF nearZero_region (by simp) cfg hs he (nearZero_room h1 h2)
    (by norm_num) (by push_cast; norm_num) (by push_cast; norm_num)
    (by
      show (1 / 7 : ℝ) * (((1 : ℕ) : ℝ) * (ε + solveError 1 * ((10 : ℚ) : ℝ) + 1 / 2 ^ 40)) ≤ 1 / 12
      push_cast
      linarith [(by norm_num : (1 : ℝ) / 10 ^ 8 ≤ 1 / 10), (by norm_num : (1 : ℝ) / 2 ^ 49 * 10 + 1 / 2 ^ 40 ≤ 1 / 10)])
    (by simp; norm_num) (le_trans (by linarith) hbig) (by
      refine hnoise.trans ?_
      norm_num) 60 (by push_cast; linarith)
    (by
      show ((1 : ℕ) : ℝ) * 9 * (1 / 8 / 2 ^ 60 + 2 * newtonNoise (n := 1) rootZ (1 / 7) (1 / 2 ^ 44) 2) + 1 / 2 ^ 44 < ε
      push_cast
      linarith [(by norm_num : (1 : ℝ) * 9 * (1 / 8 / 2 ^ 60 + 2 * (1 / 2 ^ 44)) + 1 / 2 ^ 44 < 1 / 10 ^ 10)]) t ht hz
  refine ⟨t', w', r1, r2, ?_⟩
  have h3 := (norm_le_pi_norm (realVec w' - rootZ) 0).trans r4
  rw [Real.norm_eq_abs, Pi.sub_apply] at h3
  refine h3.trans ?_
  linarith [(by norm_num : (1 : ℝ) / 2 ^ 44 ≤ 1 / 10 ^ 10)]

end Double
end Tom
