import Verif.Props.WrittenSolve
import Verif.Props.RoundedStartCase
import Verif.Props.RoundedLMCase
/-
A case of C128: the text `(x+20)*x-20.1`, whose literal 20.1 is not a double, solved with every setting at its default.
-/
set_option linter.unusedSectionVars false
namespace Tom
open Filter Topology
namespace Double

/-- the equation as it is written -/
noncomputable def twentyW : Expr (XNum ℝ) :=
  .bin .sub (.bin .mul (.bin .add (.var ['x']) (.num (.fin 20))) (.var ['x'])) (.num (.fin (201 / 10)))

theorem means_twenty : WordMeans ['2', '0'] (.num (.fin 20) : Tok (XNum ℝ)) := by
  refine .num ?_
  have h0 : DecDigits ['2', '0'] := by intro c hc; simp at hc; rcases hc with rfl | rfl <;> decide
  have := Numeral.dec (α := XNum ℝ) (v := .fin 20) (Mantissa.int h0 (by simp)) .none (by
    show some _ = some _
    congr 2
    have h0 : digitVal '0' = 0 := by decide
    have h2 : digitVal '2' = 2 := by decide
    simp [digitsVal, h0, h2])
  simpa using this

theorem means_twentyOne : WordMeans ['2', '0', '.', '1'] (.num (.fin (201 / 10)) : Tok (XNum ℝ)) := by
  refine .num ?_
  have h0 : DecDigits ['2', '0'] := by intro c hc; simp at hc; rcases hc with rfl | rfl <;> decide
  have h1 : DecDigits ['1'] := by intro c hc; simp at hc; subst hc; decide
  have := Numeral.dec (α := XNum ℝ) (v := .fin (201 / 10)) (Mantissa.point h0 h1 (by simp)) .none (by
    show some _ = some _
    congr 2
    have h0 : digitVal '0' = 0 := by decide
    have h1 : digitVal '1' = 1 := by decide
    have h2 : digitVal '2' = 2 := by decide
    simp [digitsVal, h0, h1, h2, zpow_neg, div_eq_mul_inv])
  simpa using this

theorem twentyW_writes : Writes "(x+20)*x-20.1".toList twentyW := by
  have hw : ∀ c ∈ ['x', '0', '.', '1', '2'], WordChar c := by
    intro c hc
    simp at hc
    rcases hc with rfl | rfl | rfl | rfl | rfl <;> exact ⟨by unfold OpChar; decide, by unfold BlankChar; decide⟩
  have hx : WordMeans ['x'] (.var ['x'] : Tok (XNum ℝ)) := by
    refine .var ((C08_varNameIsLegal _).mp (by decide)) ((stodFull_none_iff _).mp rfl) ?_
    rintro ⟨f, hf⟩; cases hf
  have up : ∀ {n p : Nat} {ts : List (Tok (XNum ℝ))} {e : Expr (XNum ℝ)}, Gram (p + n) ts e → Gram p ts e := by
    intro n
    induction n with
    | zero => intro p ts e h; exact h
    | succ n ih => intro p ts e h; exact ih (.lift h)
  refine ⟨[(.sym '(', 0), (.var ['x'], 1), (.sym '+', 2), (.num (.fin 20), 3), (.sym ')', 5), (.sym '*', 6), (.var ['x'], 7), (.sym '-', 8),
    (.num (.fin (201 / 10)), 9)], ?_, ?_, ?_⟩
  · exact .sym (w := []) (c := '(') (rest := ['x', '+', '2', '0', ')', '*', 'x', '-', '2', '0', '.', '1']) (by simp) (by unfold OpChar; decide)
      (.word (w := []) (u := ['x']) (rest := ['+', '2', '0', ')', '*', 'x', '-', '2', '0', '.', '1']) (by simp) (by simp) (fun c hc => hw c (by simp at hc ⊢; tauto))
        (by intro c hc; simp at hc; subst hc; exact fun h => h.1 (by unfold OpChar; decide)) hx
      (.sym (w := []) (c := '+') (rest := ['2', '0', ')', '*', 'x', '-', '2', '0', '.', '1']) (by simp) (by unfold OpChar; decide)
      (.word (w := []) (u := ['2', '0']) (rest := [')', '*', 'x', '-', '2', '0', '.', '1']) (by simp) (by simp) (fun c hc => hw c (by simp at hc ⊢; tauto))
        (by intro c hc; simp at hc; subst hc; exact fun h => h.1 (by unfold OpChar; decide)) means_twenty
      (.sym (w := []) (c := ')') (rest := ['*', 'x', '-', '2', '0', '.', '1']) (by simp) (by unfold OpChar; decide)
      (.sym (w := []) (c := '*') (rest := ['x', '-', '2', '0', '.', '1']) (by simp) (by unfold OpChar; decide)
      (.word (w := []) (u := ['x']) (rest := ['-', '2', '0', '.', '1']) (by simp) (by simp) (fun c hc => hw c (by simp at hc ⊢; tauto))
        (by intro c hc; simp at hc; subst hc; exact fun h => h.1 (by unfold OpChar; decide)) hx
      (.sym (w := []) (c := '-') (rest := ['2', '0', '.', '1']) (by simp) (by unfold OpChar; decide)
      (.word (w := []) (u := ['2', '0', '.', '1']) (rest := []) (by simp) (by simp) (fun c hc => hw c (by simp at hc ⊢; tauto))
        (by simp) means_twentyOne (.blank (by simp))))))))))
  · exact up (n := 5) (.left (c := '-') (ts := [_, _, _, _, _, _, _]) .sub (by decide)
      (up (n := 5) (.left (c := '*') (ts := [_, _, _, _, _]) .mul (by decide)
        (up (n := 5) (.paren (ts := [_, _, _]) (up (n := 5) (.left (c := '+') (ts := [_]) .add (by decide) (up (n := 10) (.var _)) (up (n := 9) (.num _))))))
        (up (n := 4) (.var _))))
      (up (n := 9) (.num _)))
  · intro x hx s f h he
    simp at hx
    subst hx
    cases h <;> exact absurd he (by decide +kernel)

theorem textEnclosure_bin (o : BinOp) (ρ : Str → ℝ) (a b : Expr (XNum ℝ)) :
    textEnclosure (1 / 2 ^ 53) ρ (.bin o a b) = binEncl o (textEnclosure (1 / 2 ^ 53) ρ a) (textEnclosure (1 / 2 ^ 53) ρ b) := rfl

theorem normalLiteral_mid {r : ℝ} (h1 : 1 ≤ r) (h2 : r ≤ 32) : NormalLiteral r := by
  have hbig : (2 : ℝ) ^ 10 ≤ 2 ^ 1023 := pow_le_pow_right₀ (by norm_num) (by norm_num)
  have hsmall : (1 : ℝ) / 2 ^ 1022 ≤ 1 / 2 ^ 10 := one_div_pow_le_one_div_pow_of_le (by norm_num) (by norm_num)
  rw [NormalLiteral, abs_of_nonneg (by linarith)]
  exact .inr ⟨hsmall.trans (by linarith [(by norm_num : (1 : ℝ) / 2 ^ 10 ≤ 1)]), lt_of_lt_of_le (by linarith [(by norm_num : (32 : ℝ) < 2 ^ 10)]) hbig⟩

theorem text_num (ρ : Str → ℝ) {r : ℝ} (h1 : 1 ≤ r) (h2 : r ≤ 32) : Encl (textEnclosure (1 / 2 ^ 53) ρ (.num (.fin r))) r (1 / 2 ^ 48) := by
  refine ⟨literalError r, ?_, ?_, ?_⟩
  · simp only [textEnclosure, XNum.val?, Option.bind_some]
    rw [if_pos (normalLiteral_mid h1 h2)]
  · unfold literalError
    split <;> positivity
  · unfold literalError
    split
    · positivity
    · rw [abs_of_nonneg (by linarith)]
      have := mul_le_mul_of_nonneg_left h2 (by positivity : (0 : ℝ) ≤ 1 / 2 ^ 53)
      exact this.trans (by norm_num)

theorem written_mid (ρ : Str → ℝ) {r : ℝ} (h1 : 0 ≤ r) (h2 : r ≤ 32) : Encl (writtenEnclosure (1 / 2 ^ 53) ρ (.num (.fin r))) r (1 / 2 ^ 46) := by
  have hbig : (2 : ℝ) ^ 10 ≤ 2 ^ 1022 := pow_le_pow_right₀ (by norm_num) (by norm_num)
  refine ⟨writtenLiteralError (1 / 2 ^ 53) r, ?_, writtenLiteralError_nonneg r, ?_⟩
  · simp only [writtenEnclosure, XNum.val?, Option.bind_some]
    rw [if_pos (lt_of_lt_of_le (by rw [abs_of_nonneg h1]; linarith [(by norm_num : (32 : ℝ) < 2 ^ 10)]) hbig)]
  · unfold writtenLiteralError
    split
    · positivity
    · rw [max_self, abs_of_nonneg h1]
      have := mul_le_mul_of_nonneg_left (by linarith : r + 1 ≤ 33) (by positivity : (0 : ℝ) ≤ 3 * (1 / 2 ^ 53))
      exact this.trans (by norm_num)

theorem twentyW_val (ρ : Str → ℝ) : realVal ρ twentyW = some ((ρ ['x'] + 20) * ρ ['x'] - 201 / 10) := by
  simp [twentyW, realVal, BinOp.real, XNum.val?]

theorem twentyW_jacobian (u : Fin 1 → ℝ) (A : Matrix (Fin 1) (Fin 1) ℝ) (h : IsJacobian (fun _ _ => twentyW) [['x']] u A) : A = !![2 * u 0 + 20] := by
  have hd : HasDerivAt (fun s : ℝ => (s + 20) * s - 201 / 10) (2 * u 0 + 20) (u 0) := by
    have h2 : HasDerivAt (fun s : ℝ => (s + 20) * s - 201 / 10) (1 * u 0 + (u 0 + 20) * 1) (u 0) :=
      (((hasDerivAt_id (u 0)).add_const 20).mul (hasDerivAt_id (u 0))).sub_const (201 / 10)
    exact h2.congr_deriv (by ring)
  have hv : ∀ s, realVal (at_ (assign [['x']] u) ['x'] s) twentyW = some ((s + 20) * s - 201 / 10) := by
    intro s
    rw [twentyW_val]
    simp [at_]
  ext i j
  rw [Fin.fin_one_eq_zero i, Fin.fin_one_eq_zero j]
  obtain ⟨g, h1, h2⟩ := h 0 0
  have h3 : g =ᶠ[𝓝 (u 0)] fun s => (s + 20) * s - 201 / 10 := by
    filter_upwards [h1] with s hs
    have := (hv s).symm.trans hs
    simpa using this.symm
  exact h2.unique (hd.congr_of_eventuallyEq h3)

/-- the root of the written equation -/
noncomputable def rootW : Fin 1 → ℝ := fun _ => Real.sqrt (1201 / 10) - 10

theorem rootW_bounds : (95 : ℝ) / 100 ≤ rootW 0 ∧ rootW 0 ≤ 96 / 100 ∧ (rootW 0 + 20) * rootW 0 - 201 / 10 = 0 := by
  have h := Real.sq_sqrt (by norm_num : (0 : ℝ) ≤ 1201 / 10)
  have h0 := Real.sqrt_nonneg (1201 / 10)
  have e : rootW 0 = Real.sqrt (1201 / 10) - 10 := rfl
  rw [e]
  refine ⟨?_, ?_, by nlinarith⟩
  · have : (1095 : ℝ) / 100 ≤ Real.sqrt (1201 / 10) := Real.le_sqrt_of_sq_le (by norm_num)
    linarith
  · have : Real.sqrt (1201 / 10) ≤ 1096 / 100 := Real.sqrt_le_iff.mpr ⟨by norm_num, by norm_num⟩
    linarith

theorem nearW_bounds {w : Fin 1 → ℝ} (h : ‖w - rootW‖ ≤ 9 / 8) : -18 / 100 ≤ w 0 ∧ w 0 ≤ 209 / 100 := by
  have h1 := (norm_le_pi_norm (w - rootW) 0).trans h
  rw [Real.norm_eq_abs, Pi.sub_apply, abs_le] at h1
  obtain ⟨b1, b2, -⟩ := rootW_bounds
  constructor <;> linarith [h1.1, h1.2]

theorem twentyW_region : WrittenRegion (1 / 2 ^ 53) [['x']] (fun _ => "(x+20)*x-20.1".toList) (fun _ => twentyW) rootW (9 / 8) (1 / 19) (9 / 2) 25
    (1 / 2 ^ 43) (1 / 2 ^ 39) where
  writes := fun _ => twentyW_writes
  literals := by
    intro i v hv
    simp [twentyW, Expr.nums] at hv
    rcases hv with rfl | rfl
    · exact ⟨_, rfl, normalLiteral_mid (by norm_num) (by norm_num)⟩
    · exact ⟨_, rfl, normalLiteral_mid (by norm_num) (by norm_num)⟩
  sorted := by simp
  names := by
    intro x
    constructor
    · intro hx; exact ⟨(0 : Fin 1), by simpa [twentyW, Expr.vars] using hx⟩
    · rintro ⟨i, hx⟩; simpa [twentyW, Expr.vars] using hx
  noExp := by
    intro i x _
    simp [twentyW, Expr.NoForeignExp]
  root := by
    intro i
    show realVal _ twentyW = _
    rw [twentyW_val]
    exact congrArg some rootW_bounds.2.2
  smooth := by
    intro w _ i
    simp [twentyW, Smooth]
  stretch := by
    intro w hw A hA x
    rw [twentyW_jacobian w A hA]
    obtain ⟨b1, b2⟩ := nearW_bounds hw
    apply norm_one_le
    have h1 := norm_le_pi_norm ((!![2 * w 0 + 20] : Matrix (Fin 1) (Fin 1) ℝ).mulVec x) 0
    have h2 : (!![2 * w 0 + 20] : Matrix (Fin 1) (Fin 1) ℝ).mulVec x 0 = (2 * w 0 + 20) * x 0 := by simp [Matrix.mulVec, dotProduct]
    rw [h2, Real.norm_eq_abs, abs_mul, abs_of_nonneg (by linarith : (0 : ℝ) ≤ 2 * w 0 + 20)] at h1
    have h3 := mul_le_mul_of_nonneg_right (by linarith : (19 : ℝ) ≤ 2 * w 0 + 20) (abs_nonneg (x 0))
    linarith
  bounded := by
    intro w hw A hA i j
    obtain ⟨b1, b2⟩ := nearW_bounds hw
    rw [twentyW_jacobian w A hA, Fin.fin_one_eq_zero i, Fin.fin_one_eq_zero j]
    show |2 * w 0 + 20| ≤ 25
    rw [abs_of_nonneg (by linarith)]
    linarith
  steady := by
    intro w w' hw hw' A A' hA hA' i j
    rw [twentyW_jacobian w A hA, twentyW_jacobian w' A' hA', Fin.fin_one_eq_zero i, Fin.fin_one_eq_zero j]
    show |(2 * w 0 + 20) - (2 * w' 0 + 20)| ≤ 9 / 2
    have h1 := (norm_le_pi_norm (w - rootW) 0).trans hw
    have h2 := (norm_le_pi_norm (w' - rootW) 0).trans hw'
    rw [Real.norm_eq_abs, Pi.sub_apply, abs_le] at h1 h2
    rw [abs_le]
    constructor <;> linarith [h1.1, h1.2, h2.1, h2.2]
  value := by
    intro w _ hw i
    obtain ⟨b1, b2⟩ := nearW_bounds hw
    set ρ := assign [['x']] w with hρ
    have hx : ρ ['x'] = w 0 := rfl
    have kx : Encl (textEnclosure (1 / 2 ^ 53) ρ (.var ['x'])) (ρ ['x']) 0 := ⟨0, rfl, le_rfl, le_rfl⟩
    have k1 := encl_add kx (text_num ρ (r := 20) (by norm_num) (by norm_num)) (by
      rw [hx, abs_of_nonneg (by linarith)]
      linarith [(by norm_num : (0 : ℝ) + 1 / 2 ^ 48 ≤ 1)])
    have k2 := encl_mul k1 kx (V := 23) (W := 3) (by
      rw [hx, abs_of_nonneg (by linarith)]; linarith) (by rw [hx, abs_le]; constructor <;> linarith) (by norm_num)
    have k3 := encl_sub k2 (text_num ρ (r := 201 / 10) (by norm_num) (by norm_num)) (by
      rw [hx]
      have : |(w 0 + 20) * w 0 - 201 / 10| ≤ 50 := by
        rw [abs_le]; constructor <;> nlinarith
      refine (add_le_add this le_rfl).trans ?_
      norm_num)
    obtain ⟨E, e1, -, e3⟩ := k3
    exact ⟨_, E, e1, e3.trans (by norm_num)⟩
  deriv := by
    intro w _ hw i j
    obtain ⟨b1, b2⟩ := nearW_bounds hw
    have hj : [['x']][j] = ['x'] := by
      match j with
      | ⟨0, _⟩ => rfl
    have hd : dE [['x']][j] twentyW = .bin .sub (.bin .add (.bin .mul (.bin .add (.num (.fin 1)) (.num (.fin 0))) (.var ['x']))
        (.bin .mul (.bin .add (.var ['x']) (.num (.fin 20))) (.num (.fin 1)))) (.num (.fin 0)) := by
      rw [hj]
      have h1 : (Dbl.ofInt 1 : XNum ℝ) = .fin 1 := by show XNum.fin _ = _; norm_num
      have h0 : (Dbl.ofInt 0 : XNum ℝ) = .fin 0 := by show XNum.fin _ = _; norm_num
      simp [twentyW, dE, Expr.isNum, h1, h0]
    rw [hd]
    set ρ := assign [['x']] w with hρ
    have hx : ρ ['x'] = w 0 := rfl
    have kx : Encl (writtenEnclosure (1 / 2 ^ 53) ρ (.var ['x'])) (ρ ['x']) 0 := ⟨0, rfl, le_rfl, le_rfl⟩
    have kn1 := written_mid ρ (r := 1) (by norm_num) (by norm_num)
    have kn0 := written_mid ρ (r := 0) (by norm_num) (by norm_num)
    have k1 := encl_add kn1 kn0 (by norm_num)
    have k2 := encl_mul k1 kx (V := 1) (W := 3) (by norm_num) (by rw [hx, abs_le]; constructor <;> linarith) (by norm_num)
    have k3 := encl_add kx (written_mid ρ (r := 20) (by norm_num) (by norm_num)) (by
      rw [hx, abs_of_nonneg (by linarith)]
      linarith [(by norm_num : (0 : ℝ) + 1 / 2 ^ 46 ≤ 1)])
    have k4 := encl_mul k3 kn1 (V := 23) (W := 1) (by rw [hx, abs_of_nonneg (by linarith)]; linarith) (by norm_num) (by norm_num)
    have k5 := encl_add k2 k4 (by
      have : |(1 + 0) * ρ ['x'] + (ρ ['x'] + 20) * 1| ≤ 50 := by rw [hx, abs_le]; constructor <;> linarith
      refine (add_le_add this le_rfl).trans ?_
      norm_num)
    have k6 := encl_sub k5 kn0 (by
      have : |(1 + 0) * ρ ['x'] + (ρ ['x'] + 20) * 1 - 0| ≤ 50 := by rw [hx, abs_le]; constructor <;> linarith
      refine (add_le_add this le_rfl).trans ?_
      norm_num)
    obtain ⟨E, e1, -, e3⟩ := k6
    exact ⟨_, E, e1, e3.trans (by norm_num)⟩

/-- C128 applied to the text `(x+20)*x-20.1` with every setting at its default: Newton's method with doubles from the initial value 1, epsilon
`10^-9`, at most 100 iterations. The literal 20.1 is no double; `Solve` returns a number within `10^-9` of the root `√120.1 - 10` of the
equation as it is written. -/
example : ∃ ans, (∀ lsFuel fuel, solveTexts defaultA lsFuel fuel ["(x+20)*x-20.1".toList] = .ok ans) ∧ ans.vars = [['x']] ∧
    ∃ w : Double accurate, ans.table.lookup ['x'] = some w ∧ w.Finite ∧ |(w.rat : ℝ) - (Real.sqrt (1201 / 10) - 10)| ≤ 1 / 10 ^ 9 := by
  have hε : defaultA.epsilon.Is defaultA.epsilon.raw.toRat := ⟨by decide +kernel, rfl⟩
  have hb : 1 / 10 ^ 10 ≤ defaultA.epsilon.raw.toRat ∧ defaultA.epsilon.raw.toRat ≤ 11 / 10 ^ 10 := by decide +kernel
  have hb1 : (1 : ℝ) / 10 ^ 10 ≤ ((defaultA.epsilon.raw.toRat : ℚ) : ℝ) := by
    have := (Rat.cast_le (K := ℝ)).mpr hb.1
    push_cast at this; exact this
  have hb2 : ((defaultA.epsilon.raw.toRat : ℚ) : ℝ) ≤ 11 / 10 ^ 10 := by
    have := (Rat.cast_le (K := ℝ)).mpr hb.2
    push_cast at this; exact this
  have h1is : (Dbl.ofInt 1 : Double accurate).Is 1 := one_is
  have hse : (solveError 1 : ℝ) ≤ 1 / 2 ^ 49 := by
    have := (Rat.cast_le (K := ℝ)).mpr solveError_one
    push_cast at this; exact this
  have hse0 : (0 : ℝ) ≤ solveError 1 := by exact_mod_cast solveError_one_nonneg
  obtain ⟨b1, b2, -⟩ := rootW_bounds
  have hz : ‖rootW‖ ≤ 1 := norm_one_le (by rw [abs_of_nonneg (by linarith)]; linarith)
  have hz0 := norm_nonneg rootW
  have hnoise : newtonNoise (n := 1) rootW (1 / 19) (1 / 2 ^ 43) 30 ≤ 1 / 2 ^ 43 := by
    unfold newtonNoise
    push_cast
    have := mul_le_mul_of_nonneg_left hz (by positivity : (0 : ℝ) ≤ 1 / 2 ^ 53)
    linarith [(by norm_num : 2 * (1 / 19 : ℝ) * (1 / 2 ^ 49 * 30 + 1 / 2 ^ 43) + 1 / 2 ^ 53 * 1 ≤ 1 / 2 ^ 43)]
  have hbig : (1024 : ℝ) ≤ 2 ^ 1000 := by
    have : (2 : ℝ) ^ 10 ≤ 2 ^ 1000 := pow_le_pow_right₀ (by norm_num) (by norm_num)
    exact le_trans (by norm_num) this
  have hd1 : ‖(fun _ : Fin 1 => ((1 : ℚ) : ℝ)) - rootW‖ ≤ 1 / 20 := norm_one_le (by
    rw [Pi.sub_apply, abs_le]; push_cast; constructor <;> linarith)
  obtain ⟨ans, w', r1, r2, r3, r4⟩ := C128_newton accurate_within accurate_annexF twentyW_region Nat.one_pos defaultA rfl rfl hε h1is
    (nearTwenty_room hb.1 (hb.2.trans (by norm_num))) (by norm_num) (by push_cast; norm_num) (by push_cast; norm_num) (by
      show (1 / 19 : ℝ) * (((1 : ℕ) : ℝ) * (defaultA.epsilon.raw.toRat + solveError 1 * ((26 : ℚ) : ℝ) + 1 / 2 ^ 39)) ≤ 1 / 12
      push_cast
      linarith [(by norm_num : (11 : ℝ) / 10 ^ 10 ≤ 1 / 10), (by norm_num : (1 : ℝ) / 2 ^ 49 * 26 + 1 / 2 ^ 39 ≤ 1 / 10)])
    (by simp; norm_num) (le_trans (by linarith) hbig) (by linarith [(by norm_num : (1 : ℝ) / 2 ^ 43 ≤ 9 / 8 / 2)]) 60 (by show (60 : ℤ) ≤ 100; norm_num)
    (by
      show ((1 : ℕ) : ℝ) * 25 * (9 / 8 / 2 ^ 60 + 2 * newtonNoise (n := 1) rootW (1 / 19) (1 / 2 ^ 43) 30) + 1 / 2 ^ 43 < defaultA.epsilon.raw.toRat
      push_cast
      linarith [(by norm_num : (1 : ℝ) * 25 * (9 / 8 / 2 ^ 60 + 2 * (1 / 2 ^ 43)) + 1 / 2 ^ 43 < 1 / 10 ^ 10)])
    (hd1.trans (by norm_num)) (by
      have h1 : |((1 : ℚ) : ℝ)| = 1 := by norm_num
      have hd1' : ‖(fun _ : Fin [['x']].length => ((1 : ℚ) : ℝ)) - rootW‖ ≤ 1 / 20 := hd1
      have hn' : newtonNoise (n := [['x']].length) rootW (1 / 19) (1 / 2 ^ 43) 30 ≤ 1 / 2 ^ 43 := hnoise
      rw [h1]
      linarith [(by norm_num : (1 : ℝ) / 2 ^ 43 ≤ 1 / 20)])
  refine ⟨ans, r1, r2, w' (0 : Fin 1), (r3 (0 : Fin 1)).1, (r3 (0 : Fin 1)).2, ?_⟩
  have h := (norm_le_pi_norm (realVec w' - rootW) (0 : Fin 1)).trans r4
  rw [Real.norm_eq_abs, Pi.sub_apply] at h
  refine h.trans ?_
  linarith [(by norm_num : 4 / 3 * (1 / 19 : ℝ) * (11 / 10 ^ 10 + 1 / 2 ^ 43) ≤ 1 / 10 ^ 9)]

/-- a smaller region around the root, where the slope changes less -/
theorem twentyW_small : WrittenRegion (1 / 2 ^ 53) [['x']] (fun _ => "(x+20)*x-20.1".toList) (fun _ => twentyW) rootW (1 / 8) (1 / 19) (1 / 2) 25
    (1 / 2 ^ 43) (1 / 2 ^ 39) where
  writes := twentyW_region.writes
  literals := twentyW_region.literals
  sorted := twentyW_region.sorted
  names := twentyW_region.names
  noExp := twentyW_region.noExp
  root := twentyW_region.root
  smooth := fun w hw => twentyW_region.smooth w (hw.trans (by norm_num))
  stretch := fun w hw => twentyW_region.stretch w (hw.trans (by norm_num))
  bounded := fun w hw => twentyW_region.bounded w (hw.trans (by norm_num))
  steady := by
    intro w w' hw hw' A A' hA hA' i j
    rw [twentyW_jacobian w A hA, twentyW_jacobian w' A' hA', Fin.fin_one_eq_zero i, Fin.fin_one_eq_zero j]
    show |(2 * w 0 + 20) - (2 * w' 0 + 20)| ≤ 1 / 2
    have h1 := (norm_le_pi_norm (w - rootW) 0).trans hw
    have h2 := (norm_le_pi_norm (w' - rootW) 0).trans hw'
    rw [Real.norm_eq_abs, Pi.sub_apply, abs_le] at h1 h2
    rw [abs_le]
    constructor <;> linarith [h1.1, h1.2, h2.1, h2.2]
  value := fun w hd hw => twentyW_region.value w hd (hw.trans (by norm_num))
  deriv := fun w hd hw => twentyW_region.deriv w hd (hw.trans (by norm_num))

/-- C128 applied to the text `(x+20)*x-20.1` with the Levenberg-Marquardt method, the other settings at their defaults -/
example : ∃ ans, (∀ lsFuel fuel, 0 < lsFuel → 20 < fuel → solveTexts defaultLM lsFuel fuel ["(x+20)*x-20.1".toList] = .ok ans) ∧
    ans.vars = [['x']] ∧
    ∃ w : Double accurate, ans.table.lookup ['x'] = some w ∧ w.Finite ∧ |(w.rat : ℝ) - (Real.sqrt (1201 / 10) - 10)| ≤ 1 / 10 ^ 9 := by
  have hε : defaultLM.epsilon.Is defaultLM.epsilon.raw.toRat := ⟨by decide +kernel, rfl⟩
  have hb : 9 / 10 ^ 10 ≤ defaultLM.epsilon.raw.toRat ∧ defaultLM.epsilon.raw.toRat ≤ 11 / 10 ^ 10 := by decide +kernel
  have hb1 : (9 : ℝ) / 10 ^ 10 ≤ ((defaultLM.epsilon.raw.toRat : ℚ) : ℝ) := by
    have := (Rat.cast_le (K := ℝ)).mpr hb.1
    push_cast at this; exact this
  have hb2 : ((defaultLM.epsilon.raw.toRat : ℚ) : ℝ) ≤ 11 / 10 ^ 10 := by
    have := (Rat.cast_le (K := ℝ)).mpr hb.2
    push_cast at this; exact this
  have h1is : (Dbl.ofInt 1 : Double accurate).Is 1 := one_is
  obtain ⟨b1, b2, -⟩ := rootW_bounds
  have hz : ‖rootW‖ ≤ 1 := norm_one_le (by rw [abs_of_nonneg (by linarith)]; linarith)
  have hroom : LMRoom rootW (1 / 8) (1 / 19) (1 / 2) 25 (1 / 2 ^ 43) (1 / 2 ^ 39) (defaultLM.epsilon.raw.toRat : ℚ) := by
    refine ⟨by norm_num, by norm_num, ?_, by norm_num, by norm_num, ?_, ?_, ?_, by norm_num, by norm_num, ?_⟩
    · linarith [(by norm_num : (11 : ℝ) / 10 ^ 10 ≤ 1 / 4)]
    · linarith [(by norm_num : (1 : ℝ) / 2 ^ 43 ≤ 9 / 10 ^ 10 / 1000)]
    · have : 25 * ((‖rootW‖ + 1 / 8) / 2 ^ 53) ≤ 25 * ((1 + 1 / 8) / 2 ^ 53) := by
        apply mul_le_mul_of_nonneg_left _ (by norm_num)
        apply div_le_div_of_nonneg_right _ (by positivity)
        linarith
      linarith [(by norm_num : 25 * (((1 : ℝ) + 1 / 8) / 2 ^ 53) ≤ 9 / 10 ^ 10 / 1000)]
    · exact le_trans (by norm_num) hb1
    · linarith [(by norm_num : (1 : ℝ) + 1 / 8 ≤ 2 ^ 100)]
  obtain ⟨ans, w', r1, r2, r3, r4, r5⟩ := C128_lm accurate_within accurate_annexF twentyW_small defaultLM rfl rfl hε h1is hroom 20
    (by show (20 : ℤ) ≤ 100; norm_num) (by linarith [(by norm_num : (25 : ℝ) * (1 / 8 / 4 ^ 20) + 1 / 2 ^ 43 < 9 / 10 ^ 10)])
    (by rw [abs_le]; push_cast; constructor <;> linarith)
  refine ⟨ans, r1, r2, w', r3, r4, r5.trans ?_⟩
  linarith [(by norm_num : 4 / 3 * (1 / 19 : ℝ) * (11 / 10 ^ 10 + 1 / 2 ^ 43) ≤ 1 / 10 ^ 9)]

end Double
end Tom
