import Verif.Props.WrittenSolveCase
import Verif.Props.SystemLMCase
/-
A case of C128 in two unknowns: the texts `(x+29)*x+y-31.9` and `(y+29)*y+x-31.9`, whose literal 31.9 is not a double, solved by the
Levenberg-Marquardt method.
-/
set_option linter.unusedSectionVars false
namespace Tom
open Filter Topology
namespace Double

/-- the equation `(a + 29) a + b - 31.9 = 0` as it is written -/
noncomputable def pairW (a b : Str) : Expr (XNum ℝ) :=
  .bin .sub (.bin .add (.bin .mul (.bin .add (.var a) (.num (.fin 29))) (.var a)) (.var b)) (.num (.fin (319 / 10)))

noncomputable def pairSW : Fin 2 → Expr (XNum ℝ) := ![pairW ['x'] ['y'], pairW ['y'] ['x']]

/-- the texts -/
def pairT : Fin 2 → Str := ![("(x+29)*x+y-31.9".toList), "(y+29)*y+x-31.9".toList]

theorem means_twentyNine : WordMeans ['2', '9'] (.num (.fin 29) : Tok (XNum ℝ)) := by
  refine .num ?_
  have h0 : DecDigits ['2', '9'] := by intro c hc; simp at hc; rcases hc with rfl | rfl <;> decide
  have := Numeral.dec (α := XNum ℝ) (v := .fin 29) (Mantissa.int h0 (by simp)) .none (by
    show some _ = some _
    congr 2
    have h0 : digitVal '9' = 9 := by decide
    have h2 : digitVal '2' = 2 := by decide
    simp [digitsVal, h0, h2]
    try norm_num)
  simpa using this

theorem means_literalW : WordMeans ['3', '1', '.', '9'] (.num (.fin (319 / 10)) : Tok (XNum ℝ)) := by
  refine .num ?_
  have h0 : DecDigits ['3', '1'] := by intro c hc; simp at hc; rcases hc with rfl | rfl <;> decide
  have h1 : DecDigits ['9'] := by intro c hc; simp at hc; subst hc; decide
  have := Numeral.dec (α := XNum ℝ) (v := .fin (319 / 10)) (Mantissa.point h0 h1 (by simp)) .none (by
    show some _ = some _
    congr 2
    have h0 : digitVal '3' = 3 := by decide
    have h1 : digitVal '1' = 1 := by decide
    have h2 : digitVal '9' = 9 := by decide
    simp [digitsVal, h0, h1, h2, zpow_neg, div_eq_mul_inv]
    try norm_num)
  simpa using this

theorem pairW_writes (a b : Char) (ha : a = 'x' ∨ a = 'y') (hb : b = 'x' ∨ b = 'y') :
    Writes ['(', a, '+', '2', '9', ')', '*', a, '+', b, '-', '3', '1', '.', '9'] (pairW [a] [b]) := by
  have hw : ∀ c ∈ ['x', 'y', '3', '.', '1', '2', '9'], WordChar c := by
    intro c hc
    simp at hc
    rcases hc with rfl | rfl | rfl | rfl | rfl | rfl | rfl <;> exact ⟨by unfold OpChar; decide, by unfold BlankChar; decide⟩
  have hx : ∀ a : Char, a = 'x' ∨ a = 'y' → WordMeans [a] (.var [a] : Tok (XNum ℝ)) := by
    rintro a (rfl | rfl)
    · refine .var ((C08_varNameIsLegal _).mp (by decide)) ((stodFull_none_iff _).mp rfl) ?_
      rintro ⟨f, hf⟩; cases hf
    · refine .var ((C08_varNameIsLegal _).mp (by decide)) ((stodFull_none_iff _).mp rfl) ?_
      rintro ⟨f, hf⟩; cases hf
  have ha' : WordChar a := hw a (by rcases ha with rfl | rfl <;> simp)
  have hb' : WordChar b := hw b (by rcases hb with rfl | rfl <;> simp)
  have up : ∀ {n p : Nat} {ts : List (Tok (XNum ℝ))} {e : Expr (XNum ℝ)}, Gram (p + n) ts e → Gram p ts e := by
    intro n
    induction n with
    | zero => intro p ts e h; exact h
    | succ n ih => intro p ts e h; exact ih (.lift h)
  have one : ∀ {c : Char}, WordChar c → ∀ d ∈ [c], WordChar d := by
    intro c hc d hd
    simp at hd; subst hd; exact hc
  refine ⟨[(.sym '(', 0), (.var [a], 1), (.sym '+', 2), (.num (.fin 29), 3), (.sym ')', 5), (.sym '*', 6), (.var [a], 7), (.sym '+', 8), (.var [b], 9),
    (.sym '-', 10), (.num (.fin (319 / 10)), 11)], ?_, ?_, ?_⟩
  · exact .sym (w := []) (c := '(') (rest := [a, '+', '2', '9', ')', '*', a, '+', b, '-', '3', '1', '.', '9']) (by simp) (by unfold OpChar; decide)
      (.word (w := []) (u := [a]) (rest := ['+', '2', '9', ')', '*', a, '+', b, '-', '3', '1', '.', '9']) (by simp) (by simp) (one ha')
        (by intro c hc; simp at hc; subst hc; exact fun h => h.1 (by unfold OpChar; decide)) (hx a ha)
      (.sym (w := []) (c := '+') (rest := ['2', '9', ')', '*', a, '+', b, '-', '3', '1', '.', '9']) (by simp) (by unfold OpChar; decide)
      (.word (w := []) (u := ['2', '9']) (rest := [')', '*', a, '+', b, '-', '3', '1', '.', '9']) (by simp) (by simp) (fun c hc => hw c (by simp at hc ⊢; tauto))
        (by intro c hc; simp at hc; subst hc; exact fun h => h.1 (by unfold OpChar; decide)) means_twentyNine
      (.sym (w := []) (c := ')') (rest := ['*', a, '+', b, '-', '3', '1', '.', '9']) (by simp) (by unfold OpChar; decide)
      (.sym (w := []) (c := '*') (rest := [a, '+', b, '-', '3', '1', '.', '9']) (by simp) (by unfold OpChar; decide)
      (.word (w := []) (u := [a]) (rest := ['+', b, '-', '3', '1', '.', '9']) (by simp) (by simp) (one ha')
        (by intro c hc; simp at hc; subst hc; exact fun h => h.1 (by unfold OpChar; decide)) (hx a ha)
      (.sym (w := []) (c := '+') (rest := [b, '-', '3', '1', '.', '9']) (by simp) (by unfold OpChar; decide)
      (.word (w := []) (u := [b]) (rest := ['-', '3', '1', '.', '9']) (by simp) (by simp) (one hb')
        (by intro c hc; simp at hc; subst hc; exact fun h => h.1 (by unfold OpChar; decide)) (hx b hb)
      (.sym (w := []) (c := '-') (rest := ['3', '1', '.', '9']) (by simp) (by unfold OpChar; decide)
      (.word (w := []) (u := ['3', '1', '.', '9']) (rest := []) (by simp) (by simp) (fun c hc => hw c (by simp at hc ⊢; tauto))
        (by simp) means_literalW (.blank (by simp))))))))))))
  · exact up (n := 5) (.left (c := '-') (ts := [_, _, _, _, _, _, _, _, _]) .sub (by decide)
      (.left (c := '+') (ts := [_, _, _, _, _, _, _]) .add (by decide)
      (up (n := 5) (.left (c := '*') (ts := [_, _, _, _, _]) .mul (by decide)
        (up (n := 5) (.paren (ts := [_, _, _]) (up (n := 5) (.left (c := '+') (ts := [_]) .add (by decide) (up (n := 10) (.var _)) (up (n := 9) (.num _))))))
        (up (n := 4) (.var _))))
      (up (n := 9) (.var _)))
      (up (n := 9) (.num _)))
  · intro x hx s f h he
    simp at hx
    rcases hx with rfl | rfl
    · rcases ha with rfl | rfl <;> cases h <;> exact absurd he (by decide +kernel)
    · rcases hb with rfl | rfl <;> cases h <;> exact absurd he (by decide +kernel)

theorem pairW_val (ρ : Str → ℝ) (a b : Str) : realVal ρ (pairW a b) = some ((ρ a + 29) * ρ a + ρ b - 319 / 10) := by
  simp [pairW, realVal, BinOp.real, XNum.val?]

theorem pairW_own {ρ : Str → ℝ} {a b : Str} (hab : a ≠ b) {d : ℝ} (h : HasPartialDeriv ρ a (pairW a b) d) : d = 2 * ρ a + 29 := by
  refine pairR_partial (h := fun s => (s + 29) * s + ρ b - 319 / 10) (fun s => ?_) ?_ h
  · rw [pairW_val]; simp [at_, hab.symm]
  · have h2 : HasDerivAt (fun s : ℝ => (s + 29) * s + ρ b - 319 / 10) (1 * ρ a + (ρ a + 29) * 1) (ρ a) :=
      ((((hasDerivAt_id (ρ a)).add_const 29).mul (hasDerivAt_id (ρ a))).add_const _).sub_const (319 / 10)
    exact h2.congr_deriv (by ring)

theorem pairW_other {ρ : Str → ℝ} {a b : Str} (hab : a ≠ b) {d : ℝ} (h : HasPartialDeriv ρ b (pairW a b) d) : d = 1 := by
  refine pairR_partial (h := fun s => (ρ a + 29) * ρ a + s - 319 / 10) (fun s => ?_) ?_ h
  · rw [pairW_val]; simp [at_, hab]
  · exact ((hasDerivAt_id (ρ b)).const_add _).sub_const (319 / 10)

theorem pairSW_jacobian (u : Fin 2 → ℝ) (A : Matrix (Fin 2) (Fin 2) ℝ) (h : IsJacobian (fun i _ => pairSW i) xy u A) :
    A = !![2 * u 0 + 29, 1; 1, 2 * u 1 + 29] := by
  have h00 := pairW_own (a := ['x']) (b := ['y']) (by decide) (h 0 (0 : Fin 2))
  have h01 := pairW_other (a := ['x']) (b := ['y']) (by decide) (h 0 (1 : Fin 2))
  have h10 := pairW_other (a := ['y']) (b := ['x']) (by decide) (h 1 (0 : Fin 2))
  have h11 := pairW_own (a := ['y']) (b := ['x']) (by decide) (h 1 (1 : Fin 2))
  ext i j
  fin_cases i <;> fin_cases j
  · exact h00
  · exact h01
  · exact h10
  · exact h11

/-- the root -/
noncomputable def rootV : Fin 2 → ℝ := fun _ => (Real.sqrt (5138 / 5) - 30) / 2

theorem rootV_bounds (i : Fin 2) : (1028 : ℝ) / 1000 ≤ rootV i ∧ rootV i ≤ 1029 / 1000 ∧ (rootV i + 29) * rootV i + rootV i - 319 / 10 = 0 := by
  have h := Real.sq_sqrt (by norm_num : (0 : ℝ) ≤ 5138 / 5)
  have h0 := Real.sqrt_nonneg (5138 / 5)
  have e : rootV i = (Real.sqrt (5138 / 5) - 30) / 2 := rfl
  rw [e]
  refine ⟨?_, ?_, by nlinarith⟩
  · have : (32056 : ℝ) / 1000 ≤ Real.sqrt (5138 / 5) := Real.le_sqrt_of_sq_le (by norm_num)
    linarith
  · have : Real.sqrt (5138 / 5) ≤ 32058 / 1000 := Real.sqrt_le_iff.mpr ⟨by norm_num, by norm_num⟩
    linarith

theorem nearV_bounds {w : Fin 2 → ℝ} (h : ‖w - rootV‖ ≤ 1 / 32) (i : Fin 2) : 99 / 100 ≤ w i ∧ w i ≤ 107 / 100 := by
  have h1 := (norm_le_pi_norm (w - rootV) i).trans h
  rw [Real.norm_eq_abs, Pi.sub_apply, abs_le] at h1
  obtain ⟨b1, b2, -⟩ := rootV_bounds i
  constructor <;> linarith [h1.1, h1.2]

theorem pairW_value (ρ : Str → ℝ) (a b : Str) (ha : 99 / 100 ≤ ρ a ∧ ρ a ≤ 107 / 100) (hb : 99 / 100 ≤ ρ b ∧ ρ b ≤ 107 / 100) :
    ∃ v E, textEnclosure (1 / 2 ^ 53) ρ (pairW a b) = some (v, E) ∧ E ≤ 1 / 2 ^ 42 := by
  obtain ⟨a1, a2⟩ := ha
  obtain ⟨b1, b2⟩ := hb
  have kx : ∀ x : Str, Encl (textEnclosure (1 / 2 ^ 53) ρ (.var x)) (ρ x) 0 := fun x => ⟨0, rfl, le_rfl, le_rfl⟩
  have k1 := encl_add (kx a) (text_num ρ (r := 29) (by norm_num) (by norm_num)) (by
    rw [abs_of_nonneg (by linarith)]
    linarith [(by norm_num : (0 : ℝ) + 1 / 2 ^ 48 ≤ 1)])
  have k2 := encl_mul k1 (kx a) (V := 32) (W := 2) (by
    rw [abs_of_nonneg (by linarith)]; linarith) (by rw [abs_le]; constructor <;> linarith) (by norm_num)
  have k3 := encl_add k2 (kx b) (by
    have : |(ρ a + 29) * ρ a + ρ b| ≤ 50 := by
      rw [abs_le]; constructor <;> nlinarith
    refine (add_le_add this le_rfl).trans ?_
    norm_num)
  have k4 := encl_sub k3 (text_num ρ (r := 319 / 10) (by norm_num) (by norm_num)) (by
    have : |(ρ a + 29) * ρ a + ρ b - 319 / 10| ≤ 50 := by
      rw [abs_le]; constructor <;> nlinarith
    refine (add_le_add this le_rfl).trans ?_
    norm_num)
  obtain ⟨E, e1, -, e3⟩ := k4
  exact ⟨_, E, e1, e3.trans (by norm_num)⟩

theorem written_unit (ρ : Str → ℝ) {p : ℝ} (hp : p = 0 ∨ p = 1) : Encl (writtenEnclosure (1 / 2 ^ 53) ρ (.num (.fin p))) p (1 / 2 ^ 46) := by
  rcases hp with rfl | rfl <;> exact written_mid ρ (by norm_num) (by norm_num)

theorem pairW_deriv (ρ : Str → ℝ) (a b x : Str) (hab : a ≠ b) (hx : x = a ∨ x = b) (ha : 99 / 100 ≤ ρ a ∧ ρ a ≤ 107 / 100) :
    ∃ v E, writtenEnclosure (1 / 2 ^ 53) ρ (dE x (pairW a b)) = some (v, E) ∧ E ≤ 1 / 2 ^ 38 := by
  obtain ⟨a1, a2⟩ := ha
  have h1 : (Dbl.ofInt 1 : XNum ℝ) = .fin 1 := by show XNum.fin _ = _; norm_num
  have h0 : (Dbl.ofInt 0 : XNum ℝ) = .fin 0 := by show XNum.fin _ = _; norm_num
  obtain ⟨p, q, hp, hq, hd⟩ : ∃ p q : ℝ, (p = 0 ∨ p = 1) ∧ (q = 0 ∨ q = 1) ∧ dE x (pairW a b) = .bin .sub (.bin .add (.bin .add (.bin .mul (.bin .add (.num (.fin p)) (.num (.fin 0))) (.var a))
      (.bin .mul (.bin .add (.var a) (.num (.fin 29))) (.num (.fin p)))) (.num (.fin q))) (.num (.fin 0)) := by
    rcases hx with rfl | rfl
    · exact ⟨1, 0, by norm_num, by norm_num, by simp [pairW, dE, Expr.isNum, h1, h0, hab.symm]⟩
    · exact ⟨0, 1, by norm_num, by norm_num, by simp [pairW, dE, Expr.isNum, h1, h0, hab]⟩
  rw [hd]
  have hp0 := hp
  have hq0 := hq
  replace hp : |p| ≤ 1 := by rcases hp with rfl | rfl <;> norm_num
  replace hq : |q| ≤ 1 := by rcases hq with rfl | rfl <;> norm_num
  have kx : Encl (writtenEnclosure (1 / 2 ^ 53) ρ (.var a)) (ρ a) 0 := ⟨0, rfl, le_rfl, le_rfl⟩
  have hp' := abs_le.mp hp
  have hq' := abs_le.mp hq
  have hpa : |p * ρ a| ≤ 2 := by
    rw [abs_mul, abs_of_nonneg (by linarith : 0 ≤ ρ a)]
    have := abs_nonneg p
    nlinarith
  have hpa2 : |(ρ a + 29) * p| ≤ 32 := by
    rw [abs_mul, abs_of_nonneg (by linarith : 0 ≤ ρ a + 29)]
    have := abs_nonneg p
    nlinarith
  have hs1 : |(p + 0) * ρ a + (ρ a + 29) * p| ≤ 34 := by
    rw [add_zero]
    refine (abs_add_le _ _).trans ?_
    linarith
  have hs2 : |(p + 0) * ρ a + (ρ a + 29) * p + q| ≤ 35 := (abs_add_le _ _).trans (by linarith)
  have k1 := encl_add (written_unit ρ hp0) (written_unit ρ (.inl rfl)) (by
    rw [add_zero]
    linarith [(by norm_num : (1 : ℝ) / 2 ^ 47 + 1 / 2 ^ 46 ≤ 1)])
  have k2 := encl_mul k1 kx (V := 1) (W := 2) (by rw [add_zero]; exact hp) (by rw [abs_le]; constructor <;> linarith) (by norm_num)
  have k3 := encl_add kx (written_mid ρ (r := 29) (by norm_num) (by norm_num)) (by
    rw [abs_of_nonneg (by linarith)]
    linarith [(by norm_num : (0 : ℝ) + 1 / 2 ^ 46 ≤ 1)])
  have k4 := encl_mul k3 (written_unit ρ hp0) (V := 32) (W := 1) (by rw [abs_of_nonneg (by linarith)]; linarith) hp (by norm_num)
  have k5 := encl_add k2 k4 (by
    refine (add_le_add hs1 le_rfl).trans ?_
    norm_num)
  have k6 := encl_add k5 (written_unit ρ hq0) (by
    refine (add_le_add hs2 le_rfl).trans ?_
    norm_num)
  have k7 := encl_sub k6 (written_unit ρ (.inl rfl)) (by
    rw [sub_zero]
    refine (add_le_add hs2 le_rfl).trans ?_
    norm_num)
  obtain ⟨E, e1, -, e3⟩ := k7
  exact ⟨_, E, e1, e3.trans (by norm_num)⟩

theorem pairW_region : WrittenRegion (1 / 2 ^ 53) xy pairT pairSW rootV (1 / 32) (1 / 29) (1 / 8) 33 (1 / 2 ^ 42) (1 / 2 ^ 38) where
  writes := by
    intro i
    match i with
    | 0 => exact pairW_writes 'x' 'y' (by simp) (by simp)
    | 1 => exact pairW_writes 'y' 'x' (by simp) (by simp)
  literals := by
    intro i v hv
    have h : v = .fin 29 ∨ v = .fin (319 / 10) := by
      match i with
      | 0 => simpa [pairSW, pairW, Expr.nums] using hv
      | 1 => simpa [pairSW, pairW, Expr.nums] using hv
    rcases h with rfl | rfl
    · exact ⟨_, rfl, normalLiteral_mid (by norm_num) (by norm_num)⟩
    · exact ⟨_, rfl, normalLiteral_mid (by norm_num) (by norm_num)⟩
  sorted := by decide
  names := by
    intro x
    constructor
    · intro hx; exact ⟨(0 : Fin 2), by simpa [pairSW, pairW, Expr.vars] using hx⟩
    · rintro ⟨i, hx⟩
      match i with
      | 0 => simpa [pairSW, pairW, Expr.vars] using hx
      | 1 =>
        simp [pairSW, pairW, Expr.vars] at hx ⊢
        tauto
  root := by
    intro i
    match i with
    | 0 => exact (pairW_val _ _ _).trans (congrArg some (rootV_bounds 0).2.2)
    | 1 => exact (pairW_val _ _ _).trans (congrArg some (rootV_bounds 0).2.2)
  noExp := by
    intro i x _
    match i with
    | 0 => simp [pairSW, pairW, Expr.NoForeignExp]
    | 1 => simp [pairSW, pairW, Expr.NoForeignExp]
  smooth := by
    intro w _ i
    match i with
    | 0 => simp [pairSW, pairW, Smooth]
    | 1 => simp [pairSW, pairW, Smooth]
  stretch := by
    intro w hw A hA x
    have eA := pairSW_jacobian w A hA
    obtain ⟨b1, b2⟩ := nearV_bounds hw 0
    obtain ⟨c1, c2⟩ := nearV_bounds hw 1
    have h1 := norm_le_pi_norm (A.mulVec x) (0 : Fin 2)
    have h2 := norm_le_pi_norm (A.mulVec x) (1 : Fin 2)
    have e1 : A.mulVec x (0 : Fin 2) = (2 * w (0 : Fin 2) + 29) * x (0 : Fin 2) + x (1 : Fin 2) := by
      rw [eA]; simp [Matrix.mulVec, dotProduct, Fin.sum_univ_two]
    have e2 : A.mulVec x (1 : Fin 2) = x (0 : Fin 2) + (2 * w (1 : Fin 2) + 29) * x (1 : Fin 2) := by
      rw [eA]; simp [Matrix.mulVec, dotProduct, Fin.sum_univ_two]
    set N := ‖A.mulVec x‖
    obtain ⟨i, hi⟩ := norm_attained (n := 2) (by norm_num) x
    have x0 := norm_le_pi_norm x (0 : Fin 2)
    have x1 := norm_le_pi_norm x (1 : Fin 2)
    rw [Real.norm_eq_abs] at x0 x1 h1 h2
    rw [e1] at h1
    rw [e2] at h2
    match i, hi with
    | 0, hi =>
      have k1 := abs_sub_abs_le_abs_sub ((2 * w (0 : Fin 2) + 29) * x (0 : Fin 2)) (-x (1 : Fin 2))
      rw [sub_neg_eq_add, abs_neg, abs_mul, abs_of_nonneg (by linarith : 0 ≤ 2 * w (0 : Fin 2) + 29)] at k1
      have k2 := mul_le_mul_of_nonneg_right (by linarith : (30 : ℝ) ≤ 2 * w (0 : Fin 2) + 29) (abs_nonneg (x (0 : Fin 2)))
      rw [← hi] at k1 k2
      linarith
    | 1, hi =>
      have k1 := abs_sub_abs_le_abs_sub ((2 * w (1 : Fin 2) + 29) * x (1 : Fin 2)) (-x (0 : Fin 2))
      rw [sub_neg_eq_add, abs_neg, abs_mul, abs_of_nonneg (by linarith : 0 ≤ 2 * w (1 : Fin 2) + 29), add_comm _ (x (0 : Fin 2))] at k1
      have k2 := mul_le_mul_of_nonneg_right (by linarith : (30 : ℝ) ≤ 2 * w (1 : Fin 2) + 29) (abs_nonneg (x (1 : Fin 2)))
      rw [← hi] at k1 k2
      linarith
  bounded := by
    intro w hw A hA i j
    obtain ⟨b1, b2⟩ := nearV_bounds hw 0
    obtain ⟨c1, c2⟩ := nearV_bounds hw 1
    rw [pairSW_jacobian w A hA]
    match i, j with
    | 0, 0 => show |2 * w (0 : Fin 2) + 29| ≤ 33; rw [abs_of_nonneg (by linarith)]; linarith
    | 0, 1 => show |(1 : ℝ)| ≤ 33; norm_num
    | 1, 0 => show |(1 : ℝ)| ≤ 33; norm_num
    | 1, 1 => show |2 * w (1 : Fin 2) + 29| ≤ 33; rw [abs_of_nonneg (by linarith)]; linarith
  steady := by
    intro w w' hw hw' A A' hA hA' i j
    rw [pairSW_jacobian w A hA, pairSW_jacobian w' A' hA']
    have h1 : ∀ k : Fin 2, |(2 * w k + 29) - (2 * w' k + 29)| ≤ 1 / 8 := fun k => by
      have h1 := (norm_le_pi_norm (w - rootV) k).trans hw
      have h2 := (norm_le_pi_norm (w' - rootV) k).trans hw'
      rw [Real.norm_eq_abs, Pi.sub_apply, abs_le] at h1 h2
      rw [abs_le]
      constructor <;> linarith [h1.1, h1.2, h2.1, h2.2]
    match i, j with
    | 0, 0 => exact h1 0
    | 0, 1 => show |(1 : ℝ) - 1| ≤ 1 / 8; norm_num
    | 1, 0 => show |(1 : ℝ) - 1| ≤ 1 / 8; norm_num
    | 1, 1 => exact h1 1
  value := by
    intro w _ hw i
    match i with
    | 0 => exact pairW_value (assign xy w) ['x'] ['y'] (nearV_bounds hw 0) (nearV_bounds hw 1)
    | 1 => exact pairW_value (assign xy w) ['y'] ['x'] (nearV_bounds hw 1) (nearV_bounds hw 0)
  deriv := by
    intro w _ hw i j
    have hj : xy[j] = ['x'] ∨ xy[j] = ['y'] := by
      match j with
      | 0 => exact .inl rfl
      | 1 => exact .inr rfl
    match i with
    | 0 => exact pairW_deriv (assign xy w) ['x'] ['y'] xy[j] (by decide) hj (nearV_bounds hw 0)
    | 1 => exact pairW_deriv (assign xy w) ['y'] ['x'] xy[j] (by decide) hj.symm (nearV_bounds hw 1)

theorem rootV_norm : ‖rootV‖ ≤ 1029 / 1000 := (pi_norm_le_iff_of_nonneg (by norm_num)).mpr fun i => by
  obtain ⟨b1, b2, -⟩ := rootV_bounds i
  rw [Real.norm_eq_abs, abs_of_nonneg (by linarith)]
  exact b2

theorem pairW_room {ε : ℚ} (h1 : 1 / 10 ^ 10 ≤ ε) (h2 : ε ≤ 1 / 10 ^ 8) :
    SystemLMRoom rootV (1 / 32) (1 / 29) (1 / 8) 33 (1 / 2 ^ 42) (1 / 2 ^ 38) (1 / 100) (3 / 5) ε 34 3 := by
  have h1' : (1 : ℝ) / 10 ^ 10 ≤ ε := by
    have := (Rat.cast_le (K := ℝ)).mpr h1
    push_cast at this; exact this
  have h2' : (ε : ℝ) ≤ 1 / 10 ^ 8 := by
    have := (Rat.cast_le (K := ℝ)).mpr h2
    push_cast at this; exact this
  have hse : (solveError 2 : ℝ) ≤ 1 / 2 ^ 46 := by
    have := (Rat.cast_le (K := ℝ)).mpr solveError_two.2
    push_cast at this; exact this
  have hz := rootV_norm
  refine ⟨by norm_num, by norm_num, by norm_num, by norm_num, by norm_num, ?_, ?_, ?_, by norm_num, by norm_num, pair_linear h1 h2, ?_, by norm_num, by norm_num, by norm_num, by norm_num, ?_⟩
  · push_cast
    linarith [(by norm_num : (1 : ℝ) / 30 * (2 * 33) * (1 / 2 ^ 42) ≤ 1 / 100 * (1 / 10 ^ 10))]
  · push_cast
    have : 2 * 33 * ((‖rootV‖ + 1 / 32) / 2 ^ 53) ≤ 2 * 33 * ((1029 / 1000 + 1 / 32) / 2 ^ 53) := by
      apply mul_le_mul_of_nonneg_left _ (by norm_num)
      apply div_le_div_of_nonneg_right _ (by positivity)
      linarith
    linarith [(by norm_num : 2 * 33 * (((1029 : ℝ) / 1000 + 1 / 32) / 2 ^ 53) ≤ 1 / 100 * (1 / 10 ^ 10))]
  · push_cast
    have k : (2 : ℝ) * ε + 3 * 2 ^ 2 * 34 ^ 2 * solveError 2 + 1 / 50000 ≤ 2 * (1 / 10 ^ 8) + 3 * 2 ^ 2 * 34 ^ 2 * (1 / 2 ^ 46) + 1 / 50000 := by linarith
    have := mul_le_mul_of_nonneg_left k (by norm_num : (0 : ℝ) ≤ 16 * (1 / 29 * (2 * 33)) * (2 * (1 / 29) ^ 2))
    linarith [(by norm_num : (16 : ℝ) * (1 / 29 * (2 * 33)) * (2 * (1 / 29) ^ 2) * (2 * (1 / 10 ^ 8) + 3 * 2 ^ 2 * 34 ^ 2 * (1 / 2 ^ 46) + 1 / 50000) ≤ 1 / 100)]
  · exact le_trans (by norm_num) h1
  · linarith [(by norm_num : (1029 : ℝ) / 1000 + 1 / 32 ≤ 2 ^ 100)]

theorem pairW_search (w : Fin 2 → ℝ) (A : Matrix (Fin 2) (Fin 2) ℝ) (hA : IsJacobian (fun i _ => pairSW i) xy w A) : SearchFactor (3 / 5) A := by
  apply C129_symmetric
  rw [pairSW_jacobian w A hA]
  ext i j
  fin_cases i <;> fin_cases j <;> rfl

/-- C128 applied to the texts `(x+29)*x+y-31.9` and `(y+29)*y+x-31.9`, solved with doubles by the Levenberg-Marquardt method with the other settings at
their defaults: the literal 31.9 is no double; `Solve` returns numbers within `10^-9` of the root of the equations as they are written, both
coordinates of which are `(√1027.6 - 30) / 2`. -/
example : ∃ ans, (∀ lsFuel fuel, 0 < lsFuel → 20 < fuel →
      solveTexts defaultLM lsFuel fuel ["(x+29)*x+y-31.9".toList, "(y+29)*y+x-31.9".toList] = .ok ans) ∧ ans.vars = [['x'], ['y']] ∧
    ∃ v w : Double accurate, ans.table.lookup ['x'] = some v ∧ ans.table.lookup ['y'] = some w ∧
      |(v.rat : ℝ) - (Real.sqrt (5138 / 5) - 30) / 2| ≤ 1 / 10 ^ 9 ∧ |(w.rat : ℝ) - (Real.sqrt (5138 / 5) - 30) / 2| ≤ 1 / 10 ^ 9 := by
  have hε : defaultLM.epsilon.Is defaultLM.epsilon.raw.toRat := ⟨by decide +kernel, rfl⟩
  have hb : 1 / 10 ^ 10 ≤ defaultLM.epsilon.raw.toRat ∧ defaultLM.epsilon.raw.toRat ≤ 11 / 10 ^ 10 := by decide +kernel
  have hb1 : (1 : ℝ) / 10 ^ 10 ≤ ((defaultLM.epsilon.raw.toRat : ℚ) : ℝ) := by
    have := (Rat.cast_le (K := ℝ)).mpr hb.1
    push_cast at this; exact this
  have hb2 : ((defaultLM.epsilon.raw.toRat : ℚ) : ℝ) ≤ 11 / 10 ^ 10 := by
    have := (Rat.cast_le (K := ℝ)).mpr hb.2
    push_cast at this; exact this
  have h1is : (Dbl.ofInt 1 : Double accurate).Is 1 := one_is
  obtain ⟨ans, w', r1, r2, r3, r4⟩ := C128_lm_system accurate_within accurate_annexF pairW_region (by norm_num) defaultLM rfl rfl hε h1is
    (pairW_room hb.1 (hb.2.trans (by norm_num))) (fun w _ A hA => pairW_search w A hA) 20 (by show (20 : ℤ) ≤ 100; norm_num)
    (by
      show ((2 : ℕ) : ℝ) * 33 * (1 / 32 / 4 ^ 20) + 1 / 2 ^ 42 < _
      push_cast
      linarith [(by norm_num : (2 : ℝ) * 33 * (1 / 32 / 4 ^ 20) + 1 / 2 ^ 42 < 1 / 10 ^ 10)]) (by
      refine (pi_norm_le_iff_of_nonneg (by norm_num)).mpr fun i => ?_
      obtain ⟨b1, b2, -⟩ := rootV_bounds i
      rw [Real.norm_eq_abs, Pi.sub_apply]
      push_cast
      rw [abs_le]
      constructor <;> linarith)
  have hfin : ∀ i : Fin 2, |((w' i).rat : ℝ) - (Real.sqrt (5138 / 5) - 30) / 2| ≤ 1 / 10 ^ 9 := fun i => by
    refine ((norm_le_pi_norm (realVec w' - rootV) i).trans r4).trans ?_
    linarith [(by norm_num : 4 / 3 * (1 / 29 : ℝ) * (11 / 10 ^ 10 + 1 / 2 ^ 42) ≤ 1 / 10 ^ 9)]
  exact ⟨ans, r1, r2, w' (0 : Fin 2), w' (1 : Fin 2), (r3 (0 : Fin 2)).1, (r3 (1 : Fin 2)).1, hfin 0, hfin 1⟩

end Double
end Tom
