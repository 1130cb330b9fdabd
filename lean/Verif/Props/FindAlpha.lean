import Verif.Props.MatMisc
import Verif.Props.LineSearch
/-
C81: `FindAlpha` is documented as a line search by the secant method.  It never is one: `EachDivide` divides by the wrong operand (C39), so
the next step length is 1 or invalid.
-/
set_option linter.unusedSectionVars false
namespace Tom
variable {α K : Type} [Dbl α] [Field K] [LinearOrder K] [IsStrictOrderedRing K] [Exact α K]

theorem ofVec_sub {n : ℕ} (u v : Fin n → K) : (ofVec u : Mat α).sub (ofVec v) = .ok (ofVec (u - v)) := by
  rw [ofVec_eq_ofMatrix, ofVec_eq_ofMatrix, ofVec_eq_ofMatrix]
  unfold ofMatrix
  rw [C33_sub]
  congr 2
  ext i j
  simp [Exact.sub]

theorem ofVec_scale {n : ℕ} (a : K) (v : Fin n → K) : (ofVec v : Mat α).scale (fin a) = ofVec (a • v) := by
  rw [ofVec_eq_ofMatrix, ofVec_eq_ofMatrix]
  unfold ofMatrix
  rw [(C33_scale _ _).1]
  congr 1
  ext i j
  simp [Exact.mul, mul_comm]

theorem eachDivide_ofVec {n : ℕ} (u v : Fin n → K) (h : ∀ i, v i ≠ 0) : eachDivide (ofVec u : Mat α) (ofVec v) = .ok (ofVec fun _ : Fin n => 1) := by
  rw [ofVec_eq_ofMatrix, ofVec_eq_ofMatrix, ofVec_eq_ofMatrix]
  unfold ofMatrix
  rw [C39_partial]
  congr 2
  ext i j
  simp only [Matrix.of_apply, Matrix.map_apply]
  rw [Exact.div _ _ (h i), div_self (h i)]

theorem normNeg_one {n : ℕ} (hn : 0 < n) : (ofVec (fun _ : Fin n => (1 : K)) : Mat α).normNegInfinity = .ok (fin 1) := by
  rw [ofVec_eq_ofMatrix]
  obtain ⟨w, h1, ⟨i, j, h2⟩, -⟩ := C63_normNegInfinity (α := α) hn Nat.one_pos (Matrix.of fun (_ : Fin n) (_ : Fin 1) => (1 : K))
  have hw : w = 1 := by simpa using h2.symm
  subst hw
  exact h1

theorem findAlpha_first (h0 : (Dbl.ofInt 0 : α) = fin (0 : K)) (h1 : (Dbl.ofInt 1 : α) = fin (1 : K)) {n : ℕ} (f : Mat α → Res (Mat α))
    (x d u : Fin n → K) (c : K) (hu : f (ofVec x) = .ok (ofVec u)) :
    findAlpha (ofVec x) (ofVec d) f (fin c : α) = findAlphaLoop f (ofVec x) (ofVec d) (fin c) 103 0 (fin 0) (fin 1) (ofVec u) := by
  unfold findAlpha
  simp only [h0, h1, ofVec_scaleLeft, ofVec_add, Res.bind_ok, zero_smul, add_zero, hu]

theorem findAlpha_round {n : ℕ} (f : Mat α → Res (Mat α)) (x d u : Fin n → K) (c : K) (fuel it : ℕ) :
    findAlphaLoop f (ofVec x) (ofVec d) (fin c) (fuel + 1) it (fin 0) (fin 1) (ofVec u : Mat α) = (do
      let gCur ← f (ofVec (x + d))
      let less ← allIsLessThan gCur (ofVec u)
      if less then .ok (fin 1)
      else do
        let num ← (gCur.scale (fin 0)).sub ((ofVec u).scale (fin 1))
        let den ← gCur.sub (ofVec u)
        let q ← eachDivide num den
        let alphaNew ← q.normNegInfinity
        if it > 100 then .ok alphaNew else findAlphaLoop f (ofVec x) (ofVec d) (fin c) fuel (it + 1) (fin 1) alphaNew gCur) := by
  conv_lhs => unfold findAlphaLoop
  rw [Exact.mul, Exact.sub, Exact.abs, Exact.lt, zero_mul, sub_zero, abs_one, decide_eq_true zero_lt_one, if_pos rfl]
  simp only [ofVec_scaleLeft, ofVec_add, Res.bind_ok, one_smul]

theorem allIsLessThan_ofVec {n : ℕ} (u v : Fin n → K) :
    ∃ b, allIsLessThan (ofVec u : Mat α) (ofVec v) = .ok b ∧ (b = true ↔ ∀ i, u i < v i) := by
  rw [ofVec_eq_ofMatrix, ofVec_eq_ofMatrix]
  obtain ⟨b, h1, h2⟩ := C64_allIsLessThan (α := α) (Matrix.of fun i (_ : Fin 1) => u i) (Matrix.of fun i (_ : Fin 1) => v i)
  exact ⟨b, h1, h2.trans ⟨fun h i => h i 0, fun h i _ => h i⟩⟩

/-- C81, what holds: `FindAlpha` evaluates the function at `x` and at `x + d`, and returns 1 if all components have decreased or all have
changed.  (Missing: the step length of the secant method.) -/
theorem C81_partial (h0 : (Dbl.ofInt 0 : α) = fin (0 : K)) (h1 : (Dbl.ofInt 1 : α) = fin (1 : K)) {n : ℕ} (hn : 0 < n)
    (f : Mat α → Res (Mat α)) (x d u v : Fin n → K) (hu : f (ofVec x) = .ok (ofVec u)) (hv : f (ofVec (x + d)) = .ok (ofVec v))
    (h : (∀ i, v i < u i) ∨ ∀ i, v i ≠ u i) (uncert : K) (hc : 0 ≤ uncert) :
    findAlpha (ofVec x) (ofVec d) f (fin uncert : α) = .ok (fin 1) := by
  rw [findAlpha_first h0 h1 f x d u uncert hu, findAlpha_round, hv]
  obtain ⟨b, hb, hb'⟩ := allIsLessThan_ofVec (α := α) v u
  simp only [Res.bind_ok, hb]
  cases hbb : b with
  | true => rfl
  | false =>
    have hne : ∀ i, (v - u) i ≠ 0 := by
      rcases h with h | h
      · exact absurd (hb'.mpr h) (by simp [hbb])
      · intro i; simpa [sub_eq_zero] using h i
    simp only [Bool.false_eq_true, if_false, ofVec_scale, ofVec_sub, Res.bind_ok, eachDivide_ofVec _ _ hne, normNeg_one hn]
    rw [if_neg (by omega)]
    unfold findAlphaLoop
    rw [Exact.mul, Exact.sub, Exact.abs, Exact.lt, sub_self, abs_zero, one_mul, decide_eq_false (not_lt.mpr hc), if_neg (by simp)]

/-- C81: exceptions of the function at `x + d` reach the caller. -/
theorem C81_throws (h0 : (Dbl.ofInt 0 : α) = fin (0 : K)) (h1 : (Dbl.ofInt 1 : α) = fin (1 : K)) {n : ℕ}
    (f : Mat α → Res (Mat α)) (x d u : Fin n → K) (hu : f (ofVec x) = .ok (ofVec u)) (e : Exc) (he : f (ofVec (x + d)) = .throw e) (uncert : K) :
    findAlpha (ofVec x) (ofVec d) f (fin uncert : α) = .throw e := by
  rw [findAlpha_first h0 h1 f x d u uncert hu, findAlpha_round, he]
  rfl

/-- C81 is false as documented: for the affine function v - 3 the secant method reaches the root from 0 in direction 1 with step length 3
after one step; `FindAlpha` returns 1, for every tolerance. -/
theorem C81_false (uncert : ℚ) (hc : 0 ≤ uncert) : ∃ f : Mat (XNum ℚ) → Res (Mat (XNum ℚ)),
    (∀ v : ℚ, f (ofVec ![v]) = .ok (ofVec ![v - 3])) ∧ f (ofVec (![0] + (3 : ℚ) • ![1])) = .ok (ofVec ![0]) ∧
    findAlpha (ofVec ![0]) (ofVec ![1]) f (fin uncert : XNum ℚ) = .ok (fin 1) := by
  let f : Mat (XNum ℚ) → Res (Mat (XNum ℚ)) := fun m => m.sub (ofVec ![3])
  have hf : ∀ v : ℚ, f (ofVec ![v]) = .ok (ofVec ![v - 3]) := by
    intro v
    show (ofVec ![v] : Mat (XNum ℚ)).sub (ofVec ![3]) = _
    rw [ofVec_sub]
    simp
  refine ⟨f, hf, ?_, C81_partial rfl rfl (by norm_num) f ![0] ![1] ![0 - 3] ![1 - 3] (hf 0) ?_ (.inr fun i => by fin_cases i; norm_num) uncert hc⟩
  · rw [show (![0] + (3 : ℚ) • ![1] : Fin 1 → ℚ) = ![3] by ext i; fin_cases i; norm_num, hf]
    norm_num
  · rw [show (![0] + ![1] : Fin 1 → ℚ) = ![1] by ext i; fin_cases i; norm_num, hf]

/-- If a component has not changed, its quotient is 0/0: the step length is invalid. -/
theorem C81_false_invalid : findAlpha (ofVec ![(0 : ℚ)]) (ofVec ![1]) (fun _ => .ok (ofVec ![(5 : ℚ)])) (fin (1 / 100000) : XNum ℚ) = .ok .bad := by
  decide +kernel

/-- the hypotheses are met over the reals -/
example : (Dbl.ofInt 0 : XNum ℝ) = fin (0 : ℝ) ∧ (Dbl.ofInt 1 : XNum ℝ) = fin (1 : ℝ) := by
  simp [Dbl.ofInt, fin]

end Tom
