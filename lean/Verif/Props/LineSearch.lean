import Verif.Props.Mat
import Verif.Spec.Solve
import Verif.Lemmas.Fine
/-
C53 (Armijo), C60 (FindAlpha): the line searches.
-/
set_option linter.unusedSectionVars false
namespace Tom
variable {α K : Type} [Dbl α] [Field K] [LinearOrder K] [Exact α K]

/-! ### exact vectors -/

theorem ofVec_add {n : ℕ} (u v : Fin n → K) : (ofVec u : Mat α).add (ofVec v) = .ok (ofVec (u + v)) := by
  rw [ofVec_eq_ofMatrix, ofVec_eq_ofMatrix, ofVec_eq_ofMatrix]
  unfold ofMatrix
  rw [C33_add]
  congr 2
  ext i j
  simp [Exact.add]

theorem ofVec_scaleLeft {n : ℕ} (a : K) (v : Fin n → K) : Mat.scaleLeft (fin a) (ofVec v : Mat α) = ofVec (a • v) := by
  rw [ofVec_eq_ofMatrix, ofVec_eq_ofMatrix]
  unfold ofMatrix
  rw [(C33_scale _ _).2]
  congr 1
  ext i j
  simp [Exact.mul, mul_comm]

theorem ofMatrix_scaleLeft {r c : ℕ} (a : K) (A : Matrix (Fin r) (Fin c) K) :
    Mat.scaleLeft (fin a) (ofMatrix A : Mat α) = ofMatrix (a • A) := by
  unfold ofMatrix
  rw [(C33_scale _ _).2]
  congr 1
  ext i j
  simp [Exact.mul, mul_comm]

theorem ofMatrix_transpose {r c : ℕ} (hr : 0 < r) (hc : 0 < c) (A : Matrix (Fin r) (Fin c) K) :
    (ofMatrix A : Mat α).transpose = .ok (ofMatrix A.transpose) := by
  unfold ofMatrix
  rw [C33_transpose hr hc]
  rfl

/-! ### C53 -/

theorem armijoLoop_step (h4 : (lit 4 (-1) : α) = fin (2 / 5 : K)) {n : ℕ} (hn : 0 < n)
    (F : (Fin n → K) → Fin n → K) (J : (Fin n → K) → Matrix (Fin n) (Fin n) K) (f df : Mat α → Res (Mat α))
    (hf : ∀ v, f (ofVec v) = .ok (ofVec (F v))) (hdf : ∀ v, df (ofVec v) = .ok (ofMatrix (J v))) (x d : Fin n → K) (fuel : ℕ) (a : K) :
    armijoLoop f df (ofVec x) (ofVec d) (fuel + 1) (fin a)
      = open Classical in if ArmijoTest F J x d a then .ok (fin a)
        else armijoLoop f df (ofVec x) (ofVec d) fuel (Arith.mul (fin a) (lit 5 (-1))) := by
  conv_lhs => unfold armijoLoop
  rw [h4, Exact.mul]
  simp only [ofVec_scaleLeft, ofVec_add, Res.bind_ok, hf, hdf, C33_norm2 hn, ofMatrix_transpose hn hn, ofMatrix_scaleLeft,
    C33_mulVec hn hn, Exact.le]
  congr 1
  unfold ArmijoTest
  rw [decide_eq_true_iff, eq_iff_iff]
  have e1 : ∀ u : Fin n → K, u ⬝ᵥ u = ∑ i, u i ^ 2 := by
    intro u; simp [dotProduct, pow_two]
  rw [e1, e1]
  have e2 : ∀ i, (F x + ((2 / 5 * a) • (J x).transpose).mulVec d) i = F x i + 2 / 5 * a * ∑ k, J x k i * d k := by
    intro i
    rw [Matrix.smul_mulVec]
    simp [Matrix.mulVec, dotProduct]
  simp only [e2]

/-- C53: what `Armijo` returns, exactly: the first `2^-k`, `k = 0, 1, 2, ...`, at which the test holds; it runs forever exactly
when there is none. -/
theorem C53 (h1 : (Dbl.ofInt 1 : α) = fin (1 : K)) (h4 : (lit 4 (-1) : α) = fin (2 / 5 : K)) (h5 : (lit 5 (-1) : α) = fin (1 / 2 : K))
    {n : ℕ} (hn : 0 < n) (F : (Fin n → K) → Fin n → K) (J : (Fin n → K) → Matrix (Fin n) (Fin n) K) (f df : Mat α → Res (Mat α))
    (hf : ∀ v, f (ofVec v) = .ok (ofVec (F v))) (hdf : ∀ v, df (ofVec v) = .ok (ofMatrix (J v))) (x d : Fin n → K) :
    (∀ k, ArmijoTest F J x d ((1 / 2) ^ k) → (∀ j < k, ¬ ArmijoTest F J x d ((1 / 2) ^ j)) →
      ∀ fuel, k < fuel → armijo fuel (ofVec x) (ofVec d) f df = .ok (fin ((1 / 2) ^ k))) ∧
    (∀ fuel a, armijo fuel (ofVec x) (ofVec d) f df = .ok a →
      ∃ k, a = fin ((1 / 2) ^ k) ∧ ArmijoTest F J x d ((1 / 2) ^ k) ∧ ∀ j < k, ¬ ArmijoTest F J x d ((1 / 2) ^ j)) ∧
    ((∀ k, ¬ ArmijoTest F J x d ((1 / 2) ^ k)) → ∀ fuel, armijo fuel (ofVec x) (ofVec d) f df = .diverge) := by
  have step := fun fuel a => armijoLoop_step (α := α) h4 hn F J f df hf hdf x d fuel a
  have next : ∀ s : ℕ, Arith.mul (fin ((1 / 2) ^ s) : α) (lit 5 (-1)) = fin ((1 / 2) ^ (s + 1)) := by
    intro s; rw [h5, Exact.mul, pow_succ]
  have start : ∀ fuel, armijo fuel (ofVec x) (ofVec d) f df = armijoLoop f df (ofVec x) (ofVec d) fuel (fin ((1 / 2 : K) ^ 0)) := by
    intro fuel; unfold armijo; rw [h1, pow_zero]
  refine ⟨?_, ?_, ?_⟩
  · intro k hk hlt
    have : ∀ m s, s + m = k → ∀ fuel, m < fuel → armijoLoop f df (ofVec x) (ofVec d) fuel (fin ((1 / 2) ^ s) : α) = .ok (fin ((1 / 2) ^ k)) := by
      intro m
      induction m with
      | zero =>
        rintro s rfl fuel hfuel
        obtain ⟨g, rfl⟩ : ∃ g, fuel = g + 1 := ⟨fuel - 1, by omega⟩
        rw [step, if_pos (by simpa using hk)]; rfl
      | succ m ih =>
        intro s hs fuel hfuel
        obtain ⟨g, rfl⟩ : ∃ g, fuel = g + 1 := ⟨fuel - 1, by omega⟩
        rw [step, if_neg (hlt s (by omega)), next]
        exact ih (s + 1) (by omega) g (by omega)
    intro fuel hfuel
    rw [start]
    exact this k 0 (by omega) fuel hfuel
  · intro fuel a h
    rw [start] at h
    have : ∀ fuel s, (∀ j < s, ¬ ArmijoTest F J x d ((1 / 2) ^ j)) → armijoLoop f df (ofVec x) (ofVec d) fuel (fin ((1 / 2) ^ s) : α) = .ok a →
        ∃ k, a = fin ((1 / 2) ^ k) ∧ ArmijoTest F J x d ((1 / 2) ^ k) ∧ ∀ j < k, ¬ ArmijoTest F J x d ((1 / 2) ^ j) := by
      intro fuel
      induction fuel with
      | zero => intro s _ h; cases h
      | succ fuel ih =>
        intro s hs h
        rw [step] at h
        split at h
        · rename_i ht
          rw [Res.ok.injEq] at h
          exact ⟨s, h.symm, ht, hs⟩
        · rename_i ht
          rw [next] at h
          refine ih (s + 1) (fun j hj => ?_) h
          rcases Nat.lt_succ_iff_lt_or_eq.mp hj with h | rfl
          · exact hs j h
          · exact ht
    exact this fuel 0 (by simp) h
  · intro hno fuel
    rw [start]
    have : ∀ fuel s, armijoLoop f df (ofVec x) (ofVec d) fuel (fin ((1 / 2) ^ s) : α) = .diverge := by
      intro fuel
      induction fuel with
      | zero => intro s; rfl
      | succ fuel ih => intro s; rw [step, if_neg (hno s), next]; exact ih (s + 1)
    exact this fuel 0

/-- The hypotheses are met over the reals, ... -/
example : (Dbl.ofInt 1 : XNum ℝ) = fin (1 : ℝ) ∧ (lit 4 (-1) : XNum ℝ) = fin (2 / 5 : ℝ) ∧ (lit 5 (-1) : XNum ℝ) = fin (1 / 2 : ℝ) := by
  simp only [lit, Dbl.ofInt, Dbl.ofDec, fin, Option.getD_some, XNum.fin.injEq]
  norm_num

/-- ... and over the rationals. -/
example : (Dbl.ofInt 1 : XNum ℚ) = fin (1 : ℚ) ∧ (lit 4 (-1) : XNum ℚ) = fin (2 / 5 : ℚ) ∧ (lit 5 (-1) : XNum ℚ) = fin (1 / 2 : ℚ) := by
  decide +kernel

/-! ### C60 -/

theorem findAlphaLoop_ends (f : Mat α → Res (Mat α)) (hf : ∀ v, f v ≠ .diverge) (x d : Mat α) (uncert : α) :
    ∀ fuel it a b g, 102 ≤ fuel + it → 0 < fuel → findAlphaLoop f x d uncert fuel it a b g ≠ .diverge := by
  have nb : ∀ {β γ : Type} {r : Res β} {k : β → Res γ}, r ≠ .diverge → (∀ b, k b ≠ .diverge) → (r >>= k) ≠ .diverge := by
    intro β γ r k h1 h2
    cases r <;> first | exact h2 _ | exact absurd rfl h1 | simp
  intro fuel
  induction fuel with
  | zero => intro it a b g _ h; omega
  | succ fuel ih =>
    intro it a b g h _
    unfold findAlphaLoop
    split
    · refine nb (fine_add _ _).1 fun x' => nb (hf _) fun gCur => nb (fine_allIsLessThan _ _).1 fun less => ?_
      split
      · simp
      · refine nb (fine_sub _ _).1 fun _ => nb (fine_sub _ _).1 fun _ => nb (fine_eachDivide _ _).1 fun _ =>
          nb (fine_normNegInfinity _).1 fun _ => ?_
        split
        · simp
        · exact ih _ _ _ _ (by omega) (by omega)
    · simp

/-- C60: `FindAlpha` always ends (its loop is left after at most 102 rounds) if the function it is given does. -/
theorem C60 (x d : Mat α) (f : Mat α → Res (Mat α)) (hf : ∀ v, f v ≠ .diverge) (uncert : α) :
    findAlpha x d f uncert ≠ .diverge := by
  unfold findAlpha
  cases h1 : x.add (Mat.scaleLeft (Dbl.ofInt 0) d) with
  | ok x' =>
    rw [Res.bind_ok]
    cases h2 : f x' with
    | ok g => rw [Res.bind_ok]; exact findAlphaLoop_ends f hf x d uncert 103 0 _ _ _ (by omega) (by omega)
    | diverge => exact absurd h2 (hf _)
    | _ => simp
  | diverge => exact absurd h1 (fine_add _ _).1
  | _ => simp

end Tom
