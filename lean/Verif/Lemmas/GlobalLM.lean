import Verif.Props.AffineLM
import Verif.Lemmas.RoundedNewton
import Mathlib.Topology.UniformSpace.HeineCantor
/-
One step of the Levenberg-Marquardt method at a point where the Jacobian is symmetric and regular, with constants.
-/
set_option linter.unusedSectionVars false
namespace Tom
open Matrix Filter Topology

theorem dot_le_en {n : ℕ} (v w : Fin n → ℝ) : v ⬝ᵥ w ≤ en v * en w := by
  have h := Finset.sum_mul_sq_le_sq_mul_sq Finset.univ v w
  rw [← en_sq, ← en_sq, ← mul_pow] at h
  exact le_of_sq_le_sq h (mul_nonneg (en_nonneg _) (en_nonneg _))

theorem en_neg {n : ℕ} (v : Fin n → ℝ) : en (-v) = en v := by simp [en]

theorem norm_le_en {n : ℕ} (v : Fin n → ℝ) : ‖v‖ ≤ en v := by
  refine le_of_sq_le_sq ?_ (en_nonneg v)
  rw [en_sq]; exact norm_sq_le v

theorem en_le_norm {n : ℕ} (v : Fin n → ℝ) : en v ≤ n * ‖v‖ := by
  refine le_of_sq_le_sq ?_ (by positivity)
  rw [en_sq]
  refine (sum_sq_le v).trans ?_
  rw [mul_pow]
  rcases Nat.eq_zero_or_pos n with h | h
  · subst h; simp
  · have : (1 : ℝ) ≤ n := by exact_mod_cast h
    exact mul_le_mul_of_nonneg_right (by nlinarith) (sq_nonneg _)

theorem en_mulVec {n : ℕ} {E : Matrix (Fin n) (Fin n) ℝ} {c : ℝ} (hc : 0 ≤ c) (h : ∀ i j, |E i j| ≤ c) (v : Fin n → ℝ) :
    en (E.mulVec v) ≤ n * c * en v := by
  refine le_of_sq_le_sq ?_ (mul_nonneg (by positivity) (en_nonneg v))
  rw [en_sq, mul_pow, en_sq]
  have h1 : ∀ i, E.mulVec v i ^ 2 ≤ n * c ^ 2 * ∑ j, v j ^ 2 := by
    intro i
    have h2 := Finset.sum_mul_sq_le_sq_mul_sq Finset.univ (E i) v
    have h3 : ∑ j, E i j ^ 2 ≤ n * c ^ 2 := by
      calc ∑ j, E i j ^ 2 ≤ ∑ _j : Fin n, c ^ 2 := Finset.sum_le_sum fun j _ => by
            rw [← sq_abs]; exact pow_le_pow_left₀ (abs_nonneg _) (h i j) 2
        _ = n * c ^ 2 := by simp
    exact h2.trans (mul_le_mul_of_nonneg_right h3 (Finset.sum_nonneg fun j _ => sq_nonneg _))
  calc ∑ i, E.mulVec v i ^ 2 ≤ ∑ _i : Fin n, n * c ^ 2 * ∑ j, v j ^ 2 := Finset.sum_le_sum fun i _ => h1 i
    _ = (n * c) ^ 2 * ∑ j, v j ^ 2 := by simp; ring

/-- a matrix within epsilon of `AᵀA + mu I` is positive definite, with constants -/
theorem normal_quant {n : ℕ} {A B : Matrix (Fin n) (Fin n) ℝ} {mu eps : ℝ} (hmu : n * eps ≤ mu / 2) (hB : Near eps (normalMat A mu) B)
    (x : Fin n → ℝ) : en (A.mulVec x) ^ 2 + mu / 2 * en x ^ 2 ≤ x ⬝ᵥ B.mulVec x := by
  by_cases hx : x = 0
  · subst hx; simp [en]
  have h := normal_pos (A := (0 : Matrix (Fin n) (Fin n) ℝ)) (B := B - Aᵀ * A - (mu / 2) • (1 : Matrix (Fin n) (Fin n) ℝ)) (mu := mu / 2)
    (eps := eps) hmu (fun i j => by
      have h1 := hB i j
      have h2 : ((0 : Matrix (Fin n) (Fin n) ℝ)ᵀ * (0 : Matrix (Fin n) (Fin n) ℝ) + (mu / 2) • (1 : Matrix (Fin n) (Fin n) ℝ)) i j -
          (B - Aᵀ * A - (mu / 2) • (1 : Matrix (Fin n) (Fin n) ℝ)) i j = normalMat A mu i j - B i j := by
        simp only [normalMat, Matrix.add_apply, Matrix.sub_apply, Matrix.smul_apply, Matrix.mul_zero, Matrix.zero_apply, smul_eq_mul]
        ring
      rw [h2]; exact h1) hx
  have e1 : x ⬝ᵥ (Aᵀ * A).mulVec x = en (A.mulVec x) ^ 2 := by
    rw [en_sq, sum_sq, ← mulVec_mulVec, dotProduct_mulVec, vecMul_transpose]
  rw [sub_mulVec, sub_mulVec, dotProduct_sub, dotProduct_sub, e1, smul_mulVec, one_mulVec, dotProduct_smul, smul_eq_mul, ← sum_sq, ← en_sq] at h
  linarith

/-- the direction `d`, its length and the decrease it promises -/
theorem direction_quant {n : ℕ} {J B : Matrix (Fin n) (Fin n) ℝ} {G d : Fin n → ℝ} {mu eps K s : ℝ} (hmu0 : 0 < mu) (heps : 0 ≤ eps)
    (hmu : n * eps ≤ mu / 2) (hB : Near eps (normalMat J mu) B) (hd : B.mulVec d = -(Jᵀ.mulVec G)) (hsym : Jᵀ = J) (hs0 : 0 < s) (hK1 : 1 ≤ K)
    (hK : ∀ v, en (J.mulVec v) ≤ K * en v) (hs : ∀ v, s * en v ≤ en (J.mulVec v)) :
    en (J.mulVec d) ^ 2 ≤ -(G ⬝ᵥ J.mulVec d) ∧ en d ≤ 2 * K / mu * en G ∧
    mu / 2 * (s / (K ^ 2 + 2 * mu)) ^ 2 * en G ^ 2 ≤ -(G ⬝ᵥ J.mulVec d) := by
  have hq : d ⬝ᵥ B.mulVec d = -(G ⬝ᵥ J.mulVec d) := by
    rw [hd, dotProduct_neg, dotProduct_mulVec, vecMul_transpose, dotProduct_comm]
  have h1 := normal_quant hmu hB d
  rw [hq] at h1
  have hen := en_nonneg d
  have hGn := en_nonneg G
  have h2 : mu / 2 * en d ^ 2 ≤ -(G ⬝ᵥ J.mulVec d) := by nlinarith [sq_nonneg (en (J.mulVec d))]
  have h3 : -(G ⬝ᵥ J.mulVec d) ≤ en G * (K * en d) := by
    have := dot_le_en (-G) (J.mulVec d)
    rw [neg_dotProduct, en_neg] at this
    exact this.trans (mul_le_mul_of_nonneg_left (hK d) hGn)
  have hd2 : en d ≤ 2 * K / mu * en G := by
    rw [div_mul_eq_mul_div, le_div_iff₀ hmu0]
    rcases hen.eq_or_lt with h | h
    · rw [← h]; nlinarith
    · have h4 : mu / 2 * en d ^ 2 ≤ en G * (K * en d) := h2.trans h3
      have h5 : (mu / 2 * en d) * en d ≤ (en G * K) * en d := by nlinarith
      have := le_of_mul_le_mul_right h5 h
      linarith
  refine ⟨by nlinarith [mul_nonneg hmu0.le (sq_nonneg (en d))], hd2, ?_⟩
  -- the gradient is not longer than a multiple of the direction
  have h6 : s * en G ≤ (K ^ 2 + 2 * mu) * en d := by
    have e1 : J.mulVec G = -(B.mulVec d) := by rw [hd, neg_neg, hsym]
    have e2 : en (B.mulVec d) ≤ (K ^ 2 + 2 * mu) * en d := by
      have e3 : B.mulVec d = Jᵀ.mulVec (J.mulVec d) + (mu • d + (B - normalMat J mu).mulVec d) := by
        rw [sub_mulVec, normalMat, add_mulVec, smul_mulVec, one_mulVec, ← mulVec_mulVec]
        abel
      rw [e3]
      have k1 := en_add_le (Jᵀ.mulVec (J.mulVec d)) (mu • d + (B - normalMat J mu).mulVec d)
      have k2 := en_add_le (mu • d) ((B - normalMat J mu).mulVec d)
      have k3 : en (Jᵀ.mulVec (J.mulVec d)) ≤ K * (K * en d) := by
        rw [hsym]
        exact (hK _).trans (mul_le_mul_of_nonneg_left (hK d) (by linarith))
      have k4 : en ((B - normalMat J mu).mulVec d) ≤ n * eps * en d :=
        en_mulVec heps (fun i j => by rw [Matrix.sub_apply, abs_sub_comm]; exact (hB i j).le) d
      have k5 : n * eps * en d ≤ mu / 2 * en d := mul_le_mul_of_nonneg_right hmu hen
      rw [en_smul, abs_of_pos hmu0] at k2
      nlinarith
    have e4 := hs G
    rw [e1, en_neg] at e4
    exact e4.trans e2
  have hpos : 0 < K ^ 2 + 2 * mu := by positivity
  have h7 : s / (K ^ 2 + 2 * mu) * en G ≤ en d := by
    rw [div_mul_eq_mul_div, div_le_iff₀ hpos]; linarith
  have h8 : (s / (K ^ 2 + 2 * mu) * en G) ^ 2 ≤ en d ^ 2 := pow_le_pow_left₀ (by positivity) h7 2
  calc mu / 2 * (s / (K ^ 2 + 2 * mu)) ^ 2 * en G ^ 2 = mu / 2 * (s / (K ^ 2 + 2 * mu) * en G) ^ 2 := by ring
    _ ≤ mu / 2 * en d ^ 2 := mul_le_mul_of_nonneg_left h8 (by positivity)
    _ ≤ _ := h2

theorem en_expand {n : ℕ} (G w : Fin n → ℝ) : en (G + w) ^ 2 = en G ^ 2 + 2 * (G ⬝ᵥ w) + en w ^ 2 := by
  rw [en_sq, en_sq, en_sq, sum_sq, sum_sq, sum_sq, add_dotProduct, dotProduct_add, dotProduct_add, dotProduct_comm w G]
  ring

/-- the right side of the test of the line search -/
theorem test_side {n : ℕ} (G w : Fin n → ℝ) (a q : ℝ) (hq : -(G ⬝ᵥ w) = q) :
    en (G + (2 / 5 * a) • w) ^ 2 = en G ^ 2 - 4 / 5 * a * q + 4 / 25 * a ^ 2 * en w ^ 2 := by
  rw [en_expand, dotProduct_smul, smul_eq_mul, en_smul, mul_pow, sq_abs, ← hq]
  ring

/-- a short step passes the test -/
theorem short_step {n : ℕ} {G w r : Fin n → ℝ} {a q K κ η : ℝ} (hq : -(G ⬝ᵥ w) = q) (hw : en w ^ 2 ≤ q) (hκ : 0 < κ) (hqG : κ * en G ^ 2 ≤ q)
    (hK : 0 ≤ K) (hwG : en w ≤ K * en G) (ha0 : 0 < a) (ha : a ≤ 1 / 2) (hη0 : 0 ≤ η) (hη1 : η ≤ 1) (hη : η * (3 + 2 * K) ≤ 3 / 4 * κ)
    (hr : en r ≤ a * η * en G) :
    en (G + a • w + r) ^ 2 ≤ en (G + (2 / 5 * a) • w) ^ 2 := by
  have hGn := en_nonneg G
  have hwn := en_nonneg w
  have hrn := en_nonneg r
  rw [test_side G w a q hq, en_expand, en_expand, dotProduct_smul, smul_eq_mul, en_smul, mul_pow, sq_abs]
  have e1 : G ⬝ᵥ w = -q := by linarith
  rw [e1]
  have h1 : (G + a • w) ⬝ᵥ r ≤ (en G + a * en w) * en r := by
    refine (dot_le_en _ _).trans (mul_le_mul_of_nonneg_right ?_ hrn)
    have := en_add_le G (a • w)
    rwa [en_smul, abs_of_pos ha0] at this
  have h2 : en G + a * en w ≤ (1 + K) * en G := by nlinarith
  have h3 : (en G + a * en w) * en r ≤ ((1 + K) * en G) * (a * η * en G) :=
    mul_le_mul h2 hr hrn (by positivity)
  have h4 : en r ^ 2 ≤ (a * η * en G) ^ 2 := pow_le_pow_left₀ hrn hr 2
  have h5 : (a * η * en G) ^ 2 ≤ a * η * en G ^ 2 := by
    have h51 : a * η ≤ 1 := by nlinarith
    have h52 : 0 ≤ a * η := by positivity
    have h53 : (a * η) * (a * η) ≤ a * η := by nlinarith
    calc (a * η * en G) ^ 2 = (a * η) * (a * η) * en G ^ 2 := by ring
      _ ≤ _ := mul_le_mul_of_nonneg_right h53 (sq_nonneg _)
  have h6 : 2 * (((1 + K) * en G) * (a * η * en G)) + a * η * en G ^ 2 = a * (η * (3 + 2 * K)) * en G ^ 2 := by ring
  have h7 : a * (η * (3 + 2 * K)) * en G ^ 2 ≤ a * (3 / 4 * κ) * en G ^ 2 :=
    mul_le_mul_of_nonneg_right (mul_le_mul_of_nonneg_left hη ha0.le) (sq_nonneg _)
  have h8 : a * (3 / 4 * κ) * en G ^ 2 ≤ 3 / 4 * a * q := by nlinarith
  have hq0 : 0 ≤ q := (sq_nonneg _).trans hw
  have h9 : a ^ 2 * en w ^ 2 ≤ 1 / 2 * a * q := by
    have : a * a * en w ^ 2 ≤ (1 / 2 * a) * q := mul_le_mul (by nlinarith) hw (sq_nonneg _) (by positivity)
    nlinarith
  have h10 : 0 ≤ a * q := by positivity
  nlinarith

/-- a step that passes the test makes the residual smaller -/
theorem accepted_step {n : ℕ} {G w : Fin n → ℝ} {a q κ : ℝ} (hq : -(G ⬝ᵥ w) = q) (hw : en w ^ 2 ≤ q) (hqG : κ * en G ^ 2 ≤ q)
    (ha0 : 0 ≤ a) (ha : a ≤ 1) : en (G + (2 / 5 * a) • w) ^ 2 ≤ (1 - 16 / 25 * a * κ) * en G ^ 2 := by
  rw [test_side G w a q hq]
  have hq0 : 0 ≤ q := (sq_nonneg _).trans hw
  have h1 : a ^ 2 * en w ^ 2 ≤ a * q := by
    have : a * a * en w ^ 2 ≤ a * q := mul_le_mul (by nlinarith) hw (sq_nonneg _) ha0
    nlinarith
  have h2 : a * (κ * en G ^ 2) ≤ a * q := mul_le_mul_of_nonneg_left hqG ha0
  nlinarith

end Tom
