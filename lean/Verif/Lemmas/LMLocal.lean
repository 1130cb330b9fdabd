import Verif.Lemmas.Contract
import Verif.Props.RealLM
/-
One Levenberg-Marquardt step near a regular root: comparison with the step of the linearised system.
-/
set_option linter.unusedSectionVars false
namespace Tom
open Filter Topology Matrix

/-- a strict inequality between the sums of squares of two linear maps is not spoiled by small errors -/
theorem squares_stable {n m : ℕ} (P Q : (Fin n → ℝ) →ₗ[ℝ] (Fin m → ℝ)) (h : ∀ w, w ≠ 0 → ∑ i, Q w i ^ 2 < ∑ i, P w i ^ 2) :
    ∃ τ : ℝ, 0 < τ ∧ ∀ w p q, w ≠ 0 → ‖p - P w‖ ≤ τ * ‖w‖ → ‖q - Q w‖ ≤ τ * ‖w‖ → ∑ i, q i ^ 2 < ∑ i, p i ^ 2 := by
  let S : Set ((Fin m → ℝ) × (Fin m → ℝ)) := (fun w => (P w, Q w)) '' Metric.sphere 0 1
  let U : Set ((Fin m → ℝ) × (Fin m → ℝ)) := {x | ∑ i, x.2 i ^ 2 < ∑ i, x.1 i ^ 2}
  have hP := P.continuous_of_finiteDimensional
  have hQ := Q.continuous_of_finiteDimensional
  have hS : IsCompact S := (isCompact_sphere 0 1).image (hP.prodMk hQ)
  have hU : IsOpen U := isOpen_lt (by fun_prop) (by fun_prop)
  have hSU : S ⊆ U := by
    rintro _ ⟨w, hw, rfl⟩
    refine h w ?_
    rintro rfl
    simp at hw
  obtain ⟨τ, hτ, hsub⟩ := hS.exists_thickening_subset_open hU hSU
  refine ⟨τ / 2, by positivity, fun w p q hw hp hq => ?_⟩
  have hn : 0 < ‖w‖ := norm_pos_iff.mpr hw
  have key : ∀ (R : (Fin n → ℝ) →ₗ[ℝ] (Fin m → ℝ)) (r : Fin m → ℝ), ‖r - R w‖ ≤ τ / 2 * ‖w‖ → dist (‖w‖⁻¹ • r) (R (‖w‖⁻¹ • w)) < τ := by
    intro R r hr
    rw [map_smul, dist_eq_norm, ← smul_sub, norm_smul, norm_inv, norm_norm]
    have : ‖w‖⁻¹ * ‖r - R w‖ ≤ ‖w‖⁻¹ * (τ / 2 * ‖w‖) := mul_le_mul_of_nonneg_left hr (by positivity)
    have e : ‖w‖⁻¹ * (τ / 2 * ‖w‖) = τ / 2 := by field_simp
    linarith
  have hin : (‖w‖⁻¹ • p, ‖w‖⁻¹ • q) ∈ U := by
    refine hsub (Metric.mem_thickening_iff.mpr ⟨_, ⟨‖w‖⁻¹ • w, ?_, rfl⟩, ?_⟩)
    · rw [mem_sphere_zero_iff_norm, norm_smul, norm_inv, norm_norm, inv_mul_cancel₀ hn.ne']
    · rw [Prod.dist_eq]
      exact max_lt (key P p hp) (key Q q hq)
  have e : ∀ v : Fin m → ℝ, ∑ i, (‖w‖⁻¹ • v) i ^ 2 = ‖w‖⁻¹ ^ 2 * ∑ i, v i ^ 2 := by
    intro v
    rw [Finset.mul_sum]
    exact Finset.sum_congr rfl fun i _ => by rw [Pi.smul_apply, smul_eq_mul, mul_pow]
  have hin : ∑ i, (‖w‖⁻¹ • q) i ^ 2 < ∑ i, (‖w‖⁻¹ • p) i ^ 2 := hin
  rw [e, e] at hin
  exact lt_of_mul_lt_mul_left hin (by positivity)

/-- the matrix `AᵀA + mu I` -/
def normalMat {n : ℕ} (A : Matrix (Fin n) (Fin n) ℝ) (mu : ℝ) : Matrix (Fin n) (Fin n) ℝ := Aᵀ * A + mu • (1 : Matrix (Fin n) (Fin n) ℝ)

theorem normalMat_det {n : ℕ} (A : Matrix (Fin n) (Fin n) ℝ) {mu : ℝ} (hmu : 0 < mu) : (normalMat A mu).det ≠ 0 := by
  refine normal_det (A := A) (mu := mu) (eps := mu / (n + 1)) ?_ fun i j => ?_
  · have : (0 : ℝ) ≤ n := by positivity
    rw [mul_div_assoc', div_le_iff₀ (by positivity)]
    nlinarith
  · rw [normalMat, sub_self, abs_zero]; positivity

/-- the error after one step on the linearised system: `mu (AᵀA + mu I)⁻¹ w` -/
noncomputable def lmMap {n : ℕ} (A : Matrix (Fin n) (Fin n) ℝ) (mu : ℝ) : (Fin n → ℝ) →ₗ[ℝ] (Fin n → ℝ) := Matrix.mulVecLin (mu • (normalMat A mu)⁻¹)

theorem normal_lmMap {n : ℕ} (A : Matrix (Fin n) (Fin n) ℝ) {mu : ℝ} (hmu : 0 < mu) (w : Fin n → ℝ) :
    (normalMat A mu).mulVec (lmMap A mu w) = mu • w := by
  rw [lmMap, mulVecLin_apply, smul_mulVec, mulVec_smul, mulVec_mulVec, Matrix.mul_nonsing_inv _ (Ne.isUnit (normalMat_det A hmu)), one_mulVec]

theorem mulVec_bound {n : ℕ} (A : Matrix (Fin n) (Fin n) ℝ) : ∃ L : ℝ, 0 < L ∧ (∀ i j, |A i j| ≤ L) ∧ ∀ x, ‖A.mulVec x‖ ≤ n * L * ‖x‖ := by
  have hK : ∀ i j, |A i j| ≤ ∑ i, ∑ j, |A i j| := fun i j =>
    calc |A i j| ≤ ∑ j, |A i j| := Finset.single_le_sum (f := fun j => |A i j|) (fun _ _ => abs_nonneg _) (Finset.mem_univ j)
      _ ≤ _ := Finset.single_le_sum (f := fun i => ∑ j, |A i j|) (fun _ _ => Finset.sum_nonneg fun _ _ => abs_nonneg _) (Finset.mem_univ i)
  have h0 : 0 ≤ ∑ i, ∑ j, |A i j| := Finset.sum_nonneg fun i _ => Finset.sum_nonneg fun j _ => abs_nonneg _
  have h1 : ∀ i j, |A i j| ≤ (∑ i, ∑ j, |A i j|) + 1 := fun i j => (hK i j).trans (by linarith)
  exact ⟨_, by linarith, h1, fun x => mulVec_norm_le (by linarith) h1 x⟩

/-- the error after a step that is made with a Jacobian `J`, a normal matrix `B` and a value `F` close to those of the linearised system -/
theorem lm_close {n : ℕ} (A : Matrix (Fin n) (Fin n) ℝ) {mu : ℝ} (hmu : 0 < mu) {τ : ℝ} (hτ : 0 < τ) :
    ∃ η : ℝ, 0 < η ∧ ∀ (J B : Matrix (Fin n) (Fin n) ℝ) (F w w' : Fin n → ℝ), (∀ i j, |J i j - A i j| ≤ η) →
      (∀ i j, |normalMat A mu i j - B i j| ≤ η) → ‖F - A.mulVec w‖ ≤ η * ‖w‖ → B.mulVec (w' - w) = -(Jᵀ.mulVec F) →
      ‖w' - lmMap A mu w‖ ≤ τ * ‖w‖ := by
  obtain ⟨K, hK, hKM⟩ := regular_bound (normalMat_det A hmu)
  obtain ⟨a, ha, haA, haV⟩ := mulVec_bound A
  obtain ⟨l, hl, -, hlV⟩ := mulVec_bound (mu • (normalMat A mu)⁻¹)
  have hl' : ∀ w, ‖lmMap A mu w‖ ≤ n * l * ‖w‖ := hlV
  have hn0 : (0 : ℝ) ≤ n := by positivity
  let C : ℝ := n * a + n * (n * a + 1) + n
  have hC : 0 ≤ C := by positivity
  refine ⟨min 1 (min (1 / (2 * K * n + 1)) (τ / (2 * K * (C + n * (n * l)) + 1))) / 2, by positivity, ?_⟩
  set η := min 1 (min (1 / (2 * K * n + 1)) (τ / (2 * K * (C + n * (n * l)) + 1))) / 2 with hη
  have hη0 : 0 < η := by positivity
  have hη1 : η ≤ 1 := by
    have := min_le_left 1 (min (1 / (2 * K * n + 1)) (τ / (2 * K * (C + n * (n * l)) + 1)))
    linarith
  have hη2 : η * (2 * K * n + 1) ≤ 1 := by
    have h1 : 2 * η ≤ 1 / (2 * K * n + 1) := by
      rw [hη, mul_div_cancel₀ _ (by norm_num : (2 : ℝ) ≠ 0)]
      exact (min_le_right _ _).trans (min_le_left _ _)
    have h2 := (le_div_iff₀ (by positivity)).mp h1
    nlinarith
  have hη3 : η * (2 * K * (C + n * (n * l)) + 1) ≤ τ := by
    have h1 : 2 * η ≤ τ / (2 * K * (C + n * (n * l)) + 1) := by
      rw [hη, mul_div_cancel₀ _ (by norm_num : (2 : ℝ) ≠ 0)]
      exact (min_le_right _ _).trans (min_le_right _ _)
    have h2 := (le_div_iff₀ (by positivity)).mp h1
    have h3 : 0 ≤ η * (2 * K * (C + n * (n * l)) + 1) := by positivity
    linarith
  clear_value η
  intro J B F w w' hJ hB hF hd
  have e1 : (normalMat A mu).mulVec (w' - lmMap A mu w) =
      -(Aᵀ.mulVec (F - A.mulVec w)) - (J - A)ᵀ.mulVec F + (normalMat A mu - B).mulVec (w' - w) := by
    rw [mulVec_sub, normal_lmMap A hmu, sub_mulVec, hd, transpose_sub, sub_mulVec, mulVec_sub, mulVec_sub]
    have : (normalMat A mu).mulVec w = Aᵀ.mulVec (A.mulVec w) + mu • w := by
      rw [normalMat, add_mulVec, mulVec_mulVec, smul_mulVec, one_mulVec]
    rw [this]
    abel
  have b1 : ‖Aᵀ.mulVec (F - A.mulVec w)‖ ≤ n * a * (η * ‖w‖) :=
    (mulVec_norm_le ha.le (fun i j => haA j i) _).trans (mul_le_mul_of_nonneg_left hF (by positivity))
  have b2 : ‖F‖ ≤ (n * a + 1) * ‖w‖ := by
    have : F = (F - A.mulVec w) + A.mulVec w := by abel
    rw [this]
    refine (norm_add_le _ _).trans ?_
    have h2 : η * ‖w‖ ≤ 1 * ‖w‖ := mul_le_mul_of_nonneg_right hη1 (norm_nonneg _)
    linarith [haV w]
  have b3 : ‖(J - A)ᵀ.mulVec F‖ ≤ n * η * ((n * a + 1) * ‖w‖) :=
    (mulVec_norm_le hη0.le (fun i j => hJ j i) _).trans (mul_le_mul_of_nonneg_left b2 (by positivity))
  have b4 : ‖(normalMat A mu - B).mulVec (w' - w)‖ ≤ n * η * ‖w' - w‖ := mulVec_norm_le hη0.le (fun i j => hB i j) _
  have b5 : ‖w' - w‖ ≤ ‖w' - lmMap A mu w‖ + n * l * ‖w‖ + ‖w‖ := by
    have : w' - w = (w' - lmMap A mu w) + lmMap A mu w - w := by abel
    rw [this]
    refine (norm_sub_le _ _).trans ?_
    have := norm_add_le (w' - lmMap A mu w) (lmMap A mu w)
    linarith [hl' w]
  have b6 := hKM (w' - lmMap A mu w)
  rw [e1] at b6
  have b7 : ‖-(Aᵀ.mulVec (F - A.mulVec w)) - (J - A)ᵀ.mulVec F + (normalMat A mu - B).mulVec (w' - w)‖ ≤
      n * a * (η * ‖w‖) + n * η * ((n * a + 1) * ‖w‖) + n * η * (‖w' - lmMap A mu w‖ + n * l * ‖w‖ + ‖w‖) := by
    refine (norm_add_le _ _).trans (add_le_add ((norm_sub_le _ _).trans (add_le_add ?_ b3)) (b4.trans (mul_le_mul_of_nonneg_left b5 (by positivity))))
    rw [norm_neg]; exact b1
  have b8 := b6.trans (mul_le_mul_of_nonneg_left b7 hK.le)
  have e2 : K * (n * a * (η * ‖w‖) + n * η * ((n * a + 1) * ‖w‖) + n * η * (‖w' - lmMap A mu w‖ + n * l * ‖w‖ + ‖w‖))
      = K * n * η * ‖w' - lmMap A mu w‖ + K * η * (C + n * (n * l)) * ‖w‖ := by
    simp only [C]; ring
  rw [e2] at b8
  have b9 : K * n * η * ‖w' - lmMap A mu w‖ ≤ 1 / 2 * ‖w' - lmMap A mu w‖ := mul_le_mul_of_nonneg_right (by nlinarith) (norm_nonneg _)
  have b10 : 2 * K * η * (C + n * (n * l)) * ‖w‖ ≤ τ * ‖w‖ := mul_le_mul_of_nonneg_right (by nlinarith) (norm_nonneg _)
  linarith

theorem sum_sq {n : ℕ} (v : Fin n → ℝ) : ∑ i, v i ^ 2 = v ⬝ᵥ v := by simp [dotProduct, pow_two]

theorem dot_pos {n : ℕ} {v : Fin n → ℝ} (hv : v ≠ 0) : 0 < v ⬝ᵥ v := by
  obtain ⟨i, hi⟩ : ∃ i, v i ≠ 0 := by
    by_contra h
    push Not at h
    exact hv (funext h)
  exact Finset.sum_pos' (fun i _ => mul_self_nonneg _) ⟨i, Finset.mem_univ _, mul_self_pos.mpr hi⟩

theorem dot_self_nonneg {n : ℕ} (v : Fin n → ℝ) : 0 ≤ v ⬝ᵥ v := Finset.sum_nonneg fun i _ => mul_self_nonneg _

theorem norm_sq_le {n : ℕ} (v : Fin n → ℝ) : ‖v‖ ^ 2 ≤ ∑ i, v i ^ 2 := by
  have h0 : 0 ≤ ∑ i, v i ^ 2 := Finset.sum_nonneg fun i _ => sq_nonneg _
  have : ‖v‖ ≤ √(∑ i, v i ^ 2) := (pi_norm_le_iff_of_nonneg (Real.sqrt_nonneg _)).mpr fun i => by
    rw [Real.norm_eq_abs]
    refine Real.abs_le_sqrt ?_
    exact Finset.single_le_sum (f := fun i => v i ^ 2) (fun _ _ => sq_nonneg _) (Finset.mem_univ i)
  calc ‖v‖ ^ 2 ≤ √(∑ i, v i ^ 2) ^ 2 := pow_le_pow_left₀ (norm_nonneg _) this 2
    _ = _ := Real.sq_sqrt h0

theorem sum_sq_le {n : ℕ} (v : Fin n → ℝ) : ∑ i, v i ^ 2 ≤ n * ‖v‖ ^ 2 := by
  calc ∑ i, v i ^ 2 ≤ ∑ _i : Fin n, ‖v‖ ^ 2 := Finset.sum_le_sum fun i _ => by
        rw [← sq_abs]; exact pow_le_pow_left₀ (abs_nonneg _) (norm_le_pi_norm v i) 2
    _ = n * ‖v‖ ^ 2 := by simp

theorem regular_ne {n : ℕ} {A : Matrix (Fin n) (Fin n) ℝ} (hA : A.det ≠ 0) {x : Fin n → ℝ} (hx : x ≠ 0) : A.mulVec x ≠ 0 := fun h =>
  hA (Matrix.exists_mulVec_eq_zero_iff.mp ⟨x, hx, h⟩)

theorem lmMap_eq {n : ℕ} (A : Matrix (Fin n) (Fin n) ℝ) {mu : ℝ} (hmu : 0 < mu) (w : Fin n → ℝ) :
    w = lmMap A mu w + mu⁻¹ • Aᵀ.mulVec (A.mulVec (lmMap A mu w)) := by
  have h := normal_lmMap A hmu w
  rw [normalMat, add_mulVec, smul_mulVec, one_mulVec, ← mulVec_mulVec] at h
  have h2 : mu⁻¹ • (mu • w) = w := by rw [smul_smul, inv_mul_cancel₀ hmu.ne', one_smul]
  rw [← h, smul_add, smul_smul, inv_mul_cancel₀ hmu.ne', one_smul] at h2
  rw [add_comm]
  exact h2.symm

theorem lmMap_ne {n : ℕ} (A : Matrix (Fin n) (Fin n) ℝ) {mu : ℝ} (hmu : 0 < mu) {w : Fin n → ℝ} (hw : w ≠ 0) : lmMap A mu w ≠ 0 := by
  intro h
  have := lmMap_eq A hmu w
  rw [h] at this
  simp at this
  exact hw this

/-- the step on the linearised system makes the sum of squares of `A w` smaller ... -/
theorem lmMap_residual {n : ℕ} {A : Matrix (Fin n) (Fin n) ℝ} (hA : A.det ≠ 0) {mu : ℝ} (hmu : 0 < mu) {w : Fin n → ℝ} (hw : w ≠ 0) :
    ∑ i, A.mulVec (lmMap A mu w) i ^ 2 < ∑ i, A.mulVec w i ^ 2 := by
  have hx := lmMap_ne A hmu hw
  have hA' : Aᵀ.det ≠ 0 := by rwa [det_transpose]
  rw [sum_sq, sum_sq]
  conv_rhs => rw [lmMap_eq A hmu w]
  generalize lmMap A mu w = x at hx
  have hy := regular_ne hA' (regular_ne hA hx)
  have h1 := dot_pos hy
  have h2 := dot_self_nonneg (A.mulVec (Aᵀ.mulVec (A.mulVec x)))
  have h3 : A.mulVec x ⬝ᵥ A.mulVec (Aᵀ.mulVec (A.mulVec x)) = Aᵀ.mulVec (A.mulVec x) ⬝ᵥ Aᵀ.mulVec (A.mulVec x) := by
    rw [dotProduct_mulVec, ← mulVec_transpose]
  have h4 : (A.mulVec x + mu⁻¹ • A.mulVec (Aᵀ.mulVec (A.mulVec x))) ⬝ᵥ (A.mulVec x + mu⁻¹ • A.mulVec (Aᵀ.mulVec (A.mulVec x))) =
      A.mulVec x ⬝ᵥ A.mulVec x + 2 * mu⁻¹ * (A.mulVec x ⬝ᵥ A.mulVec (Aᵀ.mulVec (A.mulVec x))) +
        mu⁻¹ ^ 2 * (A.mulVec (Aᵀ.mulVec (A.mulVec x)) ⬝ᵥ A.mulVec (Aᵀ.mulVec (A.mulVec x))) := by
    simp only [add_dotProduct, dotProduct_add, smul_dotProduct, dotProduct_smul, smul_eq_mul]
    rw [dotProduct_comm (A.mulVec (Aᵀ.mulVec (A.mulVec x))) (A.mulVec x)]
    ring
  rw [mulVec_add, mulVec_smul, h4, h3]
  have : 0 < mu⁻¹ := by positivity
  nlinarith [mul_pos this h1, mul_nonneg (sq_nonneg mu⁻¹) h2]

/-- ... and it makes the error smaller. -/
theorem lmMap_error {n : ℕ} {A : Matrix (Fin n) (Fin n) ℝ} (hA : A.det ≠ 0) {mu : ℝ} (hmu : 0 < mu) :
    ∃ s : ℝ, 1 < s ∧ ∀ w, w ≠ 0 → ∑ i, (s • lmMap A mu) w i ^ 2 < ∑ i, w i ^ 2 := by
  obtain ⟨K, hK, hKA⟩ := regular_bound hA
  have hn : (0 : ℝ) ≤ n := by positivity
  let κ : ℝ := 1 / (mu * (n + 1) * K ^ 2)
  have hκ : 0 < κ := by positivity
  refine ⟨√(1 + κ), by rw [Real.lt_sqrt (by norm_num)]; linarith, fun w hw => ?_⟩
  have hx := lmMap_ne A hmu hw
  have e : ∑ i, (√(1 + κ) • lmMap A mu) w i ^ 2 = (1 + κ) * ∑ i, lmMap A mu w i ^ 2 := by
    rw [Finset.mul_sum]
    exact Finset.sum_congr rfl fun i _ => by
      rw [LinearMap.smul_apply, Pi.smul_apply, smul_eq_mul, mul_pow, Real.sq_sqrt (by linarith)]
  rw [e, sum_sq, sum_sq]
  conv_rhs => rw [lmMap_eq A hmu w]
  generalize lmMap A mu w = x at hx
  have h1 : x ⬝ᵥ Aᵀ.mulVec (A.mulVec x) = A.mulVec x ⬝ᵥ A.mulVec x := by
    rw [dotProduct_mulVec, vecMul_transpose]
  have h4 : (x + mu⁻¹ • Aᵀ.mulVec (A.mulVec x)) ⬝ᵥ (x + mu⁻¹ • Aᵀ.mulVec (A.mulVec x)) =
      x ⬝ᵥ x + 2 * mu⁻¹ * (x ⬝ᵥ Aᵀ.mulVec (A.mulVec x)) + mu⁻¹ ^ 2 * (Aᵀ.mulVec (A.mulVec x) ⬝ᵥ Aᵀ.mulVec (A.mulVec x)) := by
    simp only [add_dotProduct, dotProduct_add, smul_dotProduct, dotProduct_smul, smul_eq_mul]
    rw [dotProduct_comm (Aᵀ.mulVec (A.mulVec x)) x]
    ring
  rw [h4, h1]
  have h5 := dot_self_nonneg (Aᵀ.mulVec (A.mulVec x))
  have h6 : x ⬝ᵥ x ≤ n * ‖x‖ ^ 2 := by rw [← sum_sq]; exact sum_sq_le x
  have h7 : ‖A.mulVec x‖ ^ 2 ≤ A.mulVec x ⬝ᵥ A.mulVec x := by rw [← sum_sq]; exact norm_sq_le _
  have h8 : ‖x‖ ^ 2 ≤ K ^ 2 * (A.mulVec x ⬝ᵥ A.mulVec x) := by
    calc ‖x‖ ^ 2 ≤ (K * ‖A.mulVec x‖) ^ 2 := pow_le_pow_left₀ (norm_nonneg _) (hKA x) 2
      _ = K ^ 2 * ‖A.mulVec x‖ ^ 2 := by ring
      _ ≤ _ := mul_le_mul_of_nonneg_left h7 (by positivity)
  have h9 := dot_pos (regular_ne hA hx)
  have h10 : κ * (x ⬝ᵥ x) ≤ mu⁻¹ * (A.mulVec x ⬝ᵥ A.mulVec x) := by
    have : x ⬝ᵥ x ≤ (n + 1) * (K ^ 2 * (A.mulVec x ⬝ᵥ A.mulVec x)) := h6.trans (by nlinarith [norm_nonneg x, sq_nonneg ‖x‖])
    calc κ * (x ⬝ᵥ x) ≤ κ * ((n + 1) * (K ^ 2 * (A.mulVec x ⬝ᵥ A.mulVec x))) := mul_le_mul_of_nonneg_left this hκ.le
      _ = _ := by simp only [κ]; field_simp
  have : 0 < mu⁻¹ := by positivity
  nlinarith [mul_pos this h9, mul_nonneg (sq_nonneg mu⁻¹) h5]

/-- for a symmetric matrix the test of the line search holds on the linearised system -/
theorem lmMap_symm {n : ℕ} {A : Matrix (Fin n) (Fin n) ℝ} (hA : A.det ≠ 0) (hs : Aᵀ = A) {mu : ℝ} (hmu : 0 < mu) {w : Fin n → ℝ} (hw : w ≠ 0) :
    ∑ i, A.mulVec (lmMap A mu w) i ^ 2 < ∑ i, (A.mulVec w + (2 / 5 : ℝ) • Aᵀ.mulVec (lmMap A mu w - w)) i ^ 2 := by
  have hx := lmMap_ne A hmu hw
  rw [sum_sq, sum_sq]
  have e1 : A.mulVec w + (2 / 5 : ℝ) • Aᵀ.mulVec (lmMap A mu w - w)
      = A.mulVec (lmMap A mu w) + (3 / 5 * mu⁻¹ : ℝ) • A.mulVec (Aᵀ.mulVec (A.mulVec (lmMap A mu w))) := by
    have h := lmMap_eq A hmu w
    have h2 : A.mulVec w = A.mulVec (lmMap A mu w) + mu⁻¹ • A.mulVec (Aᵀ.mulVec (A.mulVec (lmMap A mu w))) := by
      conv_lhs => rw [h]
      rw [mulVec_add, mulVec_smul]
    rw [hs, mulVec_sub, h2, hs]
    module
  rw [e1]
  generalize lmMap A mu w = x at hx
  have h1 := dot_pos (regular_ne (by rwa [det_transpose]) (regular_ne hA hx) : Aᵀ.mulVec (A.mulVec x) ≠ 0)
  have h2 := dot_self_nonneg (A.mulVec (Aᵀ.mulVec (A.mulVec x)))
  have h3 : A.mulVec x ⬝ᵥ A.mulVec (Aᵀ.mulVec (A.mulVec x)) = Aᵀ.mulVec (A.mulVec x) ⬝ᵥ Aᵀ.mulVec (A.mulVec x) := by
    rw [dotProduct_mulVec, ← mulVec_transpose]
  generalize hc : 3 / 5 * mu⁻¹ = c
  have hc0 : 0 < c := by rw [← hc]; positivity
  have h4 : (A.mulVec x + c • A.mulVec (Aᵀ.mulVec (A.mulVec x))) ⬝ᵥ (A.mulVec x + c • A.mulVec (Aᵀ.mulVec (A.mulVec x))) =
      A.mulVec x ⬝ᵥ A.mulVec x + 2 * c * (A.mulVec x ⬝ᵥ A.mulVec (Aᵀ.mulVec (A.mulVec x))) +
        c ^ 2 * (A.mulVec (Aᵀ.mulVec (A.mulVec x)) ⬝ᵥ A.mulVec (Aᵀ.mulVec (A.mulVec x))) := by
    simp only [add_dotProduct, dotProduct_add, smul_dotProduct, dotProduct_smul, smul_eq_mul]
    rw [dotProduct_comm (A.mulVec (Aᵀ.mulVec (A.mulVec x))) (A.mulVec x)]
    ring
  rw [h4, h3]
  nlinarith [mul_pos hc0 h1, mul_nonneg (sq_nonneg c) h2]

theorem normalMat_close {n : ℕ} (A : Matrix (Fin n) (Fin n) ℝ) (mu : ℝ) {η : ℝ} (hη : 0 < η) :
    ∃ e : ℝ, 0 < e ∧ ∀ (J B : Matrix (Fin n) (Fin n) ℝ) (eps : ℝ), eps ≤ e → (∀ i j, |J i j - A i j| ≤ e) → Near eps (normalMat J mu) B →
      ∀ i j, |normalMat A mu i j - B i j| ≤ η := by
  obtain ⟨a, ha, haA, -⟩ := mulVec_bound A
  have hn : (0 : ℝ) ≤ n := by positivity
  refine ⟨min 1 (η / (n * (2 * a + 1) + 1)), by positivity, fun J B eps he hJ hB i j => ?_⟩
  set e := min 1 (η / (n * (2 * a + 1) + 1)) with hedef
  have he0 : 0 < e := by positivity
  have he1 : e ≤ 1 := min_le_left _ _
  have he2 : e * (n * (2 * a + 1) + 1) ≤ η := (le_div_iff₀ (by positivity)).mp (min_le_right _ _)
  have h1 : |(Aᵀ * A) i j - (Jᵀ * J) i j| ≤ n * (e * (2 * a + 1)) := by
    rw [mul_apply, mul_apply, ← Finset.sum_sub_distrib]
    refine (Finset.abs_sum_le_sum_abs _ _).trans ?_
    calc ∑ k, |Aᵀ i k * A k j - Jᵀ i k * J k j| ≤ ∑ _k : Fin n, e * (2 * a + 1) := Finset.sum_le_sum fun k _ => by
          have e1 : Aᵀ i k * A k j - Jᵀ i k * J k j = -((J k i - A k i) * A k j) - (J k i - A k i) * (J k j - A k j) - A k i * (J k j - A k j) := by
            simp only [transpose_apply]; ring
          rw [e1]
          refine (abs_sub _ _).trans ((add_le_add_left (abs_sub _ _) _).trans ?_)
          rw [abs_neg, abs_mul, abs_mul, abs_mul]
          have t1 := mul_le_mul (hJ k i) (haA k j) (abs_nonneg _) he0.le
          have t2 := mul_le_mul (hJ k i) ((hJ k j).trans he1) (abs_nonneg _) he0.le
          have t3 := mul_le_mul (haA k i) (hJ k j) (abs_nonneg _) ha.le
          linarith
      _ = n * (e * (2 * a + 1)) := by simp
  have h2 : normalMat A mu i j - B i j = ((Aᵀ * A) i j - (Jᵀ * J) i j) + (normalMat J mu i j - B i j) := by
    simp only [normalMat, Matrix.add_apply]; ring
  rw [h2]
  refine (abs_add_le _ _).trans ?_
  have h3 := (hB i j).le.trans he
  nlinarith

/-- what happens at points close to a regular root `z` where the test of the line search holds to first order -/
theorem lm_near {vars : List Str} (hn : 0 < vars.length) (hnd : vars.Nodup) {f : Matrix (Fin vars.length) (Fin 1) (Expr (XNum ℝ))}
    {z : Fin vars.length → ℝ} (hs : SmoothAt f vars z) (hz : IsValue f vars z 0) {A : Matrix (Fin vars.length) (Fin vars.length) ℝ}
    (hA : IsJacobian f vars z A) (hdet : A.det ≠ 0) {mu : ℝ} (hmu : 0 < mu)
    (htest : ∀ w, w ≠ 0 → ∑ i, A.mulVec (lmMap A mu w) i ^ 2 < ∑ i, (A.mulVec w + (2 / 5 : ℝ) • Aᵀ.mulVec (lmMap A mu w - w)) i ^ 2) :
    ∃ δ e θ L : ℝ, 0 < δ ∧ 0 < e ∧ 0 ≤ θ ∧ θ < 1 ∧ 0 < L ∧ ∀ u, ∑ i, (u - z) i ^ 2 < δ → SmoothAt f vars u ∧ ∃ F, IsValue f vars u F ∧
      ∑ i, F i ^ 2 ≤ L * ∑ i, (u - z) i ^ 2 ∧
      ∀ (eps : ℝ) (J B : Matrix (Fin vars.length) (Fin vars.length) ℝ) (d : Fin vars.length → ℝ), eps ≤ e → IsJacobian f vars u J → Near eps (normalMat J mu) B →
        B.mulVec d = -(Jᵀ.mulVec F) → u ≠ z → ∑ i, (u + d - z) i ^ 2 ≤ θ * ∑ i, (u - z) i ^ 2 ∧
        ∃ F', SmoothAt f vars (u + d) ∧ IsValue f vars (u + d) F' ∧ ∑ i, F' i ^ 2 < ∑ i, F i ^ 2 ∧
          ∑ i, F' i ^ 2 ≤ ∑ i, (F i + 2 / 5 * ∑ k, J k i * d k) ^ 2 := by
  obtain ⟨G, hG, hev⟩ := system_local hs
  have hv : ∀ᶠ u in 𝓝 z, IsValue f vars u (G u) := hev.mono fun u h => h.1
  have hGz : G z = 0 := by
    funext i
    have := (hv.self_of_nhds i).symm.trans (hz i)
    simpa using this
  obtain ⟨s, hs1, hs2⟩ := lmMap_error hdet hmu
  obtain ⟨τ1, ht1, h1⟩ := squares_stable (A.mulVecLin + (2 / 5 : ℝ) • (Aᵀ.mulVecLin ∘ₗ (lmMap A mu - LinearMap.id))) (A.mulVecLin ∘ₗ lmMap A mu)
    fun w hw => by simpa [mulVec_sub, mulVec_transpose] using htest w hw
  obtain ⟨τ2, ht2, h2⟩ := squares_stable A.mulVecLin (A.mulVecLin ∘ₗ lmMap A mu) fun w hw => lmMap_residual hdet hmu hw
  obtain ⟨τ3, ht3, h3⟩ := squares_stable LinearMap.id (s • lmMap A mu) hs2
  obtain ⟨a, ha, haA, haV⟩ := mulVec_bound A
  have hn' : (0 : ℝ) < vars.length := by exact_mod_cast hn
  obtain ⟨l, hl, -, hlV⟩ := mulVec_bound (mu • (normalMat A mu)⁻¹)
  have hl' : ∀ w, ‖lmMap A mu w‖ ≤ vars.length * l * ‖w‖ := hlV
  -- the accuracy that is needed of the new error, and of the other quantities
  let τ := min τ1 (min τ2 τ3)
  have hτ : 0 < τ := by positivity
  have hτ1 : τ ≤ τ1 := min_le_left _ _
  have hτ2 : τ ≤ τ2 := (min_le_right _ _).trans (min_le_left _ _)
  have hτ3 : τ ≤ τ3 := (min_le_right _ _).trans (min_le_right _ _)
  let N : ℝ := vars.length
  let Λ : ℝ := N * l + 2
  have hΛ : 0 < Λ := by positivity
  have hΛ' : Λ = vars.length * l + 2 := rfl
  let τ0 := min 1 (τ / (2 * (N * a + s + 1)))
  have hs0 : 0 < s := by linarith
  have hτ0 : 0 < τ0 := by positivity
  have hτ01 : τ0 ≤ 1 := min_le_left _ _
  have hτ02 : τ0 * (2 * (N * a + s + 1)) ≤ τ := (le_div_iff₀ (by positivity)).mp (min_le_right _ _)
  obtain ⟨η0, hη0, hclose⟩ := lm_close A hmu hτ0
  let η := min η0 (τ / (2 * (1 + N * Λ + Λ)))
  have hη : 0 < η := by positivity
  have hη1 : η ≤ η0 := min_le_left _ _
  have hη2 : η * (2 * (1 + N * Λ + Λ)) ≤ τ := (le_div_iff₀ (by positivity)).mp (min_le_right _ _)
  have hN : 0 < N := hn'
  have hN' : N = vars.length := rfl
  clear_value τ0 τ η Λ N
  obtain ⟨e, he, hnear⟩ := normalMat_close A mu hη0
  have hx := jacobian_expansion hnd hG hv hA hη
  have hj := jacobian_continuous hnd hG hv hA (e := min η e) (by positivity)
  obtain ⟨δ, hδ, hball⟩ := Metric.eventually_nhds_iff.mp (hev.and (hx.and hj))
  have hin : ∀ u, ∑ i, (u - z) i ^ 2 < δ ^ 2 → dist u z < δ := by
    intro u hu
    rw [dist_eq_norm]
    exact lt_of_pow_lt_pow_left₀ 2 hδ.le ((norm_sq_le _).trans_lt hu)
  refine ⟨δ ^ 2, e, (s ^ 2)⁻¹, N * (N * a + η) ^ 2, by positivity, he, by positivity, inv_lt_one_of_one_lt₀ (by nlinarith), by positivity, fun u hu => ?_⟩
  obtain ⟨⟨k1, k2⟩, k3, k4⟩ := hball (hin u hu)
  rw [hGz, sub_zero] at k3
  refine ⟨k2, G u, k1, ?_, fun eps J B d g1 hJ hB hd hne => ?_⟩
  · have b1 : ‖G u‖ ≤ (N * a + η) * ‖u - z‖ := by
      have : G u = (G u - A.mulVec (u - z)) + A.mulVec (u - z) := by abel
      rw [this]
      refine (norm_add_le _ _).trans ?_
      have := haV (u - z)
      rw [hN']
      linarith
    calc ∑ i, G u i ^ 2 ≤ N * ‖G u‖ ^ 2 := by rw [hN']; exact sum_sq_le _
      _ ≤ N * ((N * a + η) * ‖u - z‖) ^ 2 := mul_le_mul_of_nonneg_left (pow_le_pow_left₀ (norm_nonneg _) b1 2) hN.le
      _ = N * (N * a + η) ^ 2 * ‖u - z‖ ^ 2 := by ring
      _ ≤ _ := mul_le_mul_of_nonneg_left (norm_sq_le _) (by positivity)
  · have hw : u - z ≠ 0 := sub_ne_zero.mpr hne
    have hJ' := k4 J hJ
    have c1 := hclose J B (G u) (u - z) (u + d - z) (fun i j => (hJ' i j).le.trans ((min_le_left _ _).trans hη1))
      (hnear J B eps g1 (fun i j => (hJ' i j).le.trans (min_le_right _ _)) hB) (k3.trans (mul_le_mul_of_nonneg_right hη1 (norm_nonneg _)))
      (by rw [show u + d - z - (u - z) = d by abel]; exact hd)
    generalize hwdef : u - z = w at hw c1 k3
    generalize hw'def : u + d - z = w' at c1
    have hdw : d = w' - w := by rw [← hwdef, ← hw'def]; abel
    have hw0 : 0 ≤ ‖w‖ := norm_nonneg w
    have b1 : ‖w'‖ ≤ Λ * ‖w‖ := by
      have : w' = (w' - lmMap A mu w) + lmMap A mu w := by abel
      rw [this]
      refine (norm_add_le _ _).trans ?_
      have h5 : τ0 * ‖w‖ ≤ 1 * ‖w‖ := mul_le_mul_of_nonneg_right hτ01 hw0
      have := hl' w
      rw [hΛ']
      linarith
    have b2 : ‖w' - w‖ ≤ Λ * ‖w‖ := by
      have : w' - w = (w' - lmMap A mu w) + lmMap A mu w - w := by abel
      rw [this]
      refine (norm_sub_le _ _).trans ?_
      have h5 : τ0 * ‖w‖ ≤ 1 * ‖w‖ := mul_le_mul_of_nonneg_right hτ01 hw0
      have := norm_add_le (w' - lmMap A mu w) (lmMap A mu w)
      have := hl' w
      rw [hΛ']
      linarith
    have hp0 : 0 ≤ τ0 * (N * a) := by positivity
    have hp1 : 0 ≤ τ0 * s := by positivity
    have hτs : τ0 * s ≤ τ := by linarith
    -- the error
    have c2 : s ^ 2 * ∑ i, w' i ^ 2 < ∑ i, w i ^ 2 := by
      have := h3 w w (s • w') hw (by simp; positivity) (by
        rw [LinearMap.smul_apply, ← smul_sub, norm_smul, Real.norm_of_nonneg hs0.le]
        have h5 : s * ‖w' - lmMap A mu w‖ ≤ s * (τ0 * ‖w‖) := mul_le_mul_of_nonneg_left c1 hs0.le
        have h6 : τ0 * s * ‖w‖ ≤ τ3 * ‖w‖ := mul_le_mul_of_nonneg_right (hτs.trans hτ3) hw0
        linarith)
      have e1 : ∑ i, (s • w') i ^ 2 = s ^ 2 * ∑ i, w' i ^ 2 := by
        rw [Finset.mul_sum]
        exact Finset.sum_congr rfl fun i _ => by rw [Pi.smul_apply, smul_eq_mul, mul_pow]
      rwa [e1] at this
    have c3 : ∑ i, w' i ^ 2 ≤ (s ^ 2)⁻¹ * ∑ i, w i ^ 2 := by
      rw [inv_mul_eq_div, le_div_iff₀ (by positivity)]
      linarith
    refine ⟨c3, ?_⟩
    have c4 : ∑ i, (u + d - z) i ^ 2 < δ ^ 2 := by
      rw [hw'def]
      refine lt_of_le_of_lt ?_ hu
      rw [hwdef]
      have h5 : 0 ≤ ∑ i, w' i ^ 2 := Finset.sum_nonneg fun i _ => sq_nonneg _
      exact (le_mul_of_one_le_left h5 (one_le_pow₀ hs1.le)).trans c2.le
    obtain ⟨⟨l1, l2⟩, l3, _⟩ := hball (hin (u + d) c4)
    rw [hGz, sub_zero, hw'def] at l3
    have d1 : ‖A.mulVec (w' - lmMap A mu w)‖ ≤ N * a * (τ0 * ‖w‖) := by
      rw [hN']; exact (haV _).trans (mul_le_mul_of_nonneg_left c1 (by positivity))
    have d2 : ‖Aᵀ.mulVec (w' - lmMap A mu w)‖ ≤ N * a * (τ0 * ‖w‖) := by
      rw [hN']; exact (mulVec_norm_le ha.le (fun i j => haA j i) _).trans (mul_le_mul_of_nonneg_left c1 (by positivity))
    have d3 : ‖(J - A)ᵀ.mulVec (w' - w)‖ ≤ N * η * (Λ * ‖w‖) := by
      rw [hN']; exact (mulVec_norm_le hη.le (fun i j => (hJ' j i).le.trans (min_le_left _ _)) _).trans (mul_le_mul_of_nonneg_left b2 (by positivity))
    have d4 : η * ‖w'‖ ≤ η * (Λ * ‖w‖) := mul_le_mul_of_nonneg_left b1 hη.le
    have hsum1 : τ0 * (N * a) ≤ τ / 2 := by linarith
    have hp2 : 0 ≤ η * (N * Λ) := by positivity
    have hp3 : 0 ≤ η * Λ := by positivity
    have hsum2 : η * Λ ≤ τ / 2 := by linarith
    have hsum3 : η * (1 + N * Λ) ≤ τ / 2 := by linarith
    have d5 : ‖G (u + d) - A.mulVec (lmMap A mu w)‖ ≤ τ * ‖w‖ := by
      have : G (u + d) - A.mulVec (lmMap A mu w) = (G (u + d) - A.mulVec w') + A.mulVec (w' - lmMap A mu w) := by rw [mulVec_sub]; abel
      rw [this]
      refine (norm_add_le _ _).trans ?_
      have := mul_le_mul_of_nonneg_right hsum1 hw0
      have := mul_le_mul_of_nonneg_right hsum2 hw0
      linarith
    have d6 : η * ‖w‖ ≤ τ * ‖w‖ := mul_le_mul_of_nonneg_right (by linarith) hw0
    have d7 : ‖(G u + (2 / 5 : ℝ) • Jᵀ.mulVec d) - (A.mulVec w + (2 / 5 : ℝ) • Aᵀ.mulVec (lmMap A mu w - w))‖ ≤ τ * ‖w‖ := by
      have : (G u + (2 / 5 : ℝ) • Jᵀ.mulVec d) - (A.mulVec w + (2 / 5 : ℝ) • Aᵀ.mulVec (lmMap A mu w - w)) =
          (G u - A.mulVec w) + (2 / 5 : ℝ) • ((J - A)ᵀ.mulVec (w' - w) + Aᵀ.mulVec (w' - lmMap A mu w)) := by
        rw [hdw, transpose_sub]
        simp only [sub_mulVec, mulVec_sub]
        module
      rw [this]
      refine (norm_add_le _ _).trans ?_
      rw [norm_smul, Real.norm_of_nonneg (by norm_num : (0 : ℝ) ≤ 2 / 5)]
      have h5 := norm_add_le ((J - A)ᵀ.mulVec (w' - w)) (Aᵀ.mulVec (w' - lmMap A mu w))
      have h6 := mul_le_mul_of_nonneg_right hsum1 hw0
      have h7 := mul_le_mul_of_nonneg_right hsum3 hw0
      have h8 := norm_nonneg ((J - A)ᵀ.mulVec (w' - w) + Aᵀ.mulVec (w' - lmMap A mu w))
      linarith
    refine ⟨G (u + d), l2, l1, ?_, ?_⟩
    · exact h2 w _ _ hw (k3.trans (d6.trans (mul_le_mul_of_nonneg_right hτ2 hw0)))
        (d5.trans (mul_le_mul_of_nonneg_right hτ2 hw0))
    · have := h1 w _ _ hw (by simpa [mulVec_sub, mulVec_transpose] using d7.trans (mul_le_mul_of_nonneg_right hτ1 hw0))
        (d5.trans (mul_le_mul_of_nonneg_right hτ1 hw0))
      refine this.le.trans (le_of_eq (Finset.sum_congr rfl fun i _ => ?_))
      have e1 : (d ᵥ* J) i = ∑ k, J k i * d k := by
        simp only [vecMul, dotProduct, mul_comm]
      rw [Pi.add_apply, Pi.smul_apply, smul_eq_mul, e1]

end Tom
