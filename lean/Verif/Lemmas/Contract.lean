import Verif.Lemmas.LocalSmooth
import Mathlib.Analysis.Matrix.Normed
/-
One Newton step near a regular root makes the error smaller by any given factor.
-/
set_option linter.unusedSectionVars false
namespace Tom
open Filter Topology

theorem mulVec_norm_le {n : ℕ} {C : Matrix (Fin n) (Fin n) ℝ} {eta : ℝ} (h0 : 0 ≤ eta) (h : ∀ i j, |C i j| ≤ eta) (x : Fin n → ℝ) :
    ‖C.mulVec x‖ ≤ n * eta * ‖x‖ := by
  refine (pi_norm_le_iff_of_nonneg (by positivity)).mpr fun i => ?_
  simp only [Matrix.mulVec, dotProduct]
  refine (norm_sum_le _ _).trans ?_
  calc ∑ j, ‖C i j * x j‖ ≤ ∑ _j : Fin n, eta * ‖x‖ := Finset.sum_le_sum fun j _ => by
        rw [norm_mul]
        exact mul_le_mul (h i j) (norm_le_pi_norm x j) (norm_nonneg _) h0
    _ = n * eta * ‖x‖ := by simp; ring

/-- a regular matrix does not shrink vectors too much -/
theorem regular_bound {n : ℕ} {A : Matrix (Fin n) (Fin n) ℝ} (hA : A.det ≠ 0) : ∃ M : ℝ, 0 < M ∧ ∀ x, ‖x‖ ≤ M * ‖A.mulVec x‖ := by
  obtain ⟨K, hK⟩ : ∃ K : ℝ, ∀ i j, |A⁻¹ i j| ≤ K := by
    refine ⟨∑ i, ∑ j, |A⁻¹ i j|, fun i j => ?_⟩
    calc |A⁻¹ i j| ≤ ∑ j, |A⁻¹ i j| := Finset.single_le_sum (f := fun j => |A⁻¹ i j|) (fun _ _ => abs_nonneg _) (Finset.mem_univ j)
      _ ≤ _ := Finset.single_le_sum (f := fun i => ∑ j, |A⁻¹ i j|) (fun _ _ => Finset.sum_nonneg fun _ _ => abs_nonneg _) (Finset.mem_univ i)
  refine ⟨n * max K 0 + 1, by positivity, fun x => ?_⟩
  have h1 : A⁻¹.mulVec (A.mulVec x) = x := by
    rw [Matrix.mulVec_mulVec, Matrix.nonsing_inv_mul _ (Ne.isUnit hA), Matrix.one_mulVec]
  have h2 := mulVec_norm_le (le_max_right K 0) (fun i j => (hK i j).trans (le_max_left _ _)) (A.mulVec x)
  rw [h1] at h2
  nlinarith [norm_nonneg (A.mulVec x)]

theorem close_det {n : ℕ} {A B : Matrix (Fin n) (Fin n) ℝ} {M eta : ℝ} (hM : 0 < M) (hA : ∀ x, ‖x‖ ≤ M * ‖A.mulVec x‖) (h0 : 0 ≤ eta)
    (hB : ∀ i j, |A i j - B i j| ≤ eta) (he : M * (n * eta) < 1) : B.det ≠ 0 := by
  intro h
  obtain ⟨x, hx, h1⟩ := Matrix.exists_mulVec_eq_zero_iff.mpr h
  have h2 := mulVec_norm_le (C := A - B) h0 (fun i j => hB i j) x
  rw [Matrix.sub_mulVec, h1, sub_zero] at h2
  have h3 := hA x
  have h4 : 0 < ‖x‖ := norm_pos_iff.mpr hx
  nlinarith

theorem contract {n : ℕ} {A B : Matrix (Fin n) (Fin n) ℝ} {M eta e c : ℝ} (hM : 0 < M) (hA : ∀ x, ‖x‖ ≤ M * ‖A.mulVec x‖) (h0 : 0 ≤ eta)
    (hB : ∀ i j, |A i j - B i j| ≤ eta) (hc : c ≤ 1) (he : M * (n * eta) ≤ c / 4) (he' : M * e ≤ c / 4) {u z d F : Fin n → ℝ}
    (hF : ‖F - A.mulVec (u - z)‖ ≤ e * ‖u - z‖) (hd : B.mulVec d = -F) : ‖u + d - z‖ ≤ c * ‖u - z‖ := by
  have h1 : A.mulVec (u + d - z) = (A - B).mulVec (u + d - z) - (A - B).mulVec (u - z) - (F - A.mulVec (u - z)) := by
    have e1 : u + d - z = (u - z) + d := by abel
    rw [e1]
    simp only [Matrix.sub_mulVec, Matrix.mulVec_add, hd]
    abel
  have h2 := mulVec_norm_le (C := A - B) h0 (fun i j => hB i j) (u + d - z)
  have h3 := mulVec_norm_le (C := A - B) h0 (fun i j => hB i j) (u - z)
  have h4 : ‖A.mulVec (u + d - z)‖ ≤ n * eta * ‖u + d - z‖ + n * eta * ‖u - z‖ + e * ‖u - z‖ := by
    rw [h1]
    exact (norm_sub_le _ _).trans (add_le_add ((norm_sub_le _ _).trans (add_le_add h2 h3)) hF)
  have h5 := (hA (u + d - z)).trans (mul_le_mul_of_nonneg_left h4 hM.le)
  have h6 : M * (n * eta) * ‖u + d - z‖ ≤ 1 / 4 * ‖u + d - z‖ := mul_le_mul_of_nonneg_right (by linarith) (norm_nonneg _)
  have h7 : M * (n * eta) * ‖u - z‖ ≤ c / 4 * ‖u - z‖ := mul_le_mul_of_nonneg_right he (norm_nonneg _)
  have h8 : M * e * ‖u - z‖ ≤ c / 4 * ‖u - z‖ := mul_le_mul_of_nonneg_right he' (norm_nonneg _)
  have h9 := norm_nonneg (u + d - z)
  nlinarith

/-- one equation, one unknown -/
theorem solveLinear_one {α : Type} [Arith α] (cfg : Config α) (a b : α) (heq : Arith.eq (Arith.abs a) (Arith.abs a) = true) :
    solveLinear cfg ⟨1, 1, [a]⟩ ⟨1, 1, [b]⟩ =
      if Arith.lt (Arith.abs a) cfg.epsilon then
        (if Arith.lt (Arith.abs b) cfg.epsilon then .throw (.math .infinitySolutions) else .throw (.math .singularMatrix))
      else .ok ⟨1, 1, [Arith.sub (Arith.div b a) Arith.zero]⟩ := by
  have hmax : getMaxAbsRowIndex (⟨1, 1, [a]⟩ : Mat α) 0 0 0 = .ok 0 := by
    show Res.ok (List.findIdx (fun v => Arith.eq v (Arith.abs a)) [Arith.abs a] + 0) = _
    rw [List.findIdx_cons, heq]
    rfl
  have hp : bringPivot (⟨1, 1, [a]⟩ : Mat α) ⟨1, 1, [b]⟩ 0 0 = .ok (⟨1, 1, [a]⟩, ⟨1, 1, [b]⟩) := by
    show (getMaxAbsRowIndex (⟨1, 1, [a]⟩ : Mat α) 0 0 0 >>= _) = _
    rw [hmax]
    rfl
  have hf : findPivot cfg.epsilon 2 (⟨1, 1, [a]⟩ : Mat α) ⟨1, 1, [b]⟩ 0 0 =
      if Arith.lt (Arith.abs a) cfg.epsilon then .ok (⟨1, 1, [a]⟩, ⟨1, 1, [b]⟩, 1) else .ok (⟨1, 1, [a]⟩, ⟨1, 1, [b]⟩, 0) := rfl
  have he : elimLoop cfg.epsilon 2 (⟨⟨1, 1, [a]⟩, ⟨1, 1, [b]⟩, [0], 1, 1⟩ : LinState α) 0 0 =
      if Arith.lt (Arith.abs a) cfg.epsilon then
        (if Arith.lt (Arith.abs b) cfg.epsilon then .ok ⟨⟨1, 1, [a]⟩, ⟨1, 1, [b]⟩, [0], 0, 0⟩ else .throw (.math .singularMatrix))
      else .ok ⟨⟨1, 1, [Arith.div a a]⟩, ⟨1, 1, [Arith.div b a]⟩, [0], 1, 1⟩ := by
    rw [elimLoop, if_pos (by exact ⟨Nat.one_pos, Nat.one_pos⟩), hp]
    show (findPivot cfg.epsilon 2 (⟨1, 1, [a]⟩ : Mat α) ⟨1, 1, [b]⟩ 0 0 >>= _) = _
    rw [hf]
    by_cases h : Arith.lt (Arith.abs a) cfg.epsilon = true
    · rw [if_pos h, if_pos h]
      by_cases h' : Arith.lt (Arith.abs b) cfg.epsilon = true
      · rw [if_pos h']
        show (if 0 ≠ (if Arith.lt (Arith.abs b) cfg.epsilon then 0 else 1) then _ else _) = _
        simp only [if_pos h']
        rfl
      · rw [if_neg h']
        show (if 0 ≠ (if Arith.lt (Arith.abs b) cfg.epsilon then 0 else 1) then _ else _) = _
        simp only [if_neg h']
        rfl
    · rw [if_neg h, if_neg h]
      rfl
  unfold solveLinear
  show (elimLoop cfg.epsilon 2 (⟨⟨1, 1, [a]⟩, ⟨1, 1, [b]⟩, [0], 1, 1⟩ : LinState α) 0 0 >>= _) = _
  rw [he]
  by_cases h : Arith.lt (Arith.abs a) cfg.epsilon = true
  · rw [if_pos h, if_pos h]
    by_cases h' : Arith.lt (Arith.abs b) cfg.epsilon = true
    · rw [if_pos h', if_pos h']
      rfl
    · rw [if_neg h', if_neg h']
      rfl
  · rw [if_neg h, if_neg h]
    rfl

end Tom
