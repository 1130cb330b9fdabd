import Mathlib.Analysis.Matrix.Order
import Mathlib.LinearAlgebra.Matrix.SchurComplement
/-
Sylvester's criterion: a real symmetric matrix is positive definite iff its leading principal minors are positive.
-/
namespace Tom
open Matrix

/-- the leading block, indexed by natural numbers -/
theorem sylvester_step {n : ℕ} (A : Matrix (Fin n ⊕ Fin 1) (Fin n ⊕ Fin 1) ℝ) (hs : A.IsHermitian)
    (hB : A.toBlocks₁₁.PosDef) (hd : 0 < A.det) : A.PosDef := by
  have hA : A = fromBlocks A.toBlocks₁₁ A.toBlocks₁₂ A.toBlocks₁₂ᴴ A.toBlocks₂₂ := by
    conv_lhs => rw [← fromBlocks_toBlocks A]
    congr 1
    ext i j
    have := congrFun (congrFun hs (Sum.inr i)) (Sum.inl j)
    simp only [conjTranspose_apply] at this ⊢
    simp only [toBlocks₂₁, toBlocks₁₂, of_apply]
    exact this.symm
  have hBu := hB.isUnit
  letI : Invertible A.toBlocks₁₁ := hBu.invertible
  have hdet : A.det = A.toBlocks₁₁.det * (A.toBlocks₂₂ - A.toBlocks₁₂ᴴ * (A.toBlocks₁₁)⁻¹ * A.toBlocks₁₂).det := by
    conv_lhs => rw [hA]
    rw [det_fromBlocks₁₁, invOf_eq_nonsing_inv]
  have hpos : 0 < (A.toBlocks₂₂ - A.toBlocks₁₂ᴴ * (A.toBlocks₁₁)⁻¹ * A.toBlocks₁₂).det := by
    have h1 := hB.det_pos
    rw [hdet] at hd
    exact (pos_iff_pos_of_mul_pos hd).mp h1
  have hsemi : A.PosSemidef := by
    rw [hA, PosDef.fromBlocks₁₁ _ _ hB]
    have hdiag : A.toBlocks₂₂ - A.toBlocks₁₂ᴴ * (A.toBlocks₁₁)⁻¹ * A.toBlocks₁₂ =
        diagonal fun i => (A.toBlocks₂₂ - A.toBlocks₁₂ᴴ * (A.toBlocks₁₁)⁻¹ * A.toBlocks₁₂) i i := by
      ext i j
      rw [Subsingleton.elim j i, diagonal_apply_eq]
    rw [hdiag]
    apply PosSemidef.diagonal
    intro i
    rw [det_fin_one] at hpos
    rw [Subsingleton.elim i 0]
    exact hpos.le
  rw [hsemi.posDef_iff_det_ne_zero]
  exact hd.ne'

theorem sylvester (f : ℕ → ℕ → ℝ) (hs : ∀ i j, f i j = f j i) (n : ℕ) :
    (Matrix.of fun (i j : Fin n) => f i j).PosDef ↔ ∀ k, k ≤ n → 0 < (Matrix.of fun (i j : Fin k) => f i j).det := by
  constructor
  · intro h k hk
    have := h.submatrix (Fin.castLE_injective hk)
    exact this.det_pos
  · induction n with
    | zero =>
      intro _
      refine PosDef.of_dotProduct_mulVec_pos (by ext i; exact i.elim0) ?_
      intro x hx
      exact absurd (funext fun i => i.elim0) hx
    | succ n ih =>
      intro h
      have hB := ih fun k hk => h k (by omega)
      have hd := h (n + 1) le_rfl
      have key := sylvester_step ((Matrix.of fun (i j : Fin (n + 1)) => f i j).submatrix finSumFinEquiv finSumFinEquiv) (by
        ext i j
        simp [hs]) (by
        convert hB using 1
        ext i j
        simp [toBlocks₁₁]) (by rw [det_submatrix_equiv_self]; exact hd)
      have := key.submatrix (e := finSumFinEquiv.symm) finSumFinEquiv.symm.injective
      convert this using 1
      ext i j
      simp

end Tom
