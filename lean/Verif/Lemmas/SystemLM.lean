import Verif.Lemmas.ComputedNewton
/-
One step of the Levenberg-Marquardt method for a system, over the reals: what a direction that solves the damped normal equations approximately
achieves.
-/
set_option linter.unusedSectionVars false
namespace Tom
namespace Double
open Finset Matrix

variable {n : ℕ}

theorem dot_le (x y : Fin n → ℝ) : |x ⬝ᵥ y| ≤ n * (‖x‖ * ‖y‖) := by
  unfold dotProduct
  refine (abs_sum_le_sum_abs _ _).trans ?_
  calc ∑ j, |x j * y j| ≤ ∑ _j : Fin n, ‖x‖ * ‖y‖ := sum_le_sum fun j _ => by
        rw [abs_mul]
        exact mul_le_mul (norm_le_pi_norm x j) (norm_le_pi_norm y j) (abs_nonneg _) (norm_nonneg _)
    _ = n * (‖x‖ * ‖y‖) := by simp

/-- if a matrix stretches every vector, so does its transpose -/
theorem transpose_stretch {B : Matrix (Fin n) (Fin n) ℝ} {m : ℝ} (hm : 0 ≤ m) (h : ∀ x, ‖x‖ ≤ m * ‖B.mulVec x‖) (y : Fin n → ℝ) :
    ‖y‖ ≤ n * m * ‖Bᵀ.mulVec y‖ := by
  have hinj : Function.Injective B.mulVecLin := by
    rw [← LinearMap.ker_eq_bot, LinearMap.ker_eq_bot']
    intro x hx
    have := h x
    rw [show B.mulVec x = 0 from hx, norm_zero, mul_zero] at this
    exact norm_le_zero_iff.mp this
  have hsur := LinearMap.injective_iff_surjective.mp hinj
  refine (pi_norm_le_iff_of_nonneg (by positivity)).mpr fun i => ?_
  obtain ⟨x, hx⟩ := hsur (Pi.single i 1)
  have hx' : B.mulVec x = Pi.single i 1 := hx
  have e : y i = Bᵀ.mulVec y ⬝ᵥ x := by
    rw [Matrix.mulVec_transpose, ← Matrix.dotProduct_mulVec, hx', dotProduct_single, mul_one]
  have hxn : ‖x‖ ≤ m := by
    have := h x
    rw [hx', Pi.norm_single, norm_one, mul_one] at this
    exact this
  rw [Real.norm_eq_abs, e]
  refine (dot_le _ _).trans ?_
  have := mul_le_mul_of_nonneg_left hxn (norm_nonneg (Bᵀ.mulVec y))
  have h2 := mul_le_mul_of_nonneg_left this (Nat.cast_nonneg (α := ℝ) n)
  linarith

/-- the damped normal matrix stretches every vector -/
theorem normal_stretch {B : Matrix (Fin n) (Fin n) ℝ} {m mu τ η : ℝ} (hm : 0 ≤ m) (hmu : 0 ≤ mu) (h : ∀ x, ‖x‖ ≤ m * ‖B.mulVec x‖)
    (hη : n * m ^ 2 * (τ + mu) ≤ η) (x : Fin n → ℝ) (hx : ‖(Bᵀ * B).mulVec x + mu • x‖ ≤ τ * ‖x‖) : ‖x‖ ≤ η * ‖x‖ := by
  have h1 := transpose_stretch hm h (B.mulVec x)
  have h2 : ‖Bᵀ.mulVec (B.mulVec x)‖ ≤ (τ + mu) * ‖x‖ := by
    have e : Bᵀ.mulVec (B.mulVec x) = ((Bᵀ * B).mulVec x + mu • x) - mu • x := by rw [Matrix.mulVec_mulVec]; abel
    rw [e]
    refine (norm_sub_le _ _).trans ?_
    rw [norm_smul, Real.norm_eq_abs, abs_of_nonneg hmu]
    linarith
  have h3 := h x
  have h4 := mul_le_mul_of_nonneg_left h2 (by positivity : 0 ≤ n * m)
  have h5 := mul_le_mul_of_nonneg_left (h1.trans h4) hm
  have h6 := mul_le_mul_of_nonneg_right hη (norm_nonneg x)
  nlinarith

/-- a direction that solves the damped normal equations approximately solves the Newton equations approximately -/
theorem normal_direction {B : Matrix (Fin n) (Fin n) ℝ} {m mu τ ζ η p : ℝ} {φ d : Fin n → ℝ} (hm : 0 ≤ m) (hmu : 0 ≤ mu) (hτ : 0 ≤ τ)
    (h : ∀ x, ‖x‖ ≤ m * ‖B.mulVec x‖) (hη : n * m ^ 2 * (τ + mu) ≤ η) (hζ : n * m * ζ ≤ η) (hη2 : η ≤ 1 / 2) (hp : ‖φ‖ ≤ p)
    (hres : ‖(Bᵀ * B).mulVec d + mu • d + Bᵀ.mulVec φ‖ ≤ τ * ‖d‖ + ζ * p) : ‖B.mulVec d + φ‖ ≤ 4 * η * p := by
  have h1 := transpose_stretch hm h (B.mulVec d + φ)
  have hp0 : 0 ≤ p := (norm_nonneg _).trans hp
  have h2 : ‖Bᵀ.mulVec (B.mulVec d + φ)‖ ≤ (τ + mu) * ‖d‖ + ζ * p := by
    have e : Bᵀ.mulVec (B.mulVec d + φ) = ((Bᵀ * B).mulVec d + mu • d + Bᵀ.mulVec φ) - mu • d := by
      rw [Matrix.mulVec_add, Matrix.mulVec_mulVec]; abel
    rw [e]
    refine (norm_sub_le _ _).trans ?_
    rw [norm_smul, Real.norm_eq_abs, abs_of_nonneg hmu]
    linarith
  set y := ‖B.mulVec d + φ‖ with hy
  have hy0 : 0 ≤ y := norm_nonneg _
  have hd : ‖d‖ ≤ m * (y + p) := by
    refine (h d).trans (mul_le_mul_of_nonneg_left ?_ hm)
    have e : B.mulVec d = (B.mulVec d + φ) - φ := by abel
    rw [e]
    refine (norm_sub_le _ _).trans ?_
    linarith
  have h3 := h1.trans (mul_le_mul_of_nonneg_left h2 (by positivity : 0 ≤ n * m))
  have h4 : (n * m) * ((τ + mu) * ‖d‖) ≤ η * (y + p) := by
    have k1 := mul_le_mul_of_nonneg_left hd (by positivity : 0 ≤ (n * m) * (τ + mu))
    have k2 := mul_le_mul_of_nonneg_right hη (by positivity : 0 ≤ y + p)
    nlinarith
  have h5 := mul_le_mul_of_nonneg_right hζ hp0
  have h6 : y ≤ η * (y + p) + η * p := by nlinarith
  have h7 := mul_le_mul_of_nonneg_right hη2 hy0
  nlinarith

theorem cond_ge_one (hn : 0 < n) {A : Matrix (Fin n) (Fin n) ℝ} {M a : ℝ} (hM : 0 < M) (h : ∀ x, ‖x‖ ≤ M * ‖A.mulVec x‖)
    (ha : ∀ x, ‖A.mulVec x‖ ≤ n * a * ‖x‖) : 1 ≤ M * (n * a) := by
  set x : Fin n → ℝ := fun _ => 1 with hx
  have hx1 : ‖x‖ = 1 := by
    have : Nonempty (Fin n) := ⟨⟨0, hn⟩⟩
    rw [hx, pi_norm_const, norm_one]
  have h1 := h x
  have h2 := mul_le_mul_of_nonneg_left (ha x) hM.le
  rw [hx1] at h1 h2
  linarith

theorem mulVec_norm_le {A : Matrix (Fin n) (Fin n) ℝ} {a : ℝ} (ha0 : 0 ≤ a) (ha : ∀ i j, |A i j| ≤ a) (x : Fin n → ℝ) : ‖A.mulVec x‖ ≤ n * a * ‖x‖ := by
  refine (pi_norm_le_iff_of_nonneg (by positivity)).mpr fun i => ?_
  have := mulVec_close (A := 0) (B := A) (e := a) (fun i j => by rw [Matrix.zero_apply, sub_zero]; exact ha i j) x i
  rw [Matrix.zero_mulVec, Pi.zero_apply, sub_zero] at this
  rw [Real.norm_eq_abs]
  refine this.trans ?_
  have := mul_le_mul_of_nonneg_left (sum_abs_le x) ha0
  linarith

theorem mulVec_norm_close {A B : Matrix (Fin n) (Fin n) ℝ} {e : ℝ} (he : 0 ≤ e) (h : ∀ i j, |B i j - A i j| ≤ e) (x : Fin n → ℝ) :
    ‖B.mulVec x - A.mulVec x‖ ≤ n * e * ‖x‖ := by
  refine (pi_norm_le_iff_of_nonneg (by positivity)).mpr fun i => ?_
  rw [Real.norm_eq_abs, Pi.sub_apply]
  refine (mulVec_close h x i).trans ?_
  have := mul_le_mul_of_nonneg_left (sum_abs_le x) he
  linarith

/-- What the exact step with such a direction achieves: `C` is the condition number. -/
theorem system_step (hn : 0 < n) {A B : Matrix (Fin n) (Fin n) ℝ} {e F φ d : Fin n → ℝ} {M a eA eF p θ κ c ch : ℝ} (hM : 0 < M) (heA : 0 ≤ eA)
    (ha0 : 0 ≤ a) (hA : ∀ x, ‖x‖ ≤ M * ‖A.mulVec x‖) (hAa : ∀ i j, |A i j| ≤ a) (hBA : ∀ i j, |B i j - A i j| ≤ eA)
    (hF : ‖F - A.mulVec e‖ ≤ ch * ‖e‖) (hch : M * ch ≤ θ) (hφ : ‖φ - F‖ ≤ eF) (hp : ‖φ‖ = p) (heF : M * (n * a) * eF ≤ θ * p)
    (hsl : M * (n * eA) ≤ θ) (hd : ‖B.mulVec d + φ‖ ≤ κ * p) (hκ : M * (n * a) * κ ≤ θ) (hκ0 : 0 ≤ κ) (heF0 : 0 ≤ eF) (hθ0 : 0 ≤ θ) (hθ : θ ≤ 1 / 40)
    (hc : ∀ x, c * ‖A.mulVec x‖ ≤ ‖A.mulVec x - (2 / 5 : ℝ) • Aᵀ.mulVec x‖) (hcθ : 40 * θ ≤ c) :
    ‖e + d‖ ≤ 1 / 8 * ‖e‖ ∧ ‖A.mulVec (e + d)‖ ≤ 5 * θ * p ∧ p ≤ 11 / 10 * (n * a * ‖e‖) ∧ ‖e‖ ≤ 11 / 10 * (M * p) ∧
      85 / 100 * c * p ≤ ‖φ + (2 / 5 : ℝ) • Bᵀ.mulVec d‖ := by
  have hAn := mulVec_norm_le ha0 hAa
  have hC := cond_ge_one hn hM hA hAn
  set C := M * (n * a) with hCd
  have hp0 : 0 ≤ p := by rw [← hp]; exact norm_nonneg _
  set X := ‖A.mulVec e‖ with hX
  have hX0 : 0 ≤ X := norm_nonneg _
  have he0 := norm_nonneg e
  have hXe : X ≤ n * a * ‖e‖ := hAn e
  have heX : ‖e‖ ≤ M * X := hA e
  have hch1 : ch * ‖e‖ ≤ θ * X := by
    by_cases hc0 : 0 ≤ ch
    · have h1 := mul_le_mul_of_nonneg_left heX hc0
      have h2 := mul_le_mul_of_nonneg_right hch hX0
      linarith
    · have h1 : ch * ‖e‖ ≤ 0 := mul_nonpos_of_nonpos_of_nonneg (not_le.mp hc0).le he0
      exact h1.trans (by positivity)
  have heF1 : eF ≤ θ * p := by
    have := mul_le_mul_of_nonneg_right hC heF0
    linarith
  have hκ1 : κ ≤ θ := by
    have := mul_le_mul_of_nonneg_right hC hκ0
    linarith
  have hθp : θ * p ≤ 1 / 40 * p := mul_le_mul_of_nonneg_right hθ hp0
  have hθX : θ * X ≤ 1 / 40 * X := mul_le_mul_of_nonneg_right hθ hX0
  have hd' : ‖B.mulVec d + φ‖ ≤ θ * p := hd.trans (mul_le_mul_of_nonneg_right hκ1 hp0)
  -- p and X
  have hpX : p ≤ 107 / 100 * X := by
    have h1 : φ = (φ - F) + ((F - A.mulVec e) + A.mulVec e) := by abel
    have h2 : p ≤ ‖φ - F‖ + (‖F - A.mulVec e‖ + X) := by
      rw [← hp]
      conv_lhs => rw [h1]
      exact (norm_add_le _ _).trans (add_le_add le_rfl (norm_add_le _ _))
    linarith
  have hXp : X ≤ 107 / 100 * p := by
    have h1 : A.mulVec e = φ - (φ - F) - (F - A.mulVec e) := by abel
    have h2 : X ≤ p + ‖φ - F‖ + ‖F - A.mulVec e‖ := by
      rw [hX, ← hp]
      conv_lhs => rw [h1]
      exact (norm_sub_le _ _).trans (add_le_add (norm_sub_le _ _) le_rfl)
    linarith
  -- the new distance
  have hBd : ∀ x, ‖B.mulVec x - A.mulVec x‖ ≤ n * eA * ‖x‖ := mulVec_norm_close heA hBA
  have hne0 : 0 ≤ n * eA := by positivity
  set e1 := e + d with he1
  have hdn : ‖d‖ ≤ ‖e1‖ + ‖e‖ := by
    have := norm_sub_le e1 e
    rwa [he1, add_sub_cancel_left] at this
  have hsplit : ‖A.mulVec e1‖ ≤ ch * ‖e‖ + eF + κ * p + n * eA * ‖d‖ := by
    have h1 : A.mulVec e1 = -(F - A.mulVec e) - (φ - F) + (B.mulVec d + φ) - (B.mulVec d - A.mulVec d) := by
      rw [he1, Matrix.mulVec_add]; abel
    rw [h1]
    refine (norm_sub_le _ _).trans ?_
    have h2 := norm_add_le (-(F - A.mulVec e) - (φ - F)) (B.mulVec d + φ)
    have h3 := norm_sub_le (-(F - A.mulVec e)) (φ - F)
    rw [norm_neg] at h3
    have h4 := hBd d
    linarith
  have hMp : M * p ≤ 107 / 100 * (C * ‖e‖) := by
    have h1 := mul_le_mul_of_nonneg_left hpX hM.le
    have h2 := mul_le_mul_of_nonneg_left hXe hM.le
    rw [hCd]; linarith
  have hCpos : 0 < C := by linarith
  have hne1 := norm_nonneg e1
  have hMeF : M * eF ≤ 107 / 100 * (θ * ‖e‖) := by
    have h1 : C * (M * eF) ≤ C * (107 / 100 * (θ * ‖e‖)) := by
      have h2 := mul_le_mul_of_nonneg_left heF hM.le
      have h3 := mul_le_mul_of_nonneg_left hMp hθ0
      linarith
    exact le_of_mul_le_mul_left h1 hCpos
  have hMκ : M * (κ * p) ≤ 107 / 100 * (θ * ‖e‖) := by
    have h1 := mul_le_mul_of_nonneg_left hMp hκ0
    have h2 := mul_le_mul_of_nonneg_right hκ he0
    linarith
  have hcontr : ‖e1‖ ≤ 5 * θ * ‖e‖ := by
    have h1 := (hA e1).trans (mul_le_mul_of_nonneg_left hsplit hM.le)
    have h2 := mul_le_mul_of_nonneg_right hch he0
    have h3 : M * (n * eA * ‖d‖) ≤ θ * (‖e1‖ + ‖e‖) :=
      calc M * (n * eA * ‖d‖) = M * (n * eA) * ‖d‖ := by ring
        _ ≤ θ * ‖d‖ := mul_le_mul_of_nonneg_right hsl (norm_nonneg _)
        _ ≤ _ := mul_le_mul_of_nonneg_left hdn hθ0
    have h4 := mul_le_mul_of_nonneg_right hθ hne1
    have h6 : M * (ch * ‖e‖ + eF + κ * p + n * eA * ‖d‖) = M * ch * ‖e‖ + M * eF + M * (κ * p) + M * (n * eA * ‖d‖) := by ring
    rw [h6] at h1
    linarith [mul_nonneg hθ0 he0]
  have hc8 : ‖e1‖ ≤ 1 / 8 * ‖e‖ := hcontr.trans (mul_le_mul_of_nonneg_right (by linarith) he0)
  have hdX : n * eA * ‖d‖ ≤ 121 / 100 * (θ * p) := by
    have h1 : ‖d‖ ≤ 9 / 8 * (M * X) := by linarith
    calc n * eA * ‖d‖ ≤ n * eA * (9 / 8 * (M * X)) := mul_le_mul_of_nonneg_left h1 hne0
      _ = 9 / 8 * (M * (n * eA)) * X := by ring
      _ ≤ 9 / 8 * θ * X := by
        apply mul_le_mul_of_nonneg_right _ hX0
        linarith
      _ ≤ 9 / 8 * θ * (107 / 100 * p) := mul_le_mul_of_nonneg_left hXp (by positivity)
      _ ≤ _ := by linarith [mul_nonneg hθ0 hp0]
  have hθXp : θ * X ≤ 107 / 100 * (θ * p) := by linarith [mul_le_mul_of_nonneg_left hXp hθ0]
  refine ⟨hc8, ?_, ?_, ?_, ?_⟩
  · have := mul_le_mul_of_nonneg_right hκ1 hp0
    linarith [mul_nonneg hθ0 hp0]
  · linarith
  · have := mul_le_mul_of_nonneg_left hXp hM.le
    linarith [mul_nonneg hM.le hp0]
  · have hBdT : ‖Bᵀ.mulVec d - Aᵀ.mulVec d‖ ≤ n * eA * ‖d‖ := mulVec_norm_close heA (fun i j => hBA j i) d
    have h1 : A.mulVec d - (2 / 5 : ℝ) • Aᵀ.mulVec d =
        (B.mulVec d + φ) - (B.mulVec d - A.mulVec d) + (2 / 5 : ℝ) • (Bᵀ.mulVec d - Aᵀ.mulVec d) - (φ + (2 / 5 : ℝ) • Bᵀ.mulVec d) := by
      rw [smul_sub]; abel
    have h2 := hc d
    rw [h1] at h2
    have h3 := norm_sub_le ((B.mulVec d + φ) - (B.mulVec d - A.mulVec d) + (2 / 5 : ℝ) • (Bᵀ.mulVec d - Aᵀ.mulVec d)) (φ + (2 / 5 : ℝ) • Bᵀ.mulVec d)
    have h4 := norm_add_le ((B.mulVec d + φ) - (B.mulVec d - A.mulVec d)) ((2 / 5 : ℝ) • (Bᵀ.mulVec d - Aᵀ.mulVec d))
    have h5 := norm_sub_le (B.mulVec d + φ) (B.mulVec d - A.mulVec d)
    rw [norm_smul, Real.norm_eq_abs, abs_of_pos (by norm_num : (0 : ℝ) < 2 / 5)] at h4
    have h6 := hBd d
    have h7 : p ≤ ‖A.mulVec d‖ + θ * p + n * eA * ‖d‖ := by
      have k1 : φ = (B.mulVec d + φ) - (B.mulVec d - A.mulVec d) - A.mulVec d := by abel
      rw [← hp]
      conv_lhs => rw [k1]
      have k2 := norm_sub_le ((B.mulVec d + φ) - (B.mulVec d - A.mulVec d)) (A.mulVec d)
      rw [hp]
      linarith
    have hc0 : 0 ≤ c := by linarith
    have h8 := mul_le_mul_of_nonneg_left (by linarith : 94 / 100 * p ≤ ‖A.mulVec d‖) hc0
    have h9 := mul_le_mul_of_nonneg_right hcθ hp0
    linarith [mul_nonneg hc0 hp0]

end Double
end Tom
