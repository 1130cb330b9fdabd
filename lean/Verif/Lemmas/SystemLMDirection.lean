import Verif.Spec.SystemLM
import Verif.Lemmas.SystemLMNumbers
/-
One step of the Levenberg-Marquardt method with doubles, for a system.
-/
set_option linter.unusedSectionVars false
namespace Tom
namespace Double
open Finset Matrix
variable {L : Libm} {n : ℕ}

theorem norm_attained (hn : 0 < n) (x : Fin n → ℝ) : ∃ i, ‖x‖ = |x i| := by
  have : Nonempty (Fin n) := ⟨⟨0, hn⟩⟩
  obtain ⟨i, hi⟩ := Finite.exists_max fun i => |x i|
  exact ⟨i, le_antisymm ((pi_norm_le_iff_of_nonneg (abs_nonneg _)).mpr hi) (norm_le_pi_norm x i)⟩

theorem _root_.Tom.RoundedRoom.smaller {ε a β β' : ℚ} (h : RoundedRoom n ε a β) (h1 : β' ≤ β) (h2 : 1 / 2 ^ 900 ≤ β') (h3 : n * a * (1 / 2 ^ 1000) ≤ β') :
    RoundedRoom n ε a β' := by
  have hg : (0 : ℚ) ≤ growth ^ n := by norm_num [growth]
  have hε := h.eps_pos
  have ha : 0 ≤ a := le_trans (by positivity) h.a_small
  refine ⟨h.eps_pos, h.eps_le, h.a_small, h2, h3, h.a_big, (mul_le_mul_of_nonneg_left h1 hg).trans h.β_big, le_trans ?_ h.solution⟩
  apply mul_le_mul_of_nonneg_right _ (by positivity)
  apply div_le_div_of_nonneg_right _ hε.le
  exact mul_le_mul_of_nonneg_left h1 (by positivity)

/-- the damped normal matrix, over the reals -/
theorem normalMat_real (B : Matrix (Fin n) (Fin n) ℚ) (x : Fin n → ℝ) :
    ((normalMat B).map (fun q : ℚ => (q : ℝ))).mulVec x =
      ((B.map (fun q : ℚ => (q : ℝ)))ᵀ * B.map (fun q : ℚ => (q : ℝ))).mulVec x + ((rnd (1 / 10 ^ 5) : ℚ) : ℝ) • x := by
  have e : (normalMat B).map (fun q : ℚ => (q : ℝ)) =
      ((B.map (fun q : ℚ => (q : ℝ)))ᵀ * B.map (fun q : ℚ => (q : ℝ))) + ((rnd (1 / 10 ^ 5) : ℚ) : ℝ) • (1 : Matrix (Fin n) (Fin n) ℝ) := by
    ext i j
    simp only [normalMat, Matrix.map_apply, Matrix.add_apply, Matrix.mul_apply, Matrix.transpose_apply, Matrix.smul_apply, Matrix.one_apply, smul_eq_mul]
    push_cast
    congr 1
    split <;> simp
  rw [e, Matrix.add_mulVec, Matrix.smul_mulVec, Matrix.one_mulVec]

/-- the direction, as computed, solves the Newton equations approximately -/
theorem system_direction (hn : 0 < n) (cfg : Config (Double L)) {ε a p : ℚ} (he : cfg.epsilon.Is ε) {J : SymMat (Double L)} {t : VarsTable (Double L)}
    (B : Matrix (Fin n) (Fin n) (Double L)) (phi : Fin n → Double L) (hJ : evalMat cfg J t = .ok (ofEntries B)) (ha : 1 ≤ a) (hp : 1 / 2 ^ 200 ≤ p)
    (hB : ∀ i j, (B i j).Finite ∧ |(B i j).rat| ≤ a) (hphi : ∀ i, (phi i).Finite ∧ |(phi i).rat| ≤ p)
    (hbig : n * a ^ 2 ≤ 2 ^ 300) (hbig2 : n * (a * p) ≤ 2 ^ 300) (hroom : RoundedRoom n ε (2 * n * a ^ 2) (2 * n * a * p)) {m η : ℝ} (hm : 0 ≤ m)
    (hst : ∀ x, ‖x‖ ≤ m * ‖((ratMatrix B).map (fun q : ℚ => (q : ℝ))).mulVec x‖) (hcond : 1 ≤ n * m * a)
    (hη : n * m ^ 2 * (n * ε + 3 * n ^ 2 * a ^ 2 * solveError n + 1 / 50000) ≤ η) (hη2 : η ≤ 1 / 40) :
    ∃ d : Fin n → Double L, lmDirection cfg J (vec phi) (lit 1 (-5)) t = .ok (vec d) ∧ (∀ i, (d i).Finite) ∧
      ‖((ratMatrix B).map (fun q : ℚ => (q : ℝ))).mulVec (realVec d) + realVec phi‖ ≤ 4 * η * p ∧ n * m * a * solveError n ≤ η / 3 ∧ gam (n + 1) ≤ 1 / 100 := by
  have hn1 : (1 : ℝ) ≤ n := by exact_mod_cast hn
  have haR : (1 : ℝ) ≤ a := by exact_mod_cast ha
  set σ := solveError n with hσ
  have hgs := gam_solve n
  have hg0 := gam_nonneg n
  have hσ0 : (0 : ℚ) ≤ σ := by linarith
  have hσR : (0 : ℝ) ≤ σ := by exact_mod_cast hσ0
  have hε0 : (0 : ℝ) < ε := by exact_mod_cast hroom.eps_pos
  have hp0 : (0 : ℝ) ≤ p := by exact_mod_cast le_trans (by positivity : (0 : ℚ) ≤ 1 / 2 ^ 200) hp
  -- the rounding errors are small
  have hmain : 3 * (n * (n * m * a) ^ 2 * σ) ≤ η := by
    have h1 : 0 ≤ n * m ^ 2 * (n * ε + 1 / 50000) := by positivity
    have h2 : n * m ^ 2 * (n * ε + 3 * n ^ 2 * a ^ 2 * σ + 1 / 50000) = 3 * (n * (n * m * a) ^ 2 * σ) + n * m ^ 2 * (n * ε + 1 / 50000) := by ring
    linarith
  have hsq : n * m * a ≤ (n * m * a) ^ 2 := by nlinarith
  have hsm : n * m * a * σ ≤ η / 3 := by
    have h1 := mul_le_mul_of_nonneg_right hsq hσR
    have h2 : (n * m * a) ^ 2 * σ ≤ n * ((n * m * a) ^ 2 * σ) := le_mul_of_one_le_left (by positivity) hn1
    linarith
  have hσs : (σ : ℝ) ≤ 1 / 120 := by
    have := mul_le_mul_of_nonneg_right hcond hσR
    linarith
  have hσs' : σ ≤ 1 / 120 := by
    have : ((σ : ℚ) : ℝ) ≤ ((1 / 120 : ℚ) : ℝ) := by push_cast; exact hσs
    exact_mod_cast this
  have hgu := gam_ge hn
  have hg1 : 2 * gam (n + 1) ≤ σ := by
    rw [gam_succ]
    have : gam n * (1 / 2 ^ 53) ≤ gam n * 1 := mul_le_mul_of_nonneg_left (by norm_num) hg0
    linarith
  obtain ⟨G, h, e1, e2, e3⟩ := normal_numbers hn cfg B phi hJ ha hp hB hphi (by linarith) hbig hbig2
  set Br := (ratMatrix B).map (fun q : ℚ => (q : ℝ)) with hBr
  set Nr := (normalMat (ratMatrix B)).map (fun q : ℚ => (q : ℝ)) with hNr
  set Gr := (ratMatrix G).map (fun q : ℚ => (q : ℝ)) with hGr
  set mu : ℝ := ((rnd (1 / 10 ^ 5) : ℚ) : ℝ) with hmu
  obtain ⟨mu0, mu1⟩ := mu_small
  have mu0R : 0 ≤ mu := by rw [hmu]; exact_mod_cast mu0
  have mu1R : mu ≤ 1 / 50000 := by
    have := (Rat.cast_le (K := ℝ)).mpr mu1
    rw [hmu]; refine this.trans (le_of_eq ?_); push_cast; rfl
  set τ : ℝ := n * ε + 3 * n ^ 2 * a ^ 2 * σ with hτ
  have hτ0 : 0 ≤ τ := by rw [hτ]; positivity
  have hητ : n * m ^ 2 * (τ + mu) ≤ η := by
    refine le_trans (mul_le_mul_of_nonneg_left ?_ (by positivity)) hη
    rw [hτ]; linarith
  have hGN : ∀ i j, |Gr i j - Nr i j| ≤ σ * (n * a ^ 2) := by
    intro i j
    have k1 := (e2 i j).2.2
    have k2 : gam (n + 1) * (2 * n * a ^ 2) ≤ σ * (n * a ^ 2) := by
      have := mul_le_mul_of_nonneg_right hg1 (by positivity : (0 : ℚ) ≤ n * a ^ 2)
      linarith
    have k3 := (Rat.cast_le (K := ℝ)).mpr (k1.trans k2)
    push_cast at k3
    exact k3
  have hGNv : ∀ (x : Fin n → ℝ) i, |Gr.mulVec x i - Nr.mulVec x i| ≤ σ * (n * a ^ 2) * ∑ j, |x j| := fun x i => mulVec_close hGN x i
  have hstr : Stretches (ε + 4 / 2 ^ 53 * growth ^ n * (2 * n * a ^ 2)) (ratMatrix G) := by
    intro x hx
    by_contra hcon
    push Not at hcon
    set xr : Fin n → ℝ := fun j => (x j : ℝ) with hxr
    have hxr0 : 0 < ‖xr‖ := by
      rw [norm_pos_iff]
      intro h0
      apply hx
      funext j
      have := congrFun h0 j
      simpa [hxr] using this
    have hS : 0 ≤ ∑ j, |xr j| := sum_nonneg fun _ _ => abs_nonneg _
    have hbound : ∀ i, |Nr.mulVec xr i| ≤ (ε + 3 * n * a ^ 2 * σ) * ∑ j, |xr j| := by
      intro i
      have hq : (ε + 4 / 2 ^ 53 * growth ^ n * (2 * n * a ^ 2)) * ∑ j, |x j| ≤ (ε + σ * (2 * n * a ^ 2)) * ∑ j, |x j| := by
        apply mul_le_mul_of_nonneg_right _ (sum_nonneg fun _ _ => abs_nonneg _)
        have := mul_le_mul_of_nonneg_right (solveError_ge hn) (by positivity : (0 : ℚ) ≤ 2 * n * a ^ 2)
        linarith
      have k1 : ((|(ratMatrix G).mulVec x i| : ℚ) : ℝ) ≤ (((ε + σ * (2 * n * a ^ 2)) * ∑ j, |x j| : ℚ) : ℝ) := by
        exact_mod_cast (hcon i).trans hq
      rw [Rat.cast_abs, mulVec_cast, ← hGr, Rat.cast_mul, Rat.cast_sum, Rat.cast_add] at k1
      simp only [Rat.cast_abs] at k1
      push_cast at k1
      change |Gr.mulVec xr i| ≤ (ε + σ * (2 * n * a ^ 2)) * ∑ j, |xr j| at k1
      have k2 := hGNv xr i
      have k3 := abs_sub_abs_le_abs_sub (Nr.mulVec xr i) (Gr.mulVec xr i)
      rw [abs_sub_comm] at k3
      have k6 : ((ε : ℝ) + 3 * n * a ^ 2 * σ) * ∑ j, |xr j| = (ε + σ * (2 * n * a ^ 2)) * ∑ j, |xr j| + σ * (n * a ^ 2) * ∑ j, |xr j| := by ring
      rw [k6]
      linarith
    have hk0 : 0 ≤ (ε : ℝ) + 3 * n * a ^ 2 * σ := by positivity
    have hnorm : ‖Nr.mulVec xr‖ ≤ τ * ‖xr‖ := by
      refine (pi_norm_le_iff_of_nonneg (by positivity)).mpr fun i => (hbound i).trans ((mul_le_mul_of_nonneg_left (sum_abs_le xr) hk0).trans (le_of_eq ?_))
      rw [hτ]; ring
    rw [hNr, normalMat_real] at hnorm
    have := normal_stretch hm mu0R hst hητ xr hnorm
    nlinarith
  obtain ⟨d, g1, g2, g3⟩ := solve_bounded hn cfg he hroom G h (fun i j => ⟨(e2 i j).1, (e2 i j).2.1⟩) (fun i => ⟨(e3 i).1, (e3 i).2.1⟩) hstr
  refine ⟨d, by rw [e1, g1], fun i => (g2 i).1, ?_, hsm, by linarith⟩
  have hSd : 0 ≤ ∑ j, |realVec d j| := sum_nonneg fun _ _ => abs_nonneg _
  refine normal_direction (τ := τ) (ζ := 3 * n * a * σ) hm mu0R hτ0 hst hητ ?_ (by linarith) ?_ ?_
  · have h1 : n * m * (3 * n * a * σ) = 3 * n * (n * m * a * σ) := by ring
    have h2 := mul_le_mul_of_nonneg_right hsq hσR
    have h3 := mul_le_mul_of_nonneg_left h2 (by positivity : (0 : ℝ) ≤ 3 * n)
    linarith
  · refine (pi_norm_le_iff_of_nonneg hp0).mpr fun i => ?_
    have := (Rat.cast_le (K := ℝ)).mpr (hphi i).2
    rw [Rat.cast_abs] at this
    exact this
  · rw [← normalMat_real, ← hNr]
    have hk0 : 0 ≤ (ε : ℝ) + 3 * n * a ^ 2 * σ := by positivity
    refine (pi_norm_le_iff_of_nonneg (by positivity)).mpr fun i => ?_
    have k1 := (Rat.cast_le (K := ℝ)).mpr (g3 i)
    rw [Rat.cast_abs, Rat.cast_sub, mulVec_cast, ← hGr] at k1
    change |Gr.mulVec (realVec d) i - ((h i).rat : ℝ)| ≤ _ at k1
    have k4 : ((residualBound ε (2 * n * a ^ 2) (2 * n * a * p) d : ℚ) : ℝ) = (ε + σ * (2 * n * a ^ 2)) * ∑ j, |realVec d j| + σ * (2 * n * a * p) := by
      unfold residualBound
      rw [show 6 * ((1 + 1 / 2 ^ 53) ^ n - 1) * growth ^ n = σ from rfl]
      push_cast
      unfold realVec
      ring
    rw [k4] at k1
    have k2 := hGNv (realVec d) i
    have k3 : |((h i).rat : ℝ) + Brᵀ.mulVec (realVec phi) i| ≤ σ * (n * a * p) := by
      have j1 := (e3 i).2.2
      have j2 : gam n * (2 * n * a * p) ≤ σ * (n * a * p) := by
        have hpQ : (0 : ℚ) ≤ p := le_trans (by positivity) hp
        have := mul_le_mul_of_nonneg_right (by linarith : gam n * 2 ≤ σ) (by positivity : (0 : ℚ) ≤ n * a * p)
        linarith
      have j3 := (Rat.cast_le (K := ℝ)).mpr (j1.trans j2)
      have j4 : Brᵀ.mulVec (realVec phi) i = ((∑ k, (B k i).rat * (phi k).rat : ℚ) : ℝ) := by
        simp [Matrix.mulVec, dotProduct, hBr, realVec, ratMatrix]
      rw [j4]
      push_cast at j3 ⊢
      exact j3
    have k5 : (Nr.mulVec (realVec d) + Brᵀ.mulVec (realVec phi)) i = (Gr.mulVec (realVec d) i - ((h i).rat : ℝ)) -
      (Gr.mulVec (realVec d) i - Nr.mulVec (realVec d) i) + (((h i).rat : ℝ) + Brᵀ.mulVec (realVec phi) i) := by
      rw [Pi.add_apply]; ring
    rw [Real.norm_eq_abs, k5]
    have k6 := abs_add_le ((Gr.mulVec (realVec d) i - ((h i).rat : ℝ)) - (Gr.mulVec (realVec d) i - Nr.mulVec (realVec d) i)) (((h i).rat : ℝ) + Brᵀ.mulVec (realVec phi) i)
    have k7 := abs_sub (Gr.mulVec (realVec d) i - ((h i).rat : ℝ)) (Gr.mulVec (realVec d) i - Nr.mulVec (realVec d) i)
    have k8 := mul_le_mul_of_nonneg_left (sum_abs_le (realVec d)) hk0
    have k9 : ((ε : ℝ) + 3 * n * a ^ 2 * σ) * (n * ‖realVec d‖) = τ * ‖realVec d‖ := by rw [hτ]; ring
    rw [k9] at k8
    have k10 : ((ε : ℝ) + 3 * n * a ^ 2 * σ) * ∑ j, |realVec d j| = (ε + σ * (2 * n * a ^ 2)) * ∑ j, |realVec d j| + σ * (n * a ^ 2) * ∑ j, |realVec d j| := by ring
    linarith

end Double
end Tom
