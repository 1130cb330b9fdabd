import Verif.Lemmas.RoundedNewton
/-
Newton's method with IEEE doubles near a well-conditioned root (C105, C128).
-/
set_option linter.unusedSectionVars false
namespace Tom
namespace Double
variable {L : Libm}
open Finset

theorem sum_abs_le {n : ℕ} (x : Fin n → ℝ) : ∑ j, |x j| ≤ n * ‖x‖ := by
  calc ∑ j, |x j| ≤ ∑ _j : Fin n, ‖x‖ := sum_le_sum fun j _ => norm_le_pi_norm x j
    _ = n * ‖x‖ := by simp

theorem solveError_ge {n : ℕ} (hn : 0 < n) : 4 / 2 ^ 53 * growth ^ n ≤ solveError n := by
  unfold solveError
  have hg : 0 ≤ growth ^ n := by norm_num [growth]
  have h1 : (1 : ℚ) + 1 / 2 ^ 53 ≤ (1 + 1 / 2 ^ 53) ^ n := le_self_pow₀ (by norm_num) (by omega)
  apply mul_le_mul_of_nonneg_right _ hg
  have : (4 : ℚ) / 2 ^ 53 ≤ 6 * (1 / 2 ^ 53) := by norm_num
  linarith

theorem mulVec_close {n : ℕ} {A B : Matrix (Fin n) (Fin n) ℝ} {e : ℝ} (h : ∀ i j, |B i j - A i j| ≤ e) (x : Fin n → ℝ) (i : Fin n) :
    |B.mulVec x i - A.mulVec x i| ≤ e * ∑ j, |x j| := by
  have : B.mulVec x i - A.mulVec x i = ∑ j, (B i j - A i j) * x j := by
    simp only [Matrix.mulVec, dotProduct, sub_mul, sum_sub_distrib]
  rw [this, mul_sum]
  refine (abs_sum_le_sum_abs _ _).trans (sum_le_sum fun j _ => ?_)
  rw [abs_mul]
  exact mul_le_mul_of_nonneg_right (h i j) (abs_nonneg _)

theorem mulVec_cast {n : ℕ} (B : Matrix (Fin n) (Fin n) ℚ) (x : Fin n → ℚ) (i : Fin n) :
    ((B.mulVec x i : ℚ) : ℝ) = (B.map (fun q : ℚ => (q : ℝ))).mulVec (fun j => (x j : ℝ)) i := by
  simp [Matrix.mulVec, dotProduct]

section
variable {vars : List Str} {f : Matrix (Fin vars.length) (Fin 1) (Expr (Double L))} {g : Matrix (Fin vars.length) (Fin 1) (Expr (XNum ℝ))} {z : Fin vars.length → ℝ}
  {r M change a eF eA : ℝ}

/-- Newton's method, the linear equations of one step: at a point `w` of the region, the correction `d` that `SolveLinear` returns for the computed
Jacobian and the computed values solves the exact Newton equations `A d = -F`, with the exact values `F` and the exact Jacobian `A`, up to an
explicit bound. -/
theorem computed_correction (hR : ComputedRegion vars f g z r M change a eF eA) (hn : 0 < vars.length)
    (cfg : Config (Double L)) (hs : cfg.throwOnInvalidValue = true) {ε a' β : ℚ} (he : cfg.epsilon.Is ε)
    (hroom : RoundedRoom vars.length ε a' β) (hM : 0 < M) (ha : a + eA ≤ a') (hβ : vars.length * a * r + eF ≤ β)
    (hc : M * (vars.length * (ε + solveError vars.length * a' + eA)) < 1)
    {J : SymMat (Double L)} (hJ : (symOf f).jacobian cfg vars = .ok J)
    {t : VarsTable (Double L)} {w : Fin vars.length → Double L} (ht : DoubleTable t vars w) (hw : ∀ j, (w j).Finite)
    (hwz : ‖realVec w - z‖ ≤ r) :
    ∃ (F : Fin vars.length → ℝ) (A : Matrix (Fin vars.length) (Fin vars.length) ℝ) (d : Fin vars.length → Double L),
      IsValue g vars (realVec w) F ∧ IsJacobian g vars (realVec w) A ∧
      NewtonCorrection cfg (symOf f) J t (vec d) ∧ (∀ j, (d j).Finite ∧ |(d j).rat| ≤ 2 ^ 998) ∧
      ∀ i, |A.mulVec (realVec d) i + F i| ≤
        (ε + solveError vars.length * a' + eA) * ∑ j, |realVec d j| + (solveError vars.length * β + eF) := by
  obtain ⟨phi, F, h1, h2, h3⟩ := hR.value cfg ht hw hwz
  obtain ⟨B, A, h4, h5, h6⟩ := hR.deriv cfg hs hJ ht hw hwz
  have hr0 : 0 ≤ r := (norm_nonneg _).trans hwz
  have i0 : Fin vars.length := ⟨0, hn⟩
  have ha0 : 0 ≤ a := (abs_nonneg _).trans (hR.bounded _ hwz A h5 i0 i0)
  have heF : 0 ≤ eF := (abs_nonneg _).trans (h3 i0).2
  have heA : 0 ≤ eA := (abs_nonneg _).trans (h6 i0 i0).2
  have hFb : ∀ i, |F i| ≤ vars.length * a * r := by
    intro i
    have := mean_value (DoubleTable.nodup ht) ha0 hR.smooth 0 (fun w' hw' A' hA' i j => by
      rw [Matrix.zero_apply, sub_zero]; exact hR.bounded w' hw' A' hA' i j) hwz (by rw [sub_self, norm_zero]; exact hr0) h2 hR.root
    rw [Matrix.zero_mulVec, sub_zero, sub_zero] at this
    have h7 := (norm_le_pi_norm F i).trans this
    exact h7.trans (mul_le_mul_of_nonneg_left hwz (by positivity))
  have hBe : ∀ i j, (B i j).Finite ∧ |(B i j).rat| ≤ a' := by
    intro i j
    refine ⟨(h6 i j).1, ?_⟩
    have h7 : |((B i j).rat : ℝ)| ≤ (a' : ℝ) := by
      have := abs_sub_abs_le_abs_sub ((B i j).rat : ℝ) (A i j)
      have h8 := hR.bounded _ hwz A h5 i j
      linarith [(h6 i j).2]
    exact_mod_cast h7
  have hneg : ∀ i, (Arith.neg (phi i) : Double L).Is (-(phi i).rat) := fun i => neg_is ⟨(h3 i).1, rfl⟩
  have hbe : ∀ i, (Arith.neg (phi i) : Double L).Finite ∧ |(Arith.neg (phi i) : Double L).rat| ≤ β := by
    intro i
    refine ⟨(hneg i).1, ?_⟩
    have h7 : |((phi i).rat : ℝ)| ≤ (β : ℝ) := by
      have := abs_sub_abs_le_abs_sub ((phi i).rat : ℝ) (F i)
      linarith [(h3 i).2, hFb i]
    have e1 : (Arith.neg (phi i) : Double L).rat = -(phi i).rat := (hneg i).2
    rw [e1, abs_neg]
    exact_mod_cast h7
  set Br : Matrix (Fin vars.length) (Fin vars.length) ℝ := (ratMatrix B).map (fun q : ℚ => (q : ℝ)) with hBr
  have hBA : ∀ i j, |Br i j - A i j| ≤ eA := fun i j => (h6 i j).2
  have ha'0 : (0 : ℚ) ≤ a' := le_trans (by positivity) hroom.a_small
  have hse : ((4 / 2 ^ 53 * growth ^ vars.length * a' : ℚ) : ℝ) ≤ solveError vars.length * a' := by
    exact_mod_cast mul_le_mul_of_nonneg_right (solveError_ge hn) ha'0
  have hst : Stretches (ε + 4 / 2 ^ 53 * growth ^ vars.length * a') (ratMatrix B) := by
    intro x hx
    by_contra hcon
    push Not at hcon
    set xr : Fin vars.length → ℝ := fun j => (x j : ℝ) with hxr
    have hxr0 : 0 < ‖xr‖ := by
      rw [norm_pos_iff]
      intro h0
      apply hx
      funext j
      have := congrFun h0 j
      simpa [hxr] using this
    have hS : 0 ≤ ∑ j, |xr j| := sum_nonneg fun _ _ => abs_nonneg _
    have hbound : ∀ i, |A.mulVec xr i| ≤ (ε + solveError vars.length * a' + eA) * ∑ j, |xr j| := by
      intro i
      have k1 : ((|(ratMatrix B).mulVec x i| : ℚ) : ℝ) ≤ (((ε + 4 / 2 ^ 53 * growth ^ vars.length * a') * ∑ j, |x j| : ℚ) : ℝ) := by
        exact_mod_cast hcon i
      rw [Rat.cast_abs, mulVec_cast, ← hBr, Rat.cast_mul, Rat.cast_sum, Rat.cast_add] at k1
      simp only [Rat.cast_abs] at k1
      have k2 := mulVec_close hBA xr i
      have k3 := abs_sub_abs_le_abs_sub (A.mulVec xr i) (Br.mulVec xr i)
      rw [abs_sub_comm] at k3
      have k4 := mul_le_mul_of_nonneg_right hse hS
      have k5 : ((ε : ℝ) + ((4 / 2 ^ 53 * growth ^ vars.length * a' : ℚ) : ℝ)) * ∑ j, |xr j| =
        ε * ∑ j, |xr j| + ((4 / 2 ^ 53 * growth ^ vars.length * a' : ℚ) : ℝ) * ∑ j, |xr j| := by ring
      have k6 : ((ε : ℝ) + solveError vars.length * a' + eA) * ∑ j, |xr j| =
        ε * ∑ j, |xr j| + solveError vars.length * a' * ∑ j, |xr j| + eA * ∑ j, |xr j| := by ring
      rw [k6]
      rw [k5] at k1
      linarith
    have hk0 : 0 ≤ (ε : ℝ) + solveError vars.length * a' + eA := by
      have e1 : (0 : ℝ) < ε := by exact_mod_cast hroom.eps_pos
      have e2 : (0 : ℝ) ≤ solveError vars.length * a' := le_trans (by
        have : (0 : ℚ) ≤ 4 / 2 ^ 53 * growth ^ vars.length * a' := by
          have : (0 : ℚ) ≤ growth ^ vars.length := by norm_num [growth]
          positivity
        exact_mod_cast this) hse
      linarith
    have hnorm : ‖A.mulVec xr‖ ≤ (ε + solveError vars.length * a' + eA) * (vars.length * ‖xr‖) :=
      (pi_norm_le_iff_of_nonneg (by positivity)).mpr fun i => (hbound i).trans (mul_le_mul_of_nonneg_left (sum_abs_le xr) hk0)
    have h7 := hR.stretch _ hwz A h5 xr
    have h8 := h7.trans (mul_le_mul_of_nonneg_left hnorm hM.le)
    have h9 : M * ((ε + solveError vars.length * a' + eA) * (vars.length * ‖xr‖)) =
      M * (vars.length * (ε + solveError vars.length * a' + eA)) * ‖xr‖ := by ring
    rw [h9] at h8
    have h10 := mul_lt_mul_of_pos_right hc hxr0
    linarith
  obtain ⟨d, g1, g2, g3⟩ := solve_bounded hn cfg he hroom B (fun i => Arith.neg (phi i)) hBe hbe hst
  refine ⟨F, A, d, h2, h5, ⟨vec phi, ofEntries B, h1, h4, by rw [neg_vec]; exact g1⟩, g2, fun i => ?_⟩
  have e1 : (Arith.neg (phi i) : Double L).rat = -(phi i).rat := (hneg i).2
  have k1 := g3 i
  rw [e1] at k1
  have k2 : ((|(ratMatrix B).mulVec (fun j => (d j).rat) i - -(phi i).rat| : ℚ) : ℝ) ≤ ((residualBound ε a' β d : ℚ) : ℝ) := by
    exact_mod_cast k1
  rw [Rat.cast_abs, Rat.cast_sub, mulVec_cast, ← hBr, Rat.cast_neg, sub_neg_eq_add] at k2
  change |Br.mulVec (realVec d) i + ((phi i).rat : ℝ)| ≤ _ at k2
  have k3 := mulVec_close hBA (realVec d) i
  have k4 : ((residualBound ε a' β d : ℚ) : ℝ) = (ε + solveError vars.length * a') * ∑ j, |realVec d j| + solveError vars.length * β := by
    unfold residualBound
    rw [show 6 * ((1 + 1 / 2 ^ 53) ^ vars.length - 1) * growth ^ vars.length = solveError vars.length from rfl]
    push_cast
    unfold realVec
    ring
  rw [k4] at k2
  have k5 : A.mulVec (realVec d) i + F i = (Br.mulVec (realVec d) i + ((phi i).rat : ℝ)) - (Br.mulVec (realVec d) i - A.mulVec (realVec d) i)
    - (((phi i).rat : ℝ) - F i) := by ring
  rw [k5]
  have k6 := abs_sub (Br.mulVec (realVec d) i + ((phi i).rat : ℝ) - (Br.mulVec (realVec d) i - A.mulVec (realVec d) i)) (((phi i).rat : ℝ) - F i)
  have k7 := abs_sub (Br.mulVec (realVec d) i + ((phi i).rat : ℝ)) (Br.mulVec (realVec d) i - A.mulVec (realVec d) i)
  have k8 := (h3 i).2
  have k9 : ((ε : ℝ) + solveError vars.length * a' + eA) * ∑ j, |realVec d j| + (solveError vars.length * β + eF) =
    ((ε + solveError vars.length * a') * ∑ j, |realVec d j| + solveError vars.length * β) + eA * ∑ j, |realVec d j| + eF := by ring
  rw [k9]
  linarith

/-- Newton's method, one step: a Newton step with doubles from a point of the region at least halves the distance to the root, up to a noise floor. -/
theorem computed_step (hR : ComputedRegion vars f g z r M change a eF eA) (hn : 0 < vars.length)
    (cfg : Config (Double L)) (hs : cfg.throwOnInvalidValue = true) {ε a' β : ℚ} (he : cfg.epsilon.Is ε)
    (hroom : RoundedRoom vars.length ε a' β) (hM : 0 < M) (ha : a + eA ≤ a') (hβ : vars.length * a * r + eF ≤ β)
    (hc : M * (vars.length * (ε + solveError vars.length * a' + eA)) ≤ 1 / 12) (hch : M * (vars.length * change) ≤ 1 / 4)
    (hzr : ‖z‖ + r ≤ 2 ^ 1000)
    {J : SymMat (Double L)} (hJ : (symOf f).jacobian cfg vars = .ok J)
    {t : VarsTable (Double L)} {w : Fin vars.length → Double L} (ht : DoubleTable t vars w) (hw : ∀ j, (w j).Finite)
    (hwz : ‖realVec w - z‖ ≤ r) :
    ∃ t' w', NewtonStep cfg (symOf f) J t t' ∧ DoubleTable t' vars w' ∧ (∀ j, (w' j).Finite) ∧
      ‖realVec w' - z‖ ≤ 1 / 2 * ‖realVec w - z‖ + newtonNoise z M eF β := by
  obtain ⟨F, A, d, h1, h2, h3, h4, h5⟩ := computed_correction hR hn cfg hs he hroom hM ha hβ (by linarith) hJ ht hw hwz
  have hr0 : 0 ≤ r := (norm_nonneg _).trans hwz
  have i0 : Fin vars.length := ⟨0, hn⟩
  have hch0 : 0 ≤ change := (abs_nonneg _).trans (hR.steady _ _ hwz hwz A A h2 h2 i0 i0)
  obtain ⟨t', k1, k2⟩ := DoubleTable.setValues ht (fun j => Arith.add (w j) (d j))
  have hbnd : ∀ j, |(w j).rat + (d j).rat| < 2 ^ 1023 := by
    intro j
    have e1 : |realVec w j| ≤ 2 ^ 1000 := by
      have e2 := norm_le_pi_norm (realVec w) j
      have e3 : ‖realVec w‖ ≤ ‖realVec w - z‖ + ‖z‖ := by
        have := norm_add_le (realVec w - z) z
        rwa [sub_add_cancel] at this
      rw [Real.norm_eq_abs] at e2
      linarith
    have e1' : |(w j).rat| ≤ 2 ^ 1000 := by
      have : |((w j).rat : ℝ)| ≤ 2 ^ 1000 := e1
      exact_mod_cast this
    have e4 := (h4 j).2
    have e5 := abs_add_le (w j).rat (d j).rat
    have e6 : (2 : ℚ) ^ 1000 < 2 ^ 1022 := pow_lt_pow_right₀ (by norm_num) (by norm_num)
    have e7 : (2 : ℚ) ^ 998 ≤ 2 ^ 1022 := pow_le_pow_right₀ (by norm_num) (by norm_num)
    have e8 : (2 : ℚ) ^ 1023 = 2 ^ 1022 * 2 := pow_succ 2 1022
    rw [e8]
    generalize (2 : ℚ) ^ 1022 = P at *
    generalize (2 : ℚ) ^ 1000 = Q at *
    generalize (2 : ℚ) ^ 998 = R at *
    linarith
  have hadd : ∀ j, (Arith.add (w j) (d j)).Is (rnd ((w j).rat + (d j).rat)) := fun j =>
    add_is ⟨hw j, rfl⟩ ⟨(h4 j).1, rfl⟩ (rnd_bound (by have := hbnd j; exact_mod_cast this))
  refine ⟨t', _, ⟨vec d, h3, ?_, k2.2.1.trans ht.2.1.symm⟩, k2, fun j => (hadd j).1, ?_⟩
  · rw [ht.2.2, k2.2.2]
    exact add_vec w d
  set e := realVec w - z with hedef
  set e1 := e + realVec d with he1
  set k : ℝ := ε + solveError vars.length * a' + eA with hk
  set G : ℝ := solveError vars.length * β + eF with hG
  have hAd : ‖A.mulVec (realVec d) + F‖ ≤ k * ∑ j, |realVec d j| + G :=
    (pi_norm_le_iff_of_nonneg ((abs_nonneg _).trans (h5 i0))).mpr h5
  have hFe : ‖F - A.mulVec e‖ ≤ vars.length * change * ‖e‖ := by
    have := mean_value (DoubleTable.nodup ht) hch0 hR.smooth A (fun w' hw' A' hA' i j => hR.steady _ _ hw' hwz A' A hA' h2 i j) hwz
      (by rw [sub_self, norm_zero]; exact hr0) h1 hR.root
    rwa [sub_zero] at this
  have hk0 : 0 ≤ k := by
    have q1 : (0 : ℝ) < ε := by exact_mod_cast hroom.eps_pos
    have q2 : (0 : ℚ) ≤ solveError vars.length := le_trans (by
      have : (0 : ℚ) ≤ growth ^ vars.length := by norm_num [growth]
      positivity) (solveError_ge hn)
    have q3 : (0 : ℚ) ≤ a' := le_trans (by positivity) hroom.a_small
    have q4 : (0 : ℝ) ≤ solveError vars.length * a' := by exact_mod_cast mul_nonneg q2 q3
    have q5 : 0 ≤ eA := by
      obtain ⟨B, A', -, -, m⟩ := hR.deriv cfg hs hJ ht hw hwz
      exact (abs_nonneg _).trans (m i0 i0).2
    rw [hk]; linarith
  have hd : ‖realVec d‖ ≤ ‖e1‖ + ‖e‖ := by
    have := norm_sub_le e1 e
    rwa [he1, add_sub_cancel_left] at this
  have hmain : ‖e1‖ ≤ M * (k * (vars.length * (‖e1‖ + ‖e‖)) + G + vars.length * change * ‖e‖) := by
    refine (hR.stretch _ hwz A h2 e1).trans (mul_le_mul_of_nonneg_left ?_ hM.le)
    have q : A.mulVec e1 = (A.mulVec (realVec d) + F) - (F - A.mulVec e) := by
      rw [he1, Matrix.mulVec_add]; abel
    rw [q]
    refine (norm_sub_le _ _).trans (add_le_add (hAd.trans ?_) hFe)
    have q2 := mul_le_mul_of_nonneg_left ((sum_abs_le (realVec d)).trans (mul_le_mul_of_nonneg_left hd (by positivity))) hk0
    linarith
  have hkc : M * (vars.length * k) ≤ 1 / 12 := hc
  have hne := norm_nonneg e
  have hne1 := norm_nonneg e1
  have s1 := mul_le_mul_of_nonneg_right hkc (add_nonneg hne1 hne)
  have s2 := mul_le_mul_of_nonneg_right hch hne
  have s3 : M * (k * (vars.length * (‖e1‖ + ‖e‖)) + G + vars.length * change * ‖e‖) =
    M * (vars.length * k) * (‖e1‖ + ‖e‖) + M * G + M * (vars.length * change) * ‖e‖ := by ring
  rw [s3] at hmain
  have hMG : 11 / 12 * ‖e1‖ ≤ 1 / 3 * ‖e‖ + M * G := by linarith
  have hMG0 : 0 ≤ M * G := by
    apply mul_nonneg hM.le
    have q2 : (0 : ℚ) ≤ solveError vars.length := le_trans (by
      have : (0 : ℚ) ≤ growth ^ vars.length := by norm_num [growth]
      positivity) (solveError_ge hn)
    have q3 : (0 : ℚ) ≤ β := le_trans (by positivity) hroom.β_small
    have q4 : (0 : ℝ) ≤ solveError vars.length * β := by exact_mod_cast mul_nonneg q2 q3
    obtain ⟨phi, F', -, -, m⟩ := hR.value cfg ht hw hwz
    have q5 : 0 ≤ eF := (abs_nonneg _).trans (m i0).2
    rw [hG]; linarith
  have hround : ‖realVec (fun j => Arith.add (w j) (d j)) - z‖ ≤ ‖e1‖ + 1 / 2 ^ 53 * (‖e1‖ + ‖z‖) := by
    refine (pi_norm_le_iff_of_nonneg (by positivity)).mpr fun j => ?_
    have q1 : (Arith.add (w j) (d j) : Double L).rat = rnd ((w j).rat + (d j).rat) := (hadd j).2
    have q2 := rnd_add_rel (is_double ⟨hw j, rfl⟩ : IsDouble (w j).rat) (is_double ⟨(h4 j).1, rfl⟩ : IsDouble (d j).rat)
    have q3 : |((rnd ((w j).rat + (d j).rat) : ℚ) : ℝ) - (realVec w j + realVec d j)| ≤ 1 / 2 ^ 53 * |realVec w j + realVec d j| := by
      have q2' := (Rat.cast_le (K := ℝ)).mpr q2
      push_cast at q2'
      exact q2'
    rw [Pi.sub_apply, Real.norm_eq_abs]
    have q4 : realVec (fun j => Arith.add (w j) (d j)) j = ((rnd ((w j).rat + (d j).rat) : ℚ) : ℝ) := by
      unfold realVec; rw [q1]
    rw [q4]
    have q5 : realVec w j + realVec d j = e1 j + z j := by simp [he1, hedef]; ring
    rw [q5] at q3
    have q6 := norm_le_pi_norm e1 j
    have q7 := norm_le_pi_norm z j
    rw [Real.norm_eq_abs] at q6 q7
    have q8 := abs_add_le (e1 j) (z j)
    have q9 := abs_add_le (((rnd ((w j).rat + (d j).rat) : ℚ) : ℝ) - (e1 j + z j)) (e1 j)
    have q10 : ((rnd ((w j).rat + (d j).rat) : ℚ) : ℝ) - (e1 j + z j) + e1 j = ((rnd ((w j).rat + (d j).rat) : ℚ) : ℝ) - z j := by ring
    rw [q10] at q9
    have q11 : (1 : ℝ) / 2 ^ 53 * |e1 j + z j| ≤ 1 / 2 ^ 53 * (‖e1‖ + ‖z‖) := mul_le_mul_of_nonneg_left (by linarith) (by positivity)
    linarith
  refine hround.trans ?_
  unfold newtonNoise
  have u1 : (1 : ℝ) / 2 ^ 53 ≤ 1 / 100 := by norm_num
  have u2 := mul_le_mul_of_nonneg_right u1 hne1
  have u3 : (1 : ℝ) / 2 ^ 53 * (‖e1‖ + ‖z‖) = 1 / 2 ^ 53 * ‖e1‖ + 1 / 2 ^ 53 * ‖z‖ := by ring
  rw [u3]
  have u4 : 2 * M * ((solveError vars.length : ℝ) * β + eF) = 2 * (M * G) := by rw [hG]; ring
  rw [u4]
  linarith

/-- the test `f(x) = 0` up to epsilon, in doubles -/
theorem eqNum_vec {n : ℕ} (phi : Fin n → Double L) {ε : Double L} {q : ℚ} (hε : ε.Is q) (hf : ∀ i, (phi i).Finite) (h : ∀ i, |(phi i).rat| < q) :
    (vec phi).eqNum ε (Dbl.ofInt 0) = true := by
  unfold Mat.eqNum vec
  rw [List.all_eq_true]
  intro x hx
  obtain ⟨i, rfl⟩ := List.mem_ofFn.mp hx
  have h0 : (Dbl.ofInt 0 : Double L).Is 0 := by exact_mod_cast is_ofInt (L := L) (i := 0) (by norm_num)
  have hp : (phi i).Is (phi i).rat := ⟨hf i, rfl⟩
  have hd := is_double hp
  have h1 : (Arith.sub (phi i) (Dbl.ofInt 0)).Is (phi i).rat := by
    have := sub_is hp h0 (by rw [sub_zero, rnd_of_isDouble hd]; exact isDouble_lt hd)
    rwa [sub_zero, rnd_of_isDouble hd] at this
  rw [lt_is (abs_is h1) hε]
  exact decide_eq_true (h i)

/-- the values of the equations at a point of the region: bounded by the distance to the root, and small only close to the root -/
theorem region_size (hR : ComputedRegion vars f g z r M change a eF eA) (hn : 0 < vars.length) (cfg : Config (Double L))
    (hs : cfg.throwOnInvalidValue = true) {ε : ℚ} (he : cfg.epsilon.Is ε) (hM : 0 < M) (hch : M * (vars.length * change) ≤ 1 / 4)
    {J : SymMat (Double L)} (hJ : (symOf f).jacobian cfg vars = .ok J)
    {t : VarsTable (Double L)} {w : Fin vars.length → Double L} (ht : DoubleTable t vars w) (hw : ∀ j, (w j).Finite)
    (hwz : ‖realVec w - z‖ ≤ r) :
    ∃ phi : Fin vars.length → Double L, evalVec cfg (symOf f) t = .ok (vec phi) ∧
      (vars.length * a * ‖realVec w - z‖ + eF < ε → (vec phi).eqNum cfg.epsilon (Dbl.ofInt 0) = true) ∧
      ((vec phi).eqNum cfg.epsilon (Dbl.ofInt 0) = true → ‖realVec w - z‖ ≤ 4 / 3 * M * (ε + eF)) := by
  obtain ⟨phi, F, h1, h2, h3⟩ := hR.value cfg ht hw hwz
  obtain ⟨B, A, -, h5, -⟩ := hR.deriv cfg hs hJ ht hw hwz
  have hr0 : 0 ≤ r := (norm_nonneg _).trans hwz
  have hzz : ‖z - z‖ ≤ r := by rw [sub_self, norm_zero]; exact hr0
  have i0 : Fin vars.length := ⟨0, hn⟩
  have ha0 : 0 ≤ a := (abs_nonneg _).trans (hR.bounded _ hwz A h5 i0 i0)
  have hch0 : 0 ≤ change := (abs_nonneg _).trans (hR.steady _ _ hwz hwz A A h5 h5 i0 i0)
  refine ⟨phi, h1, fun hlt => ?_, fun heq => ?_⟩
  · apply eqNum_vec phi he fun i => (h3 i).1
    intro i
    have := mean_value (DoubleTable.nodup ht) ha0 hR.smooth 0 (fun w' hw' A' hA' i j => by
      rw [Matrix.zero_apply, sub_zero]; exact hR.bounded w' hw' A' hA' i j) hwz hzz h2 hR.root
    rw [Matrix.zero_mulVec, sub_zero, sub_zero] at this
    have h7 := (norm_le_pi_norm F i).trans this
    rw [Real.norm_eq_abs] at h7
    have h8 := abs_sub_abs_le_abs_sub ((phi i).rat : ℝ) (F i)
    have h9 : |((phi i).rat : ℝ)| < (ε : ℝ) := by linarith [(h3 i).2]
    exact_mod_cast h9
  · have hFi : ∀ i, |F i| ≤ ε + eF := by
      intro i
      unfold Mat.eqNum vec at heq
      rw [List.all_eq_true] at heq
      obtain ⟨p, hp, hlt⟩ := below_eps he (heq (phi i) (List.mem_ofFn.mpr ⟨i, rfl⟩))
      have e1 : (phi i).rat = p := hp.2
      have h8 := abs_sub_abs_le_abs_sub (F i) ((phi i).rat : ℝ)
      rw [abs_sub_comm] at h8
      have h9 : |((phi i).rat : ℝ)| < (ε : ℝ) := by rw [e1]; exact_mod_cast hlt
      linarith [(h3 i).2]
    have hFn : ‖F‖ ≤ ε + eF := (pi_norm_le_iff_of_nonneg ((abs_nonneg _).trans (hFi i0))).mpr hFi
    have hFe := mean_value (DoubleTable.nodup ht) hch0 hR.smooth A (fun w' hw' A' hA' i j => hR.steady _ _ hw' hwz A' A hA' h5 i j) hwz hzz h2 hR.root
    rw [sub_zero] at hFe
    have h6 := hR.stretch _ hwz A h5 (realVec w - z)
    have h7 : ‖A.mulVec (realVec w - z)‖ ≤ (ε + eF) + vars.length * change * ‖realVec w - z‖ := by
      have : A.mulVec (realVec w - z) = F - (F - A.mulVec (realVec w - z)) := by abel
      rw [this]
      exact (norm_sub_le _ _).trans (add_le_add hFn hFe)
    have h8 := h6.trans (mul_le_mul_of_nonneg_left h7 hM.le)
    have h9 := mul_le_mul_of_nonneg_right hch (norm_nonneg (realVec w - z))
    have h10 : M * ((ε + eF) + vars.length * change * ‖realVec w - z‖) = M * (ε + eF) + M * (vars.length * change) * ‖realVec w - z‖ := by ring
    rw [h10] at h8
    linarith

/-- the loop of Newton's method, from a point of the region -/
theorem region_loop (hR : ComputedRegion vars f g z r M change a eF eA) (hn : 0 < vars.length)
    (cfg : Config (Double L)) (hs : cfg.throwOnInvalidValue = true) {ε a' β : ℚ} (he : cfg.epsilon.Is ε)
    (hroom : RoundedRoom vars.length ε a' β) (hM : 0 < M) (ha : a + eA ≤ a') (hβ : vars.length * a * r + eF ≤ β)
    (hc : M * (vars.length * (ε + solveError vars.length * a' + eA)) ≤ 1 / 12) (hch : M * (vars.length * change) ≤ 1 / 4)
    (hzr : ‖z‖ + r ≤ 2 ^ 1000) (hnoise : newtonNoise z M eF β ≤ r / 2)
    {J : SymMat (Double L)} (hJ : (symOf f).jacobian cfg vars = .ok J) : ∀ (k fuel it : ℕ) (s : ℝ), k < fuel → (it : ℤ) + k ≤ cfg.maxIterations + 1 →
      s ≤ r → vars.length * a * (s / 2 ^ k + 2 * newtonNoise z M eF β * (1 - 1 / 2 ^ k)) + eF < ε →
      ∀ (t : VarsTable (Double L)) (w : Fin vars.length → Double L), DoubleTable t vars w → (∀ j, (w j).Finite) → ‖realVec w - z‖ ≤ s →
      ∃ t' w', newtonLoop cfg (symOf f) J fuel it t (vec w) = .ok t' ∧ DoubleTable t' vars w' ∧ (∀ j, (w' j).Finite) ∧
        ‖realVec w' - z‖ ≤ 4 / 3 * M * (ε + eF) := by
  intro k
  induction k with
  | zero =>
    intro fuel it s hfuel hit hsr hlast t w ht hw hwz
    obtain ⟨fuel, rfl⟩ : ∃ m, fuel = m + 1 := ⟨fuel - 1, by omega⟩
    obtain ⟨phi, g1, g2, g3⟩ := region_size hR hn cfg hs he hM hch hJ ht hw (hwz.trans hsr)
    have ha0 : 0 ≤ a := by
      obtain ⟨B, A, -, h5, -⟩ := hR.deriv cfg hs hJ ht hw (hwz.trans hsr)
      exact (abs_nonneg _).trans (hR.bounded _ (hwz.trans hsr) A h5 ⟨0, hn⟩ ⟨0, hn⟩)
    have hstop := g2 (by
      rw [pow_zero, div_one, div_one, sub_self, mul_zero, add_zero] at hlast
      have := mul_le_mul_of_nonneg_left hwz (by positivity : 0 ≤ vars.length * a)
      linarith)
    refine ⟨t, w, ?_, ht, hw, g3 hstop⟩
    rw [newtonLoop, g1, Res.bind_ok, if_pos hstop]
  | succ k ih =>
    intro fuel it s hfuel hit hsr hlast t w ht hw hwz
    obtain ⟨fuel, rfl⟩ : ∃ m, fuel = m + 1 := ⟨fuel - 1, by omega⟩
    obtain ⟨phi, g1, g2, g3⟩ := region_size hR hn cfg hs he hM hch hJ ht hw (hwz.trans hsr)
    by_cases hstop : (vec phi).eqNum cfg.epsilon (Dbl.ofInt 0) = true
    · refine ⟨t, w, ?_, ht, hw, g3 hstop⟩
      rw [newtonLoop, g1, Res.bind_ok, if_pos hstop]
    · obtain ⟨t1, w1, ⟨d, ⟨phi', j, e1, e2, e3⟩, e4, e5⟩, k2, k3, k4⟩ :=
        computed_step hR hn cfg hs he hroom hM ha hβ hc hch hzr hJ ht hw (hwz.trans hsr)
      obtain rfl : vec phi = phi' := by rw [g1] at e1; exact Res.ok.inj e1
      have hη : ‖realVec w1 - z‖ ≤ s / 2 + newtonNoise z M eF β := by linarith
      obtain ⟨t', w', m1, m2⟩ := ih fuel (it + 1) (s / 2 + newtonNoise z M eF β) (by omega) (by push_cast at hit ⊢; linarith) (by linarith) (by
        refine lt_of_le_of_lt (le_of_eq ?_) hlast
        congr 2
        rw [pow_succ]
        field_simp
        ring) t1 w1 k2 k3 hη
      refine ⟨t', w', ?_, m2⟩
      obtain ⟨t2, e6, e7⟩ := DoubleTable.setValues ht w1
      have e8 : t2 = t1 := e7.1.good.ext k2.1.good (e7.2.1.trans k2.2.1.symm) (e7.2.2.trans k2.2.2.symm)
      rw [e8] at e6
      have e9 : (vec w).add d = .ok (vec w1) := by
        have := e4
        rw [ht.2.2, k2.2.2] at this
        exact this
      rw [newtonLoop, g1, Res.bind_ok, if_neg hstop, if_neg (by push_cast at hit; omega), e2, Res.bind_ok, e3, Res.bind_ok, e9, Res.bind_ok, e6, Res.bind_ok]
      exact m1

theorem noise_nonneg (hR : ComputedRegion vars f g z r M change a eF eA) (hn : 0 < vars.length)
    (cfg : Config (Double L)) (hM : 0 < M) {ε a' β : ℚ} (hroom : RoundedRoom vars.length ε a' β)
    {t : VarsTable (Double L)} {w : Fin vars.length → Double L} (ht : DoubleTable t vars w) (hw : ∀ j, (w j).Finite)
    (hwz : ‖realVec w - z‖ ≤ r) : 0 ≤ newtonNoise z M eF β := by
  have q2 : (0 : ℚ) ≤ solveError vars.length := le_trans (by
    have : (0 : ℚ) ≤ growth ^ vars.length := by norm_num [growth]
    positivity) (solveError_ge hn)
  have q3 : (0 : ℚ) ≤ β := le_trans (by positivity) hroom.β_small
  have q4 : (0 : ℝ) ≤ solveError vars.length * β := by exact_mod_cast mul_nonneg q2 q3
  obtain ⟨phi, F', -, -, m⟩ := hR.value cfg ht hw hwz
  have q5 : 0 ≤ eF := (abs_nonneg _).trans (m ⟨0, hn⟩).2
  unfold newtonNoise
  have := norm_nonneg z
  positivity

theorem tail_le {n : ℕ} {a r η e : ℝ} (ha : 0 ≤ a) (hη : 0 ≤ η) {N : ℕ} :
    n * a * (r / 2 ^ N + 2 * η * (1 - 1 / 2 ^ N)) + e ≤ n * a * (r / 2 ^ N + 2 * η) + e := by
  have h1 : 2 * η * (1 - 1 / 2 ^ N) ≤ 2 * η := by
    apply mul_le_of_le_one_right (by positivity)
    have : (0 : ℝ) < 1 / 2 ^ N := by positivity
    linarith
  have h2 := mul_le_mul_of_nonneg_left (add_le_add_right h1 (r / 2 ^ N)) (by positivity : 0 ≤ (n : ℝ) * a)
  linarith

/-- Newton's method, from initial values zero: if zero is in the region around the root `z`, and `N` steps suffice to get the bound for the computed values
below epsilon (`N ≤ maxIterations + 1`), then `SolveByNewtonRaphson` with doubles returns, and the point it returns is within
`4/3 M (epsilon + eF)` of the root. -/
theorem computed_zero (hR : ComputedRegion vars f g z r M change a eF eA) (hn : 0 < vars.length)
    (cfg : Config (Double L)) (hs : cfg.throwOnInvalidValue = true) {ε a' β : ℚ} (he : cfg.epsilon.Is ε)
    (hroom : RoundedRoom vars.length ε a' β) (hM : 0 < M) (ha : a + eA ≤ a') (hβ : vars.length * a * r + eF ≤ β)
    (hc : M * (vars.length * (ε + solveError vars.length * a' + eA)) ≤ 1 / 12) (hch : M * (vars.length * change) ≤ 1 / 4)
    (hzr : ‖z‖ + r ≤ 2 ^ 1000) (hnoise : newtonNoise z M eF β ≤ r / 2) (N : ℕ) (hN : (N : ℤ) ≤ cfg.maxIterations + 1)
    (hlast : vars.length * a * (r / 2 ^ N + 2 * newtonNoise z M eF β) + eF < ε)
    (t : VarsTable (Double L)) (ht : DoubleTable t vars fun _ => Arith.zero) (hz : ‖z‖ ≤ r) :
    ∃ t' w', solveByNewtonRaphson cfg (symOf f) t = .ok t' ∧ DoubleTable t' vars w' ∧ (∀ j, (w' j).Finite) ∧
      ‖realVec w' - z‖ ≤ 4 / 3 * M * (ε + eF) := by
  have hfin : ∀ _j : Fin vars.length, (Arith.zero : Double L).Finite := fun _ => rfl
  have h0 : realVec (fun _ : Fin vars.length => (Arith.zero : Double L)) = 0 := by
    funext j
    simp only [realVec, Pi.zero_apply, Rat.cast_eq_zero]
    rfl
  have hwz : ‖realVec (fun _ : Fin vars.length => (Arith.zero : Double L)) - z‖ ≤ r := by rw [h0, zero_sub, norm_neg]; exact hz
  obtain ⟨J, hJ⟩ := hR.jacobian cfg hs ht hfin hwz
  have ha0 : 0 ≤ a := by
    obtain ⟨B, A, -, h5, -⟩ := hR.deriv cfg hs hJ ht hfin hwz
    exact (abs_nonneg _).trans (hR.bounded _ hwz A h5 ⟨0, hn⟩ ⟨0, hn⟩)
  obtain ⟨t', w', r1, r2⟩ := region_loop hR hn cfg hs he hroom hM ha hβ hc hch hzr hnoise hJ N ((cfg.maxIterations + 2).toNat + 1) 0 r
    (by omega) (by push_cast; omega) le_rfl (lt_of_le_of_lt (tail_le ha0 (noise_nonneg hR hn cfg hM hroom ht hfin hwz)) hlast) t _ ht hfin hwz
  refine ⟨t', w', ?_, r2⟩
  rw [newton_unfold cfg _ ht.1, ht.2.1, hJ, Res.bind_ok, zeroVec_vec]
  exact r1

/-- Newton's method, from any initial values that are not accepted at once and whose first correction `d` is in the region around the root (the point
the iteration goes on from is the first correction, see C44 and `C73_false`). -/
theorem computed_first (hR : ComputedRegion vars f g z r M change a eF eA) (hn : 0 < vars.length)
    (cfg : Config (Double L)) (hs : cfg.throwOnInvalidValue = true) {ε a' β : ℚ} (he : cfg.epsilon.Is ε)
    (hroom : RoundedRoom vars.length ε a' β) (hM : 0 < M) (ha : a + eA ≤ a') (hβ : vars.length * a * r + eF ≤ β)
    (hc : M * (vars.length * (ε + solveError vars.length * a' + eA)) ≤ 1 / 12) (hch : M * (vars.length * change) ≤ 1 / 4)
    (hzr : ‖z‖ + r ≤ 2 ^ 1000) (hnoise : newtonNoise z M eF β ≤ r / 2) (N : ℕ) (hN : (N : ℤ) ≤ cfg.maxIterations)
    (hlast : vars.length * a * (r / 2 ^ N + 2 * newtonNoise z M eF β) + eF < ε)
    {J : SymMat (Double L)} (hJ : (symOf f).jacobian cfg vars = .ok J)
    (t : VarsTable (Double L)) (w d : Fin vars.length → Double L) (ht : DoubleTable t vars w) (hns : ¬ Satisfies cfg f t)
    (hcor : NewtonCorrection cfg (symOf f) J t ⟨vars.length, 1, List.ofFn d⟩) (hd : ∀ j, (d j).Finite) (hdz : ‖realVec d - z‖ ≤ r) :
    ∃ t' w', solveByNewtonRaphson cfg (symOf f) t = .ok t' ∧ DoubleTable t' vars w' ∧ (∀ j, (w' j).Finite) ∧
      ‖realVec w' - z‖ ≤ 4 / 3 * M * (ε + eF) := by
  obtain ⟨phi, j, k1, k2, k3⟩ := hcor
  have h0 : (Arith.zero : Double L).Is 0 := ⟨rfl, rfl⟩
  have hadd : ∀ j, (Arith.add Arith.zero (d j)).Is (d j).rat := by
    intro j
    have hp : (d j).Is (d j).rat := ⟨hd j, rfl⟩
    have hdd := is_double hp
    have := add_is h0 hp (by rw [zero_add, rnd_of_isDouble hdd]; exact isDouble_lt hdd)
    rwa [zero_add, rnd_of_isDouble hdd] at this
  obtain ⟨t1, h5, h6⟩ := DoubleTable.setValues ht (fun j => Arith.add Arith.zero (d j))
  have hfin : ∀ j, (Arith.add Arith.zero (d j) : Double L).Finite := fun j => (hadd j).1
  have hreal : realVec (fun j => Arith.add Arith.zero (d j)) = realVec d := by
    funext j
    have : (Arith.add Arith.zero (d j) : Double L).rat = (d j).rat := (hadd j).2
    simp only [realVec, this]
  have hwz : ‖realVec (fun j => Arith.add Arith.zero (d j)) - z‖ ≤ r := by rw [hreal]; exact hdz
  have ha0 : 0 ≤ a := by
    obtain ⟨B, A, -, h5, -⟩ := hR.deriv cfg hs hJ h6 hfin hwz
    exact (abs_nonneg _).trans (hR.bounded _ hwz A h5 ⟨0, hn⟩ ⟨0, hn⟩)
  obtain ⟨t', w', r1, r2⟩ := region_loop hR hn cfg hs he hroom hM ha hβ hc hch hzr hnoise hJ N (cfg.maxIterations + 2).toNat 1 r
    (by omega) (by push_cast; omega) le_rfl (lt_of_le_of_lt (tail_le ha0 (noise_nonneg hR hn cfg hM hroom h6 hfin hwz)) hlast) t1 _ h6 hfin hwz
  refine ⟨t', w', ?_, r2⟩
  have hz := add_vec (fun _ => Arith.zero) d
  rw [newton_unfold cfg _ ht.1, ht.2.1, hJ, Res.bind_ok, zeroVec_vec, newtonLoop, k1, Res.bind_ok,
    if_neg (fun h' => hns ((satisfies_iff hn cfg f t).mpr ⟨_, k1, h'⟩)), if_neg (by push_cast; omega), k2, Res.bind_ok, k3, Res.bind_ok]
  change ((vec fun _ => Arith.zero).add (vec d) >>= _) = _
  rw [hz, Res.bind_ok, h5, Res.bind_ok]
  exact r1


/-- Newton's method, the first correction: from a point of the region it leads, before rounding, to a point at most half as far from the root, up to the noise. -/
theorem computed_firstCorrection (hR : ComputedRegion vars f g z r M change a eF eA) (hn : 0 < vars.length)
    (cfg : Config (Double L)) (hs : cfg.throwOnInvalidValue = true) {ε a' β : ℚ} (he : cfg.epsilon.Is ε)
    (hroom : RoundedRoom vars.length ε a' β) (hM : 0 < M) (ha : a + eA ≤ a') (hβ : vars.length * a * r + eF ≤ β)
    (hc : M * (vars.length * (ε + solveError vars.length * a' + eA)) ≤ 1 / 12) (hch : M * (vars.length * change) ≤ 1 / 4)
    {J : SymMat (Double L)} (hJ : (symOf f).jacobian cfg vars = .ok J)
    {t : VarsTable (Double L)} {w : Fin vars.length → Double L} (ht : DoubleTable t vars w) (hw : ∀ j, (w j).Finite)
    (hwz : ‖realVec w - z‖ ≤ r) :
    ∃ d : Fin vars.length → Double L, NewtonCorrection cfg (symOf f) J t ⟨vars.length, 1, List.ofFn d⟩ ∧ (∀ j, (d j).Finite) ∧
      ‖realVec w + realVec d - z‖ ≤ 1 / 2 * ‖realVec w - z‖ + newtonNoise z M eF β := by
  obtain ⟨F, A, d, h1, h2, h3, h4, h5⟩ := computed_correction hR hn cfg hs he hroom hM ha hβ (by linarith) hJ ht hw hwz
  have hr0 : 0 ≤ r := (norm_nonneg _).trans hwz
  have i0 : Fin vars.length := ⟨0, hn⟩
  have hch0 : 0 ≤ change := (abs_nonneg _).trans (hR.steady _ _ hwz hwz A A h2 h2 i0 i0)
  refine ⟨d, h3, fun j => (h4 j).1, ?_⟩
  set e := realVec w - z with hedef
  set e1 := e + realVec d with he1
  set k : ℝ := ε + solveError vars.length * a' + eA with hk
  set G : ℝ := solveError vars.length * β + eF with hG
  have q2 : (0 : ℚ) ≤ solveError vars.length := le_trans (by
    have : (0 : ℚ) ≤ growth ^ vars.length := by norm_num [growth]
    positivity) (solveError_ge hn)
  have hAd : ‖A.mulVec (realVec d) + F‖ ≤ k * ∑ j, |realVec d j| + G :=
    (pi_norm_le_iff_of_nonneg ((abs_nonneg _).trans (h5 i0))).mpr h5
  have hFe : ‖F - A.mulVec e‖ ≤ vars.length * change * ‖e‖ := by
    have := mean_value (DoubleTable.nodup ht) hch0 hR.smooth A (fun w' hw' A' hA' i j => hR.steady _ _ hw' hwz A' A hA' h2 i j) hwz
      (by rw [sub_self, norm_zero]; exact hr0) h1 hR.root
    rwa [sub_zero] at this
  have hk0 : 0 ≤ k := by
    have q1 : (0 : ℝ) < ε := by exact_mod_cast hroom.eps_pos
    have q3 : (0 : ℚ) ≤ a' := le_trans (by positivity) hroom.a_small
    have q4 : (0 : ℝ) ≤ solveError vars.length * a' := by exact_mod_cast mul_nonneg q2 q3
    have q5 : 0 ≤ eA := by
      obtain ⟨B, A', -, -, m⟩ := hR.deriv cfg hs hJ ht hw hwz
      exact (abs_nonneg _).trans (m i0 i0).2
    rw [hk]; linarith
  have hd : ‖realVec d‖ ≤ ‖e1‖ + ‖e‖ := by
    have := norm_sub_le e1 e
    rwa [he1, add_sub_cancel_left] at this
  have hmain : ‖e1‖ ≤ M * (k * (vars.length * (‖e1‖ + ‖e‖)) + G + vars.length * change * ‖e‖) := by
    refine (hR.stretch _ hwz A h2 e1).trans (mul_le_mul_of_nonneg_left ?_ hM.le)
    have q : A.mulVec e1 = (A.mulVec (realVec d) + F) - (F - A.mulVec e) := by
      rw [he1, Matrix.mulVec_add]; abel
    rw [q]
    refine (norm_sub_le _ _).trans (add_le_add (hAd.trans ?_) hFe)
    have q2 := mul_le_mul_of_nonneg_left ((sum_abs_le (realVec d)).trans (mul_le_mul_of_nonneg_left hd (by positivity))) hk0
    linarith
  have hkc : M * (vars.length * k) ≤ 1 / 12 := hc
  have hne := norm_nonneg e
  have hne1 := norm_nonneg e1
  have s1 := mul_le_mul_of_nonneg_right hkc (add_nonneg hne1 hne)
  have s2 := mul_le_mul_of_nonneg_right hch hne
  have s3 : M * (k * (vars.length * (‖e1‖ + ‖e‖)) + G + vars.length * change * ‖e‖) =
    M * (vars.length * k) * (‖e1‖ + ‖e‖) + M * G + M * (vars.length * change) * ‖e‖ := by ring
  rw [s3] at hmain
  have hMG : 11 / 12 * ‖e1‖ ≤ 1 / 3 * ‖e‖ + M * G := by linarith
  have hMG0 : 0 ≤ M * G := by
    apply mul_nonneg hM.le
    have q3 : (0 : ℚ) ≤ β := le_trans (by positivity) hroom.β_small
    have q4 : (0 : ℝ) ≤ solveError vars.length * β := by exact_mod_cast mul_nonneg q2 q3
    obtain ⟨phi, F', -, -, m⟩ := hR.value cfg ht hw hwz
    have q5 : 0 ≤ eF := (abs_nonneg _).trans (m i0).2
    rw [hG]; linarith
  have hz0 : (0 : ℝ) ≤ 1 / 2 ^ 53 * ‖z‖ := by positivity
  have e2 : realVec w + realVec d - z = e1 := by rw [he1, hedef]; abel
  rw [e2]
  unfold newtonNoise
  have u4 : 2 * M * ((solveError vars.length : ℝ) * β + eF) = 2 * (M * G) := by rw [hG]; ring
  rw [u4]
  linarith

/-- Newton's method, from initial values in the region: if the region is so large that it also contains the first correction (the point the iteration
goes on from, see C44 and `C73_false`), for which `‖w‖ + ½ ‖w - z‖ + noise ≤ r` suffices, then `SolveByNewtonRaphson` with doubles returns, and the
point it returns is within `4/3 M (epsilon + eF)` of the root. -/
theorem computed_start (hR : ComputedRegion vars f g z r M change a eF eA) (hn : 0 < vars.length)
    (cfg : Config (Double L)) (hs : cfg.throwOnInvalidValue = true) {ε a' β : ℚ} (he : cfg.epsilon.Is ε)
    (hroom : RoundedRoom vars.length ε a' β) (hM : 0 < M) (ha : a + eA ≤ a') (hβ : vars.length * a * r + eF ≤ β)
    (hc : M * (vars.length * (ε + solveError vars.length * a' + eA)) ≤ 1 / 12) (hch : M * (vars.length * change) ≤ 1 / 4)
    (hzr : ‖z‖ + r ≤ 2 ^ 1000) (hnoise : newtonNoise z M eF β ≤ r / 2) (N : ℕ) (hN : (N : ℤ) ≤ cfg.maxIterations)
    (hlast : vars.length * a * (r / 2 ^ N + 2 * newtonNoise z M eF β) + eF < ε)
    (t : VarsTable (Double L)) (w : Fin vars.length → Double L) (ht : DoubleTable t vars w) (hw : ∀ j, (w j).Finite)
    (hwz : ‖realVec w - z‖ ≤ r) (hstart : ‖realVec w‖ + 1 / 2 * ‖realVec w - z‖ + newtonNoise z M eF β ≤ r) :
    ∃ t' w', solveByNewtonRaphson cfg (symOf f) t = .ok t' ∧ DoubleTable t' vars w' ∧ (∀ j, (w' j).Finite) ∧
      ‖realVec w' - z‖ ≤ 4 / 3 * M * (ε + eF) := by
  obtain ⟨J, hJ⟩ := hR.jacobian cfg hs ht hw hwz
  by_cases hsat : Satisfies cfg f t
  · obtain ⟨phi, g1, g2, g3⟩ := region_size hR hn cfg hs he hM hch hJ ht hw hwz
    obtain ⟨phi', k1, k2⟩ := (satisfies_iff hn cfg f t).mp hsat
    obtain rfl : vec phi = phi' := by rw [g1] at k1; exact Res.ok.inj k1
    refine ⟨t, w, ?_, ht, hw, g3 k2⟩
    rw [newton_unfold cfg _ ht.1, ht.2.1, hJ, Res.bind_ok, newtonLoop, g1, Res.bind_ok, if_pos k2]
  · obtain ⟨d, d1, d2, d3⟩ := computed_firstCorrection hR hn cfg hs he hroom hM ha hβ hc hch hJ ht hw hwz
    refine computed_first hR hn cfg hs he hroom hM ha hβ hc hch hzr hnoise N hN hlast hJ t w d ht hsat d1 d2 ?_
    have e : realVec d - z = (realVec w + realVec d - z) - realVec w := by abel
    rw [e]
    refine (norm_sub_le _ _).trans ?_
    linarith

end
end Double
end Tom
