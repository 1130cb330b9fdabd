import Verif.Lemmas.DoubleElim
/-
The rounding errors of one elimination step of `SolveLinear`, seen in the residuals of the equations.
-/
namespace Tom
namespace Double
open Finset
variable {L : Libm}

/-- the right-hand side as column `n` -/
def aug (n : ℕ) (f : ℕ → ℕ → Double L) (b : ℕ → Double L) (i j : ℕ) : Double L := if j < n then f i j else b i

theorem aug_elim (eps : Double L) {n y : ℕ} (hy : y < n) (f : ℕ → ℕ → Double L) (b : ℕ → Double L) :
    aug n (elimD eps n f y y) (elimBD eps n f y y b) = elimD eps n (aug n f b) y y := by
  funext i j
  unfold aug elimD elimBD
  by_cases hj : j < n
  · simp only [hj, hy, if_true]
  · simp only [hj, hy, if_true, if_false, show y ≤ j by omega, true_and, and_true]

theorem aug_perm (n : ℕ) (f : ℕ → ℕ → Double L) (b : ℕ → Double L) (σ : ℕ → ℕ) :
    aug n (fun i j => f (σ i) j) (fun i => b (σ i)) = fun i j => aug n f b (σ i) j := by
  funext i j
  unfold aug
  split <;> rfl

/-- the left-hand side of equation `i`, from column `y` on, at `z` -/
def resid (n : ℕ) (G : ℕ → ℕ → Double L) (y i : ℕ) (z : ℕ → ℚ) : ℚ := ∑ j ∈ Ico y (n + 1), (G i j).rat * z j

theorem resid_split {n y : ℕ} (hy : y < n) (G : ℕ → ℕ → Double L) (i : ℕ) (z : ℕ → ℚ) :
    resid n G y i z = (G i y).rat * z y + resid n G (y + 1) i z := by
  unfold resid
  rw [sum_eq_sum_Ico_succ_bot (by omega)]

/-- numbers with enough room for one elimination step -/
structure StepRoom (n y : ℕ) (ε : ℚ) (W : ℕ → ℚ) : Prop where
  eps_pos : 0 < ε
  eps_le : ε ≤ 1
  under : ∀ j, j ≤ n → 1 / 2 ^ 900 ≤ W j
  pivot : ∀ j, j ≤ n → W y * (1 / 2 ^ 1000) ≤ W j
  over : ∀ j, j ≤ n → W j ≤ ε * 2 ^ 998

theorem StepRoom.pos {n y : ℕ} {ε : ℚ} {W : ℕ → ℚ} (h : StepRoom n y ε W) {j : ℕ} (hj : j ≤ n) : 0 < W j :=
  lt_of_lt_of_le (by positivity) (h.under j hj)

structure Step (n y : ℕ) (ε : ℚ) (W : ℕ → ℚ) (G G' : ℕ → ℕ → Double L) : Prop where
  one : (G' y y).rat = 1
  row : ∀ j, y ≤ j → j ≤ n → (G' y j).Finite ∧ |(G y y).rat * (G' y j).rat| ≤ (1 + 2 * unitRound) * W j
  below : ∀ i, y < i → i < n → ∀ j, y ≤ j → j ≤ n → (G' i j).Finite ∧ |(G' i j).rat| ≤ (2 + 8 * unitRound) * W j
  res : ∀ z : ℕ → ℚ, |resid n G y y z| ≤ |(G y y).rat| * |resid n G' y y z| + 4 * unitRound * ∑ j ∈ Ico y (n + 1), W j * |z j|
  resBelow : ∀ i, y < i → i < n → ∀ z : ℕ → ℚ, |resid n G y i z| ≤ |resid n G' (y + 1) i z| + |(G y y).rat| * |resid n G' y y z| +
    4 * unitRound * (∑ j ∈ Ico y (n + 1), W j * |z j|) + ε * |z y|

theorem abs_sum_mul_le {s : Finset ℕ} {d z W : ℕ → ℚ} {k : ℚ} (h : ∀ j ∈ s, |d j| ≤ k * W j) :
    |∑ j ∈ s, d j * z j| ≤ k * ∑ j ∈ s, W j * |z j| := by
  refine (abs_sum_le_sum_abs _ _).trans ?_
  rw [mul_sum]
  apply sum_le_sum
  intro j hj
  rw [abs_mul, ← mul_assoc]
  exact mul_le_mul_of_nonneg_right (h j hj) (abs_nonneg _)

theorem elim_step {n y : ℕ} {eps : Double L} {ε : ℚ} (he : eps.Is ε) (hy : y < n) {W : ℕ → ℚ} (hr : StepRoom n y ε W)
    {G : ℕ → ℕ → Double L} (hG : ∀ i, y ≤ i → i < n → ∀ j, y ≤ j → j ≤ n → (G i j).Finite ∧ |(G i j).rat| ≤ W j)
    (hmax : ∀ i, y ≤ i → i < n → |(G i y).rat| ≤ |(G y y).rat|) (hp : ε ≤ |(G y y).rat|) :
    Step n y ε W G (elimD eps n G y y) := by
  have hu := u_nonneg
  have hu1 : unitRound ≤ 1 / 100 := by norm_num [unitRound]
  have hy' := hG y le_rfl hy
  have gy : ∀ j, y ≤ j → elimD eps n G y y y j = Arith.div (G y j) (G y y) := by
    intro j hj
    unfold elimD
    rw [if_pos ⟨rfl, hj⟩]
  have pf := (hy' y le_rfl hy.le).1
  have pW := (hy' y le_rfl hy.le).2
  have hp0 : (G y y).rat ≠ 0 := by
    intro h
    rw [h, abs_zero] at hp
    linarith [hr.eps_pos]
  have hdiv : ∀ j, y ≤ j → j ≤ n → (Arith.div (G y j) (G y y)).Finite ∧
      |(G y y).rat * (Arith.div (G y j) (G y y)).rat - (G y j).rat| ≤ 2 * unitRound * W j := by
    intro j hj hjn
    refine div_step (hy' j hj hjn).1 pf hr.eps_pos hp (hy' j hj hjn).2 ?_ ?_
    · refine (hr.over j hjn).trans (mul_le_mul_of_nonneg_left ?_ hr.eps_pos.le)
      exact pow_le_pow_right₀ (by norm_num) (by norm_num)
    · refine le_trans ?_ (hr.pivot j hjn)
      refine mul_le_mul pW ?_ (by positivity) (hr.pos hy.le).le
      exact one_div_le_one_div_of_le (by positivity) (pow_le_pow_right₀ (by norm_num) (by norm_num))
  have hrow : ∀ j, y ≤ j → j ≤ n → |(G y y).rat * (Arith.div (G y j) (G y y)).rat| ≤ (1 + 2 * unitRound) * W j := by
    intro j hj hjn
    have h1 := (hdiv j hj hjn).2
    have h2 := abs_sub_abs_le_abs_sub ((G y y).rat * (Arith.div (G y j) (G y y)).rat) (G y j).rat
    have h3 := (hy' j hj hjn).2
    linarith
  have hone : (Arith.div (G y y) (G y y)).rat = 1 := by
    have h1 : IsDouble (1 : ℚ) := by simpa using isDouble_int 1 (by norm_num)
    have := div_is pf.is pf.is hp0 (by rw [div_self hp0, rnd_of_isDouble h1, abs_one]; exact one_lt_pow₀ (by norm_num) (by norm_num))
    rw [div_self hp0, rnd_of_isDouble h1] at this
    exact this.rat
  have hunder : ∀ j, j ≤ n → 1 / 2 ^ 1022 ≤ unitRound * W j := by
    intro j hj
    have h1 := mul_le_mul_of_nonneg_left (hr.under j hj) hu
    refine le_trans ?_ h1
    unfold unitRound
    rw [div_mul_div_comm, one_mul, ← pow_add]
    exact one_div_le_one_div_of_le (by positivity) (pow_le_pow_right₀ (by norm_num) (by norm_num))
  have hover : ∀ j, j ≤ n → W j ≤ 2 ^ 998 := by
    intro j hj
    refine (hr.over j hj).trans ?_
    have : (0 : ℚ) ≤ 2 ^ 998 := by positivity
    exact mul_le_of_le_one_left this hr.eps_le
  have hsub : ∀ i, y ≤ i → i < n → ∀ j, y ≤ j → j ≤ n → _ := fun i hi hin j hj hjn =>
    sub_step (v := G i j) (q := Arith.div (G y j) (G y y)) (m := G i y) (hG i hi hin j hj hjn).1 (hdiv j hj hjn).1 (hG i hi hin y le_rfl hy.le).1
      (hG i hi hin j hj hjn).2 (by
        refine le_trans ?_ (hrow j hj hjn)
        rw [abs_mul, abs_mul]
        exact mul_le_mul_of_nonneg_right (hmax i hi hin) (abs_nonneg _)) (hover j hjn) (hunder j hjn)
  have hle : ∀ i, y ≤ i → i < n → (Arith.le eps (Arith.abs (G i y)) = true ↔ ε ≤ |(G i y).rat|) := by
    intro i hi hin
    rw [le_is he (abs_is (hG i hi hin y le_rfl hy.le).1.is), decide_eq_true_eq]
  refine ⟨?_, ?_, ?_, ?_, ?_⟩
  · rw [gy y le_rfl]; exact hone
  · intro j hj hjn
    rw [gy j hj]
    exact ⟨(hdiv j hj hjn).1, hrow j hj hjn⟩
  · intro i hi hin j hj hjn
    unfold elimD
    rw [if_neg (by omega)]
    by_cases hm : Arith.le eps (Arith.abs (G i y)) = true
    · rw [if_pos ⟨hi, hin, hj, hm⟩]
      have := hsub i hi.le hin j hj hjn
      exact ⟨this.1, this.2.2⟩
    · rw [if_neg (fun h => hm h.2.2.2)]
      refine ⟨(hG i hi.le hin j hj hjn).1, (hG i hi.le hin j hj hjn).2.trans ?_⟩
      have := (hr.pos hjn).le
      nlinarith
  · intro z
    have h1 : resid n G y y z = (G y y).rat * resid n (elimD eps n G y y) y y z -
        ∑ j ∈ Ico y (n + 1), ((G y y).rat * (elimD eps n G y y y j).rat - (G y j).rat) * z j := by
      unfold resid
      rw [mul_sum, ← sum_sub_distrib]
      apply sum_congr rfl
      intro j _
      ring
    rw [h1]
    refine (abs_sub _ _).trans ?_
    rw [abs_mul]
    have h2 : |∑ j ∈ Ico y (n + 1), ((G y y).rat * (elimD eps n G y y y j).rat - (G y j).rat) * z j| ≤ 4 * unitRound * ∑ j ∈ Ico y (n + 1), W j * |z j| := by
      apply abs_sum_mul_le
      intro j hj
      rw [mem_Ico] at hj
      rw [gy j hj.1]
      have h3 := (hdiv j hj.1 (by omega)).2
      have h4 := mul_nonneg hu (hr.pos (by omega : j ≤ n)).le
      linarith
    linarith
  · intro i hi hin z
    have hS : 0 ≤ ∑ j ∈ Ico y (n + 1), W j * |z j| := by
      apply sum_nonneg
      intro j hj
      rw [mem_Ico] at hj
      exact mul_nonneg (hr.pos (by omega)).le (abs_nonneg _)
    have hSS : ∑ j ∈ Ico (y + 1) (n + 1), W j * |z j| ≤ ∑ j ∈ Ico y (n + 1), W j * |z j| := by
      apply sum_le_sum_of_subset_of_nonneg
      · exact Ico_subset_Ico (by omega) le_rfl
      · intro j hj _
        rw [mem_Ico] at hj
        exact mul_nonneg (hr.pos (by omega)).le (abs_nonneg _)
    have hP : 0 ≤ |(G y y).rat| * |resid n (elimD eps n G y y) y y z| := by positivity
    rw [resid_split hy]
    by_cases hm : Arith.le eps (Arith.abs (G i y)) = true
    · have h1 : (G i y).rat * z y + resid n G (y + 1) i z = resid n (elimD eps n G y y) (y + 1) i z +
          (G i y).rat * resid n (elimD eps n G y y) y y z -
          ∑ j ∈ Ico (y + 1) (n + 1), ((elimD eps n G y y i j).rat - ((G i j).rat - (G i y).rat * (elimD eps n G y y y j).rat)) * z j := by
        rw [resid_split hy (elimD eps n G y y) y z, gy y le_rfl, hone, one_mul, mul_add]
        unfold resid
        have h2 : ∑ j ∈ Ico (y + 1) (n + 1), (G i j).rat * z j = ∑ j ∈ Ico (y + 1) (n + 1), (elimD eps n G y y i j).rat * z j +
            (G i y).rat * ∑ j ∈ Ico (y + 1) (n + 1), (elimD eps n G y y y j).rat * z j -
            ∑ j ∈ Ico (y + 1) (n + 1), ((elimD eps n G y y i j).rat - ((G i j).rat - (G i y).rat * (elimD eps n G y y y j).rat)) * z j := by
          rw [mul_sum, ← sum_add_distrib, ← sum_sub_distrib]
          apply sum_congr rfl
          intro j _
          ring
        linarith
      rw [h1]
      have h2 : |∑ j ∈ Ico (y + 1) (n + 1), ((elimD eps n G y y i j).rat - ((G i j).rat - (G i y).rat * (elimD eps n G y y y j).rat)) * z j| ≤
          4 * unitRound * ∑ j ∈ Ico (y + 1) (n + 1), W j * |z j| := by
        apply abs_sum_mul_le
        intro j hj
        rw [mem_Ico] at hj
        rw [gy j (by omega)]
        have e : elimD eps n G y y i j = Arith.sub (G i j) (Arith.mul (Arith.div (G y j) (G y y)) (G i y)) := by
          unfold elimD
          rw [if_neg (by omega), if_pos ⟨hi, hin, by omega, hm⟩]
        rw [e]
        exact (hsub i hi.le hin j (by omega) (by omega)).2.1
      have h3 : |(G i y).rat * resid n (elimD eps n G y y) y y z| ≤ |(G y y).rat| * |resid n (elimD eps n G y y) y y z| := by
        rw [abs_mul]
        exact mul_le_mul_of_nonneg_right (hmax i hi.le hin) (abs_nonneg _)
      refine (abs_sub _ _).trans ?_
      have h4 := abs_add_le (resid n (elimD eps n G y y) (y + 1) i z) ((G i y).rat * resid n (elimD eps n G y y) y y z)
      have h5 := mul_le_mul_of_nonneg_left hSS (by linarith : 0 ≤ 4 * unitRound)
      have h6 := mul_nonneg hr.eps_pos.le (abs_nonneg (z y))
      linarith
    · have h1 : resid n G (y + 1) i z = resid n (elimD eps n G y y) (y + 1) i z := by
        unfold resid
        apply sum_congr rfl
        intro j hj
        congr 2
        unfold elimD
        rw [if_neg (by omega), if_neg (fun h => hm h.2.2.2)]
      rw [hle i hi.le hin, not_le] at hm
      rw [h1]
      have h2 := abs_add_le ((G i y).rat * z y) (resid n (elimD eps n G y y) (y + 1) i z)
      rw [abs_mul] at h2
      have h3 := mul_le_mul_of_nonneg_right hm.le (abs_nonneg (z y))
      have h4 := mul_nonneg (by linarith : 0 ≤ 4 * unitRound) hS
      linarith

end Double
end Tom
