import Verif.Lemmas.DoubleElimStep
/-
The elimination loop of `SolveLinear` with doubles.
-/
namespace Tom
namespace Double
open Finset
variable {L : Libm}

/-- the largest factor by which the numbers can grow in one elimination step -/
def stepGrowth : ℚ := 2 + 8 * unitRound

theorem stepGrowth_ge : 2 ≤ stepGrowth := by
  have := u_nonneg
  unfold stepGrowth
  linarith

theorem one_le_stepGrowth (k : ℕ) : 1 ≤ stepGrowth ^ k := one_le_pow₀ (by linarith [stepGrowth_ge])

/-- numbers with enough room for the whole elimination -/
structure Room (n : ℕ) (ε : ℚ) (w : ℕ → ℚ) : Prop where
  eps_pos : 0 < ε
  eps_le : ε ≤ 1
  under : ∀ j, j ≤ n → 1 / 2 ^ 900 ≤ w j
  pivot : ∀ i j, i < n → j ≤ n → w i * (1 / 2 ^ 1000) ≤ w j
  over : ∀ j, j ≤ n → stepGrowth ^ n * w j ≤ ε * 2 ^ 998

theorem Room.pos {n : ℕ} {ε : ℚ} {w : ℕ → ℚ} (h : Room n ε w) {j : ℕ} (hj : j ≤ n) : 0 < w j :=
  lt_of_lt_of_le (by positivity) (h.under j hj)

theorem Room.step {n : ℕ} {ε : ℚ} {w : ℕ → ℚ} (h : Room n ε w) {y : ℕ} (hy : y < n) : StepRoom n y ε (fun j => stepGrowth ^ y * w j) where
  eps_pos := h.eps_pos
  eps_le := h.eps_le
  under j hj := (h.under j hj).trans (le_mul_of_one_le_left (h.pos hj).le (one_le_stepGrowth y))
  pivot j hj := by
    rw [mul_assoc]
    exact mul_le_mul_of_nonneg_left (h.pivot y j hy hj) (le_trans zero_le_one (one_le_stepGrowth y))
  over j hj := le_trans (mul_le_mul_of_nonneg_right (pow_le_pow_right₀ (by linarith [stepGrowth_ge]) hy.le) (h.pos hj).le) (h.over j hj)

/-- the error that step `k` may add to a residual -/
def stepErr (n : ℕ) (ε : ℚ) (w : ℕ → ℚ) (y : ℕ) (z : ℕ → ℚ) (k : ℕ) : ℚ :=
  4 * unitRound * (stepGrowth ^ k * ∑ j ∈ Ico y (n + 1), w j * |z j|) + ε * |z k|

theorem wsum_mono {n : ℕ} {ε : ℚ} {w : ℕ → ℚ} (h : Room n ε w) (y : ℕ) (z : ℕ → ℚ) :
    ∑ j ∈ Ico (y + 1) (n + 1), w j * |z j| ≤ ∑ j ∈ Ico y (n + 1), w j * |z j| := by
  apply sum_le_sum_of_subset_of_nonneg
  · exact Ico_subset_Ico (by omega) le_rfl
  · intro j hj _
    rw [mem_Ico] at hj
    exact mul_nonneg (h.pos (by omega)).le (abs_nonneg _)

theorem stepErr_mono {n : ℕ} {ε : ℚ} {w : ℕ → ℚ} (h : Room n ε w) (y : ℕ) (z : ℕ → ℚ) (k : ℕ) :
    stepErr n ε w (y + 1) z k ≤ stepErr n ε w y z k := by
  unfold stepErr
  have h1 := wsum_mono h y z
  have hu := u_nonneg
  have h2 := mul_le_mul_of_nonneg_left h1 (le_trans zero_le_one (one_le_stepGrowth k))
  have h3 := mul_le_mul_of_nonneg_left h2 (by linarith : 0 ≤ 4 * unitRound)
  linarith

theorem stepErr_nonneg {n : ℕ} {ε : ℚ} {w : ℕ → ℚ} (h : Room n ε w) (y : ℕ) (z : ℕ → ℚ) (k : ℕ) : 0 ≤ stepErr n ε w y z k := by
  have hu := u_nonneg
  have h1 : 0 ≤ ∑ j ∈ Ico y (n + 1), w j * |z j| := by
    apply sum_nonneg
    intro j hj
    rw [mem_Ico] at hj
    exact mul_nonneg (h.pos (by omega)).le (abs_nonneg _)
  have h2 := one_le_stepGrowth k
  have h3 := h.eps_pos
  unfold stepErr
  positivity

/-- what the finished elimination says about the equations -/
structure Done (n : ℕ) (ε : ℚ) (w : ℕ → ℚ) (y : ℕ) (G G' : ℕ → ℕ → Double L) (p : ℕ → ℚ) : Prop where
  one : ∀ k, y ≤ k → k < n → (G' k k).rat = 1
  pivot : ∀ k, y ≤ k → k < n → |p k| ≤ stepGrowth ^ k * w k
  low : ∀ k, y ≤ k → k < n → ε ≤ |p k|
  row : ∀ k, y ≤ k → k < n → ∀ j, k ≤ j → j ≤ n → (G' k j).Finite ∧ |p k * (G' k j).rat| ≤ (1 + 2 * unitRound) * (stepGrowth ^ k * w j)
  res : ∀ z i, y ≤ i → i < n → |resid n G y i z| ≤ ∑ k ∈ Ico y n, (|p k| * |resid n G' k k z| + stepErr n ε w y z k)

/-- the matrix is too close to a singular one -/
def Fail (n : ℕ) (ε : ℚ) (w : ℕ → ℚ) (y : ℕ) (G : ℕ → ℕ → Double L) (z : ℕ → ℚ) : Prop :=
  z n = 0 ∧ 0 < ∑ j ∈ Ico y n, |z j| ∧ ∀ i, y ≤ i → i < n → |resid n G y i z| ≤ ∑ k ∈ Ico y n, stepErr n ε w y z k

theorem resid_perm (n : ℕ) (G : ℕ → ℕ → Double L) (σ : ℕ → ℕ) (y i : ℕ) (z : ℕ → ℚ) :
    resid n (fun i j => G (σ i) j) y i z = resid n G y (σ i) z := rfl

theorem Done.perm {n : ℕ} {ε : ℚ} {w : ℕ → ℚ} {y : ℕ} {G G' : ℕ → ℕ → Double L} {p : ℕ → ℚ} {σ : Equiv.Perm ℕ} (hσ : RowPerm n y σ)
    (h : Done n ε w y (fun i j => G (σ i) j) G' p) : Done n ε w y G G' p where
  one := h.one
  pivot := h.pivot
  low := h.low
  row := h.row
  res z i h1 h2 := by
    have h3 := (hσ.mem (σ.symm i)).mp (by simpa using ⟨h1, h2⟩)
    have := h.res z (σ.symm i) h3.1 h3.2
    rw [resid_perm] at this
    simpa using this

theorem Fail.perm {n : ℕ} {ε : ℚ} {w : ℕ → ℚ} {y : ℕ} {G : ℕ → ℕ → Double L} {z : ℕ → ℚ} {σ : Equiv.Perm ℕ} (hσ : RowPerm n y σ)
    (h : Fail n ε w y (fun i j => G (σ i) j) z) : Fail n ε w y G z := by
  refine ⟨h.1, h.2.1, fun i h1 h2 => ?_⟩
  have h3 := (hσ.mem (σ.symm i)).mp (by simpa using ⟨h1, h2⟩)
  have := h.2.2 (σ.symm i) h3.1 h3.2
  rw [resid_perm] at this
  simpa using this

/-- no usable pivot in column `y` -/
theorem fail_here {n : ℕ} {ε : ℚ} {w : ℕ → ℚ} (hr : Room n ε w) {y : ℕ} (hy : y < n) {G : ℕ → ℕ → Double L}
    (h : ∀ i, y ≤ i → i < n → |(G i y).rat| < ε) : Fail n ε w y G (fun j => if j = y then 1 else 0) := by
  refine ⟨if_neg (by omega), ?_, ?_⟩
  · apply sum_pos'
    · intro j _; exact abs_nonneg _
    · exact ⟨y, by simp [hy], by simp⟩
  · intro i h1 h2
    have e : resid n G y i (fun j => if j = y then 1 else 0) = (G i y).rat := by
      unfold resid
      rw [sum_eq_single y]
      · simp
      · intro j _ hj; simp [hj]
      · intro hj; exact absurd (by simp; omega) hj
    rw [e]
    refine le_trans ?_ (single_le_sum (f := stepErr n ε w y fun j => if j = y then 1 else 0) (fun k _ => stepErr_nonneg hr _ _ _)
      (mem_Ico.mpr ⟨le_rfl, hy⟩))
    have h3 := h i h1 h2
    have h4 : ε = ε * |(if y = y then (1 : ℚ) else 0)| := by simp
    unfold stepErr
    have hu := u_nonneg
    have h5 : 0 ≤ ∑ j ∈ Ico y (n + 1), w j * |(if j = y then (1 : ℚ) else 0)| := by
      apply sum_nonneg
      intro j hj
      rw [mem_Ico] at hj
      exact mul_nonneg (hr.pos (by omega)).le (abs_nonneg _)
    have h6 := one_le_stepGrowth y
    have h7 : 0 ≤ 4 * unitRound * (stepGrowth ^ y * ∑ j ∈ Ico y (n + 1), w j * |(if j = y then (1 : ℚ) else 0)|) := by positivity
    linarith

theorem step_err_eq {n : ℕ} {w : ℕ → ℚ} (y : ℕ) (z : ℕ → ℚ) :
    4 * unitRound * ∑ j ∈ Ico y (n + 1), stepGrowth ^ y * w j * |z j| = 4 * unitRound * (stepGrowth ^ y * ∑ j ∈ Ico y (n + 1), w j * |z j|) := by
  congr 1
  rw [mul_sum]
  apply sum_congr rfl
  intro j _
  ring

theorem done_step {n : ℕ} {ε : ℚ} {w : ℕ → ℚ} (hr : Room n ε w) {y : ℕ} (hy : y < n) {G G1 G' : ℕ → ℕ → Double L} {p : ℕ → ℚ}
    (hW : ∀ j, y ≤ j → j ≤ n → |(G y j).rat| ≤ stepGrowth ^ y * w j)
    (hlow : ε ≤ |(G y y).rat|)
    (hs : Step n y ε (fun j => stepGrowth ^ y * w j) G G1) (hrow : ∀ j, G' y j = G1 y j) (h : Done n ε w (y + 1) G1 G' p) :
    Done n ε w y G G' (Function.update p y (G y y).rat) := by
  have hp : ∀ k, y + 1 ≤ k → Function.update p y (G y y).rat k = p k := fun k hk => Function.update_of_ne (by omega) _ _
  have hpy : Function.update p y (G y y).rat y = (G y y).rat := Function.update_self ..
  refine ⟨?_, ?_, ?_, ?_, ?_⟩
  · intro k hk hkn
    rcases Nat.eq_or_lt_of_le hk with rfl | hk
    · rw [hrow]; exact hs.one
    · exact h.one k hk hkn
  · intro k hk hkn
    rcases Nat.eq_or_lt_of_le hk with rfl | hk
    · rw [hpy]; exact hW _ le_rfl hy.le
    · rw [hp k hk]; exact h.pivot k hk hkn
  · intro k hk hkn
    rcases Nat.eq_or_lt_of_le hk with rfl | hk
    · rw [hpy]; exact hlow
    · rw [hp k hk]; exact h.low k hk hkn
  · intro k hk hkn j hkj hjn
    rcases Nat.eq_or_lt_of_le hk with rfl | hk
    · rw [hpy, hrow]; exact hs.row j hkj hjn
    · rw [hp k hk]; exact h.row k hk hkn j hkj hjn
  · intro z i hi hin
    have ey : resid n G' y y z = resid n G1 y y z := by
      unfold resid
      apply sum_congr rfl
      intro j _
      rw [hrow]
    rw [sum_eq_sum_Ico_succ_bot hy, hpy, ey]
    have hsum : ∑ k ∈ Ico (y + 1) n, (|p k| * |resid n G' k k z| + stepErr n ε w (y + 1) z k) ≤
        ∑ k ∈ Ico (y + 1) n, (|Function.update p y (G y y).rat k| * |resid n G' k k z| + stepErr n ε w y z k) := by
      apply sum_le_sum
      intro k hk
      rw [mem_Ico] at hk
      rw [hp k hk.1]
      linarith [stepErr_mono hr y z k]
    have hnn : 0 ≤ ∑ k ∈ Ico (y + 1) n, (|p k| * |resid n G' k k z| + stepErr n ε w (y + 1) z k) := by
      apply sum_nonneg
      intro k _
      have := stepErr_nonneg hr (y + 1) z k
      positivity
    have he := step_err_eq (n := n) (w := w) y z
    have hz := mul_nonneg hr.eps_pos.le (abs_nonneg (z y))
    rcases Nat.eq_or_lt_of_le hi with rfl | hi
    · have h1 := hs.res z
      rw [he] at h1
      unfold stepErr at hsum hnn ⊢
      linarith
    · have h1 := hs.resBelow i hi hin z
      have h2 := h.res z i hi hin
      rw [he] at h1
      have h3 : stepErr n ε w y z y = 4 * unitRound * (stepGrowth ^ y * ∑ j ∈ Ico y (n + 1), w j * |z j|) + ε * |z y| := rfl
      linarith

theorem fail_step {n : ℕ} {ε : ℚ} {w : ℕ → ℚ} (hr : Room n ε w) {y : ℕ} (hy : y < n) {G G1 : ℕ → ℕ → Double L} {z : ℕ → ℚ}
    (hs : Step n y ε (fun j => stepGrowth ^ y * w j) G G1) (h : Fail n ε w (y + 1) G1 z) :
    ∃ z', Fail n ε w y G z' := by
  obtain ⟨h1, h2, h3⟩ := h
  set z' : ℕ → ℚ := Function.update z y (-resid n G1 (y + 1) y z) with hz'
  have hk : ∀ k, y + 1 ≤ k → z' k = z k := fun k hk => Function.update_of_ne (by omega) _ _
  have hres : ∀ i, resid n G1 (y + 1) i z' = resid n G1 (y + 1) i z := by
    intro i
    unfold resid
    apply sum_congr rfl
    intro j hj
    rw [mem_Ico] at hj
    rw [hk j hj.1]
  have hzero : resid n G1 y y z' = 0 := by
    rw [resid_split hy, hs.one, hres]
    simp [hz']
  have hw : ∑ j ∈ Ico (y + 1) (n + 1), w j * |z j| = ∑ j ∈ Ico (y + 1) (n + 1), w j * |z' j| := by
    apply sum_congr rfl
    intro j hj
    rw [mem_Ico] at hj
    rw [hk j hj.1]
  have hsum : ∑ k ∈ Ico (y + 1) n, stepErr n ε w (y + 1) z k ≤ ∑ k ∈ Ico (y + 1) n, stepErr n ε w y z' k := by
    apply sum_le_sum
    intro k hkk
    rw [mem_Ico] at hkk
    refine le_trans (le_of_eq ?_) (stepErr_mono hr y z' k)
    unfold stepErr
    rw [hw, hk k hkk.1]
  have hnn : 0 ≤ ∑ k ∈ Ico (y + 1) n, stepErr n ε w y z' k := sum_nonneg fun k _ => stepErr_nonneg hr _ _ _
  have he := step_err_eq (n := n) (w := w) y z'
  have hz := mul_nonneg hr.eps_pos.le (abs_nonneg (z' y))
  have h5 : stepErr n ε w y z' y = 4 * unitRound * (stepGrowth ^ y * ∑ j ∈ Ico y (n + 1), w j * |z' j|) + ε * |z' y| := rfl
  refine ⟨z', ?_, ?_, ?_⟩
  · rw [hk n (by omega)]; exact h1
  · rw [sum_eq_sum_Ico_succ_bot hy]
    have : ∑ j ∈ Ico (y + 1) n, |z' j| = ∑ j ∈ Ico (y + 1) n, |z j| := by
      apply sum_congr rfl
      intro j hj
      rw [mem_Ico] at hj
      rw [hk j hj.1]
    rw [this]
    exact add_pos_of_nonneg_of_pos (abs_nonneg _) h2
  · intro i hi hin
    rw [sum_eq_sum_Ico_succ_bot hy]
    rcases Nat.eq_or_lt_of_le hi with rfl | hi
    · have h6 := hs.res z'
      rw [hzero, abs_zero, mul_zero, he] at h6
      linarith
    · have h6 := hs.resBelow i hi hin z'
      have h7 := h3 i hi hin
      rw [hzero, abs_zero, mul_zero, he, hres] at h6
      linarith

theorem elimLoop_double {n : ℕ} {eps : Double L} {ε : ℚ} (he : eps.Is ε) {w : ℕ → ℚ} (hr : Room n ε w) (trn : List ℕ) (ra rb : ℕ) :
    ∀ fuel y (f : ℕ → ℕ → Double L) (b : ℕ → Double L), y ≤ n → n ≤ y + fuel →
    (∀ i, y ≤ i → i < n → ∀ j, y ≤ j → j ≤ n → (aug n f b i j).Finite ∧ |(aug n f b i j).rat| ≤ stepGrowth ^ y * w j) →
    (∃ f' b' p, elimLoop eps fuel ⟨Mat.mk' n n f, Mat.mk' n 1 fun i _ => b i, trn, ra, rb⟩ y y
        = .ok ⟨Mat.mk' n n f', Mat.mk' n 1 fun i _ => b' i, trn, ra, rb⟩ ∧
        (∀ i, i < y → ∀ j, aug n f' b' i j = aug n f b i j) ∧ Done n ε w y (aug n f b) (aug n f' b') p) ∨
      ∃ z, Fail n ε w y (aug n f b) z := by
  intro fuel
  induction fuel with
  | zero =>
    intro y f b hy hfuel hb
    left
    refine ⟨f, b, fun _ => 0, ?_, fun _ _ _ => rfl, ?_⟩
    · unfold elimLoop
      rw [if_neg (by simp; omega)]
    · exact ⟨by omega, by omega, by omega, by omega, by omega⟩
  | succ fuel ih =>
    intro y f b hy hfuel hb
    by_cases hyn : y = n
    · left
      refine ⟨f, b, fun _ => 0, ?_, fun _ _ _ => rfl, ?_⟩
      · unfold elimLoop
        rw [if_neg (by simp; omega)]
      · exact ⟨by omega, by omega, by omega, by omega, by omega⟩
    · have hlt : y < n := by omega
      have haug : ∀ i, aug n f b i y = f i y := fun i => by unfold aug; rw [if_pos hlt]
      have hcol : ∀ k, y ≤ k → k < n → (f k y).Finite := fun k h1 h2 => by
        rw [← haug]; exact (hb k h1 h2 y le_rfl hy).1
      obtain ⟨σ, hσ, hbr, hmax⟩ := bringPivot_double f hlt hlt hcol
      by_cases hp : ε ≤ |(f (σ y) y).rat|
      · -- a usable pivot
        have hG : ∀ i, y ≤ i → i < n → ∀ j, y ≤ j → j ≤ n → (aug n f b (σ i) j).Finite ∧ |(aug n f b (σ i) j).rat| ≤ stepGrowth ^ y * w j :=
          fun i h1 h2 => hb (σ i) ((hσ.mem i).mpr ⟨h1, h2⟩).1 ((hσ.mem i).mpr ⟨h1, h2⟩).2
        have hs := elim_step he hlt (hr.step hlt) (G := fun i j => aug n f b (σ i) j) hG
          (fun i h1 h2 => by
            simp only [haug]
            exact hmax (σ i) ((hσ.mem i).mpr ⟨h1, h2⟩).1 ((hσ.mem i).mpr ⟨h1, h2⟩).2) (by simpa only [haug] using hp)
        rw [← aug_perm, ← aug_elim eps hlt] at hs
        set f1 := elimD eps n (fun i j => f (σ i) j) y y with hf1
        set b1 := elimBD eps n (fun i j => f (σ i) j) y y (fun i => b (σ i)) with hb1
        have hloop : elimLoop eps (fuel + 1) ⟨Mat.mk' n n f, Mat.mk' n 1 fun i _ => b i, trn, ra, rb⟩ y y
            = elimLoop eps fuel ⟨Mat.mk' n n f1, Mat.mk' n 1 fun i _ => b1 i, trn, ra, rb⟩ (y + 1) (y + 1) := by
          conv_lhs => unfold elimLoop
          rw [if_pos ⟨hlt, hlt⟩]
          simp only
          rw [hbr b, Res.bind_ok]
          simp only [Mat.mk'_cols]
          rw [findPivot_double he (fun i j => f (σ i) j) _ _ hlt hlt (hcol (σ y) ((hσ.mem y).mpr ⟨le_rfl, hlt⟩).1 ((hσ.mem y).mpr ⟨le_rfl, hlt⟩).2) hp, Res.bind_ok]
          simp only [Mat.mk'_cols]
          rw [if_neg (by omega), eliminate_mk' eps _ _ hlt hlt, Res.bind_ok]
          simp only [Nat.lt_irrefl, gt_iff_lt, if_false]
          rfl
        rw [hloop]
        have hnext : ∀ i, y + 1 ≤ i → i < n → ∀ j, y + 1 ≤ j → j ≤ n → (aug n f1 b1 i j).Finite ∧ |(aug n f1 b1 i j).rat| ≤ stepGrowth ^ (y + 1) * w j := by
          intro i h1 h2 j h3 h4
          have := hs.below i h1 h2 j (by omega) h4
          refine ⟨this.1, this.2.trans (le_of_eq ?_)⟩
          simp only [stepGrowth, pow_succ]
          ring
        rcases ih (y + 1) f1 b1 (by omega) (by omega) hnext with ⟨f', b', p, e1, e2, e3⟩ | ⟨z, hz⟩
        · left
          refine ⟨f', b', _, e1, ?_, Done.perm hσ ?_ (p := Function.update p y (aug n (fun i j => f (σ i) j) (fun i => b (σ i)) y y).rat)⟩
          · intro i hi j
            rw [e2 i (by omega) j, hf1, hb1, aug_elim eps hlt, aug_perm]
            unfold elimD
            rw [if_neg (by omega), if_neg (by omega)]
            simp only [hσ.below i hi]
          · rw [← aug_perm n f b σ]
            refine done_step hr hlt ?_ (by rw [aug_perm]; simpa only [haug] using hp) hs (fun j => e2 y (by omega) j) e3
            intro j h1 h2
            rw [aug_perm]
            exact (hG y le_rfl hlt j h1 h2).2
        · right
          obtain ⟨z', hz'⟩ := fail_step hr hlt hs hz
          rw [aug_perm] at hz'
          exact ⟨z', hz'.perm hσ⟩
      · right
        refine ⟨_, fail_here hr hlt ?_⟩
        intro i h1 h2
        rw [haug]
        exact (hmax i h1 h2).trans_lt (not_le.mp hp)

end Double
end Tom
