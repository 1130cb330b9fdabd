import Verif.Spec.DoubleLinear
import Verif.Lemmas.DoubleResidual
import Verif.Props.IeeeUnderflow
/-
C80: `SolveLinear` with doubles, on square systems that are not too close to a singular one.
-/
namespace Tom
namespace Double
open Finset
variable {L : Libm}

theorem growth_eq : growth = stepGrowth := by norm_num [growth, stepGrowth, unitRound]

theorem WellScaled.room {n : ℕ} {ε a β : ℚ} {A : Matrix (Fin n) (Fin n) (Double L)} {b : Fin n → Double L} (hn : 0 < n)
    (h : WellScaled ε a β A b) : Room n ε (weight n a β) := by
  have ha0 : 0 < a := lt_of_lt_of_le (by positivity) h.a_small
  refine ⟨h.eps_pos, h.eps_le, ?_, ?_, ?_⟩
  · intro j hj
    unfold weight
    split
    · exact h.a_small
    · exact h.β_small
  · intro i j hi hj
    rw [weight_lt hi]
    unfold weight
    split
    · apply mul_le_of_le_one_right ha0.le
      rw [div_le_one (by positivity)]
      exact one_le_pow₀ (by norm_num)
    · refine le_trans ?_ h.balanced
      apply mul_le_mul_of_nonneg_right _ (by positivity)
      apply le_mul_of_one_le_left ha0.le
      exact_mod_cast hn
  · intro j hj
    rw [← growth_eq]
    unfold weight
    split
    · exact h.a_big
    · exact h.β_big

/-- the vector as a function on the naturals -/
def extV {n : ℕ} (b : Fin n → Double L) (i : ℕ) : Double L := if h : i < n then b ⟨i, h⟩ else Arith.zero

theorem extV_fin {n : ℕ} (b : Fin n → Double L) (i : Fin n) : extV b i = b i := by unfold extV; rw [dif_pos i.2]
theorem extE_fin {n : ℕ} (A : Matrix (Fin n) (Fin n) (Double L)) (i j : Fin n) : extE A i j = A i j := by
  unfold extE
  simp

theorem vec_eq {n : ℕ} (b : Fin n → Double L) : vec b = Mat.mk' n 1 fun i _ => extV b i := by
  rw [mk'_eq]
  unfold vec ofEntries
  congr 1
  apply List.ext_getElem
  · simp
  · intro i h1 h2
    have hi : i < n := by simpa using h1
    simp only [List.getElem_ofFn, Matrix.of_apply, extV, Fin.coe_divNat, Nat.div_one, hi, dif_pos]

theorem vec_mk' {n : ℕ} (w : ℕ → Double L) : (Mat.mk' n 1 fun i _ => w i) = vec fun i : Fin n => w i := by
  rw [vec_eq]
  apply Mat.mk'_congr
  intro i j hi _
  unfold extV
  rw [dif_pos hi]

theorem run {n : ℕ} (hn : 0 < n) (cfg : Config (Double L)) {ε a β : ℚ} (he : cfg.epsilon.Is ε)
    {A : Matrix (Fin n) (Fin n) (Double L)} {b : Fin n → Double L} (h : WellScaled ε a β A b)
    (hA : Stretches (ε + 4 / 2 ^ 53 * growth ^ n * a) (ratMatrix A)) :
    ∃ (f' : ℕ → ℕ → Double L) (b' : ℕ → Double L) (p : ℕ → ℚ) (x : ℕ → Double L),
      Done n ε (weight n a β) 0 (aug n (extE A) (extV b)) (aug n f' b') p ∧ (∀ i, i < n → BackRow n f' b' x i) ∧
      solveLinear cfg (ofEntries A) (vec b) = .ok (vec fun i : Fin n => x i) := by
  have hr := WellScaled.room hn h
  have hb : ∀ i, 0 ≤ i → i < n → ∀ j, 0 ≤ j → j ≤ n → (aug n (extE A) (extV b) i j).Finite ∧
      |(aug n (extE A) (extV b) i j).rat| ≤ stepGrowth ^ 0 * weight n a β j := by
    intro i _ hi j _ hj
    rw [pow_zero, one_mul]
    rcases Nat.eq_or_lt_of_le hj with rfl | hj
    · rw [aug_n, weight_n]
      have := h.rhs ⟨i, hi⟩
      rw [← extV_fin b ⟨i, hi⟩] at this
      exact this
    · rw [aug_lt hj, weight_lt hj]
      have := h.entries ⟨i, hi⟩ ⟨j, hj⟩
      rw [← extE_fin A ⟨i, hi⟩ ⟨j, hj⟩] at this
      exact this
  rcases elimLoop_double he hr (List.replicate n 0) n n (n + 1) 0 (extE A) (extV b) (Nat.zero_le _) (by omega) hb with
    ⟨f', b', p, h1, -, h3⟩ | ⟨z, hz0, hz1, hz2⟩
  · obtain ⟨x, h4, h5⟩ := solveLinear_double cfg hn h1
    refine ⟨f', b', p, x, h3, h5, ?_⟩
    rw [ofEntries_eq, vec_eq, h4, vec_mk']
  · exfalso
    have hne : (fun j : Fin n => z j) ≠ 0 := by
      intro h0
      rw [← range_eq_Ico, ← Fin.sum_univ_eq_sum_range (fun j => |z j|)] at hz1
      have : ∀ j : Fin n, z j = 0 := fun j => congrFun h0 j
      simp [this] at hz1
    obtain ⟨i, hi⟩ := hA _ hne
    have h2 := hz2 i (Nat.zero_le _) i.2
    have hz : z = fun j => if j < n then z j else z j := by funext j; simp
    have e1 : resid n (aug n (extE A) (extV b)) 0 i z = (ratMatrix A).mulVec (fun j : Fin n => z j) i := by
      unfold resid
      rw [sum_Ico_succ_top (Nat.zero_le _), hz0, mul_zero, add_zero, ← range_eq_Ico,
        ← Fin.sum_univ_eq_sum_range (fun j => (aug n (extE A) (extV b) i j).rat * z j)]
      unfold Matrix.mulVec dotProduct
      apply sum_congr rfl
      intro j _
      rw [aug_lt j.2, extE_fin]
      rfl
    rw [e1] at h2
    set Z := ∑ j : Fin n, |z j| with hZ
    have hZ0 : 0 ≤ Z := sum_nonneg fun _ _ => abs_nonneg _
    have eZ : ∑ j ∈ range n, |z j| = Z := by rw [hZ, ← Fin.sum_univ_eq_sum_range (fun j => |z j|)]
    have e2 : ∑ j ∈ Ico 0 (n + 1), weight n a β j * |z j| = a * Z := by
      rw [← range_eq_Ico, sum_range_succ, hz0, abs_zero, mul_zero, add_zero, ← eZ, mul_sum]
      apply sum_congr rfl
      intro j hj
      rw [weight_lt (mem_range.mp hj)]
    have e3 : ∑ k ∈ Ico 0 n, stepErr n ε (weight n a β) 0 z k ≤ (ε + 4 / 2 ^ 53 * growth ^ n * a) * Z := by
      unfold stepErr
      rw [sum_add_distrib, e2, ← range_eq_Ico, ← mul_sum, ← mul_sum, eZ, ← sum_mul]
      have ha0 : 0 ≤ a := le_trans (by positivity) h.a_small
      have hg := mul_le_mul_of_nonneg_right (geom_le n) (mul_nonneg ha0 hZ0)
      have hu := u_nonneg
      have hg2 := mul_le_mul_of_nonneg_left hg (by linarith : 0 ≤ 4 * unitRound)
      rw [growth_eq, show (4 : ℚ) / 2 ^ 53 = 4 * unitRound by norm_num [unitRound]]
      linarith
    linarith

theorem residualBound_eq {n : ℕ} (ε a β : ℚ) (x : ℕ → Double L) : residualBound ε a β (fun i : Fin n => x i) =
    ε * ∑ j ∈ range n, |(x j).rat| + 6 * ((1 + unitRound) ^ n - 1) * stepGrowth ^ n * (a * ∑ j ∈ range n, |(x j).rat| + β) := by
  unfold residualBound
  rw [growth_eq, Fin.sum_univ_eq_sum_range (fun j => |(x j).rat|)]
  rfl

theorem mulVec_eq {n : ℕ} (A : Matrix (Fin n) (Fin n) (Double L)) (x : ℕ → Double L) (i : Fin n) :
    (ratMatrix A).mulVec (fun j => (x j).rat) i = ∑ j ∈ range n, (extE A i j).rat * (x j).rat := by
  rw [← Fin.sum_univ_eq_sum_range (fun j => (extE A i j).rat * (x j).rat)]
  unfold Matrix.mulVec dotProduct
  apply sum_congr rfl
  intro j _
  rw [extE_fin]
  rfl

/-- C80: on a well-scaled square system whose matrix is not too close to a singular one, `SolveLinear` returns a vector of the right size, and
if its entries are finite it satisfies every equation up to `residualBound`. -/
theorem C80_residual {n : ℕ} (hn : 0 < n) (cfg : Config (Double L)) {ε a β : ℚ} (he : cfg.epsilon.Is ε)
    (A : Matrix (Fin n) (Fin n) (Double L)) (b : Fin n → Double L) (h : WellScaled ε a β A b)
    (hA : Stretches (ε + 4 / 2 ^ 53 * growth ^ n * a) (ratMatrix A)) :
    ∃ x : Fin n → Double L, solveLinear cfg (ofEntries A) (vec b) = .ok (vec x) ∧
      ((∀ i, (x i).Finite) → ∀ i, |(ratMatrix A).mulVec (fun j => (x j).rat) i - (b i).rat| ≤ residualBound ε a β x) := by
  obtain ⟨f', b', p, x, h1, h2, h3⟩ := run hn cfg he h hA
  refine ⟨fun i => x i, h3, fun hf i => ?_⟩
  rw [residualBound_eq, mulVec_eq, ← extV_fin b i]
  exact residual_nat hn (le_trans (by positivity) h.a_small) h.balanced h1 h2 (fun i hi => hf ⟨i, hi⟩) i i.2

/-- C80: the entries of the solution are finite, and the bound holds, if the (crude) bound for their size leaves room. -/
theorem C80_finite {n : ℕ} (hn : 0 < n) (cfg : Config (Double L)) {ε a β : ℚ} (he : cfg.epsilon.Is ε)
    (A : Matrix (Fin n) (Fin n) (Double L)) (b : Fin n → Double L) (h : WellScaled ε a β A b)
    (hA : Stretches (ε + 4 / 2 ^ 53 * growth ^ n * a) (ratMatrix A))
    (hroom : 2 * growth ^ n * β / ε * (1 + 2 * growth ^ n * a / ε) ^ n ≤ 2 ^ 998) :
    ∃ x : Fin n → Double L, solveLinear cfg (ofEntries A) (vec b) = .ok (vec x) ∧ (∀ i, (x i).Finite) ∧
      ∀ i, |(ratMatrix A).mulVec (fun j => (x j).rat) i - (b i).rat| ≤ residualBound ε a β x := by
  obtain ⟨f', b', p, x, h1, h2, h3⟩ := run hn cfg he h hA
  have ha0 : 0 ≤ a := le_trans (by positivity) h.a_small
  have hf := finite_nat (WellScaled.room hn h) ha0 h1 h2 rfl rfl (by rw [← growth_eq]; exact hroom) n le_rfl
  refine ⟨fun i => x i, h3, fun i => (hf i (by omega) i.2).1, fun i => ?_⟩
  rw [residualBound_eq, mulVec_eq, ← extV_fin b i]
  exact residual_nat hn ha0 h.balanced h1 h2 (fun i hi => (hf i (by omega) hi).1) i i.2

/-- C80: the distance to the exact solution `y`, if `A` stretches every vector by more than `κ`. -/
theorem C80_forward {n : ℕ} (hn : 0 < n) (cfg : Config (Double L)) {ε a β κ : ℚ} (he : cfg.epsilon.Is ε)
    (A : Matrix (Fin n) (Fin n) (Double L)) (b : Fin n → Double L) (h : WellScaled ε a β A b)
    (hκ : ε + 4 / 2 ^ 53 * growth ^ n * a ≤ κ) (hA : Stretches κ (ratMatrix A))
    (hroom : 2 * growth ^ n * β / ε * (1 + 2 * growth ^ n * a / ε) ^ n ≤ 2 ^ 998)
    (y : Fin n → ℚ) (hy : (ratMatrix A).mulVec y = fun i => (b i).rat) :
    ∃ x : Fin n → Double L, solveLinear cfg (ofEntries A) (vec b) = .ok (vec x) ∧ (∀ i, (x i).Finite) ∧
      ∑ j, |(x j).rat - y j| ≤ residualBound ε a β x / κ := by
  have hA' : Stretches (ε + 4 / 2 ^ 53 * growth ^ n * a) (ratMatrix A) := by
    intro z hz
    obtain ⟨i, hi⟩ := hA z hz
    exact ⟨i, lt_of_le_of_lt (mul_le_mul_of_nonneg_right hκ (sum_nonneg fun _ _ => abs_nonneg _)) hi⟩
  obtain ⟨x, h1, h2, h3⟩ := C80_finite hn cfg he A b h hA' hroom
  refine ⟨x, h1, h2, ?_⟩
  have ha0 : 0 ≤ a := le_trans (by positivity) h.a_small
  have hg0 : 0 ≤ growth ^ n := by rw [growth_eq]; exact le_trans zero_le_one (one_le_stepGrowth n)
  have hκ0 : 0 < κ := lt_of_lt_of_le (by have := h.eps_pos; positivity) hκ
  rw [le_div_iff₀ hκ0, mul_comm]
  by_cases hz : (fun j => (x j).rat - y j) = 0
  · have h0 : ∀ j, (x j).rat - y j = 0 := fun j => congrFun hz j
    simp only [h0, abs_zero, sum_const_zero, mul_zero]
    exact le_trans (abs_nonneg _) (h3 ⟨0, hn⟩)
  · obtain ⟨i, hi⟩ := hA _ hz
    refine hi.le.trans (le_trans (le_of_eq ?_) (h3 i))
    have : (fun j => (x j).rat - y j) = (fun j => (x j).rat) - y := rfl
    rw [this, Matrix.mulVec_sub, hy]
    rfl

/-! A concrete system: `2 x + y = 3`, `x + 3 y = 5` with the default configuration. -/

/-- the matrix of the example -/
def exA : Matrix (Fin 2) (Fin 2) (Double libm0) := !![Dbl.ofInt 2, Dbl.ofInt 1; Dbl.ofInt 1, Dbl.ofInt 3]
/-- its right-hand side -/
def exB : Fin 2 → Double libm0 := ![Dbl.ofInt 3, Dbl.ofInt 5]

theorem exA_rat : ratMatrix exA = !![2, 1; 1, 3] := by
  ext i j
  fin_cases i <;> fin_cases j <;> (simp [ratMatrix, exA]; decide +kernel)

theorem exA_stretches : Stretches (1 / 2) (ratMatrix exA) := by
  rw [exA_rat]
  intro z hz
  by_contra hcon
  push Not at hcon
  have h0 := hcon 0
  have h1 := hcon 1
  simp only [Matrix.mulVec, dotProduct, Fin.sum_univ_two, Matrix.of_apply, Matrix.cons_val_zero, Matrix.cons_val_one, Matrix.cons_val', Fin.isValue] at h0 h1
  have e0 : 5 * z 0 = 3 * (2 * z 0 + 1 * z 1) - (1 * z 0 + 3 * z 1) := by ring
  have e1 : 5 * z 1 = 2 * (1 * z 0 + 3 * z 1) - (2 * z 0 + 1 * z 1) := by ring
  have k0 : 5 * |z 0| ≤ 3 * |2 * z 0 + 1 * z 1| + |1 * z 0 + 3 * z 1| := by
    have := congrArg abs e0
    rw [abs_mul, abs_of_pos (by norm_num : (0 : ℚ) < 5)] at this
    rw [this]
    refine (abs_sub _ _).trans ?_
    rw [abs_mul, abs_of_pos (by norm_num : (0 : ℚ) < 3)]
  have k1 : 5 * |z 1| ≤ 2 * |1 * z 0 + 3 * z 1| + |2 * z 0 + 1 * z 1| := by
    have := congrArg abs e1
    rw [abs_mul, abs_of_pos (by norm_num : (0 : ℚ) < 5)] at this
    rw [this]
    refine (abs_sub _ _).trans ?_
    rw [abs_mul, abs_of_pos (by norm_num : (0 : ℚ) < 2)]
  have n0 := abs_nonneg (z 0)
  have n1 := abs_nonneg (z 1)
  apply hz
  funext j
  fin_cases j
  · exact abs_eq_zero.mp (by simp only [Fin.zero_eta, Fin.isValue]; linarith)
  · exact abs_eq_zero.mp (by simp only [Fin.mk_one, Fin.isValue]; linarith)

theorem exEps : ∃ ε : ℚ, config.epsilon.Is ε ∧ 1 / 10 ^ 10 ≤ ε ∧ ε ≤ 1 / 10 ^ 8 :=
  ⟨config.epsilon.raw.toRat, ⟨by decide +kernel, rfl⟩, by decide +kernel, by decide +kernel⟩

example : ∃ x : Fin 2 → Double libm0, solveLinear config (ofEntries exA) (vec exB) = .ok (vec x) ∧ (∀ i, (x i).Finite) ∧
    ∑ j, |(x j).rat - (![4 / 5, 7 / 5] : Fin 2 → ℚ) j| ≤ 1 / 10 ^ 6 := by
  obtain ⟨ε, he, h1, h2⟩ := exEps
  have hg : growth ≤ 201 / 100 := by norm_num [growth]
  have hg0 : 0 < growth := by norm_num [growth]
  have hg2 : growth ^ 2 ≤ 5 := by nlinarith
  have hε : 0 < ε := lt_of_lt_of_le (by norm_num) h1
  have hbig : (10 : ℚ) ^ 60 ≤ 2 ^ 998 := by
    have : (2 : ℚ) ^ 200 ≤ 2 ^ 998 := pow_le_pow_right₀ (by norm_num) (by norm_num)
    refine le_trans (by norm_num) this
  have hsmall : (1 : ℚ) / 2 ^ 900 ≤ 1 := by
    rw [div_le_one (by positivity)]
    exact one_le_pow₀ (by norm_num)
  have hsmall' : (1 : ℚ) / 2 ^ 1000 ≤ 1 / 2 := one_div_le_one_div_of_le (by norm_num) (le_self_pow₀ (by norm_num) (by norm_num))
  have hw : WellScaled ε 3 5 exA exB := by
    refine ⟨hε, by linarith [h2.trans (by norm_num : (1 : ℚ) / 10 ^ 8 ≤ 1)], ?_, ?_, by linarith, by linarith, ?_, ?_, ?_⟩
    · intro i j
      fin_cases i <;> fin_cases j <;> exact ⟨by show F64.isInvalid _ = false; decide +kernel, by decide +kernel⟩
    · intro i
      fin_cases i <;> exact ⟨by show F64.isInvalid _ = false; decide +kernel, by decide +kernel⟩
    · push_cast
      generalize (1 : ℚ) / 2 ^ 1000 = t at *
      linarith
    · generalize (2 : ℚ) ^ 998 = B at *
      nlinarith
    · generalize (2 : ℚ) ^ 998 = B at *
      nlinarith
  have hκ : ε + 4 / 2 ^ 53 * growth ^ 2 * 3 ≤ 1 / 2 := by
    have : (4 : ℚ) / 2 ^ 53 * growth ^ 2 * 3 ≤ 4 / 2 ^ 53 * 5 * 3 := by
      apply mul_le_mul_of_nonneg_right _ (by norm_num)
      exact mul_le_mul_of_nonneg_left hg2 (by norm_num)
    have e : (4 : ℚ) / 2 ^ 53 * 5 * 3 ≤ 1 / 4 := by norm_num
    have e' : (1 : ℚ) / 10 ^ 8 ≤ 1 / 4 := by norm_num
    linarith
  have hinv : 1 / ε ≤ 10 ^ 10 := by
    rw [div_le_iff₀ hε]
    have := mul_le_mul_of_nonneg_left h1 (by norm_num : (0 : ℚ) ≤ 10 ^ 10)
    norm_num at this ⊢
    linarith
  have hinv0 : 0 < 1 / ε := by positivity
  have hroom : 2 * growth ^ 2 * 5 / ε * (1 + 2 * growth ^ 2 * 3 / ε) ^ 2 ≤ 2 ^ 998 := by
    refine le_trans ?_ hbig
    have q1 : 2 * growth ^ 2 * 5 / ε ≤ 50 * 10 ^ 10 := by
      rw [div_eq_mul_one_div]
      exact mul_le_mul (by linarith) hinv hinv0.le (by norm_num)
    have q2 : 2 * growth ^ 2 * 3 / ε ≤ 30 * 10 ^ 10 := by
      rw [div_eq_mul_one_div]
      exact mul_le_mul (by linarith) hinv hinv0.le (by norm_num)
    have q3 : 0 ≤ 2 * growth ^ 2 * 3 / ε := by positivity
    have q4 : (1 + 2 * growth ^ 2 * 3 / ε) ^ 2 ≤ (1 + 30 * 10 ^ 10) ^ 2 := pow_le_pow_left₀ (by linarith) (by linarith) 2
    refine (mul_le_mul q1 q4 (by positivity) (by norm_num)).trans ?_
    norm_num
  have hy : (ratMatrix exA).mulVec ![4 / 5, 7 / 5] = fun i => (exB i).rat := by
    rw [exA_rat]
    decide +kernel
  obtain ⟨x, k1, k2, k3⟩ := C80_forward (by norm_num) config he exA exB hw hκ exA_stretches hroom _ hy
  refine ⟨x, k1, k2, k3.trans ?_⟩
  -- the norm of the solution from the same bound
  set X := ∑ j, |(x j).rat| with hX
  have hX0 : 0 ≤ X := sum_nonneg fun _ _ => abs_nonneg _
  have hXy : X ≤ ∑ j, |(x j).rat - (![4 / 5, 7 / 5] : Fin 2 → ℚ) j| + 11 / 5 := by
    rw [hX, Fin.sum_univ_two, Fin.sum_univ_two]
    have a0 := abs_sub_abs_le_abs_sub (x 0).rat (4 / 5)
    have a1 := abs_sub_abs_le_abs_sub (x 1).rat (7 / 5)
    rw [abs_of_pos (by norm_num : (0 : ℚ) < 4 / 5)] at a0
    rw [abs_of_pos (by norm_num : (0 : ℚ) < 7 / 5)] at a1
    simp only [Matrix.cons_val_zero, Matrix.cons_val_one, Fin.isValue]
    linarith
  have hres : residualBound ε 3 5 x / (1 / 2) ≤ 1 / 10 ^ 7 * (X + 1) := by
    unfold residualBound
    rw [← hX]
    have r1 : 6 * ((1 + 1 / 2 ^ 53) ^ 2 - 1) * growth ^ 2 ≤ (1 : ℚ) / 10 ^ 10 := by
      have : 6 * ((1 + 1 / 2 ^ 53) ^ 2 - 1) * growth ^ 2 ≤ 6 * ((1 + 1 / 2 ^ 53) ^ 2 - 1) * 5 := mul_le_mul_of_nonneg_left hg2 (by norm_num)
      refine this.trans ?_
      norm_num
    have r2 : (6 * ((1 + 1 / 2 ^ 53) ^ 2 - 1) * growth ^ 2) * (3 * X + 5) ≤ 1 / 10 ^ 10 * (3 * X + 5) := mul_le_mul_of_nonneg_right r1 (by positivity)
    have r3 := mul_le_mul_of_nonneg_right h2 hX0
    norm_num at r2 r3 ⊢
    linarith
  have := k3.trans hres
  norm_num at this hres ⊢
  linarith

end Double
end Tom
