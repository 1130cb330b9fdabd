import Verif.Lemmas.DoubleDet
import Verif.Props.IeeeUnderflow
/-
C79: `Det` and `Inverse` of integer matrices in doubles.
-/
namespace Tom
namespace Double
variable {L : Libm}

/-- The entries of `A` are the integers `Z`, of absolute value at most `M`. -/
def IntMatrix {n : ℕ} (M : ℕ) (A : Matrix (Fin n) (Fin n) (Double L)) (Z : Matrix (Fin n) (Fin n) ℤ) : Prop :=
  ∀ i j, (A i j).Is (Z i j) ∧ |Z i j| ≤ M

/-- integers extended by zero -/
def extZ {n : ℕ} (Z : Matrix (Fin n) (Fin n) ℤ) (i j : ℕ) : ℤ := if h : i < n ∧ j < n then Z ⟨i, h.1⟩ ⟨j, h.2⟩ else 0

theorem IntMatrix.ints {n M : ℕ} {A : Matrix (Fin n) (Fin n) (Double L)} {Z : Matrix (Fin n) (Fin n) ℤ} (h : IntMatrix M A Z) :
    Ints n n M (extE A) (extZ Z) := by
  intro i j hi hj
  simpa [extE, extZ, hi, hj] using h ⟨i, hi⟩ ⟨j, hj⟩

theorem extZ_of {n : ℕ} (Z : Matrix (Fin n) (Fin n) ℤ) : (Matrix.of fun (i j : Fin n) => extZ Z i j) = Z := by
  ext i j; simp [extZ]

theorem det_extZ {n : ℕ} (Z : Matrix (Fin n) (Fin n) ℤ) : detZ n (extZ Z) = Z.det := by
  rw [detZ, extZ_of]

/-- C79: the determinant of an `n × n` matrix of integers within `M` is computed without any rounding error if `n! M^n ≤ 2^53`. -/
theorem C79_det {n M : ℕ} (hn : 0 < n) (hM : 0 < M) (hb : n.factorial * M ^ n ≤ 2 ^ 53) (A : Matrix (Fin n) (Fin n) (Double L))
    (Z : Matrix (Fin n) (Fin n) ℤ) (h : IntMatrix M A Z) : ∃ x, det n (ofEntries A) = .ok x ∧ x.Is (Z.det : ℚ) := by
  obtain ⟨x, h1, h2, -⟩ := det_ints M hM n n n _ _ hn le_rfl le_rfl h.ints hb
  exact ⟨x, by rw [ofEntries_eq, h1], by rw [← det_extZ]; exact h2⟩

theorem adj_extZ {n : ℕ} (Z : Matrix (Fin (n + 1)) (Fin (n + 1)) ℤ) (i j : Fin (n + 1)) :
    (-1) ^ ((j : ℕ) + i) * detZ n (minorA j i (extZ Z)) = Z.adjugate i j := by
  rw [Matrix.adjugate_fin_succ_eq_det_submatrix, detZ]
  congr 2
  ext a b
  have e1 : (if (a : ℕ) < j then (a : ℕ) else a + 1) = (j.succAbove a : ℕ) := by
    unfold Fin.succAbove
    simp only [Fin.lt_def, Fin.val_castSucc]
    split <;> simp
  have e2 : (if (b : ℕ) < i then (b : ℕ) else b + 1) = (i.succAbove b : ℕ) := by
    unfold Fin.succAbove
    simp only [Fin.lt_def, Fin.val_castSucc]
    split <;> simp
  simp only [Matrix.submatrix_apply, Matrix.of_apply, minorA, e1, e2]
  simp only [extZ, (j.succAbove a).2, (i.succAbove b).2, and_self, dif_pos, Fin.eta]

theorem lt_of_int {d : ℤ} (h : |d| ≤ 2 ^ 53) {e : ℤ} (he : e ≠ 0) : |rnd ((d : ℚ) / e)| < 2 ^ 1024 := by
  apply rnd_bound
  have h1 : |(d : ℝ)| ≤ 2 ^ 53 := by exact_mod_cast h
  have h2 : (1 : ℝ) ≤ |(e : ℝ)| := by exact_mod_cast Int.one_le_abs he
  push_cast
  rw [abs_div]
  refine lt_of_le_of_lt (div_le_self (abs_nonneg _) h2) (lt_of_le_of_lt h1 ?_)
  exact pow_lt_pow_right₀ (by norm_num) (by norm_num)

/-- C79: for such a matrix, `Inverse` reports a singular matrix exactly if the determinant is within epsilon of zero; otherwise every
entry of the result is the correctly rounded entry of the exact inverse. -/
theorem C79_inverse {n M : ℕ} (hn : 0 < n) (hM : 0 < M) (hb : n.factorial * M ^ n ≤ 2 ^ 53) (A : Matrix (Fin n) (Fin n) (Double L))
    (Z : Matrix (Fin n) (Fin n) ℤ) (h : IntMatrix M A Z) (eps : Double L) (ε : ℚ) (hε : eps.Is ε) (h0 : 0 ≤ ε) :
    (|(Z.det : ℚ)| ≤ ε → (ofEntries A).inverse eps = .throw (.math .singularMatrix)) ∧
    (ε < |(Z.det : ℚ)| → ∃ B : Matrix (Fin n) (Fin n) (Double L), (ofEntries A).inverse eps = .ok (ofEntries B) ∧
      ∀ i j, (B i j).Is (rnd ((Z.map (fun z : ℤ => (z : ℚ)))⁻¹ i j))) := by
  obtain ⟨x, hx, hd⟩ := C79_det hn hM hb A Z h
  have hle : Arith.le (Arith.abs x) eps = decide (|(Z.det : ℚ)| ≤ ε) := le_is (abs_is hd) hε
  have e0 : (ofEntries A).rows = n := rfl
  have e1 : (ofEntries A).cols = n := rfl
  have hinv : (ofEntries A).inverse eps = if |(Z.det : ℚ)| ≤ ε then .throw (.math .singularMatrix) else (do
      let adj ← Mat.new n n Arith.zero
      let adj ← adjoint (ofEntries A) adj
      .ok ⟨n, n, adj.data.map fun y => Arith.div y x⟩) := by
    unfold Mat.inverse
    rw [e0, e1, if_pos rfl, hx]
    simp only [Res.bind_ok, hle, decide_eq_true_eq]
  rw [hinv]
  constructor
  · intro h'
    rw [if_pos h']
  · intro h'
    rw [if_neg (not_le.mpr h')]
    have hz : Z.det ≠ 0 := by
      intro hz
      rw [hz] at h'
      simp only [Int.cast_zero, abs_zero] at h'
      linarith
    obtain ⟨m, rfl⟩ : ∃ m, n = m + 1 := ⟨n - 1, by omega⟩
    rw [new_mk' hn hn]
    simp only [Res.bind_ok]
    have hadj : ∃ v : ℕ → ℕ → Double L, adjoint (ofEntries A) (Mat.mk' (m + 1) (m + 1) fun _ _ => Arith.zero) = .ok (Mat.mk' (m + 1) (m + 1) v) ∧
        ∀ i j : Fin (m + 1), (v i j).Is (Z.adjugate i j : ℤ) ∧ |Z.adjugate i j| ≤ 2 ^ 53 := by
      rcases Nat.eq_zero_or_pos m with rfl | hm
      · refine ⟨fun _ _ => Arith.one, ?_, ?_⟩
        · unfold adjoint
          rw [if_pos e0, setValue_mk' _ _ (by omega) (by omega)]
          rfl
        · intro i j
          have : Z.adjugate i j = 1 := by
            rw [← adj_extZ, show (i : ℕ) = 0 by omega, show (j : ℕ) = 0 by omega]
            simp [detZ]
          rw [this]
          exact ⟨oneZ_is, by norm_num⟩
      · have hmin : ∀ i j : ℕ, ∃ y, (i < m + 1 → j < m + 1 → det m (Mat.mk' m m (minorA i j (extE A))) = .ok y ∧
            y.Is (detZ m (minorA i j (extZ Z))) ∧ |detZ m (minorA i j (extZ Z))| ≤ 2 ^ 53) := by
          intro i j
          have hb' := le_trans (factorial_mono hM (Nat.le_succ m)) hb
          obtain ⟨y, y1, y2, y3⟩ := det_ints M hM m m m _ _ hm le_rfl le_rfl (h.ints.minor (p := i) (q := j) (n := m + 1) le_rfl le_rfl) hb'
          exact ⟨y, fun _ _ => ⟨y1, y2, le_trans y3 (by exact_mod_cast hb')⟩⟩
        choose d hd using hmin
        refine ⟨_, by rw [ofEntries_eq]; exact adjoint_mk' (by omega) (extE A) _ d (fun i j hi hj => (hd i j hi hj).1), ?_⟩
        intro i j
        obtain ⟨-, g2, g3⟩ := hd j i j.2 i.2
        have hadj := adj_extZ Z i j
        by_cases hp : ((j : ℕ) + i) % 2 = 0
        · have he : Even ((j : ℕ) + i) := Nat.even_iff.mpr hp
          rw [he.neg_one_pow, one_mul] at hadj
          rw [if_neg (by simpa using hp), ← hadj]
          exact ⟨g2, g3⟩
        · have ho : Odd ((j : ℕ) + i) := Nat.odd_iff.mpr (by omega)
          rw [ho.neg_one_pow, neg_one_mul] at hadj
          rw [if_pos hp, ← hadj]
          exact ⟨int_neg g2, by rw [abs_neg]; exact g3⟩
    obtain ⟨v, hv, hvi⟩ := hadj
    rw [hv]
    simp only [Res.bind_ok]
    refine ⟨Matrix.of fun i j => Arith.div (v i j) x, ?_, ?_⟩
    · rw [Mat.mk'_data, flat_map, ofEntries_eq]
      congr 1
      have : (⟨m + 1, m + 1, flat (m + 1) (m + 1) fun i j => Arith.div (v i j) x⟩ : Mat (Double L)) =
        Mat.mk' (m + 1) (m + 1) fun i j => Arith.div (v i j) x := rfl
      rw [this]
      apply Mat.mk'_congr
      intro i j hi hj
      simp [extE, hi, hj]
    · intro i j
      obtain ⟨g1, g2⟩ := hvi i j
      have := div_is g1 hd (by exact_mod_cast hz) (lt_of_int g2 hz)
      have e : (Z.map (fun z : ℤ => (z : ℚ)))⁻¹ i j = (Z.adjugate i j : ℤ) / (Z.det : ℚ) := by
        have h1 : (Z.map (fun z : ℤ => (z : ℚ))).det = (Z.det : ℚ) := by
          have := (Int.castRingHom ℚ).map_det Z
          simpa using this.symm
        have h2 : (Z.map (fun z : ℤ => (z : ℚ))).adjugate = Z.adjugate.map (fun z : ℤ => (z : ℚ)) := by
          have := (Int.castRingHom ℚ).map_adjugate Z
          simpa using this.symm
        rw [Matrix.inv_def, h1, h2, Matrix.smul_apply, Ring.inverse_eq_inv', smul_eq_mul, Matrix.map_apply, div_eq_inv_mul]
      rw [e]
      exact this

/-- a 3×3 example: the integers 1, 2, 3; 4, 5, 6; 7, 8, 10 -/
def threes : Matrix (Fin 3) (Fin 3) ℤ := !![1, 2, 3; 4, 5, 6; 7, 8, 10]

example : IntMatrix 10 (threes.map fun z => (Dbl.ofInt z : Double L)) threes ∧ Nat.factorial 3 * 10 ^ 3 ≤ 2 ^ 53 ∧ threes.det = -3 := by
  refine ⟨fun i j => ?_, by decide, by decide +kernel⟩
  have hb : |threes i j| ≤ 10 := by revert i j; decide
  exact ⟨is_ofInt (le_trans hb (by norm_num)), hb⟩

end Double
end Tom
