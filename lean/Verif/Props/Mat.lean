import Verif.Lemmas.MatInverse
import Verif.Lemmas.Sylvester
/-
C33-C35, C39-C41: matrix arithmetic, determinant, inverse, element-wise division, row/column operations, positive
definiteness.  `ofEntries A` is the library's matrix with the entries of `A`; `ofMatrix A` the library's matrix holding
the exact numbers of the mathematical matrix `A` (Spec/Exact.lean).
-/
namespace Tom
variable {α K : Type} [Arith α]

/-- Every matrix the library can hold (its array has rows*cols elements) is `ofEntries` of its entries. -/
theorem C33_every_matrix (m : Mat α) (h : m.data.length = m.rows * m.cols) :
    ∃ A : Matrix (Fin m.rows) (Fin m.cols) α, m = ofEntries A := by
  refine ⟨Matrix.of fun i j => m.data.getD (i * m.cols + j) Arith.zero, ?_⟩
  have := mk'_eq (r := m.rows) (c := m.cols) fun i j => m.data.getD (i * m.cols + j) Arith.zero
  rw [← this]
  unfold Mat.mk'
  rw [← flat_of_list m.data h]

/-- `A(i, j)` reads the entry. -/
theorem C33_value {r c : ℕ} (A : Matrix (Fin r) (Fin c) α) (i : Fin r) (j : Fin c) : (ofEntries A).value i j = .ok (A i j) := by
  rw [ofEntries_eq, value_mk' _ i.2 j.2]
  simp [extE]

theorem zip_ofEntries (op : α → α → α) {r c : ℕ} (A B : Matrix (Fin r) (Fin c) α) :
    zipV op (ofEntries A).data (ofEntries B).data = .ok (ofEntries (Matrix.of fun i j => op (A i j) (B i j))).data := by
  unfold zipV ofEntries
  simp only [List.length_ofFn, if_true]
  congr 1
  apply List.ext_getElem <;> simp

/-- C33: the sum, for any arithmetic. -/
theorem C33_add {r c : ℕ} (A B : Matrix (Fin r) (Fin c) α) :
    (ofEntries A).add (ofEntries B) = .ok (ofEntries (Matrix.of fun i j => Arith.add (A i j) (B i j))) := by
  unfold Mat.add
  rw [zip_ofEntries]
  simp [ofEntries]

/-- C33: the difference. -/
theorem C33_sub {r c : ℕ} (A B : Matrix (Fin r) (Fin c) α) :
    (ofEntries A).sub (ofEntries B) = .ok (ofEntries (Matrix.of fun i j => Arith.sub (A i j) (B i j))) := by
  unfold Mat.sub
  rw [zip_ofEntries]
  simp [ofEntries]

/-- C33: unary minus. -/
theorem C33_neg {r c : ℕ} (A : Matrix (Fin r) (Fin c) α) : (ofEntries A).neg = ofEntries (A.map Arith.neg) := by
  unfold Mat.neg ofEntries
  congr 1
  apply List.ext_getElem <;> simp

/-- C33: scaling, from the right and from the left. -/
theorem C33_scale {r c : ℕ} (A : Matrix (Fin r) (Fin c) α) (k : α) :
    (ofEntries A).scale k = ofEntries (A.map fun x => Arith.mul x k) ∧ Mat.scaleLeft k (ofEntries A) = ofEntries (A.map fun x => Arith.mul x k) := by
  constructor <;>
  · simp only [Mat.scale, Mat.scaleLeft, ofEntries]
    congr 1
    apply List.ext_getElem <;> simp

/-- C33: the transpose. -/
theorem C33_transpose {r c : ℕ} (hr : 0 < r) (hc : 0 < c) (A : Matrix (Fin r) (Fin c) α) :
    (ofEntries A).transpose = .ok (ofEntries A.transpose) := by
  rw [ofEntries_eq, transpose_mk' hr hc, ofEntries_eq]
  congr 1
  apply Mat.mk'_congr
  intro i j hi hj
  simp [extE, hi, hj, Matrix.transpose]

/-- C33: operands of different sizes violate the assertion (and are the only ones that do). -/
theorem C33_sizes {r c r' c' : ℕ} (A : Matrix (Fin r) (Fin c) α) (B : Matrix (Fin r') (Fin c') α) :
    ((ofEntries A).add (ofEntries B) = .assertFail ↔ ¬ (r = r' ∧ c = c')) ∧
    ((ofEntries A).sub (ofEntries B) = .assertFail ↔ ¬ (r = r' ∧ c = c')) ∧
    (c ≠ r' → (ofEntries A).mul (ofEntries B) = .assertFail) := by
  refine ⟨?_, ?_, ?_⟩
  · by_cases h : r = r' ∧ c = c'
    · obtain ⟨rfl, rfl⟩ := h
      rw [C33_add]; simp
    · simp only [Mat.add, ofEntries, h, if_false, not_false_eq_true]
  · by_cases h : r = r' ∧ c = c'
    · obtain ⟨rfl, rfl⟩ := h
      rw [C33_sub]; simp
    · simp only [Mat.sub, ofEntries, h, if_false, not_false_eq_true]
  · intro h
    simp only [Mat.mul, ofEntries, h, if_false]

/-- C33: `SetValue` and `Zero` fill the matrix. -/
theorem C33_fill {r c : ℕ} (A : Matrix (Fin r) (Fin c) α) (v : α) :
    (ofEntries A).fill v = ofEntries (Matrix.of fun (_ : Fin r) (_ : Fin c) => v) ∧
    (ofEntries A).zero = ofEntries (Matrix.of fun (_ : Fin r) (_ : Fin c) => Arith.zero) := by
  constructor <;>
  · simp only [Mat.fill, Mat.zero, ofEntries]
    congr 1
    apply List.ext_getElem <;> simp

variable [Field K] [LinearOrder K] [Exact α K]

/-- C33: `Ones` gives the identity matrix. -/
theorem C33_ones {n : ℕ} (A : Matrix (Fin n) (Fin n) α) :
    (ofEntries A).ones = .ok (ofMatrix (1 : Matrix (Fin n) (Fin n) K)) := by
  rw [ofEntries_eq, ones_mk', ofMatrix_eq]
  congr 1
  apply Mat.mk'_congr
  intro i j hi hj
  simp only [ext, hi, hj, and_self, dif_pos, Matrix.one_apply, Fin.mk.injEq]
  split <;> simp [Exact.zero, Exact.one]

/-- C33: the matrix product (exact arithmetic). -/
theorem C33_mul {r m c : ℕ} (hr : 0 < r) (hm : 0 < m) (hc : 0 < c) (A : Matrix (Fin r) (Fin m) K) (B : Matrix (Fin m) (Fin c) K) :
    (ofMatrix A : Mat α).mul (ofMatrix B) = .ok (ofMatrix (A * B)) := by
  rw [ofMatrix_eq, ofMatrix_eq, mul_fin hr hm hc, ofMatrix_eq]
  congr 1
  apply finMat_congr
  intro i j hi hj
  simp only [ext, hi, hj, and_self, dif_pos, Matrix.mul_apply, Finset.sum_range]
  apply Finset.sum_congr rfl
  intro k _
  simp [k.2]

/-- C33: matrix times vector. -/
theorem C33_mulVec {r m : ℕ} (hr : 0 < r) (hm : 0 < m) (A : Matrix (Fin r) (Fin m) K) (v : Fin m → K) :
    (ofMatrix A : Mat α).mul (ofVec v) = .ok (ofVec (A.mulVec v)) := by
  rw [ofVec_eq_ofMatrix, C33_mul hr hm Nat.one_pos, ofVec_eq_ofMatrix]
  congr 2

/-- C33: the dot product. -/
theorem C33_dot {n : ℕ} (hn : 0 < n) (u v : Fin n → K) : dot (ofVec u : Mat α) (ofVec v) = .ok (fin (u ⬝ᵥ v)) := by
  unfold dot zipV ofVec
  simp only [List.length_ofFn, if_true, Res.bind_ok]
  have h : List.zipWith Arith.mul (List.ofFn fun k => (fin (u k) : α)) (List.ofFn fun k => fin (v k)) =
      (List.ofFn fun k => u k * v k).map fin := by
    apply List.ext_getElem <;> simp [Exact.mul]
  rw [h, sumV_fin]
  · congr 2
    rw [List.sum_ofFn]
    rfl
  · intro h
    have := congrArg List.length h
    simp at this
    omega

/-- C33: `Norm2` is the sum of the squares of the entries. -/
theorem C33_norm2 {n : ℕ} (hn : 0 < n) (u : Fin n → K) : (ofVec u : Mat α).norm2 = .ok (fin (u ⬝ᵥ u)) := by
  have := C33_dot (α := α) hn u u
  unfold dot zipV at this
  simpa [Mat.norm2] using this

-- a 2x3 times 3x2 product, computed by the model
example : (ofMatrix (!![1, 2, 3; 4, 5, 6] : Matrix (Fin 2) (Fin 3) ℚ) : Mat (XNum ℚ)).mul
    (ofMatrix (!![1, 0; 0, 1; 1, 1] : Matrix (Fin 3) (Fin 2) ℚ)) = .ok ⟨2, 2, [.fin 4, .fin 5, .fin 10, .fin 11]⟩ := by
  decide +kernel

/-- C34: `Det(A, n)` is the determinant of the leading n-by-n block, for every n ≥ 1. -/
theorem C34 {r c n : ℕ} (hn : 0 < n) (hr : n ≤ r) (hc : n ≤ c) (A : Matrix (Fin r) (Fin c) K) :
    det n (ofMatrix A : Mat α) = .ok (fin (A.submatrix (Fin.castLE hr) (Fin.castLE hc)).det) := by
  rw [ofMatrix_eq, det_fin n r c _ hn hr hc]
  unfold detF
  congr 3
  ext i j
  have h1 : (i : ℕ) < r := by omega
  have h2 : (j : ℕ) < c := by omega
  simp [ext, h1, h2, Fin.castLE]

/-- C34, the whole matrix. -/
theorem C34_square {n : ℕ} (hn : 0 < n) (A : Matrix (Fin n) (Fin n) K) : det n (ofMatrix A : Mat α) = .ok (fin A.det) := by
  rw [C34 hn le_rfl le_rfl]
  rfl

-- C34 at a 4x4 matrix
example : det 4 (ofMatrix (!![2, 0, 1, 3; 1, 1, 0, 0; 0, 4, 1, 1; 5, 0, 0, 2] : Matrix (Fin 4) (Fin 4) ℚ) : Mat (XNum ℚ)) =
    .ok (.fin 2) := by decide +kernel

variable [IsStrictOrderedRing K]

/-- C35: for exact arithmetic `Inverse` throws SINGULAR_MATRIX if |det A| ≤ epsilon, and otherwise returns the inverse. -/
theorem C35 {n : ℕ} (hn : 0 < n) (eps : K) (heps : 0 ≤ eps) (A : Matrix (Fin n) (Fin n) K) :
    (|A.det| ≤ eps → (ofMatrix A : Mat α).inverse (fin eps) = .throw (.math .singularMatrix)) ∧
    (¬ |A.det| ≤ eps → ∃ B : Matrix (Fin n) (Fin n) K, (ofMatrix A : Mat α).inverse (fin eps) = .ok (ofMatrix B) ∧ A * B = 1 ∧ B * A = 1) := by
  have e : (Matrix.of fun (i j : Fin n) => ext A i j) = A := by ext i j; simp
  have ed : detF n (ext A) = A.det := by unfold detF; rw [e]
  rw [ofMatrix_eq, inverse_fin hn eps _ heps, ed, e]
  constructor
  · intro h; rw [if_pos h]
  · intro h
    rw [if_neg h]
    have hu : IsUnit A.det := by
      rw [isUnit_iff_ne_zero]
      intro h0
      apply h
      rw [h0, abs_zero]; exact heps
    exact ⟨A⁻¹, rfl, A.mul_nonsing_inv hu, A.nonsing_inv_mul hu⟩

/-- C35 read from the result: whatever `Inverse` returns is a two-sided inverse, whatever it throws is SINGULAR_MATRIX and
the determinant is small; it never has undefined behaviour. -/
theorem C35_result {n : ℕ} (hn : 0 < n) (eps : K) (heps : 0 ≤ eps) (A : Matrix (Fin n) (Fin n) K) :
    (∃ B : Matrix (Fin n) (Fin n) K, (ofMatrix A : Mat α).inverse (fin eps) = .ok (ofMatrix B) ∧ A * B = 1 ∧ B * A = 1 ∧ eps < |A.det|) ∨
    ((ofMatrix A : Mat α).inverse (fin eps) = .throw (.math .singularMatrix) ∧ |A.det| ≤ eps) := by
  obtain ⟨h1, h2⟩ := C35 (α := α) hn eps heps A
  by_cases h : |A.det| ≤ eps
  · exact Or.inr ⟨h1 h, h⟩
  · obtain ⟨B, hB, hab, hba⟩ := h2 h
    exact Or.inl ⟨B, hB, hab, hba, not_le.mp h⟩

-- both cases of C35 occur
example : (ofMatrix (!![2, 1, 0; 1, 1, 0; 0, 0, 4] : Matrix (Fin 3) (Fin 3) ℚ) : Mat (XNum ℚ)).inverse (.fin (1/100000)) =
    .ok (ofMatrix (!![1, -1, 0; -1, 2, 0; 0, 0, 1/4] : Matrix (Fin 3) (Fin 3) ℚ)) := by decide +kernel
example : (ofMatrix (!![2, 1; 4, 2] : Matrix (Fin 2) (Fin 2) ℚ) : Mat (XNum ℚ)).inverse (.fin (1/100000)) =
    .throw (.math .singularMatrix) := by decide +kernel

omit [IsStrictOrderedRing K] [Field K] [LinearOrder K] [Exact α K]

/-- C39 as stated is false: `EachDivide([6], [2])` is `[1]`, not `[3]`. -/
theorem C39_false : eachDivide (ofMatrix (!![6] : Matrix (Fin 1) (Fin 1) ℚ) : Mat (XNum ℚ)) (ofMatrix (!![2] : Matrix (Fin 1) (Fin 1) ℚ)) =
    .ok (ofMatrix (!![1] : Matrix (Fin 1) (Fin 1) ℚ)) ∧ (1 : ℚ) ≠ 6 / 2 := by
  constructor
  · decide +kernel
  · norm_num

/-- C39, what the code computes: every entry is `b_ij / b_ij`, whatever `a` is.  (Missing: `a_ij / b_ij`.) -/
theorem C39_partial {r c : ℕ} (A B : Matrix (Fin r) (Fin c) α) :
    eachDivide (ofEntries A) (ofEntries B) = .ok (ofEntries (Matrix.of fun i j => Arith.div (B i j) (B i j))) := by
  unfold eachDivide
  rw [zip_ofEntries]
  simp [ofEntries]

/-- C39: the result is right exactly when `b_ij / b_ij` happens to be `a_ij / b_ij` everywhere. -/
theorem C39_right_partial {r c : ℕ} (A B : Matrix (Fin r) (Fin c) α) :
    eachDivide (ofEntries A) (ofEntries B) = .ok (ofEntries (Matrix.of fun i j => Arith.div (A i j) (B i j))) ↔
      ∀ i j, Arith.div (B i j) (B i j) = Arith.div (A i j) (B i j) := by
  rw [C39_partial]
  constructor
  · intro h i j
    have h : ofEntries (Matrix.of fun i j => Arith.div (B i j) (B i j)) = ofEntries (Matrix.of fun i j => Arith.div (A i j) (B i j)) := by
      simpa using h
    have h1 := C33_value (Matrix.of fun i j => Arith.div (B i j) (B i j)) i j
    have h2 := C33_value (Matrix.of fun i j => Arith.div (A i j) (B i j)) i j
    rw [h, h2] at h1
    simpa using h1.symm
  · intro h
    congr 2
    ext i j
    exact h i j

theorem swapIx_eq {n : ℕ} (i j k : Fin n) : swapIx i j k = (Equiv.swap i j k : Fin n) := by
  unfold swapIx
  rw [Equiv.swap_apply_def]
  simp only [Fin.val_inj]
  split
  · rfl
  · split <;> rfl

/-- C40: `SwapRow(i, j)` exchanges rows i and j and nothing else. -/
theorem C40_swapRow {r c : ℕ} (A : Matrix (Fin r) (Fin c) α) (i j : Fin r) :
    (ofEntries A).swapRow i j = .ok (ofEntries (Matrix.of fun a b => A (Equiv.swap i j a) b)) := by
  rw [ofEntries_eq, swapRow_mk' _ i.2 j.2, ofEntries_eq]
  congr 1
  apply Mat.mk'_congr
  intro a b ha hb
  have h := swapIx_eq i j ⟨a, ha⟩
  simp only at h
  rw [h]
  simp [extE, ha, hb]

/-- C40: `SwapCol(i, j)` exchanges columns i and j and nothing else. -/
theorem C40_swapCol {r c : ℕ} (A : Matrix (Fin r) (Fin c) α) (i j : Fin c) :
    (ofEntries A).swapCol i j = .ok (ofEntries (Matrix.of fun a b => A a (Equiv.swap i j b))) := by
  rw [ofEntries_eq, swapCol_mk' _ i.2 j.2, ofEntries_eq]
  congr 1
  apply Mat.mk'_congr
  intro a b ha hb
  have h := swapIx_eq i j ⟨b, hb⟩
  simp only at h
  rw [h]
  simp [extE, ha, hb]

/-- C40: both are involutions. -/
theorem C40_involution {r c : ℕ} (A : Matrix (Fin r) (Fin c) α) :
    (∀ i j : Fin r, ((ofEntries A).swapRow i j >>= fun m => m.swapRow i j) = .ok (ofEntries A)) ∧
    (∀ i j : Fin c, ((ofEntries A).swapCol i j >>= fun m => m.swapCol i j) = .ok (ofEntries A)) := by
  constructor
  · intro i j
    rw [C40_swapRow]
    simp only [Res.bind_ok]
    rw [C40_swapRow]
    congr 2
    ext a b
    simp
  · intro i j
    rw [C40_swapCol]
    simp only [Res.bind_ok]
    rw [C40_swapCol]
    congr 2
    ext a b
    simp

/-- C40: `Resize` keeps the overlapping block and fills the rest with zero. -/
theorem C40_resize {r c r' c' : ℕ} (hr : 0 < r') (hc : 0 < c') (A : Matrix (Fin r) (Fin c) α) :
    (ofEntries A).resize r' c' =
      .ok (ofEntries (Matrix.of fun (i : Fin r') (j : Fin c') =>
        if h : (i : ℕ) < r ∧ (j : ℕ) < c then A ⟨i, h.1⟩ ⟨j, h.2⟩ else Arith.zero)) := by
  rw [ofEntries_eq, resize_mk' _ hr hc, ofEntries_eq]
  congr 1
  apply Mat.mk'_congr
  intro i j hi hj
  by_cases h : i < r ∧ j < c
  · simp [extE, hi, hj, h]
  · simp [extE, hi, hj, h]

-- C40 on a concrete matrix: 2x3 resized to 3x2
example : (ofMatrix (!![1, 2, 3; 4, 5, 6] : Matrix (Fin 2) (Fin 3) ℚ) : Mat (XNum ℚ)).resize 3 2 =
    .ok (ofMatrix (!![1, 2; 4, 5; 0, 0] : Matrix (Fin 3) (Fin 2) ℚ)) := by decide +kernel

theorem positiveLoop_fin (f : ℕ → ℕ → ℝ) (n : ℕ) (l : List ℕ) (hl : ∀ k ∈ l, 0 < k ∧ k ≤ n) :
    positiveLoop (finMat (XNum ℝ) n n f) l = .ok (l.all fun k => decide (0 < detF k f)) := by
  induction l with
  | nil => rfl
  | cons k l ih =>
    have hk := hl k (by simp)
    simp only [positiveLoop, det_fin k n n f hk.1 hk.2 hk.2, Res.bind_ok, Exact.zero, Exact.le, decide_eq_true_eq, List.all_cons]
    rw [ih fun j hj => hl j (by simp [hj])]
    by_cases h : detF k f ≤ 0
    · rw [if_pos h]; simp [not_lt.mpr h]
    · rw [if_neg h]; simp [not_le.mp h]

/-- C41: for a symmetric matrix (exact real arithmetic) `PositiveDetermine` returns whether xᵀAx > 0 for all x ≠ 0. -/
theorem C41 {n : ℕ} (A : Matrix (Fin n) (Fin n) ℝ) (hs : A.transpose = A) :
    ∃ b, (ofMatrix A : Mat (XNum ℝ)).positiveDetermine = .ok b ∧ (b = true ↔ ∀ x : Fin n → ℝ, x ≠ 0 → 0 < x ⬝ᵥ A.mulVec x) := by
  rw [ofMatrix_eq]
  unfold Mat.positiveDetermine
  have e0 : (finMat (XNum ℝ) n n (ext A)).rows = n := rfl
  have e1 : (finMat (XNum ℝ) n n (ext A)).cols = n := rfl
  rw [e0, e1, if_pos rfl, positiveLoop_fin]
  · refine ⟨_, rfl, ?_⟩
    have hsym : ∀ i j, ext A i j = ext A j i := by
      intro i j
      unfold ext
      by_cases h : i < n ∧ j < n
      · rw [dif_pos h, dif_pos ⟨h.2, h.1⟩]
        exact congrFun (congrFun hs.symm ⟨i, h.1⟩) ⟨j, h.2⟩
      · rw [dif_neg h, dif_neg (by omega)]
    have key := sylvester (ext A) hsym n
    have e : (Matrix.of fun (i j : Fin n) => ext A i j) = A := by ext i j; simp
    rw [e] at key
    have hpd : A.PosDef ↔ ∀ x : Fin n → ℝ, x ≠ 0 → 0 < x ⬝ᵥ A.mulVec x := by
      rw [Matrix.posDef_iff_dotProduct_mulVec]
      constructor
      · intro h x hx; simpa using h.2 hx
      · intro h
        refine ⟨by ext i j; simpa using congrFun (congrFun hs i) j, fun x hx => by simpa using h x hx⟩
    rw [← hpd, key]
    simp only [List.all_eq_true, List.mem_map, List.mem_range, decide_eq_true_eq]
    constructor
    · intro h k hk
      by_cases hk0 : k = 0
      · subst hk0; simp
      · exact h k ⟨k - 1, by omega, by omega⟩
    · rintro h _ ⟨k, hk, rfl⟩
      exact h (k + 1) (by omega)
  · intro k hk
    simp only [List.mem_map, List.mem_range] at hk
    obtain ⟨k, hk, rfl⟩ := hk
    omega

-- both answers occur
example : (ofMatrix (!![2, -1, 0; -1, 2, -1; 0, -1, 2] : Matrix (Fin 3) (Fin 3) ℚ) : Mat (XNum ℚ)).positiveDetermine = .ok true := by
  decide +kernel
example : (ofMatrix (!![1, 2; 2, 1] : Matrix (Fin 2) (Fin 2) ℚ) : Mat (XNum ℚ)).positiveDetermine = .ok false := by decide +kernel

/-- C41: a non-square matrix violates the assertion. -/
theorem C41_not_square {r c : ℕ} (h : r ≠ c) (A : Matrix (Fin r) (Fin c) α) : (ofEntries A).positiveDetermine = .assertFail := by
  simp [Mat.positiveDetermine, ofEntries, h]

end Tom
