import Verif.Props.Mat
import Verif.Lemmas.LinearRun
import Mathlib.Order.Lattice
/-
C63-C66: norms, comparisons, construction and conversion, elementwise vector operations, pivot search.
-/
namespace Tom
variable {α K : Type} [Arith α]

/-- the array holds exactly the entries -/
theorem mem_ofEntries_data {r c : ℕ} (A : Matrix (Fin r) (Fin c) α) (x : α) : x ∈ (ofEntries A).data ↔ ∃ i j, A i j = x := by
  unfold ofEntries
  simp only [List.mem_ofFn]
  constructor
  · rintro ⟨k, hk⟩; exact ⟨k.divNat, k.modNat, hk⟩
  · rintro ⟨i, j, h⟩
    refine ⟨finProdFinEquiv (i, j), ?_⟩
    have := finProdFinEquiv.symm_apply_apply (i, j)
    simp only [finProdFinEquiv, Equiv.coe_fn_symm_mk, Equiv.coe_fn_mk, Prod.mk.injEq] at this
    rw [← h]
    exact congrArg₂ A this.1 this.2

theorem zip_data {r c : ℕ} (A B : Matrix (Fin r) (Fin c) α) :
    (ofEntries A).data.zip (ofEntries B).data = List.ofFn fun k : Fin (r * c) => (A k.divNat k.modNat, B k.divNat k.modNat) := by
  unfold ofEntries
  apply List.ext_getElem <;> simp

theorem all_ofFn_iff {β : Type} {n : ℕ} (f : Fin n → β) (p : β → Bool) : (List.ofFn f).all p = true ↔ ∀ k, p (f k) = true := by
  simp [List.all_eq_true, List.mem_ofFn]

theorem forall_flat {r c : ℕ} (P : Fin r → Fin c → Prop) : (∀ k : Fin (r * c), P k.divNat k.modNat) ↔ ∀ i j, P i j := by
  constructor
  · intro h i j
    have h1 := h (finProdFinEquiv (i, j))
    have := finProdFinEquiv.symm_apply_apply (i, j)
    simp only [finProdFinEquiv, Equiv.coe_fn_symm_mk, Equiv.coe_fn_mk, Prod.mk.injEq] at this
    have e1 : (finProdFinEquiv (i, j)).divNat = i := this.1
    have e2 : (finProdFinEquiv (i, j)).modNat = j := this.2
    rwa [e1, e2] at h1
  · intro h k; exact h _ _

section exact_arithmetic
variable [Field K] [LinearOrder K] [Exact α K]

/-! ### C63: norms -/

theorem foldl_max_spec (l : List K) : ∀ v : K, ∃ w, (l.map (fin : K → α)).foldl (fun r x => if Arith.lt r x then x else r) (fin v) = fin w ∧
    (w = v ∨ w ∈ l) ∧ v ≤ w ∧ ∀ x ∈ l, x ≤ w := by
  induction l with
  | nil => intro v; exact ⟨v, rfl, .inl rfl, le_refl _, by simp⟩
  | cons x l ih =>
    intro v
    by_cases h : v < x
    · obtain ⟨w, h1, h2, h3, h4⟩ := ih x
      refine ⟨w, ?_, ?_, le_trans h.le h3, ?_⟩
      · simp only [List.map_cons, List.foldl_cons, Exact.lt, h, decide_true, if_true]; exact h1
      · right; rcases h2 with rfl | h2
        · simp
        · simp [h2]
      · intro y hy
        rcases List.mem_cons.mp hy with rfl | hy
        · exact h3
        · exact h4 y hy
    · obtain ⟨w, h1, h2, h3, h4⟩ := ih v
      refine ⟨w, ?_, ?_, h3, ?_⟩
      · simp only [List.map_cons, List.foldl_cons, Exact.lt, h, decide_false, Bool.false_eq_true, if_false]; exact h1
      · rcases h2 with rfl | h2
        · exact .inl rfl
        · right; simp [h2]
      · intro y hy
        rcases List.mem_cons.mp hy with rfl | hy
        · exact le_trans (not_lt.mp h) h3
        · exact h4 y hy

theorem foldl_min_spec (l : List K) : ∀ v : K, ∃ w, (l.map (fin : K → α)).foldl (fun r x => if Arith.lt x r then x else r) (fin v) = fin w ∧
    (w = v ∨ w ∈ l) ∧ w ≤ v ∧ ∀ x ∈ l, w ≤ x := by
  induction l with
  | nil => intro v; exact ⟨v, rfl, .inl rfl, le_refl _, by simp⟩
  | cons x l ih =>
    intro v
    by_cases h : x < v
    · obtain ⟨w, h1, h2, h3, h4⟩ := ih x
      refine ⟨w, ?_, ?_, le_trans h3 h.le, ?_⟩
      · simp only [List.map_cons, List.foldl_cons, Exact.lt, h, decide_true, if_true]; exact h1
      · right; rcases h2 with rfl | h2
        · simp
        · simp [h2]
      · intro y hy
        rcases List.mem_cons.mp hy with rfl | hy
        · exact h3
        · exact h4 y hy
    · obtain ⟨w, h1, h2, h3, h4⟩ := ih v
      refine ⟨w, ?_, ?_, h3, ?_⟩
      · simp only [List.map_cons, List.foldl_cons, Exact.lt, h, decide_false, Bool.false_eq_true, if_false]; exact h1
      · rcases h2 with rfl | h2
        · exact .inl rfl
        · right; simp [h2]
      · intro y hy
        rcases List.mem_cons.mp hy with rfl | hy
        · exact le_trans h3 (not_lt.mp h)
        · exact h4 y hy

theorem maxV_spec {l : List K} (h : l ≠ []) : ∃ w, maxV (l.map (fin : K → α)) = .ok (fin w) ∧ w ∈ l ∧ ∀ x ∈ l, x ≤ w := by
  cases l with
  | nil => exact absurd rfl h
  | cons v l =>
    obtain ⟨w, h1, h2, h3, h4⟩ := foldl_max_spec (α := α) l v
    refine ⟨w, by simpa [maxV] using h1, ?_, ?_⟩
    · rcases h2 with rfl | h2 <;> simp [*]
    · intro x hx
      rcases List.mem_cons.mp hx with rfl | hx
      · exact h3
      · exact h4 x hx

theorem minV_spec {l : List K} (h : l ≠ []) : ∃ w, minV (l.map (fin : K → α)) = .ok (fin w) ∧ w ∈ l ∧ ∀ x ∈ l, w ≤ x := by
  cases l with
  | nil => exact absurd rfl h
  | cons v l =>
    obtain ⟨w, h1, h2, h3, h4⟩ := foldl_min_spec (α := α) l v
    refine ⟨w, by simpa [minV] using h1, ?_, ?_⟩
    · rcases h2 with rfl | h2 <;> simp [*]
    · intro x hx
      rcases List.mem_cons.mp hx with rfl | hx
      · exact h3
      · exact h4 x hx

/-- the exact entries of the array -/
theorem data_ofMatrix {r c : ℕ} (A : Matrix (Fin r) (Fin c) K) : (ofMatrix A : Mat α).data = (ofEntries A).data.map fin := by
  unfold ofMatrix ofEntries
  apply List.ext_getElem <;> simp

theorem mem_matEntries {r c : ℕ} (A : Matrix (Fin r) (Fin c) K) (x : K) : x ∈ (ofEntries A).data ↔ ∃ i j, A i j = x := by
  unfold ofEntries
  simp only [List.mem_ofFn]
  constructor
  · rintro ⟨k, hk⟩; exact ⟨k.divNat, k.modNat, hk⟩
  · rintro ⟨i, j, h⟩
    refine ⟨finProdFinEquiv (i, j), ?_⟩
    have := finProdFinEquiv.symm_apply_apply (i, j)
    simp only [finProdFinEquiv, Equiv.coe_fn_symm_mk, Equiv.coe_fn_mk, Prod.mk.injEq] at this
    rw [← h]
    exact congrArg₂ A this.1 this.2

theorem entries_ne_nil {r c : ℕ} (hr : 0 < r) (hc : 0 < c) (A : Matrix (Fin r) (Fin c) K) : (ofEntries A).data ≠ [] := by
  intro h
  have := congrArg List.length h
  simp [ofEntries] at this
  omega

/-- C63: `NormInfinity` is the largest absolute value of an entry. -/
theorem C63_normInfinity {r c : ℕ} (hr : 0 < r) (hc : 0 < c) (A : Matrix (Fin r) (Fin c) K) :
    ∃ w, (ofMatrix A : Mat α).normInfinity = .ok (fin w) ∧ (∃ i j, |A i j| = w) ∧ ∀ i j, |A i j| ≤ w := by
  have hne : (ofEntries A).data.map (fun x => |x|) ≠ [] := by simpa using entries_ne_nil hr hc A
  obtain ⟨w, h1, h2, h3⟩ := maxV_spec (α := α) hne
  refine ⟨w, ?_, ?_, fun i j => h3 _ (List.mem_map.mpr ⟨A i j, (mem_matEntries A _).mpr ⟨i, j, rfl⟩, rfl⟩)⟩
  · rw [← h1, Mat.normInfinity, data_ofMatrix]
    simp [Function.comp_def, Exact.abs]
  · obtain ⟨x, hx, rfl⟩ := List.mem_map.mp h2
    obtain ⟨i, j, rfl⟩ := (mem_matEntries A _).mp hx
    exact ⟨i, j, rfl⟩

/-- C63: `NormNegInfinity` is the smallest absolute value of an entry. -/
theorem C63_normNegInfinity {r c : ℕ} (hr : 0 < r) (hc : 0 < c) (A : Matrix (Fin r) (Fin c) K) :
    ∃ w, (ofMatrix A : Mat α).normNegInfinity = .ok (fin w) ∧ (∃ i j, |A i j| = w) ∧ ∀ i j, w ≤ |A i j| := by
  have hne : (ofEntries A).data.map (fun x => |x|) ≠ [] := by simpa using entries_ne_nil hr hc A
  obtain ⟨w, h1, h2, h3⟩ := minV_spec (α := α) hne
  refine ⟨w, ?_, ?_, fun i j => h3 _ (List.mem_map.mpr ⟨A i j, (mem_matEntries A _).mpr ⟨i, j, rfl⟩, rfl⟩)⟩
  · rw [← h1, Mat.normNegInfinity, data_ofMatrix]
    simp [Function.comp_def, Exact.abs]
  · obtain ⟨x, hx, rfl⟩ := List.mem_map.mp h2
    obtain ⟨i, j, rfl⟩ := (mem_matEntries A _).mp hx
    exact ⟨i, j, rfl⟩

/-- C63: `Min` is the smallest entry. -/
theorem C63_min {r c : ℕ} (hr : 0 < r) (hc : 0 < c) (A : Matrix (Fin r) (Fin c) K) :
    ∃ w, (ofMatrix A : Mat α).min_ = .ok (fin w) ∧ (∃ i j, A i j = w) ∧ ∀ i j, w ≤ A i j := by
  obtain ⟨w, h1, h2, h3⟩ := minV_spec (α := α) (entries_ne_nil hr hc A)
  refine ⟨w, ?_, (mem_matEntries A _).mp h2, fun i j => h3 _ ((mem_matEntries A _).mpr ⟨i, j, rfl⟩)⟩
  rw [← h1, Mat.min_, data_ofMatrix]

/-- C63: `Norm2` is the sum of the squares of all entries (not its square root). -/
theorem C63_norm2 {r c : ℕ} (hr : 0 < r) (hc : 0 < c) (A : Matrix (Fin r) (Fin c) K) :
    (ofMatrix A : Mat α).norm2 = .ok (fin (∑ i, ∑ j, A i j * A i j)) := by
  have h : List.zipWith Arith.mul (ofMatrix A : Mat α).data (ofMatrix A : Mat α).data =
      ((ofEntries A).data.map fun x => x * x).map fin := by
    rw [data_ofMatrix]
    apply List.ext_getElem <;> simp [Exact.mul]
  unfold Mat.norm2
  rw [h, sumV_fin]
  · congr 2
    have : ((ofEntries A).data.map fun x => x * x) = List.ofFn fun k : Fin (r * c) => A k.divNat k.modNat * A k.divNat k.modNat := by
      unfold ofEntries
      apply List.ext_getElem <;> simp
    rw [this, List.sum_ofFn, ← Fintype.sum_prod_type']
    exact Fintype.sum_equiv finProdFinEquiv.symm _ _ (fun k => rfl)
  · simpa using entries_ne_nil hr hc A

example : ((ofMatrix (!![1, -4; 2, 3] : Matrix (Fin 2) (Fin 2) ℚ) : Mat (XNum ℚ)).normInfinity,
    (ofMatrix (!![1, -4; 2, 3] : Matrix (Fin 2) (Fin 2) ℚ) : Mat (XNum ℚ)).normNegInfinity,
    (ofMatrix (!![1, -4; 2, 3] : Matrix (Fin 2) (Fin 2) ℚ) : Mat (XNum ℚ)).min_,
    (ofMatrix (!![1, -4; 2, 3] : Matrix (Fin 2) (Fin 2) ℚ) : Mat (XNum ℚ)).norm2) =
    (.ok (.fin 4), .ok (.fin 1), .ok (.fin (-4)), .ok (.fin 30)) := by decide +kernel

/-! ### C64: comparisons -/

/-- C64: `IsZero(A)`: no entry is larger than epsilon in absolute value. -/
theorem C64_isZero {r c : ℕ} (eps : K) (A : Matrix (Fin r) (Fin c) K) :
    isZero (fin eps) (ofMatrix A : Mat α) = true ↔ ∀ i j, |A i j| ≤ eps := by
  unfold isZero ofMatrix ofEntries
  rw [all_ofFn_iff]
  simp only [Matrix.map_apply, Exact.abs, Exact.le, decide_eq_true_eq]
  exact forall_flat (P := fun i j => |A i j| ≤ eps)

/-- C64: `A == v` for a number `v`. -/
theorem C64_eqNum {r c : ℕ} (eps v : K) (A : Matrix (Fin r) (Fin c) K) :
    (ofMatrix A : Mat α).eqNum (fin eps) (fin v) = true ↔ ∀ i j, |A i j - v| < eps := by
  unfold Mat.eqNum ofMatrix ofEntries
  rw [all_ofFn_iff]
  simp only [Matrix.map_apply, Exact.sub, Exact.abs, Exact.lt, decide_eq_true_eq]
  exact forall_flat (P := fun i j => |A i j - v| < eps)

/-- C64: `A == B` for matrices of the same size: every pair of entries differs by less than epsilon. -/
theorem C64_eqMat {r c : ℕ} (eps : K) (A B : Matrix (Fin r) (Fin c) K) :
    ∃ b, (ofMatrix A : Mat α).eqMat (fin eps) (ofMatrix B) = .ok b ∧ (b = true ↔ ∀ i j, |A i j - B i j| < eps) := by
  refine ⟨_, by unfold Mat.eqMat; exact if_pos ⟨rfl, rfl⟩, ?_⟩
  unfold ofMatrix
  rw [zip_data, all_ofFn_iff]
  simp only [Matrix.map_apply, Exact.sub, Exact.abs, Exact.lt, decide_eq_true_eq]
  exact forall_flat (P := fun i j => |A i j - B i j| < eps)

/-- C64: `AllIsLessThan(A, B)` and `v < w`: every entry of the first is less than the entry of the second in the same place. -/
theorem C64_allIsLessThan {r c : ℕ} (A B : Matrix (Fin r) (Fin c) K) :
    ∃ b, allIsLessThan (ofMatrix A : Mat α) (ofMatrix B) = .ok b ∧ (b = true ↔ ∀ i j, A i j < B i j) := by
  refine ⟨_, by unfold allIsLessThan; exact if_pos ⟨rfl, rfl⟩, ?_⟩
  unfold ofMatrix
  rw [zip_data, all_ofFn_iff]
  simp only [Matrix.map_apply, Exact.lt, decide_eq_true_eq]
  exact forall_flat (P := fun i j => A i j < B i j)

/-- C64: comparing matrices of different sizes violates an assertion. -/
theorem C64_sizes {r c r' c' : ℕ} (h : r ≠ r' ∨ c ≠ c') (eps : α) (A : Matrix (Fin r) (Fin c) α) (B : Matrix (Fin r') (Fin c') α) :
    (ofEntries A).eqMat eps (ofEntries B) = .assertFail ∧ allIsLessThan (ofEntries A) (ofEntries B) = .assertFail := by
  have : ¬ (r = r' ∧ c = c') := by rintro ⟨h1, h2⟩; rcases h with h | h <;> contradiction
  exact ⟨by unfold Mat.eqMat ofEntries; exact if_neg this, by unfold allIsLessThan ofEntries; exact if_neg this⟩

example : isZero (.fin (1 / 10)) (ofMatrix (!![1 / 10, 0; 0, -1 / 20] : Matrix (Fin 2) (Fin 2) ℚ) : Mat (XNum ℚ)) = true ∧
    isZero (.fin (1 / 10)) (ofMatrix (!![1 / 10, 0; 0, -1] : Matrix (Fin 2) (Fin 2) ℚ) : Mat (XNum ℚ)) = false ∧
    allIsLessThan (ofMatrix (!![1, 2] : Matrix (Fin 1) (Fin 2) ℚ) : Mat (XNum ℚ)) (ofMatrix (!![2, 2] : Matrix (Fin 1) (Fin 2) ℚ)) = .ok false := by
  decide +kernel

/-! ### C66: pivot search -/

/-- C66: `GetMaxAbsRowIndex(A, rowStart, rowEnd, col)` is the first row in the range whose entry in the column has the largest
absolute value. -/
theorem C66_getMaxAbsRowIndex [IsStrictOrderedRing K] {r c : ℕ} (A : Matrix (Fin r) (Fin c) K) (s e : Fin r) (hse : s ≤ e) (j : Fin c) :
    ∃ i : Fin r, getMaxAbsRowIndex (ofMatrix A : Mat α) s e j = .ok i ∧ s ≤ i ∧ i ≤ e ∧
      (∀ k, s ≤ k → k ≤ e → |A k j| ≤ |A i j|) ∧ ∀ k, s ≤ k → k < i → |A k j| < |A i j| := by
  rw [ofMatrix_eq]
  obtain ⟨i, h1, h2, h3, h4, h5⟩ := getMax_first (α := α) (r := r) (c := c) (ext A) (y := s) (e := e) (x := j) hse e.2 j.2
  have hi : i < r := lt_of_le_of_lt h3 e.2
  have hA : ∀ (k : ℕ) (hk : k < r), ext A k j = A ⟨k, hk⟩ j := by intro k hk; simp [ext, hk]
  refine ⟨⟨i, hi⟩, h1, h2, h3, fun k hk1 hk2 => ?_, fun k hk1 hk2 => ?_⟩
  · have := h4 k hk1 hk2
    rwa [hA k k.2, hA i hi] at this
  · have := h5 k hk1 hk2
    rwa [hA k k.2, hA i hi] at this

example : getMaxAbsRowIndex (ofMatrix (!![9, 1; 2, -3; 0, 3] : Matrix (Fin 3) (Fin 2) ℚ) : Mat (XNum ℚ)) 1 2 1 = .ok 1 := by
  decide +kernel

end exact_arithmetic

/-! ### C65: construction, conversion, elementwise vectors -/

/-- C65: `v * w` and `v / w` of vectors of the same length work element by element, for any arithmetic. -/
theorem C65_vecZip (f : α → α → α) {n : ℕ} (u v : Fin n → α) :
    vecZip f ⟨n, 1, List.ofFn u⟩ ⟨n, 1, List.ofFn v⟩ = .ok ⟨n, 1, List.ofFn fun k => f (u k) (v k)⟩ := by
  unfold vecZip zipV
  simp only [if_true, List.length_ofFn, Res.bind_ok, List.length_zipWith, min_self]
  congr 2
  apply List.ext_getElem <;> simp

/-- C65: vectors of different lengths violate an assertion. -/
theorem C65_vecZip_sizes (f : α → α → α) (a b : Mat α) (h : a.rows ≠ b.rows) : vecZip f a b = .assertFail := if_neg h

/-- C65: `ToVec` gives the column of a one-column matrix and throws `runtime_error` for every other. -/
theorem C65_toVec {r c : ℕ} (hr : 0 < r) (A : Matrix (Fin r) (Fin c) α) :
    (ofEntries A).toVec = if h : c = 1 then .ok ⟨r, 1, List.ofFn fun i => A i ⟨0, by omega⟩⟩ else .throw .runtime := by
  unfold Mat.toVec
  have : ¬ (ofEntries A).rows = 0 := by simp only [ofEntries]; omega
  rw [if_neg this]
  by_cases h : c = 1
  · subst h
    rw [if_neg (by simp [ofEntries]), dif_pos rfl]
    congr 2
    unfold ofEntries
    apply List.ext_getElem
    · simp
    · intro k h1 h2
      simp only [List.getElem_ofFn]
      congr 1
      · apply Fin.ext; simp [Fin.divNat]
      · exact Subsingleton.elim _ _
  · rw [if_pos (by simpa [ofEntries] using h), dif_neg h]

private theorem foldl_max_const (l : List (List α)) (c : ℕ) (h : ∀ x ∈ l, x.length = c) : ∀ a, a ≤ c → l ≠ [] →
    l.foldl (fun r l => max r l.length) a = c := by
  induction l with
  | nil => intro a _ h; exact absurd rfl h
  | cons x l ih =>
    intro a ha _
    simp only [List.foldl_cons, h x (by simp)]
    by_cases hl : l = []
    · subst hl; simp; omega
    · exact ih (fun y hy => h y (by simp [hy])) _ (by omega) hl

private theorem writeAll_mismatch (is : List ℕ) : ∀ (d : List α) (vs : List α), is.length ≠ vs.length → (∀ i ∈ is, i < d.length) →
    writeAll d is vs = .ub := by
  induction is with
  | nil => intro d vs h _; cases vs with
    | nil => exact absurd rfl h
    | cons => rfl
  | cons i is ih =>
    intro d vs h hi
    cases vs with
    | nil => rfl
    | cons v vs =>
      simp only [writeAll, writeAt, if_pos (hi i (by simp)), Res.bind_ok]
      exact ih _ _ (by simpa using h) (fun j hj => by simpa using hi j (by simp [hj]))

private theorem row_as_range (c : ℕ) (x : List α) (h : x.length = c) : x = (List.range (c - 0)).map fun k => x.getD k Arith.zero := by
  apply List.ext_getElem
  · simp [h]
  · intro k h1 h2
    simp [List.getD_eq_getElem?_getD, h1]

private theorem initLoop (r c : ℕ) (rows : List (List α)) : ∀ (k : ℕ) (f : ℕ → ℕ → α), (∀ x ∈ rows, x.length = c) → k + rows.length ≤ r →
    ∃ g, forRes (fun (m : Mat α) (p : List α × ℕ) => m.setRow p.2 0 p.1) (rows.zipIdx k) (Mat.mk' r c f) = .ok (Mat.mk' r c g) ∧
      (∀ i j, i < rows.length → g (k + i) j = (rows.getD i []).getD j Arith.zero) ∧ ∀ i j, i < k → g i j = f i j := by
  induction rows with
  | nil => intro k f _ _; exact ⟨f, rfl, by simp, fun _ _ _ => rfl⟩
  | cons x rows ih =>
    intro k f hx hk
    simp only [List.length_cons] at hk
    have h1 : (Mat.mk' r c f).setRow k 0 x = .ok (Mat.mk' r c fun i j => if i = k ∧ 0 ≤ j then x.getD (j - 0) Arith.zero else f i j) := by
      rw [row_as_range c x (hx x (by simp))]
      rw [← row_as_range c x (hx x (by simp))]
      have := setRow_mk' (r := r) (c := c) f (off := 0) (i := k) (fun j => x.getD j Arith.zero) (by omega)
      rwa [← row_as_range c x (hx x (by simp))] at this
    obtain ⟨g, g1, g2, g3⟩ := ih (k + 1) (fun i j => if i = k ∧ 0 ≤ j then x.getD (j - 0) Arith.zero else f i j)
      (fun y hy => hx y (by simp [hy])) (by omega)
    refine ⟨g, ?_, ?_, ?_⟩
    · simp only [List.zipIdx_cons, forRes, h1, Res.bind_ok]
      exact g1
    · intro i j hi
      cases i with
      | zero =>
        rw [g3 _ _ (by omega)]
        simp
      | succ i =>
        have := g2 i j (by simpa using hi)
        rw [show k + 1 + i = k + (i + 1) by omega] at this
        rw [this]
        simp
    · intro i j hi
      rw [g3 _ _ (by omega), if_neg (by omega)]

/-- C65: `Mat{{...}, {...}}` with rows of the same length has the given entries. -/
theorem C65_ofInit {r c : ℕ} (hr : 0 < r) (hc : 0 < c) (A : Matrix (Fin r) (Fin c) α) :
    Mat.ofInit (List.ofFn fun i => List.ofFn (A i)) = .ok (ofEntries A) := by
  have hlen : ∀ x ∈ (List.ofFn fun i => List.ofFn (A i)), x.length = c := by
    intro x hx
    obtain ⟨i, rfl⟩ := List.mem_ofFn.mp hx
    simp
  have hne : (List.ofFn fun i => List.ofFn (A i)) ≠ [] := by
    intro h; have := congrArg List.length h; simp at this; omega
  unfold Mat.ofInit
  rw [if_neg hne]
  simp only [foldl_max_const _ c hlen 0 (Nat.zero_le _) hne]
  rw [if_neg (by omega)]
  obtain ⟨g, g1, g2, _⟩ := initLoop r c (List.ofFn fun i => List.ofFn (A i)) 0 (fun _ _ => Arith.zero) hlen (by simp)
  simp only [Mat.mk', ← flat_replicate, List.length_ofFn] at g1 ⊢
  rw [g1, ofEntries_eq]
  congr 1
  refine Mat.mk'_congr ?_
  intro i j hi hj
  have := g2 i j (by simpa using hi)
  rw [Nat.zero_add] at this
  rw [this]
  simp [extE, hi, hj, List.getD_eq_getElem?_getD]

/-- C65: rows of different lengths are undefined behaviour. -/
theorem C65_ragged (init : List (List α)) (x y : List α) (hx : x ∈ init) (hy : y ∈ init) (hxy : x.length < y.length) :
    Mat.ofInit init = .ub := by
  have hne : init ≠ [] := by rintro rfl; simp at hx
  have hmax : ∀ (l : List (List α)) a, a ≤ l.foldl (fun r l => max r l.length) a ∧
      ∀ z ∈ l, z.length ≤ l.foldl (fun r l => max r l.length) a := by
    intro l
    induction l with
    | nil => intro a; simp
    | cons z l ih =>
      intro a
      simp only [List.foldl_cons]
      obtain ⟨h1, h2⟩ := ih (max a z.length)
      refine ⟨by omega, fun w hw => ?_⟩
      rcases List.mem_cons.mp hw with rfl | hw
      · omega
      · exact h2 w hw
  unfold Mat.ofInit
  rw [if_neg hne]
  generalize hc : init.foldl (fun r l => max r l.length) 0 = c
  have hyc : y.length ≤ c := by rw [← hc]; exact (hmax init 0).2 y hy
  simp only
  rw [if_neg (by omega), flat_replicate]
  have key : ∀ (r : ℕ) (rows : List (List α)) (k : ℕ) (f : ℕ → ℕ → α), x ∈ rows → k + rows.length ≤ r →
      forRes (fun (m : Mat α) (p : List α × ℕ) => m.setRow p.2 0 p.1) (rows.zipIdx k) (Mat.mk' r c f) = .ub := by
    intro r rows
    induction rows with
    | nil => intro k f h; simp at h
    | cons z rows ih =>
      intro k f h hk
      simp only [List.length_cons] at hk
      simp only [List.zipIdx_cons, forRes]
      by_cases hz : z.length = c
      · have h1 : (Mat.mk' r c f).setRow k 0 z = .ok (Mat.mk' r c fun i j => if i = k ∧ 0 ≤ j then z.getD (j - 0) Arith.zero else f i j) := by
          have := setRow_mk' (r := r) (c := c) f (off := 0) (i := k) (fun j => z.getD j Arith.zero) (by omega)
          rwa [← row_as_range c z hz] at this
        rw [h1]
        simp only [Res.bind_ok]
        rcases List.mem_cons.mp h with rfl | h
        · omega
        · exact ih _ _ h (by omega)
      · have h1 : (Mat.mk' r c f).setRow k 0 z = .ub := by
          unfold Mat.setRow
          rw [writeAll_mismatch]
          · rfl
          · simp [Mat.rowIdx, sliceIdx]; omega
          · intro i hi
            simp only [Mat.rowIdx, sliceIdx, Mat.mk'_cols, Mat.mk'_data, List.mem_map, List.mem_range, flat_length] at hi ⊢
            obtain ⟨j, hj, rfl⟩ := hi
            have : c * k + c ≤ c * r := by rw [← Nat.mul_succ]; exact Nat.mul_le_mul_left c (by omega)
            have h2 : r * c = c * r := Nat.mul_comm _ _
            omega
        rw [h1]; rfl
  exact key _ init 0 _ hx (by simp)

example : Mat.ofInit [[(.fin 1 : XNum ℚ), .fin 2], [.fin 3, .fin 4]] = .ok ⟨2, 2, [.fin 1, .fin 2, .fin 3, .fin 4]⟩ ∧
    Mat.ofInit [[(.fin 1 : XNum ℚ), .fin 2], [.fin 3]] = .ub ∧
    (⟨1, 2, [.fin 1, .fin 2]⟩ : Mat (XNum ℚ)).toVec = .throw .runtime ∧
    vecZip Arith.div ⟨2, 1, [(.fin 6 : XNum ℚ), .fin 1]⟩ ⟨2, 1, [.fin 2, .fin 4]⟩ = .ok ⟨2, 1, [.fin 3, .fin (1 / 4)]⟩ := by
  decide +kernel

end Tom
