import Verif.Model.Mat
/-
Flat row-major storage as a function of row and column.
-/
set_option linter.unusedSectionVars false
namespace Tom

section flat
variable {β : Type}

/-- row-major storage of the entries `f i j` -/
def flat (r c : Nat) (f : Nat → Nat → β) : List β := (List.range (r * c)).map fun k => f (k / c) (k % c)

theorem flat_length (r c : Nat) (f : Nat → Nat → β) : (flat r c f).length = r * c := by simp [flat]

theorem idx_lt {r c i j : Nat} (hi : i < r) (hj : j < c) : i * c + j < r * c := by
  have h1 : (i + 1) * c ≤ r * c := Nat.mul_le_mul_right c hi
  rw [Nat.add_mul] at h1
  omega

theorem idx_div {c i j : Nat} (hj : j < c) : (i * c + j) / c = i := by
  have hc : 0 < c := by omega
  rw [Nat.mul_comm, Nat.mul_add_div hc, Nat.div_eq_of_lt hj, Nat.add_zero]

theorem idx_mod {c i j : Nat} (hj : j < c) : (i * c + j) % c = j := by
  rw [Nat.mul_comm, Nat.mul_add_mod, Nat.mod_eq_of_lt hj]

theorem idx_inj {c i j i' j' : Nat} (hj : j < c) (hj' : j' < c) (h : i * c + j = i' * c + j') : i = i' ∧ j = j' := by
  have h1 := congrArg (· / c) h
  have h2 := congrArg (· % c) h
  simp only [idx_div hj, idx_div hj', idx_mod hj, idx_mod hj'] at h1 h2
  exact ⟨h1, h2⟩

theorem flat_get {r c : Nat} (f : Nat → Nat → β) {i j : Nat} (hi : i < r) (hj : j < c) :
    (flat r c f)[i * c + j]? = some (f i j) := by
  unfold flat
  rw [List.getElem?_map, List.getElem?_range (idx_lt hi hj)]
  simp [idx_div hj, idx_mod hj]

theorem pos_of_idx {r c k : Nat} (h : k < r * c) : 0 < c := by
  rcases Nat.eq_zero_or_pos c with h0 | h0
  · subst h0; simp at h
  · exact h0

theorem row_of_idx {r c k : Nat} (h : k < r * c) : k / c < r := (Nat.div_lt_iff_lt_mul (pos_of_idx h)).mpr h

theorem col_of_idx {r c k : Nat} (h : k < r * c) : k % c < c := Nat.mod_lt _ (pos_of_idx h)

theorem flat_congr {r c : Nat} {f g : Nat → Nat → β} (h : ∀ i j, i < r → j < c → f i j = g i j) : flat r c f = flat r c g := by
  unfold flat
  apply List.map_congr_left
  intro k hk
  rw [List.mem_range] at hk
  exact h _ _ (row_of_idx hk) (col_of_idx hk)

theorem flat_inj {r c : Nat} {f g : Nat → Nat → β} (h : flat r c f = flat r c g) {i j : Nat} (hi : i < r) (hj : j < c) :
    f i j = g i j := by
  have h1 := flat_get f hi hj
  rw [h, flat_get g hi hj] at h1
  exact (Option.some.inj h1).symm

theorem flat_map {γ : Type} (r c : Nat) (f : Nat → Nat → β) (g : β → γ) : (flat r c f).map g = flat r c fun i j => g (f i j) := by
  simp [flat]

theorem flat_zipWith {γ δ : Type} (r c : Nat) (f : Nat → Nat → β) (g : Nat → Nat → γ) (h : β → γ → δ) :
    List.zipWith h (flat r c f) (flat r c g) = flat r c fun i j => h (f i j) (g i j) := by
  unfold flat
  rw [List.zipWith_map]
  rw [List.zipWith_self]

theorem flat_replicate (r c : Nat) (v : β) : List.replicate (r * c) v = flat r c fun _ _ => v := by
  unfold flat
  rw [List.map_const']
  simp

theorem flat_set {r c : Nat} (f : Nat → Nat → β) {i j : Nat} (v : β) (hi : i < r) (hj : j < c) :
    (flat r c f).set (i * c + j) v = flat r c fun i' j' => if i' = i ∧ j' = j then v else f i' j' := by
  apply List.ext_getElem?
  intro k
  by_cases hk : k < r * c
  · have hc := pos_of_idx hk
    have e : k = k / c * c + k % c := by rw [Nat.mul_comm]; exact (Nat.div_add_mod k c).symm
    rw [e, flat_get _ (row_of_idx hk) (col_of_idx hk), List.getElem?_set]
    have hlen := flat_length r c f
    by_cases h : i * c + j = k / c * c + k % c
    · obtain ⟨h1, h2⟩ := idx_inj hj (col_of_idx hk) h
      have h3 : i * c + j < (flat r c f).length := by rw [hlen]; exact idx_lt hi hj
      rw [if_pos h, if_pos h3, if_pos ⟨h1.symm, h2.symm⟩]
    · rw [if_neg h, if_neg, flat_get _ (row_of_idx hk) (col_of_idx hk)]
      rintro ⟨h1, h2⟩
      rw [h1, h2] at h
      exact h rfl
  · rw [List.getElem?_eq_none, List.getElem?_eq_none]
    · rw [flat_length]; omega
    · rw [List.length_set, flat_length]; omega

/-- every list of the right length is the storage of some entries -/
theorem flat_of_list {r c : Nat} (d : List β) (h : d.length = r * c) (v0 : β) : d = flat r c fun i j => d.getD (i * c + j) v0 := by
  apply List.ext_getElem?
  intro k
  by_cases hk : k < r * c
  · have e : k = k / c * c + k % c := by rw [Nat.mul_comm]; exact (Nat.div_add_mod k c).symm
    rw [e, flat_get _ (row_of_idx hk) (col_of_idx hk), ← e]
    simp [List.getD, h, hk]
  · rw [List.getElem?_eq_none, List.getElem?_eq_none]
    · rw [flat_length]; omega
    · omega

/-- the subscript of an entry -/
def idx (c : Nat) (p : Nat × Nat) : Nat := p.1 * c + p.2

theorem readAll_flat {r c : Nat} (f : Nat → Nat → β) (l : List (Nat × Nat)) (h : ∀ p ∈ l, p.1 < r ∧ p.2 < c) :
    readAll (flat r c f) (l.map (idx c)) = .ok (l.map fun p => f p.1 p.2) := by
  induction l with
  | nil => rfl
  | cons p l ih =>
    have hp := h p (by simp)
    simp only [List.map_cons, readAll, readAt, idx, flat_get f hp.1 hp.2, Res.bind_ok]
    have ih' := ih (fun q hq => h q (by simp [hq]))
    rw [ih']; rfl

theorem writeAll_flat {r c : Nat} (f : Nat → Nat → β) (l : List (Nat × Nat)) (g : Nat × Nat → β)
    (h : ∀ p ∈ l, p.1 < r ∧ p.2 < c) :
    writeAll (flat r c f) (l.map (idx c)) (l.map g) = .ok (flat r c fun i j => if (i, j) ∈ l then g (i, j) else f i j) := by
  induction l generalizing f with
  | nil => simp [writeAll]
  | cons p l ih =>
    have hp := h p (by simp)
    simp only [List.map_cons, writeAll, writeAt, idx, flat_length, idx_lt hp.1 hp.2, if_true, Res.bind_ok, flat_set f (g p) hp.1 hp.2]
    have ih' := ih (fun i' j' => if i' = p.1 ∧ j' = p.2 then g p else f i' j') (fun q hq => h q (by simp [hq]))
    rw [ih']
    congr 1
    apply flat_congr
    intro i j _ _
    by_cases hq : (i, j) ∈ l
    · simp [hq]
    · by_cases he : (i, j) = p
      · subst he; simp
      · have : ¬ (i = p.1 ∧ j = p.2) := fun h => he (Prod.ext h.1 h.2)
        simp [hq, he, this]

theorem sliceIdx_row (c i off n : Nat) : sliceIdx (c * i + off) n 1 = ((List.range n).map fun k => (i, off + k)).map (idx c) := by
  simp only [sliceIdx, List.map_map]
  apply List.map_congr_left
  intro k _
  simp [idx, Nat.mul_comm, Nat.add_assoc]

theorem sliceIdx_col (c j off n : Nat) : sliceIdx (j + off * c) n c = ((List.range n).map fun k => (off + k, j)).map (idx c) := by
  simp only [sliceIdx, List.map_map]
  apply List.map_congr_left
  intro k _
  simp [idx, Nat.add_mul]
  omega

theorem sliceIdx_diag (c n : Nat) : sliceIdx 0 n (c + 1) = ((List.range n).map fun k => (k, k)).map (idx c) := by
  simp only [sliceIdx, List.map_map]
  apply List.map_congr_left
  intro k _
  simp [idx, Nat.mul_add]

/-- the entries of a block with top left corner `(p, q)` -/
def block (p q s0 s1 : Nat) : List (Nat × Nat) := (List.range s0).flatMap fun i => (List.range s1).map fun j => (p + i, q + j)

theorem mem_block {p q s0 s1 i j : Nat} : (i, j) ∈ block p q s0 s1 ↔ (p ≤ i ∧ i < p + s0) ∧ q ≤ j ∧ j < q + s1 := by
  simp only [block, List.mem_flatMap, List.mem_map, List.mem_range, Prod.mk.injEq]
  constructor
  · rintro ⟨a, ha, b, hb, h1, h2⟩; omega
  · rintro ⟨h1, h2⟩
    exact ⟨i - p, by omega, j - q, by omega, by omega, by omega⟩

theorem gsliceIdx_block (c p q s0 s1 : Nat) : gsliceIdx (p * c + q) s0 s1 c 1 = (block p q s0 s1).map (idx c) := by
  simp only [gsliceIdx, block, List.map_flatMap, List.map_map]
  congr 1
  funext i
  apply List.map_congr_left
  intro k _
  simp [idx, Nat.add_mul]
  omega

theorem block_map_shift {γ : Type} (p q p' q' s0 s1 : Nat) (f : Nat → Nat → γ) :
    (block p q s0 s1).map (fun t => f t.1 t.2) = (block p' q' s0 s1).map fun t => f (t.1 - p' + p) (t.2 - q' + q) := by
  simp only [block, List.map_flatMap, List.map_map]
  congr 1
  funext i
  apply List.map_congr_left
  intro k _
  simp only [Function.comp]
  congr 1 <;> omega

end flat

variable {α : Type} [Arith α]

/-- the matrix with entries `f i j` -/
def Mat.mk' (r c : Nat) (f : Nat → Nat → α) : Mat α := ⟨r, c, flat r c f⟩

theorem Mat.mk'_congr {r c : Nat} {f g : Nat → Nat → α} (h : ∀ i j, i < r → j < c → f i j = g i j) :
    Mat.mk' r c f = Mat.mk' r c g := by
  unfold Mat.mk'; rw [flat_congr h]

@[simp] theorem Mat.mk'_rows (r c : Nat) (f : Nat → Nat → α) : (Mat.mk' r c f).rows = r := rfl
@[simp] theorem Mat.mk'_cols (r c : Nat) (f : Nat → Nat → α) : (Mat.mk' r c f).cols = c := rfl
@[simp] theorem Mat.mk'_data (r c : Nat) (f : Nat → Nat → α) : (Mat.mk' r c f).data = flat r c f := rfl

theorem new_mk' {r c : Nat} (hr : 0 < r) (hc : 0 < c) (v : α) : Mat.new r c v = .ok (Mat.mk' r c fun _ _ => v) := by
  unfold Mat.new Mat.mk'
  rw [if_pos ⟨hr, hc⟩, flat_replicate]

theorem value_mk' {r c : Nat} (f : Nat → Nat → α) {i j : Nat} (hi : i < r) (hj : j < c) : (Mat.mk' r c f).value i j = .ok (f i j) := by
  simp [Mat.value, readAt, flat_get f hi hj]

theorem setValue_mk' {r c : Nat} (f : Nat → Nat → α) {i j : Nat} (v : α) (hi : i < r) (hj : j < c) :
    (Mat.mk' r c f).setValue i j v = .ok (Mat.mk' r c fun i' j' => if i' = i ∧ j' = j then v else f i' j') := by
  simp [Mat.setValue, writeAt, flat_length, idx_lt hi hj, flat_set f v hi hj, Mat.mk']

theorem at_mk' {r : Nat} (f : Nat → Nat → α) {i : Nat} (hi : i < r) : (Mat.mk' r 1 f).at_ i = .ok (f i 0) := by
  have := value_mk' (c := 1) f hi (Nat.zero_lt_one)
  simpa [Mat.value, Mat.at_] using this

theorem setAt_mk' {r : Nat} (f : Nat → Nat → α) {i : Nat} (v : α) (hi : i < r) :
    (Mat.mk' r 1 f).setAt i v = .ok (Mat.mk' r 1 fun i' j' => if i' = i then v else f i' j') := by
  have := setValue_mk' (c := 1) f v hi (Nat.zero_lt_one)
  rw [Mat.setValue, Mat.mk'_cols, Nat.mul_one, Nat.add_zero] at this
  unfold Mat.setAt
  refine Eq.trans this ?_
  congr 1
  apply Mat.mk'_congr
  intro i' j' _ hj
  have : j' = 0 := by omega
  simp [this]

theorem row_mk' {r c : Nat} (f : Nat → Nat → α) {i off : Nat} (hi : i < r) :
    (Mat.mk' r c f).row i off = .ok ((List.range (c - off)).map fun k => f i (off + k)) := by
  unfold Mat.row Mat.rowIdx
  simp only [Mat.mk'_cols, Mat.mk'_data]
  rw [sliceIdx_row, readAll_flat]
  · simp
  · intro p hp
    simp only [List.mem_map, List.mem_range] at hp
    obtain ⟨k, hk, rfl⟩ := hp
    exact ⟨hi, by simp; omega⟩

theorem col_mk' {r c : Nat} (f : Nat → Nat → α) {j off : Nat} (hj : j < c) :
    (Mat.mk' r c f).col j off = .ok ((List.range (r - off)).map fun k => f (off + k) j) := by
  unfold Mat.col Mat.colIdx
  simp only [Mat.mk'_cols, Mat.mk'_data, Mat.mk'_rows]
  rw [sliceIdx_col, readAll_flat]
  · simp
  · intro p hp
    simp only [List.mem_map, List.mem_range] at hp
    obtain ⟨k, hk, rfl⟩ := hp
    exact ⟨by simp; omega, hj⟩

theorem setRow_mk' {r c : Nat} (f : Nat → Nat → α) {i off : Nat} (g : Nat → α) (hi : i < r) :
    (Mat.mk' r c f).setRow i off ((List.range (c - off)).map g) =
      .ok (Mat.mk' r c fun i' j' => if i' = i ∧ off ≤ j' then g (j' - off) else f i' j') := by
  unfold Mat.setRow Mat.rowIdx
  simp only [Mat.mk'_cols, Mat.mk'_data]
  have e : (List.range (c - off)).map g = ((List.range (c - off)).map fun k => (i, off + k)).map fun p => g (p.2 - off) := by
    rw [List.map_map]
    apply List.map_congr_left
    intro k _
    simp
  rw [sliceIdx_row, e, writeAll_flat]
  · simp only [Res.bind_ok, Mat.mk']
    congr 2
    apply flat_congr
    intro i' j' _ hj'
    have : ((i', j') ∈ (List.range (c - off)).map fun k => (i, off + k)) ↔ (i' = i ∧ off ≤ j') := by
      simp only [List.mem_map, List.mem_range, Prod.mk.injEq]
      constructor
      · rintro ⟨k, hk, h1, h2⟩; omega
      · rintro ⟨h1, h2⟩; exact ⟨j' - off, by omega, h1.symm, by omega⟩
    simp only [this]
  · intro p hp
    simp only [List.mem_map, List.mem_range] at hp
    obtain ⟨k, hk, rfl⟩ := hp
    exact ⟨hi, by simp; omega⟩

theorem setCol_mk' {r c : Nat} (f : Nat → Nat → α) {j off : Nat} (g : Nat → α) (hj : j < c) :
    (Mat.mk' r c f).setCol j off ((List.range (r - off)).map g) =
      .ok (Mat.mk' r c fun i' j' => if j' = j ∧ off ≤ i' then g (i' - off) else f i' j') := by
  unfold Mat.setCol Mat.colIdx
  simp only [Mat.mk'_cols, Mat.mk'_data, Mat.mk'_rows]
  have e : (List.range (r - off)).map g = ((List.range (r - off)).map fun k => (off + k, j)).map fun p => g (p.1 - off) := by
    rw [List.map_map]
    apply List.map_congr_left
    intro k _
    simp
  rw [sliceIdx_col, e, writeAll_flat]
  · simp only [Res.bind_ok, Mat.mk']
    congr 2
    apply flat_congr
    intro i' j' hi' _
    have : ((i', j') ∈ (List.range (r - off)).map fun k => (off + k, j)) ↔ (j' = j ∧ off ≤ i') := by
      simp only [List.mem_map, List.mem_range, Prod.mk.injEq]
      constructor
      · rintro ⟨k, hk, h1, h2⟩; omega
      · rintro ⟨h1, h2⟩; exact ⟨i' - off, by omega, by omega, h1.symm⟩
    simp only [this]
  · intro p hp
    simp only [List.mem_map, List.mem_range] at hp
    obtain ⟨k, hk, rfl⟩ := hp
    exact ⟨by simp; omega, hj⟩

/-- exchange of two indices -/
def swapIx (i j k : Nat) : Nat := if k = i then j else if k = j then i else k

theorem swapRow_mk' {r c : Nat} (f : Nat → Nat → α) {i j : Nat} (hi : i < r) (hj : j < r) :
    (Mat.mk' r c f).swapRow i j = .ok (Mat.mk' r c fun i' j' => f (swapIx i j i') j') := by
  unfold Mat.swapRow
  by_cases h : i = j
  · subst h
    rw [if_pos rfl]
    congr 1
    apply Mat.mk'_congr
    intro i' j' _ _
    unfold swapIx
    split <;> simp_all
  · rw [if_neg h, if_pos ⟨hi, hj⟩, row_mk' f hi, row_mk' f hj]
    simp only [Res.bind_ok, Nat.zero_add]
    rw [setRow_mk' f (off := 0) (fun k => f j k) hi]
    simp only [Res.bind_ok]
    rw [setRow_mk' _ (off := 0) (fun k => f i k) hj]
    congr 1
    apply Mat.mk'_congr
    intro i' j' _ _
    unfold swapIx
    by_cases h1 : i' = i
    · subst h1; simp [h]
    · by_cases h2 : i' = j
      · subst h2; simp [h1]
      · simp [h1, h2]

theorem swapCol_mk' {r c : Nat} (f : Nat → Nat → α) {i j : Nat} (hi : i < c) (hj : j < c) :
    (Mat.mk' r c f).swapCol i j = .ok (Mat.mk' r c fun i' j' => f i' (swapIx i j j')) := by
  unfold Mat.swapCol
  by_cases h : i = j
  · subst h
    rw [if_pos rfl]
    congr 1
    apply Mat.mk'_congr
    intro i' j' _ _
    unfold swapIx
    split <;> simp_all
  · rw [if_neg h, if_pos ⟨hi, hj⟩, col_mk' f hi, col_mk' f hj]
    simp only [Res.bind_ok, Nat.zero_add]
    rw [setCol_mk' f (off := 0) (fun k => f k j) hi]
    simp only [Res.bind_ok]
    rw [setCol_mk' _ (off := 0) (fun k => f k i) hj]
    congr 1
    apply Mat.mk'_congr
    intro i' j' _ _
    unfold swapIx
    by_cases h1 : j' = i
    · subst h1; simp [h]
    · by_cases h2 : j' = j
      · subst h2; simp [h1]
      · simp [h1, h2]

theorem resize_mk' {r c r' c' : Nat} (f : Nat → Nat → α) (hr : 0 < r') (hc : 0 < c') :
    (Mat.mk' r c f).resize r' c' = .ok (Mat.mk' r' c' fun i j => if i < r ∧ j < c then f i j else Arith.zero) := by
  unfold Mat.resize
  rw [if_pos ⟨hr, hc⟩]
  simp only [Mat.mk'_rows, Mat.mk'_cols, Mat.mk'_data]
  have e0 : ∀ cc, gsliceIdx 0 (min r r') (min c c') cc 1 = (block 0 0 (min r r') (min c c')).map (idx cc) := by
    intro cc
    have := gsliceIdx_block cc 0 0 (min r r') (min c c')
    simpa using this
  rw [e0, e0, readAll_flat]
  · simp only [Res.bind_ok]
    rw [flat_replicate, writeAll_flat (fun _ _ => Arith.zero) _ (fun p => f p.1 p.2)]
    · simp only [Res.bind_ok, Mat.mk']
      congr 2
      apply flat_congr
      intro i j hi hj
      simp only [mem_block]
      by_cases h : i < r ∧ j < c
      · rw [if_pos h, if_pos (by omega)]
      · rw [if_neg h, if_neg (by omega)]
    · rintro ⟨i, j⟩ hp
      rw [mem_block] at hp
      simp only
      omega
  · rintro ⟨i, j⟩ hp
    rw [mem_block] at hp
    simp only
    omega

/-- one region of `GetCofactor` -/
theorem copyRegion_flat {r c n : Nat} (f g : Nat → Nat → α) (P Q P' Q' s0 s1 : Nat) (a b : Nat) (ha : a = P * (n - 1) + Q)
    (hb : b = P' * c + Q') (h1 : P + s0 ≤ n - 1) (h2 : Q + s1 ≤ n - 1) (h3 : P' + s0 ≤ r) (h4 : Q' + s1 ≤ c) :
    copyRegion (Mat.mk' r c f) n (flat (n - 1) (n - 1) g) ((s0, s1), a, b) =
    .ok (flat (n - 1) (n - 1) fun i j =>
      if (P ≤ i ∧ i < P + s0) ∧ Q ≤ j ∧ j < Q + s1 then f (i - P + P') (j - Q + Q') else g i j) := by
  subst ha hb
  unfold copyRegion
  simp only [Mat.mk'_data, Mat.mk'_cols]
  by_cases h : P * (n - 1) + Q < (flat (n - 1) (n - 1) g).length
  · rw [if_pos h, gsliceIdx_block, gsliceIdx_block, readAll_flat]
    · simp only [Res.bind_ok]
      rw [block_map_shift P' Q' P Q s0 s1 f, writeAll_flat g _ (fun t => f (t.1 - P + P') (t.2 - Q + Q'))]
      · simp only [mem_block]
      · rintro ⟨i, j⟩ hp
        rw [mem_block] at hp
        simp only
        omega
    · rintro ⟨i, j⟩ hp
      rw [mem_block] at hp
      simp only
      omega
  · rw [if_neg h]
    congr 1
    apply flat_congr
    intro i j _ _
    rw [if_neg]
    intro hh
    rw [flat_length] at h
    exact h (idx_lt (by omega) (by omega))

theorem getCofactor_mk' {r c n : Nat} (f g : Nat → Nat → α) {p q : Nat} (hp : p < n) (hq : q < n) (hr : n ≤ r) (hc : n ≤ c) :
    getCofactor (Mat.mk' r c f) (Mat.mk' (n - 1) (n - 1) g) p q n =
      .ok (Mat.mk' (n - 1) (n - 1) fun i j => f (if i < p then i else i + 1) (if j < q then j else j + 1)) := by
  unfold getCofactor
  simp only [forRes, Mat.mk'_cols, Mat.mk'_data, Mat.mk'_rows]
  rw [copyRegion_flat f g 0 0 0 0 p q _ _ (by omega) (by omega) (by omega) (by omega) (by omega) (by omega)]
  simp only [Res.bind_ok]
  rw [copyRegion_flat f _ 0 q 0 (q + 1) p (n - 1 - q) _ _ (by omega) (by omega) (by omega) (by omega) (by omega) (by omega)]
  simp only [Res.bind_ok]
  rw [copyRegion_flat f _ p 0 (p + 1) 0 (n - 1 - p) q _ _ rfl rfl (by omega) (by omega) (by omega) (by omega)]
  simp only [Res.bind_ok]
  rw [copyRegion_flat f _ p q (p + 1) (q + 1) (n - 1 - p) (n - 1 - q) _ _ rfl rfl (by omega) (by omega) (by omega) (by omega)]
  simp only [Res.bind_ok, Mat.mk']
  congr 2
  apply flat_congr
  intro i j hi hj
  by_cases h1 : i < p <;> by_cases h2 : j < q
  · rw [if_neg (by omega), if_neg (by omega), if_neg (by omega), if_pos (by omega), if_pos h1, if_pos h2]; congr 1
  · rw [if_neg (by omega), if_neg (by omega), if_pos (by omega), if_pos h1, if_neg h2]; congr 1; omega
  · rw [if_neg (by omega), if_pos (by omega), if_neg h1, if_pos h2]; congr 1; omega
  · rw [if_pos (by omega), if_neg h1, if_neg h2]; congr 1 <;> omega

theorem forRes_range {σ : Type} (f : σ → Nat → Res σ) (n : Nat) (st : Nat → σ) (h : ∀ k, k < n → f (st k) k = .ok (st (k + 1))) :
    forRes f (List.range n) (st 0) = .ok (st n) := by
  have key : ∀ m k, k + m = n → forRes f ((List.range m).map (· + k)) (st k) = .ok (st n) := by
    intro m
    induction m with
    | zero => intro k hk; simp only [Nat.add_zero] at hk; subst hk; rfl
    | succ m ih =>
      intro k hk
      rw [List.range_succ_eq_map]
      simp only [List.map_cons, forRes, Nat.zero_add, h k (by omega), Res.bind_ok, List.map_map]
      have := ih (k + 1) (by omega)
      have e : (List.range m).map ((fun x => x + k) ∘ Nat.succ) = (List.range m).map (· + (k + 1)) := by
        apply List.map_congr_left; intro a _; simp; omega
      rw [e]; exact this
  have := key n 0 (by omega)
  simpa using this

theorem forRes_reverse {σ : Type} (f : σ → Nat → Res σ) (n : Nat) (st : Nat → σ) (h : ∀ k, k < n → f (st (k + 1)) k = .ok (st k)) :
    forRes f (List.range n).reverse (st n) = .ok (st 0) := by
  induction n with
  | zero => rfl
  | succ n ih =>
    rw [List.range_succ, List.reverse_append]
    simp only [List.reverse_cons, List.reverse_nil, List.nil_append, List.singleton_append, forRes, h n (by omega), Res.bind_ok]
    exact ih (fun k hk => h k (by omega))

end Tom
