import Verif.Props.MatMisc
import Verif.Props.IeeeTables
import Verif.Lemmas.DoubleElim
/-
C63, C64, C66 with doubles: norms, comparisons and the pivot search do not round.
-/
namespace Tom
namespace Double
variable {L : Libm}

theorem minV_double (l : List (Double L)) (h : l ≠ []) (hf : ∀ v ∈ l, v.Finite) :
    ∃ m, minV l = .ok m ∧ m ∈ l ∧ ∀ v ∈ l, m.rat ≤ v.rat := by
  have key : ∀ (l : List (Double L)) (a : Double L), a.Finite → (∀ v ∈ l, v.Finite) →
      ∃ m, l.foldl (fun r w => if Arith.lt w r then w else r) a = m ∧
      (m = a ∨ m ∈ l) ∧ m.rat ≤ a.rat ∧ ∀ v ∈ l, m.rat ≤ v.rat := by
    intro l
    induction l with
    | nil => intro a _ _; exact ⟨a, rfl, .inl rfl, le_rfl, by simp⟩
    | cons b l ih =>
      intro a ha hl
      have hb := hl b (by simp)
      simp only [List.foldl_cons]
      rw [lt_is hb.is ha.is]
      by_cases hab : b.rat < a.rat
      · rw [if_pos (by simpa using hab)]
        obtain ⟨m, h1, h2, h3, h4⟩ := ih b hb (fun v hv => hl v (by simp [hv]))
        refine ⟨m, h1, .inr ?_, h3.trans hab.le, ?_⟩
        · rcases h2 with rfl | h2
          · simp
          · exact List.mem_cons_of_mem _ h2
        · intro v hv
          rcases List.mem_cons.mp hv with rfl | hv
          · exact h3
          · exact h4 v hv
      · rw [if_neg (by simpa using hab)]
        obtain ⟨m, h1, h2, h3, h4⟩ := ih a ha (fun v hv => hl v (by simp [hv]))
        refine ⟨m, h1, ?_, h3, ?_⟩
        · exact h2.imp id (List.mem_cons_of_mem _)
        · intro v hv
          rcases List.mem_cons.mp hv with rfl | hv
          · exact h3.trans (not_lt.mp hab)
          · exact h4 v hv
  cases l with
  | nil => exact absurd rfl h
  | cons a l =>
    obtain ⟨m, h1, h2, h3, h4⟩ := key l a (hf a (by simp)) (fun v hv => hf v (by simp [hv]))
    refine ⟨m, by simp only [minV, h1], List.mem_cons.mpr h2, ?_⟩
    intro v hv
    rcases List.mem_cons.mp hv with rfl | hv
    · exact h3
    · exact h4 v hv

theorem getMax_first_double {r c : ℕ} (f : ℕ → ℕ → Double L) {y e x : ℕ} (hy : y ≤ e) (he : e < r) (hx : x < c)
    (hf : ∀ k, y ≤ k → k ≤ e → (f k x).Finite) :
    ∃ i, getMaxAbsRowIndex (Mat.mk' r c f) y e x = .ok i ∧ y ≤ i ∧ i ≤ e ∧
      (∀ k, y ≤ k → k ≤ e → |(f k x).rat| ≤ |(f i x).rat|) ∧ ∀ k, y ≤ k → k < i → |(f k x).rat| < |(f i x).rat| := by
  unfold getMaxAbsRowIndex
  rw [col_mk' _ hx]
  simp only [Res.bind_ok]
  have h1 : ∀ n k, k + n ≤ r → readAll ((List.range (r - 0)).map fun k => f (0 + k) x) ((List.range n).map fun j => k + j * 1)
      = .ok ((List.range n).map fun j => f (k + j) x) := by
    intro n
    induction n with
    | zero => intro k _; rfl
    | succ n ih =>
      intro k hk
      rw [List.range_succ_eq_map]
      simp only [List.map_cons, List.map_map, readAll, Nat.zero_mul, Nat.add_zero]
      have e1 : ((fun j => k + j * 1) ∘ Nat.succ) = fun j => (k + 1) + j * 1 := by funext j; simp; omega
      have e2 : ((fun j => f (k + j) x) ∘ Nat.succ) = fun j => f (k + 1 + j) x := by
        funext j; simp only [Function.comp]; congr 1; omega
      rw [e1, e2, ih (k + 1) (by omega)]
      simp only [Nat.sub_zero, Nat.zero_add, readAt, List.getElem?_map]
      rw [List.getElem?_eq_getElem (by simp; omega)]
      simp
  unfold sliceIdx
  rw [h1 (e + 1 - y) y (by omega), Res.bind_ok, List.map_map]
  set l := (List.range (e + 1 - y)).map (Arith.abs ∘ fun j => f (y + j) x) with hl
  have hne : l ≠ [] := by
    intro h
    have := congrArg List.length h
    simp [hl] at this
    omega
  have hlf : ∀ v ∈ l, v.Finite := by
    intro v hv
    obtain ⟨j, hj, rfl⟩ := List.mem_map.mp hv
    rw [List.mem_range] at hj
    exact (abs_is (hf (y + j) (by omega) (by omega)).is).finite
  obtain ⟨m, h2, h3, h4⟩ := maxV_double l hne hlf
  rw [h2, Res.bind_ok]
  have h5 : l.findIdx (fun v => Arith.eq v m) < l.length := by
    rw [List.findIdx_lt_length]
    exact ⟨m, h3, by rw [eq_is (hlf m h3).is (hlf m h3).is]; simp⟩
  set k := l.findIdx (fun v => Arith.eq v m) with hk
  have h6 : Arith.eq l[k] m = true := List.findIdx_getElem (w := h5)
  have hk' : k < e + 1 - y := by simpa [hl] using h5
  refine ⟨k + y, rfl, by omega, by omega, ?_⟩
  have hab : ∀ j, y ≤ j → j ≤ e → (Arith.abs (f j x)).rat = |(f j x).rat| := fun j h1 h2 => (abs_is (hf j h1 h2).is).rat
  have h7 : |(f (k + y) x).rat| = m.rat := by
    rw [eq_is (hlf _ (List.getElem_mem _)).is (hlf m h3).is, decide_eq_true_eq] at h6
    simp only [hl, List.getElem_map, List.getElem_range, Function.comp] at h6
    rw [hab _ (by omega) (by omega), Nat.add_comm] at h6
    exact h6
  have hmain : ∀ j, y ≤ j → j ≤ e → |(f j x).rat| ≤ |(f (k + y) x).rat| := by
    intro j hj1 hj2
    rw [h7, ← hab j hj1 hj2]
    exact h4 _ (List.mem_map.mpr ⟨j - y, by simp; omega, by simp only [Function.comp]; congr 2; omega⟩)
  refine ⟨hmain, fun j hj1 hj2 => lt_of_le_of_ne (hmain j hj1 (by omega)) fun heq => ?_⟩
  have h8 := List.not_of_lt_findIdx (p := fun v => Arith.eq v m) (xs := l) (i := j - y) (by omega)
  have hjl : j - y < l.length := by omega
  rw [eq_is (hlf _ (List.getElem_mem hjl)).is (hlf m h3).is] at h8
  simp only [hl, List.getElem_map, List.getElem_range, Function.comp] at h8
  rw [hab _ (by omega) (by omega), show y + (j - y) = j by omega, heq, h7] at h8
  simp at h8

theorem ne_nil {r c : ℕ} (hr : 0 < r) (hc : 0 < c) (A : Matrix (Fin r) (Fin c) (Double L)) : (ofEntries A).data ≠ [] := by
  intro h
  have := congrArg List.length h
  simp [ofEntries] at this
  omega

/-- C63 with doubles: `NormInfinity` is exactly the largest absolute value of an entry. -/
theorem C63_ieee_normInfinity {r c : ℕ} (hr : 0 < r) (hc : 0 < c) (A : Matrix (Fin r) (Fin c) (Double L)) (hA : ∀ i j, (A i j).Finite) :
    ∃ w, (ofEntries A).normInfinity = .ok w ∧ w.Finite ∧ (∃ i j, |(A i j).rat| = w.rat) ∧ ∀ i j, |(A i j).rat| ≤ w.rat := by
  have hne : (ofEntries A).data.map Arith.abs ≠ [] := by simpa using ne_nil hr hc A
  have hfin : ∀ v ∈ (ofEntries A).data.map (Arith.abs : Double L → Double L), v.Finite := by
    intro v hv
    obtain ⟨u, hu, rfl⟩ := List.mem_map.mp hv
    obtain ⟨i, j, rfl⟩ := (mem_ofEntries_data A u).mp hu
    exact (abs_is (hA i j).is).finite
  obtain ⟨w, h1, h2, h3⟩ := maxV_double _ hne hfin
  refine ⟨w, h1, hfin w h2, ?_, fun i j => ?_⟩
  · obtain ⟨u, hu, rfl⟩ := List.mem_map.mp h2
    obtain ⟨i, j, rfl⟩ := (mem_ofEntries_data A u).mp hu
    exact ⟨i, j, (abs_is (hA i j).is).rat.symm⟩
  · rw [← (abs_is (hA i j).is).rat]
    exact h3 _ (List.mem_map.mpr ⟨A i j, (mem_ofEntries_data A _).mpr ⟨i, j, rfl⟩, rfl⟩)

/-- C63 with doubles: `NormNegInfinity` is exactly the smallest absolute value of an entry. -/
theorem C63_ieee_normNegInfinity {r c : ℕ} (hr : 0 < r) (hc : 0 < c) (A : Matrix (Fin r) (Fin c) (Double L))
    (hA : ∀ i j, (A i j).Finite) :
    ∃ w, (ofEntries A).normNegInfinity = .ok w ∧ w.Finite ∧ (∃ i j, |(A i j).rat| = w.rat) ∧ ∀ i j, w.rat ≤ |(A i j).rat| := by
  have hne : (ofEntries A).data.map Arith.abs ≠ [] := by simpa using ne_nil hr hc A
  have hfin : ∀ v ∈ (ofEntries A).data.map (Arith.abs : Double L → Double L), v.Finite := by
    intro v hv
    obtain ⟨u, hu, rfl⟩ := List.mem_map.mp hv
    obtain ⟨i, j, rfl⟩ := (mem_ofEntries_data A u).mp hu
    exact (abs_is (hA i j).is).finite
  obtain ⟨w, h1, h2, h3⟩ := minV_double _ hne hfin
  refine ⟨w, h1, hfin w h2, ?_, fun i j => ?_⟩
  · obtain ⟨u, hu, rfl⟩ := List.mem_map.mp h2
    obtain ⟨i, j, rfl⟩ := (mem_ofEntries_data A u).mp hu
    exact ⟨i, j, (abs_is (hA i j).is).rat.symm⟩
  · rw [← (abs_is (hA i j).is).rat]
    exact h3 _ (List.mem_map.mpr ⟨A i j, (mem_ofEntries_data A _).mpr ⟨i, j, rfl⟩, rfl⟩)

/-- C63 with doubles: `Min` is exactly the smallest entry. -/
theorem C63_ieee_min {r c : ℕ} (hr : 0 < r) (hc : 0 < c) (A : Matrix (Fin r) (Fin c) (Double L)) (hA : ∀ i j, (A i j).Finite) :
    ∃ w, (ofEntries A).min_ = .ok w ∧ (∃ i j, A i j = w) ∧ ∀ i j, w.rat ≤ (A i j).rat := by
  have hfin : ∀ v ∈ (ofEntries A).data, v.Finite := by
    intro v hv
    obtain ⟨i, j, rfl⟩ := (mem_ofEntries_data A v).mp hv
    exact hA i j
  obtain ⟨w, h1, h2, h3⟩ := minV_double _ (ne_nil hr hc A) hfin
  exact ⟨w, h1, (mem_ofEntries_data A w).mp h2, fun i j => h3 _ ((mem_ofEntries_data A _).mpr ⟨i, j, rfl⟩)⟩

/-- C64 with doubles: `IsZero` compares exactly. -/
theorem C64_ieee_isZero {r c : ℕ} (eps : Double L) (he : eps.Finite) (A : Matrix (Fin r) (Fin c) (Double L)) (hA : ∀ i j, (A i j).Finite) :
    isZero eps (ofEntries A) = true ↔ ∀ i j, |(A i j).rat| ≤ eps.rat := by
  unfold isZero ofEntries
  rw [all_ofFn_iff, ← forall_flat (P := fun i j => |(A i j).rat| ≤ eps.rat)]
  refine forall_congr' fun k => ?_
  rw [le_is (abs_is (hA _ _).is) he.is, decide_eq_true_eq]

/-- C64 with doubles: `AllIsLessThan` and `Vec < Vec` compare exactly. -/
theorem C64_ieee_allIsLessThan {r c : ℕ} (A B : Matrix (Fin r) (Fin c) (Double L)) (hA : ∀ i j, (A i j).Finite)
    (hB : ∀ i j, (B i j).Finite) :
    ∃ b, allIsLessThan (ofEntries A) (ofEntries B) = .ok b ∧ (b = true ↔ ∀ i j, (A i j).rat < (B i j).rat) := by
  refine ⟨_, by unfold allIsLessThan; exact if_pos ⟨rfl, rfl⟩, ?_⟩
  rw [zip_data, all_ofFn_iff, ← forall_flat (P := fun i j => (A i j).rat < (B i j).rat)]
  refine forall_congr' fun k => ?_
  rw [lt_is (hA _ _).is (hB _ _).is, decide_eq_true_eq]

/-- the comparison `|u - v| < eps` of finite doubles -/
theorem close_is {u v eps : Double L} (hu : u.Finite) (hv : v.Finite) (he : eps.Finite) :
    Arith.lt (Arith.abs (Arith.sub u v)) eps = true ↔ |rnd (u.rat - v.rat)| < eps.rat := by
  have hE := isDouble_lt (is_double he.is)
  by_cases hlt : |rnd (u.rat - v.rat)| < 2 ^ 1024
  · rw [lt_is (abs_is (sub_is hu.is hv.is hlt)) he.is, decide_eq_true_eq]
  · constructor
    · intro h
      obtain ⟨s, hs⟩ := sub_inf hu hv (not_lt.mp hlt)
      have hr : Arith.lt (Arith.abs (Arith.sub u v)) eps = F64.lt (F64.abs (Arith.sub u v : Double L).raw) eps.raw := rfl
      rw [hr, hs] at h
      rcases is_cases he.is with ⟨_, t, ht⟩ | ⟨_, ht⟩ <;> rw [ht] at h <;> cases h
    · intro h
      exact absurd (lt_trans h (lt_of_le_of_lt (le_abs_self _) hE)) hlt

/-- C64 with doubles: `A == B`: every rounded difference is smaller than epsilon. -/
theorem C64_ieee_eqMat {r c : ℕ} (eps : Double L) (he : eps.Finite) (A B : Matrix (Fin r) (Fin c) (Double L))
    (hA : ∀ i j, (A i j).Finite) (hB : ∀ i j, (B i j).Finite) :
    ∃ b, (ofEntries A).eqMat eps (ofEntries B) = .ok b ∧ (b = true ↔ ∀ i j, |rnd ((A i j).rat - (B i j).rat)| < eps.rat) := by
  refine ⟨_, by unfold Mat.eqMat; exact if_pos ⟨rfl, rfl⟩, ?_⟩
  rw [zip_data, all_ofFn_iff, ← forall_flat (P := fun i j => |rnd ((A i j).rat - (B i j).rat)| < eps.rat)]
  exact forall_congr' fun k => close_is (hA _ _) (hB _ _) he

/-- C64 with doubles: `A == v`. -/
theorem C64_ieee_eqNum {r c : ℕ} (eps v : Double L) (he : eps.Finite) (hv : v.Finite) (A : Matrix (Fin r) (Fin c) (Double L))
    (hA : ∀ i j, (A i j).Finite) :
    (ofEntries A).eqNum eps v = true ↔ ∀ i j, |rnd ((A i j).rat - v.rat)| < eps.rat := by
  unfold Mat.eqNum ofEntries
  rw [all_ofFn_iff, ← forall_flat (P := fun i j => |rnd ((A i j).rat - v.rat)| < eps.rat)]
  exact forall_congr' fun k => close_is (hA _ _) hv he

/-- C64 with doubles: `A == A` for every matrix of finite doubles, if epsilon is positive. -/
theorem C64_ieee_refl {r c : ℕ} (eps : Double L) (he : eps.Finite) (h0 : 0 < eps.rat) (A : Matrix (Fin r) (Fin c) (Double L))
    (hA : ∀ i j, (A i j).Finite) : (ofEntries A).eqMat eps (ofEntries A) = .ok true := by
  obtain ⟨b, h1, h2⟩ := C64_ieee_eqMat eps he A A hA hA
  rw [h1, h2.mpr fun i j => by rw [sub_self, rnd_zero, abs_zero]; exact h0]

/-- C64 with doubles: `A == B` and `B == A` are the same, whatever the entries are. -/
theorem C64_ieee_symm {r c : ℕ} (eps : Double L) (A B : Matrix (Fin r) (Fin c) (Double L)) :
    (ofEntries A).eqMat eps (ofEntries B) = (ofEntries B).eqMat eps (ofEntries A) := by
  have key : ∀ u v : Double L, Arith.abs (Arith.sub u v) = Arith.abs (Arith.sub v u) :=
    fun u v => Double.ext (F64.abs_sub_comm u.raw v.raw)
  unfold Mat.eqMat
  rw [if_pos ⟨rfl, rfl⟩, if_pos ⟨rfl, rfl⟩]
  congr 1
  rw [Bool.eq_iff_iff, zip_data, zip_data, all_ofFn_iff, all_ofFn_iff]
  exact forall_congr' fun k => by rw [key]

/-- C66 with doubles: the pivot search compares exactly. -/
theorem C66_ieee_getMaxAbsRowIndex {r c : ℕ} (A : Matrix (Fin r) (Fin c) (Double L)) (s e : Fin r) (hse : s ≤ e) (j : Fin c)
    (hA : ∀ k, s ≤ k → k ≤ e → (A k j).Finite) :
    ∃ i : Fin r, getMaxAbsRowIndex (ofEntries A) s e j = .ok i ∧ s ≤ i ∧ i ≤ e ∧
      (∀ k, s ≤ k → k ≤ e → |(A k j).rat| ≤ |(A i j).rat|) ∧ ∀ k, s ≤ k → k < i → |(A k j).rat| < |(A i j).rat| := by
  have hE : ∀ (k : ℕ) (hk : k < r), extE A k j = A ⟨k, hk⟩ j := by intro k hk; simp [extE, hk]
  rw [ofEntries_eq]
  obtain ⟨i, h1, h2, h3, h4, h5⟩ := getMax_first_double (r := r) (c := c) (extE A) (y := s) (e := e) (x := j) hse e.2 j.2
    (fun k hk1 hk2 => by rw [hE k (lt_of_le_of_lt hk2 e.2)]; exact hA _ hk1 hk2)
  have hi : i < r := lt_of_le_of_lt h3 e.2
  refine ⟨⟨i, hi⟩, h1, h2, h3, fun k hk1 hk2 => ?_, fun k hk1 hk2 => ?_⟩
  · have := h4 k hk1 hk2
    rwa [hE k k.2, hE i hi] at this
  · have := h5 k hk1 hk2
    rwa [hE k k.2, hE i hi] at this

/-- C66 with doubles: if the first entry of the range is a NaN and the range has another row, the row found is past the range. -/
theorem C66_ieee_false_nan : getMaxAbsRowIndex (ofEntries (!![Dbl.nan; Arith.one] : Matrix (Fin 2) (Fin 1) (Double libm0))) 0 1 0 = .ok 2 := by
  decide +kernel

/-- a matrix of finite doubles -/
def exMat : Matrix (Fin 2) (Fin 2) (Double libm0) := !![near libm0 (1 / 10), near libm0 (-3); near libm0 3, near libm0 0]

example : (∀ i j, (exMat i j).Finite) ∧ (ofEntries exMat).normInfinity = .ok (near libm0 3) ∧
    (ofEntries exMat).min_ = .ok (near libm0 (-3)) ∧ getMaxAbsRowIndex (ofEntries exMat) 0 1 1 = .ok 0 := by
  refine ⟨fun i j => ?_, by decide +kernel, by decide +kernel, by decide +kernel⟩
  show F64.isInvalid _ = _
  fin_cases i <;> fin_cases j <;> decide +kernel

end Double
end Tom
