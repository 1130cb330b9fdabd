import Verif.Lemmas.DoubleSum
import Verif.Lemmas.MatAny
import Verif.Model.Nonlinear
/-
C77: sums of products with doubles: `Dot`, `Norm2`, the matrix product.
-/
namespace Tom
namespace Double
variable {L : Libm}

/-- a vector of doubles -/
def vec {n : ℕ} (a : Fin n → Double L) : Mat (Double L) := ⟨n, 1, List.ofFn a⟩

theorem zip_ofFn {β : Type} {n : ℕ} (a b : Fin n → Double L) (F : Double L × Double L → β) :
    ((List.ofFn a).zip (List.ofFn b)).map F = List.ofFn fun k => F (a k, b k) := by
  apply List.ext_getElem <;> simp

/-- C77: whatever the order in which the products `a_k b_k` are added, the result, if finite, is within
`(1 + 2^-53)^n - 1` times the sum of the absolute values (increased by `2^-1022` for underflow) of the exact sum. -/
theorem C77_any_order {n : ℕ} (a b : Fin n → Double L) (s : Double L)
    (h : SomeOrder (List.ofFn fun k => Arith.mul (a k) (b k)) s) (hs : s.Finite) :
    (∀ k, (a k).Finite ∧ (b k).Finite) ∧
    |s.rat - ∑ k, (a k).rat * (b k).rat| ≤ ((1 + 1 / 2 ^ 53) ^ n - 1) * ∑ k, (|(a k).rat * (b k).rat| + 1 / 2 ^ 1022) := by
  have hz : List.zipWith Arith.mul (List.ofFn a) (List.ofFn b) = List.ofFn fun k => Arith.mul (a k) (b k) := by
    apply List.ext_getElem <;> simp
  rw [← hz] at h
  obtain ⟨h1, h2⟩ := someOrder_products (by simp) h hs
  rw [zip_ofFn, zip_ofFn, List.length_ofFn, List.sum_ofFn, List.sum_ofFn] at h2
  refine ⟨fun k => ?_, h2⟩
  have : (a k, b k) ∈ (List.ofFn a).zip (List.ofFn b) := by
    rw [List.mem_iff_getElem]
    exact ⟨k, by simp, by simp⟩
  exact h1 _ this

/-- C77: the sum of the products is finite, in every order, if the absolute values leave room. -/
theorem C77_no_overflow {n : ℕ} (a b : Fin n → Double L) (s : Double L)
    (h : SomeOrder (List.ofFn fun k => Arith.mul (a k) (b k)) s) (hf : ∀ k, (a k).Finite ∧ (b k).Finite)
    (hb : (1 + 1 / 2 ^ 53) ^ (n + 1) * ∑ k, (|(a k).rat * (b k).rat| + 1 / 2 ^ 1022) < 2 ^ 1023) : s.Finite := by
  have hu := u_nonneg
  have hm : (0 : ℚ) < 1 / 2 ^ 1022 := by positivity
  have hS : ∀ k, |(a k).rat * (b k).rat| + 1 / 2 ^ 1022 ≤ ∑ k, (|(a k).rat * (b k).rat| + 1 / 2 ^ 1022) := fun k =>
    Finset.single_le_sum (f := fun k => |(a k).rat * (b k).rat| + 1 / 2 ^ 1022) (fun i _ => by positivity) (Finset.mem_univ k)
  have hbig : ∀ k, |rnd ((a k).rat * (b k).rat)| < 2 ^ 1024 ∧
      |rnd ((a k).rat * (b k).rat)| ≤ (1 + unitRound) * (|(a k).rat * (b k).rat| + 1 / 2 ^ 1022) := by
    intro k
    have h1 := rnd_mixed' ((a k).rat * (b k).rat)
    have h2 := abs_sub_abs_le_abs_sub (rnd ((a k).rat * (b k).rat)) ((a k).rat * (b k).rat)
    have h3 := hS k
    constructor
    · apply rnd_bound
      have hg : (1 : ℚ) ≤ (1 + 1 / 2 ^ 53) ^ (n + 1) := growth_ge _
      have hpos : 0 ≤ ∑ k, (|(a k).rat * (b k).rat| + 1 / 2 ^ 1022) := le_trans (by positivity) h3
      have h4 := mul_le_mul_of_nonneg_right hg hpos
      have h5 : |(a k).rat * (b k).rat| < 2 ^ 1023 := by
        generalize (2 : ℚ) ^ 1023 = B at *
        linarith
      have : ((|(a k).rat * (b k).rat| : ℚ) : ℝ) < ((2 ^ 1023 : ℚ) : ℝ) := by exact_mod_cast h5
      push_cast at this ⊢
      exact this
    · change _ ≤ unitRound * _ at h1
      generalize (1 : ℚ) / 2 ^ 1022 = m at *
      linarith
  have hmul : ∀ k, (Arith.mul (a k) (b k) : Double L).Is (rnd ((a k).rat * (b k).rat)) := fun k =>
    mul_is (hf k).1.is (hf k).2.is (hbig k).1
  refine someOrder_finite h ?_ ?_
  · intro x hx
    obtain ⟨k, rfl⟩ := (List.mem_ofFn' _ _).mp hx
    exact (hmul k).finite
  · rw [List.length_ofFn, List.map_ofFn, List.map_ofFn, List.sum_ofFn]
    have : ∑ k, (abs ∘ rat ∘ fun k => (Arith.mul (a k) (b k) : Double L)) k ≤
        (1 + unitRound) * ∑ k, (|(a k).rat * (b k).rat| + 1 / 2 ^ 1022) := by
      rw [Finset.mul_sum]
      refine Finset.sum_le_sum fun k _ => ?_
      simp only [Function.comp_apply, (hmul k).rat]
      exact (hbig k).2
    have hg := one_le_growth n
    have h6 := mul_le_mul_of_nonneg_left this (le_trans zero_le_one hg)
    refine lt_of_le_of_lt h6 ?_
    rw [← mul_assoc, ← pow_succ]
    exact hb

theorem sumV_ofFn {n : ℕ} (hn : 0 < n) (a : Fin n → Double L) : ∃ s, sumV (List.ofFn a) = .ok s := by
  cases h : List.ofFn a with
  | nil => simp at h; omega
  | cons v vs => exact ⟨_, rfl⟩

theorem dot_sum {n : ℕ} (a b : Fin n → Double L) : dot (vec a) (vec b) = sumV (List.ofFn fun k => Arith.mul (a k) (b k)) := by
  unfold dot vec zipV
  simp only [if_true, List.length_ofFn, Res.bind_ok]
  congr 1
  apply List.ext_getElem <;> simp

/-- C77 for `Dot`: it returns; a finite result is within the bound. -/
theorem C77_dot {n : ℕ} (hn : 0 < n) (a b : Fin n → Double L) : ∃ s, dot (vec a) (vec b) = .ok s ∧ (s.Finite →
    |s.rat - ∑ k, (a k).rat * (b k).rat| ≤ ((1 + 1 / 2 ^ 53) ^ n - 1) * ∑ k, (|(a k).rat * (b k).rat| + 1 / 2 ^ 1022)) := by
  obtain ⟨s, hs⟩ := sumV_ofFn hn fun k => Arith.mul (a k) (b k)
  exact ⟨s, by rw [dot_sum, hs], fun hf => (C77_any_order a b s (sumV_someOrder hs) hf).2⟩

/-- C77 for `Norm2` (the sum of the squares): all terms are non-negative, so the error is relative. -/
theorem C77_norm2 {n : ℕ} (hn : 0 < n) (a : Fin n → Double L) : ∃ s, (vec a).norm2 = .ok s ∧ (s.Finite →
    |s.rat - ∑ k, (a k).rat ^ 2| ≤ ((1 + 1 / 2 ^ 53) ^ n - 1) * (∑ k, (a k).rat ^ 2 + n / 2 ^ 1022)) := by
  obtain ⟨s, hs, h⟩ := C77_dot hn a a
  refine ⟨s, ?_, fun hf => ?_⟩
  · rw [← hs]
    simp [dot, zipV, Mat.norm2, vec]
  · have := h hf
    simp only [← pow_two, abs_sq, Finset.sum_add_distrib, Finset.sum_const, Finset.card_univ, Fintype.card_fin,
      nsmul_eq_mul] at this
    rwa [mul_one_div] at this

/-- C77 for the matrix product: entry by entry. -/
theorem C77_mul {r m c : ℕ} (hr : 0 < r) (hm : 0 < m) (hc : 0 < c) (A : Matrix (Fin r) (Fin m) (Double L))
    (B : Matrix (Fin m) (Fin c) (Double L)) :
    ∃ C : Matrix (Fin r) (Fin c) (Double L), (ofEntries A).mul (ofEntries B) = .ok (ofEntries C) ∧ ∀ i j, (C i j).Finite →
      |(C i j).rat - ∑ k, (A i k).rat * (B k j).rat| ≤
        ((1 + 1 / 2 ^ 53) ^ m - 1) * ∑ k, (|(A i k).rat * (B k j).rat| + 1 / 2 ^ 1022) := by
  choose C hC using fun (i : Fin r) (j : Fin c) => sumV_ofFn hm fun k => Arith.mul (A i k) (B k j)
  refine ⟨C, ?_, fun i j hf => (C77_any_order (A i) (fun k => B k j) _ (sumV_someOrder (hC i j)) hf).2⟩
  rw [ofEntries_eq, ofEntries_eq, mul_mk' hr hc _ _ (extE (Matrix.of C)), ← ofEntries_eq]
  · rfl
  intro i j hi hj
  have := hC ⟨i, hi⟩ ⟨j, hj⟩
  rw [show extE (Matrix.of C) i j = C ⟨i, hi⟩ ⟨j, hj⟩ by simp [extE, hi, hj], ← this]
  congr 1
  apply List.ext_getElem
  · simp
  · intro k h1 h2
    simp only [List.length_map, List.length_range] at h1
    simp [extE, hi, hj, h1]

/-- 0.1 three times, squared: the sum of squares in doubles as libstdc++ adds them up, near 0.03 -/
def tenth : Double L := lit 1 (-1)

example (hL : L.sumOrder = libstdcxxOrder) : ∃ s : Double L, (vec (fun _ : Fin 3 => (tenth : Double L))).norm2 = .ok s ∧ s.Finite ∧ s.rat ≠ ∑ _k : Fin 3, (tenth : Double L).rat ^ 2 := by
  obtain ⟨x, h1, h2⟩ := ofDec_some (L := L) (m := 1) (e := -1) (v := .num (3602879701896397 / 36028797018963968)) (by decide +kernel)
  have ht : (tenth : Double L) = x := by rw [tenth, lit, h1, Option.getD_some]
  have h3 : (Arith.mul x x : Double L).raw = .num (1441151880758559 / 144115188075855872) := by
    show F64.mul x.raw x.raw = _
    rw [h2]; decide +kernel
  have h4 : (Arith.add (Arith.mul x x) (Arith.mul x x) : Double L).raw = .num (1441151880758559 / 72057594037927936) := by
    show F64.add (Arith.mul x x : Double L).raw (Arith.mul x x : Double L).raw = _
    rw [h3]; decide +kernel
  have h5 : (Arith.add (Arith.add (Arith.mul x x) (Arith.mul x x)) (Arith.mul x x) : Double L).raw =
      .num (4323455642275677 / 144115188075855872) := by
    show F64.add (Arith.add (Arith.mul x x) (Arith.mul x x) : Double L).raw (Arith.mul x x : Double L).raw = _
    rw [h4, h3]; decide +kernel
  refine ⟨_, ?_, (is_num h5).finite, ?_⟩
  · rw [ht]
    exact sumV_backward (α := Double L) hL [Arith.mul x x, Arith.mul x x] (Arith.mul x x)
  · rw [(is_num h5).rat, ht, (is_num h2).rat]; norm_num

end Double
end Tom
