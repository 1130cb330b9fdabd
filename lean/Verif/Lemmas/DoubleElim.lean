import Verif.Lemmas.DoubleSum
import Verif.Lemmas.LinearAny
/-
The pivot search of `SolveLinear` with doubles, and the rounding errors of one elimination step.
-/
namespace Tom
namespace Double
open Finset
variable {L : Libm}

theorem maxV_double (l : List (Double L)) (h : l ≠ []) (hf : ∀ v ∈ l, v.Finite) :
    ∃ m, maxV l = .ok m ∧ m ∈ l ∧ ∀ v ∈ l, v.rat ≤ m.rat := by
  have key : ∀ (l : List (Double L)) (a : Double L), a.Finite → (∀ v ∈ l, v.Finite) →
      ∃ m, l.foldl (fun r w => if Arith.lt r w then w else r) a = m ∧
      (m = a ∨ m ∈ l) ∧ a.rat ≤ m.rat ∧ ∀ v ∈ l, v.rat ≤ m.rat := by
    intro l
    induction l with
    | nil => intro a _ _; exact ⟨a, rfl, .inl rfl, le_rfl, by simp⟩
    | cons b l ih =>
      intro a ha hl
      have hb := hl b (by simp)
      simp only [List.foldl_cons]
      rw [lt_is ha.is hb.is]
      by_cases hab : a.rat < b.rat
      · rw [if_pos (by simpa using hab)]
        obtain ⟨m, h1, h2, h3, h4⟩ := ih b hb (fun v hv => hl v (by simp [hv]))
        refine ⟨m, h1, .inr ?_, hab.le.trans h3, ?_⟩
        · rcases h2 with rfl | h2
          · simp
          · exact List.mem_cons_of_mem _ h2
        · intro v hv
          rcases List.mem_cons.mp hv with rfl | hv
          · exact h3
          · exact h4 v hv
      · rw [if_neg (by simpa using hab)]
        obtain ⟨m, h1, h2, h3, h4⟩ := ih a ha (fun v hv => hl v (by simp [hv]))
        refine ⟨m, h1, ?_, h3, ?_⟩
        · exact h2.imp id (List.mem_cons_of_mem _)
        · intro v hv
          rcases List.mem_cons.mp hv with rfl | hv
          · exact (not_lt.mp hab).trans h3
          · exact h4 v hv
  cases l with
  | nil => exact absurd rfl h
  | cons a l =>
    obtain ⟨m, h1, h2, h3, h4⟩ := key l a (hf a (by simp)) (fun v hv => hf v (by simp [hv]))
    refine ⟨m, by simp only [maxV, h1], List.mem_cons.mpr h2, ?_⟩
    intro v hv
    rcases List.mem_cons.mp hv with rfl | hv
    · exact h3
    · exact h4 v hv

theorem getMax_double {r c : ℕ} (f : ℕ → ℕ → Double L) {y x : ℕ} (hy : y < r) (hx : x < c)
    (hf : ∀ k, y ≤ k → k < r → (f k x).Finite) :
    ∃ i, getMaxAbsRowIndex (Mat.mk' r c f) y (r - 1) x = .ok i ∧ y ≤ i ∧ i < r ∧
      ∀ k, y ≤ k → k < r → |(f k x).rat| ≤ |(f i x).rat| := by
  unfold getMaxAbsRowIndex
  rw [col_mk' _ hx]
  simp only [Res.bind_ok]
  have h1 : ∀ n k, k + n ≤ r → readAll ((List.range (r - 0)).map fun k => f (0 + k) x) ((List.range n).map fun j => k + j * 1)
      = .ok ((List.range n).map fun j => f (k + j) x) := by
    intro n
    induction n with
    | zero => intro k _; rfl
    | succ n ih =>
      intro k hk
      rw [List.range_succ_eq_map]
      simp only [List.map_cons, List.map_map, readAll, Nat.zero_mul, Nat.add_zero]
      have e1 : ((fun j => k + j * 1) ∘ Nat.succ) = fun j => (k + 1) + j * 1 := by funext j; simp; omega
      have e2 : ((fun j => f (k + j) x) ∘ Nat.succ) = fun j => f (k + 1 + j) x := by
        funext j; simp only [Function.comp]; congr 1; omega
      rw [e1, e2, ih (k + 1) (by omega)]
      simp only [Nat.sub_zero, Nat.zero_add, readAt, List.getElem?_map]
      rw [List.getElem?_eq_getElem (by simp; omega)]
      simp
  unfold sliceIdx
  rw [h1 (r - 1 + 1 - y) y (by omega), Res.bind_ok, List.map_map]
  set l := (List.range (r - 1 + 1 - y)).map (Arith.abs ∘ fun j => f (y + j) x) with hl
  have hne : l ≠ [] := by
    intro h
    have := congrArg List.length h
    simp [hl] at this
    omega
  have hlf : ∀ v ∈ l, v.Finite := by
    intro v hv
    obtain ⟨j, hj, rfl⟩ := List.mem_map.mp hv
    rw [List.mem_range] at hj
    exact (abs_is (hf (y + j) (by omega) (by omega)).is).finite
  obtain ⟨m, h2, h3, h4⟩ := maxV_double l hne hlf
  rw [h2, Res.bind_ok]
  have h5 : l.findIdx (fun v => Arith.eq v m) < l.length := by
    rw [List.findIdx_lt_length]
    exact ⟨m, h3, by rw [eq_is (hlf m h3).is (hlf m h3).is]; simp⟩
  set k := l.findIdx (fun v => Arith.eq v m) with hk
  have h6 : Arith.eq l[k] m = true := List.findIdx_getElem (w := h5)
  have hk' : k < r - 1 + 1 - y := by simpa [hl] using h5
  refine ⟨k + y, rfl, by omega, by omega, ?_⟩
  have hab : ∀ j, y ≤ j → j < r → (Arith.abs (f j x)).rat = |(f j x).rat| := fun j h1 h2 => (abs_is (hf j h1 h2).is).rat
  have h7 : |(f (k + y) x).rat| = m.rat := by
    rw [eq_is (hlf _ (List.getElem_mem _)).is (hlf m h3).is, decide_eq_true_eq] at h6
    simp only [hl, List.getElem_map, List.getElem_range, Function.comp] at h6
    rw [hab _ (by omega) (by omega), Nat.add_comm] at h6
    exact h6
  intro j hj1 hj2
  rw [h7, ← hab j hj1 hj2]
  exact h4 _ (List.mem_map.mpr ⟨j - y, by simp; omega, by simp only [Function.comp]; congr 2; omega⟩)

theorem bringPivot_double {r c : ℕ} (f : ℕ → ℕ → Double L) {y x : ℕ} (hy : y < r) (hx : x < c)
    (hf : ∀ k, y ≤ k → k < r → (f k x).Finite) :
    ∃ σ, RowPerm r y σ ∧ (∀ b : ℕ → Double L, bringPivot (Mat.mk' r c f) (Mat.mk' r 1 fun i _ => b i) y x
      = .ok (Mat.mk' r c fun i j => f (σ i) j, Mat.mk' r 1 fun i _ => b (σ i))) ∧
      ∀ k, y ≤ k → k < r → |(f k x).rat| ≤ |(f (σ y) x).rat| := by
  obtain ⟨i, h1, h2, h3, h4⟩ := getMax_double f hy hx hf
  refine ⟨Equiv.swap y i, rowPerm_swap h2 h3, fun b => ?_, by simpa using h4⟩
  unfold bringPivot
  rw [Mat.mk'_rows, h1, Res.bind_ok, swapRow_mk' _ hy h3, Res.bind_ok, swapRow_mk' _ hy h3, Res.bind_ok]
  simp only [swapIx_swap]

theorem findPivot_double {r c : ℕ} {eps : Double L} {ε : ℚ} (he : eps.Is ε) (f : ℕ → ℕ → Double L) (B : Mat (Double L)) {y x : ℕ} (fuel : ℕ) (hy : y < r) (hx : x < c)
    (hf : (f y x).Finite) (hp : ε ≤ |(f y x).rat|) :
    findPivot eps (fuel + 1) (Mat.mk' r c f) B y x = .ok (Mat.mk' r c f, B, x) := by
  unfold findPivot
  rw [value_mk' _ hy hx, Res.bind_ok, lt_is (abs_is hf.is) he, if_neg (by simpa using hp)]

theorem rnd_ok {q : ℚ} (h : |q| ≤ 2 ^ 1001) : |rnd q| < 2 ^ 1024 := by
  apply rnd_bound
  have h2 : |q| < 2 ^ 1023 := lt_of_le_of_lt h (pow_lt_pow_right₀ (by norm_num) (by norm_num))
  have : ((|q| : ℚ) : ℝ) < ((2 ^ 1023 : ℚ) : ℝ) := by exact_mod_cast h2
  push_cast at this ⊢
  exact this

theorem rnd_mixed_u (q : ℚ) : |rnd q - q| ≤ unitRound * (|q| + 1 / 2 ^ 1022) := rnd_mixed' q

theorem two_pow_1001 : (2 : ℚ) ^ 1001 = 2 * 2 ^ 1000 := by rw [pow_succ]; ring

/-- dividing by the pivot -/
theorem div_step {v p : Double L} (hv : v.Finite) (hp : p.Finite) {ε W : ℚ} (hε : 0 < ε) (hpε : ε ≤ |p.rat|) (hW : |v.rat| ≤ W)
    (hover : W ≤ ε * 2 ^ 1000) (hunder : |p.rat| * (1 / 2 ^ 1022) ≤ W) :
    (Arith.div v p).Finite ∧ |p.rat * (Arith.div v p).rat - v.rat| ≤ 2 * unitRound * W := by
  have hp0 : p.rat ≠ 0 := by
    intro h
    rw [h, abs_zero] at hpε
    linarith
  have hpos : 0 < |p.rat| := abs_pos.mpr hp0
  have hq : |v.rat / p.rat| ≤ 2 ^ 1001 := by
    rw [abs_div, div_le_iff₀ hpos, two_pow_1001]
    have h1 : (0 : ℚ) < 2 ^ 1000 := by positivity
    generalize (2 : ℚ) ^ 1000 = B at *
    nlinarith
  have hd := div_is hv.is hp.is hp0 (rnd_ok hq)
  refine ⟨hd.finite, ?_⟩
  rw [hd.rat]
  have h1 := rnd_mixed_u (v.rat / p.rat)
  have e : p.rat * rnd (v.rat / p.rat) - v.rat = p.rat * (rnd (v.rat / p.rat) - v.rat / p.rat) := by
    rw [mul_sub, mul_div_cancel₀ _ hp0]
  rw [e, abs_mul]
  have h2 := mul_le_mul_of_nonneg_left h1 hpos.le
  have e2 : |p.rat| * (unitRound * (|v.rat / p.rat| + 1 / 2 ^ 1022)) = unitRound * (|v.rat| + |p.rat| * (1 / 2 ^ 1022)) := by
    rw [abs_div]
    field_simp
  rw [e2] at h2
  refine h2.trans ?_
  have hu := u_nonneg
  generalize |p.rat| * (1 / 2 ^ 1022) = t at *
  nlinarith

/-- subtracting a multiple of the pivot row -/
theorem sub_step {v q m : Double L} (hv : v.Finite) (hq : q.Finite) (hm : m.Finite) {W : ℚ}
    (hW : |v.rat| ≤ W) (hqm : |m.rat * q.rat| ≤ (1 + 2 * unitRound) * W) (hover : W ≤ 2 ^ 998) (hunder : 1 / 2 ^ 1022 ≤ unitRound * W) :
    (Arith.sub v (Arith.mul q m)).Finite ∧ |(Arith.sub v (Arith.mul q m)).rat - (v.rat - m.rat * q.rat)| ≤ 4 * unitRound * W ∧
      |(Arith.sub v (Arith.mul q m)).rat| ≤ (2 + 8 * unitRound) * W := by
  have hu := u_nonneg
  have hu1 : unitRound ≤ 1 / 100 := by norm_num [unitRound]
  have hW0 : 0 ≤ W := le_trans (abs_nonneg _) hW
  have k1 : unitRound * W ≤ 1 / 100 * W := mul_le_mul_of_nonneg_right hu1 hW0
  have k0 : 0 ≤ unitRound * W := mul_nonneg hu hW0
  have k2 : unitRound * (unitRound * W) ≤ 1 / 100 * (unitRound * W) := mul_le_mul_of_nonneg_right hu1 k0
  have e998 : (2 : ℚ) ^ 1001 = 8 * 2 ^ 998 := by rw [show 1001 = 998 + 3 from rfl, pow_add]; ring
  have hb : |q.rat * m.rat| ≤ 2 ^ 1001 := by
    rw [mul_comm, e998]
    clear e998
    generalize (2 : ℚ) ^ 998 = B at *
    linarith
  have ht := mul_is hq.is hm.is (rnd_ok hb)
  have h1 := rnd_mixed_u (q.rat * m.rat)
  set t := rnd (q.rat * m.rat) with htdef
  rw [mul_comm q.rat] at h1
  have h2 : |t - m.rat * q.rat| ≤ unitRound * (1 + 3 * unitRound) * W := by
    refine h1.trans ?_
    generalize (1 : ℚ) / 2 ^ 1022 = η at *
    nlinarith
  have h3 : |t| ≤ (1 + 4 * unitRound) * W := by
    have := abs_sub_abs_le_abs_sub t (m.rat * q.rat)
    linarith
  have h4 : |v.rat - t| ≤ (2 + 4 * unitRound) * W := by
    have := abs_sub v.rat t
    linarith
  have hb2 : |v.rat - t| ≤ 2 ^ 1001 := by
    rw [e998]
    clear e998 hb
    generalize (2 : ℚ) ^ 998 = B at *
    linarith
  have hs := sub_is hv.is ht (rnd_ok hb2)
  have h5 : |rnd (v.rat - t) - (v.rat - t)| ≤ unitRound * |v.rat - t| := by
    have := rnd_add_rel (is_double hv.is) (isDouble_neg (is_double ht))
    rw [← sub_eq_add_neg] at this
    exact this
  rw [hs.rat]
  have h6 : |rnd (v.rat - t) - (v.rat - m.rat * q.rat)| ≤ 4 * unitRound * W := by
    have h7 : rnd (v.rat - t) - (v.rat - m.rat * q.rat) = (rnd (v.rat - t) - (v.rat - t)) + -(t - m.rat * q.rat) := by ring
    rw [h7]
    refine (abs_add_le _ _).trans ?_
    rw [abs_neg]
    have h8 := mul_le_mul_of_nonneg_left h4 hu
    have h9 : unitRound * ((2 + 4 * unitRound) * W) + unitRound * (1 + 3 * unitRound) * W ≤ 4 * unitRound * W := by
      have : 0 ≤ unitRound * W := mul_nonneg hu hW0
      nlinarith
    linarith
  refine ⟨hs.finite, h6, ?_⟩
  have h7 := abs_sub_abs_le_abs_sub (rnd (v.rat - t)) (v.rat - m.rat * q.rat)
  have h8 := abs_sub v.rat (m.rat * q.rat)
  nlinarith

end Double
end Tom
