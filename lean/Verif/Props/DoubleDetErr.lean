import Verif.Lemmas.DoubleDetErr
import Verif.Props.DoubleDet
import Verif.Props.DoubleMat
/-
C88: rounding errors of `Det` and `Inverse` in doubles.
-/
namespace Tom
namespace Double
variable {L : Libm}

theorem ext_mat {n : ℕ} (A : Matrix (Fin n) (Fin n) (Double L)) :
    (Matrix.of fun (i j : Fin n) => (extE A i j).rat) = A.map rat := by
  ext i j; simp [extE]

theorem detOk_mat {n : ℕ} {A : Matrix (Fin n) (Fin n) (Double L)} {x : Double L} (h : DetOk n (extE A) x) :
    (x.Finite → (∀ i j, (A i j).Finite) ∧
      |x.rat - (A.map rat).det| ≤ ((1 + 1 / 2 ^ 53) ^ detRoundings n - 1) * absDet (1 / 2 ^ 1022) n (A.map rat)) ∧
    (∀ M : ℚ, 1 ≤ M → (∀ i j, (A i j).Finite ∧ |(A i j).rat| ≤ M) →
      (1 + 1 / 2 ^ 53) ^ detRoundings n * (n.factorial * (M + 1 / 2 ^ 1022) ^ n) < 2 ^ 1023 → x.Finite) := by
  obtain ⟨h1, h2⟩ := h
  refine ⟨fun hf => ?_, fun M hM hf hb => h2 M hM (fun i j hi hj => ?_) hb⟩
  · obtain ⟨a, b⟩ := h1 hf
    refine ⟨fun i j => ?_, ?_⟩
    · simpa [extE] using a i j i.2 j.2
    · rw [detQ, absD, ext_mat] at b
      exact b
  · simpa [extE, hi, hj] using hf ⟨i, hi⟩ ⟨j, hj⟩

/-- C88: `Det` returns; if its result is a finite number, then so are all entries, and the result is within
`(1 + 2^-53)^(n(n+1)/2 - 1) - 1` times `absDet` of the exact determinant of the matrix of the given doubles. -/
theorem C88_det {n : ℕ} (hn : 0 < n) (A : Matrix (Fin n) (Fin n) (Double L)) : ∃ x, det n (ofEntries A) = .ok x ∧ (x.Finite →
    (∀ i j, (A i j).Finite) ∧
    |x.rat - (A.map rat).det| ≤ ((1 + 1 / 2 ^ 53) ^ detRoundings n - 1) * absDet (1 / 2 ^ 1022) n (A.map rat)) := by
  obtain ⟨x, h1, h2⟩ := det_err n n n (extE A) hn le_rfl le_rfl
  exact ⟨x, by rw [ofEntries_eq, h1], (detOk_mat h2).1⟩

/-- what `absDet` is at most, for entries within `M` -/
theorem C88_absDet {n : ℕ} {M : ℚ} (hM : 1 ≤ M) (Q : Matrix (Fin n) (Fin n) ℚ) (hQ : ∀ i j, |Q i j| ≤ M) :
    |Q.det| ≤ absDet (1 / 2 ^ 1022) n Q ∧ absDet (1 / 2 ^ 1022) n Q ≤ n.factorial * (M + 1 / 2 ^ 1022) ^ n := by
  let f : ℕ → ℕ → ℚ := fun i j => if h : i < n ∧ j < n then Q ⟨i, h.1⟩ ⟨j, h.2⟩ else 0
  have hf : (Matrix.of fun (i j : Fin n) => f i j) = Q := by ext i j; simp [f]
  have h1 := absD_ge tiny_nonneg n f
  have h2 := absD_le tiny_nonneg hM n f (by
    intro i j hi hj
    simpa [f, hi, hj] using hQ ⟨i, hi⟩ ⟨j, hj⟩)
  rw [absD, hf] at h1 h2
  rw [detQ, hf] at h1
  exact ⟨h1, h2⟩

/-- C88: with entries of absolute value at most `M ≥ 1`, if `n! M^n` leaves room, the result is finite and its error is at most
`((1 + 2^-53)^(n(n+1)/2 - 1) - 1) n! (M + 2^-1022)^n`. -/
theorem C88_det_bounded {n : ℕ} (hn : 0 < n) (A : Matrix (Fin n) (Fin n) (Double L)) (M : ℚ) (hM : 1 ≤ M)
    (hA : ∀ i j, (A i j).Finite ∧ |(A i j).rat| ≤ M)
    (hb : (1 + 1 / 2 ^ 53) ^ detRoundings n * (n.factorial * (M + 1 / 2 ^ 1022) ^ n) < 2 ^ 1023) :
    ∃ x, det n (ofEntries A) = .ok x ∧ x.Finite ∧
      |x.rat - (A.map rat).det| ≤ ((1 + 1 / 2 ^ 53) ^ detRoundings n - 1) * (n.factorial * (M + 1 / 2 ^ 1022) ^ n) := by
  obtain ⟨x, h1, h2⟩ := det_err n n n (extE A) hn le_rfl le_rfl
  obtain ⟨h3, h4⟩ := detOk_mat h2
  have hx := h4 M hM hA hb
  refine ⟨x, by rw [ofEntries_eq, h1], hx, le_trans (h3 hx).2 ?_⟩
  have h5 := (C88_absDet hM (A.map rat) fun i j => (hA i j).2).2
  exact mul_le_mul_of_nonneg_left h5 (by have := growth_ge (detRoundings n); linarith)

theorem div_fin {a b : Double L} (hb : b.Finite) (h : (Arith.div a b).Finite) : a.Finite := by
  have hr : (Arith.div a b : Double L).raw = F64.div a.raw b.raw := rfl
  unfold Double.Finite at *
  rw [hr] at h
  cases ha : a.raw <;> cases hb' : b.raw <;> rw [ha, hb'] at h <;> rw [hb'] at hb <;>
    simp_all [F64.div, F64.isInvalid]

theorem adj_sub {n : ℕ} (Q : Matrix (Fin (n + 1)) (Fin (n + 1)) ℚ) (i j : Fin (n + 1)) :
    Q.adjugate i j = (-1) ^ ((j : ℕ) + i) * (Q.submatrix j.succAbove i.succAbove).det :=
  Matrix.adjugate_fin_succ_eq_det_submatrix Q i j

theorem minor_ext {n : ℕ} (A : Matrix (Fin (n + 1)) (Fin (n + 1)) (Double L)) (i j : Fin (n + 1)) {a b : ℕ} (ha : a < n) (hb : b < n) :
    minorA i j (extE A) a b = extE (A.submatrix i.succAbove j.succAbove) a b := by
  have e1 : (if (a : ℕ) < i then (a : ℕ) else a + 1) = (i.succAbove ⟨a, ha⟩ : ℕ) := by
    unfold Fin.succAbove
    simp only [Fin.lt_def, Fin.val_castSucc]
    split <;> simp
  have e2 : (if (b : ℕ) < j then (b : ℕ) else b + 1) = (j.succAbove ⟨b, hb⟩ : ℕ) := by
    unfold Fin.succAbove
    simp only [Fin.lt_def, Fin.val_castSucc]
    split <;> simp
  simp only [minorA, e1, e2]
  have h1 := (i.succAbove ⟨a, ha⟩).2
  have h2 := (j.succAbove ⟨b, hb⟩).2
  rw [extE, dif_pos ⟨h1, h2⟩, extE, dif_pos ⟨ha, hb⟩]
  rfl

/-- C88: `Inverse` reports a singular matrix exactly if the computed determinant is within epsilon of zero.  Otherwise it returns; if the
computed determinant `d` is finite, each finite entry is the rounded quotient of a number near the entry of the adjugate by `d`. -/
theorem C88_inverse {n : ℕ} (A : Matrix (Fin (n + 1)) (Fin (n + 1)) (Double L)) (eps : Double L) :
    ∃ d, det (n + 1) (ofEntries A) = .ok d ∧
      (Arith.le (Arith.abs d) eps = true → (ofEntries A).inverse eps = .throw (.math .singularMatrix)) ∧
      (Arith.le (Arith.abs d) eps = false → ∃ B : Matrix (Fin (n + 1)) (Fin (n + 1)) (Double L),
        (ofEntries A).inverse eps = .ok (ofEntries B) ∧ (d.Finite → ∀ i j, (B i j).Finite → d.rat ≠ 0 ∧
          ∃ a : ℚ, (B i j).rat = rnd (a / d.rat) ∧ |a - (A.map rat).adjugate i j| ≤
            ((1 + 1 / 2 ^ 53) ^ detRoundings n - 1) * absDet (1 / 2 ^ 1022) n ((A.map rat).submatrix j.succAbove i.succAbove))) := by
  obtain ⟨x, hx, -⟩ := C88_det (Nat.succ_pos n) A
  have e0 : (ofEntries A).rows = n + 1 := rfl
  have e1 : (ofEntries A).cols = n + 1 := rfl
  have hinv : (ofEntries A).inverse eps = if Arith.le (Arith.abs x) eps = true then .throw (.math .singularMatrix) else (do
      let adj ← Mat.new (n + 1) (n + 1) Arith.zero
      let adj ← adjoint (ofEntries A) adj
      .ok ⟨n + 1, n + 1, adj.data.map fun y => Arith.div y x⟩) := by
    unfold Mat.inverse
    rw [e0, e1, if_pos rfl, hx]
    simp only [Res.bind_ok]
  refine ⟨x, hx, fun h => by rw [hinv, if_pos h], fun h => ?_⟩
  rw [hinv, if_neg (by simp [h]), new_mk' (Nat.succ_pos n) (Nat.succ_pos n)]
  simp only [Res.bind_ok]
  have hadj : ∃ v : ℕ → ℕ → Double L, adjoint (ofEntries A) (Mat.mk' (n + 1) (n + 1) fun _ _ => Arith.zero) = .ok (Mat.mk' (n + 1) (n + 1) v) ∧
      ∀ i j : Fin (n + 1), (v i j).Finite → |(v i j).rat - (A.map rat).adjugate i j| ≤
        ((1 + 1 / 2 ^ 53) ^ detRoundings n - 1) * absDet (1 / 2 ^ 1022) n ((A.map rat).submatrix j.succAbove i.succAbove) := by
    rcases Nat.eq_zero_or_pos n with rfl | hm
    · refine ⟨fun _ _ => Arith.one, ?_, ?_⟩
      · unfold adjoint
        rw [if_pos e0, setValue_mk' _ _ (by omega) (by omega)]
        rfl
      · intro i j _
        have h1 : (Arith.one : Double L).rat = 1 := by simpa using (oneZ_is (L := L)).rat
        rw [adj_sub, h1, show (i : ℕ) = 0 by omega, show (j : ℕ) = 0 by omega]
        simp [absDet, detRoundings]
    · have hmin : ∀ i j : ℕ, ∃ y, (∀ (hi : i < n + 1) (hj : j < n + 1), det n (Mat.mk' n n (minorA i j (extE A))) = .ok y ∧
          DetOk n (extE (A.submatrix (Fin.succAbove ⟨i, hi⟩) (Fin.succAbove ⟨j, hj⟩))) y) := by
        intro i j
        by_cases hij : i < n + 1 ∧ j < n + 1
        · obtain ⟨y, y1, y2⟩ := det_err n n n (extE (A.submatrix (Fin.succAbove ⟨i, hij.1⟩) (Fin.succAbove ⟨j, hij.2⟩))) hm le_rfl le_rfl
          refine ⟨y, fun hi hj => ⟨?_, y2⟩⟩
          rw [← y1]
          congr 1
          exact Mat.mk'_congr fun a b ha hb => minor_ext A ⟨i, hi⟩ ⟨j, hj⟩ ha hb
        · exact ⟨Arith.zero, fun hi hj => absurd ⟨hi, hj⟩ hij⟩
      choose d hd using hmin
      refine ⟨_, by rw [ofEntries_eq]; exact adjoint_mk' (by omega) (extE A) _ d (fun i j hi hj => (hd i j hi hj).1), ?_⟩
      intro i j hf
      obtain ⟨-, g2⟩ := hd j i j.2 i.2
      have g3 := (detOk_mat g2).1
      rw [adj_sub]
      by_cases hp : ((j : ℕ) + i) % 2 = 0
      · have he : Even ((j : ℕ) + i) := Nat.even_iff.mpr hp
        rw [he.neg_one_pow, one_mul]
        rw [if_neg (by simpa using hp)] at hf ⊢
        exact (g3 hf).2
      · have ho : Odd ((j : ℕ) + i) := Nat.odd_iff.mpr (by omega)
        rw [ho.neg_one_pow, neg_one_mul]
        rw [if_pos hp] at hf ⊢
        have hn := neg_inv hf.is
        have hr : (Arith.neg (d j i)).rat = -(d j i).rat := by rw [hn.rat, neg_neg]
        rw [hr, ← neg_sub', abs_neg]
        exact (g3 hn.finite).2
  obtain ⟨v, hv, hvi⟩ := hadj
  rw [hv]
  simp only [Res.bind_ok]
  refine ⟨Matrix.of fun i j => Arith.div (v i j) x, ?_, ?_⟩
  · rw [Mat.mk'_data, flat_map, ofEntries_eq]
    congr 1
    have : (⟨n + 1, n + 1, flat (n + 1) (n + 1) fun i j => Arith.div (v i j) x⟩ : Mat (Double L)) =
      Mat.mk' (n + 1) (n + 1) fun i j => Arith.div (v i j) x := rfl
    rw [this]
    apply Mat.mk'_congr
    intro i j hi hj
    simp [extE, hi, hj]
  · intro hfx i j hfin
    have hv' : (v i j).Finite := div_fin hfx hfin
    obtain ⟨q1, q2, -⟩ := div_inv hv'.is hfx.is (Finite.is hfin)
    exact ⟨q1, (v i j).rat, q2, hvi i j hv'⟩

/-- the 2×2 matrix 1e-200 · identity -/
def smallDiag : Matrix (Fin 2) (Fin 2) (Double L) := !![lit 1 (-200), Arith.zero; Arith.zero, lit 1 (-200)]

/-- C88: a determinant of 0 does not mean a singular matrix: the product of the diagonal may underflow. -/
theorem C88_zero_not_singular : ∃ x, det 2 (ofEntries (smallDiag : Matrix (Fin 2) (Fin 2) (Double L))) = .ok x ∧ x.Is 0 ∧
    ((smallDiag : Matrix (Fin 2) (Fin 2) (Double L)).map rat).det ≠ 0 := by
  obtain ⟨x, h1, h2⟩ := ofDec_some (L := L) (m := 1) (e := -200) (v := F64.num (rnd (1 / 10 ^ 200))) (by decide +kernel)
  have ht : (lit 1 (-200) : Double L) = x := by rw [lit, h1, Option.getD_some]
  have hx : x.Is (rnd (1 / 10 ^ 200)) := is_num h2
  refine ⟨Arith.sub (Arith.mul x x) (Arith.mul Arith.zero Arith.zero), ?_, ?_, ?_⟩
  · rw [ofEntries_eq]
    unfold det
    rw [value_mk' _ (by omega) (by omega), value_mk' _ (by omega) (by omega), value_mk' _ (by omega) (by omega),
      value_mk' _ (by omega) (by omega)]
    simp [extE, smallDiag, ht]
  · have m1 := mul_is hx hx (by decide +kernel)
    have m2 := mul_is (zero_is (L := L)) (zero_is (L := L)) (by decide +kernel)
    have := sub_is m1 m2 (by decide +kernel)
    have e : rnd (rnd (rnd (1 / 10 ^ 200) * rnd (1 / 10 ^ 200)) - rnd (0 * 0)) = 0 := by decide +kernel
    rwa [e] at this
  · simp only [Matrix.det_fin_two, Matrix.map_apply, smallDiag, Matrix.of_apply, Matrix.cons_val', Matrix.cons_val_zero,
      Matrix.cons_val_one, Matrix.cons_val_fin_one, ht, hx.rat, zero_is.rat]
    decide +kernel

/-- an instance: a 4×4 matrix of entries 0.1 meets the hypotheses of `C88_det_bounded` with `M = 1` -/
example : (∀ i j : Fin 4, ((fun _ _ => tenth : Matrix (Fin 4) (Fin 4) (Double L)) i j).Finite ∧
      |((fun _ _ => tenth : Matrix (Fin 4) (Fin 4) (Double L)) i j).rat| ≤ 1) ∧
    (1 + 1 / 2 ^ 53 : ℚ) ^ detRoundings 4 * ((Nat.factorial 4 : ℕ) * (1 + 1 / 2 ^ 1022) ^ 4) < 2 ^ 1023 ∧ detRoundings 4 = 9 := by
  obtain ⟨x, h1, h2⟩ := ofDec_some (L := L) (m := 1) (e := -1) (v := .num (3602879701896397 / 36028797018963968)) (by decide +kernel)
  have ht : (tenth : Double L) = x := by rw [tenth, lit, h1, Option.getD_some]
  refine ⟨fun i j => ⟨by rw [ht]; exact (is_num h2).finite, by rw [ht, (is_num h2).rat]; norm_num [abs_of_pos]⟩, by decide +kernel, rfl⟩

end Double
end Tom
