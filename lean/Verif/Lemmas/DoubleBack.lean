import Verif.Lemmas.DoubleLoop
import Verif.Lemmas.LinearSolve
/-
Back substitution with doubles, and the outcome of `SolveLinear` on a square system.
-/
namespace Tom
namespace Double
open Finset
variable {L : Libm}

/-- `w` solves equation `i` of the triangular system up to the rounding of the operations -/
def BackRow (n : ℕ) (f : ℕ → ℕ → Double L) (b w : ℕ → Double L) (i : ℕ) : Prop :=
  ∃ s, SomeOrder (List.zipWith Arith.mul ((List.range (n - (i + 1))).map fun j => f i (i + 1 + j))
    ((List.range (n - (i + 1))).map fun j => w (i + 1 + j))) s ∧ w i = Arith.sub (b i) s

theorem backSubst_double {n : ℕ} (f : ℕ → ℕ → Double L) (b z : ℕ → Double L) :
    ∃ w : ℕ → Double L, backSubst (Mat.mk' n n f) (Mat.mk' n 1 fun i _ => b i) (Mat.mk' n 1 fun i _ => z i) = .ok (Mat.mk' n 1 fun i _ => w i) ∧
      ∀ i, i < n → BackRow n f b w i := by
  unfold backSubst
  rw [Mat.mk'_rows]
  obtain ⟨s', h1, w, h2, h3⟩ := forRes_reverse_inv (f := fun (ret : Mat (Double L)) i => do
      let r ← (Mat.mk' n n f).row i (i + 1)
      let c ← ret.col 0 (i + 1)
      let v ← zipV Arith.mul r c
      let s ← (if v.length ≠ 0 then sumV v else .ok Arith.zero)
      let bi ← (Mat.mk' n 1 fun i _ => b i).at_ i
      ret.setAt i (Arith.sub bi s))
    (P := fun k ret => ∃ w : ℕ → Double L, ret = Mat.mk' n 1 (fun i _ => w i) ∧ ∀ i, k ≤ i → i < n → BackRow n f b w i) n
    (Mat.mk' n 1 fun i _ => z i) ⟨z, rfl, by omega⟩ (by
      rintro k hk s ⟨w, rfl, hw⟩
      rw [row_mk' _ hk, Res.bind_ok, col_mk' _ Nat.one_pos, Res.bind_ok, zipV_range, Res.bind_ok]
      have hz : List.zipWith Arith.mul ((List.range (n - (k + 1))).map fun j => f k (k + 1 + j)) ((List.range (n - (k + 1))).map fun j => w (k + 1 + j))
          = (List.range (n - (k + 1))).map fun j => Arith.mul (f k (k + 1 + j)) (w (k + 1 + j)) := by
        apply List.ext_getElem <;> simp
      obtain ⟨s, hs1, hs2⟩ : ∃ s, (if ((List.range (n - (k + 1))).map fun j => Arith.mul (f k (k + 1 + j)) (w (k + 1 + j))).length ≠ 0
          then sumV ((List.range (n - (k + 1))).map fun j => Arith.mul (f k (k + 1 + j)) (w (k + 1 + j))) else .ok Arith.zero) = .ok s ∧
          SomeOrder ((List.range (n - (k + 1))).map fun j => Arith.mul (f k (k + 1 + j)) (w (k + 1 + j))) s := by
        generalize (List.range (n - (k + 1))).map (fun j => (Arith.mul (f k (k + 1 + j)) (w (k + 1 + j)) : Double L)) = l
        cases l with
        | nil => exact ⟨Arith.zero, by simp, .none⟩
        | cons a l => exact ⟨_, by simp only [List.length_cons, ne_eq, Nat.add_eq_zero_iff, Nat.one_ne_zero, and_false, not_false_eq_true, if_true]; rfl, sumV_someOrder rfl⟩
      rw [hs1, Res.bind_ok, at_mk' _ hk, Res.bind_ok, setAt_mk' _ _ hk]
      refine ⟨_, rfl, fun i => if i = k then Arith.sub (b k) s else w i, rfl, ?_⟩
      intro i hi hin
      have hlist : ((List.range (n - (i + 1))).map fun j => if i + 1 + j = k then Arith.sub (b k) s else w (i + 1 + j))
          = (List.range (n - (i + 1))).map fun j => w (i + 1 + j) := by
        apply List.map_congr_left
        intro j _
        rw [if_neg (by omega)]
      unfold BackRow
      simp only
      rw [hlist]
      rcases Nat.eq_or_lt_of_le hi with rfl | hi
      · rw [if_pos rfl]
        exact ⟨s, by rw [hz]; exact hs2, rfl⟩
      · rw [if_neg (by omega)]
        exact hw i hi hin)
  subst h2
  exact ⟨w, h1, fun i hi => h3 i (Nat.zero_le _) hi⟩

/-- the residual of an equation of the triangular system -/
theorem backRow_bound {n : ℕ} {f : ℕ → ℕ → Double L} {b w : ℕ → Double L} {i : ℕ} (h : BackRow n f b w i) (hi : i < n) (hw : (w i).Finite) :
    |(w i).rat + ∑ j ∈ Ico (i + 1) n, (f i j).rat * (w j).rat - (b i).rat| ≤
      ((1 + unitRound) ^ (n - i) - 1) * (|(b i).rat| + ∑ j ∈ Ico (i + 1) n, (|(f i j).rat * (w j).rat| + 1 / 2 ^ 1022)) := by
  obtain ⟨s, hs, he⟩ := h
  rw [he] at hw ⊢
  obtain ⟨p, q, h1, h2, h3, -⟩ := sub_inv hw.is
  obtain ⟨-, h5⟩ := someOrder_products (by simp) hs h2.finite
  have hzip : ∀ F : Double L × Double L → ℚ, (List.map F (((List.range (n - (i + 1))).map fun j => f i (i + 1 + j)).zip
      ((List.range (n - (i + 1))).map fun j => w (i + 1 + j)))).sum = ∑ j ∈ Ico (i + 1) n, F (f i j, w j) := by
    intro F
    rw [sum_Ico_eq_sum_range, ← list_sum_range]
    congr 1
    apply List.ext_getElem <;> simp
  rw [hzip, hzip] at h5
  simp only [List.length_map, List.length_range] at h5
  rw [h3, h1.rat]
  rw [h2.rat] at h5
  have h6 : |rnd (p - q) - (p - q)| ≤ unitRound * |p - q| := by
    have := rnd_add_rel (is_double h1) (isDouble_neg (is_double h2))
    rw [← sub_eq_add_neg] at this
    exact this
  have hη : (0 : ℚ) ≤ 1 / 2 ^ 1022 := by positivity
  have e : n - i = n - (i + 1) + 1 := by omega
  rw [e, pow_succ]
  have hg := one_le_growth (n - (i + 1))
  have hu := u_nonneg
  have hT : |∑ j ∈ Ico (i + 1) n, (f i j).rat * (w j).rat| ≤ ∑ j ∈ Ico (i + 1) n, (|(f i j).rat * (w j).rat| + 1 / 2 ^ 1022) := by
    refine (abs_sum_le_sum_abs _ _).trans (sum_le_sum fun j _ => ?_)
    generalize (1 : ℚ) / 2 ^ 1022 = m at *
    linarith
  have hS : 0 ≤ ∑ j ∈ Ico (i + 1) n, (|(f i j).rat * (w j).rat| + 1 / 2 ^ 1022) := le_trans (abs_nonneg _) hT
  generalize ∑ j ∈ Ico (i + 1) n, (|(f i j).rat * (w j).rat| + 1 / 2 ^ 1022) = S at *
  generalize ∑ j ∈ Ico (i + 1) n, (f i j).rat * (w j).rat = T at *
  generalize (1 + unitRound) ^ (n - (i + 1)) = g at *
  have h7 : |q| ≤ g * S := by
    have := abs_sub_abs_le_abs_sub q T
    linarith
  have h8 := abs_sub p q
  have h9 : rnd (p - q) + T - p = (rnd (p - q) - (p - q)) + -(q - T) := by ring
  rw [h9]
  refine (abs_add_le _ _).trans ?_
  rw [abs_neg]
  have hp := abs_nonneg p
  have h10 : unitRound * |p - q| ≤ unitRound * (|p| + g * S) := mul_le_mul_of_nonneg_left (by linarith) hu
  have h11 : 0 ≤ (g - 1) * (1 + unitRound) * |p| := mul_nonneg (mul_nonneg (by linarith) (by linarith)) hp
  nlinarith

/-- what `SolveLinear` does with a square system whose elimination is finished -/
theorem solveLinear_double (cfg : Config (Double L)) {n : ℕ} (hn : 0 < n) {f f' : ℕ → ℕ → Double L} {b b' : ℕ → Double L}
    (h : elimLoop cfg.epsilon (n + 1) ⟨Mat.mk' n n f, Mat.mk' n 1 fun i _ => b i, List.replicate n 0, n, n⟩ 0 0
      = .ok ⟨Mat.mk' n n f', Mat.mk' n 1 fun i _ => b' i, List.replicate n 0, n, n⟩) :
    ∃ w : ℕ → Double L, solveLinear cfg (Mat.mk' n n f) (Mat.mk' n 1 fun i _ => b i) = .ok (Mat.mk' n 1 fun i _ => w i) ∧
      ∀ i, i < n → BackRow n f' b' w i := by
  obtain ⟨w, h1, h2⟩ := backSubst_double (n := n) f' b' (fun _ => Arith.zero)
  refine ⟨w, ?_, h2⟩
  unfold solveLinear
  rw [Mat.mk'_rows, Mat.mk'_rows, Mat.mk'_cols, if_neg (by simp), new_mk' hn Nat.one_pos, Res.bind_ok, if_neg (by omega), if_neg (by simp),
    Res.bind_ok, h, Res.bind_ok, if_neg (by simp)]
  simp only
  rw [h1, Res.bind_ok, if_neg (by omega)]

end Double
end Tom
