import Verif.Lemmas.MatExact
import Mathlib.LinearAlgebra.Matrix.Adjugate
import Mathlib.LinearAlgebra.Matrix.NonsingularInverse
/-
Transpose, identity, adjoint and inverse.
-/
namespace Tom
variable {α K : Type} [Arith α]

theorem transpose_mk' {r c : ℕ} (hr : 0 < r) (hc : 0 < c) (f : ℕ → ℕ → α) :
    (Mat.mk' r c f).transpose = .ok (Mat.mk' c r fun i j => f j i) := by
  unfold Mat.transpose
  simp only [Mat.mk'_rows, Mat.mk'_cols]
  rw [new_mk' hc hr]
  simp only [Res.bind_ok]
  obtain ⟨m, h, g, rfl, hg⟩ := forRes_inv (n := c) (s := Mat.mk' c r fun _ _ => Arith.zero)
    (f := fun (ans : Mat α) i => do
      let v ← (Mat.mk' r c f).col i 0
      ans.setRow i 0 v)
    (P := fun i m => ∃ g, m = Mat.mk' c r g ∧ ∀ a b, a < i → b < r → g a b = f b a)
    ⟨_, rfl, by intro a b h; omega⟩ (by
      rintro i hi _ ⟨g, rfl, hg⟩
      have h1 : (Mat.mk' r c f).col i 0 = .ok ((List.range (r - 0)).map fun k => f (0 + k) i) := col_mk' _ hi
      rw [h1]
      simp only [Res.bind_ok]
      rw [setRow_mk' _ _ hi]
      refine ⟨_, rfl, _, rfl, ?_⟩
      intro a b ha hb
      by_cases hai : a = i
      · subst hai; simp
      · rw [if_neg (by omega)]; exact hg a b (by omega) hb)
  rw [h]
  congr 1
  exact Mat.mk'_congr hg

theorem ones_mk' {n : ℕ} (f : ℕ → ℕ → α) :
    (Mat.mk' n n f).ones = .ok (Mat.mk' n n fun i j => if i = j then Arith.one else Arith.zero) := by
  unfold Mat.ones Mat.zero
  simp only [Mat.mk'_rows, Mat.mk'_cols, Mat.mk'_data, if_true]
  rw [flat_map, sliceIdx_diag]
  have e : List.replicate n (Arith.one : α) = ((List.range n).map fun k => (k, k)).map fun _ => Arith.one := by
    rw [List.map_map]; apply List.ext_getElem <;> simp
  rw [e, writeAll_flat]
  · simp only [Res.bind_ok, Mat.mk']
    congr 2
    apply flat_congr
    intro i j hi hj
    have : ((i, j) ∈ (List.range n).map fun k => (k, k)) ↔ i = j := by
      simp only [List.mem_map, List.mem_range, Prod.mk.injEq]
      constructor
      · rintro ⟨k, _, h1, h2⟩; omega
      · intro h; exact ⟨i, hi, rfl, h⟩
    simp only [this]
  · intro p hp
    simp only [List.mem_map, List.mem_range] at hp
    obtain ⟨k, hk, rfl⟩ := hp
    exact ⟨hk, hk⟩

variable [Field K] [LinearOrder K] [Exact α K]
open Exact (zero one add sub mul neg)

/-- signed minor with the roles of rows and columns exchanged -/
def adjF (n : ℕ) (f : ℕ → ℕ → K) (i j : ℕ) : K := (-1) ^ (i + j) * detF (n - 1) (minorF j i f)

theorem adjoint_fin {n : ℕ} (hn : 1 < n) (f g : ℕ → ℕ → K) :
    adjoint (finMat α n n f) (finMat α n n g) = .ok (finMat α n n (adjF n f)) := by
  unfold adjoint
  have e0 : (finMat α n n f).rows = n := rfl
  have e1 : (finMat α n n f).cols = n := rfl
  rw [e0, e1, if_neg (by omega), new_mk' (by omega) (by omega)]
  simp only [Res.bind_ok]
  -- the loop writes `adj(j, i)`: an outer invariant over columns
  obtain ⟨⟨c', m'⟩, h1, _, g', hm, hg⟩ := forRes_inv (n := n)
    (s := ((Mat.mk' (n - 1) (n - 1) fun _ _ => Arith.zero : Mat α), finMat α n n g))
    (f := fun (s : Mat α × Mat α) i =>
        forRes (fun (s : Mat α × Mat α) j => do
            let cof ← getCofactor (finMat α n n f) s.1 i j n
            let dt ← det (n - 1) cof
            let dt := if (i + j) % 2 ≠ 0 then Arith.neg dt else dt
            let adj ← s.2.setValue j i dt
            .ok (cof, adj))
          (List.range n) s)
    (P := fun i s => (∃ c, s.1 = finMat α (n - 1) (n - 1) c) ∧ ∃ g, s.2 = finMat α n n g ∧ ∀ a b, a < n → b < i → g a b = adjF n f a b)
    ⟨⟨fun _ _ => 0, by simp [finMat, zero]⟩, g, rfl, by intro a b _ h; omega⟩ (by
      rintro i hi ⟨_, _⟩ ⟨⟨c, rfl⟩, g, rfl, hg⟩
      obtain ⟨⟨c', m'⟩, h1, hc', g', hm, hg1, hg2⟩ := forRes_inv (n := n) (s := (finMat α (n - 1) (n - 1) c, finMat α n n g))
        (f := fun (s : Mat α × Mat α) j => do
            let cof ← getCofactor (finMat α n n f) s.1 i j n
            let dt ← det (n - 1) cof
            let dt := if (i + j) % 2 ≠ 0 then Arith.neg dt else dt
            let adj ← s.2.setValue j i dt
            .ok (cof, adj))
        (P := fun j s => (∃ c, s.1 = finMat α (n - 1) (n - 1) c) ∧ ∃ g, s.2 = finMat α n n g ∧
          (∀ a b, a < n → b < i → g a b = adjF n f a b) ∧ ∀ a, a < j → g a i = adjF n f a i)
        ⟨⟨c, rfl⟩, g, rfl, hg, by intro a h; omega⟩ (by
          rintro j hj ⟨_, _⟩ ⟨⟨c, rfl⟩, g, rfl, hg1, hg2⟩
          simp only [getCofactor_fin (α := α) f c hi hj le_rfl le_rfl, Res.bind_ok,
            det_fin (α := α) (n - 1) (n - 1) (n - 1) (minorF i j f) (by omega) le_rfl le_rfl]
          have hd : (if (i + j) % 2 ≠ 0 then Arith.neg (fin (detF (n - 1) (minorF i j f)) : α) else fin (detF (n - 1) (minorF i j f))) =
              fin (adjF n f j i) := by
            unfold adjF
            by_cases hp : (i + j) % 2 = 0
            · have he : Even (j + i) := by rw [add_comm]; exact Nat.even_iff.mpr hp
              simp [hp, he.neg_one_pow]
            · have ho : Odd (j + i) := by rw [add_comm]; exact Nat.odd_iff.mpr (by omega)
              simp [hp, ho.neg_one_pow, neg]
          rw [hd]
          have hs : (finMat α n n g).setValue j i (fin (adjF n f j i)) =
              .ok (finMat α n n fun a b => if a = j ∧ b = i then adjF n f j i else g a b) := by
            unfold finMat
            rw [setValue_mk' _ _ hj hi]
            congr 1
            apply Mat.mk'_congr
            intro a b _ _
            by_cases hh : a = j ∧ b = i <;> simp [hh]
          rw [hs]
          refine ⟨_, rfl, ⟨_, rfl⟩, _, rfl, ?_, ?_⟩
          · intro a b ha hb
            rw [if_neg (by omega)]; exact hg1 a b ha hb
          · intro a ha
            by_cases haj : a = j
            · subst haj; simp
            · rw [if_neg (by omega)]; exact hg2 a (by omega))
      refine ⟨_, h1, hc', g', hm, ?_⟩
      intro a b ha hb
      by_cases hbi : b = i
      · subst hbi; exact hg2 a ha
      · exact hg1 a b ha (by omega))
  rw [h1]
  simp only [Res.bind_ok]
  simp only at hm
  rw [hm]
  congr 1
  exact finMat_congr (fun a b ha hb => hg a b ha hb)

theorem adjF_eq {n : ℕ} (f : ℕ → ℕ → K) (i j : Fin (n + 1)) :
    adjF (n + 1) f i j = (Matrix.of fun (a b : Fin (n + 1)) => f a b).adjugate i j := by
  rw [Matrix.adjugate_fin_succ_eq_det_submatrix]
  unfold adjF detF
  rw [add_comm (j : ℕ)]
  congr 2
  ext a b
  simp only [Matrix.submatrix_apply, Matrix.of_apply, minorF]
  congr 1
  · unfold Fin.succAbove
    simp only [Fin.lt_def, Fin.val_castSucc]
    split <;> simp
  · unfold Fin.succAbove
    simp only [Fin.lt_def, Fin.val_castSucc]
    split <;> simp

theorem inverse_fin [IsStrictOrderedRing K] {n : ℕ} (hn : 0 < n) (eps : K) (f : ℕ → ℕ → K) (heps : 0 ≤ eps) :
    (finMat α n n f).inverse (fin eps) =
      if |detF n f| ≤ eps then .throw (.math .singularMatrix)
      else .ok (ofMatrix (Matrix.of fun (i j : Fin n) => f i j)⁻¹) := by
  unfold Mat.inverse
  have e0 : (finMat α n n f).rows = n := rfl
  have e1 : (finMat α n n f).cols = n := rfl
  rw [e0, e1, if_pos rfl, det_fin n n n f hn le_rfl le_rfl]
  simp only [Res.bind_ok, Exact.abs, Exact.le, decide_eq_true_eq]
  split
  · rfl
  · rename_i hd
    have hdet : detF n f ≠ 0 := by
      intro h
      apply hd
      rw [h, abs_zero]; exact heps
    rw [new_mk' hn hn]
    simp only [Res.bind_ok]
    obtain ⟨m, rfl⟩ : ∃ m, n = m + 1 := ⟨n - 1, by omega⟩
    have hadj : adjoint (finMat α (m + 1) (m + 1) f) (Mat.mk' (m + 1) (m + 1) fun _ _ => Arith.zero) =
        .ok (finMat α (m + 1) (m + 1) fun i j => adjF (m + 1) f i j) := by
      by_cases h1 : m = 0
      · subst h1
        unfold adjoint
        have e1 : (finMat α (0 + 1) (0 + 1) f).rows = 1 := rfl
        rw [if_pos e1, setValue_mk' _ _ (by omega) (by omega)]
        congr 1
        apply Mat.mk'_congr
        intro i j hi hj
        have hi : i = 0 := by omega
        have hj : j = 0 := by omega
        subst hi hj
        simp [adjF, detF, one]
      · have : (Mat.mk' (m + 1) (m + 1) fun _ _ => (Arith.zero : α)) = finMat α (m + 1) (m + 1) fun _ _ => 0 := by
          simp [finMat, zero]
        rw [this]
        exact adjoint_fin (by omega) f _
    rw [hadj]
    simp only [Res.bind_ok]
    congr 1
    have hdata : (finMat α (m + 1) (m + 1) fun i j => adjF (m + 1) f i j).data.map (fun x => Arith.div x (fin (detF (m + 1) f))) =
        (finMat α (m + 1) (m + 1) fun i j => adjF (m + 1) f i j / detF (m + 1) f).data := by
      simp only [finMat, Mat.mk'_data, flat_map, Exact.div _ _ hdet]
    rw [hdata]
    have : (⟨m + 1, m + 1, (finMat α (m + 1) (m + 1) fun i j => adjF (m + 1) f i j / detF (m + 1) f).data⟩ : Mat α) =
        finMat α (m + 1) (m + 1) fun i j => adjF (m + 1) f i j / detF (m + 1) f := rfl
    rw [this, finMat_eq]
    congr 1
    ext i j
    rw [Matrix.inv_def]
    simp only [Matrix.of_apply, Matrix.smul_apply, adjF_eq, Ring.inverse_eq_inv', smul_eq_mul, detF]
    rw [div_eq_inv_mul]

end Tom
