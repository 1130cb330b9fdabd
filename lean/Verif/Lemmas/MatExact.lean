import Verif.Lemmas.SumOrder
import Verif.Lemmas.MatBasic
import Verif.Spec.Exact
import Mathlib.Algebra.BigOperators.Fin
/-
Matrices with exact entries, given by functions of row and column.
-/
namespace Tom
variable {α K : Type} [Arith α] [Field K] [LinearOrder K] [Exact α K]
open Exact (zero one add sub mul neg)

/-- the matrix of the library with exact entries `f i j` -/
def finMat (α : Type) {K : Type} [Arith α] [Field K] [LinearOrder K] [Exact α K] (r c : ℕ) (f : ℕ → ℕ → K) : Mat α :=
  Mat.mk' r c fun i j => fin (f i j)

/-- extension of a matrix by zero -/
def ext {r c : ℕ} (A : Matrix (Fin r) (Fin c) K) (i j : ℕ) : K :=
  if h : i < r ∧ j < c then A ⟨i, h.1⟩ ⟨j, h.2⟩ else 0

@[simp] theorem ext_val {r c : ℕ} (A : Matrix (Fin r) (Fin c) K) (i : Fin r) (j : Fin c) : ext A i j = A i j := by
  simp [ext]

/-- entries extended by an arbitrary number -/
def extE {r c : ℕ} (A : Matrix (Fin r) (Fin c) α) (i j : ℕ) : α :=
  if h : i < r ∧ j < c then A ⟨i, h.1⟩ ⟨j, h.2⟩ else Arith.zero

theorem ofEntries_eq {r c : ℕ} (A : Matrix (Fin r) (Fin c) α) : ofEntries A = Mat.mk' r c (extE A) := by
  unfold ofEntries Mat.mk' flat
  congr 1
  apply List.ext_getElem
  · simp
  · intro k h1 h2
    simp only [List.length_ofFn] at h1
    simp only [List.getElem_ofFn, List.getElem_map, List.getElem_range]
    have hr : k / c < r := row_of_idx h1
    have hc : k % c < c := col_of_idx h1
    simp only [extE, hr, hc, and_self, dif_pos]
    rfl

theorem mk'_eq {r c : ℕ} (f : ℕ → ℕ → α) : Mat.mk' r c f = ofEntries (Matrix.of fun (i : Fin r) (j : Fin c) => f i j) := by
  rw [ofEntries_eq]
  apply Mat.mk'_congr
  intro i j hi hj
  simp [extE, hi, hj]

theorem ofMatrix_eq {r c : ℕ} (A : Matrix (Fin r) (Fin c) K) : (ofMatrix A : Mat α) = finMat α r c (ext A) := by
  unfold ofMatrix
  rw [ofEntries_eq]
  apply Mat.mk'_congr
  intro i j hi hj
  simp [extE, ext, hi, hj]

theorem finMat_eq {r c : ℕ} (f : ℕ → ℕ → K) : finMat α r c f = ofMatrix (Matrix.of fun (i : Fin r) (j : Fin c) => f i j) := by
  rw [ofMatrix_eq]
  apply Mat.mk'_congr
  intro i j hi hj
  simp [ext, hi, hj]

/-- extension of a vector by zero -/
def extV {r : ℕ} (v : Fin r → K) (i _j : ℕ) : K := if h : i < r then v ⟨i, h⟩ else 0

theorem ofVec_eq {r : ℕ} (v : Fin r → K) : (ofVec v : Mat α) = finMat α r 1 (extV v) := by
  unfold ofVec finMat Mat.mk' flat
  congr 1
  apply List.ext_getElem
  · simp
  · intro k h1 h2
    simp only [List.length_ofFn] at h1
    simp [extV, h1]

theorem ofVec_eq_ofMatrix {r : ℕ} (v : Fin r → K) : (ofVec v : Mat α) = ofMatrix (Matrix.of fun i (_ : Fin 1) => v i) := by
  rw [ofVec_eq, finMat_eq]
  congr 1
  ext i j
  simp [extV]

theorem finMat_vec {r : ℕ} (f : ℕ → ℕ → K) : finMat α r 1 f = ofVec fun i : Fin r => f i 0 := by
  rw [ofVec_eq]
  apply Mat.mk'_congr
  intro i j hi hj
  obtain rfl : j = 0 := by omega
  simp [extV, hi]

theorem finMat_congr {r c : ℕ} {f g : ℕ → ℕ → K} (h : ∀ i j, i < r → j < c → f i j = g i j) : finMat α r c f = finMat α r c g :=
  Mat.mk'_congr fun i j hi hj => by rw [h i j hi hj]

/-- the determinant of the leading block -/
def detF (n : ℕ) (f : ℕ → ℕ → K) : K := (Matrix.of fun (i j : Fin n) => f i j).det

/-- entries without row `p` and column `q` -/
def minorF (p q : ℕ) (f : ℕ → ℕ → K) (i j : ℕ) : K := f (if i < p then i else i + 1) (if j < q then j else j + 1)

theorem getCofactor_fin {r c n : ℕ} (f g : ℕ → ℕ → K) {p q : ℕ} (hp : p < n) (hq : q < n) (hr : n ≤ r) (hc : n ≤ c) :
    getCofactor (finMat α r c f) (finMat α (n - 1) (n - 1) g) p q n = .ok (finMat α (n - 1) (n - 1) (minorF p q f)) :=
  getCofactor_mk' _ _ hp hq hr hc

theorem detF_succ (n : ℕ) (f : ℕ → ℕ → K) :
    detF (n + 1) f = ∑ j ∈ Finset.range (n + 1), (-1) ^ j * f 0 j * detF n (minorF 0 j f) := by
  unfold detF
  rw [Matrix.det_succ_row_zero, Finset.sum_range]
  apply Finset.sum_congr rfl
  intro j _
  simp only [Matrix.of_apply, Fin.val_zero]
  congr 2
  ext a b
  simp only [Matrix.submatrix_apply, Matrix.of_apply, minorF, Nat.not_lt_zero, if_false, Fin.val_succ]
  congr 1
  unfold Fin.succAbove
  simp only [Fin.lt_def, Fin.val_castSucc]
  split <;> simp

theorem det_fin (n : ℕ) : ∀ (r c : ℕ) (f : ℕ → ℕ → K), 0 < n → n ≤ r → n ≤ c → det n (finMat α r c f) = .ok (fin (detF n f)) := by
  induction n using Nat.strong_induction_on with
  | _ n ih =>
    intro r c f h0 hr hc
    match n, ih with
    | 0, _ => omega
    | 1, _ =>
      unfold det finMat
      rw [value_mk' _ (by omega) (by omega)]
      simp [detF]
    | 2, _ =>
      unfold det finMat
      rw [value_mk' _ (by omega) (by omega), value_mk' _ (by omega) (by omega), value_mk' _ (by omega) (by omega),
        value_mk' _ (by omega) (by omega)]
      simp only [Res.bind_ok, mul, sub, detF, Matrix.det_fin_two, Matrix.of_apply, Fin.val_zero, Fin.val_one]
      rw [mul_comm (f 0 1)]
    | n + 3, ih =>
      unfold det
      rw [new_mk' (by omega) (by omega)]
      simp only [Res.bind_ok]
      let st : ℕ → Mat α × α × α := fun k =>
        (finMat α (n + 2) (n + 2) (match k with | 0 => fun _ _ => 0 | k + 1 => minorF 0 k f),
          fin (∑ j ∈ Finset.range k, (-1) ^ j * f 0 j * detF (n + 2) (minorF 0 j f)), fin ((-1) ^ k))
      have h := forRes_range (fun (s : Mat α × α × α) j => do
        let cof ← getCofactor (finMat α r c f) s.1 0 j (n + 3)
        let dt ← det (n + 2) cof
        let v ← (finMat α r c f).value 0 j
        .ok (cof, Arith.add s.2.1 (Arith.mul (Arith.mul s.2.2 v) dt), Arith.neg s.2.2)) (n + 3) st (by
          intro k hk
          have e1 : getCofactor (finMat α r c f) (st k).1 0 k (n + 3) = .ok (finMat α (n + 2) (n + 2) (minorF 0 k f)) :=
            getCofactor_fin f _ (by omega) hk hr hc
          have e2 : (finMat α r c f).value 0 k = .ok (fin (f 0 k)) := value_mk' _ (by omega) (by omega)
          simp only [e1, Res.bind_ok, ih (n + 2) (by omega) (n + 2) (n + 2) (minorF 0 k f) (by omega) le_rfl le_rfl, e2, st, mul, add,
            neg, Finset.sum_range_succ, pow_succ]
          congr 4
          ring)
      have e0 : st 0 = (Mat.mk' (n + 2) (n + 2) fun _ _ => Arith.zero, Arith.zero, Arith.one) := by
        simp [st, finMat, zero, one]
      rw [e0] at h
      rw [h]
      simp only [Res.bind_ok, st, detF_succ (n + 2) f]

theorem forRes_inv {σ : Type} {f : σ → ℕ → Res σ} {P : ℕ → σ → Prop} {n : ℕ} {s : σ} (h0 : P 0 s)
    (step : ∀ k, k < n → ∀ s, P k s → ∃ s', f s k = .ok s' ∧ P (k + 1) s') :
    ∃ s', forRes f (List.range n) s = .ok s' ∧ P n s' := by
  have key : ∀ m k s, k + m = n → P k s → ∃ s', forRes f ((List.range m).map (· + k)) s = .ok s' ∧ P n s' := by
    intro m
    induction m with
    | zero => intro k s hk hP; simp only [Nat.add_zero] at hk; subst hk; exact ⟨s, rfl, hP⟩
    | succ m ih =>
      intro k s hk hP
      obtain ⟨s1, h1, h2⟩ := step k (by omega) s hP
      obtain ⟨s2, h3, h4⟩ := ih (k + 1) s1 (by omega) h2
      refine ⟨s2, ?_, h4⟩
      rw [List.range_succ_eq_map]
      simp only [List.map_cons, forRes, Nat.zero_add, h1, Res.bind_ok, List.map_map]
      have e : (List.range m).map ((fun x => x + k) ∘ Nat.succ) = (List.range m).map (· + (k + 1)) := by
        apply List.map_congr_left; intro a _; simp; omega
      rw [e]; exact h3
  obtain ⟨s', h1, h2⟩ := key n 0 s (by omega) h0
  exact ⟨s', by simpa using h1, h2⟩

/-- a nested loop writing all entries of a matrix -/
theorem fill_loop {τ : Type} {r c : ℕ} (step : τ × Mat α → ℕ → ℕ → Res (τ × Mat α)) (Q : τ → Prop) (v : ℕ → ℕ → α)
    (hstep : ∀ i j t f, i < r → j < c → Q t → ∃ t', Q t' ∧
      step (t, Mat.mk' r c f) i j = .ok (t', Mat.mk' r c fun a b => if a = i ∧ b = j then v i j else f a b))
    (t : τ) (ht : Q t) (f : ℕ → ℕ → α) :
    ∃ t', Q t' ∧ forRes (fun s i => forRes (fun s j => step s i j) (List.range c) s) (List.range r) (t, Mat.mk' r c f) =
      .ok (t', Mat.mk' r c v) := by
  have outer := forRes_inv (f := fun s i => forRes (fun s j => step s i j) (List.range c) s) (n := r) (s := (t, Mat.mk' r c f))
    (P := fun i s => Q s.1 ∧ ∃ g, s.2 = Mat.mk' r c g ∧ ∀ a b, a < i → b < c → g a b = v a b)
    ⟨ht, f, rfl, by intro a b h; omega⟩ (by
      rintro i hi ⟨t, m⟩ ⟨hQ, g, rfl, hg⟩
      obtain ⟨⟨t', m'⟩, h1, hQ', g', hm, hg1, hg2⟩ := forRes_inv (f := fun s j => step s i j) (n := c) (s := (t, Mat.mk' r c g))
        (P := fun j s => Q s.1 ∧ ∃ g, s.2 = Mat.mk' r c g ∧ (∀ a b, a < i → b < c → g a b = v a b) ∧ ∀ b, b < j → g i b = v i b)
        ⟨hQ, g, rfl, hg, by intro b h; omega⟩ (by
          rintro j hj ⟨t, m⟩ ⟨hQ, g, rfl, hg1, hg2⟩
          obtain ⟨t', hQ', h⟩ := hstep i j t g hi hj hQ
          refine ⟨_, h, hQ', _, rfl, ?_, ?_⟩
          · intro a b ha hb
            rw [if_neg (by omega)]
            exact hg1 a b ha hb
          · intro b hb
            by_cases hbj : b = j
            · subst hbj; simp
            · rw [if_neg (by omega)]
              exact hg2 b (by omega))
      refine ⟨_, h1, hQ', g', hm, ?_⟩
      intro a b ha hb
      by_cases hai : a = i
      · subst hai; exact hg2 b hb
      · exact hg1 a b (by omega) hb)
  obtain ⟨⟨t', m'⟩, h1, hQ, g, rfl, hg⟩ := outer
  refine ⟨t', hQ, ?_⟩
  rw [h1]
  congr 2
  exact Mat.mk'_congr hg

theorem addsUp_fin {l : List α} {s : α} (h : AddsUp l s) : ∀ ks : List K, l = ks.map (fin : K → α) → s = fin ks.sum := by
  induction h with
  | one x =>
    intro ks hk
    obtain ⟨k, rfl, rfl⟩ : ∃ k, ks = [k] ∧ x = fin k := by
      match ks, hk with
      | [k], hk => exact ⟨k, rfl, by simpa using hk⟩
    simp
  | @add xs ys zs x y hx hy hp ihx ihy =>
    intro ks hk
    have hmem : ∀ v ∈ xs ++ ys, ∃ k : K, v = fin k := by
      intro v hv
      have := hp.mem_iff.mpr hv
      rw [hk] at this
      obtain ⟨k, -, rfl⟩ := List.mem_map.mp this
      exact ⟨k, rfl⟩
    have lift : ∀ vs : List α, (∀ v ∈ vs, ∃ k : K, v = fin k) → ∃ ks : List K, vs = ks.map fin := by
      intro vs
      induction vs with
      | nil => intro _; exact ⟨[], rfl⟩
      | cons v vs ih =>
        intro h
        obtain ⟨k, rfl⟩ := h v (by simp)
        obtain ⟨ks, rfl⟩ := ih fun v hv => h v (by simp [hv])
        exact ⟨k :: ks, rfl⟩
    obtain ⟨k1, rfl⟩ := lift xs fun v hv => hmem v (List.mem_append_left _ hv)
    obtain ⟨k2, rfl⟩ := lift ys fun v hv => hmem v (List.mem_append_right _ hv)
    rw [ihx k1 rfl, ihy k2 rfl, add]
    congr 1
    rw [← List.sum_append]
    apply List.Perm.sum_eq
    rw [hk, ← List.map_append] at hp
    have hinj : Function.Injective (fin : K → α) := fun a b h => Exact.fin_inj h
    exact ((List.map_perm_map_iff hinj).mp hp).symm

theorem sumV_fin (l : List K) (h : l ≠ []) : sumV (l.map (fin : K → α)) = .ok (fin l.sum) := by
  obtain ⟨s, hs⟩ := sumV_ok (l := l.map (fin : K → α)) (by simpa using h)
  rw [hs, addsUp_fin (sumV_addsUp hs) l rfl]

theorem list_sum_range (n : ℕ) (f : ℕ → K) : ((List.range n).map f).sum = ∑ k ∈ Finset.range n, f k := by
  induction n with
  | zero => simp
  | succ n ih => rw [List.range_succ, List.map_append, List.sum_append, ih, Finset.sum_range_succ]; simp

theorem zipV_range {β : Type} (h : β → β → β) (n : ℕ) (f g : ℕ → β) :
    zipV h ((List.range n).map f) ((List.range n).map g) = .ok ((List.range n).map fun k => h (f k) (g k)) := by
  unfold zipV
  rw [if_pos (by simp), List.zipWith_map, List.zipWith_self]

theorem mul_fin {r m c : ℕ} (hr : 0 < r) (hm : 0 < m) (hc : 0 < c) (f g : ℕ → ℕ → K) :
    (finMat α r m f).mul (finMat α m c g) = .ok (finMat α r c fun i j => ∑ k ∈ Finset.range m, f i k * g k j) := by
  unfold Mat.mul
  have e0 : (finMat α r m f).rows = r := rfl
  have e1 : (finMat α r m f).cols = m := rfl
  have e2 : (finMat α m c g).rows = m := rfl
  have e3 : (finMat α m c g).cols = c := rfl
  rw [e0, e1, e2, e3, if_pos rfl, new_mk' hr hc]
  simp only [Res.bind_ok]
  have key := fill_loop (τ := Unit) (r := r) (c := c) (α := α)
    (fun s i j => do
      let x ← (do
        let r ← (finMat α r m f).row i 0
        let c ← (finMat α m c g).col j 0
        let p ← zipV Arith.mul r c
        let s' ← sumV p
        s.2.setValue i j s')
      .ok ((), x)) (fun _ => True) (fun i j => fin (∑ k ∈ Finset.range m, f i k * g k j)) (by
      intro i j t F hi hj _
      refine ⟨(), trivial, ?_⟩
      have h1 : (finMat α r m f).row i 0 = .ok ((List.range (m - 0)).map fun k => fin (f i (0 + k))) := row_mk' _ hi
      have h2 : (finMat α m c g).col j 0 = .ok ((List.range (m - 0)).map fun k => fin (g (0 + k) j)) := col_mk' _ hj
      rw [h1, h2]
      simp only [Res.bind_ok, zipV_range, mul, Nat.zero_add, Nat.sub_zero]
      have h3 := sumV_fin (α := α) ((List.range m).map fun k => f i k * g k j) (by simp; omega)
      rw [List.map_map] at h3
      have h4 : (List.range m).map (fun k => (fin (f i k * g k j) : α)) = (List.range m).map (fin ∘ fun k => f i k * g k j) := rfl
      rw [h4, h3]
      simp only [Res.bind_ok]
      rw [setValue_mk' _ _ hi hj, list_sum_range]
      rfl) () trivial
  obtain ⟨_, _, h⟩ := key (fun _ _ => Arith.zero)
  -- drop the unit component
  have drop : ∀ (l : List ℕ) (F : Mat α → ℕ → Res (Mat α)) (m0 m1 : Mat α) (u u' : Unit),
      forRes (fun (s : Unit × Mat α) i => do let x ← F s.2 i; .ok ((), x)) l (u, m0) = .ok (u', m1) → forRes F l m0 = .ok m1 := by
    intro l F
    induction l with
    | nil => intro m0 m1 u u' h; simp only [forRes, Res.ok.injEq, Prod.mk.injEq] at h; simp [forRes, h.2]
    | cons i l ih =>
      intro m0 m1 u u' h
      simp only [forRes] at h ⊢
      cases hF : F m0 i with
      | ok x => rw [hF] at h; simp only [Res.bind_ok] at h ⊢; exact ih _ _ _ _ h
      | _ => rw [hF] at h; simp at h
  have pull : ∀ (l : List ℕ) (F : Mat α → ℕ → Res (Mat α)) (s : Unit × Mat α),
      forRes (fun (s : Unit × Mat α) i => do let x ← F s.2 i; .ok ((), x)) l s = (do let x ← forRes F l s.2; .ok ((), x)) := by
    intro l F
    induction l with
    | nil => intro s; rfl
    | cons i l ih =>
      intro s
      simp only [forRes]
      cases hF : F s.2 i with
      | ok x => simp only [Res.bind_ok, ih]
      | _ => simp
  have pull' := fun (i : ℕ) (s : Unit × Mat α) => pull (List.range c) (fun ans j => do
        let r ← (finMat α r m f).row i 0
        let c ← (finMat α m c g).col j 0
        let p ← zipV Arith.mul r c
        let s' ← sumV p
        ans.setValue i j s') s
  simp only [pull'] at h
  exact drop _ _ _ _ _ _ h

end Tom
