import Verif.Lemmas.MatExact
import Mathlib.Algebra.Order.Field.Basic
import Mathlib.Algebra.Order.AbsoluteValue.Basic
/-
What the steps of `SolveLinear` do to exact matrices.
-/
set_option linter.unusedSectionVars false
set_option linter.unusedSimpArgs false
namespace Tom
variable {α K : Type} [Arith α] [Field K] [LinearOrder K] [IsStrictOrderedRing K] [Exact α K]

/-- a vector with exact entries -/
abbrev finVec (α : Type) {K : Type} [Arith α] [Field K] [LinearOrder K] [Exact α K] (r : ℕ) (b : ℕ → K) : Mat α :=
  finMat α r 1 fun i _ => b i

theorem maxV_fin (l : List K) (h : l ≠ []) :
    ∃ m, maxV (l.map (fin : K → α)) = .ok (fin m) ∧ m ∈ l ∧ ∀ v ∈ l, v ≤ m := by
  have key : ∀ (l : List K) (a : K), ∃ m, (l.map (fin : K → α)).foldl (fun r w => if Arith.lt r w then w else r) (fin a) = fin m ∧
      (m = a ∨ m ∈ l) ∧ a ≤ m ∧ ∀ v ∈ l, v ≤ m := by
    intro l
    induction l with
    | nil => intro a; exact ⟨a, rfl, .inl rfl, le_rfl, by simp⟩
    | cons b l ih =>
      intro a
      simp only [List.map_cons, List.foldl_cons, Exact.lt, decide_eq_true_eq]
      by_cases hab : a < b
      · rw [if_pos hab]
        obtain ⟨m, h1, h2, h3, h4⟩ := ih b
        refine ⟨m, h1, .inr ?_, hab.le.trans h3, ?_⟩
        · rcases h2 with rfl | h2
          · simp
          · exact List.mem_cons_of_mem _ h2
        · intro v hv
          rcases List.mem_cons.mp hv with rfl | hv
          · exact h3
          · exact h4 v hv
      · rw [if_neg hab]
        obtain ⟨m, h1, h2, h3, h4⟩ := ih a
        refine ⟨m, h1, ?_, h3, ?_⟩
        · exact h2.imp id (List.mem_cons_of_mem _)
        · intro v hv
          rcases List.mem_cons.mp hv with rfl | hv
          · exact (not_lt.mp hab).trans h3
          · exact h4 v hv
  cases l with
  | nil => exact absurd rfl h
  | cons a l =>
    obtain ⟨m, h1, h2, h3, h4⟩ := key l a
    refine ⟨m, by simp only [List.map_cons, maxV, h1], List.mem_cons.mpr h2, ?_⟩
    intro v hv
    rcases List.mem_cons.mp hv with rfl | hv
    · exact h3
    · exact h4 v hv

/-- the first row between `y` and `e` with the largest absolute value in the column -/
theorem getMax_first {r c : ℕ} (f : ℕ → ℕ → K) {y e x : ℕ} (hy : y ≤ e) (he : e < r) (hx : x < c) :
    ∃ i, getMaxAbsRowIndex (finMat α r c f) y e x = .ok i ∧ y ≤ i ∧ i ≤ e ∧ (∀ k, y ≤ k → k ≤ e → |f k x| ≤ |f i x|) ∧
      ∀ k, y ≤ k → k < i → |f k x| < |f i x| := by
  unfold getMaxAbsRowIndex finMat
  rw [col_mk' _ hx]
  simp only [Res.bind_ok]
  have h1 : ∀ n k, k + n ≤ r → readAll ((List.range (r - 0)).map fun k => (fin (f (0 + k) x) : α)) ((List.range n).map fun j => k + j * 1)
      = .ok ((List.range n).map fun j => fin (f (k + j) x)) := by
    intro n
    induction n with
    | zero => intro k _; rfl
    | succ n ih =>
      intro k hk
      rw [List.range_succ_eq_map]
      simp only [List.map_cons, List.map_map, readAll, Nat.zero_mul, Nat.add_zero]
      have e1 : ((fun j => k + j * 1) ∘ Nat.succ) = fun j => (k + 1) + j * 1 := by funext j; simp; omega
      have e2 : ((fun j => (fin (f (k + j) x) : α)) ∘ Nat.succ) = fun j => fin (f (k + 1 + j) x) := by
        funext j; simp only [Function.comp]; congr 2; omega
      rw [e1, e2, ih (k + 1) (by omega)]
      simp only [Nat.sub_zero, Nat.zero_add, readAt, List.getElem?_map]
      rw [List.getElem?_eq_getElem (by simp; omega)]
      simp
  unfold sliceIdx
  rw [h1 (e + 1 - y) y (by omega), Res.bind_ok]
  have e3 : (List.map Arith.abs ((List.range (e + 1 - y)).map fun j => (fin (f (y + j) x) : α)))
      = ((List.range (e + 1 - y)).map fun j => |f (y + j) x|).map fin := by
    simp only [List.map_map]
    apply List.map_congr_left
    intro j _
    simp [Exact.abs]
  rw [e3]
  have hne : ((List.range (e + 1 - y)).map fun j => |f (y + j) x|) ≠ [] := by
    intro h
    have := congrArg List.length h
    simp at this
    omega
  obtain ⟨m, h2, h3, h4⟩ := maxV_fin (α := α) _ hne
  rw [h2, Res.bind_ok]
  set l := (List.range (e + 1 - y)).map fun j => |f (y + j) x| with hl
  have h5 : (l.map (fin : K → α)).findIdx (fun v => Arith.eq v (fin m)) < (l.map (fin : K → α)).length := by
    rw [List.findIdx_lt_length]
    exact ⟨fin m, List.mem_map.mpr ⟨m, h3, rfl⟩, by rw [Exact.eq]; simp⟩
  set k := (l.map (fin : K → α)).findIdx (fun v => Arith.eq v (fin m)) with hk
  have h6 := List.findIdx_getElem (w := h5)
  have hk' : k < e + 1 - y := by simpa [hl] using h5
  refine ⟨k + y, rfl, by omega, by omega, ?_⟩
  suffices hmain : ∀ j, y ≤ j → j ≤ e → |f j x| ≤ |f (k + y) x| by
    refine ⟨hmain, fun j hj1 hj2 => lt_of_le_of_ne (hmain j hj1 (by omega)) fun heq => ?_⟩
    have h8 := List.not_of_lt_findIdx (p := fun v => Arith.eq v (fin m)) (xs := l.map (fin : K → α)) (i := j - y) (by omega)
    have h6 : Arith.eq (l.map (fin : K → α))[k] (fin m) = true := h6
    simp only [hl, List.getElem_map, List.getElem_range, Exact.eq, decide_eq_true_eq] at h6
    simp only [hl, List.getElem_map, List.getElem_range, Exact.eq] at h8
    rw [show y + (j - y) = j by omega, heq, Nat.add_comm k y, h6] at h8
    simp at h8
  have h7 : |f (k + y) x| = m := by
    have h6 : Arith.eq (l.map (fin : K → α))[k] (fin m) = true := h6
    simp only [hl, List.getElem_map, List.getElem_range, Exact.eq, decide_eq_true_eq] at h6
    rw [Nat.add_comm]; exact h6
  intro j hj1 hj2
  rw [h7]
  exact h4 _ (List.mem_map.mpr ⟨j - y, by simp; omega, by congr 2; omega⟩)

/-- the row that is brought up has the largest entry of the column -/
theorem getMax_fin {r c : ℕ} (f : ℕ → ℕ → K) {y x : ℕ} (hy : y < r) (hx : x < c) :
    ∃ i, getMaxAbsRowIndex (finMat α r c f) y (r - 1) x = .ok i ∧ y ≤ i ∧ i < r ∧ ∀ k, y ≤ k → k < r → |f k x| ≤ |f i x| := by
  obtain ⟨i, h1, h2, h3, h4, _⟩ := getMax_first (α := α) (r := r) f (y := y) (e := r - 1) (by omega) (by omega) hx
  exact ⟨i, h1, h2, by omega, fun k hk1 hk2 => h4 k hk1 (by omega)⟩

theorem swapRow_fin {r c : ℕ} (f : ℕ → ℕ → K) {i j : ℕ} (hi : i < r) (hj : j < r) :
    (finMat α r c f).swapRow i j = .ok (finMat α r c fun a b => f (swapIx i j a) b) := swapRow_mk' _ hi hj

/-- the permutations of the rows `y, ..., r-1` -/
structure RowPerm (r y : ℕ) (σ : Equiv.Perm ℕ) : Prop where
  below : ∀ i, i < y → σ i = i
  mem : ∀ i, (y ≤ σ i ∧ σ i < r) ↔ (y ≤ i ∧ i < r)

theorem RowPerm.refl (r y : ℕ) : RowPerm r y (Equiv.refl ℕ) := ⟨fun _ _ => rfl, fun _ => Iff.rfl⟩

theorem RowPerm.trans {r y : ℕ} {σ τ : Equiv.Perm ℕ} (h1 : RowPerm r y σ) (h2 : RowPerm r y τ) : RowPerm r y (τ.trans σ) :=
  ⟨fun i hi => by simp [h1.below i hi, h2.below i hi], fun i => by simp only [Equiv.trans_apply]; rw [h1.mem, h2.mem]⟩

theorem swapIx_swap (i j k : ℕ) : swapIx i j k = Equiv.swap i j k := by
  rw [Equiv.swap_apply_def]; rfl

theorem rowPerm_swap {r y i : ℕ} (hi : y ≤ i) (hr : i < r) : RowPerm r y (Equiv.swap y i) := by
  constructor
  · intro k hk
    rw [Equiv.swap_apply_of_ne_of_ne (by omega) (by omega)]
  · intro k
    rw [Equiv.swap_apply_def]
    split
    · omega
    · split <;> omega

theorem bringPivot_fin {r c : ℕ} (f : ℕ → ℕ → K) {y x : ℕ} (hy : y < r) (hx : x < c) :
    ∃ σ, RowPerm r y σ ∧ (∀ b : ℕ → K, bringPivot (finMat α r c f) (finVec α r b) y x
      = .ok (finMat α r c fun i j => f (σ i) j, finVec α r fun i => b (σ i))) ∧
      ∀ k, y ≤ k → k < r → |f k x| ≤ |f (σ y) x| := by
  obtain ⟨i, h1, h2, h3, h4⟩ := getMax_fin (α := α) f hy hx
  refine ⟨Equiv.swap y i, rowPerm_swap h2 h3, fun b => ?_, by simpa using h4⟩
  unfold bringPivot
  have e : (finMat α r c f).rows = r := rfl
  rw [e, h1, Res.bind_ok, swapRow_fin _ hy h3, Res.bind_ok, swapRow_fin _ hy h3, Res.bind_ok]
  simp only [swapIx_swap]

/-- skipping columns until a usable pivot is found -/
theorem findPivot_fin {r c : ℕ} (eps : K) {y : ℕ} (hy : y < r) : ∀ fuel x (f : ℕ → ℕ → K) (b : ℕ → K), x < c → c < fuel + x →
    (∀ k, y ≤ k → k < r → |f k x| ≤ |f y x|) →
    ∃ σ x', RowPerm r y σ ∧ findPivot (fin eps) fuel (finMat α r c f) (finVec α r b) y x
      = .ok (finMat α r c fun i j => f (σ i) j, finVec α r fun i => b (σ i), x') ∧ x ≤ x' ∧ x' ≤ c ∧
      (∀ i j, y ≤ i → i < r → x ≤ j → j < x' → |f i j| < eps) ∧
      (x' < c → eps ≤ |f (σ y) x'|) := by
  intro fuel
  induction fuel with
  | zero => intro x f b h1 h2; omega
  | succ fuel ih =>
    intro x f b hx hfuel hmax
    unfold findPivot
    have hv : (finMat α r c f).value y x = .ok (fin (f y x)) := value_mk' _ hy hx
    rw [hv, Res.bind_ok, Exact.abs, Exact.lt]
    by_cases hlt : |f y x| < eps
    · have hcol : ∀ i, y ≤ i → i < r → |f i x| < eps := fun i h1 h2 => (hmax i h1 h2).trans_lt hlt
      rw [if_pos (by simpa using hlt)]
      have e : (finMat α r c f).cols = c := rfl
      by_cases hc : x + 1 = c
      · rw [e, if_pos hc]
        refine ⟨Equiv.refl ℕ, x + 1, .refl r y, rfl, by omega, by omega, ?_, by omega⟩
        intro i j h1 h2 h3 h4
        have : j = x := by omega
        subst this
        exact hcol i h1 h2
      · rw [e, if_neg hc]
        obtain ⟨σ, h1, h2, h3⟩ := bringPivot_fin (α := α) f hy (by omega : x + 1 < c)
        replace h2 := h2 b
        rw [h2, Res.bind_ok]
        simp only
        have hmax' : ∀ k, y ≤ k → k < r → |f (σ k) (x + 1)| ≤ |f (σ y) (x + 1)| := fun k a b =>
          h3 (σ k) ((h1.mem k).mpr ⟨a, b⟩).1 ((h1.mem k).mpr ⟨a, b⟩).2
        obtain ⟨τ, x', g1, g2, g3, g4, g5, g6⟩ := ih (x + 1) (fun i j => f (σ i) j) (fun i => b (σ i)) (by omega) (by omega) hmax'
        refine ⟨τ.trans σ, x', h1.trans g1, g2, by omega, g4, ?_, g6⟩
        intro i j a1 a2 a3 a4
        rcases Nat.eq_or_lt_of_le a3 with rfl | a3
        · exact hcol i a1 a2
        · have hp := (h1.mem (σ.symm i)).mp (by simpa using ⟨a1, a2⟩)
          have := g5 (σ.symm i) j hp.1 hp.2 a3 a4
          simpa using this
    · rw [if_neg (by simpa using hlt)]
      exact ⟨Equiv.refl ℕ, x, .refl r y, rfl, le_rfl, hx.le, by omega, fun _ => not_lt.mp hlt⟩

/-- the factor by which the pivot row is subtracted from row `i` -/
def factor (eps : K) (f : ℕ → ℕ → K) (x i : ℕ) : K := if eps ≤ |f i x| then f i x else 0

/-- the matrix after one elimination step -/
def elimF (eps : K) (r : ℕ) (f : ℕ → ℕ → K) (y x : ℕ) (i j : ℕ) : K :=
  if i = y ∧ x ≤ j then f y j / f y x
  else if y < i ∧ i < r ∧ x ≤ j then f i j - f y j / f y x * factor eps f x i
  else f i j

/-- the right-hand side after one elimination step -/
def elimB (eps : K) (r : ℕ) (f : ℕ → ℕ → K) (y x : ℕ) (b : ℕ → K) (i : ℕ) : K :=
  if i = y then b y / f y x
  else if y < i ∧ i < r then b i - b y / f y x * factor eps f x i
  else b i

theorem eliminate_fin {r c : ℕ} (eps : K) (f : ℕ → ℕ → K) (b : ℕ → K) {y x : ℕ} (hy : y < r) (hx : x < c) (hp : f y x ≠ 0) :
    eliminate (fin eps) (finMat α r c f) (finVec α r b) y x
      = .ok (finMat α r c (elimF eps r f y x), finVec α r (elimB eps r f y x b)) := by
  unfold eliminate
  have hv : (finMat α r c f).value y x = .ok (fin (f y x)) := value_mk' _ hy hx
  have hrow : (finMat α r c f).row y x = .ok ((List.range (c - x)).map fun k => fin (f y (x + k))) := row_mk' _ hy
  rw [hv, Res.bind_ok, hrow, Res.bind_ok]
  have hmap : List.map (fun v => Arith.div v (fin (f y x) : α)) ((List.range (c - x)).map fun k => fin (f y (x + k)))
      = (List.range (c - x)).map fun k => fin (f y (x + k) / f y x) := by
    rw [List.map_map]
    apply List.map_congr_left
    intro k _
    simp only [Function.comp]
    rw [Exact.div _ _ hp]
  simp only [hmap]
  have hset : (finMat α r c f).setRow y x ((List.range (c - x)).map fun k => fin (f y (x + k) / f y x))
      = .ok (Mat.mk' r c fun i j => if i = y ∧ x ≤ j then fin (f y (x + (j - x)) / f y x) else fin (f i j)) :=
    setRow_mk' _ (fun k => fin (f y (x + k) / f y x)) hy
  have hb : (finVec α r b).at_ y = .ok (fin (b y)) := at_mk' _ hy
  have hbs : (finVec α r b).setAt y (fin (b y / f y x)) = .ok (Mat.mk' r 1 fun i _ => if i = y then fin (b y / f y x) else fin (b i)) :=
    setAt_mk' _ _ hy
  rw [hset, Res.bind_ok, hb, Res.bind_ok, Exact.div _ _ hp, hbs, Res.bind_ok, Mat.mk'_rows]
  -- the states of the loop: `n` rows have been processed
  let F : ℕ → ℕ → ℕ → K := fun n i j => if i < y + 1 + n then elimF eps r f y x i j else f i j
  let B : ℕ → ℕ → K := fun n i => if i < y + 1 + n then elimB eps r f y x b i else b i
  have hA0 : (Mat.mk' r c fun i j => if i = y ∧ x ≤ j then fin (f y (x + (j - x)) / f y x) else fin (f i j)) = finMat α r c (F 0) := by
    apply Mat.mk'_congr
    intro i j hi hj
    simp only [F, elimF]
    by_cases h : i = y ∧ x ≤ j
    · rw [if_pos h, if_pos (by omega), if_pos h]
      congr 3
      omega
    · rw [if_neg h]
      split
      · rw [if_neg (by omega)]
      · rfl
  have hB0 : (Mat.mk' r 1 fun i _ => if i = y then fin (b y / f y x) else fin (b i)) = finVec α r (B 0) := by
    apply Mat.mk'_congr
    intro i j hi hj
    simp only [B, elimB]
    by_cases h : i = y
    · rw [if_pos h, if_pos (by omega), if_pos h]
    · rw [if_neg h]
      split
      · rw [if_neg (by omega)]
      · rfl
  rw [hA0, hB0]
  have hfin : (finMat α r c (F (r - (y + 1))), finVec α r (B (r - (y + 1))))
      = (finMat α r c (elimF eps r f y x), finVec α r (elimB eps r f y x b)) := by
    congr 1
    · apply Mat.mk'_congr; intro i j hi hj; simp only [F]; rw [if_pos (by omega)]
    · apply Mat.mk'_congr; intro i j hi hj; simp only [B]; rw [if_pos (by omega)]
  have hmapf : ∀ (g : Mat α × Mat α → ℕ → Res (Mat α × Mat α)) (l : List ℕ) s,
      forRes g (l.map (· + (y + 1))) s = forRes (fun s k => g s (k + (y + 1))) l s := by
    intro g l
    induction l with
    | nil => intro s; rfl
    | cons a l ih => intro s; simp only [List.map_cons, forRes]; cases g s (a + (y + 1)) <;> simp [ih]
  rw [← hfin, hmapf]
  refine forRes_range _ (r - (y + 1)) (fun n => (finMat α r c (F n), finVec α r (B n))) ?_
  intro k hk
  have hkr : k + (y + 1) < r := by omega
  have v1 : (finMat α r c (F k)).value (k + (y + 1)) x = .ok (fin (f (k + (y + 1)) x)) := by
    refine (value_mk' _ hkr hx).trans ?_
    simp only [F]
    rw [if_neg (by omega)]
  simp only
  rw [v1, Res.bind_ok, Exact.abs, Exact.le]
  by_cases hle : eps ≤ |f (k + (y + 1)) x|
  · rw [if_pos (by simpa using hle)]
    have r1 : (finMat α r c (F k)).row (k + (y + 1)) x = .ok ((List.range (c - x)).map fun j => fin (f (k + (y + 1)) (x + j))) := by
      refine (row_mk' _ hkr).trans ?_
      simp only [F]
      congr 1
      apply List.map_congr_left
      intro j _
      rw [if_neg (by omega)]
    rw [r1, Res.bind_ok]
    have m1 : List.map (fun v => Arith.mul v (fin (f (k + (y + 1)) x) : α)) ((List.range (c - x)).map fun k => fin (f y (x + k) / f y x))
        = (List.range (c - x)).map fun j => fin (f y (x + j) / f y x * f (k + (y + 1)) x) := by
      rw [List.map_map]
      apply List.map_congr_left
      intro j _
      simp only [Function.comp]
      rw [Exact.mul]
    rw [m1, zipV_range, Res.bind_ok]
    simp only [Exact.sub]
    have s1 : (finMat α r c (F k)).setRow (k + (y + 1)) x
        ((List.range (c - x)).map fun j => fin (f (k + (y + 1)) (x + j) - f y (x + j) / f y x * f (k + (y + 1)) x))
        = .ok (finMat α r c (F (k + 1))) := by
      refine (setRow_mk' _ (fun j => fin (f (k + (y + 1)) (x + j) - f y (x + j) / f y x * f (k + (y + 1)) x)) hkr).trans ?_
      congr 1
      apply Mat.mk'_congr
      intro i j hi hj
      simp only [F, elimF, factor]
      by_cases h : i = k + (y + 1) ∧ x ≤ j
      · obtain ⟨rfl, hxj⟩ := h
        have ej : x + (j - x) = j := by omega
        rw [if_pos ⟨rfl, hxj⟩, ej]
        split_ifs <;> first | rfl | (exfalso; omega)
      · rw [if_neg h]
        split_ifs <;> first | rfl | (exfalso; omega)
    rw [s1, Res.bind_ok]
    have b1 : (finVec α r (B k)).at_ (k + (y + 1)) = .ok (fin (b (k + (y + 1)))) := by
      refine (at_mk' _ hkr).trans ?_
      simp only [B]
      rw [if_neg (by omega)]
    have b2 : (finVec α r (B k)).at_ y = .ok (fin (b y / f y x)) := by
      refine (at_mk' _ hy).trans ?_
      simp only [B, elimB]
      rw [if_pos (by omega), if_pos trivial]
    rw [b1, Res.bind_ok, b2, Res.bind_ok, Exact.mul, Exact.sub]
    have s2 : (finVec α r (B k)).setAt (k + (y + 1)) (fin (b (k + (y + 1)) - b y / f y x * f (k + (y + 1)) x))
        = .ok (finVec α r (B (k + 1))) := by
      refine (setAt_mk' _ _ hkr).trans ?_
      congr 1
      apply Mat.mk'_congr
      intro i j hi hj
      simp only [B, elimB, factor]
      by_cases h : i = k + (y + 1)
      · subst h
        rw [if_pos rfl]
        split_ifs <;> first | rfl | (exfalso; omega)
      · rw [if_neg h]
        split_ifs <;> first | rfl | (exfalso; omega)
    rw [s2, Res.bind_ok]
  · rw [if_neg (by simpa using hle)]
    have zf : factor eps f x (k + (y + 1)) = 0 := by unfold factor; rw [if_neg hle]
    congr 2
    · apply Mat.mk'_congr
      intro i j hi hj
      simp only [F, elimF]
      by_cases h : i = k + (y + 1)
      · subst h
        rw [zf]
        split_ifs <;> first | rfl | (exfalso; omega) | simp
      · split_ifs <;> first | rfl | (exfalso; omega)
    · apply Mat.mk'_congr
      intro i j hi hj
      simp only [B, elimB]
      by_cases h : i = k + (y + 1)
      · subst h
        rw [zf]
        split_ifs <;> first | rfl | (exfalso; omega) | simp
      · split_ifs <;> first | rfl | (exfalso; omega)

end Tom
