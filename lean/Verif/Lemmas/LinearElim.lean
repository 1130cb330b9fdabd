import Verif.Lemmas.LinearRun
import Mathlib.Algebra.BigOperators.Intervals
/-
The elimination loop of `SolveLinear`: what it has computed when it stops.
-/
set_option linter.unusedSectionVars false
set_option linter.unusedSimpArgs false
namespace Tom
open Finset
variable {α K : Type} [Arith α] [Field K] [LinearOrder K] [IsStrictOrderedRing K] [Exact α K]

/-- The loop, started at row `y` and column `x` on the coefficients `f`, ends with the coefficients `f'`, the right-hand
side `T β` (for the right-hand side `β`), `ρ` pivot rows with pivot columns `p`, having ignored the coefficients `E`. -/
structure Run (eps : K) (r c y x : ℕ) (f f' : ℕ → ℕ → K) (T : (ℕ → K) → ℕ → K) (ρ : ℕ) (p : ℕ → ℕ) (E : ℕ → ℕ → K) : Prop where
  y_le : y ≤ ρ
  le_r : ρ ≤ r
  p_ge : ∀ i, y ≤ i → i < ρ → x + (i - y) ≤ p i
  p_lt : ∀ i, y ≤ i → i < ρ → p i < c
  p_mono : ∀ i j, y ≤ i → i < j → j < ρ → p i < p j
  small : ∀ i j, |E i j| < eps
  T_lt : ∀ β i, i < y → T β i = β i
  f_lt : ∀ i, i < y → f' i = f i
  equiv : ∀ β v : ℕ → K, (∀ i, y ≤ i → i < r → ∑ j ∈ Ico x c, (f i j - E i j) * v j = β i) ↔
    (∀ i, y ≤ i → i < ρ → v (p i) + ∑ j ∈ Ico (p i + 1) c, f' i j * v j = T β i) ∧ ∀ i, ρ ≤ i → i < r → T β i = 0
  surj : ∀ w : ℕ → K, ∃ β, ∀ i, i < r → T β i = w i

theorem Run.done {eps : K} (heps : 0 < eps) {r c y x : ℕ} (f : ℕ → ℕ → K) (hy : y ≤ r) (h : y = r ∨ x = c) :
    Run eps r c y x f f (fun β => β) y (fun _ => 0) (fun _ _ => 0) where
  y_le := le_rfl
  le_r := hy
  p_ge i h1 h2 := by omega
  p_lt i h1 h2 := by omega
  p_mono i j h1 h2 h3 := by omega
  small i j := by simpa using heps
  T_lt _ _ _ := rfl
  f_lt _ _ := rfl
  equiv β v := by
    rcases h with rfl | rfl
    · exact ⟨fun _ => ⟨fun i h1 h2 => by omega, fun i h1 h2 => by omega⟩, fun _ i h1 h2 => by omega⟩
    · simp only [Ico_self, sum_empty]
      exact ⟨fun h => ⟨fun i h1 h2 => by omega, fun i h1 h2 => (h i h1 h2).symm⟩, fun h i h1 h2 => (h.2 i h1 h2).symm⟩
  surj w := ⟨w, fun _ _ => rfl⟩

/-- no usable pivot is left -/
theorem Run.stop {eps : K} (heps : 0 < eps) {r c y x : ℕ} (f : ℕ → ℕ → K) (hy : y < r) {σ : Equiv.Perm ℕ} (hσ : RowPerm r y σ)
    (hs : ∀ i j, y ≤ i → i < r → x ≤ j → j < c → |f i j| < eps) :
    Run eps r c y x f (fun i j => f (σ i) j) (fun β i => β (σ i)) y (fun _ => 0)
      (fun i j => if y ≤ i ∧ i < r ∧ x ≤ j ∧ j < c then f i j else 0) where
  y_le := le_rfl
  le_r := hy.le
  p_ge i h1 h2 := by omega
  p_lt i h1 h2 := by omega
  p_mono i j h1 h2 h3 := by omega
  small i j := by
    split
    · rename_i h; exact hs i j h.1 h.2.1 h.2.2.1 h.2.2.2
    · simpa using heps
  T_lt β i h := by simp only [hσ.below i h]
  f_lt i h := by simp only [hσ.below i h]
  equiv β v := by
    have h0 : ∀ i, y ≤ i → i < r → ∑ j ∈ Ico x c, (f i j - if y ≤ i ∧ i < r ∧ x ≤ j ∧ j < c then f i j else 0) * v j = 0 := by
      intro i h1 h2
      apply sum_eq_zero
      intro j hj
      rw [mem_Ico] at hj
      rw [if_pos ⟨h1, h2, hj.1, hj.2⟩]
      simp
    constructor
    · intro h
      refine ⟨fun i h1 h2 => by omega, fun i h1 h2 => ?_⟩
      have := (hσ.mem i).mpr ⟨h1, h2⟩
      rw [← h (σ i) this.1 this.2, h0 (σ i) this.1 this.2]
    · intro h i h1 h2
      rw [h0 i h1 h2]
      have := (hσ.mem (σ.symm i)).mp (by simpa using ⟨h1, h2⟩)
      have := h.2 (σ.symm i) this.1 this.2
      simpa using this.symm
  surj w := ⟨fun i => w (σ.symm i), fun i _ => by simp⟩

/-- one pivot row, then the rest -/
theorem Run.step {eps : K} {r c y x x' : ℕ} {f f' : ℕ → ℕ → K} {T : (ℕ → K) → ℕ → K} {ρ : ℕ} {p : ℕ → ℕ} {E : ℕ → ℕ → K}
    (heps : 0 < eps) (hy : y < r) {σ : Equiv.Perm ℕ} (hσ : RowPerm r y σ) (hx : x ≤ x') (hc : x' < c)
    (hs : ∀ i j, y ≤ i → i < r → x ≤ j → j < x' → |f i j| < eps) (hp : f (σ y) x' ≠ 0)
    (h : Run eps r c (y + 1) (x' + 1) (elimF eps r (fun i j => f (σ i) j) y x') f' T ρ p E) :
    ∃ E', Run eps r c y x f f' (fun β => T (elimB eps r (fun i j => f (σ i) j) y x' fun i => β (σ i))) ρ
      (fun i => if i = y then x' else p i) E' ∧
      ((∀ i j, E i j = 0) → (∀ i j, y ≤ i → i < r → x ≤ j → j < x' → f i j = 0) →
        (∀ i, i < r → factor eps (fun i j => f (σ i) j) x' i = f (σ i) x') → ∀ i j, E' i j = 0) := by
  set g : ℕ → ℕ → K := fun i j => f (σ i) j with hg
  set Eg : ℕ → ℕ → K := fun i j =>
    if y ≤ i ∧ i < r then
      if x ≤ j ∧ j < x' then g i j
      else if j = x' then (if i = y then 0 else g i x' - factor eps g x' i)
      else if i = y then 0 else E i j
    else 0 with hEg
  refine ⟨fun i j => Eg (σ.symm i) j, ?_, ?_⟩
  swap
  · intro z1 z2 z3 i j
    simp only [hEg]
    have hm := hσ.mem (σ.symm i)
    simp only [Equiv.apply_symm_apply] at hm
    split_ifs with h1 h2 h3 h4 h5
    · simp only [hg, Equiv.apply_symm_apply]
      exact z2 i j (hm.mpr h1).1 (hm.mpr h1).2 h2.1 h2.2
    · rfl
    · rw [z3 _ h1.2]; simp only [hg]; exact sub_self _
    · rfl
    · exact z1 _ _
    · rfl
  have hyρ := h.y_le
  constructor
  · omega
  · exact h.le_r
  · intro i h1 h2
    split
    · omega
    · have := h.p_ge i (by omega) h2
      omega
  · intro i h1 h2
    split
    · exact hc
    · exact h.p_lt i (by omega) h2
  · intro i j h1 h2 h3
    rw [if_neg (show j ≠ y by omega)]
    split
    · have := h.p_ge j (by omega) h3
      omega
    · exact h.p_mono i j (by omega) h2 h3
  · intro i j
    simp only [hEg]
    have hm := hσ.mem (σ.symm i)
    simp only [Equiv.apply_symm_apply] at hm
    split_ifs with h1 h2 h3 h4 h5
    · simp only [hg, Equiv.apply_symm_apply]
      exact hs i j (hm.mpr h1).1 (hm.mpr h1).2 h2.1 h2.2
    · simpa using heps
    · unfold factor
      split
      · simpa using heps
      · rename_i h6
        simpa using h6
    · simpa using heps
    · exact h.small _ _
    · simpa using heps
  · intro β i hi
    rw [h.T_lt _ i (by omega)]
    simp only [elimB]
    rw [if_neg (by omega), if_neg (by omega), hσ.below i hi]
  · intro i hi
    rw [h.f_lt i (by omega)]
    funext j
    simp only [elimF]
    rw [if_neg (by omega), if_neg (by omega), hg]
    simp only [hσ.below i hi]
  · intro β v
    set β1 := elimB eps r g y x' fun i => β (σ i) with hβ1
    -- reindex the rows
    have e1 : (∀ i, y ≤ i → i < r → ∑ j ∈ Ico x c, (f i j - Eg (σ.symm i) j) * v j = β i) ↔
        ∀ i, y ≤ i → i < r → ∑ j ∈ Ico x c, (g i j - Eg i j) * v j = β (σ i) := by
      constructor
      · intro H i h1 h2
        have := (hσ.mem i).mpr ⟨h1, h2⟩
        have := H (σ i) this.1 this.2
        simpa [hg] using this
      · intro H i h1 h2
        have := (hσ.mem (σ.symm i)).mp (by simpa using ⟨h1, h2⟩)
        have := H (σ.symm i) this.1 this.2
        simpa [hg] using this
    rw [e1]
    -- drop the skipped columns
    have e2 : ∀ i, y ≤ i → i < r → ∑ j ∈ Ico x c, (g i j - Eg i j) * v j =
        (g i x' - Eg i x') * v x' + ∑ j ∈ Ico (x' + 1) c, (g i j - Eg i j) * v j := by
      intro i h1 h2
      rw [← sum_Ico_consecutive _ hx hc.le, sum_eq_sum_Ico_succ_bot hc]
      have : ∑ j ∈ Ico x x', (g i j - Eg i j) * v j = 0 := by
        apply sum_eq_zero
        intro j hj
        rw [mem_Ico] at hj
        simp only [hEg]
        rw [if_pos ⟨h1, h2⟩, if_pos hj]
        simp
      rw [this, zero_add]
    have e3 : ∑ j ∈ Ico x c, (g y j - Eg y j) * v j = g y x' * v x' + ∑ j ∈ Ico (x' + 1) c, g y j * v j := by
      rw [e2 y le_rfl hy]
      have a1 : Eg y x' = 0 := by
        simp only [hEg]
        rw [if_pos ⟨le_rfl, hy⟩, if_neg (by omega)]
        simp
      have a2 : ∀ j ∈ Ico (x' + 1) c, (g y j - Eg y j) * v j = g y j * v j := by
        intro j hj
        rw [mem_Ico] at hj
        simp only [hEg]
        rw [if_pos ⟨le_rfl, hy⟩, if_neg (by omega), if_neg (by omega)]
        simp
      rw [a1, sub_zero, sum_congr rfl a2]
    have e4 : ∀ i, y < i → i < r → ∑ j ∈ Ico x c, (g i j - Eg i j) * v j =
        factor eps g x' i * v x' + ∑ j ∈ Ico (x' + 1) c, (g i j - E i j) * v j := by
      intro i h1 h2
      rw [e2 i h1.le h2]
      have a1 : g i x' - Eg i x' = factor eps g x' i := by
        simp only [hEg]
        rw [if_pos ⟨h1.le, h2⟩, if_neg (by omega), if_pos trivial, if_neg (by omega)]
        ring
      have a2 : ∀ j ∈ Ico (x' + 1) c, (g i j - Eg i j) * v j = (g i j - E i j) * v j := by
        intro j hj
        rw [mem_Ico] at hj
        simp only [hEg]
        rw [if_pos ⟨h1.le, h2⟩, if_neg (by omega), if_neg (by omega), if_neg (by omega)]
      rw [a1, sum_congr rfl a2]
    have hgp : g y x' ≠ 0 := hp
    -- the pivot row
    have e5 : (g y x' * v x' + ∑ j ∈ Ico (x' + 1) c, g y j * v j = β (σ y)) ↔
        v x' + ∑ j ∈ Ico (x' + 1) c, f' y j * v j = T β1 y := by
      rw [h.T_lt β1 y (by omega), h.f_lt y (by omega)]
      have a1 : β1 y = β (σ y) / g y x' := by simp only [hβ1, elimB]; rw [if_pos trivial]
      have a2 : ∑ j ∈ Ico (x' + 1) c, elimF eps r g y x' y j * v j = (∑ j ∈ Ico (x' + 1) c, g y j * v j) / g y x' := by
        rw [sum_div]
        apply sum_congr rfl
        intro j hj
        rw [mem_Ico] at hj
        simp only [elimF]
        rw [if_pos ⟨trivial, by omega⟩]
        ring
      rw [a1, a2, eq_div_iff hgp, add_mul, div_mul_cancel₀ _ hgp, mul_comm (v x')]
    -- the other rows
    have e6 : (g y x' * v x' + ∑ j ∈ Ico (x' + 1) c, g y j * v j = β (σ y)) → ∀ i, y < i → i < r →
        ((factor eps g x' i * v x' + ∑ j ∈ Ico (x' + 1) c, (g i j - E i j) * v j = β (σ i)) ↔
          ∑ j ∈ Ico (x' + 1) c, (elimF eps r g y x' i j - E i j) * v j = β1 i) := by
      intro hrow i h1 h2
      have a1 : β1 i = β (σ i) - β (σ y) / g y x' * factor eps g x' i := by
        simp only [hβ1, elimB]; rw [if_neg (by omega), if_pos ⟨h1, h2⟩]
      have a2 : ∑ j ∈ Ico (x' + 1) c, (elimF eps r g y x' i j - E i j) * v j =
          ∑ j ∈ Ico (x' + 1) c, (g i j - E i j) * v j - (∑ j ∈ Ico (x' + 1) c, g y j * v j) / g y x' * factor eps g x' i := by
        rw [sum_div, sum_mul, ← sum_sub_distrib]
        apply sum_congr rfl
        intro j hj
        rw [mem_Ico] at hj
        simp only [elimF]
        rw [if_neg (by omega), if_pos (by omega)]
        ring
      rw [a1, a2, ← hrow]
      have a3 : (g y x' * v x' + ∑ j ∈ Ico (x' + 1) c, g y j * v j) / g y x' = v x' + (∑ j ∈ Ico (x' + 1) c, g y j * v j) / g y x' := by
        rw [add_div, mul_div_cancel_left₀ _ hgp]
      rw [a3]
      constructor <;> intro H <;> linear_combination H
    have e7 := h.equiv β1 v
    constructor
    · intro H
      have Hy := H y le_rfl hy
      rw [e3] at Hy
      have := e7.mp fun i h1 h2 => by
        have := H i (by omega) h2
        rw [e4 i (by omega) h2] at this
        exact (e6 Hy i (by omega) h2).mp this
      refine ⟨fun i h1 h2 => ?_, this.2⟩
      split
      · rename_i h3
        subst h3
        exact e5.mp Hy
      · exact this.1 i (by omega) h2
    · rintro ⟨H1, H2⟩
      have Hy : g y x' * v x' + ∑ j ∈ Ico (x' + 1) c, g y j * v j = β (σ y) := by
        apply e5.mpr
        have := H1 y le_rfl (by omega)
        simpa using this
      have := e7.mpr ⟨fun i h1 h2 => by
        have := H1 i (by omega) h2
        simp only [if_neg (show i ≠ y by omega)] at this
        exact this, H2⟩
      intro i h1 h2
      rcases Nat.eq_or_lt_of_le h1 with rfl | h1
      · rw [e3]; exact Hy
      · rw [e4 i h1 h2]
        exact (e6 Hy i h1 h2).mpr (this i h1 h2)
  · intro w
    obtain ⟨β1, hb⟩ := h.surj w
    refine ⟨fun i => (fun k => if k = y then β1 y * g y x' else if y < k ∧ k < r then β1 k + β1 y * factor eps g x' k else β1 k) (σ.symm i), ?_⟩
    intro i hi
    simp only
    have : (elimB eps r g y x' fun i => (fun k => if k = y then β1 y * g y x' else if y < k ∧ k < r then β1 k + β1 y * factor eps g x' k else β1 k)
        (σ.symm (σ i))) = β1 := by
      funext k
      simp only [elimB, Equiv.symm_apply_apply]
      have hgp : g y x' ≠ 0 := hp
      by_cases h1 : k = y
      · subst h1; simp [hgp]
      · by_cases h2 : y < k ∧ k < r
        · simp [h1, h2, hgp]
        · simp [h1, h2]
    rw [this]
    exact hb i hi

/-- the record of the rows that must move, as a list -/
theorem set_range_map (c : ℕ) (t : ℕ → ℕ) (y v : ℕ) :
    ((List.range c).map t).set y v = (List.range c).map fun i => if i = y then v else t i := by
  apply List.ext_getElem
  · simp
  · intro n h1 h2
    simp only [List.getElem_set, List.getElem_map, List.getElem_range]
    split_ifs <;> first | rfl | omega

theorem elimLoop_fin {eps : K} (heps : 0 < eps) {r c : ℕ} : ∀ (fuel y x : ℕ) (f : ℕ → ℕ → K) (b : ℕ → K) (t : ℕ → ℕ), r < y + fuel → y ≤ r → x ≤ c → y ≤ x →
    ∃ f' T ρ p E, Run eps r c y x f f' T ρ p E ∧
      ((∃ ra, elimLoop (fin eps) fuel ⟨finMat α r c f, finVec α r b, (List.range c).map t, r, r⟩ y x
          = .ok ⟨finMat α r c f', finVec α r (T b), (List.range c).map fun i => if y ≤ i ∧ i < ρ ∧ i < p i then p i else t i, ra, ra⟩ ∧
          ((ra = r) ∨ (ra = ρ ∧ ρ < r ∧ |T b ρ| < eps))) ∨
        (elimLoop (fin eps) fuel ⟨finMat α r c f, finVec α r b, (List.range c).map t, r, r⟩ y x = .throw (.math .singularMatrix) ∧
          ρ < r ∧ eps ≤ |T b ρ|)) := by
  intro fuel
  induction fuel with
  | zero => intro y x f b t h1 h2; omega
  | succ fuel ih =>
    intro y x f b t hfuel hy hx hyx
    unfold elimLoop
    have er : (finMat α r c f).rows = r := rfl
    have ec : (finMat α r c f).cols = c := rfl
    simp only [er, ec]
    by_cases hcond : y < r ∧ x < c
    · rw [if_pos hcond]
      obtain ⟨hyr, hxc⟩ := hcond
      obtain ⟨σ1, h1, h2, h3⟩ := bringPivot_fin (α := α) f hyr hxc
      replace h2 := h2 b
      have hmax' : ∀ k, y ≤ k → k < r → |f (σ1 k) x| ≤ |f (σ1 y) x| := fun k a b =>
        h3 (σ1 k) ((h1.mem k).mpr ⟨a, b⟩).1 ((h1.mem k).mpr ⟨a, b⟩).2
      obtain ⟨σ2, x', g1, g2, g3, g4, g5, g6⟩ := findPivot_fin (α := α) eps hyr (c + 1) x (fun i j => f (σ1 i) j) (fun i => b (σ1 i)) hxc (by omega) hmax'
      set σ := σ2.trans σ1 with hσ
      have hperm : RowPerm r y σ := h1.trans g1
      have g5' : ∀ i j, y ≤ i → i < r → x ≤ j → j < x' → |f i j| < eps := by
        intro i j a1 a2 a3 a4
        have hp := (h1.mem (σ1.symm i)).mp (by simpa using ⟨a1, a2⟩)
        have := g5 (σ1.symm i) j hp.1 hp.2 a3 a4
        simpa using this
      rw [h2, Res.bind_ok]
      simp only
      rw [g2, Res.bind_ok]
      simp only
      have ec' : (finMat α r c fun i j => f (σ1 (σ2 i)) j).cols = c := rfl
      rw [ec']
      by_cases hxc' : x' = c
      · rw [if_pos hxc']
        subst hxc'
        have hb : (finVec α r fun i => b (σ1 (σ2 i))).at_ y = .ok (fin (b (σ1 (σ2 y)))) := at_mk' _ hyr
        rw [hb, Res.bind_ok, Exact.abs, Exact.lt]
        refine ⟨_, _, _, _, _, Run.stop heps f hyr hperm g5', ?_⟩
        by_cases hbs : |b (σ y)| < eps
        · left
          refine ⟨y, ?_, .inr ⟨rfl, hyr, hbs⟩⟩
          have hbs' : |b (σ1 (σ2 y))| < eps := hbs
          simp only [hbs', decide_true, if_true, ne_eq, not_true_eq_false, if_false]
          congr 2
          apply List.map_congr_left
          intro i hi
          rw [if_neg (by omega)]
        · right
          have hbs' : ¬ |b (σ1 (σ2 y))| < eps := hbs
          simp only [hbs', decide_false]
          refine ⟨?_, hyr, not_lt.mp hbs⟩
          rw [if_neg Bool.false_ne_true, if_pos (Nat.ne_of_lt hyr)]
      · rw [if_neg hxc']
        have hx'c : x' < c := by omega
        have hpiv : f (σ y) x' ≠ 0 := by
          have := g6 hx'c
          intro h0
          have h0' : f (σ1 (σ2 y)) x' = 0 := h0
          rw [h0', abs_zero] at this
          exact absurd heps (not_lt.mpr this)
        rw [eliminate_fin eps (fun i j => f (σ1 (σ2 i)) j) (fun i => b (σ1 (σ2 i))) hyr hx'c hpiv, Res.bind_ok]
        simp only
        have htrn : (if x' > y then ((List.range c).map t).set y x' else (List.range c).map t)
            = (List.range c).map fun i => if i = y ∧ y < x' then x' else t i := by
          split
          · rename_i h
            rw [set_range_map]
            apply List.map_congr_left
            intro i _
            simp [h]
          · rename_i h
            apply List.map_congr_left
            intro i _
            rw [if_neg (by omega)]
        rw [htrn]
        obtain ⟨f', T, ρ, p, E, hrun, hout⟩ := ih (y + 1) (x' + 1) (elimF eps r (fun i j => f (σ i) j) y x')
          (elimB eps r (fun i j => f (σ i) j) y x' fun i => b (σ i)) (fun i => if i = y ∧ y < x' then x' else t i) (by omega) (by omega) (by omega) (by omega)
        obtain ⟨E', hrun', -⟩ := Run.step heps hyr hperm g3 hx'c g5' hpiv hrun
        have := hrun.y_le
        refine ⟨_, _, _, _, _, hrun', ?_⟩
        rcases hout with ⟨ra, ho1, ho2⟩ | ho
        · left
          refine ⟨ra, ho1.trans ?_, ho2⟩
          congr 2
          apply List.map_congr_left
          intro i _
          by_cases hi : i = y
          · subst hi
            rw [if_neg (by omega)]
            simp only [if_true, true_and, le_refl]
            split_ifs <;> first | rfl | (exfalso; omega)
          · rw [if_neg hi]
            split_ifs <;> first | rfl | (exfalso; omega)
        · right
          exact ho
    · rw [if_neg hcond]
      refine ⟨f, _, _, _, _, Run.done heps f hy (by omega), .inl ⟨r, ?_, .inl rfl⟩⟩
      congr 2
      apply List.map_congr_left
      intro i _
      rw [if_neg (by omega)]

end Tom
