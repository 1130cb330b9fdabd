import Verif.Lemmas.LinearExact
/-
The second half of `SolveLinear`: placing the rows, back substitution, and the outcome of the whole function.
-/
set_option linter.unusedSectionVars false
set_option linter.unusedSimpArgs false
namespace Tom
open Finset
variable {α K : Type} [Arith α] [Field K] [LinearOrder K] [IsStrictOrderedRing K] [Exact α K]

/-- the solution of a triangular system with unit diagonal -/
theorem exists_back (n : ℕ) (g : ℕ → ℕ → K) (β : ℕ → K) :
    ∃ w : ℕ → K, ∀ i, i < n → w i = β i - ∑ j ∈ Ico (i + 1) n, g i j * w j := by
  have key : ∀ k, k ≤ n → ∃ w : ℕ → K, ∀ i, n - k ≤ i → i < n → w i = β i - ∑ j ∈ Ico (i + 1) n, g i j * w j := by
    intro k
    induction k with
    | zero => intro _; exact ⟨fun _ => 0, fun i h1 h2 => by omega⟩
    | succ k ih =>
      intro hk
      obtain ⟨w, hw⟩ := ih (by omega)
      set i0 := n - (k + 1) with hi0
      refine ⟨Function.update w i0 (β i0 - ∑ j ∈ Ico (i0 + 1) n, g i0 j * w j), ?_⟩
      intro i h1 h2
      have hs : ∑ j ∈ Ico (i + 1) n, g i j * Function.update w i0 (β i0 - ∑ j ∈ Ico (i0 + 1) n, g i0 j * w j) j
          = ∑ j ∈ Ico (i + 1) n, g i j * w j := by
        apply sum_congr rfl
        intro j hj
        rw [mem_Ico] at hj
        rw [Function.update_of_ne (by omega)]
      rw [hs]
      by_cases h : i = i0
      · subst h; rw [Function.update_self]
      · rw [Function.update_of_ne h]
        exact hw i (by omega) h2
  obtain ⟨w, hw⟩ := key n le_rfl
  exact ⟨w, fun i hi => hw i (by omega) hi⟩

theorem backSubst_fin {n : ℕ} (g : ℕ → ℕ → K) (β z : ℕ → K) :
    ∃ w : ℕ → K, backSubst (finMat α n n g) (finVec α n β) (finVec α n z) = .ok (finVec α n w) ∧
      ∀ i, i < n → w i = β i - ∑ j ∈ Ico (i + 1) n, g i j * w j := by
  obtain ⟨w, hw⟩ := exists_back n g β
  refine ⟨w, ?_, hw⟩
  unfold backSubst
  have e : (finMat α n n g).rows = n := rfl
  rw [e]
  have hst := forRes_reverse (fun (ret : Mat α) i => do
      let r ← (finMat α n n g).row i (i + 1)
      let c ← ret.col 0 (i + 1)
      let v ← zipV Arith.mul r c
      let s ← (if v.length ≠ 0 then sumV v else .ok Arith.zero)
      let bi ← (finVec α n β).at_ i
      ret.setAt i (Arith.sub bi s)) n (fun k => finVec α n fun i => if k ≤ i then w i else z i) ?_
  · have s0 : finVec α n z = finVec α n fun i => if n ≤ i then w i else z i := by
      apply Mat.mk'_congr
      intro i j hi _
      simp only
      rw [if_neg (by omega)]
    rw [s0, hst]
    congr 1
  · intro k hk
    have hrow : (finMat α n n g).row k (k + 1) = .ok ((List.range (n - (k + 1))).map fun j => fin (g k (k + 1 + j))) := row_mk' _ hk
    have hcol : (finVec α n fun i => if k + 1 ≤ i then w i else z i).col 0 (k + 1)
        = .ok ((List.range (n - (k + 1))).map fun j => fin (w (k + 1 + j))) := by
      refine (col_mk' _ Nat.one_pos).trans ?_
      congr 1
      apply List.map_congr_left
      intro j _
      simp only
      rw [if_pos (by omega)]
    rw [hrow, Res.bind_ok, hcol, Res.bind_ok, zipV_range, Res.bind_ok]
    simp only [Exact.mul, List.length_map, List.length_range]
    have hsum : (if n - (k + 1) ≠ 0 then sumV ((List.range (n - (k + 1))).map fun j => (fin (g k (k + 1 + j) * w (k + 1 + j)) : α)) else .ok Arith.zero)
        = .ok (fin (∑ j ∈ Ico (k + 1) n, g k j * w j)) := by
      rw [sum_Ico_eq_sum_range, ← list_sum_range]
      split
      · rename_i h
        have : ((List.range (n - (k + 1))).map fun j => (fin (g k (k + 1 + j) * w (k + 1 + j)) : α))
            = ((List.range (n - (k + 1))).map fun j => g k (k + 1 + j) * w (k + 1 + j)).map fin := by
          rw [List.map_map]; rfl
        rw [this, sumV_fin]
        intro h0
        have := congrArg List.length h0
        simp at this
        omega
      · rename_i h
        have : n - (k + 1) = 0 := by omega
        rw [this, Exact.zero]; simp
    rw [hsum, Res.bind_ok]
    have hb : (finVec α n β).at_ k = .ok (fin (β k)) := at_mk' _ hk
    rw [hb, Res.bind_ok, Exact.sub, ← hw k hk]
    refine (setAt_mk' _ _ hk).trans ?_
    congr 1
    apply Mat.mk'_congr
    intro i j hi _
    by_cases h : i = k
    · subst h; simp
    · rw [if_neg h]
      simp only
      split_ifs <;> first | rfl | (exfalso; omega)

theorem forRes_reverse_inv {σ : Type} {f : σ → ℕ → Res σ} {P : ℕ → σ → Prop} : ∀ (n : ℕ) (s : σ), P n s →
    (∀ k, k < n → ∀ s, P (k + 1) s → ∃ s', f s k = .ok s' ∧ P k s') →
    ∃ s', forRes f (List.range n).reverse s = .ok s' ∧ P 0 s' := by
  intro n
  induction n with
  | zero => intro s h0 _; exact ⟨s, rfl, h0⟩
  | succ n ih =>
    intro s h0 step
    obtain ⟨s1, h1, h2⟩ := step n (by omega) s h0
    obtain ⟨s2, h3, h4⟩ := ih s1 h2 (fun k hk => step k (by omega))
    refine ⟨s2, ?_, h4⟩
    rw [List.range_succ, List.reverse_append]
    simp only [List.reverse_cons, List.reverse_nil, List.nil_append, List.singleton_append, forRes, h1, Res.bind_ok]
    exact h3

theorem placeRows_fin {c ρ : ℕ} (p : ℕ → ℕ) (hp : ∀ i, i < ρ → i ≤ p i) (hpc : ∀ i, i < ρ → p i < c)
    (hmono : ∀ i j, i < j → j < ρ → p i < p j) (g : ℕ → ℕ → K) (β : ℕ → K) :
    ∃ π : Equiv.Perm ℕ, (∀ i, i < ρ → π (p i) = i) ∧
      placeRows ((List.range c).map fun i => if 0 ≤ i ∧ i < ρ ∧ i < p i then p i else 0) (finMat α c c g) (finVec α c β)
        = .ok (finMat α c c fun i j => g (π i) j, finVec α c fun i => β (π i)) := by
  unfold placeRows
  have e : (finMat α c c g).rows = c := rfl
  rw [e]
  obtain ⟨s', h1, π, h2, h3, h4⟩ := forRes_reverse_inv (f := fun (s : Mat α × Mat α) i => do
      let t ← readAt ((List.range c).map fun i => if 0 ≤ i ∧ i < ρ ∧ i < p i then p i else 0) i
      if t ≠ 0 then do
        let A ← s.1.swapRow i t
        let b ← s.2.swapRow i t
        .ok (A, b)
      else .ok s)
    (P := fun k s => ∃ π : Equiv.Perm ℕ, (∀ i, i < k → π i = i) ∧ (∀ i, k ≤ i → i < ρ → π (p i) = i) ∧
      s = (finMat α c c fun i j => g (π i) j, finVec α c fun i => β (π i))) c (finMat α c c g, finVec α c β)
    ⟨Equiv.refl ℕ, fun _ _ => rfl, fun i h1 h2 => by have := hp i h2; have := hpc i h2; omega, rfl⟩ (by
      rintro k hk s ⟨π, h1, h2, rfl⟩
      have hread : readAt ((List.range c).map fun i => if 0 ≤ i ∧ i < ρ ∧ i < p i then p i else 0) k
          = .ok (if 0 ≤ k ∧ k < ρ ∧ k < p k then p k else 0) := by
        unfold readAt
        rw [List.getElem?_map, List.getElem?_range hk]
        rfl
      simp only
      rw [hread, Res.bind_ok]
      by_cases hc : 0 ≤ k ∧ k < ρ ∧ k < p k
      · rw [if_pos hc, if_pos (by omega), swapRow_fin _ hk (hpc k hc.2.1), Res.bind_ok, swapRow_fin _ hk (hpc k hc.2.1), Res.bind_ok]
        refine ⟨_, rfl, (Equiv.swap k (p k)).trans π, ?_, ?_, ?_⟩
        · intro i hi
          rw [Equiv.trans_apply, Equiv.swap_apply_of_ne_of_ne (by omega) (by omega)]
          exact h1 i (by omega)
        · intro i hi hiρ
          rw [Equiv.trans_apply]
          by_cases hik : i = k
          · subst hik
            rw [Equiv.swap_apply_right]
            exact h1 i (by omega)
          · have := hmono k i (by omega) hiρ
            rw [Equiv.swap_apply_of_ne_of_ne (by omega) (by omega)]
            exact h2 i (by omega) hiρ
        · simp only [swapIx_swap, Equiv.trans_apply]
      · rw [if_neg hc, if_neg (by omega)]
        refine ⟨_, rfl, π, fun i hi => h1 i (by omega), ?_, rfl⟩
        intro i hi hiρ
        by_cases hik : i = k
        · subst hik
          have := hp i hiρ
          have : p i = i := by omega
          rw [this]
          exact h1 i (by omega)
        · exact h2 i (by omega) hiρ)
  subst h4
  exact ⟨π, fun i hi => h3 i (Nat.zero_le _) hi, h1⟩

/-- what the elimination loop has returned -/
def LoopOut (α : Type) {K : Type} [Arith α] [Field K] [LinearOrder K] [Exact α K] (eps : K) (r c : ℕ) (f : ℕ → ℕ → K) (b : ℕ → K)
    (f' : ℕ → ℕ → K) (T : (ℕ → K) → ℕ → K) (ρ : ℕ) (p : ℕ → ℕ) : Prop :=
  (∃ ra, elimLoop (fin eps) (r + 1) ⟨finMat α r c f, finVec α r b, (List.range c).map fun _ => 0, r, r⟩ 0 0
      = .ok ⟨finMat α r c f', finVec α r (T b), (List.range c).map fun i => if 0 ≤ i ∧ i < ρ ∧ i < p i then p i else 0, ra, ra⟩ ∧
      ((ra = r) ∨ (ra = ρ ∧ ρ < r ∧ |T b ρ| < eps))) ∨
    (elimLoop (fin eps) (r + 1) ⟨finMat α r c f, finVec α r b, (List.range c).map fun _ => 0, r, r⟩ 0 0 = .throw (.math .singularMatrix) ∧
      ρ < r ∧ eps ≤ |T b ρ|)

theorem loopOut {eps : K} (heps : 0 < eps) (r c : ℕ) (f : ℕ → ℕ → K) (b : ℕ → K) :
    ∃ f' T ρ p E, Run eps r c 0 0 f f' T ρ p E ∧ LoopOut α eps r c f b f' T ρ p :=
  elimLoop_fin (α := α) heps (r + 1) 0 0 f b (fun _ => 0) (by omega) (by omega) (by omega) le_rfl

theorem loopOut_exact (α : Type) {K : Type} [Arith α] [Field K] [LinearOrder K] [IsStrictOrderedRing K] [Exact α K] (r c : ℕ) (f : ℕ → ℕ → K) :
    ∃ e : K, 0 < e ∧ ∀ eps, 0 < eps → eps ≤ e → ∃ f' T ρ p, Run eps r c 0 0 f f' T ρ p (fun _ _ => 0) ∧
      ∀ b, LoopOut α eps r c f b f' T ρ p := by
  obtain ⟨e, h1, h2⟩ := elimLoop_exact (α := α) (r := r) (c := c) (r + 1) 0 0 f (by omega) (by omega) (by omega) le_rfl
  refine ⟨e, h1, fun eps h3 h4 => ?_⟩
  obtain ⟨f', T, ρ, p, h5, h6⟩ := h2 eps h3 h4
  exact ⟨f', T, ρ, p, h5, fun b => h6 b _⟩

/-- The outcome of `SolveLinear` on an exact square system. -/
theorem solveLinear_square (cfg : Config α) {eps : K} (he : cfg.epsilon = fin eps) {n : ℕ} (hn : 0 < n)
    {f : ℕ → ℕ → K} {b : ℕ → K} {f' T ρ p E} (_hrun : Run eps n n 0 0 f f' T ρ p E) (hout : LoopOut α eps n n f b f' T ρ p) :
      ((∃ w, solveLinear cfg (finMat α n n f) (finVec α n b) = .ok (finVec α n w) ∧
          ∀ i, i < n → w i = T b i - ∑ j ∈ Ico (i + 1) n, f' i j * w j) ∨
        (solveLinear cfg (finMat α n n f) (finVec α n b) = .throw (.math .infinitySolutions) ∧ ρ < n) ∨
        (solveLinear cfg (finMat α n n f) (finVec α n b) = .throw (.math .singularMatrix) ∧ ρ < n ∧ eps ≤ |T b ρ|)) := by
  have hsol : solveLinear cfg (finMat α n n f) (finVec α n b) = (do
      let s ← elimLoop (fin eps) (n + 1) ⟨finMat α n n f, finVec α n b, (List.range n).map fun _ => 0, n, n⟩ 0 0
      let ret ← backSubst s.A s.b (finVec α n fun _ => 0)
      if s.rankA < n ∧ s.rankA = s.rankAb then .throw (.math .infinitySolutions) else .ok ret) := by
    unfold solveLinear
    have e1 : (finMat α n n f).rows = n := rfl
    have e2 : (finMat α n n f).cols = n := rfl
    have e3 : (finVec α n b).rows = n := rfl
    have hnew : Mat.new n 1 (Arith.zero : α) = .ok (finVec α n fun _ => 0) := by
      rw [new_mk' hn Nat.one_pos, Exact.zero]; rfl
    have hrep : List.replicate n 0 = (List.range n).map fun _ => 0 := by
      apply List.ext_getElem <;> simp
    rw [e1, e2, e3, if_neg (by simp), hnew, Res.bind_ok, if_neg (by omega), if_neg (by simp), Res.bind_ok, he, hrep]
    simp
  rw [hsol]
  rcases hout with ⟨ra, h1, h2⟩ | ⟨h1, h2, h3⟩
  · rw [h1, Res.bind_ok]
    simp only
    obtain ⟨w, hw1, hw2⟩ := backSubst_fin (α := α) (n := n) f' (T b) (fun _ => 0)
    rw [hw1, Res.bind_ok]
    rcases h2 with h2 | ⟨h2, h3, _⟩
    · left
      refine ⟨w, ?_, hw2⟩
      rw [if_neg (by omega)]
    · right; left
      rw [if_pos ⟨by omega, trivial⟩]
      exact ⟨rfl, h3⟩
  · right; right
    rw [h1]
    exact ⟨rfl, h2, h3⟩

/-- The outcome of `SolveLinear` on an exact system with more unknowns than equations. -/
theorem solveLinear_wide (cfg : Config α) {eps : K} (he : cfg.epsilon = fin eps) {r c : ℕ} (hr : 0 < r) (hrc : r < c)
    {f : ℕ → ℕ → K} {b : ℕ → K} {f' T ρ p E} (hrun : Run eps r c 0 0 f f' T ρ p E) (hout : LoopOut α eps r c f b f' T ρ p) :
      ((cfg.allowIndeterminateEquation = true ∧ ∃ w, solveLinear cfg (finMat α r c f) (finVec α r b) = .ok (finVec α c w) ∧
          ∀ i, i < ρ → w (p i) + ∑ j ∈ Ico (p i + 1) c, f' i j * w j = T b i) ∨
        (cfg.allowIndeterminateEquation = false ∧ solveLinear cfg (finMat α r c f) (finVec α r b) = .throw (.math .indeterminateEquation)) ∨
        (solveLinear cfg (finMat α r c f) (finVec α r b) = .throw (.math .singularMatrix) ∧ ρ < r ∧ eps ≤ |T b ρ|)) := by
  have hsol : solveLinear cfg (finMat α r c f) (finVec α r b) = (do
      let s ← elimLoop (fin eps) (r + 1) ⟨finMat α r c f, finVec α r b, (List.range c).map fun _ => 0, r, r⟩ 0 0
      let A' ← s.A.resize c c
      let b' ← s.b.resize c 1
      let (A', b') ← placeRows s.trn A' b'
      let ret ← backSubst A' b' (finVec α c fun _ => 0)
      if s.rankA < c ∧ s.rankA = s.rankAb then
        if cfg.allowIndeterminateEquation then .ok ret else .throw (.math .indeterminateEquation)
      else .ok ret) := by
    unfold solveLinear
    have e1 : (finMat α r c f).rows = r := rfl
    have e2 : (finMat α r c f).cols = c := rfl
    have e3 : (finVec α r b).rows = r := rfl
    have hnew : Mat.new r 1 (Arith.zero : α) = .ok (finVec α r fun _ => 0) := by
      rw [new_mk' hr Nat.one_pos, Exact.zero]; rfl
    have hresize : (finVec α r fun _ => 0).resize c 1 = .ok (finVec α c fun _ => 0) := by
      refine (resize_mk' _ (by omega) Nat.one_pos).trans ?_
      congr 1
      apply Mat.mk'_congr
      intro i j _ _
      split
      · rfl
      · exact Exact.zero
    have hrep : List.replicate c 0 = (List.range c).map fun _ => 0 := by
      apply List.ext_getElem <;> simp
    have hne : c ≠ r := by omega
    rw [e1, e2, e3, if_neg (by simp), hnew, Res.bind_ok, if_neg (by omega), if_pos hne, hresize, Res.bind_ok, he, hrep]
    simp only [hne.symm, ne_eq, not_false_eq_true, if_true]
  rw [hsol]
  rcases hout with ⟨ra, h1, h2⟩ | ⟨h1, h2, h3⟩
  · rw [h1, Res.bind_ok]
    simp only
    have hA : (finMat α r c f').resize c c = .ok (finMat α c c fun i j => if i < r then f' i j else 0) := by
      refine (resize_mk' _ (by omega) (by omega)).trans ?_
      congr 1
      apply Mat.mk'_congr
      intro i j hi hj
      by_cases h : i < r
      · simp [h, hj]
      · simp [h, Exact.zero]
    have hb : (finVec α r (T b)).resize c 1 = .ok (finVec α c fun i => if i < r then T b i else 0) := by
      refine (resize_mk' _ (by omega) Nat.one_pos).trans ?_
      congr 1
      apply Mat.mk'_congr
      intro i j hi hj
      by_cases h : i < r
      · simp [h, hj]
      · simp [h, Exact.zero]
    have hp1 : ∀ i, i < ρ → i ≤ p i := fun i hi => by have := hrun.p_ge i (Nat.zero_le _) hi; omega
    obtain ⟨π, hπ, hplace⟩ := placeRows_fin (α := α) p hp1 (fun i hi => hrun.p_lt i (Nat.zero_le _) hi)
      (fun i j h1 h2 => hrun.p_mono i j (Nat.zero_le _) h1 h2) (fun i j => if i < r then f' i j else 0) (fun i => if i < r then T b i else 0)
    rw [hA, Res.bind_ok, hb, Res.bind_ok, hplace, Res.bind_ok]
    simp only
    obtain ⟨w, hw1, hw2⟩ := backSubst_fin (α := α) (n := c) (fun i j => if π i < r then f' (π i) j else 0)
      (fun i => if π i < r then T b (π i) else 0) (fun _ => 0)
    rw [hw1, Res.bind_ok]
    have hle := hrun.le_r
    rw [if_pos ⟨by omega, trivial⟩]
    cases hallow : cfg.allowIndeterminateEquation
    · right; left
      exact ⟨rfl, by simp⟩
    · left
      refine ⟨rfl, w, by simp, ?_⟩
      intro i hi
      have hpi := hrun.p_lt i (Nat.zero_le _) hi
      have := hw2 (p i) hpi
      rw [hπ i hi, if_pos (by omega)] at this
      rw [this]
      have hs : ∑ j ∈ Ico (p i + 1) c, (if i < r then f' i j else 0) * w j = ∑ j ∈ Ico (p i + 1) c, f' i j * w j := by
        apply sum_congr rfl
        intro j _
        rw [if_pos (by omega)]
      rw [hs]
      ring
  · right; right
    rw [h1]
    exact ⟨rfl, h2, h3⟩

end Tom
