import Verif.Lemmas.LinearSolve
import Verif.Spec.Linear
import Mathlib.Tactic.Linarith
import Mathlib.Tactic.NormNum
import Mathlib.LinearAlgebra.Matrix.Notation
import Mathlib.LinearAlgebra.Matrix.NonsingularInverse
/-
C36-C38: `SolveLinear`.  The function treats coefficients below `epsilon` as zero, so its results are about a system whose
coefficients differ from the given ones by less than `epsilon` (`Near`).  All sizes, all exact coefficients.
-/
set_option linter.unusedSectionVars false
namespace Tom
open Finset
variable {α K : Type} [Arith α] [Field K] [LinearOrder K] [IsStrictOrderedRing K] [Exact α K]

/-- the matrix `A` without the ignored coefficients -/
def without {r c : ℕ} (A : Matrix (Fin r) (Fin c) K) (E : ℕ → ℕ → K) : Matrix (Fin r) (Fin c) K :=
  Matrix.of fun i j => A i j - E i j

theorem near_without {r c : ℕ} {eps : K} (A : Matrix (Fin r) (Fin c) K) {E : ℕ → ℕ → K} (h : ∀ i j, |E i j| < eps) :
    Near eps A (without A E) := by
  intro i j
  simp only [without, Matrix.of_apply, sub_sub_cancel]
  exact h i j

theorem sys_iff {r c : ℕ} (A : Matrix (Fin r) (Fin c) K) (E : ℕ → ℕ → K) (v β : ℕ → K) :
    ((without A E).mulVec (fun j => v j) = fun i : Fin r => β i) ↔
      ∀ i, 0 ≤ i → i < r → ∑ j ∈ Ico 0 c, (ext A i j - E i j) * v j = β i := by
  have key : ∀ i : Fin r, (without A E).mulVec (fun j => v j) i = ∑ j ∈ Ico 0 c, (ext A i j - E i j) * v j := by
    intro i
    simp only [Matrix.mulVec, dotProduct, without, Matrix.of_apply]
    rw [Nat.Ico_zero_eq_range, ← Fin.sum_univ_eq_sum_range (fun j => (ext A i j - E i j) * v j) c]
    apply sum_congr rfl
    intro j _
    have : ext A i j = A i j := by simp [ext]
    rw [this]
  constructor
  · intro h i _ hi
    have := congrFun h ⟨i, hi⟩
    rw [key] at this
    exact this
  · intro h
    funext i
    rw [key]
    exact h i (Nat.zero_le _) i.2

theorem extend_fun {c : ℕ} (v : Fin c → K) : ∃ v' : ℕ → K, (fun j : Fin c => v' j) = v :=
  ⟨fun j => if h : j < c then v ⟨j, h⟩ else 0, by funext j; simp⟩

/-- a run with a row left over has ignored so much that some right-hand side cannot be met -/
theorem Run.unsolvable {eps : K} {r c : ℕ} {A : Matrix (Fin r) (Fin c) K} {f' : ℕ → ℕ → K} {T : (ℕ → K) → ℕ → K} {ρ : ℕ} {p : ℕ → ℕ}
    {E : ℕ → ℕ → K} (h : Run eps r c 0 0 (ext A) f' T ρ p E) {β : ℕ → K} (hρ : ρ < r) (hβ : T β ρ ≠ 0) :
    ¬ Solvable (without A E) (fun i => β i) := by
  rintro ⟨v, hv⟩
  obtain ⟨v', rfl⟩ := extend_fun v
  exact hβ (((h.equiv β v').mp ((sys_iff A E v' β).mp hv)).2 ρ le_rfl hρ)

theorem Run.det_zero {eps : K} {n : ℕ} {A : Matrix (Fin n) (Fin n) K} {f' : ℕ → ℕ → K} {T : (ℕ → K) → ℕ → K} {ρ : ℕ} {p : ℕ → ℕ}
    {E : ℕ → ℕ → K} (h : Run eps n n 0 0 (ext A) f' T ρ p E) (hρ : ρ < n) : (without A E).det = 0 := by
  by_contra hd
  obtain ⟨β, hβ⟩ := h.surj fun _ => 1
  apply h.unsolvable hρ (β := β) (by rw [hβ ρ hρ]; exact one_ne_zero)
  refine ⟨(without A E)⁻¹.mulVec fun i => β i, ?_⟩
  rw [Matrix.mulVec_mulVec, Matrix.mul_nonsing_inv _ (isUnit_iff_ne_zero.mpr hd), Matrix.one_mulVec]

theorem Run.square_pivots {eps : K} {n : ℕ} {f f' : ℕ → ℕ → K} {T : (ℕ → K) → ℕ → K} {p : ℕ → ℕ}
    {E : ℕ → ℕ → K} (h : Run eps n n 0 0 f f' T n p E) : ∀ i, i < n → p i = i := by
  have key : ∀ k i, i + k = n - 1 → i < n → p i ≤ i := by
    intro k
    induction k with
    | zero =>
      intro i h1 h2
      have := h.p_lt i (Nat.zero_le _) h2
      omega
    | succ k ih =>
      intro i h1 h2
      have := ih (i + 1) (by omega) (by omega)
      have := h.p_mono i (i + 1) (Nat.zero_le _) (by omega) (by omega)
      omega
  intro i hi
  have := h.p_ge i (Nat.zero_le _) hi
  have := key (n - 1 - i) i (by omega) hi
  omega

/-- the three outcomes on a square system -/
theorem square_of (cfg : Config α) {eps : K} (heps : 0 < eps) (he : cfg.epsilon = fin eps) {n : ℕ} (hn : 0 < n)
    (A : Matrix (Fin n) (Fin n) K) (b' : ℕ → K) {f' T ρ p E} (hrun : Run eps n n 0 0 (ext A) f' T ρ p E)
    (hl : LoopOut α eps n n (ext A) b' f' T ρ p) :
      ((∃ x, solveLinear cfg (ofMatrix A) (finVec α n b') = .ok (ofVec x) ∧
          ((without A E).mulVec x = (fun i : Fin n => b' i) ∨ (without A E).det = 0)) ∨
        (solveLinear cfg (ofMatrix A) (finVec α n b') = .throw (.math .infinitySolutions) ∧ (without A E).det = 0) ∨
        (solveLinear cfg (ofMatrix A) (finVec α n b') = .throw (.math .singularMatrix) ∧ (without A E).det = 0 ∧
          ¬ Solvable (without A E) (fun i : Fin n => b' i))) := by
  rw [ofMatrix_eq]
  rcases solveLinear_square cfg he hn hrun hl with ⟨w, h1, h2⟩ | ⟨h1, h2⟩ | ⟨h1, h2, h3⟩
  · left
    refine ⟨fun i => w i, h1.trans ?_, ?_⟩
    · exact congrArg _ (finMat_vec fun i _ => w i)
    · by_cases hρ : ρ < n
      · right; exact hrun.det_zero hρ
      · left
        have hle := hrun.le_r
        have : ρ = n := by omega
        subst this
        rw [sys_iff]
        refine (hrun.equiv b' w).mpr ⟨fun i _ hi => ?_, fun i h1 h2 => by omega⟩
        rw [hrun.square_pivots i hi]
        have := h2 i hi
        linear_combination this
  · right; left
    exact ⟨h1, hrun.det_zero h2⟩
  · right; right
    refine ⟨h1, hrun.det_zero h2, hrun.unsolvable h2 ?_⟩
    intro h0
    rw [h0, abs_zero] at h3
    exact absurd heps (not_lt.mpr h3)

theorem square_outcome (cfg : Config α) {eps : K} (heps : 0 < eps) (he : cfg.epsilon = fin eps) {n : ℕ} (hn : 0 < n)
    (A : Matrix (Fin n) (Fin n) K) (b : Fin n → K) : ∃ B, Near eps A B ∧
      ((∃ x, solveLinear cfg (ofMatrix A) (ofVec b) = .ok (ofVec x) ∧ (B.mulVec x = b ∨ B.det = 0)) ∨
        (solveLinear cfg (ofMatrix A) (ofVec b) = .throw (.math .infinitySolutions) ∧ B.det = 0) ∨
        (solveLinear cfg (ofMatrix A) (ofVec b) = .throw (.math .singularMatrix) ∧ B.det = 0 ∧ ¬ Solvable B b)) := by
  obtain ⟨b', rfl⟩ := extend_fun b
  have hb : (ofVec (fun i : Fin n => b' i) : Mat α) = finVec α n b' := (finMat_vec fun i _ => b' i).symm
  rw [hb]
  obtain ⟨f', T, ρ, p, E, hrun, hl⟩ := loopOut (α := α) heps n n (ext A) b'
  exact ⟨without A E, near_without A hrun.small, square_of cfg heps he hn A b' hrun hl⟩

theorem without_zero {r c : ℕ} (A : Matrix (Fin r) (Fin c) K) : without A (fun _ _ => 0) = A := by
  ext i j; simp [without]

/-- C36, what holds: whatever `SolveLinear` returns for a square system `A x = b` is the solution of a system `B x = b` whose
coefficients differ from those of `A` by less than `epsilon`, or such a `B` is singular.  Missing from C36: the second case
(`C36_false`). -/
theorem C36_partial (cfg : Config α) {eps : K} (heps : 0 < eps) (he : cfg.epsilon = fin eps) {n : ℕ} (hn : 0 < n)
    (A : Matrix (Fin n) (Fin n) K) (b : Fin n → K) {X : Mat α} (h : solveLinear cfg (ofMatrix A) (ofVec b) = .ok X) :
    ∃ x B, X = ofVec x ∧ Near eps A B ∧ (B.mulVec x = b ∨ B.det = 0) := by
  obtain ⟨B, hB, ⟨x, h1, h2⟩ | ⟨h1, _⟩ | ⟨h1, _⟩⟩ := square_outcome cfg heps he hn A b
  · rw [h1] at h
    cases h
    exact ⟨x, B, rfl, hB, h2⟩
  · rw [h1] at h; cases h
  · rw [h1] at h; cases h

/-- C36 for matrices that are not within `epsilon` of a singular one: `SolveLinear` always returns, and what it returns solves
`A x = b` up to `epsilon` times the size of `x`. -/
theorem C36_nonsingular (cfg : Config α) {eps : K} (heps : 0 < eps) (he : cfg.epsilon = fin eps) {n : ℕ} (hn : 0 < n)
    (A : Matrix (Fin n) (Fin n) K) (b : Fin n → K) (hA : ∀ B, Near eps A B → B.det ≠ 0) :
    ∃ x, solveLinear cfg (ofMatrix A) (ofVec b) = .ok (ofVec x) ∧ (∃ B, Near eps A B ∧ B.mulVec x = b) ∧
      ∀ i, |A.mulVec x i - b i| ≤ eps * ∑ j, |x j| := by
  obtain ⟨B, hB, ⟨x, h1, h2⟩ | ⟨h1, h2⟩ | ⟨h1, h2, _⟩⟩ := square_outcome cfg heps he hn A b
  · have h3 : B.mulVec x = b := h2.resolve_right (hA B hB)
    refine ⟨x, h1, ⟨B, hB, h3⟩, ?_⟩
    intro i
    rw [← h3]
    simp only [Matrix.mulVec, dotProduct]
    rw [← sum_sub_distrib, mul_sum]
    refine (abs_sum_le_sum_abs _ _).trans (sum_le_sum fun j _ => ?_)
    rw [← sub_mul, abs_mul]
    exact mul_le_mul_of_nonneg_right (hB i j).le (abs_nonneg _)
  · exact absurd h2 (hA B hB)
  · exact absurd h2 (hA B hB)

/-- C36 and C38 for a small `epsilon`: for every square `A` there is a bound such that for every `epsilon` below it and every `b`
`SolveLinear` returns the exact solution if `A` is invertible, throws INFINITY_SOLUTIONS only if `A` is singular and
SINGULAR_MATRIX only if `A x = b` has no solution. -/
theorem C36_C38_exact {n : ℕ} (hn : 0 < n) (A : Matrix (Fin n) (Fin n) K) :
    ∃ e : K, 0 < e ∧ ∀ (cfg : Config α) (eps : K) (b : Fin n → K), 0 < eps → eps ≤ e → cfg.epsilon = fin eps →
      (A.det ≠ 0 → ∃ x : Fin n → K, solveLinear cfg (ofMatrix A) (ofVec b) = .ok (ofVec x) ∧ A.mulVec x = b) ∧
      (solveLinear cfg (ofMatrix A) (ofVec b) = .throw (.math .infinitySolutions) → A.det = 0) ∧
      (solveLinear cfg (ofMatrix A) (ofVec b) = .throw (.math .singularMatrix) → A.det = 0 ∧ ¬ Solvable A b) := by
  obtain ⟨e, he0, h⟩ := loopOut_exact α n n (ext A)
  refine ⟨e, he0, fun cfg eps b k1 k2 he => ?_⟩
  obtain ⟨b', rfl⟩ := extend_fun b
  have hb : (ofVec (fun i : Fin n => b' i) : Mat α) = finVec α n b' := (finMat_vec fun i _ => b' i).symm
  rw [hb]
  obtain ⟨f', T, ρ, p, hrun, hl⟩ := h eps k1 k2
  have := square_of cfg k1 he hn A b' hrun (hl b')
  rw [without_zero] at this
  rcases this with ⟨x, h1, h2⟩ | ⟨h1, h2⟩ | ⟨h1, h2, h3⟩
  · exact ⟨fun hd => ⟨x, h1, h2.resolve_right hd⟩, fun h => absurd (h1.symm.trans h) (by simp), fun h => absurd (h1.symm.trans h) (by simp)⟩
  · exact ⟨fun hd => absurd h2 hd, fun _ => h2, fun h => absurd (h1.symm.trans h) (by simp)⟩
  · exact ⟨fun hd => absurd h2 hd, fun _ => h2, fun _ => ⟨h2, h3⟩⟩

/-- C61: an invertible system is solved: for every invertible `A`, for all sufficiently small `epsilon` and every `b`, `SolveLinear`
returns the one and only solution. -/
theorem C61 {n : ℕ} (hn : 0 < n) (A : Matrix (Fin n) (Fin n) K) (hA : A.det ≠ 0) :
    ∃ e : K, 0 < e ∧ ∀ (cfg : Config α) (eps : K) (b : Fin n → K), 0 < eps → eps ≤ e → cfg.epsilon = fin eps →
      ∃ x : Fin n → K, solveLinear cfg (ofMatrix A) (ofVec b) = .ok (ofVec x) ∧ A.mulVec x = b ∧ ∀ y, A.mulVec y = b → y = x := by
  obtain ⟨e, h1, h2⟩ := C36_C38_exact (α := α) hn A
  refine ⟨e, h1, fun cfg eps b k1 k2 k3 => ?_⟩
  obtain ⟨x, h3, h4⟩ := (h2 cfg eps b k1 k2 k3).1 hA
  refine ⟨x, h3, h4, fun y hy => ?_⟩
  have hu : IsUnit A.det := isUnit_iff_ne_zero.mpr hA
  have : ∀ z : Fin n → K, A⁻¹.mulVec (A.mulVec z) = z := fun z => by
    rw [Matrix.mulVec_mulVec, Matrix.nonsing_inv_mul _ hu, Matrix.one_mulVec]
  rw [← this y, hy, ← h4, this]

/-- C37: more equations than unknowns, for any arithmetic. -/
theorem C37_tall {β : Type} [Arith β] (cfg : Config β) {r c : ℕ} (hrc : c < r) (A : Matrix (Fin r) (Fin c) β) (b : Matrix (Fin r) (Fin 1) β) :
    solveLinear cfg (ofEntries A) (ofEntries b) = .throw (.math .overDeterminedEquations) := by
  unfold solveLinear
  have e1 : (ofEntries A).rows = r := rfl
  have e2 : (ofEntries A).cols = c := rfl
  have e3 : (ofEntries b).rows = r := rfl
  rw [e1, e2, e3, if_neg (by simp), new_mk' (by omega) Nat.one_pos, Res.bind_ok, if_pos hrc]

theorem wide_of (cfg : Config α) {eps : K} (heps : 0 < eps) (he : cfg.epsilon = fin eps) {r c : ℕ} (hr : 0 < r) (hrc : r < c)
    (A : Matrix (Fin r) (Fin c) K) (b' : ℕ → K) {f' T ρ p E} (hrun : Run eps r c 0 0 (ext A) f' T ρ p E)
    (hl : LoopOut α eps r c (ext A) b' f' T ρ p) :
    (cfg.allowIndeterminateEquation = false →
      solveLinear cfg (ofMatrix A) (finVec α r b') = .throw (.math .indeterminateEquation) ∨
      solveLinear cfg (ofMatrix A) (finVec α r b') = .throw (.math .singularMatrix)) ∧
    (solveLinear cfg (ofMatrix A) (finVec α r b') = .throw (.math .singularMatrix) → ¬ Solvable (without A E) (fun i : Fin r => b' i)) ∧
    (cfg.allowIndeterminateEquation = true → solveLinear cfg (ofMatrix A) (finVec α r b') ≠ .throw (.math .singularMatrix) →
      ∃ (x : Fin c → K), solveLinear cfg (ofMatrix A) (finVec α r b') = .ok (ofVec x) ∧
        (Solvable (without A E) (fun i : Fin r => b' i) → (without A E).mulVec x = fun i : Fin r => b' i)) := by
  rw [ofMatrix_eq]
  rcases solveLinear_wide cfg he hr hrc hrun hl with ⟨h0, w, h1, h2⟩ | ⟨h0, h1⟩ | ⟨h1, h2, h3⟩
  · refine ⟨fun h => absurd (h0.symm.trans h) (by simp), fun h => absurd (h1.symm.trans h) (by simp), fun _ _ => ?_⟩
    refine ⟨fun j => w j, h1.trans (congrArg _ (finMat_vec fun i _ => w i)), ?_⟩
    rintro ⟨v, hv⟩
    obtain ⟨v', rfl⟩ := extend_fun v
    have hz := ((hrun.equiv b' v').mp ((sys_iff A E v' b').mp hv)).2
    rw [sys_iff]
    exact (hrun.equiv b' w).mpr ⟨fun i _ hi => h2 i hi, hz⟩
  · refine ⟨fun _ => .inl h1, fun h => absurd (h1.symm.trans h) (by simp), fun h => absurd (h0.symm.trans h) (by simp)⟩
  · refine ⟨fun _ => .inr h1, fun _ => hrun.unsolvable h2 ?_, fun _ h => absurd h1 h⟩
    intro h0
    rw [h0, abs_zero] at h3
    exact absurd heps (not_lt.mpr h3)

/-- C37, fewer equations than unknowns, what holds: without `allowIndeterminateEquation` it throws; with it, it throws
SINGULAR_MATRIX or returns a vector of the right dimension which solves a system within `epsilon` of the given one if
that system can be solved at all.  Missing: see `C37_false`. -/
theorem C37_wide_partial (cfg : Config α) {eps : K} (heps : 0 < eps) (he : cfg.epsilon = fin eps) {r c : ℕ} (hr : 0 < r) (hrc : r < c)
    (A : Matrix (Fin r) (Fin c) K) (b : Fin r → K) :
    (cfg.allowIndeterminateEquation = false →
      solveLinear cfg (ofMatrix A) (ofVec b) = .throw (.math .indeterminateEquation) ∨
      solveLinear cfg (ofMatrix A) (ofVec b) = .throw (.math .singularMatrix)) ∧
    (solveLinear cfg (ofMatrix A) (ofVec b) = .throw (.math .singularMatrix) → ∃ B, Near eps A B ∧ ¬ Solvable B b) ∧
    (cfg.allowIndeterminateEquation = true → solveLinear cfg (ofMatrix A) (ofVec b) ≠ .throw (.math .singularMatrix) →
      ∃ (x : Fin c → K) (B : _), solveLinear cfg (ofMatrix A) (ofVec b) = .ok (ofVec x) ∧ Near eps A B ∧ (Solvable B b → B.mulVec x = b)) := by
  obtain ⟨b', rfl⟩ := extend_fun b
  have hb : (ofVec (fun i : Fin r => b' i) : Mat α) = finVec α r b' := (finMat_vec fun i _ => b' i).symm
  rw [hb]
  obtain ⟨f', T, ρ, p, E, hrun, hl⟩ := loopOut (α := α) heps r c (ext A) b'
  obtain ⟨h1, h2, h3⟩ := wide_of cfg heps he hr hrc A b' hrun hl
  refine ⟨h1, fun h => ⟨_, near_without A hrun.small, h2 h⟩, fun k1 k2 => ?_⟩
  obtain ⟨x, h4, h5⟩ := h3 k1 k2
  exact ⟨x, _, h4, near_without A hrun.small, h5⟩

/-- C37 for a small `epsilon`: for every wide `A` there is a bound such that for every `epsilon` below it and every `b` the outcome is:
SINGULAR_MATRIX, and `A x = b` has no solution; or INDETERMINATE_EQUATION, without `allowIndeterminateEquation`; or, with it, a
vector that solves `A x = b` exactly if that has a solution. -/
theorem C37_wide_exact {r c : ℕ} (hr : 0 < r) (hrc : r < c) (A : Matrix (Fin r) (Fin c) K) :
    ∃ e : K, 0 < e ∧ ∀ (cfg : Config α) (eps : K) (b : Fin r → K), 0 < eps → eps ≤ e → cfg.epsilon = fin eps →
      (solveLinear cfg (ofMatrix A) (ofVec b) = .throw (.math .singularMatrix) ∧ ¬ Solvable A b) ∨
      (cfg.allowIndeterminateEquation = false ∧ solveLinear cfg (ofMatrix A) (ofVec b) = .throw (.math .indeterminateEquation)) ∨
      (cfg.allowIndeterminateEquation = true ∧ ∃ (x : Fin c → K), solveLinear cfg (ofMatrix A) (ofVec b) = .ok (ofVec x) ∧
        (Solvable A b → A.mulVec x = b)) := by
  obtain ⟨e, he0, h⟩ := loopOut_exact α r c (ext A)
  refine ⟨e, he0, fun cfg eps b k1 k2 he => ?_⟩
  obtain ⟨b', rfl⟩ := extend_fun b
  have hb : (ofVec (fun i : Fin r => b' i) : Mat α) = finVec α r b' := (finMat_vec fun i _ => b' i).symm
  rw [hb]
  obtain ⟨f', T, ρ, p, hrun, hl⟩ := h eps k1 k2
  obtain ⟨h1, h2, h3⟩ := wide_of cfg k1 he hr hrc A b' hrun (hl b')
  rw [without_zero] at h2 h3
  by_cases hs : solveLinear cfg (ofMatrix A) (finVec α r b') = .throw (.math .singularMatrix)
  · exact .inl ⟨hs, h2 hs⟩
  · cases ha : cfg.allowIndeterminateEquation
    · exact .inr (.inl ⟨rfl, (h1 ha).resolve_right hs⟩)
    · exact .inr (.inr ⟨rfl, h3 ha hs⟩)

/-- C37 for wide systems whose rows stay independent when the coefficients change by less than `epsilon`: without
`allowIndeterminateEquation` INDETERMINATE_EQUATION is thrown; with it a solution (up to `epsilon`) is returned. -/
theorem C37_wide (cfg : Config α) {eps : K} (heps : 0 < eps) (he : cfg.epsilon = fin eps) {r c : ℕ} (hr : 0 < r) (hrc : r < c)
    (A : Matrix (Fin r) (Fin c) K) (b : Fin r → K) (hA : ∀ B, Near eps A B → Solvable B b) :
    (cfg.allowIndeterminateEquation = false → solveLinear cfg (ofMatrix A) (ofVec b) = .throw (.math .indeterminateEquation)) ∧
    (cfg.allowIndeterminateEquation = true → ∃ (x : Fin c → K), solveLinear cfg (ofMatrix A) (ofVec b) = .ok (ofVec x) ∧
      (∃ B, Near eps A B ∧ B.mulVec x = b) ∧ ∀ i, |A.mulVec x i - b i| ≤ eps * ∑ j, |x j|) := by
  obtain ⟨h1, h2, h3⟩ := C37_wide_partial cfg heps he hr hrc A b
  have hns : solveLinear cfg (ofMatrix A) (ofVec b) ≠ .throw (.math .singularMatrix) := by
    intro h
    obtain ⟨B, hB, hn⟩ := h2 h
    exact hn (hA B hB)
  refine ⟨fun h => (h1 h).resolve_right hns, fun h => ?_⟩
  obtain ⟨x, B, h4, h5, h6⟩ := h3 h hns
  have h7 := h6 (hA B h5)
  refine ⟨x, h4, ⟨B, h5, h7⟩, ?_⟩
  intro i
  rw [← h7]
  simp only [Matrix.mulVec, dotProduct]
  rw [← sum_sub_distrib, mul_sum]
  refine (abs_sum_le_sum_abs _ _).trans (sum_le_sum fun j _ => ?_)
  rw [← sub_mul, abs_mul]
  exact mul_le_mul_of_nonneg_right (h5 i j).le (abs_nonneg _)

/-- C38, what holds: INFINITY_SOLUTIONS is only thrown when a matrix within `epsilon` of `A` is singular, SINGULAR_MATRIX only
when moreover that system has no solution, and no other exception is possible.  Missing: see `C38_false`. -/
theorem C38_partial (cfg : Config α) {eps : K} (heps : 0 < eps) (he : cfg.epsilon = fin eps) {n : ℕ} (hn : 0 < n)
    (A : Matrix (Fin n) (Fin n) K) (b : Fin n → K) :
    (solveLinear cfg (ofMatrix A) (ofVec b) = .throw (.math .infinitySolutions) → ∃ B, Near eps A B ∧ B.det = 0) ∧
    (solveLinear cfg (ofMatrix A) (ofVec b) = .throw (.math .singularMatrix) → ∃ B, Near eps A B ∧ B.det = 0 ∧ ¬ Solvable B b) ∧
    ((∃ x : Fin n → K, solveLinear cfg (ofMatrix A) (ofVec b) = .ok (ofVec x)) ∨ solveLinear cfg (ofMatrix A) (ofVec b) = .throw (.math .infinitySolutions) ∨
      solveLinear cfg (ofMatrix A) (ofVec b) = .throw (.math .singularMatrix)) := by
  obtain ⟨B, hB, ⟨x, h1, h2⟩ | ⟨h1, h2⟩ | ⟨h1, h2, h3⟩⟩ := square_outcome cfg heps he hn A b
  · exact ⟨fun h => absurd (h1.symm.trans h) (by simp), fun h => absurd (h1.symm.trans h) (by simp), .inl ⟨x, h1⟩⟩
  · exact ⟨fun _ => ⟨B, hB, h2⟩, fun h => absurd (h1.symm.trans h) (by simp), .inr (.inl h1)⟩
  · exact ⟨fun h => absurd (h1.symm.trans h) (by simp), fun _ => ⟨B, hB, h2, h3⟩, .inr (.inr h1)⟩

/-! ### Witnesses -/

/-- the configuration of the examples: the default but for `allowIndeterminateEquation` -/
def linCfg (allow : Bool) : Config (XNum ℚ) := { defaultConfig with allowIndeterminateEquation := allow }

/-- The hypotheses of `C36_nonsingular` are met by a matrix and a tolerance as large as 1/2. -/
example : ∀ B, Near (1 / 2 : ℚ) !![2, 1; 1, 3] B → B.det ≠ 0 := by
  intro B h
  have h00 := abs_lt.mp (h 0 0)
  have h01 := abs_lt.mp (h 0 1)
  have h10 := abs_lt.mp (h 1 0)
  have h11 := abs_lt.mp (h 1 1)
  simp only [Matrix.cons_val', Matrix.cons_val_zero, Matrix.cons_val_one, Matrix.of_apply, Matrix.cons_val_fin_one] at h00 h01 h10 h11
  rw [Matrix.det_fin_two]
  nlinarith [mul_pos (by linarith : 0 < B 0 0 - 3 / 2) (by linarith : 0 < B 1 1 - 5 / 2),
    mul_pos (by linarith : 0 < 3 / 2 - B 0 1) (by linarith : 0 < B 1 0)]

/-- a 3x3 system that needs row exchanges -/
example : solveLinear (linCfg false) (ofMatrix !![0, 2, 1; 1, 1, 0; 3, 0, 1]) (ofVec ![7, 3, 6]) = .ok (ofVec ![1, 2, 3]) := by
  decide +kernel

/-- C36 as stated is false: a vector far from any solution is returned without an error, for a singular system without solutions
and for one with solutions. -/
theorem C36_false : (∃ x : Fin 2 → ℚ, solveLinear (linCfg false) (ofMatrix !![0, 1; 0, 1]) (ofVec ![1, 2]) = .ok (ofVec x) ∧
      (!![0, 1; 0, 1] : Matrix (Fin 2) (Fin 2) ℚ).mulVec x 1 = 1) ∧
    (∃ x : Fin 2 → ℚ, solveLinear (linCfg false) (ofMatrix !![0, 1; 0, 1]) (ofVec ![1, 1]) = .ok (ofVec x) ∧
      (!![0, 1; 0, 1] : Matrix (Fin 2) (Fin 2) ℚ).mulVec x = 0) ∧ Solvable (!![0, 1; 0, 1] : Matrix (Fin 2) (Fin 2) ℚ) ![1, 1] :=
  ⟨⟨![0, 1], by decide +kernel, by decide +kernel⟩, ⟨![1, 0], by decide +kernel, by decide +kernel⟩, ![0, 1], by decide +kernel⟩

example : solveLinear (linCfg true) (ofMatrix !![0, 1, 1; 0, 0, 2]) (ofVec ![3, 4]) = .ok (ofVec ![0, 1, 2]) ∧
    solveLinear (linCfg false) (ofMatrix !![0, 1, 1; 0, 0, 2]) (ofVec ![3, 4]) = .throw (.math .indeterminateEquation) := by
  decide +kernel

/-- The hypothesis of `C37_wide` is met. -/
example : ∀ B, Near (1 / 2 : ℚ) !![1, 1] B → Solvable B ![3] := by
  intro B h
  have h00 := abs_lt.mp (h 0 0)
  simp only [Matrix.cons_val', Matrix.cons_val_zero, Matrix.of_apply, Matrix.cons_val_fin_one] at h00
  have hb : B 0 0 ≠ 0 := by intro h0; rw [h0] at h00; norm_num at h00
  refine ⟨![3 / B 0 0, 0], ?_⟩
  funext i
  rw [Subsingleton.elim i 0]
  simp [Matrix.mulVec, dotProduct, Fin.sum_univ_two]
  rw [mul_div_cancel₀ _ hb]

/-- C37 as stated is false: a wide system without solution is answered with a vector although `A x ≠ b`, and without
`allowIndeterminateEquation` SINGULAR_MATRIX can be thrown instead of INDETERMINATE_EQUATION. -/
theorem C37_false : (∃ x : Fin 3 → ℚ, solveLinear (linCfg true) (ofMatrix !![0, 0, 1; 0, 0, 1]) (ofVec ![1, 2]) = .ok (ofVec x) ∧
      (!![0, 0, 1; 0, 0, 1] : Matrix (Fin 2) (Fin 3) ℚ).mulVec x 1 = 1) ∧
    solveLinear (linCfg false) (ofMatrix !![1, 1, 0; 1, 1, 0]) (ofVec ![1, 2]) = .throw (.math .singularMatrix) := by
  refine ⟨⟨![0, 1, 1], by decide +kernel, by decide +kernel⟩, by decide +kernel⟩

/-- C38 as stated is false in both directions: INFINITY_SOLUTIONS is thrown for a system without solution, and a singular
system with solutions is answered with a vector. -/
theorem C38_false :
    solveLinear (linCfg false) (ofMatrix !![1, 0, 0; 0, 0, 0; 0, 0, 0]) (ofVec ![1, 0, 5]) = .throw (.math .infinitySolutions) ∧
    ¬ Solvable (!![1, 0, 0; 0, 0, 0; 0, 0, 0] : Matrix (Fin 3) (Fin 3) ℚ) ![1, 0, 5] ∧
    (!![0, 1; 0, 1] : Matrix (Fin 2) (Fin 2) ℚ).det = 0 ∧
    solveLinear (linCfg false) (ofMatrix !![0, 1; 0, 1]) (ofVec ![1, 1]) = .ok (ofVec ![1, 0]) := by
  refine ⟨by decide +kernel, ?_, by simp, by decide +kernel⟩
  rintro ⟨v, hv⟩
  have h2 := congrFun hv 2
  simp [Matrix.mulVec, dotProduct, Fin.sum_univ_three] at h2

example : solveLinear (linCfg false) (ofMatrix !![1, 1; 1, 1]) (ofVec ![1, 1]) = .throw (.math .infinitySolutions) ∧
    solveLinear (linCfg false) (ofMatrix !![1, 1; 1, 1]) (ofVec ![1, 2]) = .throw (.math .singularMatrix) := by
  decide +kernel

end Tom
