import Verif.Spec.MatProgram
import Verif.Props.Mat
import Verif.Props.SymMat
import Verif.Props.Linear
/-
C124: calculations with matrices, in exact arithmetic.
-/
namespace Tom
open MatProg

section numeric
variable {α K : Type} [Arith α] [Field K] [LinearOrder K] [IsStrictOrderedRing K] [Exact α K]

theorem MatProg.pos {r c : ℕ} (p : MatProg K r c) : 0 < r ∧ 0 < c := by
  induction p with
  | lit hr hc _ => exact ⟨hr, hc⟩
  | add _ _ ih _ => exact ih
  | sub _ _ ih _ => exact ih
  | neg _ ih => exact ih
  | scaleRight _ _ ih => exact ih
  | scaleLeft _ _ ih => exact ih
  | mul _ _ ih1 ih2 => exact ⟨ih1.1, ih2.2⟩
  | transpose _ ih => exact ⟨ih.2, ih.1⟩
  | inverse _ ih => exact ih

theorem add_ofMatrix {r c : ℕ} (A B : Matrix (Fin r) (Fin c) K) : (ofMatrix A : Mat α).add (ofMatrix B) = .ok (ofMatrix (A + B)) := by
  rw [ofMatrix, ofMatrix, C33_add, ofMatrix]
  congr 2
  ext i j
  simp [Exact.add]

theorem sub_ofMatrix {r c : ℕ} (A B : Matrix (Fin r) (Fin c) K) : (ofMatrix A : Mat α).sub (ofMatrix B) = .ok (ofMatrix (A - B)) := by
  rw [ofMatrix, ofMatrix, C33_sub, ofMatrix]
  congr 2
  ext i j
  simp [Exact.sub]

theorem neg_ofMatrix {r c : ℕ} (A : Matrix (Fin r) (Fin c) K) : (ofMatrix A : Mat α).neg = ofMatrix (-A) := by
  rw [ofMatrix, C33_neg, ofMatrix]
  congr 1
  ext i j
  simp [Exact.neg]

theorem scale_ofMatrix {r c : ℕ} (A : Matrix (Fin r) (Fin c) K) (k : K) :
    (ofMatrix A : Mat α).scale (fin k) = ofMatrix (k • A) ∧ Mat.scaleLeft (fin k) (ofMatrix A : Mat α) = ofMatrix (k • A) := by
  have h := C33_scale (A.map (fin : K → α)) (fin k)
  have e : (A.map (fin : K → α)).map (fun x => Arith.mul x (fin k)) = (k • A).map fin := by
    ext i j
    simp [Exact.mul, mul_comm]
  rw [e] at h
  exact h

theorem transpose_ofMatrix {r c : ℕ} (hr : 0 < r) (hc : 0 < c) (A : Matrix (Fin r) (Fin c) K) :
    (ofMatrix A : Mat α).transpose = .ok (ofMatrix A.transpose) := by
  rw [ofMatrix, C33_transpose hr hc]
  rfl

/-- C124: a program that calculates with matrices computes what the formula means, whatever its length; and if the formula has no meaning because a
matrix without inverse is to be inverted, it throws `SINGULAR_MATRIX`.  There is no other outcome. -/
theorem C124 (eps : K) (heps : 0 ≤ eps) {r c : ℕ} (p : MatProg K r c) :
    p.run (fin eps : α) = match p.meaning eps with
      | some A => .ok (ofMatrix A)
      | none => .throw (.math .singularMatrix) := by
  induction p with
  | lit hr hc A => rfl
  | add a b iha ihb =>
    simp only [run, meaning, iha, ihb]
    rcases a.meaning eps with _ | A
    · rfl
    rcases b.meaning eps with _ | B
    · rfl
    exact add_ofMatrix A B
  | sub a b iha ihb =>
    simp only [run, meaning, iha, ihb]
    rcases a.meaning eps with _ | A
    · rfl
    rcases b.meaning eps with _ | B
    · rfl
    exact sub_ofMatrix A B
  | neg a ih =>
    simp only [run, meaning, ih]
    rcases a.meaning eps with _ | A
    · rfl
    exact congrArg Res.ok (neg_ofMatrix A)
  | scaleRight a k ih =>
    simp only [run, meaning, ih]
    rcases a.meaning eps with _ | A
    · rfl
    exact congrArg Res.ok (scale_ofMatrix A k).1
  | scaleLeft k a ih =>
    simp only [run, meaning, ih]
    rcases a.meaning eps with _ | A
    · rfl
    exact congrArg Res.ok (scale_ofMatrix A k).2
  | mul a b iha ihb =>
    simp only [run, meaning, iha, ihb]
    have h1 := a.pos
    have h2 := b.pos
    rcases a.meaning eps with _ | A
    · rfl
    rcases b.meaning eps with _ | B
    · rfl
    exact C33_mul h1.1 h1.2 h2.2 A B
  | transpose a ih =>
    simp only [run, meaning, ih]
    have h1 := a.pos
    rcases a.meaning eps with _ | A
    · rfl
    exact transpose_ofMatrix h1.1 h1.2 A
  | inverse a ih =>
    simp only [run, meaning, ih]
    have h1 := a.pos
    rcases a.meaning eps with _ | A
    · rfl
    obtain ⟨k1, k2⟩ := C35 (α := α) h1.1 eps heps A
    by_cases hd : |A.det| ≤ eps
    · simpa [hd] using k1 hd
    · obtain ⟨B, h3, h4, h5⟩ := k2 hd
      have : A⁻¹ = B := Matrix.inv_eq_right_inv h4
      simpa [hd, this] using h3

/-- C124: two formulas that mean the same in mathematics give the same matrix, entry by entry. -/
theorem C124_identities (eps : K) (heps : 0 ≤ eps) {r c : ℕ} (p q : MatProg K r c) (h : p.meaning eps = q.meaning eps) :
    p.run (fin eps : α) = q.run (fin eps) := by
  rw [C124 eps heps, C124 eps heps, h]

/-- C124: `Det` of a calculated matrix is the determinant of what the formula means; so the determinant of a product is the product of
the determinants, that of a transpose the same, and so on. -/
theorem C124_det (eps : K) (heps : 0 ≤ eps) {n : ℕ} (p : MatProg K n n) (A : Matrix (Fin n) (Fin n) K) (h : p.meaning eps = some A) :
    (p.run (fin eps : α) >>= fun m => det n m) = .ok (fin A.det) := by
  rw [C124 eps heps, h]
  exact C34_square p.pos.1 A

theorem C124_det_rules (eps : K) (heps : 0 ≤ eps) {n : ℕ} (a b : MatProg K n n) (A B : Matrix (Fin n) (Fin n) K)
    (ha : a.meaning eps = some A) (hb : b.meaning eps = some B) :
    ((mul a b).run (fin eps : α) >>= fun m => det n m) = .ok (fin (A.det * B.det)) ∧
    ((transpose a).run (fin eps : α) >>= fun m => det n m) = .ok (fin A.det) ∧
    (eps < |A.det| → ((inverse a).run (fin eps : α) >>= fun m => det n m) = .ok (fin (A.det)⁻¹)) := by
  refine ⟨?_, ?_, fun hd => ?_⟩
  · rw [C124_det eps heps _ (A * B) (by simp [meaning, ha, hb]), Matrix.det_mul]
  · rw [C124_det eps heps _ A.transpose (by simp [meaning, ha]), Matrix.det_transpose]
  · have hd' : ¬ |A.det| ≤ eps := not_le.mpr hd
    rw [C124_det eps heps _ A⁻¹ (by simp [meaning, ha, hd']), Matrix.det_nonsing_inv, Ring.inverse_eq_inv']

/-- C124: `SolveLinear(A, b)` and `A.Inverse() * b` agree when `epsilon` is small compared with the matrix (the threshold depends on `A` only). -/
theorem C124_solve {n : ℕ} (hn : 0 < n) (A : Matrix (Fin n) (Fin n) K) (hA : A.det ≠ 0) :
    ∃ e : K, 0 < e ∧ ∀ (cfg : Config α) (eps : K) (b : Fin n → K), 0 < eps → eps ≤ e → cfg.epsilon = fin eps →
      solveLinear cfg (ofMatrix A) (ofVec b) = (do
        let m ← (ofMatrix A : Mat α).inverse cfg.epsilon
        m.mul (ofVec b)) := by
  obtain ⟨e, he, h⟩ := C61 (α := α) hn A hA
  have hd : 0 < |A.det| := abs_pos.mpr hA
  refine ⟨min e (|A.det| / 2), lt_min he (by positivity), fun cfg eps b h1 h2 h3 => ?_⟩
  obtain ⟨x, k1, k2, _⟩ := h cfg eps b h1 (h2.trans (min_le_left _ _)) h3
  have hle : ¬ |A.det| ≤ eps := by
    have := h2.trans (min_le_right _ _)
    intro h'
    linarith
  obtain ⟨B, h4, _, h6⟩ := (C35 (α := α) hn eps h1.le A).2 hle
  rw [k1, h3, h4, Res.bind_ok, C33_mulVec hn hn, ← k2, Matrix.mulVec_mulVec, h6, Matrix.one_mulVec]

/-- C124: the solution depends linearly on the right-hand side. -/
theorem C124_superposition {n : ℕ} (hn : 0 < n) (A : Matrix (Fin n) (Fin n) K) (hA : A.det ≠ 0) :
    ∃ e : K, 0 < e ∧ ∀ (cfg : Config α) (eps : K), 0 < eps → eps ≤ e → cfg.epsilon = fin eps → ∀ (b b' : Fin n → K) (k k' : K),
      ∃ x x' : Fin n → K, solveLinear cfg (ofMatrix A) (ofVec b) = .ok (ofVec x) ∧ solveLinear cfg (ofMatrix A) (ofVec b') = .ok (ofVec x') ∧
        solveLinear cfg (ofMatrix A) (ofVec (k • b + k' • b')) = .ok (ofVec (k • x + k' • x')) := by
  obtain ⟨e, he, h⟩ := C61 (α := α) hn A hA
  refine ⟨e, he, fun cfg eps h1 h2 h3 b b' k k' => ?_⟩
  obtain ⟨x, k1, k2, _⟩ := h cfg eps b h1 h2 h3
  obtain ⟨x', k1', k2', _⟩ := h cfg eps b' h1 h2 h3
  obtain ⟨y, k3, _, k4⟩ := h cfg eps (k • b + k' • b') h1 h2 h3
  refine ⟨x, x', k1, k1', ?_⟩
  rw [k3, k4 (k • x + k' • x')]
  rw [Matrix.mulVec_add, Matrix.mulVec_smul, Matrix.mulVec_smul, k2, k2']

/-- C124: neither the order of the equations nor that of the unknowns matters: row `i` of the second system is row `σ i` of the first, its
unknown `j` is unknown `τ j`. -/
theorem C124_order {n : ℕ} (hn : 0 < n) (A : Matrix (Fin n) (Fin n) K) (hA : A.det ≠ 0) (σ τ : Equiv.Perm (Fin n)) :
    ∃ e : K, 0 < e ∧ ∀ (cfg : Config α) (eps : K), 0 < eps → eps ≤ e → cfg.epsilon = fin eps → ∀ b : Fin n → K,
      ∃ x : Fin n → K, solveLinear cfg (ofMatrix A) (ofVec b) = .ok (ofVec x) ∧
        solveLinear cfg (ofMatrix (A.submatrix σ τ)) (ofVec (b ∘ σ)) = .ok (ofVec (x ∘ τ)) := by
  have hA' : (A.submatrix σ τ).det ≠ 0 := by
    have e1 : A.submatrix σ τ = (A.submatrix id (σ.symm.trans τ)).submatrix σ σ := by ext i j; simp
    rw [e1, Matrix.det_submatrix_equiv_self, Matrix.det_permute']
    exact mul_ne_zero (by rcases Int.units_eq_one_or (Equiv.Perm.sign (σ.symm.trans τ)) with h | h <;> simp [h]) hA
  obtain ⟨e, he, h⟩ := C61 (α := α) hn A hA
  obtain ⟨e', he', h'⟩ := C61 (α := α) hn (A.submatrix σ τ) hA'
  refine ⟨min e e', lt_min he he', fun cfg eps h1 h2 h3 b => ?_⟩
  obtain ⟨x, k1, k2, _⟩ := h cfg eps b h1 (h2.trans (min_le_left _ _)) h3
  obtain ⟨y, k3, _, k4⟩ := h' cfg eps (b ∘ σ) h1 (h2.trans (min_le_right _ _)) h3
  refine ⟨x, k1, ?_⟩
  rw [k3, k4 (x ∘ τ)]
  rw [← k2]
  funext i
  simp only [Matrix.mulVec, dotProduct, Matrix.submatrix_apply, Function.comp_apply]
  exact Equiv.sum_comp τ fun j => A (σ i) j * x j

end numeric

section witnesses

private def two (A : Matrix (Fin 2) (Fin 2) ℚ) : MatProg ℚ 2 2 := .lit (by decide) (by decide) A

/-- a calculation with an inverse, a transpose and a product: `(A * B).Inverse()` and `B.Inverse() * A.Inverse()` -/
example : (inverse (mul (two !![2, 1; 1, 1]) (two !![1, 3; 0, 1])) : MatProg ℚ 2 2).run
      (.fin (1 / 1000) : XNum ℚ) = .ok (ofMatrix !![4, -7; -1, 2]) ∧
    (mul (inverse (two !![1, 3; 0, 1])) (inverse (two !![2, 1; 1, 1])) : MatProg ℚ 2 2).run
      (.fin (1 / 1000) : XNum ℚ) = .ok (ofMatrix !![4, -7; -1, 2]) := by
  decide +kernel

/-- a matrix without inverse inside a calculation -/
example : (add (two !![1, 0; 0, 1]) (inverse (two !![1, 2; 2, 4])) : MatProg ℚ 2 2).run
      (.fin (1 / 1000) : XNum ℚ) = .throw (.math .singularMatrix) := by
  decide +kernel

end witnesses

section symbolic
variable {α K : Type} [Dbl α] [Field K] [LinearOrder K] [IsStrictOrderedRing K] [Exact α K]

theorem SymProg.pos {r c : ℕ} (p : SymProg α r c) : 0 < r ∧ 0 < c := by
  induction p with
  | lit hr hc _ => exact ⟨hr, hc⟩
  | sub _ _ ih _ => exact ih
  | mul _ _ ih1 ih2 => exact ⟨ih1.1, ih2.2⟩

theorem evalMat_entries (cfg : Config α) (t : VarsTable α) {r c : ℕ} (hr : 0 < r) (hc : 0 < c) (E : Matrix (Fin r) (Fin c) (Expr α))
    (e : Matrix (Fin r) (Fin c) K) :
    evalMat cfg (symOf E) t = .ok (ofMatrix e) ↔ ∀ i j, (E i j).eval cfg.throwOnInvalidValue (envOf t.table) = .ok (fin (e i j)) := by
  constructor
  · intro h
    obtain ⟨v, h1, h2⟩ := (C50_evaluate hr hc cfg E t _).mp h
    have h3 : e.map (fin : K → α) = v := by
      apply entries_inj
      have := congrArg Mat.data h1
      exact this
    intro i j
    rw [h2, ← h3]; rfl
  · intro h
    rw [C50_evaluate hr hc]
    exact ⟨e.map fin, rfl, h⟩

/-- C124: calculating with matrices of expressions and then putting numbers in for the variables (`Clone().Subs(table).Calc().ToMat()`) gives
the same matrix as putting the numbers in first and calculating with matrices of numbers. -/
theorem C124_symbolic (hvalid : ∀ k : K, Dbl.isInvalid (fin k : α) = false) (cfg : Config α) (t : VarsTable α) {r c : ℕ}
    (p : SymProg α r c) (A : Matrix (Fin r) (Fin c) K) (h : p.Means cfg t A) :
    ∃ P, p.run = .ok P ∧ evalMat cfg P t = .ok (ofMatrix A) := by
  have key : ∀ {r c : ℕ} (p : SymProg α r c) (A : Matrix (Fin r) (Fin c) K), p.Means cfg t A →
      ∃ E : Matrix (Fin r) (Fin c) (Expr α), p.run = .ok (symOf E) ∧ evalMat cfg (symOf E) t = .ok (ofMatrix A) := by
    intro r c p
    induction p with
    | lit hr hc E => intro A h; exact ⟨E, rfl, h⟩
    | @sub r c a b iha ihb =>
      rintro _ ⟨A, B, h1, h2, rfl⟩
      obtain ⟨E, e1, e2⟩ := iha A h1
      obtain ⟨F, f1, f2⟩ := ihb B h2
      have hp := a.pos
      refine ⟨Matrix.of fun i j => Expr.bin .sub (E i j) (F i j), ?_, ?_⟩
      · simp only [SymProg.run, e1, f1, Res.bind_ok]
        exact C50_sub hp.1 hp.2 E F
      · rw [evalMat_entries cfg t hp.1 hp.2] at e2 f2 ⊢
        intro i j
        simp only [Matrix.of_apply, Expr.eval, e2, f2, Res.bind_ok, BinOp.apply, Exact.sub, checked, hvalid]
        simp
    | @mul r m c a b iha ihb =>
      rintro _ ⟨A, B, h1, h2, rfl⟩
      obtain ⟨E, e1, e2⟩ := iha A h1
      obtain ⟨F, f1, f2⟩ := ihb B h2
      have hp := a.pos
      have hq := b.pos
      obtain ⟨n, rfl⟩ : ∃ n, m = n + 1 := ⟨m - 1, by omega⟩
      obtain ⟨P, p1, p2⟩ := C50_evaluate_mul hvalid hp.1 hp.2 hq.2 cfg t E F A B e2 f2
      rw [C50_mul hp.1 hq.2] at p1
      cases p1
      refine ⟨_, ?_, p2⟩
      simp only [SymProg.run, e1, f1, Res.bind_ok]
      exact C50_mul hp.1 hq.2 E F
  obtain ⟨E, h1, h2⟩ := key p A h
  exact ⟨_, h1, h2⟩

/-- C124: associativity, for instance: the trees differ, the numbers do not. -/
theorem C124_symbolic_assoc (hvalid : ∀ k : K, Dbl.isInvalid (fin k : α) = false) (cfg : Config α) (t : VarsTable α) {r m l c : ℕ}
    (a : SymProg α r m) (b : SymProg α m l) (d : SymProg α l c) (A : Matrix (Fin r) (Fin m) K) (B : Matrix (Fin m) (Fin l) K)
    (D : Matrix (Fin l) (Fin c) K) (ha : a.Means cfg t A) (hb : b.Means cfg t B) (hd : d.Means cfg t D) :
    ∃ P Q, (SymProg.mul (.mul a b) d).run = .ok P ∧ (SymProg.mul a (.mul b d)).run = .ok Q ∧
      evalMat cfg P t = .ok (ofMatrix (A * B * D)) ∧ evalMat cfg Q t = .ok (ofMatrix (A * B * D)) := by
  obtain ⟨P, h1, h2⟩ := C124_symbolic hvalid cfg t (SymProg.mul (.mul a b) d) (A * B * D) ⟨A * B, D, ⟨A, B, ha, hb, rfl⟩, hd, rfl⟩
  obtain ⟨Q, h3, h4⟩ := C124_symbolic hvalid cfg t (SymProg.mul a (.mul b d)) (A * B * D)
    ⟨A, B * D, ha, ⟨B, D, hb, hd, rfl⟩, Matrix.mul_assoc A B D⟩
  exact ⟨P, Q, h1, h3, h2, h4⟩

/-- a symbolic matrix that has values: `[x, 1; 0, x*x]` at `x = 3` -/
example : evalMat defaultConfig (symOf !![.var ['x'], .num (.fin 1); .num (.fin 0), .bin .mul (.var ['x']) (.var ['x'])] : SymMat (XNum ℚ))
    ⟨[['x']], ⟨1, 1, [.fin 3]⟩, [(['x'], .fin 3)]⟩ = .ok (ofMatrix (!![3, 1; 0, 9] : Matrix (Fin 2) (Fin 2) ℚ)) := by decide +kernel

end symbolic
end Tom
