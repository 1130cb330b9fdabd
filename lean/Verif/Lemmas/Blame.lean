import Verif.Spec.Moderate
import Verif.Lemmas.Safety
import Verif.Lemmas.MatAny
import Verif.Props.LMSteps
import Verif.Props.Mat
/-
For any arithmetic: on square systems, the only thing that can go wrong in `SolveByLM` is a call of `SolveLinear`.
-/
set_option linter.unusedSectionVars false
namespace Tom
variable {α : Type} [Dbl α]
open Relation

theorem defined_or_bind {β γ : Type} {B : Prop} {r : Res β} {f : β → Res γ} (h : r.Defined ∨ B)
    (hf : ∀ b, r = .ok b → (f b).Defined ∨ B) : (r >>= f).Defined ∨ B := by
  rcases h with h | h
  · rcases h with ⟨b, rfl⟩ | ⟨e, rfl⟩ | rfl
    · exact hf b rfl
    · exact .inl (.inr (.inl ⟨e, rfl⟩))
    · exact .inl (.inr (.inr rfl))
  · exact .inr h

/-! ### evaluation -/

theorem jacobian_noInt {r : ℕ} (hr : 0 < r) (cfg : Config α) (f : Matrix (Fin r) (Fin 1) (Expr α)) (vars : List Str) (hn : 0 < vars.length)
    (J : SymMat α) (hJ : (symOf f).jacobian cfg vars = .ok J) :
    (∀ i, (f i 0).hasIntOp = false) ∧
    ∃ D : Matrix (Fin r) (Fin vars.length) (Expr α), J = symOf D ∧ ∀ i j, (D i j).hasIntOp = false := by
  obtain ⟨D, rfl⟩ := jacobian_symOf hr cfg f vars hn J hJ
  have key : ∀ i (j : Fin vars.length), (f i 0).hasIntOp = false ∧ (D i j).hasIntOp = false := by
    intro i j
    obtain ⟨_, _, _, h⟩ := C32 hr cfg f vars hn _ hJ
    obtain ⟨d, h1, h2⟩ := h i j
    rw [C50_value, Res.ok.injEq] at h1
    unfold diffConst at h2
    rw [clone_eq _ (embed_isSome _), Res.bind_ok] at h2
    cases hi : (f i 0).hasIntOp with
    | true => rw [diff_throw cfg _ 1 (by omega) _ hi] at h2; cases h2
    | false =>
      rw [diff_ok cfg _ 1 (by omega) _ hi, simplify_ok_iff] at h2
      obtain ⟨e', h3, h4⟩ := h2
      have e1 : D i j = e' := embed_injective (h1.trans h4)
      rw [e1]
      exact ⟨rfl, simpE_hasIntOp cfg _ _ (dE_hasIntOp _ _ hi) h3⟩
  exact ⟨fun i => (key i ⟨0, hn⟩).1, D, rfl, fun i j => (key i j).2⟩

theorem evalMat_handled (cfg : Config α) {r c : ℕ} (hr : 0 < r) (hc : 0 < c) (f : Matrix (Fin r) (Fin c) (Expr α))
    (hf : ∀ i j, (f i j).hasIntOp = false) (t : VarsTable α) : (evalMat cfg (symOf f) t).Handled := by
  unfold symOf
  rw [evalMat_list cfg r c hr hc]
  refine handled_bind (evalAll_handled _ _ (envOf_handled _) _ ?_) fun _ _ => .inl ⟨_, rfl⟩
  intro e he
  obtain ⟨k, rfl⟩ := List.mem_ofFn.mp he
  exact hf _ _

theorem evalVec_handled (cfg : Config α) {r : ℕ} (hr : 0 < r) (f : Matrix (Fin r) (Fin 1) (Expr α))
    (hf : ∀ i, (f i 0).hasIntOp = false) (t : VarsTable α) : (evalVec cfg (symOf f) t).Handled := by
  rcases evalMat_handled cfg hr Nat.one_pos f (fun i j => by rw [Subsingleton.elim j 0]; exact hf i) t with ⟨m, h⟩ | ⟨e, h⟩
  · obtain ⟨v, rfl, hv⟩ := (C50_evaluate hr Nat.one_pos cfg f t m).mp h
    exact .inl ⟨_, (evalVec_ok hr cfg f t _).mpr ⟨v, rfl, fun i => hv i 0⟩⟩
  · refine .inr ⟨e, ?_⟩
    unfold evalVec
    rw [h]
    rfl

/-! ### shapes -/

theorem isVec_ofEntries {n : ℕ} {d : Mat α} (h : IsVec d) (hr : d.rows = n) : ∃ D : Matrix (Fin n) (Fin 1) α, d = ofEntries D := by
  obtain ⟨r, c, l⟩ := d
  obtain ⟨h1, h2⟩ := h
  simp only at h1 h2 hr
  subst h1 hr
  refine ⟨Matrix.of fun i _ => l[i]'(by omega), ?_⟩
  unfold ofEntries
  congr 1
  apply List.ext_getElem
  · simp [h2]
  · intro i h3 h4
    simp

theorem ofEntries_isVec {n : ℕ} (D : Matrix (Fin n) (Fin 1) α) : IsVec (ofEntries D) := ⟨rfl, by simp [ofEntries]⟩

theorem mul_entries {r m c : ℕ} (hr : 0 < r) (hm : 0 < m) (hc : 0 < c) (A : Matrix (Fin r) (Fin m) α) (B : Matrix (Fin m) (Fin c) α) :
    ∃ P : Matrix (Fin r) (Fin c) α, (ofEntries A).mul (ofEntries B) = .ok (ofEntries P) := by
  rw [ofEntries_eq, ofEntries_eq]
  have : ∀ i j, ∃ s, sumV ((List.range m).map fun k => Arith.mul (extE A i k) (extE B k j)) = .ok s := by
    intro i j
    obtain ⟨m', rfl⟩ : ∃ k, m = k + 1 := ⟨m - 1, by omega⟩
    rw [List.range_succ_eq_map]
    exact ⟨_, rfl⟩
  choose s hs using this
  exact ⟨_, (mul_mk' hr hc _ _ s fun i j _ _ => hs i j).trans (by rw [mk'_eq])⟩

theorem norm2_entries {r : ℕ} (hr : 0 < r) (A : Matrix (Fin r) (Fin 1) α) : ∃ s, (ofEntries A).norm2 = .ok s := by
  obtain ⟨m', rfl⟩ : ∃ k, r = k + 1 := ⟨r - 1, by omega⟩
  unfold Mat.norm2
  cases h : (ofEntries A).data with
  | nil =>
    have := congrArg List.length h
    simp [ofEntries] at this
  | cons a l => exact ⟨_, rfl⟩

theorem toVec_entries {r : ℕ} (hr : 0 < r) (A : Matrix (Fin r) (Fin 1) α) : (ofEntries A).toVec = .ok (ofEntries A) := by
  unfold Mat.toVec
  rw [if_neg (by show r ≠ 0; omega), if_neg (by show ¬ (1 ≠ 1); simp)]
  rfl

theorem setAt_shape {m m' : Mat α} {i : ℕ} {x : α} (h : m.setAt i x = .ok m') : m'.rows = m.rows ∧ m'.cols = m.cols ∧ m'.data.length = m.data.length := by
  obtain ⟨d, h1, h2⟩ := Res.bind_eq_ok.mp h
  rw [Res.ok.injEq] at h2
  subst h2
  unfold writeAt at h1
  split at h1
  · rw [Res.ok.injEq] at h1
    subst h1
    simp
  · cases h1

theorem backSubst_shape {A b ret d : Mat α} (h : backSubst A b ret = .ok d) :
    d.rows = ret.rows ∧ d.cols = ret.cols ∧ d.data.length = ret.data.length := by
  unfold backSubst at h
  have key : ∀ (l : List ℕ) (ret d : Mat α), forRes (fun (ret : Mat α) i => do
      let r ← A.row i (i + 1)
      let c ← ret.col 0 (i + 1)
      let v ← zipV Arith.mul r c
      let s ← (if v.length ≠ 0 then sumV v else .ok Arith.zero)
      let bi ← b.at_ i
      ret.setAt i (Arith.sub bi s)) l ret = .ok d → d.rows = ret.rows ∧ d.cols = ret.cols ∧ d.data.length = ret.data.length := by
    intro l
    induction l with
    | nil => intro ret d h; rw [forRes, Res.ok.injEq] at h; subst h; exact ⟨rfl, rfl, rfl⟩
    | cons a l ih =>
      intro ret d h
      obtain ⟨ret', h1, h2⟩ := Res.bind_eq_ok.mp h
      obtain ⟨_, _, h1⟩ := Res.bind_eq_ok.mp h1
      obtain ⟨_, _, h1⟩ := Res.bind_eq_ok.mp h1
      obtain ⟨_, _, h1⟩ := Res.bind_eq_ok.mp h1
      obtain ⟨_, _, h1⟩ := Res.bind_eq_ok.mp h1
      obtain ⟨_, _, h1⟩ := Res.bind_eq_ok.mp h1
      have a1 := setAt_shape h1
      have a2 := ih ret' d h2
      exact ⟨a2.1.trans a1.1, a2.2.1.trans a1.2.1, a2.2.2.trans a1.2.2⟩
  exact key _ _ _ h

/-- what `SolveLinear` returns for a square system is a vector of that size -/
theorem solveLinear_shape {cfg : Config α} {n : ℕ} (hn : 0 < n) {A b d : Mat α} (hA : A.rows = n) (hA' : A.cols = n)
    (h : solveLinear cfg A b = .ok d) : IsVec d ∧ d.rows = n := by
  unfold solveLinear at h
  rw [hA, hA'] at h
  split at h
  · cases h
  rw [new_mk' hn Nat.one_pos, Res.bind_ok, if_neg (by omega), if_neg (by simp), Res.bind_ok] at h
  obtain ⟨s, _, h⟩ := Res.bind_eq_ok.mp h
  rw [if_neg (by simp)] at h
  obtain ⟨ret, h1, h⟩ := Res.bind_eq_ok.mp h
  split at h
  · cases h
  rw [Res.ok.injEq] at h
  subst h
  have := backSubst_shape h1
  refine ⟨⟨this.2.1, ?_⟩, this.1⟩
  rw [this.2.2, this.1, Mat.mk'_rows, mk'_eq]
  simp [ofEntries]

/-! ### the line search -/

theorem armijoLoop_defined {n : ℕ} (hn : 0 < n) {f df : Mat α → Res (Mat α)}
    (hf : ∀ w, IsVec w → w.rows = n → (∃ F : Matrix (Fin n) (Fin 1) α, f w = .ok (ofEntries F)) ∨ ∃ e, f w = .throw e)
    (hdf : ∀ w, IsVec w → w.rows = n → (∃ A : Matrix (Fin n) (Fin n) α, df w = .ok (ofEntries A)) ∨ ∃ e, df w = .throw e)
    (x d : Matrix (Fin n) (Fin 1) α) (fuel : ℕ) (a : α) : (armijoLoop f df (ofEntries x) (ofEntries d) fuel a).Defined := by
  induction fuel generalizing a with
  | zero => exact .inr (.inr rfl)
  | succ fuel ih =>
    unfold armijoLoop
    rw [(C33_scale d a).2, C33_add, Res.bind_ok]
    rcases hf _ (ofEntries_isVec _) rfl with ⟨F1, h1⟩ | ⟨e, h1⟩
    swap
    · rw [h1]; exact .inr (.inl ⟨e, rfl⟩)
    obtain ⟨s1, hs1⟩ := norm2_entries hn F1
    rw [h1, Res.bind_ok, hs1, Res.bind_ok]
    rcases hf (ofEntries x) (ofEntries_isVec _) rfl with ⟨F0, h2⟩ | ⟨e, h2⟩
    swap
    · rw [h2]; exact .inr (.inl ⟨e, rfl⟩)
    rw [h2, Res.bind_ok]
    rcases hdf (ofEntries x) (ofEntries_isVec _) rfl with ⟨A, h3⟩ | ⟨e, h3⟩
    swap
    · rw [h3]; exact .inr (.inl ⟨e, rfl⟩)
    rw [h3, Res.bind_ok, C33_transpose hn hn, Res.bind_ok, (C33_scale _ _).2]
    obtain ⟨P, hP⟩ := mul_entries hn hn Nat.one_pos (A.transpose.map fun y => Arith.mul y (Arith.mul (lit 4 (-1)) a)) d
    rw [hP, Res.bind_ok, C33_add, Res.bind_ok]
    obtain ⟨s2, hs2⟩ := norm2_entries hn (Matrix.of fun i j => Arith.add (F0 i j) (P i j))
    rw [hs2, Res.bind_ok]
    split
    · exact .inl ⟨a, rfl⟩
    · exact ih _

theorem lmDirection_normal (cfg : Config α) (ja : SymMat α) (F : Mat α) (mu : α) (t : VarsTable α) :
    lmDirection cfg ja F mu t = (do let s ← lmNormal cfg ja F mu t; solveLinear cfg s.1 s.2) := by
  unfold lmDirection lmNormal
  simp only [Res.bind_assoc']
  rfl

/-- on square systems, the linear system can be formed if the Jacobian can be evaluated -/
theorem lmNormal_outcome {n : ℕ} (hn : 0 < n) (cfg : Config α) (D : Matrix (Fin n) (Fin n) (Expr α)) (hD : ∀ i j, (D i j).hasIntOp = false)
    (F : Matrix (Fin n) (Fin 1) α) (mu : α) (t : VarsTable α) (hE : (evalMat cfg (symOf D) t).Handled) :
    (∃ (m : Matrix (Fin n) (Fin n) α) (b : Matrix (Fin n) (Fin 1) α), lmNormal cfg (symOf D) (ofEntries F) mu t = .ok (ofEntries m, ofEntries b)) ∨
    ∃ e, lmNormal cfg (symOf D) (ofEntries F) mu t = .throw e := by
  unfold lmNormal
  rcases hE with ⟨A, h⟩ | ⟨e, h⟩
  swap
  · rw [h]; exact .inr ⟨e, rfl⟩
  rw [h, Res.bind_ok]
  obtain ⟨A, rfl, _⟩ := (C50_evaluate hn hn cfg D t A).mp h
  obtain ⟨P, hP⟩ := mul_entries hn hn hn A.transpose A
  obtain ⟨Q, hQ⟩ := mul_entries hn hn Nat.one_pos A.transpose F
  have e1 : (ofEntries A).rows = n := rfl
  have e2 : (ofEntries A).cols = n := rfl
  rw [C33_transpose hn hn, Res.bind_ok, hP, Res.bind_ok, e1, e2, new_mk' hn hn, Res.bind_ok, ones_mk', Res.bind_ok, mk'_eq, (C33_scale _ _).2,
    C33_add, Res.bind_ok, hQ, Res.bind_ok, toVec_entries hn, Res.bind_ok, C33_neg]
  exact .inl ⟨_, _, rfl⟩

end Tom
