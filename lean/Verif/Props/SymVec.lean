import Verif.Model.SymVec
import Verif.Props.SymMat
/-
C50, C65: `SymVec`, and the conversions between matrices of numbers and of expressions.
-/
set_option linter.unusedSectionVars false
namespace Tom
variable {α : Type} [Dbl α]

/-- C65: `SymMat(m)` has the numbers of `m` as its entries, in their places; `ToMat` gives `m` back. -/
theorem C65_ofMat {r c : ℕ} (hr : 0 < r) (hc : 0 < c) (A : Matrix (Fin r) (Fin c) α) :
    SymMat.ofMat (ofEntries A) = .ok (symOf (Matrix.of fun i j => Expr.num (A i j))) ∧
      (SymMat.ofMat (ofEntries A) >>= SymMat.toMat) = .ok (ofEntries A) := by
  have h : SymMat.ofMat (ofEntries A) = .ok (symOf (Matrix.of fun i j => Expr.num (A i j))) := by
    unfold SymMat.ofMat
    rw [if_pos ⟨hr, hc⟩]
    unfold symOf
    rw [← entries_map, List.map_map]
    rfl
  exact ⟨h, by rw [h, Res.bind_ok, C50_toMat]⟩

/-- C65: `SymMat(rows, cols)` and `SymVec(rows)` have null entries. -/
theorem C65_symbolic_new (r c : ℕ) : (0 < r → 0 < c → ∃ m : SymMat α, SymMat.new r c = .ok m ∧ m.rows = r ∧ m.cols = c ∧
      m.data.length = r * c ∧ ∀ i j, i < r → j < c → m.value i j = .ok .nil) ∧
    (0 < r → (SymMat.newVec r : Res (SymMat α)) = SymMat.new r 1) := by
  refine ⟨fun hr hc => ⟨⟨r, c, List.replicate (r * c) .nil⟩, if_pos ⟨hr, hc⟩, rfl, rfl, by simp, fun i j hi hj => ?_⟩, fun _ => rfl⟩
  show readAt _ (i * c + j) = _
  have : i * c + j < r * c := idx_lt hi hj
  unfold readAt
  simp [List.getElem?_replicate, this]

/-- C65: `SymVec{e₀, e₁, ...}` is the column of these expressions, `v[i]` is the expression number `i`. -/
theorem C65_symVec {r : ℕ} (hr : 0 < r) (e : Fin r → Expr α) :
    SymMat.ofList (List.ofFn fun i => embed (e i)) = .ok (symOf (Matrix.of fun i (_ : Fin 1) => e i)) ∧
      ∀ i : Fin r, (symOf (Matrix.of fun i (_ : Fin 1) => e i)).vecAt i = .ok (embed (e i)) ∧
        (symOf (Matrix.of fun i (_ : Fin 1) => e i)).value i 0 = .ok (embed (e i)) := by
  have hd : (symOf (Matrix.of fun i (_ : Fin 1) => e i)) = ⟨r, 1, List.ofFn fun i => embed (e i)⟩ := by
    unfold symOf
    congr 1
    apply List.ext_getElem
    · simp [entries_length]
    · intro k h1 h2
      simp only [entries, List.getElem_map, List.getElem_ofFn, Matrix.of_apply]
      congr 2
      apply Fin.ext
      simp [Fin.divNat]
  refine ⟨?_, fun i => ?_⟩
  · unfold SymMat.ofList
    rw [if_neg (by intro h; have := congrArg List.length h; simp at this; omega), hd]
    simp
  · have h := C50_value (α := α) (Matrix.of fun i (_ : Fin 1) => e i) i 0
    refine ⟨?_, h⟩
    refine Eq.trans ?_ h
    show readAt _ _ = readAt _ _
    simp [symOf]

/-- C50: the difference of two vectors, component by component. -/
theorem C50_vec_sub {r : ℕ} (hr : 0 < r) (a b : Fin r → Expr α) :
    (symOf (Matrix.of fun i (_ : Fin 1) => a i)).vecSub (symOf (Matrix.of fun i (_ : Fin 1) => b i)) =
      .ok (symOf (Matrix.of fun i (_ : Fin 1) => Expr.bin .sub (a i) (b i))) := by
  unfold SymMat.vecSub
  rw [C50_sub hr Nat.one_pos, Res.bind_ok, C50_toSymVec hr, if_pos rfl]
  rfl

/-- a vector of two expressions -/
example : (SymMat.ofList [embed (.var ['x']), (embed (.num (.fin 2)) : Raw (XNum ℚ))] >>= fun v => v.vecSub v >>= fun d => d.vecAt 1) =
    .ok (embed (.bin .sub (.num (.fin 2)) (.num (.fin 2)))) := by decide +kernel

/-- a matrix of numbers, converted and back -/
example : SymMat.ofMat ⟨1, 2, [XNum.fin (1 : ℚ), .fin 2]⟩ = .ok ⟨1, 2, [embed (.num (.fin 1)), embed (.num (.fin 2))]⟩ := by decide +kernel

end Tom
