import Verif.Lemmas.SymMat
import Verif.Props.RealDiff
/-
C32 (Jacobian), C50 (symbolic matrices), C57 (printing layout).  `symOf E` is the library's symbolic matrix holding the
expressions `E i j` (Spec/SymMatrix.lean).
-/
set_option linter.unusedSectionVars false
set_option linter.unusedSimpArgs false
namespace Tom
variable {α : Type} [Dbl α]

/-! ### C50 -/

theorem C50_value {r c : ℕ} (E : Matrix (Fin r) (Fin c) (Expr α)) (i : Fin r) (j : Fin c) :
    (symOf E).value i j = .ok (embed (E i j)) := symValue E i j

/-- C50: `Clone` copies. -/
theorem C50_clone {r c : ℕ} (hr : 0 < r) (hc : 0 < c) (E : Matrix (Fin r) (Fin c) (Expr α)) :
    (symOf E).clone = .ok (symOf E) := by
  unfold SymMat.clone
  have : (0 < (symOf E).rows ∧ 0 < (symOf E).cols) := ⟨hr, hc⟩
  rw [if_pos this]
  simp only [symOf, clone_list, Res.bind_ok]

/-- C50: `Subs` substitutes in every entry, simultaneously. -/
theorem C50_subs {r c : ℕ} (E : Matrix (Fin r) (Fin c) (Expr α)) (values : List (Str × α)) :
    (symOf E).subs values
      = .ok (symOf (Matrix.of fun i j => (E i j).subst fun x => (values.lookup x).map Expr.num)) := by
  unfold SymMat.subs symOf
  rw [mapRes_map, mapRes_ok (g := fun e => embed (e.subst fun x => (values.lookup x).map Expr.num))
      fun e _ => C18_subsValues e values]
  simp only [Res.bind_ok, Res.noexcept_ok, entries_map, Matrix.of_apply]

/-- C50: `Calc`, when every entry has a value: every entry is replaced by its value. -/
theorem C50_calc {r c : ℕ} (cfg : Config α) (E : Matrix (Fin r) (Fin c) (Expr α)) (v : Matrix (Fin r) (Fin c) α)
    (h : ∀ i j, vpa cfg (embed (E i j)) = .ok (v i j)) :
    (symOf E).calcAll cfg = (.ok (), symOf (Matrix.of fun i j => Expr.num (v i j))) := by
  have key : ∀ (es : List (Expr α)) (vs : List α), List.Forall₂ (fun e w => vpa cfg (embed e) = .ok w) es vs →
      SymMat.calcList cfg (es.map embed) = (.ok (), (vs.map Expr.num).map embed) := by
    intro es vs hf
    induction hf with
    | nil => rfl
    | cons h1 _ ih => simp only [List.map_cons, SymMat.calcList, calcNode, h1, ih]; rfl
  have := key (entries E) (entries v) (forall₂_entries.mpr h)
  unfold SymMat.calcAll
  simp only [symOf, this]
  rw [entries_map]

/-- C50: `Calc`, when some entry has no value: the entries before the first such entry are replaced by their values, the
rest (that entry included) is unchanged, and what evaluating that entry throws is thrown. -/
theorem C50_calc_throws (cfg : Config α) (r c : ℕ) (before after : List (Expr α)) (e : Expr α) (vs : List α) (x : Exc)
    (h : List.Forall₂ (fun e w => vpa cfg (embed e) = .ok w) before vs) (he : vpa cfg (embed e) = .throw x) :
    (⟨r, c, (before ++ e :: after).map embed⟩ : SymMat α).calcAll cfg
      = (.throw x, ⟨r, c, (vs.map Expr.num ++ e :: after).map embed⟩) := by
  have key : SymMat.calcList cfg ((before ++ e :: after).map embed) = (.throw x, (vs.map Expr.num ++ e :: after).map embed) := by
    induction h with
    | nil => simp [SymMat.calcList, calcNode, he]
    | cons h1 _ ih =>
      simp only [List.map_cons, List.cons_append, SymMat.calcList, calcNode, h1, ih]
      rfl
  unfold SymMat.calcAll
  simp only [key]

/-- C50: `ToMat` of a matrix of numbers is the matrix of these numbers; ... -/
theorem C50_toMat {r c : ℕ} (v : Matrix (Fin r) (Fin c) α) :
    (symOf (Matrix.of fun i j => Expr.num (v i j))).toMat = .ok (ofEntries v) := by
  unfold SymMat.toMat symOf
  rw [← entries_map, List.map_map, mapRes_map,
    mapRes_ok (f := fun b => SymMat.numberOf ((embed ∘ Expr.num) b)) (g := id) fun _ _ => rfl]
  simp [ofEntries_entries]

/-- ... and any matrix with another entry throws `runtime_error`. -/
theorem C50_toMat_throws {r c : ℕ} (E : Matrix (Fin r) (Fin c) (Expr α)) (i : Fin r) (j : Fin c) (h : (E i j).isNum = false) :
    (symOf E).toMat = .throw .runtime := by
  have key : ∀ es : List (Expr α), (∃ e ∈ es, e.isNum = false) → mapRes SymMat.numberOf (es.map embed) = .throw .runtime := by
    intro es
    induction es with
    | nil => rintro ⟨e, he, _⟩; simp at he
    | cons a es ih =>
      rintro ⟨e, he, hn⟩
      simp only [List.map_cons, mapRes]
      cases a with
      | num v =>
        simp only [List.mem_cons] at he
        rcases he with rfl | he
        · cases hn
        · simp only [embed, SymMat.numberOf, Res.bind_ok, ih ⟨e, he, hn⟩, Res.bind_throw]
      | var x => rfl
      | un o e => rfl
      | bin o a b => rfl
  unfold SymMat.toMat symOf
  rw [key _ ⟨E i j, (mem_entries E _).mpr ⟨i, j, rfl⟩, h⟩, Res.bind_throw]

/-- C50: the difference, entry by entry. -/
theorem C50_sub {r c : ℕ} (hr : 0 < r) (hc : 0 < c) (A B : Matrix (Fin r) (Fin c) (Expr α)) :
    (symOf A).sub (symOf B) = .ok (symOf (Matrix.of fun i j => Expr.bin .sub (A i j) (B i j))) := by
  have key : ∀ (as bs cs : List (Expr α)), List.Forall₂ (fun (p : Expr α × Expr α) e => e = .bin .sub p.1 p.2) (as.zip bs) cs →
      as.length = bs.length → SymMat.subEntries (as.map embed) (bs.map embed) = .ok (cs.map embed) := by
    intro as
    induction as with
    | nil => intro bs cs h _; cases h; rfl
    | cons a as ih =>
      intro bs cs h hl
      cases bs with
      | nil => simp at hl
      | cons b bs =>
        rw [List.zip_cons_cons] at h
        cases h with
        | cons h1 h2 =>
          subst h1
          simp only [List.map_cons, SymMat.subEntries, clone_eq _ (embed_isSome _), Res.bind_ok, ih bs _ h2 (by simpa using hl)]
          rfl
  unfold SymMat.sub
  have h1 : (symOf B).rows = (symOf A).rows ∧ (symOf B).cols = (symOf A).cols := ⟨rfl, rfl⟩
  have h2 : 0 < (symOf A).rows ∧ 0 < (symOf A).cols := ⟨hr, hc⟩
  rw [if_pos h1, if_pos h2]
  have hz : (entries A).zip (entries B) = entries (Matrix.of fun i j => (A i j, B i j)) := by
    apply List.ext_getElem <;> simp [entries]
  have := key (entries A) (entries B) (entries (Matrix.of fun i j => Expr.bin .sub (A i j) (B i j)))
    (by rw [hz]; exact forall₂_entries.mpr fun i j => rfl) (by rw [entries_length, entries_length])
  simp only [symOf, this, Res.bind_ok]

/-- C50: the product: entry (i, j) is the expression `A(i,0)*B(0,j) + A(i,1)*B(1,j) + ...`. -/
theorem C50_mul {r n c : ℕ} (hr : 0 < r) (hc : 0 < c) (A : Matrix (Fin r) (Fin (n + 1)) (Expr α))
    (B : Matrix (Fin (n + 1)) (Fin c) (Expr α)) :
    (symOf A).mul (symOf B) = .ok (symOf (Matrix.of fun i j => dotExpr (fun k => A i k) fun k => B k j)) := by
  unfold SymMat.mul SymMat.new
  have h1 : ¬ (symOf A).cols ≠ (symOf B).rows := by simp [symOf]
  have h2 : 0 < (symOf A).rows ∧ 0 < (symOf B).cols := ⟨hr, hc⟩
  rw [if_neg h1, if_pos h2]
  have e1 : (symOf A).rows = r := rfl
  have e2 : (symOf B).cols = c := rfl
  have e3 : (symOf A).cols = n + 1 := rfl
  simp only [Res.bind_ok, e1, e2, e3, Nat.add_sub_cancel]
  rw [flat_replicate]
  have hE : ∀ i j, i < r → j < c → (do
      let s ← SymMat.prodEntry (symOf A) (symOf B) i j 0
      forRes (fun s k => do
          let p ← SymMat.prodEntry (symOf A) (symOf B) i j k
          .ok (binaryNode .add s p)) ((List.range n).map (· + 1)) s)
      = .ok (if h : i < r ∧ j < c then embed (dotExpr (fun k => A ⟨i, h.1⟩ k) fun k => B k ⟨j, h.2⟩) else .nil) := by
    intro i j hi hj
    rw [dif_pos ⟨hi, hj⟩]
    exact mulEntry_eq A B ⟨i, hi⟩ ⟨j, hj⟩
  have := symFill (r := r) (c := c) _ _ hE (fun _ _ => .nil)
  simp only [Res.bind_assoc'] at this
  refine this.trans ?_
  congr 2
  rw [flat_entries, entries_map]
  congr 1
  ext i j
  simp

/-- C50: a product of matrices that do not fit throws `SIZE_NOT_MATCH`, and only such a product does. -/
theorem C50_mul_size {r m m' c : ℕ} (A : Matrix (Fin r) (Fin m) (Expr α)) (B : Matrix (Fin m') (Fin c) (Expr α)) (hr : 0 < r)
    (hm : 0 < m) (hc : 0 < c) :
    (symOf A).mul (symOf B) = .throw (.math .sizeNotMatch) ↔ m ≠ m' := by
  constructor
  · intro h e
    subst e
    obtain ⟨n, rfl⟩ : ∃ n, m = n + 1 := ⟨m - 1, by omega⟩
    rw [C50_mul hr hc] at h
    cases h
  · intro h
    unfold SymMat.mul
    have h1 : (symOf A).cols ≠ (symOf B).rows := h
    rw [if_pos h1]

/-- C50: equality: the same sizes and pairwise equal entries (as trees; see C11). -/
theorem C50_eq (h0 : Arith.eq (Dbl.ofInt 0 : α) (Dbl.ofInt 0) = true) {r c : ℕ} (A B : Matrix (Fin r) (Fin c) (Expr α)) :
    ∃ b, SymMat.eq false (symOf A) (symOf B) = .ok b ∧ (b = true ↔ ∀ i j, SameExpr (A i j) (B i j)) := by
  have key : ∀ (as bs : List (Expr α)), as.length = bs.length →
      ∃ b, SymMat.eqEntries false (as.map embed) (bs.map embed) = .ok b ∧ (b = true ↔ List.Forall₂ SameExpr as bs) := by
    intro as
    induction as with
    | nil =>
      intro bs h
      cases bs with
      | nil => exact ⟨true, rfl, by simp⟩
      | cons => simp at h
    | cons a as ih =>
      intro bs h
      cases bs with
      | nil => simp at h
      | cons b bs =>
        obtain ⟨q, h1, h2⟩ := ih bs (by simpa using h)
        obtain ⟨p, h3, h4⟩ := C11_equal h0 a b
        simp only [List.map_cons, SymMat.eqEntries, h3, Res.bind_ok, List.forall₂_cons]
        cases p with
        | true => exact ⟨q, by simpa using h1, by rw [h2]; simp [h4.mp rfl]⟩
        | false =>
          refine ⟨false, by simp, ?_⟩
          simp only [Bool.false_eq_true, false_iff]
          intro h5
          exact absurd (h4.mpr h5.1) (by simp)
  obtain ⟨b, h1, h2⟩ := key (entries A) (entries B) (by rw [entries_length, entries_length])
  refine ⟨b, ?_, h2.trans forall₂_entries⟩
  unfold SymMat.eq
  have h3 : ¬ ((symOf B).rows ≠ (symOf A).rows ∨ (symOf B).cols ≠ (symOf A).cols) := by simp [symOf]
  rw [if_neg h3]
  exact h1

/-- C50: matrices of different sizes are different. -/
theorem C50_eq_size {r c r' c' : ℕ} (A : Matrix (Fin r) (Fin c) (Expr α)) (B : Matrix (Fin r') (Fin c') (Expr α)) (same : Bool)
    (h : r ≠ r' ∨ c ≠ c') : SymMat.eq same (symOf A) (symOf B) = .ok false := by
  unfold SymMat.eq
  have h3 : ((symOf B).rows ≠ (symOf A).rows ∨ (symOf B).cols ≠ (symOf A).cols) := h.imp (·.symm) (·.symm)
  rw [if_pos h3]

/-- C50: the variables of a matrix: sorted, without repetition, exactly those of the entries. -/
theorem C50_getAllVarNames {r c : ℕ} (E : Matrix (Fin r) (Fin c) (Expr α)) :
    ∃ out, (symOf E).getAllVarNames = .ok out ∧ out.Pairwise (fun a b => strLt a b = true) ∧
      ∀ y, y ∈ out ↔ ∃ i j, y ∈ (E i j).vars := by
  have ins : ∀ (names s : List Str), s.Pairwise (fun a b => strLt a b = true) →
      (names.foldl (fun s x => setInsert x s) s).Pairwise (fun a b => strLt a b = true) ∧
      ∀ y, y ∈ names.foldl (fun s x => setInsert x s) s ↔ y ∈ names ∨ y ∈ s := by
    intro names
    induction names with
    | nil => intro s hs; exact ⟨hs, by simp⟩
    | cons n names ih =>
      intro s hs
      obtain ⟨h1, h2⟩ := ih (setInsert n s) (setInsert_sorted n s hs)
      refine ⟨h1, fun y => ?_⟩
      rw [List.foldl_cons, h2, mem_setInsert, List.mem_cons]
      tauto
  have key : ∀ (es : List (Expr α)) (s : List Str), s.Pairwise (fun a b => strLt a b = true) →
      ∃ out, forRes (fun (ret : List Str) n => do
        let names ← Tom.getAllVarNames n
        .ok (names.foldl (fun s x => setInsert x s) ret)) (es.map embed) s = .ok out ∧
        out.Pairwise (fun a b => strLt a b = true) ∧ ∀ y, y ∈ out ↔ y ∈ s ∨ ∃ e ∈ es, y ∈ e.vars := by
    intro es
    induction es with
    | nil => intro s hs; exact ⟨s, rfl, hs, by simp⟩
    | cons e es ih =>
      intro s hs
      obtain ⟨names, h1, h2, _, h3⟩ := C16_getAllVarNames e
      obtain ⟨h4, h5⟩ := ins names s hs
      obtain ⟨out, h6, h7, h8⟩ := ih _ h4
      refine ⟨out, ?_, h7, fun y => ?_⟩
      · simp only [List.map_cons, forRes, h1, Res.bind_ok]
        exact h6
      · rw [h8, h5, h3]
        simp only [List.mem_cons, exists_eq_or_imp]
        tauto
  obtain ⟨out, h1, h2, h3⟩ := key (entries E) [] List.Pairwise.nil
  refine ⟨out, h1, h2, fun y => ?_⟩
  rw [h3]
  simp only [List.not_mem_nil, false_or]
  constructor
  · rintro ⟨e, he, hy⟩
    obtain ⟨i, j, rfl⟩ := (mem_entries E e).mp he
    exact ⟨i, j, hy⟩
  · rintro ⟨i, j, hy⟩
    exact ⟨E i j, (mem_entries E _).mpr ⟨i, j, rfl⟩, hy⟩

/-- C50: `Clone().Subs(table).Calc().ToMat()` gives a matrix exactly when every entry has a value in the environment of the
table, and then the matrix of these values. -/
theorem C50_evaluate {r c : ℕ} (hr : 0 < r) (hc : 0 < c) (cfg : Config α) (E : Matrix (Fin r) (Fin c) (Expr α)) (t : VarsTable α)
    (m : Mat α) :
    evalMat cfg (symOf E) t = .ok m ↔
      ∃ v : Matrix (Fin r) (Fin c) α, m = ofEntries v ∧ ∀ i j, (E i j).eval cfg.throwOnInvalidValue (envOf t.table) = .ok (v i j) := by
  unfold symOf
  rw [evalMat_list cfg r c hr hc]
  constructor
  · intro h
    obtain ⟨vs, h1, h2⟩ := Res.bind_eq_ok.mp h
    rw [evalAll_eq_ok] at h1
    have hl : vs.length = r * c := by rw [← h1.length_eq, entries_length]
    obtain ⟨v, rfl⟩ := exists_entries r c vs hl
    rw [Res.ok.injEq] at h2
    exact ⟨v, h2.symm, forall₂_entries (R := fun e v => Expr.eval cfg.throwOnInvalidValue (envOf t.table) e = Res.ok v) |>.mp h1⟩
  · rintro ⟨v, rfl, h⟩
    rw [evalAll_eq_ok.mpr ((forall₂_entries (R := fun e v => Expr.eval cfg.throwOnInvalidValue (envOf t.table) e = Res.ok v)).mpr h), Res.bind_ok]
    rfl

/-- evaluating the expression for an entry of the product -/
theorem eval_dotExpr {K : Type} [Field K] [LinearOrder K] [Exact α K] (hvalid : ∀ k : K, Dbl.isInvalid (fin k : α) = false)
    (strict : Bool) (env : Str → Res α) {n : ℕ} (a b : Fin (n + 1) → Expr α) (x y : Fin (n + 1) → K)
    (ha : ∀ k, (a k).eval strict env = .ok (fin (x k))) (hb : ∀ k, (b k).eval strict env = .ok (fin (y k))) :
    (dotExpr a b).eval strict env = .ok (fin (∑ k, x k * y k)) := by
  have hc : ∀ k : K, checked strict (fin k : α) = .ok (fin k) := by intro k; simp [checked, hvalid]
  have hm : ∀ k, (Expr.bin .mul (a k) (b k)).eval strict env = .ok (fin (x k * y k)) := by
    intro k
    simp only [Expr.eval, ha, hb, Res.bind_ok, BinOp.apply, Exact.mul, hc]
  have key : ∀ (l : List (Fin n)) (e : Expr α) (s : K), e.eval strict env = .ok (fin s) →
      ((l.map fun k => Expr.bin .mul (a k.succ) (b k.succ)).foldl (.bin .add) e).eval strict env
        = .ok (fin (s + (l.map fun k => x k.succ * y k.succ).sum)) := by
    intro l
    induction l with
    | nil => intro e s h; simpa using h
    | cons k l ih =>
      intro e s h
      simp only [List.map_cons, List.foldl_cons, List.sum_cons]
      rw [ih _ (s + x k.succ * y k.succ)]
      · rw [add_assoc]
      · rw [Expr.eval, h, hm]
        simp only [Res.bind_ok, BinOp.apply, Exact.add, hc]
  unfold dotExpr
  have e1 : (List.ofFn fun k : Fin n => Expr.bin .mul (a k.succ) (b k.succ))
      = (List.finRange n).map fun k => Expr.bin .mul (a k.succ) (b k.succ) := by
    rw [List.ofFn_eq_map]
  rw [e1, key _ _ _ (hm 0)]
  congr 2
  rw [Fin.sum_univ_succ]
  congr 1

/-- C50: evaluating a symbolic product gives the product of the evaluated matrices (exact arithmetic). -/
theorem C50_evaluate_mul {K : Type} [Field K] [LinearOrder K] [Exact α K] (hvalid : ∀ k : K, Dbl.isInvalid (fin k : α) = false)
    {r m c : ℕ} (hr : 0 < r) (hm : 0 < m) (hc : 0 < c) (cfg : Config α) (t : VarsTable α)
    (A : Matrix (Fin r) (Fin m) (Expr α)) (B : Matrix (Fin m) (Fin c) (Expr α))
    (a : Matrix (Fin r) (Fin m) K) (b : Matrix (Fin m) (Fin c) K)
    (ha : evalMat cfg (symOf A) t = .ok (ofMatrix a)) (hb : evalMat cfg (symOf B) t = .ok (ofMatrix b)) :
    ∃ P, (symOf A).mul (symOf B) = .ok P ∧ evalMat cfg P t = .ok (ofMatrix (a * b)) := by
  obtain ⟨n, rfl⟩ : ∃ n, m = n + 1 := ⟨m - 1, by omega⟩
  refine ⟨_, C50_mul hr hc A B, ?_⟩
  have get : ∀ {r c : ℕ} (hr : 0 < r) (hc : 0 < c) (E : Matrix (Fin r) (Fin c) (Expr α)) (e : Matrix (Fin r) (Fin c) K),
      evalMat cfg (symOf E) t = .ok (ofMatrix e) → ∀ i j, (E i j).eval cfg.throwOnInvalidValue (envOf t.table) = .ok (fin (e i j)) := by
    intro r c hr hc E e h
    obtain ⟨v, h1, h2⟩ := (C50_evaluate hr hc cfg E t _).mp h
    have h3 : e.map (fin : K → α) = v := by
      apply entries_inj
      have := congrArg Mat.data h1
      exact this
    intro i j
    rw [h2, ← h3]; rfl
  rw [C50_evaluate hr hc]
  refine ⟨(a * b).map fin, rfl, fun i j => ?_⟩
  simp only [Matrix.of_apply]
  rw [eval_dotExpr hvalid _ _ _ _ (fun k => a i k) (fun k => b k j) (fun k => get hr hm A a ha i k) (fun k => get hm hc B b hb k j)]
  rfl

example : ∀ k : ℝ, Dbl.isInvalid (fin k : XNum ℝ) = false := fun _ => rfl

/-- C50: `ToSymVec` keeps a column and rejects every other matrix. -/
theorem C50_toSymVec {r c : ℕ} (hr : 0 < r) (E : Matrix (Fin r) (Fin c) (Expr α)) :
    (symOf E).toSymVec = if c = 1 then .ok (symOf E) else .throw .runtime := by
  unfold SymMat.toSymVec
  have h1 : ¬ (symOf E).rows = 0 := by simp only [symOf]; omega
  rw [if_neg h1]
  by_cases hc : c = 1
  · subst hc
    have h2 : ¬ (symOf E).cols ≠ 1 := by simp [symOf]
    rw [if_neg h2, if_pos rfl]
    unfold SymMat.toSymVecOneByOne
    have h3 : 0 < (symOf E).rows * (symOf E).cols := by simp only [symOf]; omega
    rw [if_pos h3]
    simp only [symOf, clone_list, Res.bind_ok, Nat.mul_one]
  · have h2 : (symOf E).cols ≠ 1 := hc
    rw [if_pos h2, if_neg hc]

/-! ### C32 -/

/-- C32: if `Jacobian(f, vars)` returns, it has one row per equation and one column per variable and entry (i, j) is what
`Diff(f_i, vars_j)` returns. -/
theorem C32 {r : ℕ} (hr : 0 < r) (cfg : Config α) (f : Matrix (Fin r) (Fin 1) (Expr α)) (vars : List Str) (hv : 0 < vars.length)
    (J : SymMat α) (h : (symOf f).jacobian cfg vars = .ok J) :
    J.rows = r ∧ J.cols = vars.length ∧ J.data.length = r * vars.length ∧
    ∀ (i : Fin r) (j : Fin vars.length), ∃ d, J.value i j = .ok (embed d) ∧ diffConst cfg (embed (f i 0)) vars[j] 1 = .ok (embed d) := by
  have hl : (entries f).length = r := by rw [entries_length, Nat.mul_one]
  have hj := jacobian_list cfg (entries f) 1 vars (by omega) hv
  rw [hl] at hj
  have : symOf f = ⟨r, 1, (entries f).map embed⟩ := rfl
  rw [this, hj] at h
  generalize hM : mapRes (fun k => do
        let e ← readAt ((entries f).map embed) (k / vars.length)
        let x ← readAt vars (k % vars.length)
        diffConst cfg e x 1) (List.range (r * vars.length)) = M at h
  cases M with
  | ok d =>
    simp only [Res.bind_ok, Res.noexcept_ok, Res.ok.injEq] at h
    subst h
    rw [mapRes_eq_ok] at hM
    have hdl : d.length = r * vars.length := by rw [← hM.length_eq]; simp
    refine ⟨rfl, rfl, hdl, fun i j => ?_⟩
    have hlt := idx_lt i.2 j.2
    have := (List.forall₂_iff_get.mp hM).2 ((i : ℕ) * vars.length + j) (by simpa using hlt) (by rw [hdl]; exact hlt)
    simp only [List.get_eq_getElem, List.getElem_range] at this
    rw [idx_div j.2, idx_mod j.2] at this
    have h1 : readAt ((entries f).map embed) (i : ℕ) = .ok (embed (f i 0)) := by
      have := symValue f i 0
      unfold SymMat.value at this
      simpa [symOf] using this
    have h2 : readAt vars (j : ℕ) = .ok vars[j] := by
      simp [readAt]
    rw [h1, h2] at this
    simp only [Res.bind_ok] at this
    rcases diffConst_outcomes cfg (f i 0) vars[j] with ⟨e', he⟩ | he | he
    · rw [he, Res.ok.injEq] at this
      refine ⟨e', ?_, he⟩
      unfold SymMat.value readAt
      simp only
      rw [List.getElem?_eq_getElem (by rw [hdl]; exact hlt), ← this]
    · rw [he] at this; cases this
    · rw [he] at this; cases this
  | throw x => cases h
  | ub => cases h
  | terminate => cases h
  | assertFail => cases h
  | diverge => cases h

/-- C32: `Jacobian` returns exactly when every `Diff(f_i, vars_j)` does; otherwise the process is terminated (it is declared
`noexcept`). -/
theorem C32_returns {r : ℕ} (hr : 0 < r) (cfg : Config α) (f : Matrix (Fin r) (Fin 1) (Expr α)) (vars : List Str)
    (hv : 0 < vars.length) :
    ((∃ J, (symOf f).jacobian cfg vars = .ok J) ↔
      ∀ (i : Fin r) (j : Fin vars.length), ∃ d, diffConst cfg (embed (f i 0)) vars[j] 1 = .ok d) ∧
    ((∀ J, (symOf f).jacobian cfg vars ≠ .ok J) → (symOf f).jacobian cfg vars = .terminate) := by
  have hl : (entries f).length = r := by rw [entries_length, Nat.mul_one]
  have hj := jacobian_list cfg (entries f) 1 vars (by omega) hv
  rw [hl] at hj
  have e0 : symOf f = ⟨r, 1, (entries f).map embed⟩ := rfl
  have hread : ∀ k, k < r * vars.length → ∃ (i : Fin r) (j : Fin vars.length), k = i * vars.length + j ∧ (do
        let e ← readAt ((entries f).map embed) (k / vars.length)
        let x ← readAt vars (k % vars.length)
        diffConst cfg e x 1) = diffConst cfg (embed (f i 0)) vars[j] 1 := by
    intro k hk
    refine ⟨⟨k / vars.length, row_of_idx hk⟩, ⟨k % vars.length, col_of_idx hk⟩, ?_, ?_⟩
    · simp only; rw [Nat.mul_comm]; exact (Nat.div_add_mod k vars.length).symm
    · have h1 : readAt ((entries f).map embed) (k / vars.length) = .ok (embed (f ⟨k / vars.length, row_of_idx hk⟩ 0)) := by
        have := symValue f ⟨k / vars.length, row_of_idx hk⟩ 0
        unfold SymMat.value at this
        simpa [symOf] using this
      have h2 : readAt vars (k % vars.length) = .ok (vars[k % vars.length]'(col_of_idx hk)) := by
        simp [readAt, List.getElem?_eq_getElem (col_of_idx hk)]
      rw [h1, h2]
      rfl
  have out : ∀ l : List ℕ, (∀ k ∈ l, k < r * vars.length) → (∃ d, mapRes (fun k => do
        let e ← readAt ((entries f).map embed) (k / vars.length)
        let x ← readAt vars (k % vars.length)
        diffConst cfg e x 1) l = .ok d) ∨ mapRes (fun k => do
        let e ← readAt ((entries f).map embed) (k / vars.length)
        let x ← readAt vars (k % vars.length)
        diffConst cfg e x 1) l = .throw .runtime ∨ mapRes (fun k => do
        let e ← readAt ((entries f).map embed) (k / vars.length)
        let x ← readAt vars (k % vars.length)
        diffConst cfg e x 1) l = .terminate := by
    intro l
    induction l with
    | nil => intro _; exact .inl ⟨[], rfl⟩
    | cons k l ih =>
      intro h
      obtain ⟨i, j, _, hk⟩ := hread k (h k (by simp))
      simp only [mapRes, hk]
      rcases diffConst_outcomes cfg (f i 0) vars[j] with ⟨e', he⟩ | he | he
      · rw [he, Res.bind_ok]
        rcases ih fun k hk => h k (by simp [hk]) with ⟨d, hd⟩ | hd | hd
        · rw [hd]; exact .inl ⟨_, rfl⟩
        · rw [hd]; exact .inr (.inl rfl)
        · rw [hd]; exact .inr (.inr rfl)
      · rw [he]; exact .inr (.inl rfl)
      · rw [he]; exact .inr (.inr rfl)
  refine ⟨⟨?_, ?_⟩, ?_⟩
  · rintro ⟨J, h⟩ i j
    obtain ⟨_, _, _, h4⟩ := C32 hr cfg f vars hv J h
    obtain ⟨d, _, hd⟩ := h4 i j
    exact ⟨_, hd⟩
  · intro h
    choose d hd using h
    have : mapRes (fun k => do
        let e ← readAt ((entries f).map embed) (k / vars.length)
        let x ← readAt vars (k % vars.length)
        diffConst cfg e x 1) (List.range (r * vars.length))
        = .ok ((List.range (r * vars.length)).map fun k =>
            if hk : k < r * vars.length then d ⟨k / vars.length, row_of_idx hk⟩ ⟨k % vars.length, col_of_idx hk⟩ else .nil) := by
      refine mapRes_ok fun k hk => ?_
      have hk : k < r * vars.length := by simpa using hk
      obtain ⟨i, j, hij, h1⟩ := hread k hk
      rw [h1, dif_pos hk, hd]
      congr 2
      · apply Fin.ext; simp only; rw [hij, idx_div j.2]
      · apply Fin.ext; simp only; rw [hij, idx_mod j.2]
    rw [e0, hj, this]
    exact ⟨_, rfl⟩
  · intro h
    rw [e0, hj] at h ⊢
    rcases out (List.range (r * vars.length)) (by simp) with ⟨d, hd⟩ | hd | hd
    · rw [hd] at h; exact absurd rfl (h _)
    · rw [hd]; rfl
    · rw [hd]; rfl

/-- C32: over the reals, at a point where every equation is smooth, `Jacobian` returns a matrix of expressions whose values
are the partial derivatives (excluded as for C26: `exp` of a bare foreign variable). -/
theorem C32_partial_derivatives {r : ℕ} (hr : 0 < r) (cfg : Config (XNum ℝ)) (ρ : Str → ℝ)
    (f : Matrix (Fin r) (Fin 1) (Expr (XNum ℝ))) (vars : List Str) (hv : 0 < vars.length)
    (hs : ∀ i, Smooth 1 ρ (f i 0)) (hf : ∀ i, ∀ x ∈ vars, (f i 0).NoForeignExp x) :
    ∃ J : Matrix (Fin r) (Fin vars.length) (Expr (XNum ℝ)), (symOf f).jacobian cfg vars = .ok (symOf J) ∧
      ∀ i j, ∃ d, realVal ρ (J i j) = some d ∧ HasPartialDeriv ρ vars[j] (f i 0) d := by
  have hd : ∀ (i : Fin r) (j : Fin vars.length), diffConst cfg (embed (f i 0)) vars[j] 1 = diff cfg (embed (f i 0)) vars[j] 1 := by
    intro i j; unfold diffConst; rw [clone_eq _ (embed_isSome _), Res.bind_ok]
  have h1 : ∀ (i : Fin r) (j : Fin vars.length), ∃ d, diffConst cfg (embed (f i 0)) vars[j] 1 = .ok d := by
    intro i j
    obtain ⟨e', d, h, _⟩ := C26_C28_partial cfg ρ vars[j] (f i 0) (hs i) (hf i _ (List.getElem_mem _))
    exact ⟨_, (hd i j).trans h⟩
  obtain ⟨J, hJ⟩ := (C32_returns hr cfg f vars hv).1.mpr h1
  obtain ⟨h2, h3, h4, h5⟩ := C32 hr cfg f vars hv J hJ
  choose D hD1 hD2 using h5
  refine ⟨Matrix.of D, ?_, fun i j => ?_⟩
  · rw [hJ]
    congr 1
    obtain ⟨jr, jc, jd⟩ := J
    simp only at h2 h3 h4
    subst h2 h3
    simp only [symOf, SymMat.mk.injEq, true_and]
    obtain ⟨A, rfl⟩ := exists_entries jr vars.length jd h4
    rw [entries_map]
    congr 1
    ext i j : 2
    have := hD1 i j
    unfold SymMat.value readAt at this
    simp only [entries_get, Res.ok.injEq] at this
    rw [this]; rfl
  · obtain ⟨e', d, h, hv', hp⟩ := C26_C28_partial cfg ρ vars[j] (f i 0) (hs i) (hf i _ (List.getElem_mem _))
    have h6 := hD2 i j
    rw [hd i j, h, Res.ok.injEq] at h6
    refine ⟨d, ?_, hp⟩
    have : e' = D i j := embed_injective h6
    rw [Matrix.of_apply, ← this]; exact hv'

/-- The hypotheses are met: two equations in two variables. -/
example (ρ : Str → ℝ) : ∃ f : Matrix (Fin 2) (Fin 1) (Expr (XNum ℝ)), (∀ i, Smooth 1 ρ (f i 0)) ∧
    ∀ i, ∀ x ∈ [['x'], ['y']], (f i 0).NoForeignExp x := by
  refine ⟨Matrix.of fun i _ => if i = 0 then .bin .mul (.var ['x']) (.var ['y']) else .un .sin (.var ['x']), ?_, ?_⟩
  · intro i
    fin_cases i <;> simp [Smooth, realVal, UnOp.real, BinOp.real, UnOp.smoothAt]
  · intro i x _
    fin_cases i <;> simp [Expr.NoForeignExp]

/-! ### C57 -/

theorem layout_row (cols n : ℕ) (rest : List Str) : ∀ (row : List Str) (i : ℕ), row ≠ [] → i % cols + row.length = cols →
    layoutLoop cols n (row ++ rest) i
      = (if i = 0 then [] else [' ']) ++ [',', ' ', ' '].intercalate row ++
        ((if i + row.length = n then [']', '\n'] else ['\n']) ++ layoutLoop cols n rest (i + row.length)) := by
  intro row
  induction row with
  | nil => intro i h _; exact absurd rfl h
  | cons t row ih =>
    intro i _ hl
    cases row with
    | nil =>
      simp only [List.length_singleton] at hl
      have hm : (i + 1) % cols = 0 := by
        rcases Nat.eq_zero_or_pos cols with h0 | h0
        · omega
        · rw [Nat.add_mod]
          by_cases h1 : cols = 1
          · subst h1; omega
          · rw [Nat.mod_eq_of_lt (by omega : 1 < cols), hl, Nat.mod_self]
      simp [layoutLoop, hm, List.intercalate]
    | cons t' row =>
      simp only [List.length_cons] at hl
      have hlt : i % cols + 1 < cols := by omega
      have hm : (i + 1) % cols = i % cols + 1 := by
        rw [Nat.add_mod, Nat.mod_eq_of_lt (by omega : 1 < cols), Nat.mod_eq_of_lt hlt]
      have h1 := ih (i + 1) (by simp) (by rw [hm]; simp only [List.length_cons]; omega)
      rw [List.cons_append, layoutLoop, h1, hm]
      have e : i + 1 + (t' :: row).length = i + (t :: t' :: row).length := by simp only [List.length_cons]; omega
      rw [e]
      simp only [List.intercalate, List.intersperse, Nat.add_eq_zero_iff, one_ne_zero, and_false, if_false, List.flatten_cons,
        List.append_assoc, List.cons_append, List.nil_append]

theorem layout_rows (cols n : ℕ) : ∀ (rows : List (List Str)) (i : ℕ), rows ≠ [] → 0 < cols → (∀ row ∈ rows, row.length = cols) →
    i % cols = 0 → i + rows.length * cols = n →
    layoutLoop cols n rows.flatten i
      = (if i = 0 then [] else [' ']) ++ ['\n', ' '].intercalate (rows.map ([',', ' ', ' '].intercalate ·)) ++ [']', '\n'] := by
  intro rows
  induction rows with
  | nil => intro i h; exact absurd rfl h
  | cons row rows ih =>
    intro i _ hc hr hi hn
    have hrow := hr row (by simp)
    have h0 : row ≠ [] := by rintro rfl; simp at hrow; omega
    rw [List.flatten_cons, layout_row cols n _ row i h0 (by rw [hi, hrow]; omega)]
    cases rows with
    | nil =>
      simp only [List.length_singleton, Nat.one_mul] at hn
      have hn' : i + row.length = n := by rw [hrow]; exact hn
      simp [layoutLoop, List.intercalate, hn']
    | cons row' rows =>
      have h1 := ih (i + row.length) (by simp) hc (fun r h => hr r (by simp [h])) (by rw [hrow, Nat.add_mod_right]; exact hi)
        (by rw [← hn]; simp only [List.length_cons, hrow]; rw [Nat.succ_mul (rows.length + 1)]; omega)
      have g1 : ¬ i + row.length = 0 := by omega
      have g2 : ¬ i + row.length = n := by
        rw [← hn]
        simp only [List.length_cons, hrow]
        rw [Nat.succ_mul, Nat.succ_mul]; omega
      rw [h1, if_neg g1, if_neg g2]
      simp only [List.map_cons, List.intercalate, List.intersperse, List.flatten_cons, List.append_assoc, List.cons_append,
        List.nil_append]

/-- C57: the layout of a matrix with the given rows of texts (each of the same positive length): every entry once, in row-major
order, a comma and two blanks between the entries of a row, a line break and a blank between rows, all in brackets. -/
theorem C57_layout (rows : List (List Str)) (cols : ℕ) (h : rows ≠ []) (hc : 0 < cols) (hr : ∀ row ∈ rows, row.length = cols) :
    layout cols rows.flatten
      = ['['] ++ ['\n', ' '].intercalate (rows.map ([',', ' ', ' '].intercalate ·)) ++ [']', '\n'] := by
  have hlen : rows.flatten.length = rows.length * cols := by
    clear h
    induction rows with
    | nil => simp
    | cons row rows ih =>
      rw [List.flatten_cons, List.length_append, hr row (by simp), ih fun r h => hr r (by simp [h]), List.length_cons, Nat.succ_mul]
      omega
  have hne : rows.flatten ≠ [] := by
    intro e
    rw [e] at hlen
    have : 0 < rows.length := List.length_pos_iff.mpr h
    have := Nat.mul_pos this hc
    simp only [List.length_nil] at hlen; omega
  unfold layout
  rw [if_neg hne, layout_rows cols _ rows 0 h hc hr (Nat.zero_mod _) (by rw [hlen]; omega)]
  simp

/-- the rows of a matrix -/
def rowsOf {β : Type} {r c : ℕ} (A : Matrix (Fin r) (Fin c) β) : List (List β) := List.ofFn fun i => List.ofFn fun j => A i j

theorem rowsOf_flatten {β : Type} {r c : ℕ} (A : Matrix (Fin r) (Fin c) β) : (rowsOf A).flatten = entries A := by
  unfold rowsOf entries
  rw [List.ofFn_mul]
  congr 2
  funext i
  congr 1
  funext j
  congr 1
  · apply Fin.ext; simp only [Fin.divNat]; exact (idx_div j.2).symm
  · apply Fin.ext; simp only [Fin.modNat]; exact (idx_mod j.2).symm

theorem layout_entries {r c : ℕ} (hr : 0 < r) (hc : 0 < c) (A : Matrix (Fin r) (Fin c) Str) :
    layout c (entries A)
      = ['['] ++ ['\n', ' '].intercalate ((rowsOf A).map ([',', ' ', ' '].intercalate ·)) ++ [']', '\n'] := by
  rw [← rowsOf_flatten]
  refine C57_layout (rowsOf A) c ?_ hc ?_
  · intro e
    have := congrArg List.length e
    simp [rowsOf] at this
    omega
  · intro row h
    simp only [rowsOf, List.mem_ofFn] at h
    obtain ⟨i, rfl⟩ := h
    simp

/-- C57: `Mat::ToString` prints the texts of the numbers in this layout. -/
theorem C57_mat {r c : ℕ} (hr : 0 < r) (hc : 0 < c) (A : Matrix (Fin r) (Fin c) α) :
    (ofEntries A).toString
      = ['['] ++ ['\n', ' '].intercalate ((rowsOf (Matrix.of fun i j => Dbl.toStr (A i j))).map ([',', ' ', ' '].intercalate ·))
        ++ [']', '\n'] := by
  unfold Mat.toString
  rw [ofEntries_entries]
  simp only
  rw [entries_map]
  exact layout_entries hr hc _

/-- C57: `SymMat::ToString` prints the texts of the expressions in this layout. -/
theorem C57_symMat {r c : ℕ} (hr : 0 < r) (hc : 0 < c) (E : Matrix (Fin r) (Fin c) (Expr α)) (T : Matrix (Fin r) (Fin c) Str)
    (h : ∀ i j, toStringNode (embed (E i j)) = .ok (T i j)) :
    (symOf E).toString
      = .ok (['['] ++ ['\n', ' '].intercalate ((rowsOf T).map ([',', ' ', ' '].intercalate ·)) ++ [']', '\n']) := by
  unfold SymMat.toString symOf
  simp only
  rw [mapRes_map, mapRes_eq_ok.mpr (forall₂_entries (R := fun e s => toStringNode (embed e) = Res.ok s) |>.mpr h), Res.bind_ok,
    layout_entries hr hc]

/-- C57: a matrix without entries (one that was moved from), whatever its sizes say. -/
theorem C57_empty (rows cols : ℕ) : (⟨rows, cols, []⟩ : Mat α).toString = "[]\n".toList := rfl

/-- C57: a variable table prints one line `name = value` per variable, in increasing order of the names (C46). -/
theorem C57_table (t : VarsTable α) :
    t.toString = (t.table.map fun kv => kv.1 ++ [' ', '=', ' '] ++ Dbl.toStr kv.2 ++ ['\n']).flatten := by
  have key : ∀ (l : List (Str × α)) (s : Str),
      l.foldl (fun ret kv => ret ++ (kv.1 ++ [' ', '=', ' '] ++ Dbl.toStr kv.2 ++ ['\n'])) s
        = s ++ (l.map fun kv => kv.1 ++ [' ', '=', ' '] ++ Dbl.toStr kv.2 ++ ['\n']).flatten := by
    intro l
    induction l with
    | nil => simp
    | cons kv l ih => intro s; rw [List.foldl_cons, ih]; simp
  have := key t.table []
  simpa [VarsTable.toString] using this

example : (ofEntries (Matrix.of fun (i j : Fin 2) => XNum.fin ((10 * i.val + j.val : ℕ) : Rat))).toString
    = "[0,  1\n 10,  11]\n".toList := by decide +kernel

theorem foldl_max_length {β : Type} (l : List (List β)) (r : ℕ) :
    let m := l.foldl (fun r l => max r l.length) r
    r ≤ m ∧ (∀ x ∈ l, x.length ≤ m) ∧ (m = r ∨ ∃ x ∈ l, x.length = m) := by
  induction l generalizing r with
  | nil => simp
  | cons a l ih =>
    obtain ⟨h1, h2, h3⟩ := ih (max r a.length)
    simp only [List.foldl_cons, List.mem_cons, forall_eq_or_imp, exists_eq_or_imp]
    refine ⟨le_trans (le_max_left _ _) h1, ⟨le_trans (le_max_right _ _) h1, h2⟩, ?_⟩
    rcases h3 with h3 | h3
    · rcases max_choice r a.length with hm | hm
      · exact .inl (h3.trans hm)
      · exact .inr (.inl (h3.trans hm).symm)
    · exact .inr (.inr h3)

theorem getElem?_flatMap_const {β γ : Type} (f : γ → List β) (c : ℕ) (l : List γ) (hl : ∀ x ∈ l, (f x).length = c) (i j : ℕ) (hj : j < c) :
    (l.flatMap f)[i * c + j]? = (l[i]?).bind fun x => (f x)[j]? := by
  induction l generalizing i with
  | nil => simp
  | cons a l ih =>
    have ha := hl a (by simp)
    rw [List.flatMap_cons]
    cases i with
    | zero => rw [List.getElem?_append_left (by omega)]; simp
    | succ i =>
      rw [List.getElem?_append_right (by rw [ha]; nlinarith), ha, show (i + 1) * c + j - c = i * c + j by rw [Nat.add_mul]; omega,
        ih (fun x hx => hl x (by simp [hx]))]
      simp

omit [Dbl α] in
/-- C65: `SymMat{{...}}` has as many rows as are listed and as many columns as the longest of them; the entries are the listed expressions,
and the places a short row does not fill are null. -/
theorem C65_symbolic (init : List (List (Raw α))) (h : init ≠ []) : ∃ m, SymMat.ofInit init = .ok m ∧ m.rows = init.length ∧
    (∀ l ∈ init, l.length ≤ m.cols) ∧ (∃ l ∈ init, l.length = m.cols) ∧ m.data.length = m.rows * m.cols ∧
    ∀ i j, i < m.rows → j < m.cols → m.value i j = .ok ((init.getD i []).getD j .nil) := by
  unfold SymMat.ofInit
  rw [if_neg h]
  obtain ⟨h1, h2, h3⟩ := foldl_max_length init 0
  generalize hc : init.foldl (fun r l => max r l.length) 0 = c at *
  have hlen : ∀ l ∈ init, (l ++ List.replicate (c - l.length) (Raw.nil : Raw α)).length = c := by
    intro l hl
    have := h2 l hl
    simp; omega
  refine ⟨_, rfl, rfl, h2, ?_, ?_, ?_⟩
  · rcases h3 with h3 | h3
    · obtain ⟨l, hl⟩ := List.exists_mem_of_ne_nil init h
      exact ⟨l, hl, le_antisymm (h2 l hl) (by show c ≤ _; omega)⟩
    · exact h3
  · show (init.flatMap _).length = init.length * c
    rw [List.length_flatMap, List.map_congr_left hlen]
    simp
  · intro i j hi hj
    have hi : i < init.length := hi
    have hj : j < c := hj
    show readAt _ (i * c + j) = _
    unfold readAt
    rw [getElem?_flatMap_const _ c init hlen i j hj, List.getElem?_eq_getElem hi]
    have e : init.getD i [] = init[i] := by simp [List.getD, hi]
    rw [e, Option.bind_some]
    by_cases hj' : j < init[i].length
    · rw [List.getElem?_append_left hj', List.getElem?_eq_getElem hj']
      simp [List.getD, hj']
    · rw [List.getElem?_append_right (by omega), List.getElem?_replicate, if_pos (by have := h2 _ (List.getElem_mem hi); omega)]
      simp [List.getD, not_lt.mp hj']

/-- a ragged list: the second row is short -/
example : SymMat.ofInit [[(mkNum (.fin 1) : Raw (XNum ℚ)), mkNum (.fin 2)], [mkNum (.fin 3)]] =
    .ok ⟨2, 2, [mkNum (.fin 1), mkNum (.fin 2), mkNum (.fin 3), .nil]⟩ := by decide +kernel

end Tom
