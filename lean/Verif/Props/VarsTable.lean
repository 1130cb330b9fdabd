import Verif.Lemmas.VarsTable
import Verif.Spec.Exact
/-
C46, C47, C54: variable tables.  `VarsTable.Reachable` (Spec/Tables.lean) describes every table a program can hold: the
result of one of the three constructors followed by any sequence of `SetValues`.
-/
set_option linter.unusedSectionVars false
namespace Tom
variable {α : Type} [Dbl α]

/-- C46: every table is coherent: the names are distinct, `VarNums()` is their number, `Values()` is a vector of that many
numbers, looking up the i-th name gives the i-th value, `Has` is true exactly for the names, and iterating over the table
gives each name with its value, in increasing order of the names. -/
theorem C46 {t : VarsTable α} (h : t.Reachable) :
    t.vars.Nodup ∧ t.varNums = t.vars.length ∧ IsVec t.values ∧ t.values.rows = t.vars.length ∧
    (∀ i (hi : i < t.vars.length), ∃ a, t.values.at_ i = .ok a ∧ t.get t.vars[i] = .ok a) ∧
    (∀ x, t.has x = true ↔ x ∈ t.vars) ∧
    (IsMap t.table ∧ t.table.Perm (t.vars.zip t.values.data)) := by
  have g := h.good
  refine ⟨g.nodup, g.length, g.vec, g.len, ?_, g.has, g.sorted, g.entries⟩
  intro i hi
  have hi2 : i < t.values.data.length := by rw [g.vec.2, g.len]; exact hi
  refine ⟨t.values.data[i], by simp [Mat.at_, readAt, List.getElem?_eq_getElem hi2], ?_⟩
  have : mapFind t.vars[i] t.table = some t.values.data[i] := by
    rw [g.find]
    have : (t.vars.zip t.values.data)[i]'(by simp; omega) = (t.vars[i], t.values.data[i]) := by simp
    rw [← this]; exact List.getElem_mem _
  simp [VarsTable.get, this]

/-- C46: `SetValues` with a vector of the right size succeeds on every table. -/
theorem C46_setValues {t : VarsTable α} (h : t.Reachable) {v : Mat α} (hv : IsVec v) (hr : v.rows = t.varNums) :
    ∃ t', t.setValues v = .ok t' ∧ t'.vars = t.vars ∧ t'.values = v := by
  have hl := h.good.length
  obtain ⟨t', h1, _, h2⟩ := setValues_ok h.good hv (by rw [hr]; exact hl)
  exact ⟨t', h1, h2⟩

/-- C47: after `SetValues(v)`, every name has the value set for it. -/
theorem C47_set {t t' : VarsTable α} (h : t.Reachable) {v : Mat α} (hv : IsVec v) (hs : t.setValues v = .ok t') :
    t'.vars = t.vars ∧ ∀ i (hi : i < t.vars.length), ∃ a, v.at_ i = .ok a ∧ t'.get t.vars[i] = .ok a := by
  obtain ⟨_, h2, h3⟩ := setValues_good h.good hv hs
  have := (C46 (.setValues h hv hs)).2.2.2.2.1
  rw [h3] at this
  refine ⟨h2, fun i hi => ?_⟩
  obtain ⟨a, h4, h5⟩ := this i (by rw [h2]; exact hi)
  refine ⟨a, h4, ?_⟩
  rw [← h5]
  congr 1
  simp [h2]

/-- C47: a lookup returns a value exactly for the names of the table and throws `out_of_range` for every other name. -/
theorem C47_unknown {t : VarsTable α} (h : t.Reachable) (x : Str) :
    (x ∈ t.vars → ∃ a, t.get x = .ok a) ∧ (x ∉ t.vars → t.get x = .throw .outOfRange) := by
  have g := h.good
  have := g.has x
  unfold VarsTable.has at this
  unfold VarsTable.get
  cases hf : mapFind x t.table with
  | none =>
    rw [hf] at this
    simp only [Option.isSome_none, Bool.false_eq_true, false_iff] at this
    exact ⟨fun h => absurd h this, fun _ => rfl⟩
  | some a =>
    rw [hf] at this
    simp only [Option.isSome_some, true_iff] at this
    exact ⟨fun _ => ⟨a, rfl⟩, fun h => absurd this h⟩

/-- C47: a table constructed from names and an initial value. -/
theorem C47_ofVars {vars : List Str} {init : α} {t : VarsTable α} (h : VarsTable.ofVars vars init = .ok t) :
    t.vars = vars ∧ ∀ x ∈ vars, t.get x = .ok init := by
  obtain ⟨g, h1, h2⟩ := ofVars_good h
  refine ⟨h1, fun x hx => ?_⟩
  obtain ⟨a, ha⟩ := (C47_unknown (.ofVars h) x).1 (by rw [h1]; exact hx)
  rw [ha]
  have hf : mapFind x t.table = some a := by
    unfold VarsTable.get at ha
    split at ha
    · rename_i v e; rw [Res.ok.injEq] at ha; rw [e, ha]
    · cases ha
  rw [g.find, h2] at hf
  have := (List.of_mem_zip hf).2
  rw [List.eq_of_mem_replicate this]

/-- C46: construction from names succeeds exactly for a non-empty list of distinct names. -/
theorem C46_ofVars (vars : List Str) (init : α) :
    (∃ t, VarsTable.ofVars vars init = .ok t) ↔ vars ≠ [] ∧ vars.Nodup := by
  constructor
  · rintro ⟨t, h⟩
    obtain ⟨g, h1, h2⟩ := ofVars_good h
    refine ⟨?_, h1 ▸ g.nodup⟩
    rintro rfl
    cases h
  · rintro ⟨h1, h2⟩
    have hs : SortedKeys ([] : List (Str × α)) := List.Pairwise.nil
    have key : ∀ (vars : List Str) (m : List (Str × α)), SortedKeys m → vars.Nodup → (∀ x ∈ vars, x ∉ m.map Prod.fst) →
        (vars.foldl (fun m x => mapInsert x init m) m).length = m.length + vars.length := by
      intro vars
      induction vars with
      | nil => intros; rfl
      | cons v vs ih =>
        intro m hm hn hd
        rw [List.nodup_cons] at hn
        rw [List.foldl_cons, ih _ (mapInsert_sorted _ _ _ hm) hn.2, mapInsert_length _ _ _ hm, if_neg (hd v (by simp))]
        · simp only [List.length_cons]; omega
        · intro x hx hmem
          have := (insertAll_keys [(v, init)] m x hm).mp (by simpa [insertAll] using hmem)
          rcases this with h | h
          · exact hd x (by simp [hx]) h
          · simp only [List.map_cons, List.map_nil, List.mem_singleton] at h
            exact hn.1 (h ▸ hx)
    have := key vars [] hs h2 (by simp)
    have hl : 0 < vars.length := List.length_pos_iff.mpr h1
    refine ⟨⟨vars, ⟨vars.length, 1, List.replicate (vars.length * 1) init⟩, vars.foldl (fun m x => mapInsert x init m) []⟩, ?_⟩
    unfold VarsTable.ofVars Mat.new
    rw [if_pos ⟨hl, by omega⟩]
    simp only [Res.bind_ok]
    rw [if_pos (by rw [this]; simp)]

/-- C47: a table constructed from a map has exactly its entries. -/
theorem C47_ofMap {m : List (Str × α)} {t : VarsTable α} (h : VarsTable.ofMap m = .ok t) :
    t.vars = m.map Prod.fst ∧ t.table = m := by
  rw [ofMap_eq h]; exact ⟨rfl, rfl⟩

/-- C47: a table constructed from a list of pairs: the first pair for a name counts. -/
theorem C47_ofList {l : List (Str × α)} {t : VarsTable α} (h : VarsTable.ofList l = .ok t) (x : Str) :
    t.get x = match l.lookup x with
      | some a => .ok a
      | none => .throw .outOfRange := by
  rw [ofMap_eq (ofList_ofMap h)]
  have hs : SortedKeys ([] : List (Str × α)) := List.Pairwise.nil
  simp only [VarsTable.get]
  rw [mapFind_insertAll x l [] hs]
  simp only [mapFind, Option.none_or]
  cases l.lookup x <;> rfl

/-! ### C54 -/

theorem eqEntries_forall₂ (eps : α) (l r : List (Str × α)) (h : l.length = r.length) :
    ∃ b, VarsTable.eqEntries eps l r = .ok b ∧
      (b = true ↔ List.Forall₂ (fun p q => p.1 = q.1 ∧ Arith.le (Arith.abs (Arith.sub p.2 q.2)) eps = true) l r) := by
  induction l generalizing r with
  | nil =>
    cases r with
    | nil => exact ⟨true, rfl, by simp⟩
    | cons => simp at h
  | cons p l ih =>
    cases r with
    | nil => simp at h
    | cons q r =>
      obtain ⟨x, a⟩ := p
      obtain ⟨y, c⟩ := q
      obtain ⟨b, h1, h2⟩ := ih r (by simpa using h)
      simp only [VarsTable.eqEntries]
      split
      · rename_i hc
        exact ⟨b, h1, by rw [h2]; simp [hc]⟩
      · rename_i hc
        exact ⟨false, rfl, by simp only [List.forall₂_cons, Bool.false_eq_true, false_iff]; exact fun h => hc h.1⟩

theorem sorted_keys_eq : ∀ (l r : List Str), l.Pairwise (fun a b => strLt a b = true) → r.Pairwise (fun a b => strLt a b = true) →
    (∀ x, x ∈ l ↔ x ∈ r) → l = r := by
  intro l
  induction l with
  | nil =>
    intro r _ _ h
    cases r with
    | nil => rfl
    | cons b r => exact absurd ((h b).mpr (by simp)) (by simp)
  | cons a l ih =>
    intro r hl hr h
    cases r with
    | nil => exact absurd ((h a).mp (by simp)) (by simp)
    | cons b r =>
      obtain ⟨l1, l2⟩ := List.pairwise_cons.mp hl
      obtain ⟨r1, r2⟩ := List.pairwise_cons.mp hr
      have hab : a = b := by
        have ha := (h a).mp (by simp)
        have hb := (h b).mpr (by simp)
        simp only [List.mem_cons] at ha hb
        rcases ha with e | ha
        · exact e
        · rcases hb with e | hb
          · exact e.symm
          · have h1 := r1 a ha
            have h2 := l1 b hb
            rw [strLt_asymm h1] at h2; cases h2
      subst hab
      congr 1
      refine ih r l2 r2 fun x => ?_
      have hx := h x
      simp only [List.mem_cons] at hx
      constructor
      · intro hm
        exact (hx.mp (.inr hm)).resolve_left fun e => strLt_ne (l1 x hm) e.symm
      · intro hm
        exact (hx.mpr (.inr hm)).resolve_left fun e => strLt_ne (r1 x hm) e.symm

/-- C54: what `==` of tables means, for any arithmetic: the same names, and for every name values whose difference does not
exceed epsilon in absolute value.  The comparison always has defined behaviour. -/
theorem C54_meaning (eps : α) {a b : VarsTable α} (ha : a.Reachable) (hb : b.Reachable) :
    ∃ r, VarsTable.eq eps a b = .ok r ∧
      (r = true ↔ (∀ x, x ∈ a.vars ↔ x ∈ b.vars) ∧
        ∀ x u v, a.get x = .ok u → b.get x = .ok v → Arith.le (Arith.abs (Arith.sub u v)) eps = true) := by
  have ga := ha.good
  have gb := hb.good
  have hget : ∀ (t : VarsTable α) x u, t.get x = .ok u ↔ mapFind x t.table = some u := by
    intro t x u
    unfold VarsTable.get
    split <;> rename_i h <;> simp [h]
  simp only [hget]
  unfold VarsTable.eq
  split
  · rename_i hrow
    have hl : a.table.length = b.table.length := by rw [ga.length, gb.length, ← ga.len, ← gb.len, hrow]
    obtain ⟨r, h1, h2⟩ := eqEntries_forall₂ eps a.table b.table hl
    refine ⟨r, h1, h2.trans ?_⟩
    have hka : ∀ x, x ∈ a.vars ↔ x ∈ a.table.map Prod.fst := fun x => ga.keys.mem_iff.symm
    have hkb : ∀ x, x ∈ b.vars ↔ x ∈ b.table.map Prod.fst := fun x => gb.keys.mem_iff.symm
    simp only [hka, hkb]
    have sa := ga.sorted
    have sb := gb.sorted
    generalize a.table = l at *
    generalize b.table = m at *
    have hkeys : List.Forall₂ (fun p q => p.1 = q.1 ∧ Arith.le (Arith.abs (Arith.sub p.2 q.2)) eps = true) l m ↔
        l.map Prod.fst = m.map Prod.fst ∧
          ∀ x u v, mapFind x l = some u → mapFind x m = some v → Arith.le (Arith.abs (Arith.sub u v)) eps = true := by
      have na := sortedKeys_nodup sa
      clear hl h1 h2 hka hkb sa sb
      induction l generalizing m with
      | nil => cases m <;> simp [mapFind]
      | cons p l ih =>
        cases m with
        | nil => simp
        | cons q m =>
          obtain ⟨x, c⟩ := p
          obtain ⟨y, d⟩ := q
          simp only [List.map_cons, List.nodup_cons] at na
          simp only [List.forall₂_cons, List.map_cons, List.cons.injEq, mapFind, ih m na.2]
          constructor
          · rintro ⟨⟨rfl, h1⟩, h2, h3⟩
            refine ⟨⟨rfl, h2⟩, fun z u v hu hv => ?_⟩
            by_cases hz : z = x
            · rw [if_pos hz, Option.some.injEq] at hu hv
              subst hu hv; exact h1
            · rw [if_neg hz] at hu hv
              exact h3 z u v hu hv
          · rintro ⟨⟨rfl, h2⟩, h3⟩
            refine ⟨⟨rfl, h3 x c d (by simp) (by simp)⟩, h2, fun z u v hu hv => ?_⟩
            have hz : z ≠ x := by
              rintro rfl
              exact na.1 ((mapFind_isSome l z).mp (by rw [hu]; rfl))
            exact h3 z u v (by rw [if_neg hz]; exact hu) (by rw [if_neg hz]; exact hv)
    rw [hkeys]
    refine and_congr_left fun _ => ⟨fun e x => by rw [e], fun h => ?_⟩
    exact sorted_keys_eq _ _ ((sortedKeys_iff l).mp sa) ((sortedKeys_iff m).mp sb) h
  · rename_i hrow
    refine ⟨false, rfl, by simp only [Bool.false_eq_true, false_iff, not_and]; intro h; exfalso; apply hrow; rw [ga.len, gb.len]; exact ((List.perm_ext_iff_of_nodup ga.nodup gb.nodup).mpr h).length_eq⟩

variable {K : Type} [Field K] [LinearOrder K] [IsStrictOrderedRing K] [Exact α K]

/-- all values of the table are finite -/
def VarsTable.Finite (K : Type) [Field K] [LinearOrder K] [Exact α K] (t : VarsTable α) : Prop :=
  ∀ v ∈ t.values.data, ∃ k : K, v = fin k

theorem finite_get {t : VarsTable α} (h : t.Reachable) (hf : t.Finite K) {x : Str} {u : α} (hu : t.get x = .ok u) :
    ∃ k : K, u = fin k := by
  have hf' : mapFind x t.table = some u := by
    unfold VarsTable.get at hu
    split at hu
    · rename_i v e; rw [Res.ok.injEq] at hu; rw [e, hu]
    · cases hu
  rw [h.good.find] at hf'
  exact hf u (List.of_mem_zip hf').2

/-- C54: equality is reflexive on tables of finite values, if epsilon is not negative. -/
theorem C54_refl (eps : K) (he : 0 ≤ eps) {t : VarsTable α} (ht : t.Reachable) (hf : t.Finite K) :
    VarsTable.eq (fin eps) t t = .ok true := by
  obtain ⟨r, h1, h2⟩ := C54_meaning (fin eps) ht ht
  rw [h1]
  congr 1
  rw [h2]
  refine ⟨fun _ => Iff.rfl, fun x u v hu hv => ?_⟩
  rw [hu, Res.ok.injEq] at hv
  subst hv
  obtain ⟨k, rfl⟩ := finite_get ht hf hu
  rw [Exact.sub, Exact.abs, Exact.le]
  simpa using he

/-- C54: equality is symmetric on tables of finite values. -/
theorem C54_symm (eps : K) {a b : VarsTable α} (ha : a.Reachable) (hb : b.Reachable) (fa : a.Finite K) (fb : b.Finite K) :
    VarsTable.eq (fin eps) a b = VarsTable.eq (fin eps) b a := by
  obtain ⟨r, h1, h2⟩ := C54_meaning (fin eps) ha hb
  obtain ⟨s, h3, h4⟩ := C54_meaning (fin eps) hb ha
  rw [h1, h3]
  congr 1
  rw [Bool.eq_iff_iff, h2, h4]
  have key : ∀ x u v, a.get x = .ok u → b.get x = .ok v →
      Arith.le (Arith.abs (Arith.sub u v)) (fin eps) = Arith.le (Arith.abs (Arith.sub v u)) (fin eps) := by
    intro x u v hu hv
    obtain ⟨k, rfl⟩ := finite_get ha fa hu
    obtain ⟨l, rfl⟩ := finite_get hb fb hv
    rw [Exact.sub, Exact.sub, Exact.abs, Exact.abs, abs_sub_comm]
  constructor
  · rintro ⟨h5, h6⟩
    exact ⟨fun x => (h5 x).symm, fun x u v hu hv => (key x v u hv hu) ▸ h6 x v u hv hu⟩
  · rintro ⟨h5, h6⟩
    exact ⟨fun x => (h5 x).symm, fun x u v hu hv => (key x u v hu hv) ▸ h6 x v u hv hu⟩

/-- a table with one variable -/
def oneVar (q : Rat) : VarsTable (XNum Rat) := ⟨[['x']], ⟨1, 1, [.fin q]⟩, [(['x'], .fin q)]⟩

theorem oneVar_ofList (q : Rat) : VarsTable.ofList [(['x'], XNum.fin q)] = .ok (oneVar q) := rfl

/-- C54: equality is not transitive: 0, epsilon and 2 epsilon. -/
theorem C54_not_transitive : ∃ a b c : VarsTable (XNum Rat), a.Reachable ∧ b.Reachable ∧ c.Reachable ∧
    VarsTable.eq defaultConfig.epsilon a b = .ok true ∧ VarsTable.eq defaultConfig.epsilon b c = .ok true ∧
    VarsTable.eq defaultConfig.epsilon a c = .ok false :=
  ⟨oneVar 0, oneVar (1 / 1000000000), oneVar (2 / 1000000000), .ofList (oneVar_ofList _), .ofList (oneVar_ofList _),
    .ofList (oneVar_ofList _), by decide +kernel, by decide +kernel, by decide +kernel⟩

/-! ### the hypotheses are met -/

example : ∃ t : VarsTable (XNum Rat), t.Reachable ∧ t.Finite Rat ∧ t.vars = [['a'], ['b']] ∧ t.get ['b'] = .ok (.fin 7) := by
  have h1 : VarsTable.ofVars [['a'], ['b']] (XNum.fin (1 : Rat))
      = .ok ⟨[['a'], ['b']], ⟨2, 1, [.fin 1, .fin 1]⟩, [(['a'], .fin 1), (['b'], .fin 1)]⟩ := by decide +kernel
  have h2 : VarsTable.setValues ⟨[['a'], ['b']], ⟨2, 1, [.fin 1, .fin 1]⟩, [(['a'], .fin 1), (['b'], .fin 1)]⟩
      (⟨2, 1, [.fin 5, .fin 7]⟩ : Mat (XNum Rat))
      = .ok ⟨[['a'], ['b']], ⟨2, 1, [.fin 5, .fin 7]⟩, [(['a'], .fin 5), (['b'], .fin 7)]⟩ := by decide +kernel
  refine ⟨_, .setValues (.ofVars h1) ⟨rfl, rfl⟩ h2, ?_, rfl, rfl⟩
  intro v hv
  simp only [List.mem_cons, List.not_mem_nil, or_false] at hv
  rcases hv with rfl | rfl
  · exact ⟨5, rfl⟩
  · exact ⟨7, rfl⟩

end Tom
