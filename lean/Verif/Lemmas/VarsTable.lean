import Verif.Spec.Tables
import Verif.Lemmas.Dict
import Mathlib.Data.List.Perm.Basic
import Mathlib.Data.List.Nodup
/-
Variable tables: the invariant.
-/
set_option linter.unusedSectionVars false
set_option linter.unusedSimpArgs false
namespace Tom
variable {α : Type} [Dbl α] {β : Type}

theorem sortedKeys_iff (m : List (Str × β)) : SortedKeys m ↔ (m.map Prod.fst).Pairwise fun a b => strLt a b = true := by
  simp [SortedKeys, List.pairwise_map]

theorem sortedKeys_nodup {m : List (Str × β)} (h : SortedKeys m) : (m.map Prod.fst).Nodup :=
  ((sortedKeys_iff m).mp h).imp fun h => strLt_ne h

theorem sortedKeys_nodup' {m : List (Str × β)} (h : SortedKeys m) : m.Nodup :=
  List.Nodup.of_map _ (sortedKeys_nodup h)

theorem mem_iff_mapFind {m : List (Str × β)} (h : (m.map Prod.fst).Nodup) (x : Str) (b : β) :
    (x, b) ∈ m ↔ mapFind x m = some b := by
  induction m with
  | nil => simp [mapFind]
  | cons kv m ih =>
    obtain ⟨k, c⟩ := kv
    simp only [List.map_cons, List.nodup_cons] at h
    simp only [mapFind, List.mem_cons, Prod.mk.injEq]
    by_cases hx : x = k
    · subst hx
      simp only [true_and, if_true, Option.some.injEq]
      constructor
      · rintro (e | e)
        · exact e.symm
        · exact absurd (List.mem_map_of_mem (f := Prod.fst) e) h.1
      · intro e; exact .inl e.symm
    · simp [hx, ih h.2]

theorem mapFind_isSome (m : List (Str × β)) (x : Str) : (mapFind x m).isSome = true ↔ x ∈ m.map Prod.fst := by
  induction m with
  | nil => simp [mapFind]
  | cons kv m ih =>
    obtain ⟨k, c⟩ := kv
    simp only [mapFind, List.map_cons, List.mem_cons]
    by_cases hx : x = k
    · simp [hx]
    · simp [hx, ih]

theorem mapAssign_keys (k : Str) (b : β) (m : List (Str × β)) (h : SortedKeys m) (hk : k ∈ m.map Prod.fst) :
    (mapAssign k b m).map Prod.fst = m.map Prod.fst := by
  induction m with
  | nil => simp at hk
  | cons kv m ih =>
    obtain ⟨k', b'⟩ := kv
    obtain ⟨h1, h2⟩ := List.pairwise_cons.mp h
    simp only at h1
    simp only [mapAssign]
    by_cases h3 : strLt k k' = true
    · exfalso
      simp only [List.map_cons, List.mem_cons] at hk
      rcases hk with hk | hk
      · exact strLt_ne h3 hk
      · obtain ⟨kv, hkv, e⟩ := List.mem_map.mp hk
        have := h1 kv hkv
        rw [e, strLt_asymm h3] at this
        cases this
    · rw [if_neg h3]
      split
      · rename_i h4
        simp only [List.map_cons, List.mem_cons] at hk ⊢
        rw [ih h2 (hk.resolve_left fun e => strLt_ne h4 e.symm)]
      · rfl

theorem mapFind_mapAssign (x k : Str) (b : β) (m : List (Str × β)) (h : SortedKeys m) :
    mapFind x (mapAssign k b m) = if x = k then some b else mapFind x m := by
  induction m with
  | nil => simp [mapAssign, mapFind]
  | cons kv m ih =>
    obtain ⟨k', b'⟩ := kv
    obtain ⟨h1, h2⟩ := List.pairwise_cons.mp h
    simp only at h1
    simp only [mapAssign]
    split
    · rfl
    · rename_i h3
      split
      · rename_i h4
        simp only [mapFind, ih h2]
        by_cases hx : x = k'
        · subst hx; simp [strLt_ne h4]
        · simp [hx]
      · rename_i h4
        have : k = k' := strLt_total (by simpa using h3) (by simpa using h4)
        subst this
        simp only [mapFind]
        by_cases hx : x = k <;> simp [hx]

theorem mapInsert_length (k : Str) (b : β) (m : List (Str × β)) (h : SortedKeys m) :
    (mapInsert k b m).length = if k ∈ m.map Prod.fst then m.length else m.length + 1 := by
  induction m with
  | nil => simp [mapInsert]
  | cons kv m ih =>
    obtain ⟨k', b'⟩ := kv
    obtain ⟨h1, h2⟩ := List.pairwise_cons.mp h
    simp only at h1
    simp only [mapInsert, List.map_cons, List.mem_cons]
    by_cases h3 : strLt k k' = true
    · rw [if_pos h3, if_neg]
      · simp
      · rintro (e | e)
        · exact strLt_ne h3 e
        · obtain ⟨kv, hkv, e⟩ := List.mem_map.mp e
          have := h1 kv hkv
          rw [e, strLt_asymm h3] at this
          cases this
    · rw [if_neg h3]
      by_cases h4 : strLt k' k = true
      · rw [if_pos h4]
        simp only [List.length_cons, ih h2]
        by_cases hk : k ∈ m.map Prod.fst
        · simp [hk]
        · rw [if_neg hk, if_neg]
          rintro (e | e)
          · exact strLt_ne h4 e.symm
          · exact hk e
      · have : k = k' := strLt_total (by simpa using h3) (by simpa using h4)
        subst this
        simp [strLt_irrefl]

theorem insertAll_keys (kvs m : List (Str × β)) (x : Str) (h : SortedKeys m) :
    x ∈ (insertAll m kvs).map Prod.fst ↔ x ∈ m.map Prod.fst ∨ x ∈ kvs.map Prod.fst := by
  rw [← mapFind_isSome, ← mapFind_isSome, mapFind_insertAll x kvs m h]
  have : ((kvs.lookup x).isSome = true) ↔ x ∈ kvs.map Prod.fst := by
    clear h
    induction kvs with
    | nil => simp
    | cons kv kvs ih =>
      rw [List.lookup_cons]
      by_cases hx : x = kv.1
      · simp [hx]
      · have : (x == kv.1) = false := by simpa using hx
        simp only [this, List.map_cons, List.mem_cons, hx, false_or]
        exact ih
  rw [← this]
  cases mapFind x m <;> simp

theorem insertAll_length (kvs m : List (Str × β)) (h : SortedKeys m) :
    (insertAll m kvs).length ≤ m.length + kvs.length ∧
      ((insertAll m kvs).length = m.length + kvs.length →
        (kvs.map Prod.fst).Nodup ∧ ∀ x ∈ kvs.map Prod.fst, x ∉ m.map Prod.fst) := by
  induction kvs generalizing m with
  | nil => simp [insertAll]
  | cons kv kvs ih =>
    obtain ⟨k, b⟩ := kv
    have hs := mapInsert_sorted k b m h
    obtain ⟨h1, h2⟩ := ih (mapInsert k b m) hs
    have hl := mapInsert_length k b m h
    have hk : ∀ x, x ∈ (mapInsert k b m).map Prod.fst ↔ x ∈ m.map Prod.fst ∨ x = k := by
      intro x
      have := insertAll_keys [(k, b)] m x h
      simpa [insertAll] using this
    have e : insertAll m ((k, b) :: kvs) = insertAll (mapInsert k b m) kvs := rfl
    rw [e]
    split at hl
    · simp only [List.length_cons]
      exact ⟨by omega, fun h => by omega⟩
    · rename_i hkm
      simp only [List.length_cons]
      refine ⟨by omega, fun h => ?_⟩
      obtain ⟨h3, h4⟩ := h2 (by omega)
      refine ⟨?_, ?_⟩
      · simp only [List.map_cons, List.nodup_cons]
        refine ⟨fun hm => ?_, h3⟩
        exact h4 k hm ((hk k).mpr (.inr rfl))
      · intro x hx
        simp only [List.map_cons, List.mem_cons] at hx
        rcases hx with rfl | hx
        · exact hkm
        · intro hm
          exact h4 x hx ((hk x).mpr (.inl hm))

/-- The invariant of variable tables. -/
structure VarsTable.Good (t : VarsTable α) : Prop where
  vec : IsVec t.values
  len : t.values.rows = t.vars.length
  nodup : t.vars.Nodup
  sorted : SortedKeys t.table
  entries : t.table.Perm (t.vars.zip t.values.data)

theorem zip_fst {γ δ : Type} (a : List γ) (b : List δ) (h : a.length = b.length) : (a.zip b).map Prod.fst = a :=
  List.map_fst_zip (by omega)

theorem VarsTable.Good.keys {t : VarsTable α} (h : t.Good) : (t.table.map Prod.fst).Perm t.vars := by
  have := h.entries.map Prod.fst
  rwa [zip_fst _ _ (by rw [h.vec.2, h.len])] at this

theorem VarsTable.Good.length {t : VarsTable α} (h : t.Good) : t.table.length = t.vars.length := by
  have := h.keys.length_eq
  simpa using this

theorem VarsTable.Good.find {t : VarsTable α} (h : t.Good) (x : Str) (a : α) :
    mapFind x t.table = some a ↔ (x, a) ∈ t.vars.zip t.values.data := by
  rw [← mem_iff_mapFind (sortedKeys_nodup h.sorted), h.entries.mem_iff]

theorem VarsTable.Good.has {t : VarsTable α} (h : t.Good) (x : Str) : t.has x = true ↔ x ∈ t.vars := by
  unfold VarsTable.has
  rw [mapFind_isSome, h.keys.mem_iff]

theorem good_of_perm {t : VarsTable α} (hv : IsVec t.values) (hl : t.values.rows = t.vars.length) (hn : t.vars.Nodup)
    (hs : SortedKeys t.table) (he : ∀ x a, mapFind x t.table = some a ↔ (x, a) ∈ t.vars.zip t.values.data) : t.Good where
  vec := hv
  len := hl
  nodup := hn
  sorted := hs
  entries := by
    have hz : ((t.vars.zip t.values.data).map Prod.fst) = t.vars := zip_fst _ _ (by rw [hv.2, hl])
    rw [List.perm_ext_iff_of_nodup (sortedKeys_nodup' hs) (List.Nodup.of_map Prod.fst (by rw [hz]; exact hn))]
    rintro ⟨x, a⟩
    rw [mem_iff_mapFind (sortedKeys_nodup hs), he]

theorem ofVars_good {vars : List Str} {init : α} {t : VarsTable α} (h : VarsTable.ofVars vars init = .ok t) :
    t.Good ∧ t.vars = vars ∧ t.values = ⟨vars.length, 1, List.replicate vars.length init⟩ := by
  unfold VarsTable.ofVars Mat.new at h
  split at h
  · simp only [Res.bind_ok, Nat.mul_one] at h
    split at h
    · rename_i hlen
      simp only [Res.ok.injEq] at h
      subst h
      have e : (vars.foldl (fun m x => mapInsert x init m) []) = insertAll [] (vars.map fun x => (x, init)) := by
        rw [insertAll, List.foldl_map]
      rw [e] at hlen ⊢
      have hs : SortedKeys ([] : List (Str × α)) := List.Pairwise.nil
      have hn := ((insertAll_length (vars.map fun x => (x, init)) [] hs).2 (by simpa using hlen.symm)).1
      simp only [List.map_map, Function.comp_def, List.map_id'] at hn
      refine ⟨good_of_perm ⟨rfl, by simp⟩ rfl hn (insertAll_sorted _ _ hs) ?_, rfl, rfl⟩
      intro x a
      rw [mapFind_insertAll _ _ _ hs]
      simp only [mapFind, Option.none_or]
      have : vars.zip (List.replicate vars.length init) = vars.map fun x => (x, init) := by
        clear hlen hn e
        rename_i h0
        clear h0
        induction vars with
        | nil => rfl
        | cons v vs ih => simp [List.replicate_succ, ih]
      rw [this]
      clear hlen e this
      rename_i h0
      clear h0
      induction vars with
      | nil => simp
      | cons v vs ih =>
        simp only [List.nodup_cons] at hn
        have ih := ih hn.2
        simp only [List.map_cons, List.lookup_cons, List.mem_cons, Prod.mk.injEq]
        by_cases hx : x = v
        · subst hx
          simp only [beq_self_eq_true, Option.some.injEq, true_and]
          constructor
          · intro e; exact .inl e.symm
          · rintro (e | e)
            · exact e.symm
            · simp only [List.mem_map, Prod.mk.injEq] at e
              obtain ⟨y, hy, rfl, _⟩ := e
              exact absurd hy hn.1
        · have : (x == v) = false := by simpa using hx
          rw [this]
          simp only [hx, false_and, false_or]
          exact ih
    · cases h
  · cases h

theorem ofMap_loop (l : List (Str × α)) (k n : Nat) (p1 : List Str) (p2 : List α) (h1 : p1.length = k) (h2 : p2.length = k) :
    forRes (fun (s : List Str × Mat α) (p : (Str × α) × Nat) => do
      let vs ← writeAt s.1 p.2 p.1.1
      let m ← s.2.setAt p.2 p.1.2
      .ok (vs, m)) (l.zipIdx k) (p1 ++ List.replicate l.length [], ⟨n, 1, p2 ++ List.replicate l.length Arith.zero⟩)
      = .ok (p1 ++ l.map Prod.fst, ⟨n, 1, p2 ++ l.map Prod.snd⟩) := by
  induction l generalizing k p1 p2 with
  | nil => simp [forRes]
  | cons kv l ih =>
    obtain ⟨x, a⟩ := kv
    have := ih (k + 1) (p1 ++ [x]) (p2 ++ [a]) (by simp [h1]) (by simp [h2])
    simp only [List.zipIdx_cons, forRes, writeAt, Mat.setAt, List.length_append, List.length_replicate, List.length_cons]
    rw [if_pos (by omega), if_pos (by omega)]
    simp only [Res.bind_ok]
    have e1 : (p1 ++ List.replicate (l.length + 1) []).set k x = p1 ++ [x] ++ List.replicate l.length [] := by
      rw [List.set_append_right _ _ (by omega)]
      simp [h1, List.replicate_succ]
    have e2 : (p2 ++ List.replicate (l.length + 1) (Arith.zero : α)).set k a = p2 ++ [a] ++ List.replicate l.length Arith.zero := by
      rw [List.set_append_right _ _ (by omega)]
      simp [h2, List.replicate_succ]
    rw [e1, e2]
    refine Eq.trans this ?_
    simp

theorem ofMap_eq {m : List (Str × α)} {t : VarsTable α} (h : VarsTable.ofMap m = .ok t) :
    t = ⟨m.map Prod.fst, ⟨m.length, 1, m.map Prod.snd⟩, m⟩ := by
  unfold VarsTable.ofMap Mat.new at h
  split at h
  · simp only [Res.bind_ok, Nat.mul_one] at h
    have := ofMap_loop m 0 m.length [] [] rfl rfl
    simp only [List.nil_append] at this
    obtain ⟨s, hs, e⟩ := Res.bind_eq_ok.mp h
    have : s = (m.map Prod.fst, ⟨m.length, 1, m.map Prod.snd⟩) := by
      have := hs.symm.trans this
      simpa using this
    subst this
    simpa using e.symm
  · cases h

theorem zip_fst_snd {γ δ : Type} (m : List (γ × δ)) : (m.map Prod.fst).zip (m.map Prod.snd) = m := by
  induction m with
  | nil => rfl
  | cons a m ih => simp [ih]

theorem ofMap_good {m : List (Str × α)} {t : VarsTable α} (hm : SortedKeys m) (h : VarsTable.ofMap m = .ok t) : t.Good := by
  rw [ofMap_eq h]
  refine ⟨⟨rfl, by simp⟩, by simp, sortedKeys_nodup hm, hm, ?_⟩
  simp [zip_fst_snd]

theorem ofList_ofMap {l : List (Str × α)} {t : VarsTable α} (h : VarsTable.ofList l = .ok t) :
    VarsTable.ofMap (insertAll [] l) = .ok t := by
  unfold VarsTable.ofList at h
  obtain ⟨t', h1, h2⟩ := Res.bind_eq_ok.mp h
  split at h2
  · rw [Res.ok.injEq] at h2; subst h2; exact h1
  · cases h2

theorem setValues_loop (vars : List Str) (v : Mat α) (hv : v.data.length = vars.length) (table : List (Str × α))
    (hs : SortedKeys table) (hk : ∀ x ∈ vars, x ∈ table.map Prod.fst) (hn : vars.Nodup) (k : Nat) (hkl : k ≤ vars.length) :
    ∃ table', forRes (fun (m : List (Str × α)) i => do
        let x ← readAt vars i
        let a ← v.at_ i
        .ok (mapAssign x a m)) (List.range k) table = .ok table' ∧ table'.map Prod.fst = table.map Prod.fst ∧
      ∀ x, mapFind x table' = if x ∈ vars.take k then ((vars.zip v.data).lookup x) else mapFind x table := by
  induction k with
  | zero => exact ⟨table, rfl, rfl, by simp⟩
  | succ k ih =>
    obtain ⟨t', h1, h2, h3⟩ := ih (by omega)
    have hap : ∀ (f : List (Str × α) → Nat → Res (List (Str × α))) (l : List Nat) (i : Nat) (s s' : List (Str × α)),
        forRes f l s = .ok s' → forRes f (l ++ [i]) s = f s' i := by
      intro f l i
      induction l with
      | nil =>
        intro s s' h
        simp only [forRes, Res.ok.injEq] at h
        subst h
        simp [forRes]
      | cons a l ih =>
        intro s s' h
        simp only [forRes, List.cons_append] at h ⊢
        obtain ⟨s1, e1, e2⟩ := Res.bind_eq_ok.mp h
        rw [e1, Res.bind_ok]
        exact ih s1 s' e2
    have hk1 : k < vars.length := by omega
    have hk2 : k < v.data.length := by omega
    refine ⟨mapAssign vars[k] v.data[k] t', ?_, ?_, ?_⟩
    · rw [List.range_succ, hap _ _ _ _ _ h1]
      simp [readAt, Mat.at_, List.getElem?_eq_getElem hk1, List.getElem?_eq_getElem hk2]
    · have hst : SortedKeys t' := by rw [sortedKeys_iff, h2, ← sortedKeys_iff]; exact hs
      rw [mapAssign_keys _ _ _ hst (by rw [h2]; exact hk _ (List.getElem_mem _)), h2]
    · intro x
      have hst : SortedKeys t' := by rw [sortedKeys_iff, h2, ← sortedKeys_iff]; exact hs
      rw [mapFind_mapAssign _ _ _ _ hst, h3]
      have htake : vars.take (k + 1) = vars.take k ++ [vars[k]] := (List.take_append_getElem hk1).symm
      rw [htake]
      simp only [List.mem_append, List.mem_singleton]
      by_cases hx : x = vars[k]
      · rw [if_pos hx, if_pos (.inr hx)]
        subst hx
        have hmem : (vars[k], v.data[k]) ∈ vars.zip v.data := by
          have : (vars.zip v.data)[k]'(by simp; omega) = (vars[k], v.data[k]) := by simp
          rw [← this]; exact List.getElem_mem _
        have hl : ∀ (l : List (Str × α)), (l.map Prod.fst).Nodup → ∀ x a, (x, a) ∈ l → l.lookup x = some a := by
          intro l
          induction l with
          | nil => simp
          | cons kv l ih =>
            intro hnd x a hm
            simp only [List.map_cons, List.nodup_cons] at hnd
            rw [List.lookup_cons]
            simp only [List.mem_cons] at hm
            rcases hm with rfl | hm
            · simp
            · have : (x == kv.1) = false := by
                simp only [beq_eq_false_iff_ne, ne_eq]
                rintro rfl
                exact hnd.1 (List.mem_map.mpr ⟨_, hm, rfl⟩)
              rw [this]
              exact ih hnd.2 x a hm
        exact (hl _ (by rw [zip_fst _ _ hv.symm]; exact hn) _ _ hmem).symm
      · rw [if_neg hx]
        by_cases hx' : x ∈ vars.take k
        · rw [if_pos hx', if_pos (.inl hx')]
        · rw [if_neg hx', if_neg (by simp [hx, hx'])]

theorem lookup_iff (l : List (Str × α)) (h : (l.map Prod.fst).Nodup) (x : Str) (a : α) : l.lookup x = some a ↔ (x, a) ∈ l := by
  rw [mem_iff_mapFind h]
  have : l.lookup x = mapFind x l := by
    clear h
    induction l with
    | nil => rfl
    | cons kv l ih =>
      rw [List.lookup_cons, mapFind]
      by_cases hx : x = kv.1
      · simp [hx]
      · have : (x == kv.1) = false := by simpa using hx
        rw [this, if_neg hx]; exact ih
  rw [this]

theorem setValues_ok {t : VarsTable α} (ht : t.Good) {v : Mat α} (hv : IsVec v) (hr : v.rows = t.vars.length) :
    ∃ t', t.setValues v = .ok t' ∧ t'.Good ∧ t'.vars = t.vars ∧ t'.values = v := by
  obtain ⟨tb, h1, h2, h3⟩ := setValues_loop t.vars v (by rw [hv.2, hr]) t.table ht.sorted
    (fun x hx => ht.keys.mem_iff.mpr hx) ht.nodup v.rows (by omega)
  refine ⟨⟨t.vars, v, tb⟩, ?_, ?_, rfl, rfl⟩
  · unfold VarsTable.setValues
    rw [if_pos (by rw [hr, ht.len])]
    refine Res.bind_eq_ok.mpr ⟨tb, h1, rfl⟩
  · have hs : SortedKeys tb := by rw [sortedKeys_iff, h2, ← sortedKeys_iff]; exact ht.sorted
    refine good_of_perm hv hr ht.nodup hs ?_
    intro x a
    have hnz : ((t.vars.zip v.data).map Prod.fst).Nodup := by rw [zip_fst _ _ (by rw [hv.2, hr])]; exact ht.nodup
    have h3x := h3 x
    rw [hr, List.take_length] at h3x
    show mapFind x tb = some a ↔ (x, a) ∈ t.vars.zip v.data
    rw [h3x]
    by_cases hx : x ∈ t.vars
    · rw [if_pos hx, lookup_iff _ hnz]
    · rw [if_neg hx]
      constructor
      · intro e
        exact absurd (ht.keys.mem_iff.mp ((mapFind_isSome t.table x).mp (by rw [e]; rfl))) hx
      · intro e
        exact absurd (List.of_mem_zip e).1 hx

theorem setValues_good {t t' : VarsTable α} (ht : t.Good) {v : Mat α} (hv : IsVec v) (h : t.setValues v = .ok t') :
    t'.Good ∧ t'.vars = t.vars ∧ t'.values = v := by
  by_cases hr : v.rows = t.vars.length
  · obtain ⟨t'', h1, h2⟩ := setValues_ok ht hv hr
    rw [h1, Res.ok.injEq] at h
    subst h
    exact h2
  · unfold VarsTable.setValues at h
    rw [if_neg (by rw [ht.len]; exact hr)] at h
    cases h

theorem VarsTable.Reachable.good {t : VarsTable α} (h : t.Reachable) : t.Good := by
  induction h with
  | ofVars h => exact (ofVars_good h).1
  | ofMap hm h => exact ofMap_good hm h
  | ofList h => exact ofMap_good (insertAll_sorted _ _ List.Pairwise.nil) (ofList_ofMap h)
  | setValues _ hv h ih => exact (setValues_good ih hv h).1

end Tom
