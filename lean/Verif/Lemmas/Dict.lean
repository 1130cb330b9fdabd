import Verif.Lemmas.Subs
/-
`std::map` as a sorted association list.
-/
set_option linter.unusedSectionVars false
namespace Tom
variable {α : Type} [Dbl α] {β γ : Type}

/-- keys strictly increasing -/
def SortedKeys (m : List (Str × β)) : Prop := m.Pairwise fun a b => strLt a.1 b.1 = true

theorem strLt_asymm {x y : Str} (h : strLt x y = true) : strLt y x = false := by
  cases h' : strLt y x with
  | false => rfl
  | true => have := strLt_trans h h'; rw [strLt_irrefl] at this; cases this

theorem strLt_ne {x y : Str} (h : strLt x y = true) : x ≠ y := by
  rintro rfl; rw [strLt_irrefl] at h; cases h

theorem mapFind_none_of_lt (k : Str) (m : List (Str × β)) (h : ∀ kv ∈ m, strLt k kv.1 = true) :
    mapFind k m = none := by
  induction m with
  | nil => rfl
  | cons kv m ih =>
    obtain ⟨k', b'⟩ := kv
    have h1 := h (k', b') (by simp)
    simp only [mapFind, if_neg (strLt_ne h1)]
    exact ih fun kv hkv => h kv (by simp [hkv])

theorem mem_mapInsert (k : Str) (b : β) (m : List (Str × β)) (kv : Str × β) :
    kv ∈ mapInsert k b m → kv = (k, b) ∨ kv ∈ m := by
  induction m with
  | nil => simp [mapInsert]
  | cons kv' m ih =>
    obtain ⟨k', b'⟩ := kv'
    simp only [mapInsert]
    split
    · simp
    · split
      · simp only [List.mem_cons]
        rintro (h | h)
        · simp [h]
        · rcases ih h with h | h <;> simp [h]
      · intro h; exact .inr h

theorem mapInsert_sorted (k : Str) (b : β) (m : List (Str × β)) (h : SortedKeys m) : SortedKeys (mapInsert k b m) := by
  induction m with
  | nil => simp [mapInsert, SortedKeys]
  | cons kv m ih =>
    obtain ⟨k', b'⟩ := kv
    obtain ⟨h1, h2⟩ := List.pairwise_cons.mp h
    simp only at h1
    simp only [mapInsert]
    split
    · rename_i hlt
      refine List.pairwise_cons.mpr ⟨?_, h⟩
      intro kv hkv
      simp only [List.mem_cons] at hkv
      rcases hkv with rfl | hkv
      · exact hlt
      · exact strLt_trans hlt (h1 kv hkv)
    · split
      · rename_i hgt
        refine List.pairwise_cons.mpr ⟨?_, ih h2⟩
        intro kv hkv
        rcases mem_mapInsert k b m kv hkv with rfl | hkv
        · exact hgt
        · exact h1 kv hkv
      · exact h

theorem mapFind_mapInsert (x k : Str) (b : β) (m : List (Str × β)) (h : SortedKeys m) :
    mapFind x (mapInsert k b m) = (mapFind x m).or (if x = k then some b else none) := by
  induction m with
  | nil => simp [mapInsert, mapFind]
  | cons kv m ih =>
    obtain ⟨k', b'⟩ := kv
    obtain ⟨h1, h2⟩ := List.pairwise_cons.mp h
    simp only at h1
    simp only [mapInsert]
    split
    · rename_i hlt
      simp only [mapFind]
      by_cases hx : x = k
      · subst hx
        rw [if_pos rfl, if_neg (strLt_ne hlt), mapFind_none_of_lt x m fun kv hkv => strLt_trans hlt (h1 kv hkv)]
        simp
      · simp [hx]
    · rename_i hnlt
      split
      · rename_i hgt
        simp only [mapFind, ih h2]
        by_cases hx : x = k' <;> simp [hx]
      · rename_i hngt
        have : k = k' := strLt_total (by simpa using hnlt) (by simpa using hngt)
        subst this
        simp only [mapFind]
        by_cases hx : x = k <;> simp [hx]

theorem mapInsert_map (f : β → γ) (k : Str) (b : β) (m : List (Str × β)) :
    mapInsert k (f b) (m.map fun kv => (kv.1, f kv.2)) = (mapInsert k b m).map fun kv => (kv.1, f kv.2) := by
  induction m with
  | nil => rfl
  | cons kv m ih =>
    simp only [List.map_cons, mapInsert]
    split
    · simp
    · split <;> simp [ih]

/-- the dictionary built by successive insertions -/
def insertAll (m : List (Str × β)) (kvs : List (Str × β)) : List (Str × β) :=
  kvs.foldl (fun m kv => mapInsert kv.1 kv.2 m) m

theorem insertAll_sorted (kvs m : List (Str × β)) (h : SortedKeys m) : SortedKeys (insertAll m kvs) := by
  induction kvs generalizing m with
  | nil => exact h
  | cons kv kvs ih => exact ih _ (mapInsert_sorted _ _ _ h)

theorem mapFind_insertAll (x : Str) (kvs m : List (Str × β)) (h : SortedKeys m) :
    mapFind x (insertAll m kvs) = (mapFind x m).or (kvs.lookup x) := by
  induction kvs generalizing m with
  | nil => simp [insertAll]
  | cons kv kvs ih =>
    obtain ⟨k, b⟩ := kv
    have := ih (mapInsert k b m) (mapInsert_sorted _ _ _ h)
    simp only [insertAll, List.foldl_cons] at this ⊢
    rw [this, mapFind_mapInsert x k b m h, List.lookup_cons]
    by_cases hx : x = k
    · subst hx; cases mapFind x m <;> simp
    · have : (x == k) = false := by simpa using hx
      simp [hx, this]

theorem insertAll_map (f : β → γ) (kvs m : List (Str × β)) :
    insertAll (m.map fun kv => (kv.1, f kv.2)) (kvs.map fun kv => (kv.1, f kv.2))
      = (insertAll m kvs).map fun kv => (kv.1, f kv.2) := by
  induction kvs generalizing m with
  | nil => rfl
  | cons kv kvs ih =>
    have := ih (mapInsert kv.1 kv.2 m)
    simp only [insertAll, List.foldl_cons, List.map_cons] at this ⊢
    rw [mapInsert_map, this]

theorem dictOfLists_embed (vs : List Str) (ns : List (Expr α)) (m : List (Str × Raw α)) :
    dictOfLists vs (ns.map embed) (.ok m)
      = .ok (insertAll m ((vs.zip ns).map fun kv => (kv.1, embed kv.2))) := by
  induction vs generalizing ns m with
  | nil => cases ns <;> rfl
  | cons v vs ih =>
    cases ns with
    | nil => rfl
    | cons n ns =>
      simp only [List.map_cons, dictOfLists, Res.bind_ok, clone_eq _ (embed_isSome n), List.zip_cons_cons]
      rw [ih]; rfl

end Tom
