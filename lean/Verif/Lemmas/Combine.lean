import Verif.Spec.Combine
import Mathlib.Data.List.Count
import Mathlib.Data.List.Nodup
import Mathlib.Data.Finite.Defs
import Mathlib.Data.Fintype.Order
import Mathlib.Order.WellFounded
import Mathlib.Data.List.TakeWhile
/-
Lemmas for C108, C109.
-/
namespace Tom

@[simp] theorem PyRes.bind_ok {β γ : Type} (b : β) (f : β → PyRes γ) : (PyRes.ok b >>= f) = f b := rfl
@[simp] theorem PyRes.bind_runtimeError {β γ : Type} (f : β → PyRes γ) : ((PyRes.runtimeError : PyRes β) >>= f) = .runtimeError := rfl
@[simp] theorem PyRes.bind_indexError {β γ : Type} (f : β → PyRes γ) : ((PyRes.indexError : PyRes β) >>= f) = .indexError := rfl
@[simp] theorem PyRes.bind_diverge {β γ : Type} (f : β → PyRes γ) : ((PyRes.diverge : PyRes β) >>= f) = .diverge := rfl

/-- a file as it is after the files `done` have been written -/
def SrcFile.after (done : List SrcFile) (f : SrcFile) : SrcFile :=
  { f with depsInner := f.depsInner.diff (done.map SrcFile.filename) }

/-- a written file -/
def SrcFile.bare (f : SrcFile) : SrcFile := { f with depsInner := [] }

/-- each file, when written, had all its dependencies written -/
def Served : List SrcFile → Prop := fun os => ∀ pre f post, os = pre ++ f :: post → f.depsInner.diff (pre.map SrcFile.filename) = []

theorem served_nil : Served [] := by intro pre f post h; simp at h

theorem served_snoc {os : List SrcFile} {f : SrcFile} (h : Served os) (hf : f.depsInner.diff (os.map SrcFile.filename) = []) :
    Served (os ++ [f]) := by
  intro pre g post e
  rcases List.append_eq_append_iff.mp e with ⟨a, h1, h2⟩ | ⟨a, h1, h2⟩
  · cases a with
    | nil =>
      simp at h1 h2
      obtain ⟨rfl, -⟩ := h2
      subst h1
      exact hf
    | cons x a =>
      simp at h2
  · cases a with
    | nil =>
      simp at h1 h2
      obtain ⟨rfl, -⟩ := h2
      subst h1
      exact hf
    | cons x a =>
      simp at h2
      obtain ⟨rfl, -⟩ := h2
      exact h pre _ a h1

theorem SrcFile.after_erase (done : List SrcFile) (c : SrcFile) (f : SrcFile) :
    { f.after done with depsInner := (f.after done).depsInner.erase c.filename } = f.after (done ++ [c]) := by
  simp [SrcFile.after, List.diff_append]

theorem map_eraseIdx' {β γ : Type} (f : β → γ) : ∀ (l : List β) (i : Nat), (l.map f).eraseIdx i = (l.eraseIdx i).map f
  | [], _ => rfl
  | _ :: _, 0 => rfl
  | a :: l, i + 1 => by simp [map_eraseIdx' f l i]

theorem perm_eraseIdx {β : Type} : ∀ (l : List β) (i : Nat) (x : β), l[i]? = some x → (x :: l.eraseIdx i).Perm l
  | [], i, x, h => by simp at h
  | a :: l, 0, x, h => by simp at h; subst h; exact List.Perm.refl _
  | a :: l, i + 1, x, h => by
    simp only [List.getElem?_cons_succ] at h
    rw [List.eraseIdx_cons_succ]
    exact (List.Perm.swap a x _).trans ((perm_eraseIdx l i x h).cons a)

/-- the invariant of the passes -/
structure Inv (fs rs os : List SrcFile) : Prop where
  perm : (rs ++ os).Perm fs
  served : Served os

theorem pass_inv (fs : List SrcFile) (old : List SrcFile) : ∀ (i : Nat) (rs os : List SrcFile), i ≤ rs.length → Inv fs rs (old ++ os) →
    ∃ rs' os', combinePass i (rs.map (SrcFile.after (old ++ os))) (os.map SrcFile.bare) =
        .ok (rs'.map (SrcFile.after (old ++ os')), os'.map SrcFile.bare) ∧
      Inv fs rs' (old ++ os') ∧ (∃ more, os' = os ++ more) ∧ rs'.length + os'.length = rs.length + os.length ∧
      (os' = [] → rs' = rs ∧ ∀ j < i, ∀ f, rs[j]? = some f → (f.after old).depsInner ≠ []) := by
  intro i
  induction i with
  | zero => intro rs os _ hI; exact ⟨rs, os, rfl, hI, ⟨[], by simp⟩, rfl, fun _ => ⟨rfl, by simp⟩⟩
  | succ i ih =>
    intro rs os hi hI
    have hlt : i < rs.length := by omega
    obtain ⟨f, hf⟩ : ∃ f, rs[i]? = some f := ⟨rs[i], by simp [hlt]⟩
    have hg : (rs.map (SrcFile.after (old ++ os)))[i]? = some (f.after (old ++ os)) := by simp [hf]
    unfold combinePass
    rw [hg]
    by_cases hd : (f.after (old ++ os)).depsInner.length > 0
    · simp only [hd, if_true]
      obtain ⟨rs', os', h1, h2, h3, h4, h5⟩ := ih rs os (by omega) hI
      refine ⟨rs', os', h1, h2, h3, h4, fun e => ?_⟩
      obtain ⟨k1, k2⟩ := h5 e
      refine ⟨k1, fun j hj g hjg => ?_⟩
      rcases Nat.lt_succ_iff_lt_or_eq.mp hj with hj | rfl
      · exact k2 j hj g hjg
      · rw [hf] at hjg; cases hjg
        obtain ⟨more, rfl⟩ := h3
        have : os = [] := by
          cases os with
          | nil => rfl
          | cons a b => simp at e
        subst this
        intro hn
        simp only [List.append_nil] at hd
        rw [hn] at hd
        simp at hd
    · simp only [hd, if_false]
      have hz : (f.after (old ++ os)).depsInner = [] := by
        cases hh : (f.after (old ++ os)).depsInner with
        | nil => rfl
        | cons a b => rw [hh] at hd; simp at hd
      have e1 : ((rs.map (SrcFile.after (old ++ os))).eraseIdx i).map
          (fun t => { t with depsInner := t.depsInner.erase (f.after (old ++ os)).filename }) =
          (rs.eraseIdx i).map (SrcFile.after (old ++ (os ++ [f]))) := by
        rw [map_eraseIdx', List.map_map]
        refine List.map_congr_left fun t _ => ?_
        rw [← List.append_assoc]
        exact SrcFile.after_erase (old ++ os) f t
      have e2 : os.map SrcFile.bare ++ [f.after (old ++ os)] = (os ++ [f]).map SrcFile.bare := by
        have : f.after (old ++ os) = f.bare := by
          simp only [SrcFile.after, SrcFile.bare] at hz ⊢
          rw [hz]
        simp [this]
      have hlen : (rs.eraseIdx i).length = rs.length - 1 := List.length_eraseIdx_of_lt hlt
      have hI' : Inv fs (rs.eraseIdx i) (old ++ (os ++ [f])) := by
        refine ⟨?_, ?_⟩
        · refine List.Perm.trans ?_ hI.perm
          have := perm_eraseIdx rs i f hf
          have h2 : (rs.eraseIdx i ++ (old ++ (os ++ [f]))).Perm (f :: (rs.eraseIdx i ++ (old ++ os))) := by
            rw [← List.append_assoc old os, ← List.append_assoc]
            exact List.perm_append_singleton _ _
          exact h2.trans (this.append_right (old ++ os))
        · rw [← List.append_assoc]
          exact served_snoc hI.served hz
      obtain ⟨rs', os', h1, h2, ⟨more, h3⟩, h4, h5⟩ := ih (rs.eraseIdx i) (os ++ [f]) (by omega) hI'
      refine ⟨rs', os', ?_, h2, ⟨[f] ++ more, by rw [h3]; simp⟩, ?_, fun e => ?_⟩
      · rw [e1, e2]; exact h1
      · simp at h4; omega
      · rw [h3] at e; simp at e

theorem sort_inv (fs : List SrcFile) : ∀ (fuel : Nat) (rs old : List SrcFile), rs.length ≤ fuel → Inv fs rs old →
    (∃ os, combineSort fuel (rs.map (SrcFile.after old)) (old.map SrcFile.bare) = .ok (os.map SrcFile.bare) ∧ Inv fs [] os) ∨
    (combineSort fuel (rs.map (SrcFile.after old)) (old.map SrcFile.bare) = .runtimeError ∧
      ∃ rs' os, rs' ≠ [] ∧ Inv fs rs' os ∧ ∀ f ∈ rs', (f.after os).depsInner ≠ []) := by
  intro fuel
  induction fuel with
  | zero =>
    intro rs old h hI
    have : rs = [] := List.length_eq_zero_iff.mp (by omega)
    subst this
    exact .inl ⟨old, by simp [combineSort], hI⟩
  | succ fuel ih =>
    intro rs old h hI
    cases rs with
    | nil => exact .inl ⟨old, by simp [combineSort], hI⟩
    | cons r rs =>
      obtain ⟨rs', os', h1, h2, -, h4, h5⟩ := pass_inv fs old (r :: rs).length (r :: rs) [] le_rfl (by simpa using hI)
      simp only [List.append_nil, List.map_nil] at h1
      have e : combineSort (fuel + 1) ((r :: rs).map (SrcFile.after old)) (old.map SrcFile.bare) =
          (if os'.map SrcFile.bare = [] then .runtimeError
            else combineSort fuel (rs'.map (SrcFile.after (old ++ os'))) (old.map SrcFile.bare ++ os'.map SrcFile.bare)) := by
        have : combineSort (fuel + 1) ((r :: rs).map (SrcFile.after old)) (old.map SrcFile.bare) =
            (combinePass ((r :: rs).map (SrcFile.after old)).length ((r :: rs).map (SrcFile.after old)) [] >>= fun p =>
              if p.2 = [] then .runtimeError else combineSort fuel p.1 (old.map SrcFile.bare ++ p.2)) := rfl
        rw [this, List.length_map, h1]
        rfl
      by_cases ho : os' = []
      · obtain ⟨k1, k2⟩ := h5 ho
        refine .inr ⟨by rw [e]; simp [ho], r :: rs, old, by simp, hI, fun f hf => ?_⟩
        obtain ⟨j, hj, rfl⟩ := List.getElem_of_mem hf
        exact k2 j hj _ (by simp [hj])
      · have hl : os'.length ≠ 0 := fun h => ho (List.length_eq_zero_iff.mp h)
        rw [e]
        simp only [List.map_eq_nil_iff, ho, if_false, ← List.map_append]
        exact ih rs' (old ++ os') (by simp at h4 h ⊢; omega) h2

theorem after_nil (fs : List SrcFile) : fs.map (SrcFile.after []) = fs := by
  conv_rhs => rw [← List.map_id fs]
  exact List.map_congr_left fun f _ => by simp [SrcFile.after]

theorem combineText_bare (os : List SrcFile) : combineText (os.map SrcFile.bare) = combineText os := by
  have h1 : (os.map SrcFile.bare).flatMap SrcFile.defines = os.flatMap SrcFile.defines := List.flatMap_map ..
  have h2 : (os.map SrcFile.bare).flatMap SrcFile.depsLib = os.flatMap SrcFile.depsLib := List.flatMap_map ..
  have h3 : (os.map SrcFile.bare).flatMap (fun e => List.intercalate ['\n'] e.contents ++ ['\n']) =
      os.flatMap (fun e => List.intercalate ['\n'] e.contents ++ ['\n']) := List.flatMap_map ..
  unfold combineText
  rw [h1, h2, h3]

theorem diff_nil_mem {l k : List Str} (h : l.diff k = []) {x : Str} (hx : x ∈ l) : x ∈ k := by
  by_contra hk
  have := List.mem_diff_of_mem hx hk
  rw [h] at this
  simp at this

theorem diff_nil_nodup {l k : List Str} (h : l.diff k = []) (hk : k.Nodup) : l.Nodup := by
  rw [List.nodup_iff_count_le_one]
  intro a
  have h1 := List.count_diff a l k
  rw [h] at h1
  have h2 := List.nodup_iff_count_le_one.mp hk a
  simp at h1
  omega

theorem diff_nil_of {l k : List Str} (hl : l.Nodup) (h : ∀ x ∈ l, x ∈ k) : l.diff k = [] := by
  rw [List.eq_nil_iff_forall_not_mem]
  intro x hx
  rw [hl.mem_diff_iff] at hx
  exact hx.2 (h x hx.1)

theorem served_depsFirst {os : List SrcFile} (h : Served os) : DepsFirst os := by
  intro pre f post e d hd
  have := diff_nil_mem (h pre f post e) hd
  simpa using this

/-- the position of a name -/
theorem depsFirst_noCycle {os : List SrcFile} (h : DepsFirst os) (hn : (os.map SrcFile.filename).Nodup) : NoCycle os := by
  have key : ∀ a b, Includes os a b → (os.map SrcFile.filename).idxOf a < (os.map SrcFile.filename).idxOf b := by
    rintro a b ⟨f, hf, rfl, ha⟩
    obtain ⟨pre, post, rfl⟩ := List.append_of_mem hf
    obtain ⟨g, hg, rfl⟩ := h pre f post rfl a ha
    have h1 : g.filename ∈ pre.map SrcFile.filename := List.mem_map_of_mem hg
    have h2 : f.filename ∉ pre.map SrcFile.filename := by
      rw [List.map_append, List.map_cons] at hn
      intro hc
      exact (List.disjoint_of_nodup_append hn) hc (by simp)
    rw [List.map_append, List.map_cons, List.idxOf_append_of_mem h1, List.idxOf_append_of_notMem h2]
    simp only [List.idxOf_cons_self, Nat.add_zero]
    exact List.idxOf_lt_length_iff.mpr h1
  have : ∀ a b, Relation.TransGen (Includes os) a b → (os.map SrcFile.filename).idxOf a < (os.map SrcFile.filename).idxOf b := by
    intro a b hab
    induction hab with
    | single h => exact key _ _ h
    | tail _ h ih => exact ih.trans (key _ _ h)
  intro x hx
  exact lt_irrefl _ (this x x hx)

theorem includes_perm {fs gs : List SrcFile} (h : fs.Perm gs) : Includes fs = Includes gs := by
  funext a b
  simp [Includes, h.mem_iff]

/-- if everything left waits for something left, there is a cycle -/
theorem stuck_cycle {fs rs : List SrcFile} (hne : rs ≠ []) (hsub : ∀ f ∈ rs, f ∈ fs)
    (h : ∀ f ∈ rs, ∃ g ∈ rs, g.filename ∈ f.depsInner) : ¬ NoCycle fs := by
  intro hc
  let N := { x // x ∈ rs.map SrcFile.filename }
  let R : N → N → Prop := fun a b => Relation.TransGen (Includes fs) a.1 b.1
  have : Finite N := (List.finite_toSet (rs.map SrcFile.filename)).to_subtype
  have hT : IsTrans N R := ⟨fun a b c h1 h2 => h1.trans h2⟩
  have hI : Std.Irrefl R := ⟨fun a => hc a.1⟩
  have wf : WellFounded R := Finite.wellFounded_of_trans_of_irrefl R
  obtain ⟨r, hr⟩ := List.exists_mem_of_ne_nil rs hne
  obtain ⟨m, -, hm⟩ := wf.has_min (Set.univ : Set N) ⟨⟨r.filename, List.mem_map_of_mem hr⟩, trivial⟩
  obtain ⟨f, hf, hfm⟩ := List.mem_map.mp m.2
  obtain ⟨g, hg, hd⟩ := h f hf
  exact hm ⟨g.filename, List.mem_map_of_mem hg⟩ trivial (.single ⟨f, hsub f hf, hfm, hd⟩)

end Tom
