import Verif.Model.TableIter
import Verif.Props.VarsTable
/-
C91: iterating over a variable table.
-/
namespace Tom
variable {α : Type} [Dbl α]

/-- C91: the iterators of a table a program can construct give every variable once, with the value `operator[]` returns, in strictly
increasing order of the names; as many as `VarNums()`. -/
theorem C91 {t : VarsTable α} (h : t.Reachable) :
    (t.entries.map Prod.fst).Pairwise (fun x y => strLt x y = true) ∧
    (∀ x, x ∈ t.entries.map Prod.fst ↔ x ∈ t.vars) ∧
    (∀ x a, (x, a) ∈ t.entries ↔ t.get x = .ok a) ∧
    t.entries.length = t.varNums ∧ t.entries.Nodup := by
  have hm : SortedKeys t.table := (C46 h).2.2.2.2.2.2.1
  refine ⟨(sortedKeys_iff _).mp hm, fun x => h.good.keys.mem_iff, fun x a => ?_, rfl, sortedKeys_nodup' hm⟩
  unfold VarsTable.entries VarsTable.get
  rw [mem_iff_mapFind (sortedKeys_nodup hm)]
  cases mapFind x t.table with
  | none => simp
  | some b => simp

/-- C91: a `for` loop runs its body on exactly these entries in this order: the pairs of names and values, sorted by name. -/
theorem C91_forEach {σ : Type} {t : VarsTable α} (h : t.Reachable) (body : σ → Str → α → Res σ) (s : σ)
    (names : List Str) (hn : names.Pairwise fun x y => strLt x y = true) (hs : ∀ x, x ∈ names ↔ x ∈ t.vars) :
    t.forEach body s = forRes (fun s x => t.get x >>= fun a => body s x a) names s := by
  obtain ⟨h1, h2, h3, _, _⟩ := C91 h
  have hnames : t.entries.map Prod.fst = names := by
    have asym : ∀ x y : Str, strLt x y = true → ¬ strLt y x = true := fun x y hxy hyx => by simp [strLt_asymm hxy] at hyx
    refine List.Perm.eq_of_pairwise (le := fun x y => strLt x y = true) (fun x y _ _ hxy hyx => absurd hyx (asym x y hxy)) h1 hn ?_
    refine (List.perm_ext_iff_of_nodup ?_ ?_).mpr fun x => (h2 x).trans (hs x).symm
    · exact h1.imp fun hxy hEq => by subst hEq; simp [strLt_asymm hxy] at hxy
    · exact hn.imp fun hxy hEq => by subst hEq; simp [strLt_asymm hxy] at hxy
  rw [← hnames]
  unfold VarsTable.forEach
  have hg : ∀ p ∈ t.entries, t.get p.1 = .ok p.2 := fun p hp => (h3 p.1 p.2).mp hp
  generalize t.entries = l at hg
  induction l generalizing s with
  | nil => rfl
  | cons p l ih =>
    have hp := hg p (by simp)
    simp only [forRes, List.map_cons, hp, Res.bind_ok]
    cases body s p.1 p.2 with
    | ok s' => exact ih s' fun q hq => hg q (by simp [hq])
    | _ => rfl

/-- The order is not that of `Vars()`: a table constructed for `b`, `a` lists them so, but iterates `a` first.  Values taken in order of
iteration do not fit `Values()`. -/
theorem C91_false_vars_order : ∃ t : VarsTable (XNum Rat), t.Reachable ∧ t.vars = [['b'], ['a']] ∧
    t.entries.map Prod.fst = [['a'], ['b']] ∧ t.entries.map Prod.snd ≠ t.values.data := by
  have h1 : VarsTable.ofVars [['b'], ['a']] (.fin 0 : XNum Rat) = .ok ⟨[['b'], ['a']], ⟨2, 1, [.fin 0, .fin 0]⟩, [(['a'], .fin 0), (['b'], .fin 0)]⟩ := by
    decide +kernel
  have h2 : (⟨[['b'], ['a']], ⟨2, 1, [.fin 0, .fin 0]⟩, [(['a'], .fin 0), (['b'], .fin 0)]⟩ : VarsTable (XNum Rat)).setValues ⟨2, 1, [.fin 5, .fin 7]⟩
      = .ok ⟨[['b'], ['a']], ⟨2, 1, [.fin 5, .fin 7]⟩, [(['a'], .fin 7), (['b'], .fin 5)]⟩ := by decide +kernel
  exact ⟨_, .setValues (.ofVars h1) ⟨rfl, rfl⟩ h2, rfl, rfl, by decide +kernel⟩

end Tom
