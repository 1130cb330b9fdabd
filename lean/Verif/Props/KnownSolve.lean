import Verif.Props.TextSolve
/-
C120: solving after the known quantities have been substituted.
-/
set_option linter.unusedSectionVars false
namespace Tom

section
variable {α : Type} [Dbl α]

theorem lookup_append_or (k l : List (Str × α)) (x : Str) : (k ++ l).lookup x = (k.lookup x).or (l.lookup x) := by
  induction k with
  | nil => rfl
  | cons a k ih =>
    obtain ⟨y, v⟩ := a
    simp only [List.cons_append, List.lookup_cons]
    split <;> simp_all

theorem lookup_isSome_mem (k : List (Str × α)) (x : Str) : (∃ v, k.lookup x = some v) ↔ x ∈ k.map Prod.fst := by
  induction k with
  | nil => simp
  | cons a k ih =>
    obtain ⟨y, v⟩ := a
    simp only [List.lookup_cons, List.map_cons, List.mem_cons]
    by_cases h : x = y
    · subst h; simp
    · have : (x == y) = false := by simpa using h
      simp only [this, h, false_or]
      exact ih

/-- a list of pairs and the table made of it give every name the same value -/
theorem ofList_lookup {known : List (Str × α)} {t : VarsTable α} (h : VarsTable.ofList known = .ok t) (x : Str) :
    t.table.lookup x = known.lookup x := by
  rw [ofMap_eq (ofList_ofMap h)]
  have hs : SortedKeys ([] : List (Str × α)) := List.Pairwise.nil
  have := mapFind_insertAll x known [] hs
  simp only [mapFind, Option.none_or] at this
  rw [← this]
  show (insertAll [] known).lookup x = _
  generalize insertAll [] known = m
  induction m with
  | nil => rfl
  | cons kv m ih =>
    rw [List.lookup_cons, mapFind, ih]
    by_cases hx : x = kv.1
    · simp [hx]
    · have : (x == kv.1) = false := by simpa using hx
      simp [hx, this]

/-- **C120**, values: substituting the known quantities and evaluating at a table is evaluating the original expression at the known quantities
and the table together, whether the result is a number or an exception. -/
theorem C120_values (cfg : Config α) (e : Expr α) (known values : List (Str × α)) :
    (subsValues (embed e) known >>= fun g => subsValues g values >>= fun h => vpa cfg h) =
      (subsValues (embed e) (known ++ values) >>= fun h => vpa cfg h) := by
  rw [C18_subsValues, Res.bind_ok, C17_subsValues_vpa, C17_subsValues_vpa, eval_subst]
  congr 1; funext x
  rw [lookup_append_or]
  cases known.lookup x <;> rfl

/-- **C120.** If `Solve` returns after the known quantities have been substituted in the equations read from texts, then the table has exactly the
variables of the texts that are not known, in increasing order, and at the known quantities and the table together every equation as written
has a value nearer to 0 than `epsilon`. -/
theorem C120 {n : ℕ} (cfg : Config α) (lsFuel fuel : ℕ) (texts : Fin n → Str) (known : List (Str × α)) {ans : VarsTable α}
    (h : solveWith cfg lsFuel fuel (List.ofFn texts) known = .ok ans) :
    ∃ e : Fin n → Expr α, (∀ i, parse (texts i) = .ok (embed (e i))) ∧ ans.Reachable ∧
      ans.vars.Pairwise (fun a b => strLt a b = true) ∧
      (∀ x, x ∈ ans.vars ↔ (∃ i, x ∈ (e i).vars) ∧ x ∉ known.map Prod.fst) ∧
      ∀ i, ∃ v, (subsValues (embed (e i)) (known ++ ans.table) >>= fun g => vpa cfg g) = .ok v ∧
        Arith.lt (Arith.abs (Arith.sub v (Dbl.ofInt 0))) cfg.epsilon = true := by
  obtain ⟨f, h1, h⟩ := Res.bind_eq_ok.mp h
  obtain ⟨t, h2, h⟩ := Res.bind_eq_ok.mp h
  obtain ⟨g, h3, h⟩ := Res.bind_eq_ok.mp h
  obtain ⟨hn, e, h4, rfl⟩ := equationsOf_ok h1
  rw [C50_subs] at h3
  obtain rfl := Res.ok.inj h3
  obtain ⟨g1, g2, g3⟩ := C48_auto cfg lsFuel fuel _ h
  refine ⟨e, h4, g1, g2, fun x => (g3 x).trans ?_, fun i => ?_⟩
  · simp only [Matrix.of_apply, mem_vars_subst, ofList_lookup h2, ← lookup_isSome_mem]
    constructor
    · rintro ⟨i, ⟨hx, hk⟩ | ⟨y, _, r, hr, hx⟩⟩
      · refine ⟨⟨i, hx⟩, ?_⟩
        rintro ⟨v, hv⟩
        rw [hv] at hk; cases hk
      · obtain ⟨v, _, rfl⟩ := Option.map_eq_some_iff.mp hr
        cases hx
    · rintro ⟨⟨i, hx⟩, hk⟩
      refine ⟨i, .inl ⟨hx, ?_⟩⟩
      cases hv : known.lookup x with
      | none => rfl
      | some v => exact absurd ⟨v, hv⟩ hk
  · obtain ⟨v, g4, g5⟩ := C42_auto cfg lsFuel fuel _ h i
    refine ⟨v, ?_, g5⟩
    rw [← C120_values, C18_subsValues, Res.bind_ok, ← g4]
    simp only [Matrix.of_apply, ofList_lookup h2]

/-- C46: construction from a map succeeds exactly for a map with an entry. -/
theorem C46_ofMap (m : List (Str × α)) : (∃ t, VarsTable.ofMap m = .ok t) ↔ m ≠ [] := by
  constructor
  · rintro ⟨t, h⟩ rfl
    cases h
  · intro h
    have hl : 0 < m.length := List.length_pos_iff.mpr h
    refine ⟨⟨m.map Prod.fst, ⟨m.length, 1, m.map Prod.snd⟩, m⟩, ?_⟩
    unfold VarsTable.ofMap Mat.new
    rw [if_pos ⟨hl, by omega⟩]
    simp only [Res.bind_ok, Nat.mul_one]
    have := ofMap_loop m 0 m.length [] [] rfl rfl
    simp only [List.nil_append] at this
    exact Res.bind_eq_ok.mpr ⟨_, this, rfl⟩

/-- C46: construction from a list of pairs succeeds exactly for a list that is not empty (repeated names are no error). -/
theorem C46_ofList (l : List (Str × α)) : (∃ t, VarsTable.ofList l = .ok t) ↔ l ≠ [] := by
  constructor
  · rintro ⟨t, h⟩ rfl
    cases h
  · intro h
    have hne : insertAll [] l ≠ [] := by
      obtain ⟨kv, l', rfl⟩ := List.exists_cons_of_ne_nil h
      intro h0
      have := (insertAll_keys (kv :: l') [] kv.1 List.Pairwise.nil).mpr (.inr (by simp))
      rw [h0] at this
      cases this
    obtain ⟨t, ht⟩ := (C46_ofMap _).mpr hne
    refine ⟨t, Res.bind_eq_ok.mpr ⟨t, ht, ?_⟩⟩
    rw [ofMap_eq ht, if_pos (by simp)]

/-- C120: the texts are read and some quantity is known, but nothing is left to solve for: `Solve` violates an assertion (the empty `VarsTable`). -/
theorem C120_nothing_left {n : ℕ} (hn : 0 < n) (cfg : Config α) (lsFuel fuel : ℕ) (texts : Fin n → Str) (e : Fin n → Expr α)
    (h : ∀ i, parse (texts i) = .ok (embed (e i))) (known : List (Str × α)) (h0 : known ≠ [])
    (hk : ∀ i, ∀ x ∈ (e i).vars, x ∈ known.map Prod.fst) :
    solveWith cfg lsFuel fuel (List.ofFn texts) known = .assertFail := by
  obtain ⟨t, ht⟩ := (C46_ofList known).mpr h0
  unfold solveWith
  rw [equationsOf_eq hn h, Res.bind_ok, ht, Res.bind_ok, C50_subs, Res.bind_ok]
  unfold solveAuto
  obtain ⟨out, h4, h5, h6⟩ := C50_getAllVarNames (Matrix.of fun i (j : Fin 1) => ((Matrix.of fun i (_ : Fin 1) => e i) i j).subst fun x => (t.table.lookup x).map Expr.num)
  rw [h4, Res.bind_ok]
  have : out = [] := by
    rw [List.eq_nil_iff_forall_not_mem]
    intro x hx
    obtain ⟨i, j, hx⟩ := (h6 x).mp hx
    simp only [Matrix.of_apply, mem_vars_subst, ofList_lookup ht] at hx
    rcases hx with ⟨hx, hk'⟩ | ⟨y, _, r, hr, hx⟩
    · obtain ⟨v, hv⟩ := (lookup_isSome_mem known x).mpr (hk i x hx)
      rw [hv] at hk'; cases hk'
    · obtain ⟨v, _, rfl⟩ := Option.map_eq_some_iff.mp hr
      cases hx
  subst this
  rfl

end

namespace Double
variable {L : Libm}

/-- the number a list of pairs gives a name -/
noncomputable def listPoint (values : List (Str × Double L)) (s : Str) : ℚ :=
  match values.lookup s with
  | some y => y.raw.toRat
  | none => 0

/-- **C120** in doubles: at the numbers of the table and the known quantities together, the written expressions have exact values smaller than
`epsilon` plus the bound of the errors of reading the literals and evaluating in doubles. -/
theorem C120_exact {n : ℕ} (δ : ℝ) (hL : L.Within δ) (cfg : Config (Double L)) (ε : ℚ) (hε : cfg.epsilon.Is ε) (lsFuel fuel : ℕ)
    (texts : Fin n → Str) (e : Fin n → Expr (XNum ℝ)) (hw : ∀ i, Writes (texts i) (e i)) (known : List (Str × Double L)) {ans : VarsTable (Double L)}
    (h : solveWith cfg lsFuel fuel (List.ofFn texts) known = .ok ans)
    (hfin : ∀ i, ∀ x ∈ (e i).vars, ∃ y, (known ++ ans.table).lookup x = some y ∧ Dbl.isInvalid y = false) (v E : Fin n → ℝ)
    (hE : ∀ i, textEnclosure δ (fun s => (listPoint (known ++ ans.table) s : ℝ)) (e i) = some (v i, E i)) :
    (∀ x, x ∈ ans.vars ↔ (∃ i, x ∈ (e i).vars) ∧ x ∉ known.map Prod.fst) ∧
    ∀ i, realVal (fun s => (listPoint (known ++ ans.table) s : ℝ)) (e i) = some (v i) ∧ |v i| < ε + E i := by
  obtain ⟨e', h3, -, -, h5, h6⟩ := C120 cfg lsFuel fuel texts known h
  have h4 : ∀ i, TreeReads (e i) (e' i) := by
    intro i
    obtain ⟨ts, a, b, c⟩ := hw i
    obtain ⟨e'', h5, h6⟩ := parse_reads (L := L) (texts i) ts (e i) a b c (textEnclosure_nums δ _ (e i) _ (hE i))
    have := embed_injective (Res.ok.inj ((h3 i).symm.trans h5))
    rw [this]; exact h6
  refine ⟨fun x => by rw [h5 x]; simp only [(h4 _).vars], fun i => ⟨textEnclosure_value δ _ (e i) _ _ (hE i), ?_⟩⟩
  obtain ⟨x, h6, h7⟩ := h6 i
  rw [C17_subsValues_vpa] at h6
  obtain ⟨p, hp, hlt⟩ := below_eps hε h7
  obtain ⟨y, q, g1, g2, g3⟩ := textEnclosure_eval δ hL cfg.throwOnInvalidValue (envOf (known ++ ans.table))
    (fun s => (listPoint (known ++ ans.table) s : ℝ)) (e i) (e' i) (h4 i)
    (fun s hs => by
      obtain ⟨y, a, b⟩ := hfin i s hs
      exact ⟨y, listPoint (known ++ ans.table) s, by rw [envOf, a], ⟨b, by rw [listPoint, a]⟩, rfl⟩) (v i) (E i) (hE i)
  have hxy : x = y := Res.ok.inj (h6.symm.trans g1)
  subst hxy
  have hpq : p = q := hp.2.symm.trans g2.2
  subst hpq
  have h8 : |(p : ℝ)| < ε := by exact_mod_cast hlt
  have h9 := abs_sub_abs_le_abs_sub (v i) (p : ℝ)
  rw [abs_sub_comm] at h9
  linarith

/-! ### A case -/

theorem xk_writes : Writes "x-k".toList (.bin .sub (.var ['x']) (.var ['k'])) := by
  have hw : ∀ c ∈ ['x', 'k'], WordChar c := by
    intro c hc
    simp at hc
    rcases hc with rfl | rfl <;> exact ⟨by unfold OpChar; decide, by unfold BlankChar; decide⟩
  have hx : WordMeans ['x'] (.var ['x'] : Tok (XNum ℝ)) := by
    refine .var ((C08_varNameIsLegal _).mp (by decide)) ((stodFull_none_iff _).mp rfl) ?_
    rintro ⟨f, hf⟩; cases hf
  have hk : WordMeans ['k'] (.var ['k'] : Tok (XNum ℝ)) := by
    refine .var ((C08_varNameIsLegal _).mp (by decide)) ((stodFull_none_iff _).mp rfl) ?_
    rintro ⟨f, hf⟩; cases hf
  have up : ∀ {n p : Nat} {ts : List (Tok (XNum ℝ))} {e : Expr (XNum ℝ)}, Gram (p + n) ts e → Gram p ts e := by
    intro n
    induction n with
    | zero => intro p ts e h; exact h
    | succ n ih => intro p ts e h; exact ih (.lift h)
  refine ⟨[(.var ['x'], 0), (.sym '-', 1), (.var ['k'], 2)], ?_, ?_, ?_⟩
  · exact .word (w := []) (u := ['x']) (rest := ['-', 'k']) (by simp) (by simp) (fun c hc => hw c (by simp at hc ⊢; tauto))
      (by intro c hc; simp at hc; subst hc; exact fun h => h.1 (by unfold OpChar; decide)) hx
      (.sym (w := []) (c := '-') (rest := ['k']) (by simp) (by unfold OpChar; decide)
        (.word (w := []) (u := ['k']) (rest := []) (by simp) (by simp) (fun c hc => hw c (by simp at hc ⊢; tauto))
          (by simp) hk (.blank (by simp))))
  · exact up (n := 5) (.left .sub (by decide) (up (n := 10) (.var _)) (up (n := 9) (.var _)))
  · intro x hx s f h he
    simp at hx
    rcases hx with rfl | rfl <;> cases h <;> exact absurd he (by decide +kernel)

/-- C120 applied to the equation `x-k` where `k` is known to be 3 -/
example : ∃ ans : VarsTable (Double accurate), solveWith defaultA 1 2 (List.ofFn fun _ : Fin 1 => "x-k".toList) [(['k'], Dbl.ofInt 3)] = .ok ans ∧
    ∃ v E : ℝ, textEnclosure (1 / 2 ^ 53) (fun s => (listPoint ([(['k'], Dbl.ofInt 3)] ++ ans.table) s : ℝ))
      (.bin .sub (.var ['x']) (.var ['k']) : Expr (XNum ℝ)) = some (v, E) ∧ |v| < defaultA.epsilon.raw.toRat + E := by
  have h : solveWith defaultA 1 2 (List.ofFn fun _ : Fin 1 => "x-k".toList) [(['k'], Dbl.ofInt 3)] =
      .ok (⟨[['x']], ⟨1, 1, [Dbl.ofInt 3]⟩, [(['x'], Dbl.ofInt 3)]⟩ : VarsTable (Double accurate)) := by decide +kernel
  refine ⟨_, h, ?_⟩
  have hε : defaultA.epsilon.Is defaultA.epsilon.raw.toRat := ⟨by decide +kernel, rfl⟩
  have hx : listPoint ([(['k'], Dbl.ofInt 3)] ++ [(['x'], (Dbl.ofInt 3 : Double accurate))]) ['x'] = 3 := by decide +kernel
  have hk : listPoint ([(['k'], Dbl.ofInt 3)] ++ [(['x'], (Dbl.ofInt 3 : Double accurate))]) ['k'] = 3 := by decide +kernel
  have hb : (1 : ℝ) < 2 ^ 1023 := one_lt_pow₀ (by norm_num) (by norm_num)
  obtain ⟨E, enc⟩ : ∃ E, textEnclosure (1 / 2 ^ 53) (fun s => (listPoint ([(['k'], Dbl.ofInt 3)] ++ [(['x'], (Dbl.ofInt 3 : Double accurate))]) s : ℝ))
      (.bin .sub (.var ['x']) (.var ['k']) : Expr (XNum ℝ)) = some (0, E) := by
    simp only [textEnclosure, Option.bind_some, BinOp.real, BinOp.spread, hx, hk, sub_self]
    refine ⟨_, if_pos ?_⟩
    simpa using hb.trans_le' zero_le_one
  refine ⟨0, E, enc, ?_⟩
  exact ((C120_exact _ accurate_within defaultA _ hε 1 2 (fun _ => "x-k".toList) (fun _ => _) (fun _ => xk_writes) _ h
    (fun _ x hx => by
      simp only [Expr.vars, List.mem_append, List.mem_singleton] at hx
      rcases hx with rfl | rfl
      · exact ⟨Dbl.ofInt 3, rfl, by decide +kernel⟩
      · exact ⟨Dbl.ofInt 3, rfl, by decide +kernel⟩) _ _ (fun _ => enc)).2 0).2

end Double

/-- `x*k-y`, `x+y-k` with `k` known to be 3: the solution is `x = 3/4`, `y = 9/4` -/
example : solveWith (α := XNum Rat) defaultConfig 10 10 (List.ofFn ![ "x*k-y".toList, "x+y-k".toList]) [(['k'], .fin 3)] =
    .ok ⟨[['x'], ['y']], ⟨2, 1, [.fin (3 / 4), .fin (9 / 4)]⟩, [(['x'], .fin (3 / 4)), (['y'], .fin (9 / 4))]⟩ := by decide +kernel

/-- everything is known: `Solve` violates an assertion -/
example : solveWith (α := XNum Rat) defaultConfig 10 10 (List.ofFn ![ "k-3".toList]) [(['k'], .fin 3)] = .assertFail := by decide +kernel

end Tom
