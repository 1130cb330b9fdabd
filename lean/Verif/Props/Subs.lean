import Verif.Lemmas.Dict
import Verif.Spec.Subst
import Verif.Model.Num
/-
Properties C17-C19: substitution.  The specification of simultaneous substitution is `Expr.subst` (Spec/Subst).
-/
set_option linter.unusedSectionVars false
namespace Tom
variable {α : Type} [Dbl α]

/-- C18: `Subs(node, oldVars, newNodes)` with as many images as names is the simultaneous substitution in which the first
binding of a name counts. -/
theorem C18_subsVec (e : Expr α) (vars : List Str) (imgs : List (Expr α)) (h : vars.length = imgs.length) :
    subsVec (embed e) vars (imgs.map embed) = .ok (embed (e.subst fun x => (vars.zip imgs).lookup x)) := by
  simp only [subsVec, List.length_map, h, beq_self_eq_true, Res.assert_true, Res.bind_ok]
  rw [dictOfLists_embed]
  have := insertAll_map (embed : Expr α → Raw α) (vars.zip imgs) []
  simp only [List.map_nil] at this
  simp only [Res.bind_ok, this, subsInner_embed]
  congr 3; funext x
  rw [mapFind_insertAll x _ [] (by simp [SortedKeys])]
  simp [mapFind]

/-- C18: a single replacement. -/
theorem C18_subs1 (e : Expr α) (x : Str) (r : Expr α) :
    subs1 (embed e) x (embed r) = .ok (embed (e.subst fun y => if y = x then some r else none)) := by
  simp only [subs1, clone_eq _ (embed_isSome r), Res.bind_ok, mapInsert]
  have := subsInner_embed [(x, r)] e
  simp only [List.map_cons, List.map_nil] at this
  rw [this]
  simp [mapFind]

/-- C18: a dictionary from names to expressions. -/
theorem C18_subsDict (e : Expr α) (dict : List (Str × Expr α)) :
    subsDict (embed e) (dict.map fun kv => (kv.1, embed kv.2)) = .ok (embed (e.subst fun x => dict.lookup x)) := by
  rw [subsDict, subsInner_embed]
  congr 3; funext x
  induction dict with
  | nil => rfl
  | cons kv m ih =>
    rw [List.lookup_cons, mapFind, ih]
    by_cases hx : x = kv.1
    · simp [hx]
    · have : (x == kv.1) = false := by simpa using hx
      simp [hx, this]

/-- C18: a table of numbers (a `std::map<string,double>` or a `VarsTable`). -/
theorem C18_subsValues (e : Expr α) (values : List (Str × α)) :
    subsValues (embed e) values = .ok (embed (e.subst fun x => (values.lookup x).map Expr.num)) := by
  have h1 : values.foldl (fun m kv => mapInsert kv.1 (mkNum kv.2) m) []
      = (insertAll [] values).map fun kv => (kv.1, embed (Expr.num kv.2)) := by
    have := insertAll_map (fun v : α => embed (Expr.num v)) values []
    simp only [List.map_nil] at this
    rw [← this]
    simp only [insertAll, List.foldl_map]
    rfl
  have h2 := subsInner_embed ((insertAll [] values).map fun kv => (kv.1, Expr.num kv.2)) e
  simp only [List.map_map] at h2
  rw [subsValues, h1]
  refine h2.trans ?_
  congr 3; funext x
  have h3 : ∀ m : List (Str × α), mapFind x (m.map fun kv => (kv.1, Expr.num kv.2)) = (mapFind x m).map Expr.num := by
    intro m
    induction m with
    | nil => rfl
    | cons kv m ih => simp only [List.map_cons, mapFind, ih]; split <;> rfl
  rw [h3, mapFind_insertAll x _ [] (by simp [SortedKeys])]
  simp [mapFind]

/-- C18: the overloads taking `const Node&` return the same. -/
theorem C18_const (e r : Expr α) (x : Str) (vars : List Str) (imgs : List (Raw α)) (values : List (Str × α)) :
    subs1Const (embed e) x (embed r) = subs1 (embed e) x (embed r) ∧
    subsVecConst (embed e) vars imgs = subsVec (embed e) vars imgs ∧
    subsValuesConst (embed e) values = subsValues (embed e) values := by
  simp [subs1Const, subsVecConst, subsValuesConst, clone_eq _ (embed_isSome e)]

/-- C18: a vector of images of another length violates the function's `assert`. -/
theorem C18_length (e : Expr α) (vars : List Str) (imgs : List (Raw α)) (h : vars.length ≠ imgs.length) :
    subsVec (embed e) vars imgs = .assertFail := by
  have : (vars.length == imgs.length) = false := by simpa using h
  simp [subsVec, this]

theorem lookup_perm {β : Type} {l l' : List (Str × β)} (hp : l.Perm l') (hk : (l.map Prod.fst).Nodup) (x : Str) :
    l.lookup x = l'.lookup x := by
  induction hp with
  | nil => rfl
  | cons kv hp ih =>
    obtain ⟨k, b⟩ := kv
    simp only [List.map_cons, List.nodup_cons] at hk
    rw [List.lookup_cons, List.lookup_cons, ih hk.2]
  | swap a b l =>
    obtain ⟨k1, b1⟩ := a
    obtain ⟨k2, b2⟩ := b
    simp only [List.map_cons, List.nodup_cons, List.mem_cons, not_or] at hk
    simp only [List.lookup_cons]
    by_cases h1 : x = k1
    · subst h1
      have : (x == k2) = false := beq_eq_false_iff_ne.mpr (Ne.symm hk.1.1)
      simp [this]
    · have : (x == k1) = false := by simpa using h1
      simp [this]
  | trans h1 h2 ih1 ih2 =>
    rw [ih1 hk, ih2 ((h1.map Prod.fst).nodup_iff.mp hk)]

/-- C18: with distinct names the order in which the pairs are given is irrelevant. -/
theorem C18_order (e : Expr α) (vars vars' : List Str) (imgs imgs' : List (Expr α))
    (h : vars.length = imgs.length) (h' : vars'.length = imgs'.length) (hd : vars.Nodup)
    (hp : (vars.zip imgs).Perm (vars'.zip imgs')) :
    subsVec (embed e) vars (imgs.map embed) = subsVec (embed e) vars' (imgs'.map embed) := by
  rw [C18_subsVec e _ _ h, C18_subsVec e _ _ h']
  congr 3; funext x
  apply lookup_perm hp
  rwa [List.map_fst_zip (Nat.le_of_eq h)]

/-- C18: images are not substituted again: swapping two variables really swaps them. -/
theorem C18_simultaneous (x y : Str) (h : x ≠ y) :
    subsVec (embed (.bin .sub (.var x) (.var y) : Expr α)) [x, y] [embed (.var y), embed (.var x)]
      = .ok (embed (.bin .sub (.var y) (.var x))) := by
  have := C18_subsVec (.bin .sub (.var x) (.var y) : Expr α) [x, y] [.var y, .var x] rfl
  simp only [List.map_cons, List.map_nil] at this
  rw [this]
  have h1 : (y == x) = false := beq_eq_false_iff_ne.mpr (Ne.symm h)
  simp [Expr.subst, List.lookup_cons, h1]

/-- C17 (specification level): evaluating a substituted expression is evaluating in the updated environment. -/
theorem eval_subst (strict : Bool) (σ : Str → Option (Expr α)) (ρ : Str → Res α) (e : Expr α) :
    (e.subst σ).eval strict ρ
      = e.eval strict (fun x => match σ x with | some r => r.eval strict ρ | none => ρ x) := by
  induction e with
  | num v => rfl
  | var x => simp only [Expr.subst, Expr.eval]; cases σ x <;> rfl
  | un o e ih => simp only [Expr.subst, Expr.eval, ih]
  | bin o a b iha ihb => simp only [Expr.subst, Expr.eval, iha, ihb]

/-- C17: `Vpa(Subs(e, vars, imgs))` is the evaluation of `e` in the environment giving each name the value of its image;
the outcomes agree also when they are exceptions. -/
theorem C17_subs_vpa (cfg : Config α) (e : Expr α) (vars : List Str) (imgs : List (Expr α)) (h : vars.length = imgs.length) :
    (subsVec (embed e) vars (imgs.map embed) >>= fun t => vpa cfg t)
      = e.eval cfg.throwOnInvalidValue (fun x => match (vars.zip imgs).lookup x with
          | some r => r.eval cfg.throwOnInvalidValue noEnv
          | none => .throw .runtime) := by
  rw [C18_subsVec e vars imgs h, Res.bind_ok, vpa_embed, eval_subst]
  rfl

/-- C17: the same for a table of numbers. -/
theorem C17_subsValues_vpa (cfg : Config α) (e : Expr α) (values : List (Str × α)) :
    (subsValues (embed e) values >>= fun t => vpa cfg t)
      = e.eval cfg.throwOnInvalidValue (fun x => match values.lookup x with
          | some v => .ok v
          | none => .throw .runtime) := by
  rw [C18_subsValues, Res.bind_ok, vpa_embed, eval_subst]
  congr 1; funext x
  cases values.lookup x <;> rfl

/-- C19 (specification level) -/
theorem mem_vars_subst (σ : Str → Option (Expr α)) (e : Expr α) (y : Str) :
    y ∈ (e.subst σ).vars ↔ (y ∈ e.vars ∧ σ y = none) ∨ ∃ x ∈ e.vars, ∃ r, σ x = some r ∧ y ∈ r.vars := by
  induction e with
  | num v => simp [Expr.subst, Expr.vars]
  | var x =>
    simp only [Expr.subst]
    cases h : σ x with
    | none =>
      simp only [Expr.vars, List.mem_singleton]
      constructor
      · rintro rfl; exact .inl ⟨rfl, h⟩
      · rintro (⟨rfl, _⟩ | ⟨x', rfl, r, hr, _⟩)
        · rfl
        · rw [h] at hr; cases hr
    | some r =>
      simp only [Expr.vars, List.mem_singleton]
      constructor
      · intro hy; exact .inr ⟨x, rfl, r, h, hy⟩
      · rintro (⟨rfl, h'⟩ | ⟨x', rfl, r', hr, hy⟩)
        · rw [h] at h'; cases h'
        · rw [h] at hr; cases hr; exact hy
  | un o e ih => simpa [Expr.subst, Expr.vars] using ih
  | bin o a b iha ihb =>
    simp only [Expr.subst, Expr.vars, List.mem_append, iha, ihb]
    constructor
    · rintro ((⟨h, h'⟩ | ⟨x, hx, h⟩) | (⟨h, h'⟩ | ⟨x, hx, h⟩))
      · exact .inl ⟨.inl h, h'⟩
      · exact .inr ⟨x, .inl hx, h⟩
      · exact .inl ⟨.inr h, h'⟩
      · exact .inr ⟨x, .inr hx, h⟩
    · rintro (⟨h | h, h'⟩ | ⟨x, hx | hx, h⟩)
      · exact .inl (.inl ⟨h, h'⟩)
      · exact .inr (.inl ⟨h, h'⟩)
      · exact .inl (.inr ⟨x, hx, h⟩)
      · exact .inr (.inr ⟨x, hx, h⟩)

/-- C19: the variables of the result of `Subs`, as `GetAllVarNames` reports them. -/
theorem C19_vars (e : Expr α) (vars : List Str) (imgs : List (Expr α)) (h : vars.length = imgs.length) :
    ∃ out, (subsVec (embed e) vars (imgs.map embed) >>= fun t => getAllVarNames t) = .ok out ∧
      ∀ y, y ∈ out ↔ (y ∈ e.vars ∧ y ∉ vars) ∨ ∃ x ∈ e.vars, ∃ r, (vars.zip imgs).lookup x = some r ∧ y ∈ r.vars := by
  rw [C18_subsVec e vars imgs h, Res.bind_ok]
  obtain ⟨out, h1, _, h3⟩ := getAllVarNames_embed (e.subst fun x => (vars.zip imgs).lookup x)
  refine ⟨out, h1, fun y => ?_⟩
  rw [h3, mem_vars_subst]
  have : (vars.zip imgs).lookup y = none ↔ y ∉ vars := by
    rw [List.lookup_eq_none_iff]
    conv => rhs; rw [← List.map_fst_zip (Nat.le_of_eq h)]
    simp only [List.mem_map, not_exists, not_and]
    constructor
    · intro hh kv hkv he; have := hh kv hkv; simp [he] at this
    · intro hh kv hkv; have := hh kv hkv; simpa using Ne.symm this
  rw [this]

example : subsVec (embed (.bin .add (.var ['x']) (.bin .mul (.var ['y']) (.var ['x'])) : Expr (XNum Rat)))
    [['x'], ['y']] [embed (.var ['y']), embed (.num (.fin 3))]
    = .ok (embed (.bin .add (.var ['y']) (.bin .mul (.num (.fin 3)) (.var ['y'])))) := by decide +kernel
example : [['x'], ['y']].length = [(.var ['y'] : Expr (XNum Rat)), .num (.fin 3)].length ∧ [['x'], ['y']].Nodup := by decide

end Tom
