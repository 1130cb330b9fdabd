import Verif.Lemmas.Rename
import Verif.Props.Nonlinear
import Verif.Props.Subs
import Verif.Props.Simplify
/-
C102: the names of the variables do not matter.
-/
set_option linter.unusedSectionVars false
namespace Tom
variable {α : Type} [Dbl α]

/-! ### expressions -/

/-- **C102** for `Vpa`. -/
theorem C102_vpa (cfg : Config α) (f : Str → Str) (e : Expr α) : vpa cfg (embed (e.rename f)) = vpa cfg (embed e) := by
  rw [vpa_embed, vpa_embed]
  exact eval_rename _ f (fun _ => rfl) e

/-- **C102** for `Simplify`: the result is the renamed result. -/
theorem C102_simplify (cfg : Config α) (f : Str → Str) (e : Expr α) :
    SameEnd (fun s s' => ∃ g : Expr α, s = embed g ∧ s' = embed (g.rename f)) (simplify cfg (embed e)) (simplify cfg (embed (e.rename f))) := by
  rw [simplify_embed, simplify_embed, simpE_rename]
  rcases simpE_cases cfg e with ⟨g, h⟩ | h | h
  · rw [h]; exact .ok ⟨g, rfl, rfl⟩
  · rw [h]; first | exact .ub | exact .terminate
  · rw [h]; first | exact .ub | exact .terminate

/-- **C102** for `Diff`: the derivative by the renamed variable is the renamed derivative. -/
theorem C102_diff (cfg : Config α) {f : Str → Str} (hf : Function.Injective f) (x : Str) (i : Int) (hi : 0 < i) (e : Expr α) :
    SameEnd (fun d d' => ∃ g : Expr α, d = embed g ∧ d' = embed (g.rename f)) (diff cfg (embed e) x i) (diff cfg (embed (e.rename f)) (f x) i) :=
  diff_rename cfg hf x i hi e

/-- **C102** for `Subs` with several variables. -/
theorem C102_subs {f : Str → Str} (hf : Function.Injective f) (e : Expr α) (vars : List Str) (imgs : List (Expr α))
    (h : vars.length = imgs.length) : ∃ g : Expr α, subsVec (embed e) vars (imgs.map embed) = .ok (embed g) ∧
      subsVec (embed (e.rename f)) (vars.map f) ((imgs.map (Expr.rename f)).map embed) = .ok (embed (g.rename f)) := by
  refine ⟨_, C18_subsVec e vars imgs h, ?_⟩
  rw [C18_subsVec _ _ _ (by simpa using h)]
  congr 2
  refine subst_rename (fun x => ?_) e
  clear h
  induction vars generalizing imgs with
  | nil => rfl
  | cons y vars ih =>
    cases imgs with
    | nil => rfl
    | cons g imgs =>
      simp only [List.map_cons, List.zip_cons_cons, List.lookup_cons]
      by_cases hy : x = y
      · simp [hy]
      · have h1 : (x == y) = false := by simpa using hy
        have h2 : (f x == f y) = false := by simpa using fun e => hy (hf e)
        rw [h1, h2]
        exact ih imgs

/-- **C102** for `GetAllVarNames`: the names are renamed. -/
theorem C102_names (f : Str → Str) (e : Expr α) : ∃ names names', getAllVarNames (embed e) = .ok names ∧
    getAllVarNames (embed (e.rename f)) = .ok names' ∧ ∀ y, y ∈ names' ↔ ∃ x ∈ names, f x = y := by
  obtain ⟨names, h1, _, _, h2⟩ := C16_getAllVarNames e
  obtain ⟨names', h1', _, _, h2'⟩ := C16_getAllVarNames (e.rename f)
  refine ⟨names, names', h1, h1', fun y => ?_⟩
  rw [h2', vars_rename, List.mem_map]
  simp only [h2]

/-! ### solving -/

theorem tableRel_of {f : Str → Str} (hf : Function.Injective f) {t t' : VarsTable α} (ht : t.Good) (ht' : t'.Good) (hv : t'.vars = t.vars.map f)
    (hw : t'.values = t.values) : TableRel f t t' where
  vars := hv
  values := hw
  map :=
    { sorted := ht.sorted
      sorted' := ht'.sorted
      find := fun x => by
        apply Option.ext
        intro a
        rw [ht'.find, ht.find, hv, hw]
        constructor
        · intro h
          rw [List.zip_map_left, List.mem_map] at h
          obtain ⟨⟨y, b⟩, h1, h2⟩ := h
          simp only [Prod.map_apply, id_eq, Prod.mk.injEq] at h2
          obtain ⟨h3, rfl⟩ := h2
          exact hf h3 ▸ h1
        · intro h
          rw [List.zip_map_left, List.mem_map]
          exact ⟨(x, a), h, rfl⟩
      length := by rw [ht'.length, ht.length, hv, List.length_map] }

theorem TableRel.renamed {f : Str → Str} {t t' : VarsTable α} (h : TableRel f t t') : t.Renamed f t' :=
  ⟨h.vars, h.values, h.map.length, fun x => by unfold VarsTable.get; rw [h.map.find]⟩

theorem newtonLoop_rename {r c : ℕ} (hr : 0 < r) (hc : 0 < c) (cfg : Config α) {f : Str → Str} (hf : Function.Injective f)
    (E : Matrix (Fin r) (Fin 1) (Expr α)) (D : Matrix (Fin r) (Fin c) (Expr α)) (fuel it : ℕ) {t t' : VarsTable α} (h : TableRel f t t')
    (q : Mat α) : SameEnd (TableRel f) (newtonLoop cfg (symOf E) (symOf D) fuel it t q)
      (newtonLoop cfg (symOf (renameMat f E)) (symOf (renameMat f D)) fuel it t' q) := by
  induction fuel generalizing it t t' q with
  | zero => exact .diverge
  | succ n ih =>
    simp only [newtonLoop]
    rw [evalVec_rename hr cfg E h]
    refine (SameEnd.eq rfl).bind fun phi phi' hphi => ?_
    subst hphi
    split
    · exact .ok h
    · split
      · exact .throw _
      · rw [evalMat_rename hr hc cfg D h]
        refine (SameEnd.eq rfl).bind fun j j' hj => ?_
        subst hj
        refine (SameEnd.eq rfl).bind fun dq dq' hd => ?_
        subst hd
        refine (SameEnd.eq rfl).bind fun q q' hq => ?_
        subst hq
        exact (setValues_rel hf h q).bind fun _ _ ht => ih _ ht q

theorem bind_eq_of_rel {β γ δ : Type} {R : β → γ → Prop} {x : Res β} {y : Res γ} (h : SameEnd R x y) {F : β → Res δ} {G : γ → Res δ}
    (hf : ∀ b c, R b c → G c = F b) : (y >>= G) = (x >>= F) :=
  ((h.bind (S := (· = ·)) fun b c hbc => SameEnd.eq (hf b c hbc).symm).to_eq).symm

theorem lmInner_rename {r c : ℕ} (hr : 0 < r) (hc : 0 < c) (cfg : Config α) {f : Str → Str} (hf : Function.Injective f) (lsFuel : ℕ)
    (E : Matrix (Fin r) (Fin 1) (Expr α)) (D : Matrix (Fin r) (Fin c) (Expr α)) (q F : Mat α) (fuel : ℕ) {t t' : VarsTable α}
    (h : TableRel f t t') (mu : α) (it : ℕ) :
    SameEnd (fun a b => b.1 = a.1 ∧ b.2.1 = a.2.1 ∧ TableRel f a.2.2.1 b.2.2.1 ∧ b.2.2.2 = a.2.2.2)
      (lmInner cfg lsFuel (symOf E) (symOf D) q F fuel t mu it)
      (lmInner cfg lsFuel (symOf (renameMat f E)) (symOf (renameMat f D)) q F fuel t' mu it) := by
  induction fuel generalizing t t' mu it with
  | zero => exact .diverge
  | succ n ih =>
    simp only [lmInner]
    have h1 : ∀ v, (t'.setValues v >>= fun s => evalVec cfg (symOf (renameMat f E)) s) = (t.setValues v >>= fun s => evalVec cfg (symOf E) s) :=
      fun v => bind_eq_of_rel (setValues_rel hf h v) fun _ _ hs => evalVec_rename hr cfg E hs
    have h2 : ∀ v, (t'.setValues v >>= fun s => evalMat cfg (symOf (renameMat f D)) s) = (t.setValues v >>= fun s => evalMat cfg (symOf D) s) :=
      fun v => bind_eq_of_rel (setValues_rel hf h v) fun _ _ hs => evalMat_rename hr hc cfg D hs
    simp only [h1, h2]
    rw [evalMat_rename hr hc cfg D h]
    iterate 9
      refine (SameEnd.eq rfl).bind fun x x' hx => ?_
      subst hx
    iterate 2
      refine (SameEnd.eq rfl).bind fun x x' hx => ?_
      subst hx
    refine (setValues_rel hf h _).bind fun s s' hs => ?_
    rw [evalVec_rename hr cfg E hs]
    iterate 3
      refine (SameEnd.eq rfl).bind fun x x' hx => ?_
      subst hx
    split
    · exact .ok ⟨rfl, rfl, hs, rfl⟩
    · split
      · exact .throw _
      · exact ih hs _ _

theorem lmOuter_rename {r c : ℕ} (hr : 0 < r) (hc : 0 < c) (cfg : Config α) {f : Str → Str} (hf : Function.Injective f) (lsFuel innerFuel : ℕ)
    (E : Matrix (Fin r) (Fin 1) (Expr α)) (D : Matrix (Fin r) (Fin c) (Expr α)) (fuel : ℕ) {t t' : VarsTable α}
    (h : TableRel f t t') (q : Mat α) (it : ℕ) :
    SameEnd (TableRel f) (lmOuter cfg lsFuel innerFuel (symOf E) (symOf D) fuel t q it)
      (lmOuter cfg lsFuel innerFuel (symOf (renameMat f E)) (symOf (renameMat f D)) fuel t' q it) := by
  induction fuel generalizing t t' q it with
  | zero => exact .diverge
  | succ n ih =>
    simp only [lmOuter]
    rw [evalVec_rename hr cfg E h]
    refine (SameEnd.eq rfl).bind fun x x' hx => ?_
    subst hx
    split
    · exact .ok h
    · refine (lmInner_rename hr hc cfg hf lsFuel E D q _ innerFuel h _ it).bind ?_
      rintro ⟨dq, F, s, k⟩ ⟨dq', F', s', k'⟩ ⟨h1, _, h3, h4⟩
      simp only at h1 h3 h4
      subst h1; subst h4
      simp only
      refine (SameEnd.eq rfl).bind fun x x' hx => ?_
      subst hx
      refine (setValues_rel hf h3 _).bind fun s s' hs => ?_
      split
      · exact .throw _
      · exact ih hs _ _

theorem solve_rename {r : ℕ} (cfg : Config α) (lsFuel fuel : ℕ) {f : Str → Str} (hf : Function.Injective f)
    (E : Matrix (Fin r) (Fin 1) (Expr α)) {t t' : VarsTable α} (h : TableRel f t t') :
    SameEnd (TableRel f) (solve cfg lsFuel fuel (symOf E) t) (solve cfg lsFuel fuel (symOf (renameMat f E)) t') := by
  unfold solve
  cases cfg.nonlinearMethod with
  | newtonRaphson =>
    simp only [solveByNewtonRaphson]
    have hn : t'.varNums = t.varNums := h.map.length
    rw [hn, h.vars]
    refine (SameEnd.eq rfl).bind fun q q' hq => ?_
    subst hq
    refine (jacobian_rename cfg hf E t.vars).bind ?_
    rintro _ _ ⟨hr, hc, D, rfl, rfl⟩
    exact newtonLoop_rename hr hc cfg hf E D _ _ h q
  | lm =>
    simp only [solveByLM]
    have hn : t'.varNums = t.varNums := h.map.length
    rw [hn, h.vars, h.values]
    refine (SameEnd.eq rfl).bind fun q q' hq => ?_
    refine (jacobian_rename cfg hf E t.vars).bind ?_
    rintro _ _ ⟨hr, hc, D, rfl, rfl⟩
    exact lmOuter_rename hr hc cfg hf lsFuel fuel E D _ h _ _
  | other => exact .throw _

/-- **C102** for `Solve` with a table of initial values, for both methods: renaming the variables in the equations and in the table renames
them in the result and changes nothing else: the same values, the same exceptions. -/
theorem C102_solve {r : ℕ} (cfg : Config α) (lsFuel fuel : ℕ) {f : Str → Str} (hf : Function.Injective f)
    (E : Matrix (Fin r) (Fin 1) (Expr α)) {t t' : VarsTable α} (ht : t.Reachable) (ht' : t'.Reachable) (hv : t'.vars = t.vars.map f)
    (hw : t'.values = t.values) :
    SameEnd (VarsTable.Renamed f) (solve cfg lsFuel fuel (symOf E) t) (solve cfg lsFuel fuel (symOf (renameMat f E)) t') :=
  (solve_rename cfg lsFuel fuel hf E (tableRel_of hf ht.good ht'.good hv hw)).mono fun _ _ h => h.renamed

theorem sorted_ext {l l' : List Str} (h : l.Pairwise fun a b => strLt a b = true) (h' : l'.Pairwise fun a b => strLt a b = true)
    (hm : ∀ x, x ∈ l ↔ x ∈ l') : l = l' := by
  refine List.Perm.eq_of_pairwise (le := fun a b => strLt a b = true) ?_ h h' ?_
  · intro a b _ _ h1 h2
    rw [strLt_asymm h1] at h2
    cases h2
  · exact (List.perm_ext_iff_of_nodup (h.imp fun h => strLt_ne h) (h'.imp fun h => strLt_ne h)).mpr hm

/-- **C102** for `Solve` without a table: this needs that the renaming keeps the alphabetical order of the names. -/
theorem C102_auto_partial {r : ℕ} (cfg : Config α) (lsFuel fuel : ℕ) {f : Str → Str} (hf : Function.Injective f)
    (E : Matrix (Fin r) (Fin 1) (Expr α))
    (hord : ∀ x y, (∃ i, x ∈ (E i 0).vars) → (∃ i, y ∈ (E i 0).vars) → strLt x y = true → strLt (f x) (f y) = true) :
    SameEnd (VarsTable.Renamed f) (solveAuto cfg lsFuel fuel (symOf E)) (solveAuto cfg lsFuel fuel (symOf (renameMat f E))) := by
  obtain ⟨names, h1, h2, h3⟩ := C50_getAllVarNames E
  obtain ⟨names', h1', h2', h3'⟩ := C50_getAllVarNames (renameMat f E)
  have hmem : ∀ x, x ∈ names → ∃ i, x ∈ (E i 0).vars := by
    intro x hx
    obtain ⟨i, j, h⟩ := (h3 x).mp hx
    rw [Subsingleton.elim j 0] at h
    exact ⟨i, h⟩
  have hn : names' = names.map f := by
    refine sorted_ext h2' ?_ fun y => ?_
    · rw [List.pairwise_map]
      exact h2.imp_of_mem fun ha hb h => hord _ _ (hmem _ ha) (hmem _ hb) h
    · rw [h3', List.mem_map]
      simp only [h3, renameMat, vars_rename, List.mem_map]
      constructor
      · rintro ⟨i, j, x, hx, rfl⟩; exact ⟨x, ⟨i, j, hx⟩, rfl⟩
      · rintro ⟨x, ⟨i, j, hx⟩, rfl⟩; exact ⟨i, j, x, hx, rfl⟩
  unfold solveAuto
  rw [h1, h1', hn]
  simp only [Res.bind_ok]
  by_cases hne : names = []
  · subst hne
    simp only [VarsTable.ofVars, Mat.new, List.map_nil, List.length_nil]
    exact .assertFail
  have hnd : names.Nodup := h2.imp fun h => strLt_ne h
  obtain ⟨t, ht⟩ := (C46_ofVars names cfg.initialValue).mpr ⟨hne, hnd⟩
  obtain ⟨t', ht'⟩ := (C46_ofVars (names.map f) cfg.initialValue).mpr ⟨by simpa using hne, hnd.map hf⟩
  obtain ⟨g, hv, hw⟩ := ofVars_good ht
  obtain ⟨g', hv', hw'⟩ := ofVars_good ht'
  rw [ht, ht']
  simp only [Res.bind_ok]
  refine (solve_rename cfg lsFuel fuel hf E (tableRel_of hf g g' (by rw [hv', hv]) ?_)).mono fun _ _ h => h.renamed
  rw [hw', hw, List.length_map]

/-- exchanging `x` and `y` -/
def swapXY (s : Str) : Str := if s = ['x'] then ['y'] else if s = ['y'] then ['x'] else s

theorem swapXY_swapXY (s : Str) : swapXY (swapXY s) = s := by
  by_cases hx : s = ['x']
  · rw [hx]; rfl
  · by_cases hy : s = ['y']
    · rw [hy]; rfl
    · have h : swapXY s = s := by unfold swapXY; rw [if_neg hx, if_neg hy]
      rw [h, h]

theorem swapXY_injective : Function.Injective swapXY := fun a b h => by rw [← swapXY_swapXY a, h, swapXY_swapXY]

/-- `x + 2y − 3 = 0` and `x − y − 3/2 = 0` -/
def twoLines : Matrix (Fin 2) (Fin 1) (Expr (XNum Rat)) := fun i _ =>
  if i = 0 then .bin .sub (.bin .add (.var ['x']) (.bin .mul (.num (.fin 2)) (.var ['y']))) (.num (.fin 3))
  else .bin .sub (.bin .sub (.var ['x']) (.var ['y'])) (.num (.fin (3 / 2)))

/-- `x + y − 1 = 0` alone -/
def oneLine : Matrix (Fin 1) (Fin 1) (Expr (XNum Rat)) := fun _ _ =>
  .bin .sub (.bin .add (.var ['x']) (.var ['y'])) (.num (.fin 1))

def newtonCfg : Config (XNum Rat) := { defaultConfig with nonlinearMethod := .newtonRaphson, allowIndeterminateEquation := true }

/-- C102 fails for `Solve` without a table when the renaming changes the alphabetical order: `x + y − 1 = 0` has the answer `x = 1, y = 0`;
with the names exchanged (`y + x − 1 = 0`) the answer is again `x = 1, y = 0`, not `y = 1, x = 0`. -/
theorem C102_false_auto : ∃ (cfg : Config (XNum Rat)) (f : Str → Str) (E : Matrix (Fin 1) (Fin 1) (Expr (XNum Rat))) (t t' : VarsTable (XNum Rat)),
    Function.Injective f ∧ solveAuto cfg 0 0 (symOf E) = .ok t ∧ solveAuto cfg 0 0 (symOf (renameMat f E)) = .ok t' ∧
      t'.get (f ['x']) ≠ t.get ['x'] := by
  refine ⟨newtonCfg, swapXY, oneLine, ⟨[['x'], ['y']], ⟨2, 1, [.fin 1, .fin 0]⟩, [(['x'], .fin 1), (['y'], .fin 0)]⟩,
    ⟨[['x'], ['y']], ⟨2, 1, [.fin 1, .fin 0]⟩, [(['x'], .fin 1), (['y'], .fin 0)]⟩, swapXY_injective, ?_, ?_, ?_⟩ <;> decide +kernel

/-- the table `x = a, y = b` -/
def tabXY (a b : Rat) : VarsTable (XNum Rat) := ⟨[['x'], ['y']], ⟨2, 1, [.fin a, .fin b]⟩, [(['x'], .fin a), (['y'], .fin b)]⟩

/-- the table `y = a, x = b` -/
def tabYX (a b : Rat) : VarsTable (XNum Rat) := ⟨[['y'], ['x']], ⟨2, 1, [.fin a, .fin b]⟩, [(['x'], .fin b), (['y'], .fin a)]⟩

/-- the hypotheses of `C102_solve` hold for two crossing lines, and both calls return -/
example : SameEnd (VarsTable.Renamed swapXY) (solve newtonCfg 0 0 (symOf twoLines) (tabXY 1 1))
      (solve newtonCfg 0 0 (symOf (renameMat swapXY twoLines)) (tabYX 1 1)) ∧
    solve newtonCfg 0 0 (symOf twoLines) (tabXY 1 1) = .ok (tabXY 2 (1 / 2)) ∧
    solve newtonCfg 0 0 (symOf (renameMat swapXY twoLines)) (tabYX 1 1) = .ok (tabYX 2 (1 / 2)) :=
  ⟨C102_solve newtonCfg 0 0 swapXY_injective twoLines (.ofList (l := [(['x'], .fin 1), (['y'], .fin 1)]) (by decide +kernel))
    (.ofVars (vars := [['y'], ['x']]) (init := .fin 1) (by decide +kernel)) rfl rfl, by decide +kernel, by decide +kernel⟩

/-- the condition of `C102_auto_partial` holds for a renaming that keeps the order (`x`, `y` to `x`, `z`) -/
example : SameEnd (VarsTable.Renamed fun s => if s = ['y'] then ['z'] else if s = ['z'] then ['y'] else s) (solveAuto newtonCfg 0 0 (symOf twoLines))
      (solveAuto newtonCfg 0 0 (symOf (renameMat (fun s => if s = ['y'] then ['z'] else if s = ['z'] then ['y'] else s) twoLines))) := by
  refine C102_auto_partial newtonCfg 0 0 ?_ twoLines ?_
  · refine Function.Involutive.injective fun s => ?_
    by_cases hx : s = ['y']
    · rw [hx]; rfl
    · by_cases hy : s = ['z']
      · rw [hy]; rfl
      · simp only [if_neg hx, if_neg hy]
  · intro a b ha hb
    have h : ∀ v : Str, (∃ i, v ∈ (twoLines i 0).vars) → v = ['x'] ∨ v = ['y'] := by
      rintro v ⟨i, hi⟩
      fin_cases i <;> simpa [twoLines, Expr.vars] using hi
    rcases h a ha with rfl | rfl <;> rcases h b hb with rfl | rfl <;> decide

end Tom
