import Verif.Spec.RealSystem
import Verif.Props.Nonlinear
import Verif.Props.LineSearch
import Verif.Props.Linear
/-
Evaluation of systems over the real numbers.
-/
set_option linter.unusedSectionVars false
namespace Tom

theorem TableAt.nodup {t : VarsTable (XNum ℝ)} {vars : List Str} {u : Fin vars.length → ℝ} (h : TableAt t vars u) : vars.Nodup := by
  rw [← h.2.1]; exact h.1.good.nodup

theorem TableAt.pos {t : VarsTable (XNum ℝ)} {vars : List Str} {u : Fin vars.length → ℝ} (h : TableAt t vars u) : 0 < vars.length := by
  have := h.1.pos
  rwa [h.2.1] at this

theorem TableAt.lookup {t : VarsTable (XNum ℝ)} {vars : List Str} {u : Fin vars.length → ℝ} (h : TableAt t vars u) (x : Str) (hx : x ∈ vars) :
    t.table.lookup x = some (.fin (assign vars u x)) := by
  have g := h.1.good
  have hn : (t.table.map Prod.fst).Nodup := g.keys.nodup_iff.mpr g.nodup
  rw [lookup_iff _ hn, g.entries.mem_iff, h.2.1, h.2.2]
  have hi : vars.idxOf x < vars.length := List.idxOf_lt_length_iff.mpr hx
  rw [List.mem_iff_getElem]
  refine ⟨vars.idxOf x, by simp [ofVec, hi], ?_⟩
  simp only [ofVec, List.getElem_zip, List.getElem_idxOf, List.getElem_ofFn, assign, dif_pos hi]
  rfl

theorem TableAt.lookup_none {t : VarsTable (XNum ℝ)} {vars : List Str} {u : Fin vars.length → ℝ} (h : TableAt t vars u) (x : Str) (hx : x ∉ vars) :
    t.table.lookup x = none := by
  have g := h.1.good
  rw [List.lookup_eq_none_iff]
  intro p hp
  have : p.1 ∈ vars := by
    rw [← h.2.1, ← g.keys.mem_iff]
    exact List.mem_map_of_mem hp
  simp only [bne_iff_ne, ne_eq]
  rintro rfl
  exact hx this

theorem TableAt.pointOf {t : VarsTable (XNum ℝ)} {vars : List Str} {u : Fin vars.length → ℝ} (h : TableAt t vars u) :
    pointOf t = assign vars u := by
  funext x
  unfold Tom.pointOf
  by_cases hx : x ∈ vars
  · rw [h.lookup x hx]; rfl
  · rw [h.lookup_none x hx]
    have : ¬ vars.idxOf x < vars.length := by rw [List.idxOf_lt_length_iff]; exact hx
    simp [assign, this]

/-- a value of the function is what the library computes -/
theorem TableAt.eval {t : VarsTable (XNum ℝ)} {vars : List Str} {u : Fin vars.length → ℝ} (h : TableAt t vars u) (strict : Bool)
    (e : Expr (XNum ℝ)) (hv : ∀ x ∈ e.vars, x ∈ vars) (v : ℝ) (he : realVal (assign vars u) e = some v) :
    e.eval strict (envOf t.table) = .ok (.fin v) := by
  induction e generalizing v with
  | num w => rw [val_num he]; rfl
  | var x =>
    simp only [realVal, Option.some.injEq] at he
    subst he
    simp only [Expr.eval, envOf, h.lookup x (hv x (by simp [Expr.vars]))]
  | un o e ih =>
    simp only [realVal, Option.bind_eq_some_iff] at he
    obtain ⟨a, h1, h2⟩ := he
    simp only [Expr.eval, ih hv a h1, Res.bind_ok, apply_un_real o a v h2, checked_fin]
  | bin o a b iha ihb =>
    simp only [realVal, Option.bind_eq_some_iff] at he
    obtain ⟨x, h1, y, h2, h3⟩ := he
    simp only [Expr.vars, List.mem_append] at hv
    simp only [Expr.eval, iha (fun z hz => hv z (.inl hz)) x h1, ihb (fun z hz => hv z (.inr hz)) y h2, Res.bind_ok,
      apply_bin_real o x y v h3, checked_fin]

theorem ofVec_entries {r : ℕ} (F : Fin r → ℝ) : (ofVec F : Mat (XNum ℝ)) = ofEntries (Matrix.of fun i (_ : Fin 1) => XNum.fin (F i)) := by
  rw [ofVec_eq_ofMatrix]; rfl

theorem TableAt.evalVec {t : VarsTable (XNum ℝ)} {vars : List Str} {u : Fin vars.length → ℝ} (h : TableAt t vars u) {r : ℕ} (hr : 0 < r)
    (cfg : Config (XNum ℝ)) (f : Matrix (Fin r) (Fin 1) (Expr (XNum ℝ))) (hv : ∀ i, ∀ x ∈ (f i 0).vars, x ∈ vars) {F : Fin r → ℝ}
    (hF : IsValue f vars u F) : evalVec cfg (symOf f) t = .ok (ofVec F) := by
  rw [evalVec_ok hr]
  exact ⟨_, ofVec_entries F, fun i => h.eval _ _ (hv i) _ (hF i)⟩

theorem TableAt.evalMat {t : VarsTable (XNum ℝ)} {vars : List Str} {u : Fin vars.length → ℝ} (h : TableAt t vars u) {r c : ℕ} (hr : 0 < r)
    (hc : 0 < c) (cfg : Config (XNum ℝ)) (f : Matrix (Fin r) (Fin c) (Expr (XNum ℝ))) (hv : ∀ i j, ∀ x ∈ (f i j).vars, x ∈ vars)
    {A : Matrix (Fin r) (Fin c) ℝ} (hA : ∀ i j, realVal (assign vars u) (f i j) = some (A i j)) :
    evalMat cfg (symOf f) t = .ok (ofMatrix A) := by
  rw [C50_evaluate hr hc]
  exact ⟨A.map fin, rfl, fun i j => h.eval _ _ (hv i j) _ (hA i j)⟩

theorem symOf_injective {r c : ℕ} {A B : Matrix (Fin r) (Fin c) (Expr (XNum ℝ))} (h : symOf A = symOf B) : A = B := by
  have := congrArg SymMat.data h
  exact entries_inj (List.map_injective_iff.mpr (fun _ _ h => embed_injective h) this)

/-- the symbolic Jacobian of a system and its values -/
theorem jacobian_real {r : ℕ} (hr : 0 < r) (cfg : Config (XNum ℝ)) (f : Matrix (Fin r) (Fin 1) (Expr (XNum ℝ))) (vars : List Str)
    (hn : 0 < vars.length) (J : SymMat (XNum ℝ)) (hJ : (symOf f).jacobian cfg vars = .ok J) :
    ∃ D : Matrix (Fin r) (Fin vars.length) (Expr (XNum ℝ)), J = symOf D ∧ (∀ i j, ∀ x ∈ (D i j).vars, x ∈ (f i 0).vars) ∧
      ∀ u, SmoothAt f vars u → ∃ A, IsJacobian f vars u A ∧ ∀ i j, realVal (assign vars u) (D i j) = some (A i j) := by
  obtain ⟨D, rfl⟩ := jacobian_symOf hr cfg f vars hn J hJ
  refine ⟨D, rfl, fun i j => ?_, fun u hu => ?_⟩
  · obtain ⟨_, _, _, h⟩ := C32 hr cfg f vars hn _ hJ
    obtain ⟨d, h1, h2⟩ := h i j
    rw [C50_value, Res.ok.injEq] at h1
    unfold diffConst at h2
    rw [clone_eq _ (embed_isSome _), Res.bind_ok] at h2
    obtain ⟨e', h3, h4⟩ := (C29_diff cfg vars[j] 1 (by omega) (f i 0)).2.2.2 _ h2
    have e1 := embed_injective h1
    have e2 := embed_injective h3
    rw [e1, e2]; exact h4
  · obtain ⟨D', h1, h2⟩ := C32_partial_derivatives hr cfg (assign vars u) f vars hn hu.2.2 hu.2.1
    rw [hJ, Res.ok.injEq] at h1
    obtain rfl := symOf_injective h1
    choose A hA using h2
    exact ⟨Matrix.of A, fun i j => (hA i j).2, fun i j => (hA i j).1⟩

theorem jacobian_returns {r : ℕ} (hr : 0 < r) (cfg : Config (XNum ℝ)) (f : Matrix (Fin r) (Fin 1) (Expr (XNum ℝ))) (vars : List Str)
    (hn : 0 < vars.length) (u : Fin vars.length → ℝ) (hu : SmoothAt f vars u) : ∃ J, (symOf f).jacobian cfg vars = .ok J := by
  obtain ⟨D', h1, _⟩ := C32_partial_derivatives hr cfg (assign vars u) f vars hn hu.2.2 hu.2.1
  exact ⟨_, h1⟩

theorem TableAt.setValues {t : VarsTable (XNum ℝ)} {vars : List Str} {u : Fin vars.length → ℝ} (h : TableAt t vars u) (w : Fin vars.length → ℝ) :
    ∃ t', t.setValues (ofVec w) = .ok t' ∧ TableAt t' vars w := by
  have hv : IsVec (ofVec w : Mat (XNum ℝ)) := ⟨rfl, by simp [ofVec]⟩
  obtain ⟨t', h1, h2, h3⟩ := C46_setValues h.1 hv (by rw [VarsTable.varNums, h.1.good.length, h.2.1]; rfl)
  exact ⟨t', h1, .setValues h.1 hv h1, h2.trans h.2.1, h3⟩

theorem neg_ofVec {n : ℕ} (v : Fin n → ℝ) : (ofVec v : Mat (XNum ℝ)).neg = ofVec (-v) := by
  unfold Mat.neg ofVec
  simp only [List.map_ofFn]
  rfl

theorem zeroVec_ofVec (n : ℕ) : (zeroVec n : Mat (XNum ℝ)) = ofVec (0 : Fin n → ℝ) := by
  unfold zeroVec ofVec
  congr 1
  simp only [Pi.zero_apply, List.ofFn_const]
  rfl

end Tom
