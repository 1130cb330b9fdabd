import Verif.Spec.Safety
import Verif.Props.RealLM
import Verif.Props.Diff
/-
Evaluation and differentiation keep numbers finite.
-/
set_option linter.unusedSectionVars false
namespace Tom

theorem handled_bind {β γ : Type} {r : Res β} {f : β → Res γ} (h : r.Handled) (hf : ∀ b, r = .ok b → (f b).Handled) : (r >>= f).Handled := by
  rcases h with ⟨b, rfl⟩ | ⟨e, rfl⟩
  · exact hf b rfl
  · exact .inr ⟨e, rfl⟩

theorem defined_bind {β γ : Type} {r : Res β} {f : β → Res γ} (h : r.Defined) (hf : ∀ b, r = .ok b → (f b).Defined) : (r >>= f).Defined := by
  rcases h with ⟨b, rfl⟩ | ⟨e, rfl⟩ | rfl
  · exact hf b rfl
  · exact .inr (.inl ⟨e, rfl⟩)
  · exact .inr (.inr rfl)

theorem Res.Handled.defined {β : Type} {r : Res β} (h : r.Handled) : r.Defined := h.imp id .inl

theorem checked_handled {α : Type} [Dbl α] (s : Bool) (v : α) : (checked s v).Handled := by
  unfold checked
  split
  · exact .inr ⟨_, rfl⟩
  · exact .inl ⟨_, rfl⟩

theorem checked_fin_of {v w : XNum ℝ} (h : checked true v = .ok w) : ∃ k, w = .fin k := by
  unfold checked at h
  cases v with
  | fin k => simp only [Dbl.isInvalid, Bool.and_false, Bool.false_eq_true, if_false, Res.ok.injEq] at h; exact ⟨k, h.symm⟩
  | bad => simp [Dbl.isInvalid] at h

/-- evaluation without the integer operators returns or throws -/
theorem eval_handled {α : Type} [Dbl α] (s : Bool) (env : Str → Res α) (henv : ∀ x, (env x).Handled) (e : Expr α) (h : e.hasIntOp = false) :
    (e.eval s env).Handled := by
  induction e with
  | num v => exact .inl ⟨v, rfl⟩
  | var x => exact henv x
  | un o e ih => exact handled_bind (ih h) fun v _ => checked_handled _ _
  | bin o a b iha ihb =>
    simp only [Expr.hasIntOp, Bool.or_eq_false_iff] at h
    refine handled_bind (iha h.1.2) fun x _ => handled_bind (ihb h.2) fun y _ => ?_
    have ho := h.1.1
    cases o <;> simp [BinOp.apply] at ho ⊢ <;> exact checked_handled _ _

theorem envOf_handled {α : Type} [Dbl α] (l : List (Str × α)) (x : Str) : (envOf l x).Handled := by
  unfold envOf
  split
  · exact .inl ⟨_, rfl⟩
  · exact .inr ⟨_, rfl⟩

theorem eval_finite (env : Str → Res (XNum ℝ)) (henv : ∀ x v, env x = .ok v → ∃ k, v = .fin k) (e : Expr (XNum ℝ)) (he : e.Finite)
    {v : XNum ℝ} (h : e.eval true env = .ok v) : ∃ k, v = .fin k := by
  cases e with
  | num w =>
    rw [Expr.eval, Res.ok.injEq] at h
    subst h
    have := he w (by simp [Expr.nums])
    cases w with
    | fin k => exact ⟨k, rfl⟩
    | bad => exact absurd rfl this
  | var x => exact henv x v h
  | un o e =>
    obtain ⟨_, _, h⟩ := Res.bind_eq_ok.mp h
    exact checked_fin_of h
  | bin o a b =>
    obtain ⟨_, _, h⟩ := Res.bind_eq_ok.mp h
    obtain ⟨_, _, h⟩ := Res.bind_eq_ok.mp h
    split at h
    · cases h
    · exact checked_fin_of h

theorem simpE_finite {cfg : Config (XNum ℝ)} (hc : cfg.throwOnInvalidValue = true) (e e' : Expr (XNum ℝ)) (he : e.Finite)
    (h : simpE cfg e = .ok e') : e'.Finite := by
  have num : ∀ {w : XNum ℝ}, (∃ k, w = .fin k) → (Expr.num w).Finite := by
    rintro w ⟨k, rfl⟩ v hv
    simp only [Expr.nums, List.mem_singleton] at hv
    subst hv
    simp
  induction e generalizing e' with
  | num v => rw [simpE, Res.ok.injEq] at h; subst h; exact he
  | var x => rw [simpE, Res.ok.injEq] at h; subst h; exact he
  | un o e ih =>
    obtain ⟨a, ha, h⟩ := Res.bind_eq_ok.mp h
    have := ih a he ha
    rcases simpTop_un_ok h with ⟨v, w, rfl, rfl, hw⟩ | ⟨_, rfl⟩
    · rw [hc] at hw; exact num (checked_fin_of hw)
    · exact this
  | bin o a b iha ihb =>
    obtain ⟨a', ha, h⟩ := Res.bind_eq_ok.mp h
    obtain ⟨b', hb, h⟩ := Res.bind_eq_ok.mp h
    have h1 := iha a' (fun v hv => he v (by simp [Expr.nums, hv])) ha
    have h2 := ihb b' (fun v hv => he v (by simp [Expr.nums, hv])) hb
    rcases simpTop_bin_ok h with ⟨v, w, u, z, rfl, rfl, _, hz, rfl⟩ | ⟨_, ⟨rfl, _⟩ | ⟨rfl, _⟩ | ⟨rfl, _⟩ | rfl⟩
    · rw [hc] at hz; exact num (checked_fin_of hz)
    · exact num ⟨_, rfl⟩
    · exact h2
    · exact h1
    · intro v hv
      simp only [Expr.nums, List.mem_append] at hv
      exact hv.elim (h1 v) (h2 v)

theorem simpE_hasIntOp {α : Type} [Dbl α] (cfg : Config α) (e e' : Expr α) (he : e.hasIntOp = false) (h : simpE cfg e = .ok e') :
    e'.hasIntOp = false := by
  induction e generalizing e' with
  | num v => rw [simpE, Res.ok.injEq] at h; subst h; exact he
  | var x => rw [simpE, Res.ok.injEq] at h; subst h; exact he
  | un o e ih =>
    obtain ⟨a, ha, h⟩ := Res.bind_eq_ok.mp h
    have := ih a he ha
    rcases simpTop_un_ok h with ⟨v, w, rfl, rfl, hw⟩ | ⟨_, rfl⟩
    · rfl
    · exact this
  | bin o a b iha ihb =>
    obtain ⟨a', ha, h⟩ := Res.bind_eq_ok.mp h
    obtain ⟨b', hb, h⟩ := Res.bind_eq_ok.mp h
    simp only [Expr.hasIntOp, Bool.or_eq_false_iff] at he
    have h1 := iha a' he.1.2 ha
    have h2 := ihb b' he.2 hb
    rcases simpTop_bin_ok h with ⟨v, w, u, z, rfl, rfl, _, hz, rfl⟩ | ⟨_, ⟨rfl, _⟩ | ⟨rfl, _⟩ | ⟨rfl, _⟩ | rfl⟩
    · rfl
    · rfl
    · exact h2
    · exact h1
    · simp only [Expr.hasIntOp, Bool.or_eq_false_iff]
      exact ⟨⟨he.1.1, h1⟩, h2⟩

theorem finite_num (v : XNum ℝ) : (Expr.num v).Finite ↔ v ≠ .bad := by simp [Expr.Finite, Expr.nums]
theorem finite_var (x : Str) : (Expr.var x : Expr (XNum ℝ)).Finite := by simp [Expr.Finite, Expr.nums]
theorem finite_un (o : UnOp) (e : Expr (XNum ℝ)) : (Expr.un o e).Finite ↔ e.Finite := Iff.rfl
theorem finite_bin (o : BinOp) (a b : Expr (XNum ℝ)) : (Expr.bin o a b).Finite ↔ a.Finite ∧ b.Finite := by
  simp only [Expr.Finite, Expr.nums, List.mem_append]
  exact ⟨fun h => ⟨fun v hv => h v (.inl hv), fun v hv => h v (.inr hv)⟩, fun h v hv => hv.elim (h.1 v) (h.2 v)⟩

theorem dE_finite (x : Str) (e : Expr (XNum ℝ)) (he : e.Finite) : (dE x e).Finite := by
  have hl2 : (Dbl.log (Dbl.ofInt 2) : XNum ℝ) ≠ .bad := by
    show XNum.mapO UnOp.log.real (.fin ((2 : ℤ) : ℝ)) ≠ _
    simp [XNum.mapO, UnOp.real]
  have hl10 : (Dbl.log (Dbl.ofInt 10) : XNum ℝ) ≠ .bad := by
    show XNum.mapO UnOp.log.real (.fin ((10 : ℤ) : ℝ)) ≠ _
    simp [XNum.mapO, UnOp.real]
  have hi : ∀ z : ℤ, (Dbl.ofInt z : XNum ℝ) ≠ .bad := fun z => by simp [Dbl.ofInt]
  have hsub : ∀ c : XNum ℝ, c ≠ .bad → Arith.sub c (Dbl.ofInt 1) ≠ .bad := by
    intro c hc
    cases c with
    | fin k => simp [Arith.sub, Dbl.ofInt, XNum.map2]
    | bad => exact absurd rfl hc
  fun_induction dE x e <;> simp_all [finite_num, finite_var, finite_un, finite_bin]
  split <;> simp [Dbl.ofInt]

/-- the entries of the Jacobian are finite expressions without integer operators -/
theorem jacobian_finite {r : ℕ} (hr : 0 < r) {cfg : Config (XNum ℝ)} (hc : cfg.throwOnInvalidValue = true)
    (f : Matrix (Fin r) (Fin 1) (Expr (XNum ℝ))) (hf : ∀ i, (f i 0).Finite) (vars : List Str) (hn : 0 < vars.length) (J : SymMat (XNum ℝ))
    (hJ : (symOf f).jacobian cfg vars = .ok J) :
    (∀ i, (f i 0).hasIntOp = false) ∧
    ∃ D : Matrix (Fin r) (Fin vars.length) (Expr (XNum ℝ)), J = symOf D ∧ ∀ i j, (D i j).Finite ∧ (D i j).hasIntOp = false := by
  obtain ⟨D, rfl⟩ := jacobian_symOf hr cfg f vars hn J hJ
  have key : ∀ i (j : Fin vars.length), (f i 0).hasIntOp = false ∧ (D i j).Finite ∧ (D i j).hasIntOp = false := by
    intro i j
    obtain ⟨_, _, _, h⟩ := C32 hr cfg f vars hn _ hJ
    obtain ⟨d, h1, h2⟩ := h i j
    rw [C50_value, Res.ok.injEq] at h1
    unfold diffConst at h2
    rw [clone_eq _ (embed_isSome _), Res.bind_ok] at h2
    cases hi : (f i 0).hasIntOp with
    | true => rw [diff_throw cfg _ 1 (by omega) _ hi] at h2; cases h2
    | false =>
      rw [diff_ok cfg _ 1 (by omega) _ hi, simplify_ok_iff] at h2
      obtain ⟨e', h3, h4⟩ := h2
      have e1 : D i j = e' := embed_injective (h1.trans h4)
      rw [e1]
      exact ⟨rfl, simpE_finite hc _ _ (dE_finite _ _ (hf i)) h3, simpE_hasIntOp cfg _ _ (dE_hasIntOp _ _ hi) h3⟩
  exact ⟨fun i => (key i ⟨0, hn⟩).1, D, rfl, fun i j => (key i j).2⟩

variable {vars : List Str}

theorem TableAt.envOf {t : VarsTable (XNum ℝ)} {u : Fin vars.length → ℝ} (h : TableAt t vars u) (x : Str) (v : XNum ℝ)
    (hv : Tom.envOf t.table x = .ok v) : ∃ k, v = .fin k := by
  unfold Tom.envOf at hv
  by_cases hx : x ∈ vars
  · rw [h.lookup x hx] at hv
    simp only [Res.ok.injEq] at hv
    exact ⟨_, hv.symm⟩
  · rw [h.lookup_none x hx] at hv
    cases hv

theorem evalAll_handled {α : Type} [Dbl α] (s : Bool) (env : Str → Res α) (henv : ∀ x, (env x).Handled) (es : List (Expr α))
    (h : ∀ e ∈ es, e.hasIntOp = false) : (evalAll s env es).Handled := by
  induction es with
  | nil => exact .inl ⟨_, rfl⟩
  | cons e es ih =>
    exact handled_bind (eval_handled s env henv e (h e (by simp))) fun v _ => handled_bind (ih fun e he => h e (by simp [he])) fun vs _ =>
      .inl ⟨_, rfl⟩

/-- a product of matrices of fitting sizes returns, whatever the numbers are -/
theorem mul_returns {α : Type} [Dbl α] {r m c : ℕ} (hr : 0 < r) (hm : 0 < m) (hc : 0 < c) (f g : ℕ → ℕ → α) :
    ∃ p, (Mat.mk' r m f).mul (Mat.mk' m c g) = .ok p := by
  unfold Mat.mul
  rw [if_pos (by rfl)]
  have e0 : (Mat.mk' r m f).rows = r := rfl
  have e3 : (Mat.mk' m c g).cols = c := rfl
  rw [e0, e3, new_mk' hr hc]
  simp only [Res.bind_ok]
  obtain ⟨s', h, _⟩ := forRes_inv (n := r) (s := Mat.mk' r c fun _ _ => (Arith.zero : α)) (P := fun _ s => ∃ h, s = Mat.mk' r c h)
    (f := fun ans i => forRes (fun ans j => do
      let r ← (Mat.mk' r m f).row i 0
      let c ← (Mat.mk' m c g).col j 0
      let p ← zipV Arith.mul r c
      let s ← sumV p
      ans.setValue i j s) (List.range c) ans) ⟨_, rfl⟩ (by
      intro i hi s hs
      exact forRes_inv (P := fun _ s => ∃ h, s = Mat.mk' r c h) hs (by
        rintro j hj s ⟨h, rfl⟩
        rw [row_mk' _ hi, col_mk' _ hj]
        simp only [Res.bind_ok, zipV_range, Nat.sub_zero]
        obtain ⟨m', rfl⟩ : ∃ k, m = k + 1 := ⟨m - 1, by omega⟩
        rw [List.range_succ_eq_map]
        simp only [List.map_cons, sumV, Res.bind_ok]
        exact ⟨_, setValue_mk' _ _ hi hj, _, rfl⟩))
  exact ⟨s', h⟩

/-- evaluating a matrix of finite expressions at a table of real numbers returns a matrix of real numbers, or throws -/
theorem TableAt.evalMat_outcome {t : VarsTable (XNum ℝ)} {u : Fin vars.length → ℝ} (ht : TableAt t vars u) {cfg : Config (XNum ℝ)}
    (hc : cfg.throwOnInvalidValue = true) {r c : ℕ} (hr : 0 < r) (hc' : 0 < c) (f : Matrix (Fin r) (Fin c) (Expr (XNum ℝ)))
    (hf : ∀ i j, (f i j).Finite ∧ (f i j).hasIntOp = false) :
    (∃ A : Matrix (Fin r) (Fin c) ℝ, Tom.evalMat cfg (symOf f) t = .ok (ofMatrix A)) ∨ ∃ e, Tom.evalMat cfg (symOf f) t = .throw e := by
  have h : (Tom.evalMat cfg (symOf f) t).Handled := by
    unfold symOf
    rw [evalMat_list cfg r c hr hc']
    refine handled_bind (evalAll_handled _ _ (envOf_handled _) _ ?_) fun _ _ => .inl ⟨_, rfl⟩
    intro e he
    obtain ⟨k, rfl⟩ := List.mem_ofFn.mp he
    exact (hf _ _).2
  refine h.imp (fun ⟨b, hb⟩ => ?_) id
  obtain ⟨v, rfl, hv⟩ := (C50_evaluate hr hc' cfg f t b).mp hb
  have : ∀ i j, ∃ k, v i j = .fin k := fun i j => eval_finite _ (fun x w => ht.envOf x w) _ (hf i j).1 (by rw [← hc]; exact hv i j)
  choose A hA using this
  refine ⟨Matrix.of A, hb.trans ?_⟩
  have : v = (Matrix.of A).map fin := by
    ext1 i j
    exact hA i j
  rw [this]
  rfl

theorem TableAt.evalVec_outcome {t : VarsTable (XNum ℝ)} {u : Fin vars.length → ℝ} (ht : TableAt t vars u) {cfg : Config (XNum ℝ)}
    (hc : cfg.throwOnInvalidValue = true) {r : ℕ} (hr : 0 < r) (f : Matrix (Fin r) (Fin 1) (Expr (XNum ℝ)))
    (hf : ∀ i, (f i 0).Finite ∧ (f i 0).hasIntOp = false) :
    (∃ F : Fin r → ℝ, Tom.evalVec cfg (symOf f) t = .ok (ofVec F)) ∨ ∃ e, Tom.evalVec cfg (symOf f) t = .throw e := by
  unfold Tom.evalVec
  rcases ht.evalMat_outcome hc hr (by omega) f (fun i j => by rw [Fin.fin_one_eq_zero j]; exact hf i) with ⟨A, hA⟩ | ⟨e, he⟩
  · left
    refine ⟨fun i => A i 0, ?_⟩
    have : (ofMatrix A : Mat (XNum ℝ)) = ofVec fun i => A i 0 := by
      rw [ofVec_eq_ofMatrix]
      congr 1
      ext i j
      rw [Fin.fin_one_eq_zero j]
      rfl
    rw [hA, Res.bind_ok, this]
    unfold Mat.toVec
    rw [if_neg (by simp [ofVec]; omega), if_neg (by simp [ofVec])]
    rfl
  · exact .inr ⟨e, by rw [he]; rfl⟩

/-- `SolveLinear` on real numbers returns a vector of real numbers, or throws -/
theorem solveLinear_outcome {cfg : Config (XNum ℝ)} {eps : ℝ} (heps : 0 < eps) (he : cfg.epsilon = .fin eps) {r c : ℕ} (hr : 0 < r)
    (hc : 0 < c) (A : Matrix (Fin r) (Fin c) ℝ) (b : Fin r → ℝ) :
    (∃ x : Fin c → ℝ, solveLinear cfg (ofMatrix A) (ofVec b) = .ok (ofVec x)) ∨ ∃ e, solveLinear cfg (ofMatrix A) (ofVec b) = .throw e := by
  rcases lt_trichotomy r c with h | rfl | h
  · obtain ⟨h1, _, h3⟩ := C37_wide_partial cfg heps he hr h A b
    cases ha : cfg.allowIndeterminateEquation with
    | false => rcases h1 ha with h | h <;> exact .inr ⟨_, h⟩
    | true =>
      by_cases hs : solveLinear cfg (ofMatrix A) (ofVec b) = .throw (.math .singularMatrix)
      · exact .inr ⟨_, hs⟩
      · obtain ⟨x, _, hx, _⟩ := h3 ha hs
        exact .inl ⟨x, hx⟩
  · obtain ⟨B, _, ⟨x, h1, _⟩ | ⟨h1, _⟩ | ⟨h1, _⟩⟩ := square_outcome cfg heps he hr A b
    · exact .inl ⟨x, h1⟩
    · exact .inr ⟨_, h1⟩
    · exact .inr ⟨_, h1⟩
  · right
    rw [ofMatrix, ofVec_entries]
    exact ⟨_, C37_tall cfg h _ _⟩

end Tom
