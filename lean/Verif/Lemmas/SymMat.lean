import Verif.Spec.SymMatrix
import Verif.Lemmas.MatExact
import Verif.Props.Subs
import Verif.Props.Tree
import Verif.Props.Diff
/-
Symbolic matrices.
-/
set_option linter.unusedSectionVars false
set_option linter.unusedSimpArgs false
namespace Tom
variable {α : Type} [Dbl α]

theorem mapRes_map {β γ δ : Type} (f : γ → Res δ) (g : β → γ) (l : List β) : mapRes f (l.map g) = mapRes (fun b => f (g b)) l := by
  induction l with
  | nil => rfl
  | cons a l ih => simp only [List.map_cons, mapRes, ih]

theorem mapRes_ok {β γ : Type} {f : β → Res γ} {g : β → γ} {l : List β} (h : ∀ b ∈ l, f b = .ok (g b)) :
    mapRes f l = .ok (l.map g) := by
  induction l with
  | nil => rfl
  | cons a l ih =>
    simp only [mapRes, h a (by simp), ih fun b hb => h b (by simp [hb]), Res.bind_ok, List.map_cons]

theorem mapRes_congr {β γ : Type} {f g : β → Res γ} {l : List β} (h : ∀ b ∈ l, f b = g b) : mapRes f l = mapRes g l := by
  induction l with
  | nil => rfl
  | cons a l ih =>
    simp only [mapRes, h a (by simp), ih fun b hb => h b (by simp [hb])]

theorem mapRes_eq_ok {β γ : Type} {f : β → Res γ} {l : List β} {out : List γ} :
    mapRes f l = .ok out ↔ List.Forall₂ (fun b c => f b = .ok c) l out := by
  induction l generalizing out with
  | nil =>
    simp only [mapRes, Res.ok.injEq]
    constructor
    · rintro rfl; exact .nil
    · intro h; cases h; rfl
  | cons a l ih =>
    simp only [mapRes]
    constructor
    · intro h
      obtain ⟨c, h1, h⟩ := Res.bind_eq_ok.mp h
      obtain ⟨cs, h2, h⟩ := Res.bind_eq_ok.mp h
      rw [Res.ok.injEq] at h
      subst h
      exact .cons h1 (ih.mp h2)
    · intro h
      cases h with
      | cons h1 h2 => rw [h1, Res.bind_ok, ih.mpr h2, Res.bind_ok]

theorem entries_length {β : Type} {r c : ℕ} (E : Matrix (Fin r) (Fin c) β) : (entries E).length = r * c := by simp [entries]

theorem entries_get {β : Type} {r c : ℕ} (E : Matrix (Fin r) (Fin c) β) (i : Fin r) (j : Fin c) :
    (entries E)[(i : ℕ) * c + j]? = some (E i j) := by
  have hlt := idx_lt i.2 j.2
  have hl : (i : ℕ) * c + j < (entries E).length := by rw [entries_length]; exact hlt
  rw [List.getElem?_eq_getElem hl]
  simp only [entries, List.getElem_ofFn, Option.some.injEq]
  have h1 : Fin.divNat (⟨(i : ℕ) * c + j, hlt⟩ : Fin (r * c)) = i := by
    apply Fin.ext; simp only [Fin.divNat]; exact idx_div j.2
  have h2 : Fin.modNat (⟨(i : ℕ) * c + j, hlt⟩ : Fin (r * c)) = j := by
    apply Fin.ext; simp only [Fin.modNat]; exact idx_mod j.2
  rw [h1, h2]

theorem entries_map {β γ : Type} {r c : ℕ} (E : Matrix (Fin r) (Fin c) β) (f : β → γ) :
    (entries E).map f = entries (Matrix.of fun i j => f (E i j)) := by
  simp [entries, List.map_ofFn, Function.comp_def]

theorem mem_entries {β : Type} {r c : ℕ} (E : Matrix (Fin r) (Fin c) β) (b : β) : b ∈ entries E ↔ ∃ i j, E i j = b := by
  constructor
  · intro h
    simp only [entries, List.mem_ofFn] at h
    obtain ⟨k, rfl⟩ := h
    exact ⟨_, _, rfl⟩
  · rintro ⟨i, j, rfl⟩
    exact List.mem_of_getElem? (entries_get E i j)

theorem entries_inj {β : Type} {r c : ℕ} {A B : Matrix (Fin r) (Fin c) β} (h : entries A = entries B) : A = B := by
  ext i j
  have h1 := entries_get A i j
  rw [h, entries_get B i j] at h1
  simpa using h1.symm

theorem ofEntries_entries {r c : ℕ} (A : Matrix (Fin r) (Fin c) α) : ofEntries A = ⟨r, c, entries A⟩ := rfl

/-- Every list of the right length is the list of entries of a matrix. -/
theorem exists_entries {β : Type} (r c : ℕ) (l : List β) (h : l.length = r * c) : ∃ A : Matrix (Fin r) (Fin c) β, l = entries A := by
  refine ⟨Matrix.of fun i j => l[(i : ℕ) * c + j]'(by rw [h]; exact idx_lt i.2 j.2), ?_⟩
  apply List.ext_getElem (by rw [entries_length, h])
  intro n h1 h2
  simp only [entries, List.getElem_ofFn, Matrix.of_apply]
  congr 1
  simp only [Fin.divNat, Fin.modNat]
  rw [Nat.mul_comm]
  exact (Nat.div_add_mod n c).symm

theorem clone_list (es : List (Expr α)) : mapRes Tom.clone (es.map embed) = .ok (es.map embed) := by
  rw [mapRes_map]
  exact mapRes_ok fun e _ => clone_eq _ (embed_isSome e)

theorem calcList_ok (cfg : Config α) (es : List (Expr α)) :
    ((SymMat.calcList cfg (es.map embed)).1 >>= fun _ => mapRes SymMat.numberOf (SymMat.calcList cfg (es.map embed)).2)
      = evalAll cfg.throwOnInvalidValue noEnv es := by
  induction es with
  | nil => rfl
  | cons e es ih =>
    simp only [List.map_cons, SymMat.calcList, evalAll, calcNode, vpa_embed]
    cases h : e.eval cfg.throwOnInvalidValue noEnv with
    | ok v =>
      simp only [Res.bind_ok]
      rw [← ih]
      cases (SymMat.calcList cfg (es.map embed)).1 <;> simp [mapRes, SymMat.numberOf, mkNum]
    | throw x => rfl
    | ub => rfl
    | terminate => rfl
    | assertFail => rfl
    | diverge => rfl

theorem evalAll_subst (strict : Bool) (values : List (Str × α)) (es : List (Expr α)) :
    evalAll strict noEnv (es.map fun e => e.subst fun x => (values.lookup x).map Expr.num)
      = evalAll strict (envOf values) es := by
  induction es with
  | nil => rfl
  | cons e es ih =>
    simp only [List.map_cons, evalAll, ih]
    congr 1
    rw [eval_subst]
    congr 1
    funext x
    unfold envOf
    cases values.lookup x <;> rfl

theorem evalAll_eq_ok {strict : Bool} {env : Str → Res α} {es : List (Expr α)} {out : List α} :
    evalAll strict env es = .ok out ↔ List.Forall₂ (fun e v => e.eval strict env = .ok v) es out := by
  have : evalAll strict env es = mapRes (fun e => e.eval strict env) es := by
    induction es with
    | nil => rfl
    | cons e es ih => simp only [evalAll, mapRes, ih]
  rw [this, mapRes_eq_ok]

/-- `Clone().Subs(table).Calc().ToMat()` on any list of expressions -/
theorem evalMat_list (cfg : Config α) (r c : ℕ) (hr : 0 < r) (hc : 0 < c) (es : List (Expr α)) (t : VarsTable α) :
    evalMat cfg ⟨r, c, es.map embed⟩ t
      = (evalAll cfg.throwOnInvalidValue (envOf t.table) es >>= fun vs => .ok ⟨r, c, vs⟩) := by
  unfold evalMat SymMat.clone
  simp only [if_pos (And.intro hr hc)]
  rw [clone_list]
  simp only [Res.bind_ok, SymMat.subs]
  have h1 : mapRes (fun n => subsValues n t.table) (es.map embed)
      = .ok ((es.map fun e => e.subst fun x => (t.table.lookup x).map Expr.num).map embed) := by
    rw [mapRes_map, mapRes_ok (g := fun e => embed (e.subst fun x => (t.table.lookup x).map Expr.num))
      fun e _ => C18_subsValues e t.table]
    simp
  rw [h1]
  simp only [Res.bind_ok, Res.noexcept_ok, SymMat.calcChain, SymMat.calcAll, SymMat.toMat]
  rw [← evalAll_subst, ← calcList_ok]
  cases (SymMat.calcList cfg ((es.map fun e => e.subst fun x => (t.table.lookup x).map Expr.num).map embed)).1 <;> rfl

theorem forall₂_entries {β γ : Type} {r c : ℕ} {R : β → γ → Prop} {A : Matrix (Fin r) (Fin c) β} {B : Matrix (Fin r) (Fin c) γ} :
    List.Forall₂ R (entries A) (entries B) ↔ ∀ i j, R (A i j) (B i j) := by
  rw [List.forall₂_iff_get]
  simp only [entries_length]
  constructor
  · rintro ⟨_, h⟩ i j
    have hlt := idx_lt i.2 j.2
    have := h ((i : ℕ) * c + j) hlt hlt
    have h1 := entries_get A i j
    have h2 := entries_get B i j
    rw [List.getElem?_eq_getElem (by rw [entries_length]; exact hlt), Option.some.injEq] at h1 h2
    simp only [List.get_eq_getElem] at this
    rwa [h1, h2] at this
  · intro h
    refine ⟨trivial, fun k h1 h2 => ?_⟩
    simp only [List.get_eq_getElem, entries, List.getElem_ofFn]
    exact h _ _

/-! ### product -/

theorem symValue {r c : ℕ} (E : Matrix (Fin r) (Fin c) (Expr α)) (i : Fin r) (j : Fin c) :
    (symOf E).value i j = .ok (embed (E i j)) := by
  unfold SymMat.value readAt symOf
  simp only [List.getElem?_map, entries_get, Option.map_some]

theorem prodEntry_eq {r m c : ℕ} (A : Matrix (Fin r) (Fin m) (Expr α)) (B : Matrix (Fin m) (Fin c) (Expr α)) (i : Fin r) (j : Fin c)
    (k : Fin m) : SymMat.prodEntry (symOf A) (symOf B) i j k = .ok (embed (.bin .mul (A i k) (B k j))) := by
  unfold SymMat.prodEntry
  rw [symValue, symValue]
  simp only [Res.bind_ok, clone_eq _ (embed_isSome _)]
  rfl

theorem sumLoop_eq {n : ℕ} (p : ℕ → Res (Raw α)) (t : ℕ → Expr α) (hp : ∀ k, k < n → p (k + 1) = .ok (embed (t k))) (e : Expr α) :
    forRes (fun s k => do
        let q ← p k
        .ok (binaryNode .add s q)) ((List.range n).map (· + 1)) (embed e)
      = .ok (embed (((List.range n).map t).foldl (.bin .add) e)) := by
  have : ∀ (l : List ℕ) (e : Expr α), (∀ k ∈ l, p (k + 1) = .ok (embed (t k))) →
      forRes (fun s k => do
        let q ← p k
        .ok (binaryNode .add s q)) (l.map (· + 1)) (embed e) = .ok (embed ((l.map t).foldl (.bin .add) e)) := by
    intro l
    induction l with
    | nil => intros; rfl
    | cons a l ih =>
      intro e h
      simp only [List.map_cons, forRes, h a (by simp), Res.bind_ok, List.foldl_cons]
      exact ih (.bin .add e (t a)) fun k hk => h k (by simp [hk])
  exact this _ e fun k hk => hp k (by simpa using hk)

/-- one entry of the product -/
theorem mulEntry_eq {r n c : ℕ} (A : Matrix (Fin r) (Fin (n + 1)) (Expr α)) (B : Matrix (Fin (n + 1)) (Fin c) (Expr α)) (i : Fin r)
    (j : Fin c) :
    (do
      let s ← SymMat.prodEntry (symOf A) (symOf B) i j 0
      forRes (fun s k => do
          let p ← SymMat.prodEntry (symOf A) (symOf B) i j k
          .ok (binaryNode .add s p)) ((List.range n).map (· + 1)) s)
      = .ok (embed (dotExpr (fun k => A i k) fun k => B k j)) := by
  have h0 := prodEntry_eq A B i j 0
  have e0 : ((0 : Fin (n + 1)) : ℕ) = 0 := rfl
  rw [e0] at h0
  rw [h0, Res.bind_ok]
  have := sumLoop_eq (n := n) (fun k => SymMat.prodEntry (symOf A) (symOf B) i j k)
    (fun k => if h : k < n then .bin .mul (A i (Fin.succ ⟨k, h⟩)) (B (Fin.succ ⟨k, h⟩) j) else .bin .mul (A i 0) (B 0 j))
    (by
      intro k hk
      simp only [hk, dif_pos]
      have := prodEntry_eq A B i j (Fin.succ ⟨k, hk⟩)
      simpa using this)
    (.bin .mul (A i 0) (B 0 j))
  refine this.trans ?_
  congr 3
  apply List.ext_getElem
  · simp
  · intro k h1 h2
    simp only [List.length_map, List.length_range] at h1
    simp [h1]

theorem symSet_flat {r c : ℕ} (f : ℕ → ℕ → Raw α) {i j : ℕ} (v : Raw α) (hi : i < r) (hj : j < c) :
    (⟨r, c, flat r c f⟩ : SymMat α).setValue i j v = .ok ⟨r, c, flat r c fun a b => if a = i ∧ b = j then v else f a b⟩ := by
  unfold SymMat.setValue writeAt
  simp only [flat_length]
  rw [if_pos (idx_lt hi hj)]
  simp only [Res.bind_ok]
  rw [flat_set f v hi hj]

/-- filling a matrix entry by entry -/
theorem symFill {r c : ℕ} (f : ℕ → ℕ → Res (Raw α)) (v : ℕ → ℕ → Raw α) (hv : ∀ i j, i < r → j < c → f i j = .ok (v i j))
    (g : ℕ → ℕ → Raw α) :
    forRes (fun (ans : SymMat α) i => forRes (fun (ans : SymMat α) j => do
        let s ← f i j
        ans.setValue i j s) (List.range c) ans) (List.range r) ⟨r, c, flat r c g⟩ = .ok ⟨r, c, flat r c v⟩ := by
  have inner : ∀ i, i < r → ∀ g : ℕ → ℕ → Raw α, forRes (fun (ans : SymMat α) j => do
        let s ← f i j
        ans.setValue i j s) (List.range c) ⟨r, c, flat r c g⟩ = .ok ⟨r, c, flat r c fun a b => if a = i then v a b else g a b⟩ := by
    intro i hi g
    have h := forRes_range (fun (ans : SymMat α) j => do
        let s ← f i j
        ans.setValue i j s) c (fun j => (⟨r, c, flat r c fun a b => if a = i ∧ b < j then v a b else g a b⟩ : SymMat α)) ?_
    · simp only [Nat.not_lt_zero, and_false, if_false] at h
      rw [h]
      congr 2
      apply flat_congr
      intro a b _ hb
      simp [hb]
    · intro k hk
      rw [hv i k hi hk, Res.bind_ok, symSet_flat _ _ hi hk]
      congr 2
      apply flat_congr
      intro a b _ _
      by_cases h1 : a = i
      · subst h1
        by_cases h2 : b = k
        · subst h2; simp
        · have : (b < k + 1) = (b < k) := by simp; omega
          simp [h2, this]
      · simp [h1]
  have h := forRes_range (fun (ans : SymMat α) i => forRes (fun (ans : SymMat α) j => do
        let s ← f i j
        ans.setValue i j s) (List.range c) ans) r
      (fun i => (⟨r, c, flat r c fun a b => if a < i then v a b else g a b⟩ : SymMat α)) ?_
  · simp only [Nat.not_lt_zero, if_false] at h
    rw [h]
    congr 2
    apply flat_congr
    intro a b ha _
    simp [ha]
  · intro k hk
    refine (inner k hk _).trans ?_
    congr 2
    apply flat_congr
    intro a b _ _
    by_cases h1 : a = k
    · subst h1; simp
    · have : (a < k + 1) = (a < k) := by simp; omega
      simp [h1, this]

theorem flat_entries {β : Type} {r c : ℕ} (f : ℕ → ℕ → β) : flat r c f = entries (Matrix.of fun (i : Fin r) (j : Fin c) => f i j) := by
  apply List.ext_getElem
  · simp [flat_length, entries_length]
  · intro k h1 h2
    simp [flat, entries, Fin.divNat, Fin.modNat]

/-! ### Jacobian -/

theorem jacLoop_eq (cfg : Config α) (eqs : List (Raw α)) (vars : List Str) (hm : 0 < vars.length) :
    ∀ n iter i, i ≤ vars.length →
      SymMat.jacLoop cfg eqs vars n iter i = mapRes (fun k => do
        let e ← readAt eqs (k / vars.length)
        let x ← readAt vars (k % vars.length)
        diffConst cfg e x 1) ((List.range n).map (· + (iter * vars.length + i))) := by
  intro n
  induction n with
  | zero => intros; rfl
  | succ n ih =>
    intro iter i hi
    rw [List.range_succ_eq_map]
    simp only [List.map_cons, List.map_map, SymMat.jacLoop, mapRes, Nat.zero_add]
    have e : (List.range n).map ((fun x => x + (iter * vars.length + i)) ∘ Nat.succ)
        = (List.range n).map (· + (iter * vars.length + (i + 1))) := by
      apply List.map_congr_left; intro a _; simp; omega
    rw [e]
    by_cases h : i = vars.length
    · subst h
      simp only [if_true]
      rw [ih (iter + 1) (0 + 1) (by omega)]
      have h1 : (iter * vars.length + vars.length) / vars.length = iter + 1 := by
        rw [← Nat.succ_mul, Nat.mul_div_cancel _ hm]
      have h2 : (iter * vars.length + vars.length) % vars.length = 0 := by
        rw [← Nat.succ_mul, Nat.mul_mod_left]
      have h3 : (iter + 1) * vars.length + (0 + 1) = iter * vars.length + (vars.length + 1) := by
        rw [Nat.succ_mul]; omega
      rw [h1, h2, h3]
      cases readAt eqs (iter + 1) <;> simp only [Res.bind_ok, Res.bind_throw, Res.bind_ub, Res.bind_terminate, Res.bind_assertFail, Res.bind_diverge]
      cases readAt vars 0 <;> simp only [Res.bind_ok, Res.bind_throw, Res.bind_ub, Res.bind_terminate, Res.bind_assertFail, Res.bind_diverge]
    · simp only [if_neg h]
      rw [ih iter (i + 1) (by omega)]
      rw [idx_div (by omega : i < vars.length), idx_mod (by omega : i < vars.length)]
      cases readAt eqs iter <;> simp only [Res.bind_ok, Res.bind_throw, Res.bind_ub, Res.bind_terminate, Res.bind_assertFail, Res.bind_diverge]
      cases readAt vars i <;> simp only [Res.bind_ok, Res.bind_throw, Res.bind_ub, Res.bind_terminate, Res.bind_assertFail, Res.bind_diverge]

/-- the outcomes of a single differentiation -/
theorem diffConst_outcomes (cfg : Config α) (e : Expr α) (x : Str) :
    (∃ e', diffConst cfg (embed e) x 1 = .ok (embed e')) ∨ diffConst cfg (embed e) x 1 = .throw .runtime ∨
      diffConst cfg (embed e) x 1 = .terminate := by
  have hd : diffConst cfg (embed e) x 1 = diff cfg (embed e) x 1 := by
    unfold diffConst; rw [clone_eq _ (embed_isSome e), Res.bind_ok]
  rw [hd]
  obtain ⟨h1, h2, h3, h4⟩ := C29_diff cfg x 1 (by decide) e
  obtain ⟨_, h5⟩ := C27_diff_throws cfg x 1 (by decide) e
  cases h : diff cfg (embed e) x 1 with
  | ok r => obtain ⟨e', rfl, _⟩ := h4 r h; exact .inl ⟨e', rfl⟩
  | throw x => rw [h5 x h]; exact .inr (.inl rfl)
  | terminate => exact .inr (.inr rfl)
  | ub => exact absurd h h2
  | assertFail => exact absurd h h3
  | diverge => exact absurd h h1

theorem jacobian_list (cfg : Config α) (es : List (Expr α)) (c : ℕ) (vars : List Str) (hr : 0 < es.length) (hv : 0 < vars.length) :
    (SymMat.jacobian cfg ⟨es.length, c, es.map embed⟩ vars)
      = Res.noexcept (mapRes (fun k => do
        let e ← readAt (es.map embed) (k / vars.length)
        let x ← readAt vars (k % vars.length)
        diffConst cfg e x 1) (List.range (es.length * vars.length)) >>= fun d => .ok ⟨es.length, vars.length, d⟩) := by
  unfold SymMat.jacobian
  simp only [if_pos (And.intro hr hv)]
  rw [jacLoop_eq cfg _ _ hv _ _ _ (by omega)]
  simp

end Tom
