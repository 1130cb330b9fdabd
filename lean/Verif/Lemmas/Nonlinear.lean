import Verif.Spec.Solve
import Verif.Lemmas.Fine
import Verif.Lemmas.VarsTable
import Verif.Props.SymMat
/-
The nonlinear solvers.
-/
set_option linter.unusedSectionVars false
set_option linter.unusedSimpArgs false
namespace Tom
variable {α : Type} [Dbl α]
open Relation

/-! ### tables -/

theorem VarsTable.Good.ext {t t' : VarsTable α} (h : t.Good) (h' : t'.Good) (hv : t.vars = t'.vars) (hx : t.values = t'.values) :
    t = t' := by
  have hp : t.table.Perm t'.table := by
    refine h.entries.trans ?_
    rw [hv, hx]
    exact h'.entries.symm
  have : t.table = t'.table :=
    hp.eq_of_pairwise (fun a b _ _ h1 h2 => by rw [strLt_asymm h1] at h2; cases h2) h.sorted h'.sorted
  cases t; cases t'
  simp only at hv hx this
  subst hv hx this
  rfl

theorem isVec_add {a b c : Mat α} (ha : IsVec a) (h : a.add b = .ok c) : IsVec c ∧ c.rows = a.rows := by
  unfold Mat.add at h
  split at h
  · unfold zipV at h
    split at h
    · simp only [Res.bind_ok, Res.ok.injEq] at h
      subst h
      rename_i hl
      exact ⟨⟨ha.1, by simp [← hl, ha.2]⟩, rfl⟩
    · cases h
  · cases h

theorem setValues_rows {t t' : VarsTable α} {v : Mat α} (h : t.setValues v = .ok t') : v.rows = t.values.rows := by
  unfold VarsTable.setValues at h
  split at h
  · assumption
  · cases h

theorem fine_setValues (t : VarsTable α) (v : Mat α) : (t.setValues v).Fine :=
  fine_ite (fine_bind (fine_forRes (fun _ _ => fine_bind (fine_readAt _ _) fun _ _ => fine_bind (fine_at _ _) fun _ _ => fine_ok _) _ _)
    fun _ _ => fine_ok _) fine_assertFail

/-! ### evaluation -/

theorem fine_eval (strict : Bool) (values : List (Str × α)) (e : Expr α) : (e.eval strict (envOf values)).Fine := by
  have hc : ∀ v : α, (checked strict v).Fine := fun v => by unfold checked; exact fine_ite (fine_throw _) (fine_ok _)
  induction e with
  | num v => exact fine_ok v
  | var x =>
    simp only [Expr.eval, envOf]
    cases values.lookup x with
    | some v => exact fine_ok v
    | none => exact fine_throw _
  | un o e ih => exact fine_bind ih fun v _ => hc _
  | bin o a b iha ihb =>
    refine fine_bind iha fun x _ => fine_bind ihb fun y _ => ?_
    cases o.apply x y with
    | none => exact fine_ub
    | some v => exact hc v

theorem fine_evalAll (strict : Bool) (values : List (Str × α)) (es : List (Expr α)) : (evalAll strict (envOf values) es).Fine := by
  induction es with
  | nil => exact fine_ok _
  | cons e es ih => exact fine_bind (fine_eval _ _ _) fun _ _ => fine_bind ih fun _ _ => fine_ok _

theorem fine_evalMat {r c : ℕ} (hr : 0 < r) (hc : 0 < c) (cfg : Config α) (E : Matrix (Fin r) (Fin c) (Expr α)) (t : VarsTable α) :
    (evalMat cfg (symOf E) t).Fine := by
  unfold symOf
  rw [evalMat_list cfg r c hr hc]
  exact fine_bind (fine_evalAll _ _ _) fun _ _ => fine_ok _

theorem fine_evalVec {r : ℕ} (hr : 0 < r) (cfg : Config α) (f : Matrix (Fin r) (Fin 1) (Expr α)) (t : VarsTable α) :
    (evalVec cfg (symOf f) t).Fine := fine_bind (fine_evalMat hr (by omega) cfg f t) fun _ _ => fine_toVec _

theorem evalVec_ok {r : ℕ} (hr : 0 < r) (cfg : Config α) (f : Matrix (Fin r) (Fin 1) (Expr α)) (t : VarsTable α) (phi : Mat α) :
    evalVec cfg (symOf f) t = .ok phi ↔
      ∃ v : Matrix (Fin r) (Fin 1) α, phi = ofEntries v ∧ ∀ i, (f i 0).eval cfg.throwOnInvalidValue (envOf t.table) = .ok (v i 0) := by
  unfold evalVec
  constructor
  · intro h
    obtain ⟨m, h1, h2⟩ := Res.bind_eq_ok.mp h
    obtain ⟨v, rfl, h3⟩ := (C50_evaluate hr (by omega) cfg f t m).mp h1
    unfold Mat.toVec at h2
    rw [if_neg (by simp [ofEntries]; omega), if_neg (by simp [ofEntries])] at h2
    rw [Res.ok.injEq] at h2
    exact ⟨v, h2.symm, fun i => h3 i 0⟩
  · rintro ⟨v, rfl, h⟩
    refine Res.bind_eq_ok.mpr ⟨ofEntries v, (C50_evaluate hr (by omega) cfg f t _).mpr ⟨v, rfl, fun i j => ?_⟩, ?_⟩
    · rw [Subsingleton.elim j 0]; exact h i
    · unfold Mat.toVec
      rw [if_neg (by simp [ofEntries]; omega), if_neg (by simp [ofEntries])]
      rfl

theorem satisfies_iff {r : ℕ} (hr : 0 < r) (cfg : Config α) (f : Matrix (Fin r) (Fin 1) (Expr α)) (t : VarsTable α) :
    Satisfies cfg f t ↔ ∃ phi, evalVec cfg (symOf f) t = .ok phi ∧ phi.eqNum cfg.epsilon (Dbl.ofInt 0) = true := by
  have hE : ∀ i, (subsValues (embed (f i 0)) t.table >>= fun e => vpa cfg e) = (f i 0).eval cfg.throwOnInvalidValue (envOf t.table) :=
    fun i => C17_subsValues_vpa cfg (f i 0) t.table
  have hall : ∀ v : Matrix (Fin r) (Fin 1) α, (ofEntries v).eqNum cfg.epsilon (Dbl.ofInt 0) = true ↔
      ∀ i, Arith.lt (Arith.abs (Arith.sub (v i 0) (Dbl.ofInt 0))) cfg.epsilon = true := by
    intro v
    unfold Mat.eqNum
    rw [List.all_eq_true, ofEntries_entries]
    constructor
    · intro h i; exact h _ ((mem_entries v _).mpr ⟨i, 0, rfl⟩)
    · intro h x hx
      obtain ⟨i, j, rfl⟩ := (mem_entries v x).mp hx
      rw [Subsingleton.elim j 0]; exact h i
  unfold Satisfies
  simp only [hE]
  constructor
  · intro h
    choose v h1 h2 using h
    exact ⟨ofEntries (Matrix.of fun i _ => v i), (evalVec_ok hr cfg f t _).mpr ⟨_, rfl, h1⟩, (hall _).mpr h2⟩
  · rintro ⟨phi, h1, h2⟩ i
    obtain ⟨v, rfl, h3⟩ := (evalVec_ok hr cfg f t phi).mp h1
    exact ⟨v i 0, h3 i, (hall v).mp h2 i⟩

/-- the symbolic Jacobian is a matrix of expressions -/
theorem jacobian_symOf {r : ℕ} (hr : 0 < r) (cfg : Config α) (f : Matrix (Fin r) (Fin 1) (Expr α)) (vars : List Str)
    (hv : 0 < vars.length) (J : SymMat α) (h : (symOf f).jacobian cfg vars = .ok J) :
    ∃ D : Matrix (Fin r) (Fin vars.length) (Expr α), J = symOf D := by
  obtain ⟨h2, h3, h4, h5⟩ := C32 hr cfg f vars hv J h
  choose D hD1 hD2 using h5
  refine ⟨Matrix.of D, ?_⟩
  obtain ⟨jr, jc, jd⟩ := J
  simp only at h2 h3 h4
  subst h2 h3
  simp only [symOf, SymMat.mk.injEq, true_and]
  obtain ⟨A, rfl⟩ := exists_entries jr vars.length jd h4
  rw [entries_map]
  congr 1
  ext i j : 2
  have := hD1 i j
  unfold SymMat.value readAt at this
  simp only [entries_get, Res.ok.injEq] at this
  rw [this]; rfl

/-! ### Newton-Raphson -/

theorem newtonLoop_ok {r : ℕ} (hr : 0 < r) (cfg : Config α) (f : Matrix (Fin r) (Fin 1) (Expr α)) (J : SymMat α) :
    ∀ fuel it (t : VarsTable α) (q : Mat α) (t' : VarsTable α), t.Reachable → IsVec q →
      newtonLoop cfg (symOf f) J fuel it t q = .ok t' →
      Satisfies cfg f t' ∧ t'.vars = t.vars ∧ t'.Reachable := by
  intro fuel
  induction fuel with
  | zero => intro it t q t' _ _ h; cases h
  | succ fuel ih =>
    intro it t q t' ht hq h
    obtain ⟨phi, h1, h⟩ := Res.bind_eq_ok.mp h
    split at h
    · rename_i he
      rw [Res.ok.injEq] at h
      subst h
      exact ⟨(satisfies_iff hr cfg f t).mpr ⟨phi, h1, he⟩, rfl, ht⟩
    · split at h
      · cases h
      · obtain ⟨j, _, h⟩ := Res.bind_eq_ok.mp h
        obtain ⟨dq, _, h⟩ := Res.bind_eq_ok.mp h
        obtain ⟨q', h4, h⟩ := Res.bind_eq_ok.mp h
        obtain ⟨t1, h5, h⟩ := Res.bind_eq_ok.mp h
        obtain ⟨hq', _⟩ := isVec_add hq h4
        obtain ⟨_, hv, _⟩ := setValues_good ht.good hq' h5
        obtain ⟨a, b, c⟩ := ih (it + 1) t1 q' t' (.setValues ht hq' h5) hq' h
        exact ⟨a, b.trans hv, c⟩

/-- from the second step on, the loop performs Newton steps -/
theorem newtonLoop_steps (cfg : Config α) (eqs J : SymMat α) :
    ∀ fuel it (t t' : VarsTable α), t.Reachable → newtonLoop cfg eqs J fuel it t t.values = .ok t' →
      ReflTransGen (NewtonStep cfg eqs J) t t' := by
  intro fuel
  induction fuel with
  | zero => intro it t t' _ h; cases h
  | succ fuel ih =>
    intro it t t' ht h
    obtain ⟨phi, h1, h⟩ := Res.bind_eq_ok.mp h
    split at h
    · rw [Res.ok.injEq] at h
      subst h
      exact .refl
    · split at h
      · cases h
      · obtain ⟨j, h2, h⟩ := Res.bind_eq_ok.mp h
        obtain ⟨dq, h3, h⟩ := Res.bind_eq_ok.mp h
        obtain ⟨q', h4, h⟩ := Res.bind_eq_ok.mp h
        obtain ⟨t1, h5, h⟩ := Res.bind_eq_ok.mp h
        obtain ⟨hq', _⟩ := isVec_add ht.good.vec h4
        obtain ⟨_, hv, hx⟩ := setValues_good ht.good hq' h5
        subst hx
        exact .head ⟨dq, ⟨phi, j, h1, h2, h3⟩, h4, hv⟩ (ih (it + 1) t1 t' (.setValues ht hq' h5) h)

theorem newtonLoop_fine {r c : ℕ} (hr : 0 < r) (hc : 0 < c) (cfg : Config α) (f : Matrix (Fin r) (Fin 1) (Expr α))
    (D : Matrix (Fin r) (Fin c) (Expr α)) :
    ∀ (fuel it : ℕ) (t : VarsTable α) (q : Mat α), 0 < fuel → cfg.maxIterations + 2 ≤ fuel + it →
      (newtonLoop cfg (symOf f) (symOf D) fuel it t q).Fine := by
  intro fuel
  induction fuel with
  | zero => intro it t q h; omega
  | succ fuel ih =>
    intro it t q _ hf
    refine fine_bind (fine_evalVec hr cfg f t) fun phi _ => fine_ite (fine_ok _) ?_
    split
    · exact fine_throw _
    · rename_i hit
      refine fine_bind (fine_evalMat hr hc cfg D t) fun j _ => fine_bind (fine_solveLinear _ _ _) fun dq _ =>
        fine_bind (fine_add _ _) fun q' _ => fine_bind (fine_setValues _ _) fun t1 _ => ih _ _ _ ?_ ?_
      · omega
      · push_cast at hf ⊢
        omega

/-- more fuel makes no difference -/
theorem newtonLoop_mono (cfg : Config α) (eqs J : SymMat α) : ∀ fuel k it (t : VarsTable α) (q : Mat α),
    newtonLoop cfg eqs J fuel it t q ≠ .diverge → newtonLoop cfg eqs J (fuel + k) it t q = newtonLoop cfg eqs J fuel it t q := by
  intro fuel
  induction fuel with
  | zero => intro k it t q h; exact absurd rfl h
  | succ fuel ih =>
    intro k it t q h
    rw [Nat.succ_add]
    unfold newtonLoop at h ⊢
    cases h1 : evalVec cfg eqs t with
    | ok phi =>
      rw [h1] at h
      simp only [Res.bind_ok] at h ⊢
      split
      · rfl
      · rename_i he
        rw [if_neg he] at h
        split
        · rfl
        · rename_i hi
          rw [if_neg hi] at h
          cases h2 : evalMat cfg J t with
          | ok j =>
            rw [h2] at h
            simp only [Res.bind_ok] at h ⊢
            cases h3 : solveLinear cfg j phi.neg with
            | ok dq =>
              rw [h3] at h
              simp only [Res.bind_ok] at h ⊢
              cases h4 : q.add dq with
              | ok q' =>
                rw [h4] at h
                simp only [Res.bind_ok] at h ⊢
                cases h5 : t.setValues q' with
                | ok t1 =>
                  rw [h5] at h
                  simp only [Res.bind_ok] at h ⊢
                  exact ih k _ _ _ h
                | _ => rfl
              | _ => rfl
            | _ => rfl
          | _ => rfl
    | _ => rfl

/-! ### Levenberg-Marquardt -/

/-- not `terminate`, and not an endless loop if `c` -/
def Res.Calm {β : Type} (c : Bool) (r : Res β) : Prop := r ≠ .terminate ∧ (c = true → r ≠ .diverge)

theorem Res.Fine.calm {β : Type} {r : Res β} (h : r.Fine) (c : Bool) : r.Calm c := ⟨h.2, fun _ => h.1⟩

theorem calm_bind {β γ : Type} {c : Bool} {r : Res β} {f : β → Res γ} (h : r.Calm c) (hf : ∀ b, r = .ok b → (f b).Calm c) :
    (r >>= f).Calm c := by
  cases r with
  | ok b => exact hf b rfl
  | throw e => exact (fine_throw e).calm c
  | ub => exact fine_ub.calm c
  | assertFail => exact fine_assertFail.calm c
  | terminate => exact absurd rfl h.1
  | diverge => exact ⟨by simp, fun hc => absurd rfl (h.2 hc)⟩

theorem armijoLoop_calm (f df : Mat α → Res (Mat α)) (hf : ∀ v, (f v).Fine) (hdf : ∀ v, (df v).Fine) (x d : Mat α) :
    ∀ fuel alpha, (armijoLoop f df x d fuel alpha).Calm false := by
  intro fuel
  induction fuel with
  | zero => intro alpha; exact ⟨by simp [armijoLoop], by simp⟩
  | succ fuel ih =>
    intro alpha
    refine calm_bind ((fine_add _ _).calm _) fun _ _ => calm_bind ((hf _).calm _) fun _ _ => calm_bind ((fine_norm2 _).calm _) fun _ _ =>
      calm_bind ((hf _).calm _) fun _ _ => calm_bind ((hdf _).calm _) fun _ _ => calm_bind ((fine_transpose _).calm _) fun _ _ =>
      calm_bind ((fine_mul _ _).calm _) fun _ _ => calm_bind ((fine_add _ _).calm _) fun _ _ => calm_bind ((fine_norm2 _).calm _) fun _ _ => ?_
    split
    · exact (fine_ok _).calm _
    · exact ih _

/-- the callbacks that `SolveByLM` passes to `Armijo` -/
def lmF (cfg : Config α) (eqs : SymMat α) (table : VarsTable α) (v : Mat α) : Res (Mat α) := do
  let t ← table.setValues v
  evalVec cfg eqs t

/-- the callbacks that `SolveByLM` passes to `Armijo` -/
def lmDF (cfg : Config α) (ja : SymMat α) (table : VarsTable α) (v : Mat α) : Res (Mat α) := do
  let t ← table.setValues v
  evalMat cfg ja t

/-- the inner loop, one round -/
theorem lmInner_succ (cfg : Config α) (lsFuel : ℕ) (eqs ja : SymMat α) (q F : Mat α) (fuel : ℕ) (t : VarsTable α) (mu : α) (it : ℕ) :
    lmInner cfg lsFuel eqs ja q F (fuel + 1) t mu it = (do
      let d ← lmDirection cfg ja F mu t
      let alpha ← armijo lsFuel q d (lmF cfg eqs t) (lmDF cfg ja t)
      let qTemp ← q.add (Mat.scaleLeft alpha d)
      let table ← t.setValues qTemp
      let FNew ← evalVec cfg eqs table
      let nNew ← FNew.norm2
      let nOld ← F.norm2
      if Arith.lt nNew nOld then .ok (Mat.scaleLeft alpha d, FNew, table, it)
      else if (it : Int) = cfg.maxIterations then .throw .runtime
      else lmInner cfg lsFuel eqs ja q F fuel table (Arith.mul mu (Dbl.ofInt 10)) (it + 1)) := by
  unfold lmDirection lmF lmDF
  simp only [Res.bind_assoc']
  rfl

theorem fine_lmDirection {r n : ℕ} (hr : 0 < r) (hn : 0 < n) (cfg : Config α) (D : Matrix (Fin r) (Fin n) (Expr α)) (F : Mat α)
    (mu : α) (t : VarsTable α) : (lmDirection cfg (symOf D) F mu t).Fine :=
  fine_bind (fine_evalMat hr hn cfg D t) fun _ _ => fine_bind (fine_transpose _) fun _ _ => fine_bind (fine_mul _ _) fun _ _ =>
    fine_bind (fine_new _ _ _) fun _ _ => fine_bind (fine_ones _) fun _ _ => fine_bind (fine_add _ _) fun _ _ =>
    fine_bind (fine_mul _ _) fun _ _ => fine_bind (fine_toVec _) fun _ _ => fine_solveLinear _ _ _

theorem lmInner_calm {r n : ℕ} (hr : 0 < r) (hn : 0 < n) (cfg : Config α) (f : Matrix (Fin r) (Fin 1) (Expr α))
    (D : Matrix (Fin r) (Fin n) (Expr α)) (c : Bool) (lsFuel : ℕ)
    (vars : List Str) (P : Mat α → Prop) (hls : c = true → ∀ t0 k t d, t0.vars = vars → P t0.values → LMSearch cfg (symOf f) (symOf D) t0 k t d →
      armijo lsFuel t0.values d (lmF cfg (symOf f) t) (lmDF cfg (symOf D) t) ≠ .diverge) (t0 : VarsTable α) (ht0 : t0.Reachable)
    (hv0 : t0.vars = vars) (hP0 : P t0.values) (F : Mat α) (hF : evalVec cfg (symOf f) t0 = .ok F) :
    ∀ (fuel : ℕ) (t : VarsTable α) (k it : ℕ), t.Reachable → t.vars = t0.vars → (k = 0 → t = t0) →
      (c = true → (it : ℤ) ≤ cfg.maxIterations ∧ cfg.maxIterations < fuel + it) →
      (lmInner cfg lsFuel (symOf f) (symOf D) t0.values F fuel t (lmDamping k) it).Calm c ∧
      ∀ dq FN t' it', lmInner cfg lsFuel (symOf f) (symOf D) t0.values F fuel t (lmDamping k) it = .ok (dq, FN, t', it') →
        c = true → (it' : ℤ) ≤ cfg.maxIterations ∧ it ≤ it' := by
  intro fuel
  induction fuel with
  | zero =>
    intro t k it _ _ _ h
    refine ⟨⟨by simp [lmInner], fun hc => ?_⟩, fun dq FN t' it' h => by cases h⟩
    have := h hc
    omega
  | succ fuel ih =>
    intro t k it ht hvars hk hit
    rw [lmInner_succ, show (Arith.mul (lmDamping k) (Dbl.ofInt 10) : α) = lmDamping (k + 1) from
      (Function.iterate_succ_apply' (fun m => Arith.mul m (Dbl.ofInt 10)) k (lit 1 (-5))).symm]
    have next : ∀ {d : Mat α} {alpha : α} {qT : Mat α} {t1 : VarsTable α}, t0.values.add (Mat.scaleLeft alpha d) = .ok qT →
        t.setValues qT = .ok t1 → t1.Reachable ∧ t1.vars = t0.vars := by
      intro d alpha qT t1 h1 h2
      obtain ⟨hqT, _⟩ := isVec_add ht0.good.vec h1
      obtain ⟨_, hv, _⟩ := setValues_good ht.good hqT h2
      exact ⟨.setValues ht hqT h2, hv.trans hvars⟩
    refine ⟨?_, ?_⟩
    · refine calm_bind ((fine_lmDirection hr hn cfg D F _ t).calm _) fun d hd => calm_bind ?_ fun alpha _ =>
        calm_bind ((fine_add _ _).calm _) fun qT hqT =>
        calm_bind ((fine_setValues _ _).calm _) fun t1 ht1 => calm_bind ((fine_evalVec hr cfg f t1).calm _) fun FN _ =>
        calm_bind ((fine_norm2 _).calm _) fun _ _ => calm_bind ((fine_norm2 _).calm _) fun _ _ => ?_
      · refine ⟨(armijoLoop_calm _ _ ?_ ?_ _ _ _ _).1, fun hc => hls hc t0 k t d hv0 hP0 ⟨ht0, ht, hvars, hk, F, hF, hd⟩⟩
        · intro v; exact fine_bind (fine_setValues _ _) fun t _ => fine_evalVec hr cfg f t
        · intro v; exact fine_bind (fine_setValues _ _) fun t _ => fine_evalMat hr hn cfg D t
      · obtain ⟨n1, n2⟩ := next hqT ht1
        split
        · exact (fine_ok _).calm _
        · split
          · exact (fine_throw _).calm _
          · rename_i hne
            refine (ih t1 (k + 1) (it + 1) n1 n2 (by simp) fun hc => ?_).1
            have := hit hc
            push_cast at this ⊢
            omega
    · intro dq FN t' it' h hc
      obtain ⟨_, _, h⟩ := Res.bind_eq_ok.mp h
      obtain ⟨_, _, h⟩ := Res.bind_eq_ok.mp h
      obtain ⟨_, hqT, h⟩ := Res.bind_eq_ok.mp h
      obtain ⟨t1, ht1, h⟩ := Res.bind_eq_ok.mp h
      obtain ⟨_, _, h⟩ := Res.bind_eq_ok.mp h
      obtain ⟨_, _, h⟩ := Res.bind_eq_ok.mp h
      obtain ⟨_, _, h⟩ := Res.bind_eq_ok.mp h
      obtain ⟨n1, n2⟩ := next hqT ht1
      have hit' := hit hc
      split at h
      · simp only [Res.ok.injEq, Prod.mk.injEq] at h
        obtain ⟨_, _, _, rfl⟩ := h
        exact ⟨hit'.1, le_refl _⟩
      · split at h
        · cases h
        · rename_i hne
          have := (ih t1 (k + 1) (it + 1) n1 n2 (by simp) (fun hc => by push_cast at hit' ⊢; omega)).2 _ _ _ _ h hc
          exact ⟨this.1, by omega⟩

/-- what the inner loop delivers -/
theorem lmInner_ok (cfg : Config α) (lsFuel : ℕ) (eqs J : SymMat α) (q F : Mat α) (hq : IsVec q) :
    ∀ fuel (t : VarsTable α) mu it dq FN t' it', t.Reachable →
      lmInner cfg lsFuel eqs J q F fuel t mu it = .ok (dq, FN, t', it') →
      t'.Reachable ∧ t'.vars = t.vars ∧ q.add dq = .ok t'.values ∧ evalVec cfg eqs t' = .ok FN ∧
      ∃ n n', F.norm2 = .ok n ∧ FN.norm2 = .ok n' ∧ Arith.lt n' n = true := by
  intro fuel
  induction fuel with
  | zero => intro t mu it dq FN t' it' _ h; cases h
  | succ fuel ih =>
    intro t mu it dq FN t' it' ht h
    obtain ⟨_, _, h⟩ := Res.bind_eq_ok.mp h
    obtain ⟨_, _, h⟩ := Res.bind_eq_ok.mp h
    obtain ⟨_, _, h⟩ := Res.bind_eq_ok.mp h
    obtain ⟨_, _, h⟩ := Res.bind_eq_ok.mp h
    obtain ⟨_, _, h⟩ := Res.bind_eq_ok.mp h
    obtain ⟨_, _, h⟩ := Res.bind_eq_ok.mp h
    obtain ⟨_, _, h⟩ := Res.bind_eq_ok.mp h
    obtain ⟨_, _, h⟩ := Res.bind_eq_ok.mp h
    obtain ⟨_, _, h⟩ := Res.bind_eq_ok.mp h
    obtain ⟨alpha, _, h⟩ := Res.bind_eq_ok.mp h
    obtain ⟨qT, h4, h⟩ := Res.bind_eq_ok.mp h
    obtain ⟨t1, h5, h⟩ := Res.bind_eq_ok.mp h
    obtain ⟨F1, h6, h⟩ := Res.bind_eq_ok.mp h
    obtain ⟨n', h7, h⟩ := Res.bind_eq_ok.mp h
    obtain ⟨n, h8, h⟩ := Res.bind_eq_ok.mp h
    obtain ⟨hqT, _⟩ := isVec_add hq h4
    obtain ⟨_, hv, hx⟩ := setValues_good ht.good hqT h5
    have ht1 : t1.Reachable := .setValues ht hqT h5
    split at h
    · rename_i hlt
      simp only [Res.ok.injEq, Prod.mk.injEq] at h
      obtain ⟨rfl, rfl, rfl, _⟩ := h
      exact ⟨ht1, hv, by rw [hx]; exact h4, h6, n, n', h8, h7, hlt⟩
    · split at h
      · cases h
      · obtain ⟨a, b, c⟩ := ih t1 _ _ _ _ _ _ ht1 h
        exact ⟨a, b.trans hv, c⟩

theorem lmOuter_ok {r : ℕ} (hr : 0 < r) (cfg : Config α) (f : Matrix (Fin r) (Fin 1) (Expr α)) (J : SymMat α) (lsFuel innerFuel : ℕ) :
    ∀ fuel it (t t' : VarsTable α), t.Reachable → lmOuter cfg lsFuel innerFuel (symOf f) J fuel t t.values it = .ok t' →
      Satisfies cfg f t' ∧ t'.vars = t.vars ∧ t'.Reachable ∧ ReflTransGen (Descends cfg (symOf f)) t t' := by
  intro fuel
  induction fuel with
  | zero => intro it t t' _ h; cases h
  | succ fuel ih =>
    intro it t t' ht h
    obtain ⟨F, h1, h⟩ := Res.bind_eq_ok.mp h
    split at h
    · rename_i he
      rw [Res.ok.injEq] at h
      subst h
      exact ⟨(satisfies_iff hr cfg f t).mpr ⟨F, h1, he⟩, rfl, ht, .refl⟩
    · obtain ⟨res, h2, h⟩ := Res.bind_eq_ok.mp h
      obtain ⟨dq, FN, t1, it1⟩ := res
      obtain ⟨q', h3, h⟩ := Res.bind_eq_ok.mp h
      obtain ⟨t2, h4, h⟩ := Res.bind_eq_ok.mp h
      obtain ⟨a, b, c, d, n, n', e⟩ := lmInner_ok cfg lsFuel (symOf f) J t.values F ht.good.vec _ t _ _ _ _ _ _ ht h2
      rw [c, Res.ok.injEq] at h3
      subst h3
      obtain ⟨hg, hv, hx⟩ := setValues_good a.good a.good.vec h4
      have : t2 = t1 := hg.ext a.good hv hx
      subst this
      split at h
      · cases h
      · obtain ⟨s1, s2, s3, s4⟩ := ih _ t2 t' a h
        exact ⟨s1, s2.trans b, s3, .head ⟨F, FN, n, n', h1, d, e⟩ s4⟩

theorem lmOuter_calm {r n : ℕ} (hr : 0 < r) (hn : 0 < n) (cfg : Config α) (f : Matrix (Fin r) (Fin 1) (Expr α))
    (D : Matrix (Fin r) (Fin n) (Expr α)) (c : Bool) (lsFuel innerFuel : ℕ)
    (vars : List Str) (P : Mat α → Prop) (hls : c = true → ∀ t0 k t d, t0.vars = vars → P t0.values → LMSearch cfg (symOf f) (symOf D) t0 k t d →
      armijo lsFuel t0.values d (lmF cfg (symOf f) t) (lmDF cfg (symOf D) t) ≠ .diverge)
    (hP : ∀ q d q' : Mat α, P q → q.add d = .ok q' → P q') (hin : c = true → cfg.maxIterations < innerFuel) :
    ∀ (fuel : ℕ) (t : VarsTable α) (it : ℕ), t.Reachable → t.vars = vars → P t.values →
      (c = true → (it : ℤ) ≤ cfg.maxIterations ∧ cfg.maxIterations < fuel + it) →
      (lmOuter cfg lsFuel innerFuel (symOf f) (symOf D) fuel t t.values it).Calm c := by
  intro fuel
  induction fuel with
  | zero =>
    intro t it _ _ _ h
    refine ⟨by simp [lmOuter], fun hc => ?_⟩
    have := h hc
    omega
  | succ fuel ih =>
    intro t it ht hvs hPt hit
    refine calm_bind ((fine_evalVec hr cfg f t).calm _) fun F hF => ?_
    split
    · exact (fine_ok _).calm _
    · have hI := lmInner_calm hr hn cfg f D c lsFuel vars P hls t ht hvs hPt F hF innerFuel t 0 it ht rfl (fun _ => rfl) (fun hc => by
        have h1 := hit hc; have h2 := hin hc; omega)
      refine calm_bind hI.1 fun res hres => ?_
      obtain ⟨dq, FN, t1, it1⟩ := res
      obtain ⟨a, b, c1, _⟩ := lmInner_ok cfg lsFuel (symOf f) (symOf D) t.values F ht.good.vec _ t _ _ _ _ _ _ ht hres
      refine calm_bind ((fine_add _ _).calm _) fun q' hq' => calm_bind ((fine_setValues _ _).calm _) fun t2 ht2 => ?_
      rw [c1, Res.ok.injEq] at hq'
      subst hq'
      obtain ⟨hg, hv, hx⟩ := setValues_good a.good a.good.vec ht2
      have : t2 = t1 := hg.ext a.good hv hx
      subst this
      split
      · exact (fine_throw _).calm _
      · rename_i hne
        refine ih t2 (it1 + 1) a (b.trans hvs) (hP _ _ _ hPt c1) fun hc => ?_
        have h1 := hI.2 _ _ _ _ hres hc
        have h2 := hit hc
        push_cast at h1 h2 ⊢
        omega

end Tom
