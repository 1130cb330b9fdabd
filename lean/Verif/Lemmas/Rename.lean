import Verif.Spec.Rename
import Verif.Spec.Derivative
import Verif.Lemmas.SymMat
import Verif.Lemmas.VarsTable
import Verif.Props.Mat
/-
Renaming of variables commutes with the operations on expressions, tables and systems.
-/
set_option linter.unusedSectionVars false
namespace Tom
variable {α : Type} [Dbl α]

/-! ### outcomes -/

theorem SameEnd.bind {β γ β' γ' : Type} {R : β → γ → Prop} {S : β' → γ' → Prop} {x : Res β} {y : Res γ} {f : β → Res β'} {g : γ → Res γ'}
    (h : SameEnd R x y) (hf : ∀ b c, R b c → SameEnd S (f b) (g c)) : SameEnd S (x >>= f) (y >>= g) := by
  cases h with
  | ok hr => exact hf _ _ hr
  | throw e => exact .throw e
  | ub => exact .ub
  | terminate => exact .terminate
  | assertFail => exact .assertFail
  | diverge => exact .diverge

theorem SameEnd.refl {β : Type} {R : β → β → Prop} (h : ∀ b, R b b) (x : Res β) : SameEnd R x x := by
  cases x with
  | ok b => exact .ok (h b)
  | throw e => exact .throw e
  | ub => exact .ub
  | terminate => exact .terminate
  | assertFail => exact .assertFail
  | diverge => exact .diverge

theorem SameEnd.eq {β : Type} {x y : Res β} (h : x = y) : SameEnd (· = ·) x y := h ▸ SameEnd.refl (fun _ => rfl) x

theorem SameEnd.to_eq {β : Type} {x y : Res β} (h : SameEnd (· = ·) x y) : x = y := by
  cases h with
  | ok h => rw [h]
  | _ => rfl

theorem SameEnd.noexcept {β γ : Type} {R : β → γ → Prop} {x : Res β} {y : Res γ} (h : SameEnd R x y) : SameEnd R x.noexcept y.noexcept := by
  cases h with
  | ok h => exact .ok h
  | throw e => exact .terminate
  | ub => exact .ub
  | terminate => exact .terminate
  | assertFail => exact .assertFail
  | diverge => exact .diverge

theorem SameEnd.mono {β γ : Type} {R S : β → γ → Prop} {x : Res β} {y : Res γ} (h : SameEnd R x y) (hs : ∀ b c, R b c → S b c) : SameEnd S x y := by
  cases h with
  | ok h => exact .ok (hs _ _ h)
  | throw e => exact .throw e
  | ub => exact .ub
  | terminate => exact .terminate
  | assertFail => exact .assertFail
  | diverge => exact .diverge

/-- the image of the outcome -/
theorem agree_map {β γ : Type} (g : β → γ) (x : Res β) (y : Res γ) : SameEnd (fun b c => c = g b) x y ↔ y = (x >>= fun b => .ok (g b)) := by
  constructor
  · intro h
    cases h with
    | ok h => simp [h]
    | _ => rfl
  · rintro rfl
    cases x with
    | ok b => exact .ok rfl
    | throw e => exact .throw e
    | ub => exact .ub
    | terminate => exact .terminate
    | assertFail => exact .assertFail
    | diverge => exact .diverge

/-! ### expressions -/

theorem eval_rename (strict : Bool) (f : Str → Str) {env env' : Str → Res α} (h : ∀ x, env' (f x) = env x) (e : Expr α) :
    (e.rename f).eval strict env' = e.eval strict env := by
  induction e with
  | num v => rfl
  | var x => exact h x
  | un o e ih => simp only [Expr.rename, Expr.eval, ih]
  | bin o a b iha ihb => simp only [Expr.rename, Expr.eval, iha, ihb]

theorem rename_isNum (f : Str → Str) (e : Expr α) : (e.rename f).isNum = e.isNum := by cases e <;> rfl
theorem rename_isVar (f : Str → Str) (e : Expr α) : (e.rename f).isVar = e.isVar := by cases e <;> rfl

theorem rename_hasIntOp (f : Str → Str) (e : Expr α) : (e.rename f).hasIntOp = e.hasIntOp := by
  induction e with
  | num v => rfl
  | var x => rfl
  | un o e ih => simp only [Expr.rename, Expr.hasIntOp, ih]
  | bin o a b iha ihb => simp only [Expr.rename, Expr.hasIntOp, iha, ihb]

theorem rename_isLit (f : Str → Str) (c : α) (e : Expr α) : isLit c (e.rename f) = isLit c e := by cases e <;> rfl

theorem simpTop_rename (cfg : Config α) (f : Str → Str) (e : Expr α) :
    simpTop cfg (e.rename f) = (simpTop cfg e >>= fun e' => .ok (e'.rename f)) := by
  have hn : ∀ r : Res α, (r >>= fun w => (.ok (.num w) : Res (Expr α))) =
      ((r >>= fun w => (.ok (.num w) : Res (Expr α))) >>= fun e' => .ok (e'.rename f)) := by
    intro r; cases r <;> rfl
  have hb : ∀ (o : BinOp) (a b : Expr α), ¬ (a.isNum = true ∧ b.isNum = true) →
      simpTop cfg ((Expr.bin o a b).rename f) = (simpTop cfg (.bin o a b) >>= fun e' => .ok (e'.rename f)) := by
    intro o a b h
    have e1 : ∀ a b : Expr α, ¬ (a.isNum = true ∧ b.isNum = true) → simpTop cfg (.bin o a b) =
        (if (o = .mul ∧ (isLit (Dbl.ofInt 0) a ∨ isLit (Dbl.ofInt 0) b)) ∨ (o = .div ∧ isLit (Dbl.ofInt 0) a) ∨
            (o = .pow ∧ isLit (Dbl.ofInt 0) a) then .ok (.num (Dbl.ofInt 0))
        else if (o = .add ∧ (isLit (Dbl.ofInt 0) a ∨ isLit (Dbl.ofInt 0) b)) ∨ (o = .sub ∧ isLit (Dbl.ofInt 0) b) ∨
            (o = .mul ∧ (isLit (Dbl.ofInt 1) a ∨ isLit (Dbl.ofInt 1) b)) ∨ (o = .div ∧ isLit (Dbl.ofInt 1) b) ∨
            (o = .pow ∧ isLit (Dbl.ofInt 1) b) then
          if isLit (Dbl.ofInt 1) a ∨ isLit (Dbl.ofInt 0) a then .ok b
          else if isLit (Dbl.ofInt 1) b ∨ isLit (Dbl.ofInt 0) b then .ok a
          else .ok (.bin o a b)
        else .ok (.bin o a b)) := by
      intro a b h
      cases a <;> cases b <;> first | rfl | exact absurd ⟨rfl, rfl⟩ h
    rw [Expr.rename, e1 _ _ (by rw [rename_isNum, rename_isNum]; exact h), e1 _ _ h]
    simp only [rename_isLit]
    split
    · rfl
    · split
      · split
        · rfl
        · split <;> rfl
      · rfl
  cases e with
  | num v => rfl
  | var x => rfl
  | un o e =>
    cases e with
    | num v => exact hn _
    | _ => rfl
  | bin o a b =>
    by_cases h : a.isNum = true ∧ b.isNum = true
    · cases a <;> cases b <;> simp [Expr.isNum] at h
      rename_i v w
      simp only [Expr.rename, simpTop]
      cases o.apply v w with
      | none => rfl
      | some z => exact hn _
    · exact hb o a b h

theorem simpE_rename (cfg : Config α) (f : Str → Str) (e : Expr α) :
    simpE cfg (e.rename f) = (simpE cfg e >>= fun e' => .ok (e'.rename f)) := by
  induction e with
  | num v => rfl
  | var x => rfl
  | un o e ih =>
    simp only [Expr.rename, simpE, ih]
    rcases simpE_cases cfg e with ⟨e', h⟩ | h | h
    · simp only [h, Res.bind_ok]; exact simpTop_rename cfg f (.un o e')
    · simp only [h]; rfl
    · simp only [h]; rfl
  | bin o a b iha ihb =>
    simp only [Expr.rename, simpE, iha, ihb]
    rcases simpE_cases cfg a with ⟨a', h⟩ | h | h
    · rcases simpE_cases cfg b with ⟨b', h'⟩ | h' | h'
      · simp only [h, h', Res.bind_ok]; exact simpTop_rename cfg f (.bin o a' b')
      · simp only [h, h', Res.bind_ok]; rfl
      · simp only [h, h', Res.bind_ok]; rfl
    · simp only [h]; rfl
    · simp only [h]; rfl

theorem dE_rename {f : Str → Str} (hf : Function.Injective f) (x : Str) (e : Expr α) :
    dE (f x) (e.rename f) = (dE x e).rename f := by
  induction e with
  | num v => rfl
  | var y => simp only [Expr.rename, dE, hf.eq_iff]
  | un o e ih =>
    cases o <;> simp only [Expr.rename, dE, rename_isNum, rename_isVar, ih] <;> split <;>
      first
      | rfl
      | (split <;> rfl)
      | skip
  | bin o a b iha ihb =>
    cases o with
    | pow => cases a <;> cases b <;> simp_all only [Expr.rename, dE]
    | mul => simp only [Expr.rename, dE, rename_isNum, iha, ihb]; split <;> [rfl; (split <;> rfl)]
    | div => simp only [Expr.rename, dE, rename_isNum, iha, ihb]; split <;> rfl
    | add => simp only [Expr.rename, dE, rename_isNum, iha, ihb]; split <;> rfl
    | sub => simp only [Expr.rename, dE, rename_isNum, iha, ihb]; split <;> rfl
    | and => rfl
    | or => rfl
    | mod => rfl

theorem subst_rename {f : Str → Str} {σ σ' : Str → Option (Expr α)} (h : ∀ x, σ' (f x) = (σ x).map (Expr.rename f)) (e : Expr α) :
    (e.rename f).subst σ' = (e.subst σ).rename f := by
  induction e with
  | num v => rfl
  | var x =>
    simp only [Expr.rename, Expr.subst, h]
    cases σ x <;> rfl
  | un o e ih => simp only [Expr.rename, Expr.subst, ih]
  | bin o a b iha ihb => simp only [Expr.rename, Expr.subst, iha, ihb]

theorem vars_rename (f : Str → Str) (e : Expr α) : (e.rename f).vars = e.vars.map f := by
  induction e with
  | num v => rfl
  | var x => rfl
  | un o e ih => simp only [Expr.rename, Expr.vars, ih]
  | bin o a b iha ihb => simp only [Expr.rename, Expr.vars, iha, ihb, List.map_append]

theorem iterate_dE_rename {f : Str → Str} (hf : Function.Injective f) (x : Str) (n : ℕ) (e : Expr α) :
    (dE (f x))^[n] (e.rename f) = ((dE x)^[n] e).rename f := by
  induction n generalizing e with
  | zero => rfl
  | succ n ih => rw [Function.iterate_succ_apply, Function.iterate_succ_apply, dE_rename hf, ih]

/-! ### tables -/

theorem mapFind_lookup {β : Type} (x : Str) (m : List (Str × β)) : m.lookup x = mapFind x m := by
  induction m with
  | nil => rfl
  | cons kv m ih =>
    obtain ⟨k, b⟩ := kv
    rw [List.lookup_cons, mapFind, ih]
    by_cases h : x = k
    · simp [h]
    · have : (x == k) = false := by simpa using h
      simp [h, this]

theorem mem_mapAssign {β : Type} (k : Str) (b : β) (m : List (Str × β)) (kv : Str × β) (h : kv ∈ mapAssign k b m) :
    kv.1 = k ∨ ∃ b', (kv.1, b') ∈ m := by
  induction m with
  | nil => simp [mapAssign] at h; exact .inl (by rw [h])
  | cons kv' m ih =>
    obtain ⟨k', b'⟩ := kv'
    simp only [mapAssign] at h
    split at h
    · rcases List.mem_cons.mp h with rfl | h
      · exact .inl rfl
      · exact .inr ⟨kv.2, h⟩
    · split at h
      · rcases List.mem_cons.mp h with rfl | h
        · exact .inr ⟨b', List.mem_cons_self⟩
        · rcases ih h with h | ⟨c, h⟩
          · exact .inl h
          · exact .inr ⟨c, List.mem_cons_of_mem _ h⟩
      · rcases List.mem_cons.mp h with rfl | h
        · exact .inr ⟨b', List.mem_cons_self⟩
        · exact .inr ⟨kv.2, List.mem_cons_of_mem _ h⟩

theorem mapAssign_sorted {β : Type} (k : Str) (b : β) (m : List (Str × β)) (h : SortedKeys m) : SortedKeys (mapAssign k b m) := by
  induction m with
  | nil => simp [mapAssign, SortedKeys]
  | cons kv m ih =>
    obtain ⟨k', b'⟩ := kv
    obtain ⟨h1, h2⟩ := List.pairwise_cons.mp h
    simp only at h1
    simp only [mapAssign]
    split
    · rename_i hlt
      refine List.pairwise_cons.mpr ⟨?_, h⟩
      intro kv hkv
      simp only [List.mem_cons] at hkv
      rcases hkv with rfl | hkv
      · exact hlt
      · exact strLt_trans hlt (h1 kv hkv)
    · split
      · rename_i hgt
        refine List.pairwise_cons.mpr ⟨?_, ih h2⟩
        intro kv hkv
        rcases mem_mapAssign k b m kv hkv with h | ⟨c, hc⟩
        · simp only [h]; exact hgt
        · exact h1 (kv.1, c) hc
      · exact List.pairwise_cons.mpr ⟨h1, h2⟩

theorem mapAssign_length {β : Type} (k : Str) (b : β) (m : List (Str × β)) (h : SortedKeys m) :
    (mapAssign k b m).length = if (mapFind k m).isSome then m.length else m.length + 1 := by
  induction m with
  | nil => rfl
  | cons kv m ih =>
    obtain ⟨k', b'⟩ := kv
    obtain ⟨h1, h2⟩ := List.pairwise_cons.mp h
    simp only at h1
    simp only [mapAssign, mapFind]
    by_cases h3 : strLt k k' = true
    · simp [if_pos h3, strLt_ne h3, mapFind_none_of_lt k m fun kv hkv => strLt_trans h3 (h1 kv hkv)]
    · rw [if_neg h3]
      by_cases h4 : strLt k' k = true
      · have h5 : k ≠ k' := fun e => strLt_ne h4 e.symm
        simp only [if_pos h4, h5, if_false, List.length_cons, ih h2]
        split <;> rfl
      · have : k = k' := strLt_total (by simpa using h3) (by simpa using h4)
        subst this
        simp [strLt_irrefl]

/-- two maps with the same entries up to renaming -/
structure MapRel (f : Str → Str) (m m' : List (Str × α)) : Prop where
  sorted : SortedKeys m
  sorted' : SortedKeys m'
  find : ∀ x, mapFind (f x) m' = mapFind x m
  length : m'.length = m.length

theorem MapRel.assign {f : Str → Str} (hf : Function.Injective f) {m m' : List (Str × α)} (h : MapRel f m m') (x : Str) (a : α) :
    MapRel f (mapAssign x a m) (mapAssign (f x) a m') where
  sorted := mapAssign_sorted _ _ _ h.sorted
  sorted' := mapAssign_sorted _ _ _ h.sorted'
  find y := by
    rw [mapFind_mapAssign _ _ _ _ h.sorted, mapFind_mapAssign _ _ _ _ h.sorted', h.find]
    simp only [hf.eq_iff]
  length := by rw [mapAssign_length _ _ _ h.sorted, mapAssign_length _ _ _ h.sorted', h.find, h.length]

/-- tables with the same content up to renaming -/
structure TableRel (f : Str → Str) (t t' : VarsTable α) : Prop where
  vars : t'.vars = t.vars.map f
  values : t'.values = t.values
  map : MapRel f t.table t'.table

theorem readAt_map {β γ : Type} (g : β → γ) (l : List β) (i : ℕ) : SameEnd (fun b c => c = g b) (readAt l i) (readAt (l.map g) i) := by
  rw [agree_map]
  unfold readAt
  rw [List.getElem?_map]
  cases l[i]? <;> rfl

theorem forRes_agree {σ τ ι : Type} {R : σ → τ → Prop} {F : σ → ι → Res σ} {G : τ → ι → Res τ}
    (h : ∀ s t i, R s t → SameEnd R (F s i) (G t i)) (is : List ι) {s : σ} {t : τ} (hst : R s t) : SameEnd R (forRes F is s) (forRes G is t) := by
  induction is generalizing s t with
  | nil => exact .ok hst
  | cons i is ih => exact (h s t i hst).bind fun _ _ h => ih h

theorem setValues_rel {f : Str → Str} (hf : Function.Injective f) {t t' : VarsTable α} (h : TableRel f t t') (v : Mat α) :
    SameEnd (TableRel f) (t.setValues v) (t'.setValues v) := by
  unfold VarsTable.setValues
  rw [h.values]
  split
  · refine SameEnd.bind (R := MapRel f) (forRes_agree (fun m m' i hm => ?_) _ h.map) fun m m' hm => .ok ⟨h.vars, rfl, hm⟩
    rw [h.vars]
    refine (readAt_map f t.vars i).bind fun x x' hx => ?_
    refine (SameEnd.eq rfl).bind fun a a' ha => ?_
    subst hx; subst ha
    exact .ok (hm.assign hf x a)
  · exact .assertFail

theorem envOf_rel {f : Str → Str} {m m' : List (Str × α)} (h : MapRel f m m') (x : Str) : envOf m' (f x) = envOf m x := by
  unfold envOf
  rw [mapFind_lookup, mapFind_lookup, h.find]

/-! ### systems -/

theorem evalAll_rename (strict : Bool) {f : Str → Str} {env env' : Str → Res α} (h : ∀ x, env' (f x) = env x) (es : List (Expr α)) :
    evalAll strict env' (es.map (Expr.rename f)) = evalAll strict env es := by
  induction es with
  | nil => rfl
  | cons e es ih => simp only [List.map_cons, evalAll, eval_rename strict f h, ih]

theorem symOf_rename {r c : ℕ} (f : Str → Str) (E : Matrix (Fin r) (Fin c) (Expr α)) :
    symOf (renameMat f E) = ⟨r, c, ((entries E).map (Expr.rename f)).map embed⟩ := by
  have h : entries (renameMat f E) = (entries E).map (Expr.rename f) := by rw [entries_map]; rfl
  unfold symOf
  rw [h]

theorem evalMat_rename {r c : ℕ} (hr : 0 < r) (hc : 0 < c) (cfg : Config α) {f : Str → Str} (E : Matrix (Fin r) (Fin c) (Expr α))
    {t t' : VarsTable α} (h : TableRel f t t') : evalMat cfg (symOf (renameMat f E)) t' = evalMat cfg (symOf E) t := by
  rw [symOf_rename, evalMat_list cfg r c hr hc, evalAll_rename _ (envOf_rel h.map)]
  unfold symOf
  rw [evalMat_list cfg r c hr hc]

theorem evalVec_rename {r : ℕ} (hr : 0 < r) (cfg : Config α) {f : Str → Str} (E : Matrix (Fin r) (Fin 1) (Expr α))
    {t t' : VarsTable α} (h : TableRel f t t') : evalVec cfg (symOf (renameMat f E)) t' = evalVec cfg (symOf E) t := by
  unfold evalVec
  rw [evalMat_rename hr Nat.one_pos cfg E h]

theorem diff_rename (cfg : Config α) {f : Str → Str} (hf : Function.Injective f) (x : Str) (i : Int) (hi : 0 < i) (e : Expr α) :
    SameEnd (fun d d' => ∃ g : Expr α, d = embed g ∧ d' = embed (g.rename f)) (diff cfg (embed e) x i) (diff cfg (embed (e.rename f)) (f x) i) := by
  cases h : e.hasIntOp with
  | true =>
    rw [diff_throw cfg x i hi e h, diff_throw cfg (f x) i hi _ (by rw [rename_hasIntOp, h])]
    exact .throw _
  | false =>
    rw [diff_ok cfg x i hi e h, diff_ok cfg (f x) i hi _ (by rw [rename_hasIntOp, h])]
    rw [iterate_dE_rename hf, simplify_embed, simplify_embed, simpE_rename]
    rcases simpE_cases cfg ((dE x)^[i.toNat] e) with ⟨g, h⟩ | h | h
    · rw [h]; exact .ok ⟨g, rfl, rfl⟩
    · rw [h]; first | exact .ub | exact .terminate
    · rw [h]; first | exact .ub | exact .terminate

/-- lists of expressions -/
def ListRel (f : Str → Str) (l l' : List (Raw α)) : Prop := ∃ gs : List (Expr α), l = gs.map embed ∧ l' = (gs.map (Expr.rename f)).map embed

theorem jacLoop_rename (cfg : Config α) {f : Str → Str} (hf : Function.Injective f) (es : List (Expr α)) (vars : List Str) (n iter i : ℕ) :
    SameEnd (fun l l' => ∃ gs : List (Expr α), gs.length = n ∧ l = gs.map embed ∧ l' = (gs.map (Expr.rename f)).map embed)
      (SymMat.jacLoop cfg (es.map embed) vars n iter i)
      (SymMat.jacLoop cfg ((es.map (Expr.rename f)).map embed) (vars.map f) n iter i) := by
  induction n generalizing iter i with
  | zero => exact .ok ⟨[], rfl, rfl, rfl⟩
  | succ n ih =>
    simp only [SymMat.jacLoop, List.length_map]
    have he : SameEnd (fun e e' => ∃ g : Expr α, e = embed g ∧ e' = embed (g.rename f))
        (readAt (es.map embed) (if i = vars.length then iter + 1 else iter))
        (readAt ((es.map (Expr.rename f)).map embed) (if i = vars.length then iter + 1 else iter)) := by
      unfold readAt
      simp only [List.getElem?_map]
      cases es[if i = vars.length then iter + 1 else iter]? with
      | none => exact .ub
      | some g => exact .ok ⟨g, rfl, rfl⟩
    refine he.bind ?_
    rintro _ _ ⟨g, rfl, rfl⟩
    refine (readAt_map f vars _).bind fun x x' hx => ?_
    subst hx
    have hd : ∀ (e : Expr α) (x : Str), diffConst cfg (embed e) x 1 = diff cfg (embed e) x 1 := by
      intro e x; unfold diffConst; rw [clone_eq _ (embed_isSome e), Res.bind_ok]
    rw [hd, hd]
    refine (diff_rename cfg hf x 1 (by decide) g).bind ?_
    rintro _ _ ⟨d, rfl, rfl⟩
    refine (ih _ _).bind ?_
    rintro _ _ ⟨gs, h1, rfl, rfl⟩
    exact .ok ⟨d :: gs, by simp [h1], rfl, rfl⟩

theorem jacobian_rename {r : ℕ} (cfg : Config α) {f : Str → Str} (hf : Function.Injective f) (E : Matrix (Fin r) (Fin 1) (Expr α))
    (vars : List Str) :
    SameEnd (fun J J' => 0 < r ∧ 0 < vars.length ∧ ∃ D : Matrix (Fin r) (Fin vars.length) (Expr α), J = symOf D ∧ J' = symOf (renameMat f D))
      ((symOf E).jacobian cfg vars) ((symOf (renameMat f E)).jacobian cfg (vars.map f)) := by
  rw [symOf_rename]
  unfold SymMat.jacobian symOf
  refine SameEnd.noexcept ?_
  simp only [List.length_map]
  split
  · rename_i h
    refine (jacLoop_rename cfg hf (entries E) vars _ _ _).bind ?_
    rintro _ _ ⟨gs, h1, rfl, rfl⟩
    obtain ⟨D, rfl⟩ := exists_entries r vars.length gs h1
    refine .ok ⟨h.1, h.2, D, rfl, ?_⟩
    have := symOf_rename f D
    unfold symOf at this
    exact this.symm
  · exact .assertFail

end Tom
