import Verif.Spec.Platform
import Verif.Lemmas.Blame
/-
C132: results on two machines.
-/
namespace Tom
variable {α : Type}

/-- two sets of operations on the same numbers that differ at most in functions outside `S` -/
structure Alike (d d' : Dbl α) (S : UnOp → Prop) (P : Prop) : Prop where
  arith : d.toArith = d'.toArith
  ofInt : d.ofInt = d'.ofInt
  toInt32 : d.toInt32 = d'.toInt32
  isInvalid : d.isInvalid = d'.isInvalid
  ofDec : d.ofDec = d'.ofDec
  nan : d.nan = d'.nan
  un : ∀ o, S o → ∀ x, @UnOp.apply α d o x = @UnOp.apply α d' o x
  pow : P → d.pow = d'.pow

section
variable {d d' : Dbl α} {S : UnOp → Prop} {P : Prop} (h : Alike d d' S P)
include h

theorem Alike.add : @Arith.add α d.toArith = @Arith.add α d'.toArith := by rw [h.arith]
theorem Alike.sub : @Arith.sub α d.toArith = @Arith.sub α d'.toArith := by rw [h.arith]
theorem Alike.mul : @Arith.mul α d.toArith = @Arith.mul α d'.toArith := by rw [h.arith]
theorem Alike.div : @Arith.div α d.toArith = @Arith.div α d'.toArith := by rw [h.arith]
theorem Alike.neg : @Arith.neg α d.toArith = @Arith.neg α d'.toArith := by rw [h.arith]
theorem Alike.eq : @Arith.eq α d.toArith = @Arith.eq α d'.toArith := by rw [h.arith]

theorem embed_alike (e : Expr α) : @embed α d e = @embed α d' e := by
  induction e with
  | num v => rfl
  | var x => simp only [embed, h.ofInt]
  | un o e ih => simp only [embed, h.ofInt, ih]
  | bin o a b iha ihb => simp only [embed, h.ofInt, iha, ihb]

theorem checked_alike (s : Bool) (v : α) : @checked α d s v = @checked α d' s v := by simp only [checked, h.isInvalid]

theorem un_alike {o : UnOp} (ho : o = .pos ∨ o = .neg ∨ S o) (x : α) : @UnOp.apply α d o x = @UnOp.apply α d' o x := by
  rcases ho with rfl | rfl | ho
  · rfl
  · simp only [UnOp.apply, h.neg]
  · exact h.un o ho x

theorem bin_alike {o : BinOp} (ho : o = .pow → P) (x y : α) : @BinOp.apply α d o x y = @BinOp.apply α d' o x y := by
  cases o <;> simp only [BinOp.apply, h.add, h.sub, h.mul, h.div, h.toInt32, h.ofInt]
  rw [h.pow (ho rfl)]

theorem eval_alike (s : Bool) (env : Str → Res α) (e : Expr α) (he : e.OnlyUses S P) :
    @Expr.eval α d s env e = @Expr.eval α d' s env e := by
  induction e with
  | num v => rfl
  | var x => rfl
  | un o e ih => simp only [Expr.eval, ih he.2, checked_alike h, un_alike h he.1]
  | bin o a b iha ihb => simp only [Expr.eval, iha he.2.1, ihb he.2.2, checked_alike h, bin_alike h he.1]

theorem evalAll_alike (s : Bool) (env : Str → Res α) (es : List (Expr α)) (he : ∀ e ∈ es, e.OnlyUses S P) :
    @evalAll α d s env es = @evalAll α d' s env es := by
  induction es with
  | nil => rfl
  | cons e es ih =>
    simp only [evalAll, eval_alike h s env e (he e (by simp)), ih fun e' h' => he e' (by simp [h'])]

theorem simpTop_alike (cfg : Config α) (e : Expr α) (he : e.OnlyUses S P) : @simpTop α d cfg e = @simpTop α d' cfg e := by
  cases e with
  | num v => rfl
  | var x => rfl
  | un o e =>
    cases e <;> simp only [simpTop, checked_alike h, un_alike h he.1]
  | bin o a b =>
    cases a <;> cases b <;> simp only [simpTop, isLit, checked_alike h, bin_alike h he.1, h.ofInt, h.eq] <;> congr!

omit h in
theorem simpTop_uses [Dbl α] (cfg : Config α) (S : UnOp → Prop) (P : Prop) (e e' : Expr α) (he : e.OnlyUses S P) (hs : simpTop cfg e = .ok e') :
    e'.OnlyUses S P := by
  have hb : ∀ (o : BinOp) (a b : Expr α), (Expr.bin o a b).OnlyUses S P → (∀ v w, a = .num v → b = .num w → False) →
      simpTop cfg (.bin o a b) = .ok e' → e'.OnlyUses S P := by
    intro o a b he hn hs
    have key : (if (o = .mul ∧ (isLit (Dbl.ofInt 0) a ∨ isLit (Dbl.ofInt 0) b)) ∨ (o = .div ∧ isLit (Dbl.ofInt 0) a) ∨ (o = .pow ∧ isLit (Dbl.ofInt 0) a) then
        (.ok (.num (Dbl.ofInt 0)) : Res (Expr α))
      else if (o = .add ∧ (isLit (Dbl.ofInt 0) a ∨ isLit (Dbl.ofInt 0) b)) ∨ (o = .sub ∧ isLit (Dbl.ofInt 0) b) ∨
          (o = .mul ∧ (isLit (Dbl.ofInt 1) a ∨ isLit (Dbl.ofInt 1) b)) ∨ (o = .div ∧ isLit (Dbl.ofInt 1) b) ∨ (o = .pow ∧ isLit (Dbl.ofInt 1) b) then
        if isLit (Dbl.ofInt 1) a ∨ isLit (Dbl.ofInt 0) a then .ok b
        else if isLit (Dbl.ofInt 1) b ∨ isLit (Dbl.ofInt 0) b then .ok a
        else .ok (.bin o a b)
      else .ok (.bin o a b)) = .ok e' := by
      rw [← hs]
      cases a with
      | num v => cases b with
        | num w => exact (hn v w rfl rfl).elim
        | _ => rfl
      | _ => rfl
    split at key
    · cases key; trivial
    · split at key
      · split at key
        · cases key; exact he.2.2
        · split at key
          · cases key; exact he.2.1
          · cases key; exact he
      · cases key; exact he
  cases e with
  | num v => cases hs; trivial
  | var x => cases hs; trivial
  | un o e =>
    cases e with
    | num v =>
      simp only [simpTop] at hs
      obtain ⟨w, -, hw⟩ := Res.bind_eq_ok.mp hs
      cases hw; trivial
    | _ => cases hs; exact he
  | bin o a b =>
    by_cases hn : ∀ v w, a = .num v → b = .num w → False
    · exact hb o a b he hn hs
    · push Not at hn
      obtain ⟨v, w, rfl, rfl, -⟩ := hn
      simp only [simpTop] at hs
      split at hs
      · cases hs
      · obtain ⟨w, -, hw⟩ := Res.bind_eq_ok.mp hs
        cases hw; trivial

omit h in
theorem simpE_uses [Dbl α] (cfg : Config α) (S : UnOp → Prop) (P : Prop) (e e' : Expr α) (he : e.OnlyUses S P) (hs : simpE cfg e = .ok e') :
    e'.OnlyUses S P := by
  induction e generalizing e' with
  | num v => cases hs; trivial
  | var x => cases hs; trivial
  | un o e ih =>
    simp only [simpE] at hs
    obtain ⟨w, h1, h2⟩ := Res.bind_eq_ok.mp hs
    exact simpTop_uses cfg S P (.un o w) _ ⟨he.1, ih _ he.2 h1⟩ h2
  | bin o a b iha ihb =>
    simp only [simpE] at hs
    obtain ⟨w, h1, h2⟩ := Res.bind_eq_ok.mp hs
    obtain ⟨w', h3, h4⟩ := Res.bind_eq_ok.mp h2
    exact simpTop_uses cfg S P (.bin o w w') _ ⟨he.1, iha _ he.2.1 h1, ihb _ he.2.2 h3⟩ h4

omit h in
theorem bind_alike {β γ : Type} {r : Res β} {f g : β → Res γ} (hfg : ∀ b, r = .ok b → f b = g b) : (r >>= f) = (r >>= g) := by
  cases r with
  | ok b => exact hfg b rfl
  | _ => rfl

theorem simpE_alike (cfg : Config α) (e : Expr α) (he : e.OnlyUses S P) : @simpE α d cfg e = @simpE α d' cfg e := by
  induction e with
  | num v => rfl
  | var x => rfl
  | un o e ih =>
    simp only [simpE, ih he.2]
    refine bind_alike fun b hb => simpTop_alike h cfg _ ⟨he.1, @simpE_uses α d' cfg S P _ _ he.2 hb⟩
  | bin o a b iha ihb =>
    simp only [simpE, iha he.2.1, ihb he.2.2]
    refine bind_alike fun a' ha => bind_alike fun b' hb => simpTop_alike h cfg _
      ⟨he.1, @simpE_uses α d' cfg S P _ _ he.2.1 ha, @simpE_uses α d' cfg S P _ _ he.2.2 hb⟩

theorem simplify_alike (cfg : Config α) (e : Expr α) (he : e.OnlyUses S P) :
    @simplify α d cfg (@embed α d e) = @simplify α d' cfg (@embed α d' e) := by
  rw [@simplify_embed α d, @simplify_embed α d', simpE_alike h cfg e he]
  exact bind_alike fun b _ => by rw [embed_alike h]

omit h in
theorem uses_of_deriv (S : UnOp → Prop) (P : Prop) (e : Expr α) (he : e.WithDerivOnlyUses S P) : e.OnlyUses S P := by
  induction e with
  | num v => trivial
  | var x => trivial
  | un o e ih => exact ⟨he.1, ih he.2.2.2⟩
  | bin o a b iha ihb => exact ⟨fun ho => (he.1 ho).1, iha he.2.2.1, ihb he.2.2.2⟩

theorem dE_alike (x : Str) (e : Expr α) (he : e.WithDerivOnlyUses S P) : @dE α d x e = @dE α d' x e := by
  have hlog : S .log → @Dbl.log α d = @Dbl.log α d' := fun hl => funext fun y => h.un .log hl y
  induction e with
  | num v => simp only [dE, h.ofInt]
  | var y => simp only [dE, h.ofInt]
  | un o e ih =>
    have ih := ih he.2.2.2
    have hr := he.2.1
    cases o <;> simp only [dE, h.ofInt, ih]
    · rw [hlog (hr _ (by simp [UnOp.rule]))]
    · rw [hlog (hr _ (by simp [UnOp.rule]))]
  | bin o a b iha ihb =>
    have iha := iha he.2.2.1
    have ihb := ihb he.2.2.2
    cases o with
    | pow => cases a <;> cases b <;> simp only [dE, h.ofInt, h.sub] at iha ihb ⊢ <;> simp only [iha, ihb]
    | _ => simp only [dE, h.ofInt, iha, ihb]

omit h in
theorem dE_uses [Dbl α] (S : UnOp → Prop) (P : Prop) (x : Str) (e : Expr α) (he : e.WithDerivOnlyUses S P) : (dE x e).OnlyUses S P := by
  induction e with
  | num v => trivial
  | var y => trivial
  | un o e ih =>
    have ih := ih he.2.2.2
    have he' := uses_of_deriv S P e he.2.2.2
    obtain ⟨h1, h2, h3, -⟩ := he
    cases o <;> simp only [dE] <;> (repeat' split) <;>
      simp_all [Expr.OnlyUses, UnOp.rule, UnOp.ruleHasSquare]
  | bin o a b iha ihb =>
    have iha := iha he.2.2.1
    have ihb := ihb he.2.2.2
    have ha' := uses_of_deriv S P a he.2.2.1
    have hb' := uses_of_deriv S P b he.2.2.2
    obtain ⟨h1, h2, -⟩ := he
    cases o with
    | pow =>
      have h1 := h1 rfl
      cases a <;> cases b <;> simp only [dE] <;> simp_all [Expr.OnlyUses, Expr.isNum]
    | _ =>
      simp only [dE] <;> (repeat' split) <;> simp_all [Expr.OnlyUses]

theorem diff_alike (cfg : Config α) (x : Str) (e : Expr α) (he : e.WithDerivOnlyUses S P) :
    @diffConst α d cfg (@embed α d e) x 1 = @diffConst α d' cfg (@embed α d' e) x 1 := by
  unfold diffConst
  rw [clone_eq _ (@embed_isSome α d e), clone_eq _ (@embed_isSome α d' e)]
  simp only [Res.bind_ok]
  cases hi : e.hasIntOp with
  | true => rw [@diff_throw α d cfg x 1 (by omega) e hi, @diff_throw α d' cfg x 1 (by omega) e hi]
  | false =>
    rw [@diff_ok α d cfg x 1 (by omega) e hi, @diff_ok α d' cfg x 1 (by omega) e hi]
    simp only [show (1 : Int).toNat = 1 from rfl, Function.iterate_one]
    rw [← dE_alike h x e he]
    exact simplify_alike h cfg _ (@dE_uses α d S P x e he)


/-! ### the Jacobian -/

theorem jacLoop_alike (cfg : Config α) (es : List (Expr α)) (hes : ∀ e ∈ es, e.WithDerivOnlyUses S P) (vars : List Str) (n iter i : ℕ) :
    @SymMat.jacLoop α d cfg (es.map (@embed α d)) vars n iter i = @SymMat.jacLoop α d' cfg (es.map (@embed α d')) vars n iter i := by
  have he : es.map (@embed α d') = es.map (@embed α d) := by simp only [funext (embed_alike h)]
  rw [he]
  induction n generalizing iter i with
  | zero => rfl
  | succ n ih =>
    simp only [SymMat.jacLoop]
    refine bind_alike fun e hr => bind_alike fun x _ => ?_
    have hm : e ∈ es.map (@embed α d) := by
      unfold readAt at hr
      split at hr
      · cases hr
        exact List.mem_of_getElem? (by assumption)
      · cases hr
    obtain ⟨e0, h0, rfl⟩ := List.mem_map.mp hm
    have := diff_alike h cfg x e0 (hes e0 h0)
    rw [← embed_alike h] at this
    rw [this]
    exact bind_alike fun _ _ => by rw [ih]

theorem jacobian_alike (cfg : Config α) {r : ℕ} (f : Matrix (Fin r) (Fin 1) (Expr α)) (hf : ∀ i, (f i 0).WithDerivOnlyUses S P) (vars : List Str) :
    @SymMat.jacobian α d cfg (@symOf α d _ _ f) vars = @SymMat.jacobian α d' cfg (@symOf α d' _ _ f) vars := by
  have : ∀ e ∈ entries f, e.WithDerivOnlyUses S P := by
    intro e he
    obtain ⟨k, rfl⟩ := List.mem_ofFn.mp he
    rw [Subsingleton.elim (Fin.modNat k) 0]
    exact hf _
  unfold SymMat.jacobian symOf
  simp only []
  rw [jacLoop_alike h cfg (entries f) this]

theorem symOf_alike {r c : ℕ} (E : Matrix (Fin r) (Fin c) (Expr α)) : @symOf α d _ _ E = @symOf α d' _ _ E := by
  simp only [symOf, funext (embed_alike h)]

omit h in
/-- the entries of a Jacobian -/
theorem jacobian_entries {r : ℕ} (hr : 0 < r) (cfg : Config α) (f : Matrix (Fin r) (Fin 1) (Expr α)) (hf : ∀ i, (f i 0).WithDerivOnlyUses S P)
    (vars : List Str) (hn : 0 < vars.length) (J : SymMat α) (hJ : @SymMat.jacobian α d cfg (@symOf α d _ _ f) vars = .ok J) :
    ∃ D : Matrix (Fin r) (Fin vars.length) (Expr α), J = @symOf α d _ _ D ∧ ∀ i j, (D i j).OnlyUses S P := by
  let _ := d
  obtain ⟨D, rfl⟩ := jacobian_symOf hr cfg f vars hn J hJ
  refine ⟨D, rfl, fun i j => ?_⟩
  obtain ⟨_, _, _, h⟩ := C32 hr cfg f vars hn _ hJ
  obtain ⟨d', h1, h2⟩ := h i j
  rw [C50_value, Res.ok.injEq] at h1
  unfold diffConst at h2
  rw [clone_eq _ (embed_isSome _), Res.bind_ok] at h2
  cases hi : (f i 0).hasIntOp with
  | true => rw [diff_throw cfg _ 1 (by omega) _ hi] at h2; cases h2
  | false =>
    rw [diff_ok cfg _ 1 (by omega) _ hi, simplify_ok_iff] at h2
    obtain ⟨e', h3, h4⟩ := h2
    rw [embed_injective (h1.trans h4)]
    exact simpE_uses cfg S P _ _ (dE_uses S P _ _ (hf i)) h3

theorem evalMat_alike (cfg : Config α) {r c : ℕ} (hr : 0 < r) (hc : 0 < c) (E : Matrix (Fin r) (Fin c) (Expr α))
    (hE : ∀ i j, (E i j).OnlyUses S P) (t : VarsTable α) :
    @evalMat α d cfg (@symOf α d _ _ E) t = @evalMat α d' cfg (@symOf α d' _ _ E) t := by
  unfold symOf
  rw [@evalMat_list α d cfg r c hr hc, @evalMat_list α d' cfg r c hr hc, evalAll_alike h]
  intro e he
  obtain ⟨k, rfl⟩ := List.mem_ofFn.mp he
  exact hE _ _

theorem evalVec_alike (cfg : Config α) {r : ℕ} (hr : 0 < r) (E : Matrix (Fin r) (Fin 1) (Expr α))
    (hE : ∀ i, (E i 0).OnlyUses S P) (t : VarsTable α) :
    @evalVec α d cfg (@symOf α d _ _ E) t = @evalVec α d' cfg (@symOf α d' _ _ E) t := by
  unfold evalVec
  rw [evalMat_alike h cfg hr Nat.one_pos E (fun i j => by rw [Subsingleton.elim j 0]; exact hE i) t]

/-! ### the solvers -/

theorem newtonLoop_alike (cfg : Config α) (eqs ja : SymMat α) (hv : ∀ t, @evalVec α d cfg eqs t = @evalVec α d' cfg eqs t)
    (hm : ∀ t, @evalMat α d cfg ja t = @evalMat α d' cfg ja t) (fuel it : ℕ) (t : VarsTable α) (q : Mat α) :
    @newtonLoop α d cfg eqs ja fuel it t q = @newtonLoop α d' cfg eqs ja fuel it t q := by
  induction fuel generalizing it t q with
  | zero => rfl
  | succ fuel ih =>
    simp only [newtonLoop, hv, hm, h.ofInt, ih]
    rw [h.arith]

theorem lit_alike (m : ℕ) (e : ℤ) : @lit α d m e = @lit α d' m e := by simp only [lit, h.ofDec, h.nan]

theorem armijoLoop_alike (f df : Mat α → Res (Mat α)) (x D : Mat α) (fuel : ℕ) (a : α) :
    @armijoLoop α d f df x D fuel a = @armijoLoop α d' f df x D fuel a := by
  induction fuel generalizing a with
  | zero => rfl
  | succ fuel ih =>
    simp only [armijoLoop, lit_alike h, ih]
    rw [h.arith]

theorem lmInner_alike (cfg : Config α) (ls : ℕ) (eqs ja : SymMat α) (hv : ∀ t, @evalVec α d cfg eqs t = @evalVec α d' cfg eqs t)
    (hm : ∀ t, @evalMat α d cfg ja t = @evalMat α d' cfg ja t) (q F : Mat α) (fuel : ℕ) (t : VarsTable α) (mu : α) (it : ℕ) :
    @lmInner α d cfg ls eqs ja q F fuel t mu it = @lmInner α d' cfg ls eqs ja q F fuel t mu it := by
  induction fuel generalizing it t mu with
  | zero => rfl
  | succ fuel ih =>
    simp only [lmInner, armijo, armijoLoop_alike h, hv, hm, h.ofInt, ih]
    rw [h.arith]

theorem lmOuter_alike (cfg : Config α) (ls inner : ℕ) (eqs ja : SymMat α) (hv : ∀ t, @evalVec α d cfg eqs t = @evalVec α d' cfg eqs t)
    (hm : ∀ t, @evalMat α d cfg ja t = @evalMat α d' cfg ja t) (fuel : ℕ) (t : VarsTable α) (q : Mat α) (it : ℕ) :
    @lmOuter α d cfg ls inner eqs ja fuel t q it = @lmOuter α d' cfg ls inner eqs ja fuel t q it := by
  induction fuel generalizing it t q with
  | zero => rfl
  | succ fuel ih =>
    simp only [lmOuter, hv, lmInner_alike h cfg ls eqs ja hv hm, lit_alike h, h.ofInt, ih]
    rw [h.arith]

theorem solve_alike (cfg : Config α) (ls fuel : ℕ) {r : ℕ} (hr : 0 < r) (f : Matrix (Fin r) (Fin 1) (Expr α))
    (hf : ∀ i, (f i 0).WithDerivOnlyUses S P) (t : VarsTable α) :
    @solve α d cfg ls fuel (@symOf α d _ _ f) t = @solve α d' cfg ls fuel (@symOf α d' _ _ f) t := by
  have hv : ∀ t, @evalVec α d cfg (@symOf α d _ _ f) t = @evalVec α d' cfg (@symOf α d _ _ f) t := fun t => by
    rw [evalVec_alike h cfg hr f (fun i => uses_of_deriv S P _ (hf i)), symOf_alike h]
  have hj := jacobian_alike h cfg f hf t.vars
  rw [← symOf_alike h] at hj ⊢
  have hm : ∀ J, @SymMat.jacobian α d' cfg (@symOf α d _ _ f) t.vars = .ok J → ∀ t, @evalMat α d cfg J t = @evalMat α d' cfg J t := by
    intro J hJ s
    rw [← hj] at hJ
    by_cases hn : 0 < t.vars.length
    · obtain ⟨D, rfl, hD⟩ := jacobian_entries hr cfg f hf t.vars hn J hJ
      rw [evalMat_alike h cfg hr hn D hD, symOf_alike h]
    · simp only [SymMat.jacobian, if_neg (fun k : 0 < (@symOf α d _ _ f).rows ∧ 0 < t.vars.length => hn k.2)] at hJ
      cases hJ
  unfold solve
  split
  · unfold solveByNewtonRaphson
    rw [hj, h.arith]
    exact bind_alike fun _ _ => bind_alike fun J hJ => newtonLoop_alike h cfg _ J hv (hm J hJ) _ _ _ _
  · unfold solveByLM
    rw [hj, h.arith]
    exact bind_alike fun _ _ => bind_alike fun J hJ => lmOuter_alike h cfg ls fuel _ J hv (hm J hJ) _ _ _ _
  · rfl

theorem solveAuto_alike (cfg : Config α) (ls fuel : ℕ) {r : ℕ} (hr : 0 < r) (f : Matrix (Fin r) (Fin 1) (Expr α))
    (hf : ∀ i, (f i 0).WithDerivOnlyUses S P) :
    @solveAuto α d cfg ls fuel (@symOf α d _ _ f) = @solveAuto α d' cfg ls fuel (@symOf α d' _ _ f) := by
  unfold solveAuto
  rw [symOf_alike h]
  refine bind_alike fun _ _ => bind_alike fun t _ => ?_
  have := solve_alike h cfg ls fuel hr f hf t
  rwa [symOf_alike h] at this

end

/-! ### reading and printing -/

/-- two sets of operations with the same constants, the same comparison and the same text of a number -/
structure ReadsAlike (d d' : Dbl α) : Prop where
  ofInt : d.ofInt = d'.ofInt
  ofDec : d.ofDec = d'.ofDec
  ofHex : d.ofHex = d'.ofHex
  inf : d.inf = d'.inf
  nan : d.nan = d'.nan
  toStr : d.toStr = d'.toStr
  lt : @Arith.lt α d.toArith = @Arith.lt α d'.toArith

section
variable {d d' : Dbl α} (h : ReadsAlike d d')
include h

theorem stodFull_alike (w : Str) : @stodFull α d w = @stodFull α d' w := by
  simp only [stodFull, stodDec, stodHex, h.ofDec, h.ofHex, h.inf, h.nan]

theorem mkOp_alike (o : MathOp) : @mkOp α d o = @mkOp α d' o := by simp only [mkOp, h.ofInt]

theorem mkVar_alike (x : Str) : @mkVar α d x = @mkVar α d' x := by simp only [mkVar, varNode, h.ofInt]

theorem tryConfirmToken_alike (w : Str) (k : ℕ) (ret : List (Token α)) : @tryConfirmToken α d w k ret = @tryConfirmToken α d' w k ret := by
  simp only [tryConfirmToken, stodFull_alike h, mkOp_alike h, mkVar_alike h]

theorem lexLoop_alike (cs : Str) (pos : ℕ) (w : Str) (k : ℕ) (ret : List (Token α)) :
    @lexLoop α d cs pos w k ret = @lexLoop α d' cs pos w k ret := by
  induction cs generalizing pos w k ret with
  | nil => exact tryConfirmToken_alike h _ _ _
  | cons c cs ih => simp only [lexLoop, tryConfirmToken_alike h, mkOp_alike h, ih]

theorem parse_alike (s : Str) : @parse α d s = @parse α d' s := by
  simp only [parse, parseToTokens, lexLoop_alike h]

theorem printNode_alike (t : Raw α) (c : Ctx) : @printNode α d t c = @printNode α d' t c := by
  have hn : ∀ t, @nodeToStr α d t = @nodeToStr α d' t := fun t => by
    cases t with
    | nil => rfl
    | mk ty => cases ty <;> simp only [nodeToStr, h.toStr]
  cases t with
  | nil => rfl
  | mk ty => cases ty <;> simp only [printNode, hn, h.lt, h.ofInt]

theorem toStringLoop_alike (fuel : ℕ) (stk : List (PItem α)) (out : Str) : @toStringLoop α d fuel stk out = @toStringLoop α d' fuel stk out := by
  induction fuel generalizing stk out with
  | zero => cases stk <;> rfl
  | succ fuel ih =>
    cases stk with
    | nil => rfl
    | cons a stk => cases a <;> simp only [toStringLoop, printNode_alike h, ih]

theorem toString_alike (t : Raw α) : @toStringNode α d t = @toStringNode α d' t := by
  simp only [toStringNode, toStringLoop_alike h]

end

/-! ### two machines -/

/-- the operations on `double` of a machine -/
@[reducible] def Libm.ops (L : Libm) : Dbl B64 := inferInstanceAs (Dbl (Double L))

theorem alike_ops {L L' : Libm} {S : UnOp → Prop} {P : Prop} (h : L.Agree L' S P) : Alike L.ops L'.ops S P where
  arith := by
    obtain ⟨h1, h2, h3⟩ := h
    have : L.ops.toArith = { (L'.ops.toArith) with sumOrder := L.sumOrder } := rfl
    rw [this, h3]
    rfl
  ofInt := rfl
  toInt32 := rfl
  isInvalid := rfl
  ofDec := rfl
  nan := rfl
  un o ho x := h.un o ho x
  pow := h.pow

variable {L L' : Libm} {S : UnOp → Prop} {P : Prop}

/-- C132: an expression that uses only functions on which two machines agree has the same value on both, bit for bit, at every point;
and if there is none, the same exception. -/
theorem C132_value (hA : L.Agree L' S P) (cfg : Config B64) (e : Expr B64) (he : e.OnlyUses S P) (values : List (Str × B64)) :
    (subsValues (embed (α := Double L) e) values >>= fun t => vpa (α := Double L) cfg t : Res B64) =
      (subsValues (embed (α := Double L') e) values >>= fun t => vpa (α := Double L') cfg t) := by
  have h1 := @C17_subsValues_vpa B64 L.ops cfg e values
  have h2 := @C17_subsValues_vpa B64 L'.ops cfg e values
  rw [eval_alike (alike_ops hA) _ _ e he] at h1
  exact h1.trans h2.symm

/-- C132: ... and is simplified to the same expression. -/
theorem C132_simplify (hA : L.Agree L' S P) (cfg : Config B64) (e : Expr B64) (he : e.OnlyUses S P) :
    (simplify (α := Double L) cfg (embed (α := Double L) e) : Res (Raw B64)) = simplify (α := Double L') cfg (embed (α := Double L') e) :=
  simplify_alike (alike_ops hA) cfg e he

/-- C132: if the derivatives too use only such functions, `Diff` gives the same. -/
theorem C132_diff (hA : L.Agree L' S P) (cfg : Config B64) (e : Expr B64) (he : e.WithDerivOnlyUses S P) (x : Str) :
    (diffConst (α := Double L) cfg (embed (α := Double L) e) x 1 : Res (Raw B64)) = diffConst (α := Double L') cfg (embed (α := Double L') e) x 1 :=
  diff_alike (alike_ops hA) cfg x e he

/-- C132: and `Solve`, by both methods and from any point, goes through the same points: same solution, same exception. -/
theorem C132_solve (hA : L.Agree L' S P) (cfg : Config B64) (ls fuel : ℕ) {r : ℕ} (hr : 0 < r) (f : Matrix (Fin r) (Fin 1) (Expr B64))
    (hf : ∀ i, (f i 0).WithDerivOnlyUses S P) (t : VarsTable B64) :
    (solve (α := Double L) cfg ls fuel (symOf (α := Double L) f) t : Res (VarsTable B64)) =
      solve (α := Double L') cfg ls fuel (symOf (α := Double L') f) t :=
  solve_alike (alike_ops hA) cfg ls fuel hr f hf t

/-- C132: the same for `Solve` without a table. -/
theorem C132_solveAuto (hA : L.Agree L' S P) (cfg : Config B64) (ls fuel : ℕ) {r : ℕ} (hr : 0 < r) (f : Matrix (Fin r) (Fin 1) (Expr B64))
    (hf : ∀ i, (f i 0).WithDerivOnlyUses S P) :
    (solveAuto (α := Double L) cfg ls fuel (symOf (α := Double L) f) : Res (VarsTable B64)) =
      solveAuto (α := Double L') cfg ls fuel (symOf (α := Double L') f) :=
  solveAuto_alike (alike_ops hA) cfg ls fuel hr f hf

/-- any two machines agree on no functions, if they add in the same order -/
theorem agree_nothing (h : L.sumOrder = L'.sumOrder) : L.Agree L' (fun _ => False) False := ⟨fun _ h => h.elim, fun h => h.elim, h⟩

theorem readsAlike_ops (L L' : Libm) : ReadsAlike L.ops L'.ops := ⟨rfl, rfl, rfl, rfl, rfl, rfl, rfl⟩

/-- C132: any two machines read every text in the same way -/
theorem C132_text (L L' : Libm) (s : Str) : (parse (α := Double L) s : Res (Raw B64)) = parse (α := Double L') s :=
  parse_alike (readsAlike_ops L L') s

/-- C132: and print every expression in the same way -/
theorem C132_print (L L' : Libm) (t : Raw B64) : toStringNode (α := Double L) t = toStringNode (α := Double L') t :=
  toString_alike (readsAlike_ops L L') t

/-- C132: polynomial systems (signs, `+ - *`, division by literals) do not depend on `<cmath>` at all: any two machines that add up in
the same order return the same solution, bit for bit. -/
theorem C132_polynomial (h : L.sumOrder = L'.sumOrder) (cfg : Config B64) (ls fuel : ℕ) {r : ℕ} (hr : 0 < r)
    (f : Matrix (Fin r) (Fin 1) (Expr B64)) (hf : ∀ i, (f i 0).Arithmetical) (t : VarsTable B64) :
    (solve (α := Double L) cfg ls fuel (symOf (α := Double L) f) t : Res (VarsTable B64)) =
      solve (α := Double L') cfg ls fuel (symOf (α := Double L') f) t :=
  C132_solve (agree_nothing h) cfg ls fuel hr f hf t

theorem dE_arithmetical [Dbl α] (x : Str) (e : Expr α) (he : e.Arithmetical) : (dE x e).Arithmetical := by
  unfold Expr.Arithmetical at *
  induction e with
  | num v => trivial
  | var y => trivial
  | un o e ih =>
    have ih := ih he.2.2.2
    rcases he.1 with rfl | rfl | h
    · exact ⟨.inl rfl, by simp [UnOp.rule], fun h => h, ih⟩
    · exact ⟨.inr (.inl rfl), by simp [UnOp.rule], fun h => h, ih⟩
    · exact h.elim
  | bin o a b iha ihb =>
    have iha := iha he.2.2.1
    have ihb := ihb he.2.2.2
    obtain ⟨h1, h2, h3, h4⟩ := he
    cases o with
    | pow => exact (h1 rfl).1.elim
    | _ => simp only [dE] <;> (repeat' split) <;> simp_all [Expr.WithDerivOnlyUses]

theorem dE_iter_alike {d d' : Dbl α} (h : Alike d d' (fun _ => False) False) (x : Str) (n : ℕ) (e : Expr α) (he : e.Arithmetical) :
    (@dE α d x)^[n] e = (@dE α d' x)^[n] e ∧ ((@dE α d x)^[n] e).Arithmetical := by
  induction n generalizing e with
  | zero => exact ⟨rfl, he⟩
  | succ n ih =>
    simp only [Function.iterate_succ_apply]
    rw [← dE_alike h x e he]
    exact ih _ (@dE_arithmetical α d x e he)

/-- C132: derivatives of any order of polynomials do not depend on `<cmath>` either. -/
theorem C132_diff_polynomial (h : L.sumOrder = L'.sumOrder) (cfg : Config B64) (e : Expr B64) (he : e.Arithmetical) (x : Str) (n : ℤ) :
    (diffConst (α := Double L) cfg (embed (α := Double L) e) x n : Res (Raw B64)) = diffConst (α := Double L') cfg (embed (α := Double L') e) x n := by
  have hA := alike_ops (agree_nothing h)
  have key : @diffConst B64 L.ops cfg (@embed B64 L.ops e) x n = @diffConst B64 L'.ops cfg (@embed B64 L'.ops e) x n := by
    unfold diffConst
    rw [@clone_eq _ L.ops _ (@embed_isSome _ L.ops e), @clone_eq _ L.ops _ (@embed_isSome _ L'.ops e)]
    simp only [Res.bind_ok]
    by_cases hn : 0 < n
    · cases hi : e.hasIntOp with
      | true => rw [@diff_throw _ L.ops cfg x n hn e hi, @diff_throw _ L'.ops cfg x n hn e hi]
      | false =>
        rw [@diff_ok _ L.ops cfg x n hn e hi, @diff_ok _ L'.ops cfg x n hn e hi]
        obtain ⟨h1, h2⟩ := dE_iter_alike hA x n.toNat e he
        rw [← h1]
        exact simplify_alike hA cfg _ (uses_of_deriv _ _ _ h2)
    · simp only [diff, gt_iff_lt, if_neg hn]
  exact key

/-- `x*x - y/2` is a polynomial of this kind -/
example (two : B64) : (Expr.bin .sub (.bin .mul (.var ['x']) (.var ['x'])) (.bin .div (.var ['y']) (.num two)) : Expr B64).Arithmetical := by
  simp [Expr.Arithmetical, Expr.WithDerivOnlyUses, Expr.isNum]

/-- two machines may differ in `sin` and agree on `sqrt`; `sqrt(x) - y` and its derivatives use only `sqrt` -/
example (L : Libm) (f : B64 → B64) :
    L.Agree { L with sin := f } (fun o => o = .sqrt) False ∧
    (.bin .sub (.un .sqrt (.var ['x'])) (.var ['y']) : Expr B64).WithDerivOnlyUses (fun o => o = .sqrt) False := by
  refine ⟨⟨?_, fun h => h.elim, rfl⟩, by simp [Expr.WithDerivOnlyUses, UnOp.rule, UnOp.ruleHasSquare]⟩
  rintro o rfl x
  rfl

end Tom
