import Verif.Spec.Real
import Verif.Props.Simplify
import Verif.Props.Diff
/-
C21 (and the default-configuration part of C24): simplification preserves the real value.
-/
namespace Tom
open Classical

/-- On finite operands the arithmetic of the instance is the specification's. -/
theorem apply_un_real (o : UnOp) (u r : ℝ) (h : o.real u = some r) :
    o.apply (XNum.fin u) = XNum.fin r := by
  cases o <;> simp_all [UnOp.real, UnOp.apply, Arith.neg, Dbl.sin, Dbl.cos, Dbl.tan, Dbl.asin, Dbl.acos, Dbl.atan, Dbl.sqrt,
    Dbl.log, Dbl.log2, Dbl.log10, Dbl.exp, XNum.mapO, XNum.map]

theorem apply_bin_real (o : BinOp) (u w r : ℝ) (h : o.real u w = some r) :
    o.apply (XNum.fin u) (XNum.fin w) = some (XNum.fin r) := by
  cases o <;> simp_all [BinOp.real, BinOp.apply, Arith.add, Arith.sub, Arith.mul, Arith.div, Dbl.pow, Dbl.toInt32, Dbl.ofInt,
    XNum.map2, XNum.map2O, XNum.val?]
  all_goals
    cases hu : realTrunc u <;> cases hw : realTrunc w <;> simp_all

theorem checked_fin (strict : Bool) (r : ℝ) : checked strict (XNum.fin r) = .ok (XNum.fin r) := by
  simp [checked, Dbl.isInvalid]

theorem val_num {ρ : Str → ℝ} {v : XNum ℝ} {u : ℝ} (h : realVal ρ (.num v) = some u) : v = .fin u := by
  cases v <;> simp_all [realVal, XNum.val?]

theorem isLit_val {ρ : Str → ℝ} {e : Expr (XNum ℝ)} {i : Int} {u : ℝ} (h : isLit (Dbl.ofInt i) e = true)
    (hv : realVal ρ e = some u) : u = i := by
  cases e <;> simp [isLit] at h
  rw [val_num hv] at h
  simpa [Arith.eq, Dbl.ofInt, XNum.cmp] using h

/-- No subexpression `a ^ b` whose exponent contains a variable has both base and exponent zero at `ρ` (there the library
rewrites `0^b` to 0 although `0^0` evaluates to 1). -/
def Expr.ZeroPowFree (ρ : Str → ℝ) : Expr (XNum ℝ) → Prop
  | .num _ => True
  | .var _ => True
  | .un _ e => e.ZeroPowFree ρ
  | .bin o a b => (o = .pow → b.vars ≠ [] → ¬ (realVal ρ a = some 0 ∧ realVal ρ b = some 0)) ∧ a.ZeroPowFree ρ ∧
      b.ZeroPowFree ρ

theorem noConst_vars_isNum {α : Type} [Dbl α] (e : Expr α) (h : e.NoConstOp) (hv : e.vars = []) : e.isNum = true := by
  induction e with
  | num v => rfl
  | var x => simp [Expr.vars] at hv
  | un o e ih => have := ih h.2 hv; rw [h.1] at this; cases this
  | bin o a b iha ihb =>
    simp only [Expr.vars, List.append_eq_nil_iff] at hv
    exact absurd ⟨iha h.2.1 hv.1, ihb h.2.2 hv.2⟩ h.1

theorem simpE_real (cfg : Config (XNum ℝ)) (ρ : Str → ℝ) (e : Expr (XNum ℝ)) (v : ℝ) (h : realVal ρ e = some v)
    (hz : e.ZeroPowFree ρ) : ∃ e', simpE cfg e = .ok e' ∧ realVal ρ e' = some v := by
  induction e generalizing v with
  | num w => exact ⟨_, rfl, h⟩
  | var x => exact ⟨_, rfl, h⟩
  | un o e ih =>
    simp only [realVal, Option.bind_eq_some_iff] at h
    obtain ⟨u, hu, hr⟩ := h
    obtain ⟨a', ha', hva'⟩ := ih u hu hz
    have hun : realVal ρ (.un o a') = some v := by simp [realVal, hva', hr]
    simp only [simpE, ha', Res.bind_ok]
    cases a' with
    | num w =>
      rw [val_num hva']
      simp only [simpTop, apply_un_real o u v hr, checked_fin, Res.noexcept_ok, Res.bind_ok]
      exact ⟨_, rfl, rfl⟩
    | var x => exact ⟨_, rfl, hun⟩
    | un o' x => exact ⟨_, rfl, hun⟩
    | bin o' x y => exact ⟨_, rfl, hun⟩
  | bin o a b iha ihb =>
    simp only [realVal, Option.bind_eq_some_iff] at h
    obtain ⟨u, hu, w, hw, hr⟩ := h
    obtain ⟨a', ha', hva'⟩ := iha u hu hz.2.1
    obtain ⟨b', hb', hvb'⟩ := ihb w hw hz.2.2
    have hbin : realVal ρ (.bin o a' b') = some v := by simp [realVal, hva', hvb', hr]
    simp only [simpE, ha', hb', Res.bind_ok]
    have hok : ∃ e', simpTop cfg (.bin o a' b') = .ok e' := by
      by_cases hnum : a'.isNum = true ∧ b'.isNum = true
      · cases a' <;> simp [Expr.isNum] at hnum
        cases b' <;> simp [Expr.isNum] at hnum
        rw [val_num hva', val_num hvb']
        simp only [simpTop, apply_bin_real o u w v hr, checked_fin, Res.noexcept_ok, Res.bind_ok]
        exact ⟨_, rfl⟩
      · cases a' <;> cases b' <;> simp [Expr.isNum] at hnum <;> simp only [simpTop] <;> (repeat' split) <;> exact ⟨_, rfl⟩
    obtain ⟨e', he'⟩ := hok
    refine ⟨e', he', ?_⟩
    rcases simpTop_bin_ok he' with ⟨x, y, z, z', rfl, rfl, hz1, hz2, rfl⟩ | ⟨hn, h⟩
    · rw [val_num hva', val_num hvb', apply_bin_real o u w v hr] at hz1
      cases hz1
      rw [checked_fin] at hz2
      cases hz2
      rfl
    · rcases h with ⟨rfl, h⟩ | ⟨rfl, h⟩ | ⟨rfl, hna, h⟩ | rfl
      · rcases h with ⟨rfl, h | h⟩ | ⟨rfl, h⟩ | ⟨rfl, h⟩
        · have := isLit_val h hva'
          subst this
          simp [BinOp.real] at hr
          simp [realVal, Dbl.ofInt, XNum.val?, hr]
        · have := isLit_val h hvb'
          subst this
          simp [BinOp.real] at hr
          simp [realVal, Dbl.ofInt, XNum.val?, hr]
        · have := isLit_val h hva'
          subst this
          simp [BinOp.real] at hr
          simp [realVal, Dbl.ofInt, XNum.val?, hr]
        · have := isLit_val h hva'
          subst this
          have hw0 : w ≠ 0 := by
            rintro rfl
            have hbn : b'.isNum = false := by
              cases hb : b'.isNum with
              | false => rfl
              | true =>
                exfalso; apply hn
                refine ⟨?_, hb⟩
                cases a' <;> simp_all [isLit, Expr.isNum]
            have hbv : b.vars ≠ [] := by
              intro hbv
              have h1 := simpE_noConst cfg b b' hb'
              have h2 := (simpE_size_vars cfg b b' hb').2
              rw [hbv] at h2
              have h3 : b'.vars = [] := List.eq_nil_iff_forall_not_mem.mpr fun y hy => by simpa using h2 y hy
              rw [noConst_vars_isNum b' h1 h3] at hbn
              cases hbn
            exact hz.1 rfl hbv ⟨by simpa using hu, hw⟩
          simp [BinOp.real, realPow] at hr
          simp [realVal, Dbl.ofInt, XNum.val?, ← hr.2, Real.zero_rpow hw0]
      · rcases h with ⟨rfl, h⟩ | ⟨rfl, h⟩ | ⟨_, h1, h2⟩ | ⟨_, h1, h2⟩
        · have := isLit_val h hva'
          subst this
          simp [BinOp.real] at hr
          rw [hvb', hr]
        · have := isLit_val h hva'
          subst this
          simp [BinOp.real] at hr
          rw [hvb', hr]
        · exact absurd ⟨h1, h2⟩ hn
        · exact absurd ⟨h1, h2⟩ hn
      · rcases h with ⟨rfl, h⟩ | ⟨rfl, h⟩ | ⟨rfl, h⟩ | ⟨rfl, h⟩ | ⟨rfl, h⟩ <;> have := isLit_val h hvb' <;> subst this
        · simp [BinOp.real] at hr; rw [hva', hr]
        · simp [BinOp.real] at hr; rw [hva', hr]
        · simp [BinOp.real] at hr; rw [hva', hr]
        · simp [BinOp.real] at hr; rw [hva', hr]
        · simp [BinOp.real, realPow] at hr; rw [hva', hr.2]
      · exact hbin

/-- The default configuration over the reals. -/
noncomputable def realConfig : Config (XNum ℝ) where
  throwOnInvalidValue := true
  epsilon := .fin (1 / 1000000000)
  maxIterations := 100
  nonlinearMethod := .newtonRaphson
  initialValue := .fin 1
  allowIndeterminateEquation := false

/-- C21, partial (and C24 under the default configuration, partial): if `e` has the real value `v` at `ρ`, then `Simplify`
returns normally and the result has the same value at `ρ`.  Excluded: points where a subexpression `a^b` with a variable
exponent is `0^0`, where the property is false (`C21_false`). -/
theorem C21_C24_partial (cfg : Config (XNum ℝ)) (ρ : Str → ℝ) (e : Expr (XNum ℝ)) (v : ℝ) (h : realVal ρ e = some v)
    (hz : e.ZeroPowFree ρ) :
    ∃ e', simplify cfg (embed e) = .ok (embed e') ∧ realVal ρ e' = some v := by
  obtain ⟨e', h1, h2⟩ := simpE_real cfg ρ e v h hz
  exact ⟨e', (simplify_ok_iff cfg e _).mpr ⟨e', h1, rfl⟩, h2⟩

/-- C21 fails as stated: `0^x` has the value 1 at `x = 0`, its simplification has the value 0. -/
theorem C21_false (cfg : Config (XNum ℝ)) :
    let e : Expr (XNum ℝ) := .bin .pow (.num (.fin 0)) (.var ['x'])
    realVal (fun _ => 0) e = some 1 ∧
    ∃ e', simplify cfg (embed e) = .ok (embed e') ∧ realVal (fun _ => 0) e' = some 0 := by
  refine ⟨by simp [realVal, BinOp.real, realPow, XNum.val?], .num (.fin 0), ?_, by simp [realVal, XNum.val?]⟩
  rw [simplify_ok_iff]
  refine ⟨_, ?_, rfl⟩
  simp [simpE, simpTop, isLit, Arith.eq, Dbl.ofInt, XNum.cmp]

/-- The hypotheses are met by `x*0 + 1*sqrt(y)/1` at `x = 3, y = 4`-like points. -/
example : realVal (fun _ => 4) (.bin .add (.bin .mul (.var ['x']) (.num (.fin 0)))
      (.bin .mul (.num (.fin 1)) (.un .sqrt (.var ['y'])))) = some 2 ∧
    Expr.ZeroPowFree (fun _ => 4) (.bin .add (.bin .mul (.var ['x']) (.num (.fin 0)))
      (.bin .mul (.num (.fin 1)) (.un .sqrt (.var ['y'])))) := by
  have h4 : √(4:ℝ) = 2 := by
    rw [show (4:ℝ) = 2 ^ 2 by norm_num]; exact Real.sqrt_sq (by norm_num)
  simp [realVal, BinOp.real, UnOp.real, XNum.val?, Expr.ZeroPowFree, h4]

/-- The real instance satisfies the zero laws used by `C31_partial`. -/
theorem zeroLaws_real : ZeroLaws (XNum ℝ) where
  zero := by simp [Arith.eq, Dbl.ofInt, XNum.cmp]
  mul c z h := by
    cases c <;> cases z <;> simp_all [Arith.eq, Arith.mul, Dbl.ofInt, Dbl.isInvalid, XNum.cmp, XNum.map2]
  mul' c z h := by
    cases c <;> cases z <;> simp_all [Arith.eq, Arith.mul, Dbl.ofInt, Dbl.isInvalid, XNum.cmp, XNum.map2]
  div c z h := by
    cases c <;> cases z <;> simp_all [Arith.eq, Arith.div, Dbl.ofInt, Dbl.isInvalid, XNum.cmp, XNum.map2O]
    rename_i a b
    by_cases hb : a = 0 <;> simp [hb]
  add y z hy hz := by
    cases y <;> cases z <;> simp_all [Arith.eq, Arith.add, Dbl.ofInt, XNum.cmp, XNum.map2]
  sub y z hy hz := by
    cases y <;> cases z <;> simp_all [Arith.eq, Arith.sub, Dbl.ofInt, XNum.cmp, XNum.map2]
  neg z hz := by
    cases z <;> simp_all [Arith.eq, Arith.neg, Dbl.ofInt, XNum.cmp, XNum.map]

end Tom
