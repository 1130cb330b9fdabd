import Verif.Spec.LMSteps
import Verif.Props.Nonlinear
/-
C71: the steps of the Levenberg-Marquardt method.
-/
set_option linter.unusedSectionVars false
namespace Tom
variable {α : Type} [Dbl α]
open Relation

theorem armijoLoop_halvings (f df : Mat α → Res (Mat α)) (x d : Mat α) : ∀ (fuel m : ℕ) (a : α),
    armijoLoop f df x d fuel (halvings m) = .ok a → ∃ m', a = halvings m' := by
  intro fuel
  induction fuel with
  | zero => intro m a h; cases h
  | succ fuel ih =>
    intro m a h
    unfold armijoLoop at h
    obtain ⟨_, _, h⟩ := Res.bind_eq_ok.mp h
    obtain ⟨_, _, h⟩ := Res.bind_eq_ok.mp h
    obtain ⟨_, _, h⟩ := Res.bind_eq_ok.mp h
    obtain ⟨_, _, h⟩ := Res.bind_eq_ok.mp h
    obtain ⟨_, _, h⟩ := Res.bind_eq_ok.mp h
    obtain ⟨_, _, h⟩ := Res.bind_eq_ok.mp h
    obtain ⟨_, _, h⟩ := Res.bind_eq_ok.mp h
    obtain ⟨_, _, h⟩ := Res.bind_eq_ok.mp h
    obtain ⟨_, _, h⟩ := Res.bind_eq_ok.mp h
    split at h
    · rw [Res.ok.injEq] at h; exact ⟨m, h.symm⟩
    · refine ih (m + 1) a ?_
      rw [show (halvings (m + 1) : α) = Arith.mul (halvings m) (lit 5 (-1)) from
        Function.iterate_succ_apply' (fun a => Arith.mul a (lit 5 (-1))) m (Dbl.ofInt 1)]
      exact h

theorem lmInner_steps (cfg : Config α) (lsFuel : ℕ) (eqs ja : SymMat α) (t0 : VarsTable α) (ht0 : t0.Reachable) (F : Mat α)
    (hF : evalVec cfg eqs t0 = .ok F) :
    ∀ (fuel : ℕ) (t : VarsTable α) (k it : ℕ) dq FN t' it', t.Reachable → t.vars = t0.vars → LMTrial cfg eqs ja t0 k t →
      lmInner cfg lsFuel eqs ja t0.values F fuel t (lmDamping k) it = .ok (dq, FN, t', it') → LMStep cfg eqs ja t0 t' := by
  intro fuel
  induction fuel with
  | zero => intro t k it dq FN t' it' _ _ _ h; cases h
  | succ fuel ih =>
    intro t k it dq FN t' it' ht hv htr h
    rw [lmInner_succ, show (Arith.mul (lmDamping k) (Dbl.ofInt 10) : α) = lmDamping (k + 1) from
      (Function.iterate_succ_apply' (fun m => Arith.mul m (Dbl.ofInt 10)) k (lit 1 (-5))).symm] at h
    obtain ⟨d, h1, h⟩ := Res.bind_eq_ok.mp h
    obtain ⟨a, h2, h⟩ := Res.bind_eq_ok.mp h
    obtain ⟨qT, h3, h⟩ := Res.bind_eq_ok.mp h
    obtain ⟨t1, h4, h⟩ := Res.bind_eq_ok.mp h
    obtain ⟨F1, h5, h⟩ := Res.bind_eq_ok.mp h
    obtain ⟨n', h6, h⟩ := Res.bind_eq_ok.mp h
    obtain ⟨n, h7, h⟩ := Res.bind_eq_ok.mp h
    obtain ⟨m, rfl⟩ := armijoLoop_halvings _ _ _ _ lsFuel 0 a h2
    obtain ⟨hqT, _⟩ := isVec_add ht0.good.vec h3
    obtain ⟨_, hv1, hx⟩ := setValues_good ht.good hqT h4
    have hmove : LMMove cfg eqs ja t0 k t t1 := ⟨F, d, m, hF, h1, by rw [hx]; exact h3, hv1.trans hv⟩
    split at h
    · rename_i hlt
      simp only [Res.ok.injEq, Prod.mk.injEq] at h
      obtain ⟨_, _, rfl, _⟩ := h
      exact ⟨k, t, htr, hmove, F, F1, n, n', hF, h5, h7, h6, hlt⟩
    · rename_i hlt
      split at h
      · cases h
      · refine ih t1 (k + 1) _ _ _ _ _ (.setValues ht hqT h4) (hv1.trans hv) (.reject htr hmove ?_) h
        rintro ⟨G, G1, p, p', g1, g2, g3, g4, g5⟩
        rw [hF, Res.ok.injEq] at g1
        rw [h5, Res.ok.injEq] at g2
        subst g1 g2
        rw [h7, Res.ok.injEq] at g3
        rw [h6, Res.ok.injEq] at g4
        subst g3 g4
        exact hlt g5

/-- C71, partial: from the initial table to the returned one, `SolveByLM` performs steps of the Levenberg-Marquardt method: each goes
from `x` to `x + 2^-m d` with `(JᵀJ + mu I) d = -Jᵀ F(x)`, solved by `SolveLinear`, `mu = 1e-5 * 10^k` after `k` rejected steps, and
makes the sum of squares smaller.  Missing: `J` is the Jacobian at `x` only for `k = 0`; after a rejected step it is taken at the
rejected point (`C71_false`). -/
theorem C71_partial {r : ℕ} (cfg : Config α) (lsFuel fuel : ℕ) (f : Matrix (Fin r) (Fin 1) (Expr α)) {t t' : VarsTable α}
    (ht : t.Reachable) (h : solveByLM cfg lsFuel fuel (symOf f) t = .ok t') :
    ∃ J, (symOf f).jacobian cfg t.vars = .ok J ∧ ReflTransGen (LMStep cfg (symOf f) J) t t' := by
  rw [lm_unfold cfg _ _ _ ht] at h
  obtain ⟨J, hJ, h⟩ := Res.bind_eq_ok.mp h
  refine ⟨J, hJ, ?_⟩
  generalize he : symOf f = eqs at h
  clear hJ
  have key : ∀ n it (t t' : VarsTable α), t.Reachable → lmOuter cfg lsFuel fuel eqs J n t t.values it = .ok t' →
      ReflTransGen (LMStep cfg eqs J) t t' := by
    intro n
    induction n with
    | zero => intro it t t' _ h; cases h
    | succ n ih =>
      intro it t t' ht h
      obtain ⟨F, h1, h⟩ := Res.bind_eq_ok.mp h
      split at h
      · rw [Res.ok.injEq] at h
        subst h
        exact .refl
      · obtain ⟨res, h2, h⟩ := Res.bind_eq_ok.mp h
        obtain ⟨dq, FN, t1, it1⟩ := res
        obtain ⟨q', h3, h⟩ := Res.bind_eq_ok.mp h
        obtain ⟨t2, h4, h⟩ := Res.bind_eq_ok.mp h
        obtain ⟨a, b, c, _⟩ := lmInner_ok cfg lsFuel eqs J t.values F ht.good.vec _ t _ _ _ _ _ _ ht h2
        rw [c, Res.ok.injEq] at h3
        subst h3
        obtain ⟨hg, hv, hx⟩ := setValues_good a.good a.good.vec h4
        have : t2 = t1 := hg.ext a.good hv hx
        subst this
        have hst := lmInner_steps cfg lsFuel eqs J t ht F h1 fuel t 0 it dq FN t2 it1 ht rfl .start h2
        split at h
        · cases h
        · exact .head hst (ih _ t2 t' a h)
  exact key _ _ t t' ht h

/-! ### the Jacobian after a rejected step -/

/-- `2 - y^2 = 0`, `x - y = 0` -/
def overshoot : Matrix (Fin 2) (Fin 1) (Expr (XNum Rat)) := fun i _ =>
  if i = 0 then .bin .sub (.num (.fin 2)) (.bin .mul (.var ['y']) (.var ['y']))
  else .bin .sub (.var ['x']) (.var ['y'])

/-- its Jacobian as `Diff` writes it -/
def overshootJ : SymMat (XNum Rat) := symOf (r := 2) (c := 2) fun i j =>
  if i = 0 then (if j = 0 then .num (.fin 0) else .bin .sub (.num (.fin 0)) (.bin .add (.var ['y']) (.var ['y'])))
  else (if j = 0 then .num (.fin 1) else .num (.fin (-1)))

/-- a table with two variables -/
def twoVars (x y : Rat) : VarsTable (XNum Rat) := ⟨[['x'], ['y']], ⟨2, 1, [.fin x, .fin y]⟩, [(['x'], .fin x), (['y'], .fin y)]⟩

theorem twoVars_ofList (x y : Rat) : VarsTable.ofList [(['x'], XNum.fin x), (['y'], XNum.fin y)] = .ok (twoVars x y) := rfl

/-- the default configuration with epsilon = 1 -/
def coarseConfig : Config (XNum Rat) := { defaultConfig with epsilon := .fin 1 }

/-- the point that is returned -/
def overshootEnd : VarsTable (XNum Rat) :=
  twoVars (36250791781635115770090134000 / 35650329430998344627012702489) (181272084304066396408335715067 / 178251647154991723135063512445)

/-- the outcome is a vector that does not point from (0, 0.6) to the returned point -/
def offLine : Res (Mat (XNum Rat)) → Bool
  | .ok ⟨2, 1, [.fin a, .fin b]⟩ =>
    a * (181272084304066396408335715067 / 178251647154991723135063512445 - 3 / 5) !=
      b * (36250791781635115770090134000 / 35650329430998344627012702489)
  | _ => false

theorem offLine_spec {r : Res (Mat (XNum Rat))} (h : offLine r = true) : ∃ d, r = .ok d ∧
    ∀ a : XNum Rat, (twoVars 0 (3 / 5)).values.add (Mat.scaleLeft a d) ≠ .ok overshootEnd.values := by
  unfold offLine at h
  split at h
  · rename_i p q
    refine ⟨_, rfl, fun c hc => ?_⟩
    simp only [bne_iff_ne, ne_eq] at h
    apply h
    cases c with
    | bad => exact absurd hc (by simp [Mat.add, Mat.scaleLeft, zipV, twoVars, overshootEnd, Arith.add, Arith.mul, XNum.map2])
    | fin c =>
      simp only [Mat.add, Mat.scaleLeft, zipV, twoVars, overshootEnd, Arith.add, Arith.mul, XNum.map2, and_self, if_true,
        List.map_cons, List.map_nil, List.length_cons, List.length_nil, List.zipWith_cons_cons, List.zipWith_nil_left, Res.bind_ok,
        Res.ok.injEq, Mat.mk.injEq, List.cons.injEq, XNum.fin.injEq, true_and, and_true] at hc
      obtain ⟨h1, h2⟩ := hc
      rw [← h1, ← h2]
      ring
  · cases h

/-- C71 fails as stated: from (0, 0.6), for `2 - y^2 = 0, x - y = 0` with epsilon = 1, LM performs one step and returns a point that
is not on any line from (0, 0.6) in a direction `d` with `(JᵀJ + mu I) d = -Jᵀ F`, `J` and `F` taken at (0, 0.6), whatever the number
`k` of rejected steps before was (at most `maxIterations`): after one rejected step, the Jacobian is that of the rejected point. -/
theorem C71_false : (twoVars 0 (3 / 5)).Reachable ∧
    solveByLM coarseConfig 1 2 (symOf overshoot) (twoVars 0 (3 / 5)) = .ok overshootEnd ∧
    (symOf overshoot).jacobian coarseConfig [['x'], ['y']] = .ok overshootJ ∧
    ∃ F, evalVec coarseConfig (symOf overshoot) (twoVars 0 (3 / 5)) = .ok F ∧
      ∀ k : ℕ, k ≤ 100 → ∃ d, lmDirection coarseConfig overshootJ F (lmDamping k) (twoVars 0 (3 / 5)) = .ok d ∧
        ∀ a : XNum Rat, (twoVars 0 (3 / 5)).values.add (Mat.scaleLeft a d) ≠ .ok overshootEnd.values := by
  refine ⟨.ofList (twoVars_ofList _ _), by decide +kernel, by decide +kernel, ⟨2, 1, [.fin (41 / 25), .fin (-3 / 5)]⟩, by decide +kernel, ?_⟩
  intro k hk
  apply offLine_spec
  revert k
  decide +kernel

end Tom
