import Verif.Props.IeeeUnderflow
import Verif.Lemmas.FiniteLits
import Verif.Lemmas.RealSolve
/-
In the default configuration (inf and nan are rejected) with `double`, LM ends: no hypothesis on what happens during the run is needed.
-/
namespace Tom
variable {L : Libm}

theorem env_mem {t : VarsTable (Double L)} (g : t.Good) (x : Str) (y : Double L) :
    envOf t.table x = .ok y ↔ (x, y) ∈ t.vars.zip t.values.data := by
  have hn : (t.table.map Prod.fst).Nodup := g.keys.nodup_iff.mpr g.nodup
  rw [← g.entries.mem_iff, ← lookup_iff _ hn]
  unfold envOf
  cases t.table.lookup x <;> simp

/-- If the equations have a value (in strict mode), the point is finite. -/
theorem finite_point (hL : L.AtInfinity) {r : ℕ} (hr : 0 < r) {cfg : Config (Double L)} (hs : cfg.throwOnInvalidValue = true)
    {f : Matrix (Fin r) (Fin 1) (Expr (Double L))} {t : VarsTable (Double L)} (g : t.Good) (ha : ∀ x ∈ t.vars, ∃ i, (f i 0).Anchored x)
    {F : Mat (Double L)} (h : evalVec cfg (symOf f) t = .ok F) : ∀ v ∈ t.values.data, Dbl.isInvalid v = false := by
  intro v hv
  obtain ⟨u, rfl, h1⟩ := (evalVec_ok hr cfg f t F).mp h
  obtain ⟨k, hk, rfl⟩ := List.getElem_of_mem hv
  have hl : t.vars.length = t.values.data.length := by rw [g.vec.2, g.len]
  have hk' : k < t.vars.length := by omega
  obtain ⟨i, hi⟩ := ha t.vars[k] (List.getElem_mem _)
  have h2 := h1 i
  rw [hs] at h2
  obtain ⟨y, h3, h4⟩ := hi.finite hL h2
  have h5 : envOf t.table t.vars[k] = .ok t.values.data[k] :=
    (env_mem g _ _).mpr (by
      rw [List.mem_iff_getElem]
      exact ⟨k, by simp; omega, by simp⟩)
  rw [h5, Res.ok.injEq] at h3
  rw [h3]; exact h4

theorem finite_env {t : VarsTable (Double L)} (g : t.Good) (h : ∀ v ∈ t.values.data, Dbl.isInvalid v = false) (x : Str) (y : Double L)
    (hy : envOf t.table x = .ok y) : Dbl.isInvalid y = false :=
  h y (List.of_mem_zip ((env_mem g x y).mp hy)).2

/-- In strict mode, a matrix of expressions with finite literals has finite values at finite points. -/
theorem finite_evalMat {r c : ℕ} (hr : 0 < r) (hc : 0 < c) {cfg : Config (Double L)} (hs : cfg.throwOnInvalidValue = true)
    {E : Matrix (Fin r) (Fin c) (Expr (Double L))} (hE : ∀ i j, (E i j).FiniteLits) {t : VarsTable (Double L)} (g : t.Good)
    (h : ∀ v ∈ t.values.data, Dbl.isInvalid v = false) {m : Mat (Double L)} (hm : evalMat cfg (symOf E) t = .ok m) :
    ∀ v ∈ m.data, Dbl.isInvalid v = false := by
  obtain ⟨u, rfl, h1⟩ := (C50_evaluate hr hc cfg E t m).mp hm
  intro v hv
  rw [ofEntries_entries] at hv
  obtain ⟨i, j, rfl⟩ := (mem_entries u v).mp hv
  have h2 := h1 i j
  rw [hs] at h2
  exact (hE i j).eval_finite (fun x _ y hy => finite_env g h x y hy) h2

theorem finite_evalVec {r : ℕ} (hr : 0 < r) {cfg : Config (Double L)} (hs : cfg.throwOnInvalidValue = true)
    {f : Matrix (Fin r) (Fin 1) (Expr (Double L))} (hf : ∀ i, (f i 0).FiniteLits) {t : VarsTable (Double L)} (g : t.Good)
    (h : ∀ v ∈ t.values.data, Dbl.isInvalid v = false) {F : Mat (Double L)} (hF : evalVec cfg (symOf f) t = .ok F) :
    ∀ v ∈ F.data, Dbl.isInvalid v = false := by
  obtain ⟨u, rfl, h1⟩ := (evalVec_ok hr cfg f t F).mp hF
  refine finite_evalMat hr Nat.one_pos hs (E := f) (fun i j => by rw [Subsingleton.elim j 0]; exact hf i) g h
    ((C50_evaluate hr Nat.one_pos cfg f t _).mpr ⟨u, rfl, fun i j => ?_⟩)
  rw [Subsingleton.elim j 0]; exact h1 i

theorem jacobian_finiteLits (hL : L.AtInfinity) {r : ℕ} (hr : 0 < r) {cfg : Config (Double L)} (hs : cfg.throwOnInvalidValue = true)
    (f : Matrix (Fin r) (Fin 1) (Expr (Double L))) (hf : ∀ i, (f i 0).FiniteLits) (vars : List Str) (hn : 0 < vars.length)
    (D : Matrix (Fin r) (Fin vars.length) (Expr (Double L))) (hJ : (symOf f).jacobian cfg vars = .ok (symOf D)) (i : Fin r)
    (j : Fin vars.length) : (D i j).FiniteLits := by
  obtain ⟨_, _, _, h⟩ := C32 hr cfg f vars hn _ hJ
  obtain ⟨d, h1, h2⟩ := h i j
  rw [C50_value, Res.ok.injEq] at h1
  have e := embed_injective h1
  subst e
  unfold diffConst at h2
  rw [clone_eq _ (embed_isSome _), Res.bind_ok] at h2
  exact diff_finiteLits hL hs (hf i) h2

/-- a step that is not finite leads to a point that is not finite -/
theorem add_scale_finite {x d m : Mat (Double L)} (h : x.add (Mat.scaleLeft (Dbl.ofInt 1) d) = .ok m)
    (hm : ∀ v ∈ m.data, Dbl.isInvalid v = false) : ∀ v ∈ d.data, Dbl.isInvalid v = false := by
  unfold Mat.add at h
  split at h
  · obtain ⟨e, h1, h⟩ := Res.bind_eq_ok.mp h
    rw [Res.ok.injEq] at h
    subst h
    unfold zipV at h1
    split at h1
    · rename_i hl
      replace hl : x.data.length = d.data.length := by simpa [Mat.scaleLeft] using hl
      rw [Res.ok.injEq] at h1
      subst h1
      intro v hv
      obtain ⟨k, hk, rfl⟩ := List.getElem_of_mem hv
      have := hm (Arith.add (x.data[k]'(by omega)) (Arith.mul d.data[k] (Dbl.ofInt 1))) (by
        rw [List.mem_iff_getElem]
        exact ⟨k, by simp [Mat.scaleLeft]; omega, by simp [Mat.scaleLeft]⟩)
      exact (Double.valid_mul (Double.valid_add this).2).1
    · cases h1
  · cases h

/-- C43, C53 for `double`: `Armijo` ends after at most 1076 rounds, in whatever direction, if `f` returns only at finite points and then
with a finite vector, and the Jacobian at the finite points is finite. -/
theorem C43_ieee_armijo (f df : Mat (Double L) → Res (Mat (Double L))) (hf : ∀ v, f v ≠ .diverge) (hdf : ∀ v, df v ≠ .diverge)
    (x d : Mat (Double L)) (hx : ∀ v ∈ x.data, v.raw ≠ .zero true) (hvec : IsVec x)
    (hF : ∀ v F, IsVec v → f v = .ok F → (∀ a ∈ v.data, Dbl.isInvalid a = false) ∧ ∀ a ∈ F.data, Dbl.isInvalid a = false)
    (hJ : ∀ J, (∀ a ∈ x.data, Dbl.isInvalid a = false) → df x = .ok J → ∀ v ∈ J.data, Dbl.isInvalid v = false)
    (fuel : ℕ) (hfuel : 1075 < fuel) : armijo fuel x d f df ≠ .diverge := by
  by_cases hfx : ∃ F, f x = .ok F
  · obtain ⟨F, hFx⟩ := hfx
    obtain ⟨h1, h2⟩ := hF x F hvec hFx
    by_cases hd : ∀ v ∈ d.data, Dbl.isInvalid v = false
    · refine C43_ieee_line_search f df hf hdf x d (fun v hv => ⟨h1 v hv, hx v hv⟩) hd ?_ (fun J => hJ J h1) fuel hfuel
      intro F' hF'
      rw [hFx, Res.ok.injEq] at hF'
      subst hF'; exact h2
    · obtain ⟨g, rfl⟩ : ∃ g, fuel = g + 1 := ⟨fuel - 1, by omega⟩
      refine bind_ne_diverge (fine_add _ _).1 fun xN h3 => bind_ne_diverge (hf _) fun FN h4 => ?_
      exact absurd (add_scale_finite h3 (hF xN FN (isVec_add hvec h3).1 h4).1) hd
  · obtain ⟨g, rfl⟩ : ∃ g, fuel = g + 1 := ⟨fuel - 1, by omega⟩
    refine bind_ne_diverge (fine_add _ _).1 fun xN h3 => bind_ne_diverge (hf _) fun FN h4 => bind_ne_diverge (fine_norm2 _).1 fun l h5 =>
      bind_ne_diverge (hf _) fun F0 h6 => absurd ⟨F0, h6⟩ hfx

/-- C43 for `double` in a configuration that rejects inf and nan (the default), partial: LM with a non-negative `maxIterations` ends, each line
search after at most 1076 rounds, whatever the equations are and wherever the run leads, if the literals are finite, every variable
occurs somewhere as an operand of `+`, `-`, `*`, as a numerator, as the base of a power with positive literal exponent or as the argument of
a function other than `exp` and `atan`, and no initial value is `-0`.
Missing: configurations that do not reject inf and nan, see `C43_false_nan`; negative `maxIterations`; variables that occur only in exponents,
denominators and in arguments of `exp` and `atan`. -/
theorem C43_ieee_strict_partial (hL : L.AtInfinity) {r : ℕ} (hr : 0 < r) (cfg : Config (Double L)) (hs : cfg.throwOnInvalidValue = true)
    (hmax : 0 ≤ cfg.maxIterations) (lsFuel fuel : ℕ) (hls : 1075 < lsFuel) (hfuel : cfg.maxIterations < fuel)
    (f : Matrix (Fin r) (Fin 1) (Expr (Double L))) (hf : ∀ i, (f i 0).FiniteLits) {t : VarsTable (Double L)} (ht : t.Reachable)
    (ha : ∀ x ∈ t.vars, ∃ i, (f i 0).Anchored x) (h0 : ∀ v ∈ t.values.data, v.raw ≠ .zero true) :
    solveByLM cfg lsFuel fuel (symOf f) t ≠ .diverge := by
  refine C43_lm_inv_partial hr cfg hmax lsFuel fuel hfuel f ht (fun q => ∀ v ∈ q.data, v.raw ≠ .zero true) step_not_negZero h0 ?_
  rintro J hJ t0 k t1 d hvs hPt0 ⟨r0, r1, hv, _⟩
  obtain ⟨D, rfl⟩ := jacobian_symOf hr cfg f t.vars ht.pos J hJ
  have hset : ∀ {v t2}, IsVec v → t1.setValues v = .ok t2 → t2.Good ∧ t2.vars = t.vars ∧ t2.values = v := by
    intro v t2 hvec h
    obtain ⟨h1, h2, h3⟩ := setValues_good r1.good hvec h
    exact ⟨h1, h2.trans (hv.trans hvs), h3⟩
  refine C43_ieee_armijo _ _ ?_ ?_ _ _ hPt0 r0.good.vec ?_ ?_ lsFuel hls
  · intro v; exact (fine_bind (fine_setValues _ _) fun t _ => fine_evalVec hr cfg f t).1
  · intro v; exact (fine_bind (fine_setValues _ _) fun t _ => fine_evalMat hr ht.pos cfg D t).1
  · intro v F hvec hF
    obtain ⟨t2, h5, h6⟩ := Res.bind_eq_ok.mp hF
    obtain ⟨g, hv2, rfl⟩ := hset hvec h5
    have hfin := finite_point hL hr hs g (by rw [hv2]; exact ha) h6
    exact ⟨hfin, finite_evalVec hr hs hf g hfin h6⟩
  · intro j hfin hj
    obtain ⟨t2, h5, h6⟩ := Res.bind_eq_ok.mp hj
    obtain ⟨g, hv2, h7⟩ := hset r0.good.vec h5
    exact finite_evalMat hr ht.pos hs (jacobian_finiteLits hL hr hs f hf t.vars ht.pos D hJ) g (by rw [h7]; exact hfin) h6

/-- C43 for `double`, partial: `Solve(equations, table)` ends in both methods (same conditions). -/
theorem C43_ieee_solve_partial (hL : L.AtInfinity) {r : ℕ} (hr : 0 < r) (cfg : Config (Double L)) (hs : cfg.throwOnInvalidValue = true)
    (hmax : 0 ≤ cfg.maxIterations) (lsFuel fuel : ℕ) (hls : 1075 < lsFuel) (hfuel : cfg.maxIterations < fuel)
    (f : Matrix (Fin r) (Fin 1) (Expr (Double L))) (hf : ∀ i, (f i 0).FiniteLits) {t : VarsTable (Double L)} (ht : t.Reachable)
    (ha : ∀ x ∈ t.vars, ∃ i, (f i 0).Anchored x) (h0 : ∀ v ∈ t.values.data, v.raw ≠ .zero true) :
    solve cfg lsFuel fuel (symOf f) t ≠ .diverge := by
  unfold solve
  split
  · exact (C43_newton hr cfg f ht).1
  · exact C43_ieee_strict_partial hL hr cfg hs hmax lsFuel fuel hls hfuel f hf ht ha h0
  · simp

/-- C43 for `double`, partial: `Solve(equations)` ends in both methods (same conditions, for the variables of the equations). -/
theorem C43_ieee_solveAuto_partial (hL : L.AtInfinity) {r : ℕ} (hr : 0 < r) (cfg : Config (Double L)) (hs : cfg.throwOnInvalidValue = true)
    (hmax : 0 ≤ cfg.maxIterations) (hinit : cfg.initialValue.raw ≠ .zero true) (lsFuel fuel : ℕ) (hls : 1075 < lsFuel)
    (hfuel : cfg.maxIterations < fuel) (f : Matrix (Fin r) (Fin 1) (Expr (Double L))) (hf : ∀ i, (f i 0).FiniteLits)
    (ha : ∀ i, ∀ x ∈ (f i 0).vars, ∃ k, (f k 0).Anchored x) : solveAuto cfg lsFuel fuel (symOf f) ≠ .diverge := by
  obtain ⟨names, h1, h2, h3⟩ := C50_getAllVarNames f
  unfold solveAuto
  rw [h1, Res.bind_ok]
  refine bind_ne_diverge ?_ fun t h4 => ?_
  · unfold VarsTable.ofVars Mat.new
    split
    · rw [Res.bind_ok]
      dsimp only
      split <;> simp
    · simp
  have hv := (C47_ofVars h4).1
  refine C43_ieee_solve_partial hL hr cfg hs hmax lsFuel fuel hls hfuel f hf (.ofVars h4) ?_ ?_
  · intro x hx
    rw [hv] at hx
    obtain ⟨i, j, hx⟩ := (h3 x).mp hx
    rw [Subsingleton.elim j 0] at hx
    exact ha i x hx
  · intro v hv
    rw [(ofVars_good h4).2.2] at hv
    rw [List.eq_of_mem_replicate hv]
    exact hinit

/-! ### the hypotheses are met -/
namespace Double

theorem atInfinity0 : libm0.AtInfinity where
  sin _ h := h
  cos _ h := h
  tan _ h := h
  asin _ h := h
  acos _ h := h
  sqrt _ h := h
  log _ h := h
  log2 _ h := h
  log10 _ h := h
  pow _ _ _ h _ _ := h
  ln_two := by decide +kernel
  ln_ten := by decide +kernel

/-- `x^2 + exp(y)*2 - 3`, `sin(x*y) / y - atan(x)` -/
def circle : Matrix (Fin 2) (Fin 1) (Expr (Double libm0)) := fun i _ =>
  if i = 0 then .bin .sub (.bin .add (.bin .pow (.var ['x']) (.num (Dbl.ofInt 2))) (.bin .mul (.un .exp (.var ['y'])) (.num (Dbl.ofInt 2))))
    (.num (Dbl.ofInt 3))
  else .bin .sub (.bin .div (.un .sin (.bin .mul (.var ['x']) (.var ['y']))) (.var ['y'])) (.un .atan (.var ['x']))

theorem circle_lits (i : Fin 2) : (circle i 0).FiniteLits := by
  have h2 : Dbl.isInvalid (Dbl.ofInt 2 : Double libm0) = false := valid_ofInt 2 (by norm_num)
  have h3 : Dbl.isInvalid (Dbl.ofInt 3 : Double libm0) = false := valid_ofInt 3 (by norm_num)
  fin_cases i <;> simp [circle, Expr.FiniteLits, h2, h3]

theorem circle_anchored (x : Str) (hx : x = ['x'] ∨ x = ['y']) : (circle 1 0).Anchored x := by
  rcases hx with rfl | rfl <;> simp [circle, Expr.Anchored]

/-- In the default configuration, `Solve` ends on this system from every start without `-0`. -/
example (a b : Double libm0) (ha : a.raw ≠ .zero true) (hb : b.raw ≠ .zero true) (t : VarsTable (Double libm0))
    (ht : VarsTable.ofList [(['x'], a), (['y'], b)] = .ok t) : solveByLM config 1076 101 (symOf circle) t ≠ .diverge := by
  have hr : t.Reachable := .ofList ht
  have e : VarsTable.ofList [(['x'], a), (['y'], b)] = .ok ⟨[['x'], ['y']], ⟨2, 1, [a, b]⟩, [(['x'], a), (['y'], b)]⟩ := rfl
  rw [e, Res.ok.injEq] at ht
  subst ht
  refine C43_ieee_strict_partial atInfinity0 (by norm_num) config rfl (by decide) 1076 101 (by decide) (by decide) circle circle_lits hr ?_ ?_
  · intro x hx
    exact ⟨1, circle_anchored x (by simpa using hx)⟩
  · intro v hv
    simp only [List.mem_cons, List.not_mem_nil, or_false] at hv
    rcases hv with rfl | rfl <;> assumption

example : solveAuto config 1076 101 (symOf circle) ≠ .diverge := by
  refine C43_ieee_solveAuto_partial atInfinity0 (by norm_num) config rfl (by decide) (by decide +kernel) 1076 101 (by decide) (by decide) circle
    circle_lits ?_
  intro i x hx
  refine ⟨1, circle_anchored x ?_⟩
  fin_cases i <;> simp [circle, Expr.vars] at hx <;> tauto

end Double

end Tom
