import Verif.Props.IeeeLM
import Verif.Props.DoubleSimplify
import Verif.Lemmas.Visible
/-
C43 for `double` where variables may occur only in arguments of `exp` and `atan`, in denominators and exponents, and coordinates may be `-0`.
-/
namespace Tom
variable {L : Libm}

/-- vectors that differ only in the signs of zeros -/
def SameVec (a b : Mat (Double L)) : Prop := List.Forall₂ Double.Same a.data b.data

theorem same_norm2 {a b : Mat (Double L)} (h : SameVec a b) : a.norm2 = b.norm2 := by
  have : List.zipWith Arith.mul a.data a.data = List.zipWith Arith.mul b.data b.data := by
    unfold SameVec at h
    revert h
    generalize a.data = l
    generalize b.data = l'
    intro h
    induction h with
    | nil => rfl
    | cons h _ ih => simp only [List.zipWith_cons_cons]; rw [h.square, ih]
  unfold Mat.norm2
  rw [this]

/-- a step of length zero -/
theorem step_zero {x d m : Mat (Double L)} {a : Double L} (ha : Double.Zero a) (h : x.add (Mat.scaleLeft a d) = .ok m) :
    (∀ v ∈ m.data, v.raw ≠ .nan) → (∀ v ∈ d.data, Dbl.isInvalid v = false) ∧ SameVec m x := by
  unfold Mat.add at h
  split at h
  · obtain ⟨e, h1, h⟩ := Res.bind_eq_ok.mp h
    rw [Res.ok.injEq] at h
    subst h
    unfold zipV at h1
    split at h1
    · rename_i hl
      replace hl : x.data.length = d.data.length := by simpa [Mat.scaleLeft] using hl
      rw [Res.ok.injEq] at h1
      subst h1
      show (∀ v ∈ List.zipWith Arith.add x.data (d.data.map fun v => Arith.mul v a), v.raw ≠ .nan) →
        (∀ v ∈ d.data, Dbl.isInvalid v = false) ∧ List.Forall₂ Double.Same (List.zipWith Arith.add x.data (d.data.map fun v => Arith.mul v a)) x.data
      generalize x.data = l at hl
      generalize d.data = l' at hl
      obtain ⟨s, ha⟩ := ha
      clear h
      induction l generalizing l' with
      | nil =>
        cases l' with
        | nil => simp
        | cons b l' => simp at hl
      | cons c l ih =>
        cases l' with
        | nil => simp at hl
        | cons b l' =>
          simp only [List.map_cons, List.zipWith_cons_cons, List.mem_cons, forall_eq_or_imp, List.forall₂_cons]
          rintro ⟨h1, h2⟩
          obtain ⟨h3, h4⟩ := ih l' (by simpa using hl) h2
          have e1 : (Arith.add c (Arith.mul b a) : Double L).raw = F64.add c.raw (F64.mul b.raw a.raw) := rfl
          rw [e1, ha] at h1
          have hb : ∃ t, F64.mul b.raw (.zero s) = .zero t := by
            generalize b.raw = r at h1
            cases r
            · exact absurd (by cases c.raw <;> rfl) h1
            · exact absurd (by cases c.raw <;> rfl) h1
            · exact ⟨_, rfl⟩
            · exact ⟨_, rfl⟩
          refine ⟨⟨?_, h3⟩, ?_, h4⟩
          · obtain ⟨t, hb⟩ := hb
            show F64.isInvalid b.raw = false
            generalize b.raw = r at hb
            cases r <;> first | rfl | cases hb
          · obtain ⟨t, hb⟩ := hb
            refine Double.same_of_raw ?_
            rw [e1, ha, hb]
            cases c.raw <;> first | exact .inl rfl | exact .inr ⟨_, _, rfl, rfl⟩
    · cases h1
  · cases h

/-- C43, C53 for `double`: `Armijo` ends after at most 1076 rounds, in whatever direction, if `f` returns only at points without nan, does not
see the signs of zeros, and its value and the Jacobian at the point are finite. -/
theorem C43_ieee_armijo_nan (f df : Mat (Double L) → Res (Mat (Double L))) (hf : ∀ v, f v ≠ .diverge) (hdf : ∀ v, df v ≠ .diverge)
    (x d : Mat (Double L)) (hvec : IsVec x) (hN : ∀ v F, IsVec v → f v = .ok F → ∀ a ∈ v.data, a.raw ≠ .nan)
    (hS : ∀ v F F', IsVec v → SameVec v x → f v = .ok F → f x = .ok F' → SameVec F F')
    (hF : ∀ F, f x = .ok F → ∀ a ∈ F.data, Dbl.isInvalid a = false)
    (hJ : ∀ F J, f x = .ok F → df x = .ok J → ∀ v ∈ J.data, Dbl.isInvalid v = false)
    (fuel : ℕ) (hfuel : 1075 < fuel) : armijo fuel x d f df ≠ .diverge := by
  let U := Double.underflows L
  have key : ∀ (k fuel : ℕ) (a : Double L), Double.Zero ((fun a => Arith.mul a (lit 5 (-1)))^[k] a) → k < fuel →
      armijoLoop f df x d fuel a ≠ .diverge := by
    intro k
    induction k with
    | zero =>
      intro fuel a ha hk
      obtain ⟨g, rfl⟩ : ∃ g, fuel = g + 1 := ⟨fuel - 1, by omega⟩
      simp only [Function.iterate_zero, id] at ha
      refine bind_ne_diverge (fine_add _ _).1 fun xN h1 => bind_ne_diverge (hf _) fun FN h2 => bind_ne_diverge (fine_norm2 _).1 fun l h3 =>
        bind_ne_diverge (hf _) fun F0 h4 => bind_ne_diverge (hdf _) fun J h5 => bind_ne_diverge (fine_transpose _).1 fun JT h6 =>
        bind_ne_diverge (fine_mul _ _).1 fun p h7 => bind_ne_diverge (fine_add _ _).1 fun s h8 => bind_ne_diverge (fine_norm2 _).1 fun r h9 => ?_
      have hv := (isVec_add hvec h1).1
      obtain ⟨hd, hs⟩ := step_zero ha h1 (hN xN FN hv h2)
      have e1 := same_norm2 (hS xN FN F0 hv hs h2 h4)
      have hp : ∀ v ∈ p.data, U.zero v := by
        refine mul_all (P := U.zero) (Q := U.fin) (R := U.zero) U.zero_zero U.zero_mul U.zero_add ?_ hd h7
        intro v hv
        obtain ⟨w, hw, rfl⟩ := List.mem_map.mp hv
        exact U.mul_zero (transpose_all (P := U.fin) U.fin_zero (hJ F0 J h4 h5) h6 w hw) (U.lit_mul ha)
      have e2 := U.add_square (hF F0 h4) hp h8
      rw [h9, ← e1, h3, Res.ok.injEq] at e2
      subst e2
      rw [if_pos (U.norm2_le (hF F0 h4) (e1.symm.trans h3))]
      simp
    | succ k ih =>
      intro fuel a ha hk
      obtain ⟨g, rfl⟩ : ∃ g, fuel = g + 1 := ⟨fuel - 1, by omega⟩
      refine bind_ne_diverge (fine_add _ _).1 fun xN h1 => bind_ne_diverge (hf _) fun FN h2 => bind_ne_diverge (fine_norm2 _).1 fun l h3 =>
        bind_ne_diverge (hf _) fun F0 h4 => bind_ne_diverge (hdf _) fun J h5 => bind_ne_diverge (fine_transpose _).1 fun JT h6 =>
        bind_ne_diverge (fine_mul _ _).1 fun p h7 => bind_ne_diverge (fine_add _ _).1 fun s h8 => bind_ne_diverge (fine_norm2 _).1 fun r h9 => ?_
      split
      · simp
      · exact ih g _ ha (by omega)
  exact key 1075 fuel (Dbl.ofInt 1) Double.halves hfuel

/-- The value of an operator is checked; so a value is finite if it is not that of a variable. -/
theorem finite_root {e : Expr (Double L)} (he : e.FiniteLits) {env : Str → Res (Double L)} {v : Double L} (h : e.eval true env = .ok v)
    (hv : ∀ y w, e = .var y → env y = .ok w → Dbl.isInvalid w = false) : Dbl.isInvalid v = false := by
  cases e with
  | num c =>
    have : c = v := by simpa [Expr.eval] using h
    subst this
    exact he
  | var y => exact hv y v rfl h
  | un o e =>
    obtain ⟨w, _, h2⟩ := Res.bind_eq_ok.mp h
    obtain ⟨rfl, h3⟩ := strict_ok h2
    exact h3
  | bin o a b =>
    obtain ⟨u, _, h⟩ := Res.bind_eq_ok.mp h
    obtain ⟨w, _, hz⟩ := Res.bind_eq_ok.mp h
    cases ho : o.apply u w with
    | none => rw [ho] at hz; cases hz
    | some r =>
      rw [ho] at hz
      obtain ⟨rfl, h3⟩ := strict_ok hz
      exact h3

theorem anchored_value (hL : L.AtInfinity) {r : ℕ} (hr : 0 < r) {cfg : Config (Double L)} (hs : cfg.throwOnInvalidValue = true)
    {f : Matrix (Fin r) (Fin 1) (Expr (Double L))} {t : VarsTable (Double L)} {F : Mat (Double L)} (h : evalVec cfg (symOf f) t = .ok F) {y : Str}
    {i : Fin r} (ha : (f i 0).Anchored y) {w : Double L} (hw : envOf t.table y = .ok w) : Dbl.isInvalid w = false := by
  obtain ⟨u, rfl, h1⟩ := (evalVec_ok hr cfg f t F).mp h
  have h2 := h1 i
  rw [hs] at h2
  obtain ⟨w', h3, h4⟩ := ha.finite hL h2
  rw [hw, Res.ok.injEq] at h3
  subst h3
  exact h4

theorem pinned_value (hL : L.AtInfinity) (hL' : L.SpecialPoints) {r : ℕ} (hr : 0 < r) {cfg : Config (Double L)} (hs : cfg.throwOnInvalidValue = true)
    {f : Matrix (Fin r) (Fin 1) (Expr (Double L))} {t : VarsTable (Double L)} {F : Mat (Double L)} (h : evalVec cfg (symOf f) t = .ok F) {y : Str}
    (hy : Pinned f y) {w : Double L} (hw : envOf t.table y = .ok w) : w.raw ≠ .nan := by
  rcases hy with ⟨i, ha⟩ | ⟨⟨i, hi⟩, _⟩
  · intro hn
    have := anchored_value hL hr hs h ha hw
    rw [Double.nan_invalid hn] at this
    cases this
  · obtain ⟨u, rfl, h1⟩ := (evalVec_ok hr cfg f t F).mp h
    have h2 := h1 i
    rw [hs] at h2
    exact hi.not_nan hL' hw h2

theorem jacobian_ne_var {r : ℕ} (hr : 0 < r) {cfg : Config (Double L)} (f : Matrix (Fin r) (Fin 1) (Expr (Double L))) (vars : List Str)
    (hn : 0 < vars.length) (D : Matrix (Fin r) (Fin vars.length) (Expr (Double L))) (hJ : (symOf f).jacobian cfg vars = .ok (symOf D)) (i : Fin r)
    (j : Fin vars.length) {y : Str} (hy : (f i 0).Buried y) : D i j ≠ .var y := by
  obtain ⟨_, _, _, h⟩ := C32 hr cfg f vars hn _ hJ
  obtain ⟨d, h1, h2⟩ := h i j
  rw [C50_value, Res.ok.injEq] at h1
  have e := embed_injective h1
  subst e
  unfold diffConst at h2
  rw [clone_eq _ (embed_isSome _), Res.bind_ok] at h2
  exact diff_ne_var hy h2

/-- C43 for `double` in a configuration that rejects inf and nan (the default), partial: LM with a non-negative `maxIterations` ends, each line
search after at most 1076 rounds, whatever the equations are, from whatever start and wherever the run leads, if the literals are finite
and the equations are not blind to a variable (`Pinned`).
Missing: configurations that do not reject inf and nan, see `C43_false_nan`; negative `maxIterations`; equations that are blind to a variable
(a bare variable as an equation that no other equation contains, `1^x`, `x^0`, ...). -/
theorem C43_ieee_pinned_partial (hL : L.AtInfinity) (hL' : L.SpecialPoints) {r : ℕ} (hr : 0 < r) (cfg : Config (Double L))
    (hs : cfg.throwOnInvalidValue = true) (hmax : 0 ≤ cfg.maxIterations) (lsFuel fuel : ℕ) (hls : 1075 < lsFuel)
    (hfuel : cfg.maxIterations < fuel) (f : Matrix (Fin r) (Fin 1) (Expr (Double L))) (hf : ∀ i, (f i 0).FiniteLits)
    {t : VarsTable (Double L)} (ht : t.Reachable) (ha : ∀ y ∈ t.vars, Pinned f y) : solveByLM cfg lsFuel fuel (symOf f) t ≠ .diverge := by
  refine C43_lm_partial hr cfg hmax lsFuel fuel hfuel f ht ?_
  rintro J hJ t0 k t1 d hvs ⟨r0, r1, hv, _⟩
  obtain ⟨D, rfl⟩ := jacobian_symOf hr cfg f t.vars ht.pos J hJ
  have hset : ∀ {v t2}, IsVec v → t1.setValues v = .ok t2 → t2.Good ∧ t2.vars = t.vars ∧ t2.values = v := by
    intro v t2 hvec h
    obtain ⟨h1, h2, h3⟩ := setValues_good r1.good hvec h
    exact ⟨h1, h2.trans (hv.trans hvs), h3⟩
  have hmem : ∀ {t2 : VarsTable (Double L)} {y : Str} {w : Double L}, t2.Good → t2.vars = t.vars → envOf t2.table y = .ok w → y ∈ t.vars := by
    intro t2 y w g h2 h
    rw [← h2]
    exact (List.of_mem_zip ((env_mem g _ _).mp h)).1
  have hval : ∀ {t2 : VarsTable (Double L)}, t2.Good → ∀ k (hk : k < t2.values.data.length), ∃ hk' : k < t2.vars.length,
      envOf t2.table t2.vars[k] = .ok t2.values.data[k] := by
    intro t2 g k hk
    have hl : t2.vars.length = t2.values.data.length := by rw [g.vec.2, g.len]
    exact ⟨by omega, (env_mem g _ _).mpr (by
      rw [List.mem_iff_getElem]
      exact ⟨k, by simp; omega, by simp⟩)⟩
  refine C43_ieee_armijo_nan _ _ ?_ ?_ _ _ r0.good.vec ?_ ?_ ?_ ?_ lsFuel hls
  · intro v; exact (fine_bind (fine_setValues _ _) fun t _ => fine_evalVec hr cfg f t).1
  · intro v; exact (fine_bind (fine_setValues _ _) fun t _ => fine_evalMat hr ht.pos cfg D t).1
  · intro v F hvec hF a hmv
    obtain ⟨t2, h5, h6⟩ := Res.bind_eq_ok.mp hF
    obtain ⟨g, hv2, rfl⟩ := hset hvec h5
    obtain ⟨k, hk, rfl⟩ := List.getElem_of_mem hmv
    obtain ⟨hk', hw⟩ := hval g k hk
    exact pinned_value hL hL' hr hs h6 (ha _ (by rw [← hv2]; exact List.getElem_mem _)) hw
  · intro v F F' hvec hsame hF hF'
    obtain ⟨t2, h5, h6⟩ := Res.bind_eq_ok.mp hF
    obtain ⟨t3, h5', h6'⟩ := Res.bind_eq_ok.mp hF'
    obtain ⟨g, hv2, rfl⟩ := hset hvec h5
    obtain ⟨g', hv3, hval3⟩ := hset r0.good.vec h5'
    obtain ⟨u, rfl, h1⟩ := (evalVec_ok hr cfg f t2 F).mp h6
    obtain ⟨u', rfl, h1'⟩ := (evalVec_ok hr cfg f t3 F').mp h6'
    have henv : ∀ x y y', envOf t2.table x = .ok y → envOf t3.table x = .ok y' → y.Same y' := by
      intro x y y' hy hy'
      have m1 := (env_mem g x y).mp hy
      have m2 := (env_mem g' x y').mp hy'
      rw [hv2] at m1
      rw [hv3, hval3] at m2
      unfold SameVec at hsame
      obtain ⟨a, ha1, ha2⟩ := List.mem_iff_getElem.mp m1
      obtain ⟨b, hb1, hb2⟩ := List.mem_iff_getElem.mp m2
      simp only [List.getElem_zip, Prod.mk.injEq] at ha2 hb2
      simp only [List.length_zip, lt_min_iff] at ha1 hb1
      have hn : t.vars.Nodup := by rw [← hv2]; exact g.nodup
      have hab : a = b := (hn.getElem_inj_iff).mp (ha2.1.trans hb2.1.symm)
      subst hab
      rw [← ha2.2, ← hb2.2]
      exact (List.forall₂_iff_get.mp hsame).2 a ha1.2 hb1.2
    unfold SameVec
    rw [ofEntries_entries, ofEntries_entries]
    refine List.forall₂_iff_get.mpr ⟨by simp [entries_length], fun i h1i h2i => ?_⟩
    simp only [entries, List.get_eq_getElem, List.getElem_ofFn]
    have a1 := h1 ⟨i, by simpa [entries_length] using h1i⟩
    have a2 := h1' ⟨i, by simpa [entries_length] using h1i⟩
    rw [hs] at a1 a2
    have := eval_same hL' henv a1 a2
    convert this using 2 <;> first | exact Subsingleton.elim _ _ | (apply Fin.ext; simp [Fin.divNat])
  · intro F hF
    obtain ⟨t2, h5, h6⟩ := Res.bind_eq_ok.mp hF
    obtain ⟨g, hv2, _⟩ := hset r0.good.vec h5
    obtain ⟨u, rfl, h1⟩ := (evalVec_ok hr cfg f t2 F).mp h6
    intro a hma
    rw [ofEntries_entries] at hma
    obtain ⟨i, j, rfl⟩ := (mem_entries u a).mp hma
    rw [Subsingleton.elim j 0]
    have h2 := h1 i
    rw [hs] at h2
    refine finite_root (hf i) h2 fun y w he hw => ?_
    rcases ha y (hmem g hv2 hw) with ⟨i', hi⟩ | ⟨_, hi⟩
    · exact anchored_value hL hr hs h6 hi hw
    · have := hi i
      rw [he] at this
      exact absurd rfl this
  · intro F j hF hj
    obtain ⟨t2, h5, h6⟩ := Res.bind_eq_ok.mp hF
    obtain ⟨t3, h5', h6'⟩ := Res.bind_eq_ok.mp hj
    rw [h5, Res.ok.injEq] at h5'
    subst h5'
    obtain ⟨g, hv2, _⟩ := hset r0.good.vec h5
    obtain ⟨u, rfl, h1⟩ := (C50_evaluate hr ht.pos cfg D t2 j).mp h6'
    intro a hma
    rw [ofEntries_entries] at hma
    obtain ⟨i, k, rfl⟩ := (mem_entries u a).mp hma
    have h2 := h1 i k
    rw [hs] at h2
    refine finite_root (jacobian_finiteLits hL hr hs f hf t.vars ht.pos D hJ i k) h2 fun y w he hw => ?_
    rcases ha y (hmem g hv2 hw) with ⟨i', hi⟩ | ⟨_, hi⟩
    · exact anchored_value hL hr hs h6 hi hw
    · exact absurd he (jacobian_ne_var hr f t.vars ht.pos D hJ i k (hi i))

/-- C43 for `double`, partial: `Solve(equations, table)` ends in both methods (same conditions). -/
theorem C43_ieee_pinned_solve_partial (hL : L.AtInfinity) (hL' : L.SpecialPoints) {r : ℕ} (hr : 0 < r) (cfg : Config (Double L))
    (hs : cfg.throwOnInvalidValue = true) (hmax : 0 ≤ cfg.maxIterations) (lsFuel fuel : ℕ) (hls : 1075 < lsFuel)
    (hfuel : cfg.maxIterations < fuel) (f : Matrix (Fin r) (Fin 1) (Expr (Double L))) (hf : ∀ i, (f i 0).FiniteLits)
    {t : VarsTable (Double L)} (ht : t.Reachable) (ha : ∀ y ∈ t.vars, Pinned f y) : solve cfg lsFuel fuel (symOf f) t ≠ .diverge := by
  unfold solve
  split
  · exact (C43_newton hr cfg f ht).1
  · exact C43_ieee_pinned_partial hL hL' hr cfg hs hmax lsFuel fuel hls hfuel f hf ht ha
  · simp

/-- C43 for `double`, partial: `Solve(equations)` ends in both methods, whatever the initial value (same conditions, for the variables of the
equations). -/
theorem C43_ieee_pinned_solveAuto_partial (hL : L.AtInfinity) (hL' : L.SpecialPoints) {r : ℕ} (hr : 0 < r) (cfg : Config (Double L))
    (hs : cfg.throwOnInvalidValue = true) (hmax : 0 ≤ cfg.maxIterations) (lsFuel fuel : ℕ) (hls : 1075 < lsFuel)
    (hfuel : cfg.maxIterations < fuel) (f : Matrix (Fin r) (Fin 1) (Expr (Double L))) (hf : ∀ i, (f i 0).FiniteLits)
    (ha : ∀ i, ∀ y ∈ (f i 0).vars, Pinned f y) : solveAuto cfg lsFuel fuel (symOf f) ≠ .diverge := by
  obtain ⟨names, h1, h2, h3⟩ := C50_getAllVarNames f
  unfold solveAuto
  rw [h1, Res.bind_ok]
  refine bind_ne_diverge ?_ fun t h4 => ?_
  · unfold VarsTable.ofVars Mat.new
    split
    · rw [Res.bind_ok]
      dsimp only
      split <;> simp
    · simp
  have hv := (C47_ofVars h4).1
  refine C43_ieee_pinned_solve_partial hL hL' hr cfg hs hmax lsFuel fuel hls hfuel f hf (.ofVars h4) ?_
  intro x hx
  rw [hv] at hx
  obtain ⟨i, j, hx⟩ := (h3 x).mp hx
  rw [Subsingleton.elim j 0] at hx
  exact ha i x hx

/-! ### the hypotheses are met -/
namespace Double

/-- a libm whose functions pass nan on -/
def libmV : Libm := ⟨id, id, id, id, id, id, id, id, id, id, id, fun x y => if y.1 = .nan then y else x, libstdcxxOrder⟩

theorem powV (x y : Double libmV) : Dbl.pow x y = if y.raw = .nan then y else x := rfl

theorem atInfinityV : libmV.AtInfinity where
  sin _ h := h
  cos _ h := h
  tan _ h := h
  asin _ h := h
  acos _ h := h
  sqrt _ h := h
  log _ h := h
  log2 _ h := h
  log10 _ h := h
  pow x y q h hy _ := by
    rw [powV]
    split
    · rename_i hn
      exact nan_invalid hn
    · exact h
  ln_two := by decide +kernel
  ln_ten := by decide +kernel

theorem same_is {x x' : Double L} {r : ℚ} (h : x.Same x') (hx : x.Is r) : x'.Is r := by
  rcases h with rfl | ⟨⟨s, h1⟩, t, h2⟩
  · exact hx
  · rw [is_unique hx (is_zero h1)]; exact is_zero h2

theorem specialPointsV : libmV.SpecialPoints where
  nan o x h := by
    cases o
    case neg => show F64.neg x.raw = .nan; rw [h]; rfl
    all_goals exact h
  pow_nan x y q h _ _ := by
    rw [powV]
    split <;> assumption
  nan_pow x y q h _ _ := by rw [powV, if_pos h]; exact h
  pow_nan_nan x y h h' := by rw [powV, if_pos h']; exact h'
  zero o x x' r h hx := by
    cases o
    case neg => exact same_is h.neg hx
    all_goals exact same_is h hx
  pow_zero x x' y y' r h h' hx := by
    have e : y'.raw = .nan ↔ y.raw = .nan := by
      rcases h' with rfl | ⟨⟨s, h1⟩, t, h2⟩
      · rfl
      · rw [h1, h2]; simp
    rw [powV] at hx ⊢
    split at hx
    · rename_i hn
      have := hx.1
      rw [hn] at this
      cases this
    · rename_i hn
      rw [if_neg (fun hc => hn (e.mp hc))]
      exact same_is h hx

/-- `exp(x) - 2`, `1/y + atan(x)` : the variables occur only where `Anchored` leaves them out -/
def buried : Matrix (Fin 2) (Fin 1) (Expr (Double libmV)) := fun i _ =>
  if i = 0 then .bin .sub (.un .exp (.var ['x'])) (.num (Dbl.ofInt 2))
  else .bin .add (.bin .div (.num (Dbl.ofInt 1)) (.var ['y'])) (.un .atan (.var ['x']))

theorem buried_lits (i : Fin 2) : (buried i 0).FiniteLits := by
  have h2 : Dbl.isInvalid (Dbl.ofInt 2 : Double libmV) = false := valid_ofInt 2 (by norm_num)
  have h1 : Dbl.isInvalid (Dbl.ofInt 1 : Double libmV) = false := valid_ofInt 1 (by norm_num)
  fin_cases i <;> simp [buried, Expr.FiniteLits, h1, h2]

theorem buried_pinned (y : Str) (hy : y = ['x'] ∨ y = ['y']) : Pinned buried y := by
  right
  refine ⟨⟨1, ?_⟩, fun i => ?_⟩
  · rcases hy with rfl | rfl <;> simp [buried, Expr.Visible, Expr.Shows]
  · rcases hy with rfl | rfl <;> fin_cases i <;> simp [buried, Expr.Buried]

/-- It is not anchored. -/
example (i : Fin 2) (y : Str) : ¬ (buried i 0).Anchored y := by
  fin_cases i <;> simp [buried, Expr.Anchored]

/-- the default configuration (config.h:12-41) with LM -/
def configV : Config (Double libmV) where
  throwOnInvalidValue := true
  epsilon := lit 1 (-9)
  maxIterations := 100
  nonlinearMethod := .lm
  initialValue := Dbl.ofInt 1
  allowIndeterminateEquation := false

/-- In the default configuration, `Solve` ends on this system from every start, also from inf, nan and `-0`. -/
example (a b : Double libmV) (t : VarsTable (Double libmV)) (ht : VarsTable.ofList [(['x'], a), (['y'], b)] = .ok t) :
    solveByLM configV 1076 101 (symOf buried) t ≠ .diverge := by
  have hr : t.Reachable := .ofList ht
  have e : VarsTable.ofList [(['x'], a), (['y'], b)] = .ok ⟨[['x'], ['y']], ⟨2, 1, [a, b]⟩, [(['x'], a), (['y'], b)]⟩ := rfl
  rw [e, Res.ok.injEq] at ht
  subst ht
  refine C43_ieee_pinned_partial atInfinityV specialPointsV (by norm_num) configV rfl (by decide) 1076 101 (by decide) (by decide) buried
    buried_lits hr ?_
  intro x hx
  exact buried_pinned x (by simpa using hx)

example : solveAuto configV 1076 101 (symOf buried) ≠ .diverge := by
  refine C43_ieee_pinned_solveAuto_partial atInfinityV specialPointsV (by norm_num) configV rfl (by decide) 1076 101 (by decide) (by decide) buried
    buried_lits ?_
  intro i x hx
  refine buried_pinned x ?_
  fin_cases i <;> simp [buried, Expr.vars] at hx <;> tauto

/-! ### and some hypothesis of this kind is needed -/

/-- the equation `x` -/
def bare : Matrix (Fin 1) (Fin 1) (Expr (Double libmV)) := fun _ _ => .var ['x']

/-- its Jacobian -/
def bareJ : SymMat (Double libmV) := symOf (r := 1) (c := 1) fun _ _ => .num (Dbl.ofInt 1)

/-- a table with the variable `x` -/
def varV (v : Double libmV) : VarsTable (Double libmV) := ⟨[['x']], ⟨1, 1, [v]⟩, [(['x'], v)]⟩

/-- nan -/
def qnan : Double libmV := ⟨.nan, trivial⟩

/-- `-inf` -/
def minf : Double libmV := ⟨.inf true, trivial⟩

/-- `+0` or a positive number -/
def PosV (x : Double libmV) : Prop := x.raw = .zero false ∨ ∃ q, 0 < q ∧ x.raw = .num q

theorem pos_half {x : Double libmV} (h : PosV x) : PosV (Arith.mul x (lit 5 (-1))) := by
  unfold PosV
  have e : (Arith.mul x (lit 5 (-1)) : Double libmV).raw = F64.mul x.raw (lit 5 (-1) : Double libmV).raw := rfl
  rw [e, half_raw]
  rcases h with h | ⟨q, hq, h⟩
  · left; rw [h]; decide +kernel
  · rw [h]
    have e2 : F64.mul (.num q) (.num (1 / 2)) = F64.round false (q * (1 / 2)) := rfl
    have hx := x.ok
    rw [e2, round_eq, if_neg (by linarith)]
    split_ifs with h1 h2
    · left; rw [decide_eq_false (by linarith)]
    · exfalso
      have h3 := isDouble_lt (is_double (is_num h))
      have h4 : |rnd (q * (1 / 2))| ≤ |q| := by
        refine abs_rnd_le _ _ ((isDouble_iff _).mp (isDouble_abs (is_double (is_num h)))).1 ?_
        rw [abs_of_pos (by linarith), abs_of_pos hq]; linarith
      exact absurd (h2.trans h4) (not_le.mpr h3)
    · right
      refine ⟨_, lt_of_le_of_ne ?_ (Ne.symm h1), rfl⟩
      exact le_rnd _ 0 ((isDouble_iff 0).mp isDouble_zero).1 (by linarith)

theorem inf_step {alpha : Double libmV} (h : PosV alpha) : Arith.add (Dbl.inf : Double libmV) (Arith.mul minf alpha) = qnan := by
  refine Double.ext ?_
  have e : (Arith.add (Dbl.inf : Double libmV) (Arith.mul minf alpha)).raw = F64.add (.inf false) (F64.mul (.inf true) alpha.raw) := rfl
  rw [e]
  rcases h with h | ⟨q, hq, h⟩ <;> rw [h]
  · rfl
  · have : ¬ q < 0 := by linarith
    simp [F64.mul, F64.signBit, this, F64.add]
    rfl

theorem bare_search (limit : ℤ) (lsFuel : ℕ) (alpha : Double libmV) (ha : PosV alpha) :
    armijoLoop (lmF { configV with maxIterations := limit } (symOf bare) (varV Dbl.inf))
      (lmDF { configV with maxIterations := limit } bareJ (varV Dbl.inf)) ⟨1, 1, [Dbl.inf]⟩ ⟨1, 1, [minf]⟩ lsFuel alpha = .diverge := by
  induction lsFuel generalizing alpha with
  | zero => rfl
  | succ n ih =>
    have h1 : (⟨1, 1, [Dbl.inf]⟩ : Mat (Double libmV)).add (Mat.scaleLeft alpha ⟨1, 1, [minf]⟩) = .ok ⟨1, 1, [qnan]⟩ := by
      rw [← inf_step ha]; rfl
    have h2 : lmF { configV with maxIterations := limit } (symOf bare) (varV Dbl.inf) ⟨1, 1, [qnan]⟩ = .ok ⟨1, 1, [qnan]⟩ := by
      show lmF configV (symOf bare) (varV Dbl.inf) ⟨1, 1, [qnan]⟩ = _
      decide +kernel
    have h3 : (⟨1, 1, [qnan]⟩ : Mat (Double libmV)).norm2 = .ok qnan := by decide +kernel
    have h4 : lmF { configV with maxIterations := limit } (symOf bare) (varV Dbl.inf) ⟨1, 1, [Dbl.inf]⟩ = .ok ⟨1, 1, [Dbl.inf]⟩ := by
      show lmF configV (symOf bare) (varV Dbl.inf) ⟨1, 1, [Dbl.inf]⟩ = _
      decide +kernel
    have h5 : lmDF { configV with maxIterations := limit } bareJ (varV Dbl.inf) ⟨1, 1, [Dbl.inf]⟩ = .ok ⟨1, 1, [Dbl.ofInt 1]⟩ := by
      show lmDF configV bareJ (varV Dbl.inf) _ = _
      decide +kernel
    have h6 : (⟨1, 1, [Dbl.ofInt 1]⟩ : Mat (Double libmV)).transpose = .ok ⟨1, 1, [Dbl.ofInt 1]⟩ := by decide +kernel
    have h7 : ∃ w, (Mat.scaleLeft (Arith.mul (lit 4 (-1)) alpha) ⟨1, 1, [Dbl.ofInt 1]⟩ : Mat (Double libmV)).mul ⟨1, 1, [minf]⟩ = .ok ⟨1, 1, [w]⟩ :=
      ⟨_, rfl⟩
    obtain ⟨w, h7⟩ := h7
    have h8 : (⟨1, 1, [Dbl.inf]⟩ : Mat (Double libmV)).add ⟨1, 1, [w]⟩ = .ok ⟨1, 1, [Arith.add Dbl.inf w]⟩ := rfl
    have h9 : ∃ u, (⟨1, 1, [Arith.add Dbl.inf w]⟩ : Mat (Double libmV)).norm2 = .ok u := ⟨_, rfl⟩
    obtain ⟨u, h9⟩ := h9
    have h10 : Arith.le qnan u = false := rfl
    rw [armijoLoop, h1, Res.bind_ok, h2, Res.bind_ok, h3, Res.bind_ok, h4, Res.bind_ok, h5, Res.bind_ok, h6, Res.bind_ok, h7,
      Res.bind_ok, h8, Res.bind_ok, h9, Res.bind_ok, h10, if_neg (by simp)]
    exact ih _ (pos_half ha)

/-- C43 fails for LM also in configurations that reject inf and nan: a bare variable is not checked when it is evaluated, and on the equation
`x`, started at inf, the line search runs forever, whatever `maxIterations` is. -/
theorem C43_false_bare (limit : ℤ) (lsFuel fuel : ℕ) : (varV Dbl.inf).Reachable ∧ configV.throwOnInvalidValue = true ∧
    solveByLM { configV with maxIterations := limit } lsFuel fuel (symOf bare) (varV Dbl.inf) = .diverge := by
  have hr : (varV Dbl.inf).Reachable := .ofList (l := [(['x'], Dbl.inf)]) rfl
  refine ⟨hr, rfl, ?_⟩
  have hJ : (symOf bare).jacobian { configV with maxIterations := limit } (varV Dbl.inf).vars = .ok bareJ := by
    show (symOf bare).jacobian configV (varV Dbl.inf).vars = .ok bareJ
    decide +kernel
  rw [lm_unfold _ _ _ _ hr, hJ, Res.bind_ok]
  cases fuel with
  | zero => rfl
  | succ fuel =>
    have e1 : evalVec { configV with maxIterations := limit } (symOf bare) (varV Dbl.inf) = .ok ⟨1, 1, [Dbl.inf]⟩ := by
      show evalVec configV (symOf bare) (varV Dbl.inf) = _
      decide +kernel
    have e2 : evalMat { configV with maxIterations := limit } bareJ (varV Dbl.inf) = .ok ⟨1, 1, [Dbl.ofInt 1]⟩ := by
      show evalMat configV bareJ (varV Dbl.inf) = _
      decide +kernel
    have e3 : (⟨1, 1, [Dbl.inf]⟩ : Mat (Double libmV)).eqNum configV.epsilon (Dbl.ofInt 0) = false := by decide +kernel
    have e4 : (⟨1, 1, [Dbl.ofInt 1]⟩ : Mat (Double libmV)).transpose = .ok ⟨1, 1, [Dbl.ofInt 1]⟩ := by decide +kernel
    have e5 : (⟨1, 1, [Dbl.ofInt 1]⟩ : Mat (Double libmV)).mul ⟨1, 1, [Dbl.ofInt 1]⟩ = .ok ⟨1, 1, [Dbl.ofInt 1]⟩ := by decide +kernel
    have e6 : (⟨1, 1, [Dbl.ofInt 1]⟩ : Mat (Double libmV)).mul ⟨1, 1, [Dbl.inf]⟩ = .ok ⟨1, 1, [Dbl.inf]⟩ := by decide +kernel
    have e7 : ∃ z o m, Mat.new 1 1 (Arith.zero : Double libmV) = .ok z ∧ z.ones = .ok o ∧
        (⟨1, 1, [Dbl.ofInt 1]⟩ : Mat (Double libmV)).add (Mat.scaleLeft (lit 1 (-5)) o) = .ok m ∧
        solveLinear configV m (⟨1, 1, [Dbl.inf]⟩ : Mat (Double libmV)).neg = .ok ⟨1, 1, [minf]⟩ :=
      ⟨⟨1, 1, [Dbl.ofInt 0]⟩, ⟨1, 1, [Dbl.ofInt 1]⟩, ⟨1, 1, [Arith.add (Dbl.ofInt 1) (lit 1 (-5))]⟩, by decide +kernel, by decide +kernel,
        by decide +kernel, by decide +kernel⟩
    obtain ⟨z, o, m, z1, z2, z3, z4⟩ := e7
    have e8 : (⟨1, 1, [Dbl.inf]⟩ : Mat (Double libmV)).toVec = .ok ⟨1, 1, [Dbl.inf]⟩ := by decide +kernel
    have z4' : solveLinear { configV with maxIterations := limit } m (⟨1, 1, [Dbl.inf]⟩ : Mat (Double libmV)).neg = .ok ⟨1, 1, [minf]⟩ := z4
    unfold lmOuter
    rw [e1, Res.bind_ok]
    rw [if_neg (by rw [e3]; simp)]
    unfold lmInner
    rw [e2, Res.bind_ok, e4, Res.bind_ok, e5, Res.bind_ok, z1, Res.bind_ok, z2, Res.bind_ok, z3, Res.bind_ok, e6, Res.bind_ok, e8,
      Res.bind_ok, z4', Res.bind_ok]
    have := bare_search limit lsFuel (Dbl.ofInt 1) (.inr ⟨1, one_pos, by decide +kernel⟩)
    have h : armijo lsFuel (varV Dbl.inf).values ⟨1, 1, [minf]⟩
      (fun v => do
        let t ← (varV Dbl.inf).setValues v
        evalVec { configV with maxIterations := limit } (symOf bare) t)
      (fun v => do
        let t ← (varV Dbl.inf).setValues v
        evalMat { configV with maxIterations := limit } bareJ t) = .diverge := this
    rw [h]
    rfl

end Double

end Tom
