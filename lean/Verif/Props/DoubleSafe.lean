import Verif.Spec.Moderate
import Verif.Lemmas.DoubleSafe
import Verif.Lemmas.Blame
import Verif.Props.DoubleLinear
import Verif.Props.IeeeSafety
/-
C85: `SolveLinear`, and Newton-Raphson, with doubles: no assertion fails as long as the numbers are not huge.
-/
namespace Tom
open Double
variable {L : Libm}

theorem ElimRoom.step {r : ℕ} {ε M : ℚ} (h : ElimRoom r ε M) : stepGrowth ^ r * M ≤ ε * 2 ^ 998 := by
  rw [← growth_eq]; exact h.room

/-- C85: `SolveLinear` with finite doubles of absolute value at most `M`, any number of equations and unknowns, the matrix singular or
not: it returns one number for each unknown, or throws a `MathError`. -/
theorem C85 (cfg : Config (Double L)) {r c : ℕ} (hr : 0 < r) (hc : 0 < c) {ε M : ℚ} (he : cfg.epsilon.Is ε) (hM : ElimRoom r ε M)
    (A : Matrix (Fin r) (Fin c) (Double L)) (b : Fin r → Double L) (hA : ∀ i j, (A i j).AtMost M) (hb : ∀ i, (b i).AtMost M) :
    (∃ x : Fin c → Double L, solveLinear cfg (ofEntries A) (vec b) = .ok (vec x)) ∨
    ∃ e, solveLinear cfg (ofEntries A) (vec b) = .throw (.math e) := by
  rw [ofEntries_eq, vec_eq]
  rcases solveLinear_safe cfg hr hc he hM.eps_pos hM.eps_le hM.one_le hM.step (f := extE A) (b := Double.extV b) (fun i _ hi => ⟨fun j hj => by
    have := hA ⟨i, hi⟩ ⟨j, hj⟩
    unfold extE
    rw [dif_pos ⟨hi, hj⟩]
    exact this, by
    have := hb ⟨i, hi⟩
    unfold Double.extV
    rw [dif_pos hi]
    exact this⟩) with ⟨w, h⟩ | h
  · exact .inl ⟨fun i => w i, by rw [h, vec_mk']⟩
  · exact .inr h

/-! ### Newton-Raphson -/

/-- what goes wrong, if anything does: a point is visited at which an equation or a derivative has a huge or invalid value -/
def HugeVisit (cfg : Config (Double L)) (eqs J : SymMat (Double L)) (M : ℚ) (t : VarsTable (Double L)) : Prop :=
  ∃ t' F A, NewtonVisits cfg eqs J t t' ∧ t'.Reachable ∧ t'.vars = t.vars ∧ evalVec cfg eqs t' = .ok F ∧ evalMat cfg J t' = .ok A ∧
    ∃ v ∈ F.data ++ A.data, ¬ v.AtMost M

theorem atMost_neg {M : ℚ} {v : Double L} (h : v.AtMost M) : (Arith.neg v).AtMost M := by
  have := neg_is h.1.is
  exact ⟨this.finite, by rw [this.rat, abs_neg]; exact h.2⟩

theorem ofEntries_mem {α : Type} [Arith α] {r c : ℕ} (A : Matrix (Fin r) (Fin c) α) (i : Fin r) (j : Fin c) : A i j ∈ (ofEntries A).data := by
  unfold ofEntries
  rw [List.mem_ofFn]
  exact ⟨finProdFinEquiv (i, j), by
    have h1 : (finProdFinEquiv (i, j)).divNat = i := congrArg Prod.fst (finProdFinEquiv.symm_apply_apply (i, j))
    have h2 : (finProdFinEquiv (i, j)).modNat = j := congrArg Prod.snd (finProdFinEquiv.symm_apply_apply (i, j))
    simp [h1, h2]⟩

theorem newton_step_safe {r n : ℕ} (hr : 0 < r) (hn : 0 < n) {cfg : Config (Double L)} {ε M : ℚ} (he : cfg.epsilon.Is ε) (hM : ElimRoom r ε M)
    {F : Matrix (Fin r) (Fin 1) (Double L)} {A : Matrix (Fin r) (Fin n) (Double L)} (h : ∀ v ∈ (ofEntries F).data ++ (ofEntries A).data, v.AtMost M) :
    (∃ d, IsVec d ∧ d.rows = n ∧ solveLinear cfg (ofEntries A) (ofEntries F).neg = .ok d) ∨
    ∃ e, solveLinear cfg (ofEntries A) (ofEntries F).neg = .throw (.math e) := by
  have e1 : (ofEntries F).neg = vec fun i => Arith.neg (F i 0) := by
    rw [C33_neg]
    unfold vec ofEntries
    congr 1
    apply List.ext_getElem
    · simp
    · intro i h1 h2
      simp only [List.getElem_ofFn, Matrix.map_apply]
      congr 2
      · apply Fin.ext
        simp
      · exact Subsingleton.elim _ _
  rw [e1]
  refine (C85 cfg hr hn he hM A _ (fun i j => h _ (List.mem_append_right _ (ofEntries_mem A i j)))
    (fun i => atMost_neg (h _ (List.mem_append_left _ (ofEntries_mem F i 0))))).imp (fun ⟨x, hx⟩ => ⟨_, ?_, rfl, hx⟩) id
  exact ⟨rfl, by simp [vec, ofEntries]⟩

/-- C85, Newton-Raphson: for any equations that the library can differentiate, any initial values and any limit, it returns or throws;
otherwise it has visited a point where an equation or a derivative is inf, nan or larger than `M`. -/
theorem C85_newton {r : ℕ} (hr : 0 < r) {cfg : Config (Double L)} {ε M : ℚ} (he : cfg.epsilon.Is ε) (hM : ElimRoom r ε M)
    (f : Matrix (Fin r) (Fin 1) (Expr (Double L))) {t : VarsTable (Double L)} (ht : t.Reachable) {J : SymMat (Double L)}
    (hJ : (symOf f).jacobian cfg t.vars = .ok J) :
    (solveByNewtonRaphson cfg (symOf f) t).Handled ∨ HugeVisit cfg (symOf f) J M t := by
  have hn := ht.pos
  obtain ⟨hi, D, rfl, hD⟩ := jacobian_noInt hr cfg f t.vars hn J hJ
  -- one round of the loop
  have round : ∀ n it (t' : VarsTable (Double L)) (q : Mat (Double L)), t'.Reachable → t'.vars = t.vars → IsVec q → q.rows = t.vars.length →
      NewtonVisits cfg (symOf f) (symOf D) t t' →
      (∀ d t1, NewtonCorrection cfg (symOf f) (symOf D) t' d → q.add d = .ok t1.values → t1.Reachable → t1.vars = t.vars → IsVec t1.values →
        t1.values.rows = t.vars.length →
        newtonLoop cfg (symOf f) (symOf D) n (it + 1) t1 t1.values = .diverge ∨
        (newtonLoop cfg (symOf f) (symOf D) n (it + 1) t1 t1.values).Handled ∨ HugeVisit cfg (symOf f) (symOf D) M t) →
      newtonLoop cfg (symOf f) (symOf D) (n + 1) it t' q = .diverge ∨
      (newtonLoop cfg (symOf f) (symOf D) (n + 1) it t' q).Handled ∨ HugeVisit cfg (symOf f) (symOf D) M t := by
    intro n it t' q ht' hv hq hqr hvis hnext
    unfold newtonLoop
    rcases evalVec_handled cfg hr f hi t' with ⟨F, h1⟩ | ⟨e, h1⟩
    swap
    · rw [h1]; exact .inr (.inl (.inr ⟨e, rfl⟩))
    rw [h1, Res.bind_ok]
    split
    · exact .inr (.inl (.inl ⟨_, rfl⟩))
    split
    · exact .inr (.inl (.inr ⟨_, rfl⟩))
    rcases evalMat_handled cfg hr hn D hD t' with ⟨A, h2⟩ | ⟨e, h2⟩
    swap
    · rw [h2]; exact .inr (.inl (.inr ⟨e, rfl⟩))
    rw [h2, Res.bind_ok]
    by_cases hbig : ∀ v ∈ F.data ++ A.data, v.AtMost M
    swap
    · push Not at hbig
      exact .inr (.inr ⟨t', F, A, hvis, ht', hv, h1, h2, hbig⟩)
    obtain ⟨F', rfl, _⟩ := (evalVec_ok hr cfg f t' F).mp h1
    obtain ⟨A', rfl, _⟩ := (C50_evaluate hr hn cfg D t' A).mp h2
    rcases newton_step_safe hr hn he hM hbig with ⟨d, hd, hdr, h3⟩ | ⟨e, h3⟩
    swap
    · rw [h3]; exact .inr (.inl (.inr ⟨_, rfl⟩))
    rw [h3, Res.bind_ok]
    obtain ⟨q', h4⟩ : ∃ q', q.add d = .ok q' := by
      unfold Mat.add zipV
      rw [if_pos ⟨by rw [hqr, hdr], by rw [hq.1, hd.1]⟩, if_pos (by rw [hq.2, hd.2, hqr, hdr])]
      exact ⟨_, rfl⟩
    rw [h4, Res.bind_ok]
    obtain ⟨hq', hqr'⟩ := isVec_add hq h4
    obtain ⟨t1, h5, _, h6, h7⟩ := setValues_ok ht'.good hq' (by rw [hqr', hqr, hv])
    rw [h5, Res.bind_ok]
    subst h7
    exact hnext d t1 ⟨_, _, h1, h2, h3⟩ h4 (.setValues ht' hq' h5) (h6.trans hv) hq' (hqr'.trans hqr)
  have loop : ∀ n it (t1 : VarsTable (Double L)), t1.Reachable → t1.vars = t.vars → IsVec t1.values → t1.values.rows = t.vars.length →
      (∃ d t0, NewtonCorrection cfg (symOf f) (symOf D) t d ∧ (zeroVec t.vars.length).add d = .ok t0.values ∧ t0.vars = t.vars ∧
        Relation.ReflTransGen (NewtonStep cfg (symOf f) (symOf D)) t0 t1) →
      newtonLoop cfg (symOf f) (symOf D) n it t1 t1.values = .diverge ∨
      (newtonLoop cfg (symOf f) (symOf D) n it t1 t1.values).Handled ∨ HugeVisit cfg (symOf f) (symOf D) M t := by
    intro n
    induction n with
    | zero => exact fun _ _ _ _ _ _ _ => .inl rfl
    | succ n ih =>
      rintro it t1 ht1 hv1 hq1 hr1 ⟨d0, t0, a, b, c, e⟩
      refine round n it t1 t1.values ht1 hv1 hq1 hr1 (.inr ⟨d0, t0, a, b, c, e⟩) ?_
      intro d t2 hc hadd ht2 hv2 hq2 hr2
      exact ih _ t2 ht2 hv2 hq2 hr2 ⟨d0, t0, a, b, c, e.tail ⟨d, hc, hadd, hv2.trans hv1.symm⟩⟩
  have h0 := (C43_newton hr cfg f ht).1
  rw [newton_unfold cfg _ ht, hJ, Res.bind_ok] at h0 ⊢
  exact (round _ 0 t (zeroVec t.vars.length) ht rfl (isVec_zeroVec _) rfl (.inl rfl) (fun d t1 hc hadd ht1 hv1 hq1 hr1 =>
    loop _ _ t1 ht1 hv1 hq1 hr1 ⟨d, t1, hc, hadd, hv1, .refl⟩)).resolve_left h0

/-! ### Levenberg-Marquardt -/

/-- C85, Levenberg-Marquardt, for any arithmetic and any configuration: if there are as many equations as unknowns and the library can
differentiate them, `SolveByLM` returns, throws or runs on, unless one of the linear systems it has to solve makes `SolveLinear` fail. -/
theorem C85_lm_blame {α : Type} [Dbl α] (cfg : Config α) (lsFuel fuel : ℕ) {n : ℕ} (f : Matrix (Fin n) (Fin 1) (Expr α)) {t : VarsTable α}
    (ht : t.Reachable) (hn : n = t.vars.length) {J : SymMat α} (hJ : (symOf f).jacobian cfg t.vars = .ok J) :
    (solveByLM cfg lsFuel fuel (symOf f) t).Defined ∨
    ∃ (m : Matrix (Fin n) (Fin n) α) (b : Matrix (Fin n) (Fin 1) α), LMSystem cfg (symOf f) J t (ofEntries m) (ofEntries b) ∧
      ¬ (solveLinear cfg (ofEntries m) (ofEntries b)).Handled := by
  have hn0 : 0 < n := by have := ht.pos; omega
  obtain ⟨hi, D, rfl, hD⟩ := jacobian_noInt hn0 cfg f t.vars ht.pos J hJ
  subst hn
  rw [lm_unfold cfg _ _ _ ht, hJ, Res.bind_ok]
  generalize hv : t.vars = vars at *
  set B : Prop := ∃ (m : Matrix (Fin vars.length) (Fin vars.length) α) (b : Matrix (Fin vars.length) (Fin 1) α),
    LMSystem cfg (symOf f) (symOf D) t (ofEntries m) (ofEntries b) ∧ ¬ (solveLinear cfg (ofEntries m) (ofEntries b)).Handled with hB
  have hF := evalVec_handled cfg hn0 f hi
  have hA := evalMat_handled cfg hn0 hn0 D hD
  have inner : ∀ (t0 : VarsTable α) (F : Matrix (Fin vars.length) (Fin 1) α), t0.Reachable → t0.vars = vars →
      Relation.ReflTransGen (LMStep cfg (symOf f) (symOf D)) t t0 → evalVec cfg (symOf f) t0 = .ok (ofEntries F) →
      ∀ n k it (s : VarsTable α), s.Reachable → s.vars = vars → LMTrial cfg (symOf f) (symOf D) t0 k s →
      (lmInner cfg lsFuel (symOf f) (symOf D) t0.values (ofEntries F) n s (lmDamping k) it).Defined ∨ B := by
    intro t0 F ht0 hv0 hsteps hF0 n
    have hq : IsVec t0.values := ht0.good.vec
    have hqr : t0.values.rows = vars.length := by rw [ht0.good.len, hv0]
    obtain ⟨Q, hQ⟩ := isVec_ofEntries hq hqr
    induction n with
    | zero => exact fun _ _ _ _ _ _ => .inl (.inr (.inr rfl))
    | succ n ih =>
      intro k it s hs hvs htr
      rw [lmInner_succ, show (Arith.mul (lmDamping k) (Dbl.ofInt 10) : α) = lmDamping (k + 1) from
        (Function.iterate_succ_apply' (fun m => Arith.mul m (Dbl.ofInt 10)) k (lit 1 (-5))).symm]
      -- the direction
      have hdir : (lmDirection cfg (symOf D) (ofEntries F) (lmDamping k) s).Defined ∨ B := by
        rw [lmDirection_normal]
        rcases lmNormal_outcome hn0 cfg D hD F (lmDamping k) s (hA s) with ⟨m, b, h1⟩ | ⟨e, h1⟩
        swap
        · rw [h1]; exact .inl (.inr (.inl ⟨e, rfl⟩))
        rw [h1, Res.bind_ok]
        by_cases hh : (solveLinear cfg (ofEntries m) (ofEntries b)).Handled
        · exact .inl hh.defined
        · exact .inr ⟨m, b, ⟨t0, k, s, _, hsteps, htr, hF0, h1⟩, hh⟩
      refine defined_or_bind hdir fun d hd => ?_
      have hdv : IsVec d ∧ d.rows = vars.length := by
        rw [lmDirection_normal] at hd
        obtain ⟨⟨m, b⟩, h1, h2⟩ := Res.bind_eq_ok.mp hd
        rcases lmNormal_outcome hn0 cfg D hD F (lmDamping k) s (hA s) with ⟨m', b', h3⟩ | ⟨e, h3⟩
        swap
        · rw [h3] at h1; cases h1
        rw [h3, Res.ok.injEq, Prod.mk.injEq] at h1
        obtain ⟨rfl, rfl⟩ := h1
        exact solveLinear_shape hn0 rfl rfl h2
      obtain ⟨d, rfl⟩ := isVec_ofEntries hdv.1 hdv.2
      have hset : ∀ w, IsVec w → w.rows = vars.length → ∃ s', s.setValues w = .ok s' ∧ s'.Reachable ∧ s'.vars = vars ∧ s'.values = w := by
        intro w hw hwr
        obtain ⟨s', g1, _, g2, g3⟩ := setValues_ok hs.good hw (by rw [hwr, hvs])
        exact ⟨s', g1, .setValues hs hw g1, g2.trans hvs, g3⟩
      have harm : (armijo lsFuel t0.values (ofEntries d) (lmF cfg (symOf f) s) (lmDF cfg (symOf D) s)).Defined := by
        unfold armijo
        rw [hQ]
        refine armijoLoop_defined hn0 ?_ ?_ Q d lsFuel _
        · intro w hw hwr
          obtain ⟨s', g1, _, _, _⟩ := hset w hw hwr
          unfold lmF
          rw [g1, Res.bind_ok]
          refine (hF s').imp (fun ⟨F', h⟩ => ?_) id
          obtain ⟨v, rfl, _⟩ := (evalVec_ok hn0 cfg f s' F').mp h
          exact ⟨v, h⟩
        · intro w hw hwr
          obtain ⟨s', g1, _, _, _⟩ := hset w hw hwr
          unfold lmDF
          rw [g1, Res.bind_ok]
          refine (hA s').imp (fun ⟨F', h⟩ => ?_) id
          obtain ⟨v, rfl, _⟩ := (C50_evaluate hn0 hn0 cfg D s' F').mp h
          exact ⟨v, h⟩
      refine defined_or_bind (.inl harm) fun a ha => ?_
      obtain ⟨mm, rfl⟩ := armijoLoop_halvings _ _ _ _ lsFuel 0 a ha
      have hadd := C33_add Q (d.map fun x => Arith.mul x (halvings mm))
      rw [← (C33_scale d _).2, ← hQ] at hadd
      rw [hadd, Res.bind_ok]
      obtain ⟨s1, g1, g2, g3, g4⟩ := hset _ (ofEntries_isVec _) rfl
      rw [g1, Res.bind_ok]
      have hmove : LMMove cfg (symOf f) (symOf D) t0 k s s1 := ⟨_, _, mm, hF0, hd, by rw [g4]; exact hadd, g3.trans hv0.symm⟩
      refine defined_or_bind (.inl (hF s1).defined) fun F1 h1 => ?_
      obtain ⟨F1, rfl, _⟩ := (evalVec_ok hn0 cfg f s1 F1).mp h1
      obtain ⟨n1, hn1⟩ := norm2_entries hn0 F1
      obtain ⟨n2, hn2⟩ := norm2_entries hn0 F
      rw [hn1, Res.bind_ok, hn2, Res.bind_ok]
      split
      · exact .inl (.inl ⟨_, rfl⟩)
      rename_i hlt
      split
      · exact .inl (.inr (.inl ⟨_, rfl⟩))
      · refine ih (k + 1) (it + 1) s1 g2 g3 (.reject htr hmove ?_)
        rintro ⟨G, G1, p, p', k1, k2, k3, k4, k5⟩
        rw [hF0, Res.ok.injEq] at k1
        rw [h1, Res.ok.injEq] at k2
        subst k1 k2
        rw [hn2, Res.ok.injEq] at k3
        rw [hn1, Res.ok.injEq] at k4
        subst k3 k4
        exact hlt k5
  have outer : ∀ n it (t0 : VarsTable α), t0.Reachable → t0.vars = vars → Relation.ReflTransGen (LMStep cfg (symOf f) (symOf D)) t t0 →
      (lmOuter cfg lsFuel fuel (symOf f) (symOf D) n t0 t0.values it).Defined ∨ B := by
    intro n
    induction n with
    | zero => exact fun _ _ _ _ _ => .inl (.inr (.inr rfl))
    | succ n ih =>
      intro it t0 ht0 hv0 hsteps
      unfold lmOuter
      refine defined_or_bind (.inl (hF t0).defined) fun F h1 => ?_
      obtain ⟨F, rfl, _⟩ := (evalVec_ok hn0 cfg f t0 F).mp h1
      split
      · exact .inl (.inl ⟨_, rfl⟩)
      rw [show (lit 1 (-5) : α) = lmDamping 0 from rfl]
      refine defined_or_bind (inner t0 F ht0 hv0 hsteps h1 fuel 0 it t0 ht0 hv0 .start) fun res h2 => ?_
      obtain ⟨dq, FN, t1, it1⟩ := res
      obtain ⟨a, b, c, _⟩ := lmInner_ok cfg lsFuel _ _ t0.values _ ht0.good.vec _ t0 _ _ _ _ _ _ ht0 h2
      have hst := lmInner_steps cfg lsFuel _ _ t0 ht0 _ h1 fuel t0 0 it dq FN t1 it1 ht0 rfl .start h2
      simp only
      rw [c, Res.bind_ok]
      obtain ⟨t2, g1, g0, g2, g3⟩ := setValues_ok a.good a.good.vec (by rw [a.good.len])
      rw [g1, Res.bind_ok]
      have : t2 = t1 := g0.ext a.good g2 g3
      subst this
      split
      · exact .inl (.inr (.inl ⟨_, rfl⟩))
      · exact ih _ t2 a (b.trans hv0) (hsteps.tail hst)
  exact outer fuel 0 t ht hv .refl

/-- C85, Levenberg-Marquardt, with doubles: as many equations as unknowns, any initial values, any limit; it returns, throws or runs on,
unless one of the linear systems `(JᵀJ + mu I) d = -JᵀF` that it forms has an entry that is inf, nan or larger than `M`. -/
theorem C85_lm {cfg : Config (Double L)} (lsFuel fuel : ℕ) {n : ℕ} {ε M : ℚ} (he : cfg.epsilon.Is ε) (hM : ElimRoom n ε M)
    (f : Matrix (Fin n) (Fin 1) (Expr (Double L))) {t : VarsTable (Double L)} (ht : t.Reachable) (hn : n = t.vars.length)
    {J : SymMat (Double L)} (hJ : (symOf f).jacobian cfg t.vars = .ok J) :
    (solveByLM cfg lsFuel fuel (symOf f) t).Defined ∨
    ∃ m b, LMSystem cfg (symOf f) J t m b ∧ ∃ v ∈ m.data ++ b.data, ¬ v.AtMost M := by
  have hn0 : 0 < n := by have := ht.pos; omega
  refine (C85_lm_blame cfg lsFuel fuel f ht hn hJ).imp_right ?_
  rintro ⟨m, b, h1, h2⟩
  refine ⟨_, _, h1, ?_⟩
  by_contra hcon
  push Not at hcon
  apply h2
  have e1 : ofEntries b = vec fun i => b i 0 := by
    unfold vec ofEntries
    congr 1
    apply List.ext_getElem
    · simp
    · intro i h1 h2
      simp only [List.getElem_ofFn]
      congr 1
      · apply Fin.ext
        simp
      · exact Subsingleton.elim _ _
  rw [e1]
  refine (C85 cfg hn0 hn0 he hM m _ (fun i j => hcon _ (List.mem_append_left _ (ofEntries_mem m i j)))
    (fun i => hcon _ (List.mem_append_right _ (ofEntries_mem b i 0)))).imp (fun ⟨x, hx⟩ => ⟨_, hx⟩) (fun ⟨e, hx⟩ => ⟨_, hx⟩)

/-! ### the default configuration -/

/-- with the default epsilon, up to 100 equations and numbers up to 1e250 leave enough room -/
theorem room_default {r : ℕ} (hr : r ≤ 100) : ∃ ε, config.epsilon.Is ε ∧ ElimRoom r ε (10 ^ 250) := by
  obtain ⟨ε, he, h1, h2⟩ := exEps
  refine ⟨ε, he, lt_of_lt_of_le (by norm_num) h1, h2.trans (by norm_num), by norm_num, ?_⟩
  have hg : 1 ≤ growth := by norm_num [growth]
  have h3 : growth ^ 100 * 10 ^ 250 ≤ 1 / 10 ^ 10 * 2 ^ 998 := by
    have h4 : growth ^ 100 ≤ 2 ^ 101 := by norm_num [growth]
    have h5 : (2 : ℚ) ^ 101 * 10 ^ 250 * 10 ^ 10 ≤ 2 ^ 998 := by
      have : (10 : ℚ) ^ 260 ≤ 2 ^ 897 := by
        have : (10 : ℕ) ^ 260 ≤ 2 ^ 897 := by decide +kernel
        exact_mod_cast this
      have e : (2 : ℚ) ^ 998 = 2 ^ 101 * 2 ^ 897 := by rw [← pow_add]
      rw [e, mul_assoc, ← pow_add]
      exact mul_le_mul_of_nonneg_left this (by positivity)
    have h6 := mul_le_mul_of_nonneg_right h4 (by positivity : (0 : ℚ) ≤ 10 ^ 250)
    refine h6.trans ?_
    rw [div_mul_eq_mul_div, one_mul, le_div_iff₀ (by positivity)]
    exact h5
  refine le_trans ?_ (h3.trans (mul_le_mul_of_nonneg_right h1 (by positivity)))
  exact mul_le_mul_of_nonneg_right (pow_le_pow_right₀ hg hr) (by positivity)

/-- C85 in the default configuration: up to 100 equations, any number of unknowns, finite doubles up to 1e250. -/
theorem C85_default {r c : ℕ} (hr : 0 < r) (hr' : r ≤ 100) (hc : 0 < c)
    (A : Matrix (Fin r) (Fin c) (Double libm0)) (b : Fin r → Double libm0) (hA : ∀ i j, (A i j).AtMost (10 ^ 250)) (hb : ∀ i, (b i).AtMost (10 ^ 250)) :
    (∃ x : Fin c → Double libm0, solveLinear config (ofEntries A) (vec b) = .ok (vec x)) ∨
    ∃ e, solveLinear config (ofEntries A) (vec b) = .throw (.math e) := by
  obtain ⟨ε, he, hM⟩ := room_default hr'
  exact C85 config hr hc he hM A b hA hb

/-- a singular system: `x + y = 1`, `x + y = 2` (the exception says that there is no solution) -/
example : (∀ i j, ((!![Dbl.ofInt 1, Dbl.ofInt 1; Dbl.ofInt 1, Dbl.ofInt 1] : Matrix (Fin 2) (Fin 2) (Double libm0)) i j).AtMost (10 ^ 250)) ∧
    solveLinear config (ofEntries (!![Dbl.ofInt 1, Dbl.ofInt 1; Dbl.ofInt 1, Dbl.ofInt 1] : Matrix (Fin 2) (Fin 2) (Double libm0)))
      (vec ![Dbl.ofInt 1, Dbl.ofInt 2]) = .throw (.math .singularMatrix) := by
  refine ⟨?_, by decide +kernel⟩
  intro i j
  fin_cases i <;> fin_cases j <;> exact ⟨by show F64.isInvalid _ = false; decide +kernel, by decide +kernel⟩

/-- the equations of `C72_false_overflow`: Newton-Raphson fails there, and does visit a point with a derivative larger than 1e250 -/
example {J : SymMat (Double libm0)} (hJ : (symOf hugeSystem).jacobian { config with nonlinearMethod := .newtonRaphson } ones.vars = .ok J) :
    HugeVisit { config with nonlinearMethod := .newtonRaphson } (symOf hugeSystem) J (10 ^ 250) ones := by
  obtain ⟨ε, he, hM⟩ := room_default (r := 3) (by norm_num)
  refine (C85_newton (cfg := { config with nonlinearMethod := .newtonRaphson }) (by norm_num) he hM hugeSystem C72_false_overflow.1 hJ).resolve_left ?_
  rw [C72_false_overflow.2.2]
  rintro (⟨_, h⟩ | ⟨_, h⟩) <;> cases h

/-- `1e200 x + 1e200 y - 1 = 0`, `y = 0` -/
def steep : Matrix (Fin 2) (Fin 1) (Expr (Double libm0)) := fun i _ =>
  if i = 0 then .bin .sub (.bin .add (.bin .mul (.num (lit 1 200)) (.var ['x'])) (.bin .mul (.num (lit 1 200)) (.var ['y']))) (.num (Dbl.ofInt 1))
  else .var ['y']

/-- initial values 1, as `Solve` chooses them -/
def steepStart : VarsTable (Double libm0) :=
  ⟨[['x'], ['y']], ⟨2, 1, [Dbl.ofInt 1, Dbl.ofInt 1]⟩, [(['x'], Dbl.ofInt 1), (['y'], Dbl.ofInt 1)]⟩

/-- C72 and C85 without conditions on the sizes fail for Levenberg-Marquardt too, in the default configuration: the squares of the
derivatives overflow although the derivatives do not, inf / inf is nan, and an assertion is violated. -/
theorem C85_false_lm : steepStart.Reachable ∧ (∃ J, (symOf steep).jacobian config [['x'], ['y']] = .ok J) ∧ config.nonlinearMethod = .lm ∧
    config.throwOnInvalidValue = true ∧ (∀ lsFuel fuel, solve config lsFuel (fuel + 1) (symOf steep) steepStart = .assertFail) ∧
    ∀ lsFuel fuel, solveAuto config lsFuel (fuel + 1) (symOf steep) = .assertFail := by
  have hJ : ∃ J, (symOf steep).jacobian config [['x'], ['y']] = .ok J := by
    cases h : (symOf steep).jacobian config [['x'], ['y']] with
    | ok J => exact ⟨J, rfl⟩
    | _ =>
      exfalso
      have : (match (symOf steep).jacobian config [['x'], ['y']] with | .ok _ => true | _ => false) = true := by decide +kernel
      rw [h] at this
      cases this
  have hr : steepStart.Reachable := .ofList (l := [(['x'], Dbl.ofInt 1), (['y'], Dbl.ofInt 1)]) (by decide +kernel)
  have key : ∀ lsFuel fuel, solve config lsFuel (fuel + 1) (symOf steep) steepStart = .assertFail := by
    intro lsFuel fuel
    obtain ⟨J, hJ⟩ := hJ
    have h1 : (do
        let J ← (symOf steep).jacobian config [['x'], ['y']]
        let F ← evalVec config (symOf steep) steepStart
        if F.eqNum config.epsilon (Dbl.ofInt 0) then .ok (zeroVec 0)
        else lmDirection config J F (lmDamping 0) steepStart) = (.assertFail : Res (Mat (Double libm0))) := by decide +kernel
    show solveByLM config lsFuel (fuel + 1) (symOf steep) steepStart = .assertFail
    have e : steepStart.vars = [['x'], ['y']] := rfl
    rw [lm_unfold _ _ _ _ hr, e, hJ, Res.bind_ok]
    rw [hJ, Res.bind_ok] at h1
    unfold lmOuter
    cases hF : evalVec config (symOf steep) steepStart with
    | ok F =>
      rw [hF, Res.bind_ok] at h1
      rw [Res.bind_ok]
      split at h1
      · cases h1
      · rename_i hne
        rw [if_neg hne, lmInner_succ, show (lit 1 (-5) : Double libm0) = lmDamping 0 from rfl, h1]
        rfl
    | _ =>
      rw [hF] at h1
      first | rfl | cases h1
  refine ⟨hr, hJ, rfl, rfl, key, fun lsFuel fuel => ?_⟩
  unfold solveAuto
  have h2 : (do
      let names ← (symOf steep).getAllVarNames
      VarsTable.ofVars names config.initialValue) = .ok steepStart := by decide +kernel
  rw [← Res.bind_assoc', h2, Res.bind_ok]
  exact key lsFuel fuel

/-- there, as `C85_lm` says, a linear system with entries beyond 1e250 is formed -/
example {J : SymMat (Double libm0)} (hJ : (symOf steep).jacobian config [['x'], ['y']] = .ok J) :
    ∃ m b, LMSystem config (symOf steep) J steepStart m b ∧ ∃ v ∈ m.data ++ b.data, ¬ v.AtMost (10 ^ 250) := by
  obtain ⟨ε, he, hM⟩ := room_default (r := 2) (by norm_num)
  refine (C85_lm 1 1 he hM steep C85_false_lm.1 rfl hJ).resolve_left ?_
  have := C85_false_lm.2.2.2.2.1 1 0
  rw [show solveByLM config 1 1 (symOf steep) steepStart = solve config 1 (0 + 1) (symOf steep) steepStart from rfl, this]
  rintro (⟨_, h⟩ | ⟨_, h⟩ | h) <;> cases h

end Tom
