import Verif.Model.Examples
import Verif.Spec.TextSolve
import Verif.Props.TextValue
import Verif.Props.NearRoot
import Verif.Props.SymVec
/-
C119: from the texts of equations to their solution.
-/
set_option linter.unusedSectionVars false
namespace Tom

section
variable {α : Type} [Dbl α]

/-- the equations a list of texts is read as -/
theorem equationsOf_ok {n : ℕ} {texts : Fin n → Str} {f : SymMat α} (h : equationsOf (List.ofFn texts) = .ok f) :
    0 < n ∧ ∃ e : Fin n → Expr α, (∀ i, parse (texts i) = .ok (embed (e i))) ∧ f = symOf (Matrix.of fun i (_ : Fin 1) => e i) := by
  obtain ⟨es, h1, h2⟩ := Res.bind_eq_ok.mp h
  have h3 := mapRes_eq_ok.mp h1
  have hlen : es.length = n := by have := h3.length_eq; simpa using this.symm
  have hn : 0 < n := by
    by_contra hc
    have : n = 0 := by omega
    subst this
    have : es = [] := List.length_eq_zero_iff.mp hlen
    subst this
    cases h2
  have h4 : ∀ i : Fin n, ∃ e : Expr α, parse (texts i) = .ok (embed e) ∧ es[i.val]'(by omega) = embed e := by
    intro i
    have := (List.forall₂_iff_get.mp h3).2 i (by simp) (by omega)
    simp only [List.get_eq_getElem, List.getElem_ofFn] at this
    obtain ⟨e, he⟩ := C09_complete _ _ this
    exact ⟨e, by rw [← he]; exact this, he⟩
  choose e h5 h6 using h4
  refine ⟨hn, e, h5, ?_⟩
  have : es = List.ofFn fun i => embed (e i) := by
    apply List.ext_getElem
    · simp [hlen]
    · intro k a b
      rw [List.getElem_ofFn]
      exact h6 ⟨k, by omega⟩
  rw [this, (C65_symVec hn e).1] at h2
  exact (Res.ok.inj h2).symm

theorem equationsOf_eq {n : ℕ} (hn : 0 < n) {texts : Fin n → Str} {e : Fin n → Expr α} (h : ∀ i, parse (texts i) = .ok (embed (e i))) :
    equationsOf (List.ofFn texts) = .ok (symOf (Matrix.of fun i (_ : Fin 1) => e i)) := by
  refine Res.bind_eq_ok.mpr ⟨List.ofFn fun i => embed (e i), mapRes_eq_ok.mpr (List.forall₂_iff_get.mpr ⟨by simp, ?_⟩), (C65_symVec hn e).1⟩
  intro k h1 h2
  simp only [List.get_eq_getElem, List.getElem_ofFn]
  exact h _

/-- **C119**, any arithmetic: if `Solve` of the equations read from texts returns, the program of the README goes on to print the check
`f.Subs(ans).Calc()` without an exception: one number for each equation, all nearer to 0 than `epsilon`; and the program prints a check only
then. -/
theorem C119_check (cfg : Config α) (lsFuel fuel : ℕ) (texts : List Str) (ans : VarsTable α) :
    solveTexts cfg lsFuel fuel texts = .ok ans ↔ ∃ m, exampleSolve cfg lsFuel fuel texts = .ok (ans, m) ∧
      m.rows = texts.length ∧ m.cols = 1 ∧ m.data.length = texts.length ∧
      ∀ v ∈ m.data, Arith.lt (Arith.abs (Arith.sub v (Dbl.ofInt 0))) cfg.epsilon = true := by
  constructor
  · intro h
    obtain ⟨f, h1, h2⟩ := Res.bind_eq_ok.mp h
    have hof : texts = List.ofFn texts.get := (List.ofFn_get texts).symm
    have h1' := h1
    rw [hof] at h1'
    obtain ⟨hn, e, h3, rfl⟩ := equationsOf_ok h1'
    obtain ⟨phi, h4, h5⟩ := (satisfies_iff hn cfg _ ans).mp (C42_auto cfg lsFuel fuel _ h2)
    obtain ⟨v, rfl, h6⟩ := (evalVec_ok hn cfg _ ans phi).mp h4
    obtain ⟨m, h7, h8⟩ := Res.bind_eq_ok.mp h4
    have h9 : m = ofEntries v := by
      obtain ⟨v', rfl, h10⟩ := (C50_evaluate hn (by omega) cfg _ ans m).mp h7
      congr 1
      funext i j
      have hj : j = 0 := Subsingleton.elim j 0
      subst hj
      exact Res.ok.inj ((h10 i 0).symm.trans (h6 i))
    subst h9
    unfold evalMat at h7
    rw [C50_clone hn (by omega), Res.bind_ok] at h7
    obtain ⟨g, g1, h7⟩ := Res.bind_eq_ok.mp h7
    obtain ⟨g', g2, g3⟩ := Res.bind_eq_ok.mp h7
    refine ⟨ofEntries v, ?_, rfl, rfl, by simp [ofEntries, entries], fun x hx => ?_⟩
    · unfold exampleSolve
      rw [h1, Res.bind_ok, h2, Res.bind_ok, g1, Res.bind_ok, g2, Res.bind_ok, g3, Res.bind_ok]
    · exact List.all_eq_true.mp h5 x hx
  · rintro ⟨m, h, -⟩
    obtain ⟨f, h1, h⟩ := Res.bind_eq_ok.mp h
    obtain ⟨ans', h2, h⟩ := Res.bind_eq_ok.mp h
    obtain ⟨g, _, h⟩ := Res.bind_eq_ok.mp h
    obtain ⟨g', _, h⟩ := Res.bind_eq_ok.mp h
    obtain ⟨m', _, h⟩ := Res.bind_eq_ok.mp h
    have := congrArg Prod.fst (Res.ok.inj h)
    simp only at this
    subst this
    exact Res.bind_eq_ok.mpr ⟨f, h1, h2⟩

end

namespace Double
variable {L : Libm}

theorem TreeReads.vars {e : Expr (XNum ℝ)} {e' : Expr (Double L)} (h : TreeReads e e') : e'.vars = e.vars := by
  induction h with
  | num _ => rfl
  | var x => rfl
  | un o _ ih => exact ih
  | bin o _ _ iha ihb => simp only [Expr.vars, iha, ihb]

/-- **C119.** Let texts be expressions of the grammar, with literals as the real numbers written. If `Solve` of the equations `Parse` reads from
them returns (in doubles, with either method), then the table has exactly the variables of the texts, and at the numbers in the table the
written expressions have exact values smaller than `epsilon` plus the bound of the errors of reading the literals and evaluating in doubles. -/
theorem C119 {n : ℕ} (δ : ℝ) (hL : L.Within δ) (cfg : Config (Double L)) (ε : ℚ) (hε : cfg.epsilon.Is ε) (lsFuel fuel : ℕ)
    (texts : Fin n → Str) (e : Fin n → Expr (XNum ℝ)) (hw : ∀ i, Writes (texts i) (e i)) {ans : VarsTable (Double L)}
    (h : solveTexts cfg lsFuel fuel (List.ofFn texts) = .ok ans)
    (hfin : ∀ x ∈ ans.vars, ∃ y, ans.table.lookup x = some y ∧ Dbl.isInvalid y = false) (v E : Fin n → ℝ)
    (hE : ∀ i, textEnclosure δ (fun s => (ratPoint ans s : ℝ)) (e i) = some (v i, E i)) :
    (∀ x, x ∈ ans.vars ↔ ∃ i, x ∈ (e i).vars) ∧
    ∀ i, realVal (fun s => (ratPoint ans s : ℝ)) (e i) = some (v i) ∧ |v i| < ε + E i := by
  obtain ⟨f, h1, h2⟩ := Res.bind_eq_ok.mp h
  obtain ⟨hn, e', h3, rfl⟩ := equationsOf_ok h1
  have h4 : ∀ i, TreeReads (e i) (e' i) := by
    intro i
    obtain ⟨ts, a, b, c⟩ := hw i
    obtain ⟨e'', h5, h6⟩ := parse_reads (L := L) (texts i) ts (e i) a b c (textEnclosure_nums δ _ (e i) _ (hE i))
    have := embed_injective (Res.ok.inj ((h3 i).symm.trans h5))
    rw [this]; exact h6
  obtain ⟨-, -, h5⟩ := C48_auto cfg lsFuel fuel _ h2
  have hvars : ∀ x, x ∈ ans.vars ↔ ∃ i, x ∈ (e i).vars := by
    intro x
    rw [h5 x]
    simp only [Matrix.of_apply, (h4 _).vars]
  refine ⟨hvars, fun i => ⟨textEnclosure_value δ _ (e i) _ _ (hE i), ?_⟩⟩
  obtain ⟨x, h6, h7⟩ := C42_auto cfg lsFuel fuel _ h2 i
  rw [C17_subsValues_vpa] at h6
  obtain ⟨p, hp, hlt⟩ := below_eps hε h7
  obtain ⟨y, q, g1, g2, g3⟩ := textEnclosure_eval δ hL cfg.throwOnInvalidValue (envOf ans.table) (fun s => (ratPoint ans s : ℝ)) (e i) (e' i) (h4 i)
    (fun s hs => by
      obtain ⟨y, a, b⟩ := hfin s ((hvars s).mpr ⟨i, hs⟩)
      exact ⟨y, ratPoint ans s, by rw [envOf, a], ⟨b, by rw [ratPoint, a]⟩, rfl⟩) (v i) (E i) (hE i)
  have hxy : x = y := Res.ok.inj (h6.symm.trans g1)
  subst hxy
  have hpq : p = q := hp.2.symm.trans g2.2
  subst hpq
  have h8 : |(p : ℝ)| < ε := by exact_mod_cast hlt
  have h9 := abs_sub_abs_le_abs_sub (v i) (p : ℝ)
  rw [abs_sub_comm] at h9
  linarith

/-- **C119**, the root: if moreover the written system has as many equations as variables and is well conditioned around the numbers returned, there
is exactly one actual solution of the written equations around them, within `2 M (epsilon + E)`. -/
theorem C119_root {vars : List Str} (δ : ℝ) (hL : L.Within δ) (cfg : Config (Double L)) (ε : ℚ) (hε : cfg.epsilon.Is ε) (h0 : 0 < ε)
    (lsFuel fuel : ℕ) (texts : Fin vars.length → Str) (e : Fin vars.length → Expr (XNum ℝ)) (hw : ∀ i, Writes (texts i) (e i))
    {ans : VarsTable (Double L)} (h : solveTexts cfg lsFuel fuel (List.ofFn texts) = .ok ans) (hv : ans.vars = vars)
    (hfin : ∀ x ∈ ans.vars, ∃ y, ans.table.lookup x = some y ∧ Dbl.isInvalid y = false) {E : ℝ} (hE0 : 0 ≤ E)
    (hE : ∀ i, ∃ v d, textEnclosure δ (fun s => (ratPoint ans s : ℝ)) (e i) = some (v, d) ∧ d ≤ E) {M r : ℝ}
    (hc : WellConditioned vars (fun i _ => e i) (fun j => (ratPoint ans vars[j] : ℝ)) M r) (hr : 2 * M * (ε + E) ≤ r) :
    OneRootNear vars (fun i _ => e i) (fun j => (ratPoint ans vars[j] : ℝ)) r (2 * M * (ε + E)) := by
  have hnd : vars.Nodup := by
    obtain ⟨f, h1, h2⟩ := Res.bind_eq_ok.mp h
    obtain ⟨hn, e', h3, rfl⟩ := equationsOf_ok h1
    exact hv ▸ (C48_auto cfg lsFuel fuel _ h2).1.good.nodup
  have h0' : (0 : ℝ) ≤ ε + E := by
    have : (0 : ℝ) < ε := by exact_mod_cast h0
    linarith
  choose v d h1 h2 using hE
  have h3 := (C119 δ hL cfg ε hε lsFuel fuel texts e hw h hfin v d h1).2
  refine root_near hnd hc h0' hr (F := v) (fun i => ?_)
    ((pi_norm_le_iff_of_nonneg h0').mpr fun i => ((h3 i).2.le.trans (by linarith [h2 i])))
  rw [← (h3 i).1]
  exact realVal_congr _ _ _ fun x hx => (getElem_of_mem (hc.2.1 i x hx) hnd fun s => (ratPoint ans s : ℝ)).symm

/-! ### A case -/

/-- the default configuration (config.h:12-41) -/
noncomputable def defaultA : Config (Double accurate) where
  throwOnInvalidValue := true
  epsilon := lit 1 (-9)
  maxIterations := 100
  nonlinearMethod := .newtonRaphson
  initialValue := Dbl.ofInt 1
  allowIndeterminateEquation := false

/-- the double 0.09999999999999998 -/
noncomputable def nearTenth : Double accurate := near accurate (900719925474099 / 9007199254740992)

/-- the table in which `x` has this value -/
noncomputable def tenthTable : VarsTable (Double accurate) := ⟨[['x']], ⟨1, 1, [nearTenth]⟩, [(['x'], nearTenth)]⟩

theorem tenth_writes : Writes "x-0.1".toList (.bin .sub (.var ['x']) (.num (.fin ((1 : ℕ) / 10)))) := by
  have d1 : DecDigits ['1'] := by intro c hc; simp at hc; subst hc; decide
  have w1 := means_tenth '1' d1 1 (by decide)
  have hw : ∀ c ∈ ['x', '0', '.', '1'], WordChar c := by
    intro c hc
    simp at hc
    rcases hc with rfl | rfl | rfl | rfl <;> exact ⟨by unfold OpChar; decide, by unfold BlankChar; decide⟩
  have hx : WordMeans ['x'] (.var ['x'] : Tok (XNum ℝ)) := by
    refine .var ((C08_varNameIsLegal _).mp (by decide)) ((stodFull_none_iff _).mp rfl) ?_
    rintro ⟨f, hf⟩; cases hf
  have up : ∀ {n p : Nat} {ts : List (Tok (XNum ℝ))} {e : Expr (XNum ℝ)}, Gram (p + n) ts e → Gram p ts e := by
    intro n
    induction n with
    | zero => intro p ts e h; exact h
    | succ n ih => intro p ts e h; exact ih (.lift h)
  refine ⟨[(.var ['x'], 0), (.sym '-', 1), (.num (.fin ((1 : ℕ) / 10)), 2)], ?_, ?_, ?_⟩
  · exact .word (w := []) (u := ['x']) (rest := ['-', '0', '.', '1']) (by simp) (by simp) (fun c hc => hw c (by simp at hc ⊢; tauto))
      (by intro c hc; simp at hc; subst hc; exact fun h => h.1 (by unfold OpChar; decide)) hx
      (.sym (w := []) (c := '-') (rest := ['0', '.', '1']) (by simp) (by unfold OpChar; decide)
        (.word (w := []) (u := ['0', '.', '1']) (rest := []) (by simp) (by simp) (fun c hc => hw c (by simp at hc ⊢; tauto))
          (by simp) w1 (.blank (by simp))))
  · exact up (n := 5) (.left .sub (by decide) (up (n := 10) (.var _)) (up (n := 9) (.num _)))
  · intro x hx s f h he
    simp at hx
    subst hx
    cases h <;> exact absurd he (by decide +kernel)

/-- C119 applied to the equation `x-0.1`, which `Solve` (default configuration) answers with 0.09999999999999998 -/
example : |((900719925474099 / 9007199254740992 : ℚ) : ℝ) - ((1 : ℕ) : ℝ) / 10| < defaultA.epsilon.raw.toRat + 1 / 2 ^ 53 := by
  have h : solveTexts defaultA 1 1 (List.ofFn fun _ : Fin 1 => "x-0.1".toList) = .ok tenthTable := by decide +kernel
  have hε : defaultA.epsilon.Is defaultA.epsilon.raw.toRat := ⟨by decide +kernel, rfl⟩
  have hp : ratPoint tenthTable ['x'] = 900719925474099 / 9007199254740992 := by decide +kernel
  have hbig : (2 : ℝ) ^ 10 ≤ 2 ^ 1023 := pow_le_pow_right₀ (by norm_num) (by norm_num)
  have hsmall : (1 : ℝ) / 2 ^ 1022 ≤ 1 / 2 ^ 10 := one_div_pow_le_one_div_pow_of_le (by norm_num) (by norm_num)
  have hb : (1 : ℝ) < 2 ^ 1023 := lt_of_lt_of_le (by norm_num) hbig
  have n1 : NormalLiteral (((1 : ℕ) : ℝ) / 10) := .inr ⟨hsmall.trans (by norm_num [abs_of_pos]), lt_of_le_of_lt (by norm_num [abs_of_pos]) hb⟩
  have e1 : 0 ≤ literalError (((1 : ℕ) : ℝ) / 10) ∧ literalError (((1 : ℕ) : ℝ) / 10) ≤ 1 / 2 ^ 53 * (1 / 10) := by
    unfold literalError
    split <;> norm_num [abs_of_pos]
  generalize hE1 : literalError (((1 : ℕ) : ℝ) / 10) = E1 at e1
  generalize hd : ((900719925474099 / 9007199254740992 : ℚ) : ℝ) - ((1 : ℕ) : ℝ) / 10 = d
  have hd' : |d| ≤ 1 / 2 ^ 53 := by rw [← hd]; norm_num [abs_le]
  have enc : textEnclosure (1 / 2 ^ 53) (fun s => (ratPoint tenthTable s : ℝ)) (.bin .sub (.var ['x']) (.num (.fin ((1 : ℕ) / 10))) : Expr (XNum ℝ)) =
      some (d, (0 + E1) + BinOp.roundoff (1 / 2 ^ 53) .sub d (0 + E1)) := by
    simp only [textEnclosure, XNum.val?, Option.bind_some, if_pos n1, BinOp.real, BinOp.spread, hp, hd, hE1]
    rw [if_pos]
    refine lt_of_le_of_lt ?_ hb
    have : (1 : ℝ) / 2 ^ 53 + 1 / 2 ^ 53 * (1 / 10) ≤ 1 := by norm_num
    linarith [e1.2]
  have h1 := (C119 _ accurate_within defaultA _ hε 1 1 (fun _ => "x-0.1".toList) (fun _ => _) (fun _ => tenth_writes) h
    (fun x hx => ⟨nearTenth, by rw [List.mem_singleton.mp (show x ∈ [['x']] from hx)]; rfl, by decide +kernel⟩) _ _ (fun _ => enc)).2 0
  refine lt_of_lt_of_le h1.2 (add_le_add le_rfl ?_)
  have hro : BinOp.roundoff (1 / 2 ^ 53) .sub d (0 + E1) ≤ 1 / 2 ^ 53 * (1 / 2 ^ 53 + 1 / 2 ^ 53) := by
    simp only [BinOp.roundoff]
    split
    · positivity
    · refine mul_le_mul_of_nonneg_left ?_ (by positivity)
      have : (1 : ℝ) / 2 ^ 53 * (1 / 10) ≤ 1 / 2 ^ 53 := by norm_num
      linarith [e1.2]
  have : (1 : ℝ) / 2 ^ 53 * (1 / 10) + 1 / 2 ^ 53 * (1 / 2 ^ 53 + 1 / 2 ^ 53) ≤ 1 / 2 ^ 53 := by norm_num
  linarith [e1.2]

end Double
end Tom
