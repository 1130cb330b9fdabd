import Verif.Lemmas.Affine
import Verif.Props.Shift
/-
C137: `Solve` of `k*x-n` and `k*x+n` with IEEE doubles returns the integer root itself, whenever `k` divides `n`.
-/
set_option linter.unusedSectionVars false
namespace Tom
namespace Double
variable {L : Libm} {cfg : Config (Double L)} {ε : ℚ} {v : Str} {k a : Double L} {plus : Bool}

/-- **C137** for Newton's method called with a table: let the equation be `k*v-a` or `k*v+a` with integer literals `k` (not 0) and `a`, and let its root
`r` be an integer.  From every integer start `i`, if `k r` and `k i` are at most `2^51` in absolute value, with every epsilon in `(0, 1]` and at least one
iteration allowed, with whatever `<cmath>` and whether or not invalid values are checked, Newton's method returns exactly `r`. -/
theorem C137_newton (he : cfg.epsilon.Is ε) (h0 : 0 < ε) (h1 : ε ≤ 1) (hmax : 1 ≤ cfg.maxIterations) {c r i : ℤ} (hk : k.Is c) (hc0 : c ≠ 0)
    (hc : |c| ≤ 2 ^ 53) (hr : |c * r| ≤ 2 ^ 51) (hi : |c * i| ≤ 2 ^ 51) (ha : a.Is ((if plus then -(c * r) else c * r : ℤ) : ℚ))
    {t : VarsTable (Double L)} {x : Double L} (ht : DoubleTable t [v] (fun _ => x)) (hx : x.Is i) :
    ∃ (t' : VarsTable (Double L)) (y : Double L), solveByNewtonRaphson cfg (symOf (affineEquation plus v k a)) t = .ok t' ∧
      DoubleTable t' [v] (fun _ => y) ∧ y.Is r := by
  obtain ⟨n, hn⟩ : ∃ n, (cfg.maxIterations + 2).toNat + 1 = n + 3 := ⟨(cfg.maxIterations + 2).toNat - 2, by omega⟩
  obtain ⟨t', y, k1, k2, k3⟩ := affine_run (v := v) he h0 h1 hmax hk hc0 hc hr hi ha ht hx n
  refine ⟨t', y, ?_, k2, k3⟩
  have e1 : Mat.new t.varNums 1 (Arith.zero : Double L) = .ok ⟨1, 1, [Arith.zero]⟩ := by
    have : t.varNums = 1 := by rw [VarsTable.varNums, ht.1.good.length, ht.2.1]; rfl
    rw [this]; rfl
  unfold solveByNewtonRaphson
  rw [e1, Res.bind_ok, ht.2.1, affine_jacobian cfg plus v a hk hc, Res.bind_ok]
  rw [← hn] at k1
  exact k1

/-- **C137** for `Solve` of a text, with Newton's method (the default): if the text is read as `k*v-a` or `k*v+a` with an integer root and the initial
value is an integer (the default is 1), then `Solve` returns a table which holds exactly the root. -/
theorem C137 (hm : cfg.nonlinearMethod = .newtonRaphson) (he : cfg.epsilon.Is ε) (h0 : 0 < ε) (h1 : ε ≤ 1) (hmax : 1 ≤ cfg.maxIterations) {c r i : ℤ}
    (hk : k.Is c) (hc0 : c ≠ 0) (hc : |c| ≤ 2 ^ 53) (hr : |c * r| ≤ 2 ^ 51) (hi : |c * i| ≤ 2 ^ 51) (hini : cfg.initialValue.Is i)
    (ha : a.Is ((if plus then -(c * r) else c * r : ℤ) : ℚ)) {text : Str} (ht : parse text = .ok (embed (affine plus v k a))) :
    ∃ (ans : VarsTable (Double L)) (y : Double L), (∀ lsFuel fuel, solveTexts cfg lsFuel fuel [text] = .ok ans) ∧ ans.vars = [v] ∧
      ans.table.lookup v = some y ∧ y.Is r := by
  set t0 : VarsTable (Double L) := ⟨[v], ⟨1, 1, [cfg.initialValue]⟩, [(v, cfg.initialValue)]⟩ with ht0
  have hv : VarsTable.ofVars [v] cfg.initialValue = .ok t0 := rfl
  have htab : DoubleTable t0 [v] fun _ => cfg.initialValue := ⟨.ofVars hv, rfl, rfl⟩
  obtain ⟨t', y, r1, r2, r3⟩ := C137_newton (v := v) he h0 h1 hmax hk hc0 hc hr hi ha htab hini
  refine ⟨t', y, fun lsFuel fuel => ?_, r2.2.1, DoubleTable.lookup r2 (0 : Fin 1), r3⟩
  have heq : equationsOf [text] = .ok (symOf (affineEquation plus v k a)) := equationsOf_eq (texts := fun _ => text) Nat.one_pos (fun _ => ht)
  have hnames : (symOf (affineEquation plus v k a)).getAllVarNames = .ok [v] := by
    obtain ⟨out, k1, k2, k3⟩ := C50_getAllVarNames (affineEquation plus v k a)
    rw [k1]
    have k4 : ∀ y, y ∈ out ↔ y = v := by
      intro y
      rw [k3 y]
      simp [affineEquation, affine, Expr.vars]
    match out, k2, k4 with
    | [], _, k4 => exact absurd ((k4 v).mpr rfl) (by simp)
    | [x], _, k4 => rw [(k4 x).mp (by simp)]
    | x :: y :: l, k2, k4 =>
      have hx := (k4 x).mp (by simp)
      have hy := (k4 y).mp (by simp)
      have := (List.pairwise_cons.mp k2).1 y (by simp)
      rw [hx, hy] at this
      simp [strLt_irrefl] at this
  unfold solveTexts solveAuto
  rw [heq, Res.bind_ok, hnames, Res.bind_ok, hv, Res.bind_ok]
  unfold solve
  rw [hm]
  exact r1

/-- the text `k*v-u` or `k*v+u` is divided into five tokens -/
theorem affine_lexed {c u : Str} (hc : Numeral c k) (hv : WordMeans v (.var v : Tok (Double L))) (hu : Numeral u a) (plus : Bool) :
    ∃ ts : List (Tok (Double L) × Nat), Lexed WordMeans 0 (affineText plus c v u) ts ∧
      ts.map Prod.fst = [.num k, .sym '*', .var v, .sym (if plus then '+' else '-'), .num a] := by
  have hl : LegalName v := by cases hv; assumption
  obtain ⟨c1, c2⟩ := numeral_word hc
  obtain ⟨v1, v2⟩ := legalName_word hl
  obtain ⟨u1, u2⟩ := numeral_word hu
  have o1 : OpChar '*' := by simp [OpChar]
  have o2 : OpChar (if plus then '+' else '-') := by cases plus <;> simp [OpChar]
  have hs : affineText plus c v u = c ++ '*' :: (v ++ (if plus then '+' else '-') :: u) := by simp [affineText, shiftText]
  rw [hs]
  generalize (if plus then '+' else '-') = o at o2 ⊢
  have k5 : ∀ k, Lexed WordMeans k u [((.num a : Tok (Double L)), k)] := fun k => by
    simpa using Lexed.word (w := []) (rest := []) (k := k) (by simp) u1 u2 (by simp) (.num hu) (.blank (by simp))
  have k4 : ∀ k, Lexed WordMeans k (o :: u) [((.sym o : Tok (Double L)), k), (.num a, k + 1)] := fun k => by
    simpa using Lexed.sym (w := []) (k := k) (by simp) o2 (k5 (k + 0 + 1))
  have k3 : ∀ k, Lexed WordMeans k (v ++ o :: u) [((.var v : Tok (Double L)), k), (.sym o, k + v.length), (.num a, k + v.length + 1)] := fun k => by
    simpa using Lexed.word (w := []) (k := k) (by simp) v1 v2 (by simpa using opChar_not_word o2) hv (k4 _)
  have k2 : ∀ k, Lexed WordMeans k ('*' :: (v ++ o :: u)) [((.sym '*' : Tok (Double L)), k), (.var v, k + 1), (.sym o, k + 1 + v.length),
      (.num a, k + 1 + v.length + 1)] := fun k => by
    simpa using Lexed.sym (w := []) (k := k) (by simp) o1 (k3 (k + 0 + 1))
  have k1 := Lexed.word (w := []) (k := 0) (by simp) c1 c2 (by simpa using opChar_not_word o1) (.num hc) (k2 _)
  exact ⟨_, by simpa using k1, rfl⟩

/-- a text with these tokens is read so -/
theorem affine_tokens {s : Str} {ts : List (Tok (Double L) × Nat)} (hlex : Lexed WordMeans 0 s ts)
    (hts : ts.map Prod.fst = [.num k, .sym '*', .var v, .sym (if plus then '+' else '-'), .num a]) (hv : NoCollision v) :
    parse s = .ok (embed (affine plus v k a)) := by
  refine C01_parse s ts _ hlex ?_ ?_
  · rw [hts]
    have g1 : Gram 10 [(.num k : Tok (Double L))] (.num k) := .lift (.lift (.lift (.lift (.lift (.num k)))))
    have g2 : Gram 11 [(.var v : Tok (Double L))] (.var v) := .lift (.lift (.lift (.lift (.var v))))
    have g3 : Gram 10 ([(.num k : Tok (Double L))] ++ [.sym '*'] ++ [.var v]) (.bin .mul (.num k) (.var v)) :=
      .left .mul (by decide) g1 g2
    have g4 : Gram 5 ([(.num k : Tok (Double L))] ++ [.sym '*'] ++ [.var v]) (.bin .mul (.num k) (.var v)) :=
      .lift (.lift (.lift (.lift (.lift g3))))
    have g5 : Gram 6 [(.num a : Tok (Double L))] (.num a) :=
      .lift (.lift (.lift (.lift (.lift (.lift (.lift (.lift (.lift (.num a)))))))))
    cases plus
    · exact .lift (.lift (.lift (.lift (.lift (Gram.left .sub (by decide) g4 g5)))))
    · exact .lift (.lift (.lift (.lift (.lift (Gram.left .add (by decide) g4 g5)))))
  · intro x hx
    rw [hts] at hx
    simp only [List.mem_cons, Tok.var.injEq, reduceCtorEq, List.not_mem_nil, or_false, false_or] at hx
    rcases hx with rfl; exact hv

/-- **C137** for the texts: for all natural numbers `c` (not 0) and `n` with `c n` up to `2^51` (and `c` too), and every readable variable name, `Solve` by
Newton's method from 1 of the text `c*v-m`, where `m` is written with the digits of the product `c n`, gives `v` exactly the value `n`; and of `c*v+m`
exactly `-n`. -/
theorem C137_natural (hm : cfg.nonlinearMethod = .newtonRaphson) (he : cfg.epsilon.Is ε) (h0 : 0 < ε) (h1 : ε ≤ 1) (hmax : 1 ≤ cfg.maxIterations)
    (hini : cfg.initialValue.Is 1) {c n : ℕ} (hc0 : c ≠ 0) (hc : c ≤ 2 ^ 51) (hn : c * n ≤ 2 ^ 51) (hv : ReadableName (Double L) v) (plus : Bool) :
    ∃ (ans : VarsTable (Double L)) (y : Double L),
      (∀ lsFuel fuel, solveTexts cfg lsFuel fuel [affineText plus (Nat.toDigits 10 c) v (Nat.toDigits 10 (c * n))] = .ok ans) ∧ ans.vars = [v] ∧
      ans.table.lookup v = some y ∧ y.Is ((if plus then -(n : ℤ) else n : ℤ) : ℚ) := by
  obtain ⟨k, b1, b2⟩ := digits_numeral (L := L) (n := c) (le_trans hc (by norm_num))
  obtain ⟨a, d1, d2⟩ := digits_numeral (L := L) (n := c * n) (le_trans hn (by norm_num))
  obtain ⟨ts, t1, t2⟩ := affine_lexed b1 hv.1 d1 plus
  have hc' : |(c : ℤ)| ≤ 2 ^ 51 := by rw [Nat.abs_cast]; exact_mod_cast hc
  have hn' : |(c : ℤ) * n| ≤ 2 ^ 51 := by rw [← Nat.cast_mul, Nat.abs_cast]; exact_mod_cast hn
  have hr : |(c : ℤ) * (if plus then -(n : ℤ) else n : ℤ)| ≤ 2 ^ 51 := by
    cases plus
    · exact hn'
    · rw [if_pos rfl, mul_neg, abs_neg]; exact hn'
  have ha : a.Is ((if plus then -((c : ℤ) * (if plus then -(n : ℤ) else n)) else (c : ℤ) * (if plus then -(n : ℤ) else n) : ℤ) : ℚ) := by
    cases plus <;> simpa using d2
  exact C137 hm he h0 h1 hmax (k := k) (c := c) (i := 1) (by exact_mod_cast b2) (by exact_mod_cast hc0) (hc'.trans (by norm_num)) hr
    (by rw [mul_one]; exact hc') (by exact_mod_cast hini) ha (affine_tokens t1 t2 hv.2)

/-! ### Cases -/

/-- C137_natural applied to `3*x-12` and `3*x+12` with every setting at its default -/
example (plus : Bool) : ∃ (ans : VarsTable (Double accurate)) (y : Double accurate),
    (∀ lsFuel fuel, solveTexts defaultA lsFuel fuel [if plus then "3*x+12".toList else "3*x-12".toList] = .ok ans) ∧ ans.vars = ["x".toList] ∧
    ans.table.lookup "x".toList = some y ∧ y.Is (if plus then -4 else 4) := by
  have hb : 0 < defaultA.epsilon.raw.toRat ∧ defaultA.epsilon.raw.toRat ≤ 1 := by decide +kernel
  obtain ⟨ans, y, r1, r2, r3, r4⟩ := C137_natural (cfg := defaultA) (v := "x".toList) rfl ⟨by decide +kernel, rfl⟩ hb.1 hb.2 (by decide) one_is
    (c := 3) (n := 4) (by norm_num) (by norm_num) (by norm_num) readable_x_double plus
  refine ⟨ans, y, ?_, r2, r3, ?_⟩
  · cases plus
    · exact r1
    · exact r1
  · cases plus <;> simpa using r4

end Double
end Tom
