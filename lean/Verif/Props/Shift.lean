import Verif.Lemmas.Shift
import Verif.Props.SquareText
/-
C136: `Solve` of `x-n` and `x+n` with IEEE doubles returns the integer itself, without any rounding error.
-/
set_option linter.unusedSectionVars false
namespace Tom
namespace Double
variable {L : Libm} {cfg : Config (Double L)} {ε : ℚ} {v : Str} {a : Double L} {plus : Bool}

/-- **C136** for Newton's method called with a table: let the equation be `v-a` or `v+a` with an integer literal, and `r` its root (`a`, or `-a`), up to
`2^52` in absolute value.  From every integer start up to `2^52`, with every epsilon in `(0, 1]` and at least one iteration allowed, with whatever
`<cmath>` and whether or not invalid values are checked, Newton's method returns exactly `r`. -/
theorem C136_newton (he : cfg.epsilon.Is ε) (h0 : 0 < ε) (h1 : ε ≤ 1) (hmax : 1 ≤ cfg.maxIterations) {r i : ℤ} (hr : |r| ≤ 2 ^ 52) (hi : |i| ≤ 2 ^ 52)
    (ha : a.Is ((if plus then -r else r : ℤ) : ℚ)) {t : VarsTable (Double L)} {x : Double L} (ht : DoubleTable t [v] (fun _ => x)) (hx : x.Is i) :
    ∃ (t' : VarsTable (Double L)) (y : Double L), solveByNewtonRaphson cfg (symOf (shiftEquation plus v a)) t = .ok t' ∧
      DoubleTable t' [v] (fun _ => y) ∧ y.Is r := by
  obtain ⟨n, hn⟩ : ∃ n, (cfg.maxIterations + 2).toNat + 1 = n + 3 := ⟨(cfg.maxIterations + 2).toNat - 2, by omega⟩
  obtain ⟨t', y, k1, k2, k3⟩ := shift_run (v := v) he h0 h1 hmax hr hi ha ht hx n
  refine ⟨t', y, ?_, k2, k3⟩
  have e1 : Mat.new t.varNums 1 (Arith.zero : Double L) = .ok ⟨1, 1, [Arith.zero]⟩ := by
    have : t.varNums = 1 := by rw [VarsTable.varNums, ht.1.good.length, ht.2.1]; rfl
    rw [this]; rfl
  unfold solveByNewtonRaphson
  rw [e1, Res.bind_ok, ht.2.1, shift_jacobian, Res.bind_ok]
  rw [← hn] at k1
  exact k1

/-- **C136** for every double: let the equation be `v-a` or `v+a` and `q` its root, any double up to `2^900` in absolute value.  From the value 1 (the
default), with an epsilon between `2^-49` and 1/2 and at least one iteration allowed, Newton's method returns; the number `Y` it returns is exactly `q` if
`q` is at least 2 in absolute value, and otherwise it is within `2^-50` of `q`, unless 1 itself is accepted. -/
theorem C136_double (he : cfg.epsilon.Is ε) (h0 : 1 / 2 ^ 49 < ε) (h1 : ε ≤ 1 / 2) (hmax : 1 ≤ cfg.maxIterations) {q : ℚ} (hq : |q| ≤ 2 ^ 900)
    (ha : a.Is (if plus then -q else q)) {t : VarsTable (Double L)} {x : Double L} (ht : DoubleTable t [v] (fun _ => x)) (hx : x.Is 1) :
    ∃ (t' : VarsTable (Double L)) (y : Double L) (Y : ℚ), solveByNewtonRaphson cfg (symOf (shiftEquation plus v a)) t = .ok t' ∧
      DoubleTable t' [v] (fun _ => y) ∧ y.Is Y ∧ ((Y = 1 ∧ |1 - q| ≤ ε + 1 / 2 ^ 50) ∨ |Y - q| ≤ 1 / 2 ^ 50) ∧ (2 ≤ |q| → Y = q) := by
  obtain ⟨n, hn⟩ : ∃ n, (cfg.maxIterations + 2).toNat + 1 = n + 3 := ⟨(cfg.maxIterations + 2).toNat - 2, by omega⟩
  obtain ⟨t', y, Y, k1, k2, k3⟩ := shift_run_double (v := v) he h0 h1 hmax hq ha ht hx n
  refine ⟨t', y, Y, ?_, k2, k3⟩
  have e1 : Mat.new t.varNums 1 (Arith.zero : Double L) = .ok ⟨1, 1, [Arith.zero]⟩ := by
    have : t.varNums = 1 := by rw [VarsTable.varNums, ht.1.good.length, ht.2.1]; rfl
    rw [this]; rfl
  unfold solveByNewtonRaphson
  rw [e1, Res.bind_ok, ht.2.1, shift_jacobian, Res.bind_ok]
  rw [← hn] at k1
  exact k1

/-- what `Solve` does with such a text, by Newton's method -/
theorem shift_solve (hm : cfg.nonlinearMethod = .newtonRaphson) {text : Str} (ht : parse text = .ok (embed (shifted plus v a))) {r : VarsTable (Double L)}
    (hr : solveByNewtonRaphson cfg (symOf (shiftEquation plus v a)) ⟨[v], ⟨1, 1, [cfg.initialValue]⟩, [(v, cfg.initialValue)]⟩ = .ok r) (lsFuel fuel : ℕ) :
    solveTexts cfg lsFuel fuel [text] = .ok r := by
  have hv : VarsTable.ofVars [v] cfg.initialValue = .ok ⟨[v], ⟨1, 1, [cfg.initialValue]⟩, [(v, cfg.initialValue)]⟩ := rfl
  have heq : equationsOf [text] = .ok (symOf (shiftEquation plus v a)) := equationsOf_eq (texts := fun _ => text) Nat.one_pos (fun _ => ht)
  have hnames : (symOf (shiftEquation plus v a)).getAllVarNames = .ok [v] := by
    obtain ⟨out, k1, k2, k3⟩ := C50_getAllVarNames (shiftEquation plus v a)
    rw [k1]
    have k4 : ∀ y, y ∈ out ↔ y = v := by
      intro y
      rw [k3 y]
      simp [shiftEquation, shifted, Expr.vars]
    match out, k2, k4 with
    | [], _, k4 => exact absurd ((k4 v).mpr rfl) (by simp)
    | [x], _, k4 => rw [(k4 x).mp (by simp)]
    | x :: y :: l, k2, k4 =>
      have hx := (k4 x).mp (by simp)
      have hy := (k4 y).mp (by simp)
      have := (List.pairwise_cons.mp k2).1 y (by simp)
      rw [hx, hy] at this
      simp [strLt_irrefl] at this
  unfold solveTexts solveAuto
  rw [heq, Res.bind_ok, hnames, Res.bind_ok, hv, Res.bind_ok]
  unfold solve
  rw [hm]
  exact hr

/-- **C136** for `Solve` of a text, with Newton's method (the default): if the text is read as `v-a` or `v+a` and the initial value is an integer (the
default is 1), then `Solve` returns a table which holds exactly the root. -/
theorem C136 (hm : cfg.nonlinearMethod = .newtonRaphson) (he : cfg.epsilon.Is ε) (h0 : 0 < ε) (h1 : ε ≤ 1) (hmax : 1 ≤ cfg.maxIterations) {r i : ℤ}
    (hr : |r| ≤ 2 ^ 52) (hi : |i| ≤ 2 ^ 52) (hini : cfg.initialValue.Is i) (ha : a.Is ((if plus then -r else r : ℤ) : ℚ)) {text : Str}
    (ht : parse text = .ok (embed (shifted plus v a))) :
    ∃ (ans : VarsTable (Double L)) (y : Double L), (∀ lsFuel fuel, solveTexts cfg lsFuel fuel [text] = .ok ans) ∧ ans.vars = [v] ∧
      ans.table.lookup v = some y ∧ y.Is r := by
  set t0 : VarsTable (Double L) := ⟨[v], ⟨1, 1, [cfg.initialValue]⟩, [(v, cfg.initialValue)]⟩ with ht0
  have hv : VarsTable.ofVars [v] cfg.initialValue = .ok t0 := rfl
  have htab : DoubleTable t0 [v] fun _ => cfg.initialValue := ⟨.ofVars hv, rfl, rfl⟩
  obtain ⟨t', y, r1, r2, r3⟩ := C136_newton (v := v) he h0 h1 hmax hr hi ha htab hini
  refine ⟨t', y, fun lsFuel fuel => ?_, r2.2.1, DoubleTable.lookup r2 (0 : Fin 1), r3⟩
  exact shift_solve hm ht r1 lsFuel fuel

/-- **C136** for `Solve` of a text and every double up to `2^900`, from the default initial value 1. -/
theorem C136_double_text (hm : cfg.nonlinearMethod = .newtonRaphson) (hini : cfg.initialValue.Is 1) (he : cfg.epsilon.Is ε) (h0 : 1 / 2 ^ 49 < ε)
    (h1 : ε ≤ 1 / 2) (hmax : 1 ≤ cfg.maxIterations) {q : ℚ} (hq : |q| ≤ 2 ^ 900) (ha : a.Is (if plus then -q else q)) {text : Str}
    (ht : parse text = .ok (embed (shifted plus v a))) :
    ∃ (ans : VarsTable (Double L)) (y : Double L) (Y : ℚ), (∀ lsFuel fuel, solveTexts cfg lsFuel fuel [text] = .ok ans) ∧ ans.vars = [v] ∧
      ans.table.lookup v = some y ∧ y.Is Y ∧ ((Y = 1 ∧ |1 - q| ≤ ε + 1 / 2 ^ 50) ∨ |Y - q| ≤ 1 / 2 ^ 50) ∧ (2 ≤ |q| → Y = q) := by
  have hv : VarsTable.ofVars [v] cfg.initialValue = .ok ⟨[v], ⟨1, 1, [cfg.initialValue]⟩, [(v, cfg.initialValue)]⟩ := rfl
  obtain ⟨t', y, Y, r1, r2, r3⟩ := C136_double (v := v) he h0 h1 hmax hq ha
    (t := ⟨[v], ⟨1, 1, [cfg.initialValue]⟩, [(v, cfg.initialValue)]⟩) ⟨.ofVars hv, rfl, rfl⟩ hini
  exact ⟨t', y, Y, fun lsFuel fuel => shift_solve hm ht r1 lsFuel fuel, r2.2.1, DoubleTable.lookup r2 (0 : Fin 1), r3⟩

/-- the text `v+u` or `v-u` is divided into three tokens -/
theorem shift_lexed {u : Str} (hv : WordMeans v (.var v : Tok (Double L))) (hu : Numeral u a) (plus : Bool) :
    ∃ ts : List (Tok (Double L) × Nat), Lexed WordMeans 0 (shiftText plus v u) ts ∧
      ts.map Prod.fst = [.var v, .sym (if plus then '+' else '-'), .num a] := by
  have hl : LegalName v := by cases hv; assumption
  obtain ⟨v1, v2⟩ := legalName_word hl
  obtain ⟨u1, u2⟩ := numeral_word hu
  have o2 : OpChar (if plus then '+' else '-') := by cases plus <;> simp [OpChar]
  generalize hc : (if plus then '+' else '-') = c at o2 ⊢
  have k5 : ∀ k, Lexed WordMeans k u [((.num a : Tok (Double L)), k)] := fun k => by
    simpa using Lexed.word (w := []) (rest := []) (k := k) (by simp) u1 u2 (by simp) (.num hu) (.blank (by simp))
  have k4 : ∀ k, Lexed WordMeans k (c :: u) [((.sym c : Tok (Double L)), k), (.num a, k + 1)] := fun k => by
    simpa using Lexed.sym (w := []) (k := k) (by simp) o2 (k5 (k + 0 + 1))
  have k1 := Lexed.word (w := []) (k := 0) (by simp) v1 v2 (by simpa using opChar_not_word o2) hv (k4 _)
  have hs : shiftText plus v u = [] ++ v ++ c :: u := by simp [shiftText, hc]
  rw [hs]
  exact ⟨_, k1, rfl⟩

/-- a text whose tokens are `v - a` or `v + a` is read so -/
theorem shift_tokens {s : Str} {ts : List (Tok (Double L) × Nat)} (hlex : Lexed WordMeans 0 s ts)
    (hts : ts.map Prod.fst = [.var v, .sym (if plus then '+' else '-'), .num a]) (hv : NoCollision v) : parse s = .ok (embed (shifted plus v a)) := by
  refine C01_parse s ts _ hlex ?_ ?_
  · rw [hts]
    have g1 : Gram 5 [(.var v : Tok (Double L))] (.var v) :=
      .lift (.lift (.lift (.lift (.lift (.lift (.lift (.lift (.lift (.lift (.var v))))))))))
    have g5 : Gram 6 [(.num a : Tok (Double L))] (.num a) :=
      .lift (.lift (.lift (.lift (.lift (.lift (.lift (.lift (.lift (.num a)))))))))
    cases plus
    · exact .lift (.lift (.lift (.lift (.lift (Gram.left .sub (by decide) g1 g5)))))
    · exact .lift (.lift (.lift (.lift (.lift (Gram.left .add (by decide) g1 g5)))))
  · intro x hx
    rw [hts] at hx
    simp only [List.mem_cons, Tok.var.injEq, reduceCtorEq, List.not_mem_nil, or_false] at hx
    rcases hx with rfl; exact hv

/-- **C136** for the texts: for every natural number `n` up to `2^52` and every readable variable name, `Solve` of the text `v-n` gives `v` exactly the
value `n`, and `Solve` of `v+n` exactly `-n`. -/
theorem C136_natural (hm : cfg.nonlinearMethod = .newtonRaphson) (he : cfg.epsilon.Is ε) (h0 : 0 < ε) (h1 : ε ≤ 1) (hmax : 1 ≤ cfg.maxIterations) {i : ℤ}
    (hi : |i| ≤ 2 ^ 52) (hini : cfg.initialValue.Is i) {n : ℕ} (hn : n ≤ 2 ^ 52) (hv : ReadableName (Double L) v) (plus : Bool) :
    ∃ (ans : VarsTable (Double L)) (y : Double L),
      (∀ lsFuel fuel, solveTexts cfg lsFuel fuel [shiftText plus v (Nat.toDigits 10 n)] = .ok ans) ∧ ans.vars = [v] ∧
      ans.table.lookup v = some y ∧ y.Is ((if plus then -(n : ℤ) else n : ℤ) : ℚ) := by
  obtain ⟨a, d1, d2⟩ := digits_numeral (L := L) (n := n) (le_trans hn (by norm_num))
  obtain ⟨ts, t1, t2⟩ := shift_lexed hv.1 d1 plus
  have hn' : (n : ℤ) ≤ 2 ^ 52 := by exact_mod_cast hn
  have hr : |(if plus then -(n : ℤ) else n : ℤ)| ≤ 2 ^ 52 := by cases plus <;> simpa using hn'
  have ha : a.Is ((if plus then -(if plus then -(n : ℤ) else n) else (if plus then -(n : ℤ) else n) : ℤ) : ℚ) := by cases plus <;> simpa using d2
  obtain ⟨ans, y, r1, r2, r3, r4⟩ := C136 hm he h0 h1 hmax hr hi hini ha (shift_tokens t1 t2 hv.2)
  exact ⟨ans, y, r1, r2, r3, by cases plus <;> simpa using r4⟩

/-- **C136** for every text `v-u` or `v+u` with a numeral `u` in any notation the library reads, whose value is a double `a` up to `2^900`: the answer is
the root to the last bit if `a` is at least 2. -/
theorem C136_numeral (hm : cfg.nonlinearMethod = .newtonRaphson) (hini : cfg.initialValue.Is 1) (he : cfg.epsilon.Is ε) (h0 : 1 / 2 ^ 49 < ε)
    (h1 : ε ≤ 1 / 2) (hmax : 1 ≤ cfg.maxIterations) {q : ℚ} (hq : |q| ≤ 2 ^ 900) {u : Str} (hu : Numeral u a) (ha : a.Is q)
    (hv : ReadableName (Double L) v) (plus : Bool) :
    ∃ (ans : VarsTable (Double L)) (y : Double L) (Y : ℚ), (∀ lsFuel fuel, solveTexts cfg lsFuel fuel [shiftText plus v u] = .ok ans) ∧ ans.vars = [v] ∧
      ans.table.lookup v = some y ∧ y.Is Y ∧ ((Y = 1 ∧ |1 - (if plus then -q else q)| ≤ ε + 1 / 2 ^ 50) ∨ |Y - (if plus then -q else q)| ≤ 1 / 2 ^ 50) ∧
      (2 ≤ |q| → Y = if plus then -q else q) := by
  obtain ⟨ts, t1, t2⟩ := shift_lexed hv.1 hu plus
  have h := shift_tokens t1 t2 hv.2
  cases plus
  · exact C136_double_text (plus := false) (q := q) hm hini he h0 h1 hmax hq ha h
  · have := C136_double_text (plus := true) (q := -q) hm hini he h0 h1 hmax ((abs_neg q).le.trans hq) (by simpa using ha) h
    rw [abs_neg] at this
    exact this

/-! ### Cases -/

/-- C136_natural applied to `x-4503599627370496` and `x+4503599627370496` with every setting at its default -/
example (plus : Bool) : ∃ (ans : VarsTable (Double accurate)) (y : Double accurate),
    (∀ lsFuel fuel, solveTexts defaultA lsFuel fuel [shiftText plus "x".toList (Nat.toDigits 10 4503599627370496)] = .ok ans) ∧ ans.vars = ["x".toList] ∧
    ans.table.lookup "x".toList = some y ∧ y.Is ((if plus then -(4503599627370496 : ℕ) else (4503599627370496 : ℕ) : ℤ) : ℚ) := by
  have hb : 0 < defaultA.epsilon.raw.toRat ∧ defaultA.epsilon.raw.toRat ≤ 1 := by decide +kernel
  exact C136_natural (v := "x".toList) rfl ⟨by decide +kernel, rfl⟩ hb.1 hb.2 (by decide) (i := 1) (by norm_num) one_is (by norm_num) readable_x_double plus

/-- C136_double_text applied to `x+12.375` with every setting at its default: exactly -12.375 -/
example : ∃ (ans : VarsTable (Double accurate)) (y : Double accurate), (∀ lsFuel fuel, solveTexts defaultA lsFuel fuel ["x+12.375".toList] = .ok ans) ∧
    ans.vars = [['x']] ∧ ans.table.lookup ['x'] = some y ∧ y.Is (-99 / 8) := by
  have hb : 1 / 2 ^ 49 < defaultA.epsilon.raw.toRat ∧ defaultA.epsilon.raw.toRat ≤ 1 / 2 := by decide +kernel
  have h2 : (lit 12375 (-3) : Double accurate).Is (if true = true then -(-99 / 8) else -99 / 8) := ⟨by decide +kernel, by decide +kernel⟩
  have hq : |(-99 / 8 : ℚ)| ≤ 2 ^ 900 := by
    rw [abs_of_neg (by norm_num)]
    exact le_trans (by norm_num : (- (-99 / 8) : ℚ) ≤ 2 ^ 10) (pow_le_pow_right₀ (by norm_num) (by norm_num))
  obtain ⟨ans, y, Y, r1, r2, r3, r4, -, r5⟩ := C136_double_text (v := ['x']) (plus := true) (text := "x+12.375".toList) rfl one_is
    ⟨by decide +kernel, rfl⟩ hb.1 hb.2 (by decide) hq h2 (by decide +kernel)
  rw [r5 (by rw [abs_of_neg (by norm_num)]; norm_num)] at r4
  exact ⟨ans, y, r1, r2, r3, r4⟩

/-- `C136_double` at a number below 2: the hypotheses hold of `x-0.1` with every setting at its default -/
example : ∃ (ans : VarsTable (Double accurate)) (y : Double accurate) (Y : ℚ), (∀ lsFuel fuel, solveTexts defaultA lsFuel fuel ["x-0.1".toList] = .ok ans) ∧
    ans.vars = [['x']] ∧ ans.table.lookup ['x'] = some y ∧ y.Is Y ∧ |Y - (lit 1 (-1) : Double accurate).raw.toRat| ≤ 1 / 2 ^ 50 := by
  have hb : 1 / 2 ^ 49 < defaultA.epsilon.raw.toRat ∧ defaultA.epsilon.raw.toRat ≤ 1 / 4 := by decide +kernel
  have h2 : (lit 1 (-1) : Double accurate).Is (if false = true then -(lit 1 (-1) : Double accurate).raw.toRat else (lit 1 (-1) : Double accurate).raw.toRat) :=
    ⟨by decide +kernel, rfl⟩
  have h3 : 0 ≤ (lit 1 (-1) : Double accurate).raw.toRat ∧ (lit 1 (-1) : Double accurate).raw.toRat ≤ 1 / 4 := by decide +kernel
  have hq : |(lit 1 (-1) : Double accurate).raw.toRat| ≤ 2 ^ 900 := by
    rw [abs_of_nonneg h3.1]
    exact h3.2.trans (le_trans (by norm_num) (one_le_pow₀ (by norm_num)))
  obtain ⟨ans, y, Y, r1, r2, r3, r4, r5, -⟩ := C136_double_text (v := ['x']) (plus := false) (text := "x-0.1".toList) rfl one_is
    ⟨by decide +kernel, rfl⟩ hb.1 (by linarith [hb.2]) (by decide) hq h2 (by decide +kernel)
  refine ⟨ans, y, Y, r1, r2, r3, r4, r5.resolve_left fun h => ?_⟩
  have := (abs_le.mp h.2).2
  linarith [h3.2, hb.2, (by norm_num : (1 : ℚ) / 2 ^ 50 < 1 / 4)]

end Double
end Tom
