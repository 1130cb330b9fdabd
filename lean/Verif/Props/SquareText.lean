import Verif.Props.SquareRoot
import Verif.Props.Parse
import Verif.Lemmas.RoundTrip
import Verif.Props.PrintStable
import Verif.Lemmas.Format
/-
C133 for texts: what is written is `v*v-u` with a numeral `u`; in particular with the digits of a natural number.
-/
set_option linter.unusedSectionVars false
namespace Tom
namespace Double
variable {L : Libm} {cfg : Config (Double L)} {ε q : ℚ} {v : Str} {a : Double L}

/-- a text whose tokens are `v * v - a` is read as `v*v-a` -/
theorem square_tokens {s : Str} {ts : List (Tok (Double L) × Nat)} (hlex : Lexed WordMeans 0 s ts)
    (hts : ts.map Prod.fst = [.var v, .sym '*', .var v, .sym '-', .num a]) (hv : NoCollision v) : parse s = .ok (embed (squareMinus v a)) := by
  refine C01_parse s ts _ hlex ?_ ?_
  · rw [hts]
    have g1 : ∀ k, Gram (10 + k - k) [(.var v : Tok (Double L))] (.var v) := by
      intro k
      rw [Nat.add_sub_cancel]
      exact .lift (.lift (.lift (.lift (.lift (.var v)))))
    have g2 : Gram 11 [(.var v : Tok (Double L))] (.var v) := .lift (.lift (.lift (.lift (.var v))))
    have g3 : Gram 10 ([(.var v : Tok (Double L))] ++ [.sym '*'] ++ [.var v]) (.bin .mul (.var v) (.var v)) :=
      .left .mul (by decide) (g1 0) g2
    have g4 : Gram 5 ([(.var v : Tok (Double L))] ++ [.sym '*'] ++ [.var v]) (.bin .mul (.var v) (.var v)) :=
      .lift (.lift (.lift (.lift (.lift g3))))
    have g5 : Gram 6 [(.num a : Tok (Double L))] (.num a) :=
      .lift (.lift (.lift (.lift (.lift (.lift (.lift (.lift (.lift (.num a)))))))))
    exact .lift (.lift (.lift (.lift (.lift (Gram.left .sub (by decide) g4 g5)))))
  · intro x hx
    rw [hts] at hx
    simp only [List.mem_cons, Tok.var.injEq, reduceCtorEq, List.not_mem_nil, or_false, false_or, or_self] at hx
    rcases hx with rfl | rfl <;> exact hv

/-- the text `v*v-u` -/
def squareText (v u : Str) : Str := v ++ ['*'] ++ v ++ ['-'] ++ u

/-- the text `v*v-u` is divided into the tokens `v * v - a` -/
theorem square_lexed {u : Str} (hv : WordMeans v (.var v : Tok (Double L))) (hu : Numeral u a) :
    ∃ ts : List (Tok (Double L) × Nat), Lexed WordMeans 0 (squareText v u) ts ∧ ts.map Prod.fst = [.var v, .sym '*', .var v, .sym '-', .num a] := by
  have hl : LegalName v := by cases hv; assumption
  obtain ⟨v1, v2⟩ := legalName_word hl
  obtain ⟨u1, u2⟩ := numeral_word hu
  have o1 : OpChar '*' := by simp [OpChar]
  have o2 : OpChar '-' := by simp [OpChar]
  have k5 : ∀ k, Lexed WordMeans k u [((.num a : Tok (Double L)), k)] := fun k => by
    simpa using Lexed.word (w := []) (rest := []) (k := k) (by simp) u1 u2 (by simp) (.num hu) (.blank (by simp))
  have k4 : ∀ k, Lexed WordMeans k ('-' :: u) [((.sym '-' : Tok (Double L)), k), (.num a, k + 1)] := fun k => by
    simpa using Lexed.sym (w := []) (k := k) (by simp) o2 (k5 (k + 0 + 1))
  have k3 : ∀ k, Lexed WordMeans k (v ++ '-' :: u) [((.var v : Tok (Double L)), k), (.sym '-', k + v.length), (.num a, k + v.length + 1)] := fun k => by
    simpa using Lexed.word (w := []) (k := k) (by simp) v1 v2 (by simpa using opChar_not_word o2) hv (k4 _)
  have k2 : ∀ k, Lexed WordMeans k ('*' :: (v ++ '-' :: u)) [((.sym '*' : Tok (Double L)), k), (.var v, k + 1), (.sym '-', k + 1 + v.length),
      (.num a, k + 1 + v.length + 1)] := fun k => by
    simpa using Lexed.sym (w := []) (k := k) (by simp) o1 (k3 (k + 0 + 1))
  have k1 := Lexed.word (w := []) (k := 0) (by simp) v1 v2 (by simpa using opChar_not_word o1) hv (k2 _)
  have hs : squareText v u = [] ++ v ++ '*' :: (v ++ '-' :: u) := by simp [squareText]
  rw [hs]
  exact ⟨_, k1, rfl⟩

/-- the digits of a natural number are a numeral for it -/
theorem digits_numeral {n : ℕ} (hn : n ≤ 2 ^ 53) : ∃ a : Double L, Numeral (Nat.toDigits 10 n) a ∧ a.Is n := by
  have hne : Nat.toDigits 10 n ≠ [] := Nat.toDigits_ne_nil
  rcases Nat.eq_zero_or_pos n with rfl | h0
  · obtain ⟨x, hx, hr⟩ := ofDec_some (L := L) (m := digitsVal 10 (Nat.toDigits 10 0)) (e := ((0 : ℕ) : ℤ) - (([] : Str).length : ℤ)) (v := .zero false) (by decide +kernel)
    have h1 := Numeral.dec (α := Double L) (Mantissa.int (toDigits_dec 0) hne) .none (by simpa using hx)
    exact ⟨x, by simpa using h1, by simpa using is_zero hr⟩
  · have hd : IsDouble ((n : ℤ) : ℚ) := isDouble_int n (by rw [Nat.abs_cast]; exact_mod_cast hn)
    have hr : rnd ((digitsVal 10 (Nat.toDigits 10 n ++ []) : ℚ) / 10 ^ ([] : Str).length) = n := by
      rw [List.append_nil, toDigits_val, List.length_nil, pow_zero, div_one]
      exact_mod_cast rnd_of_isDouble hd
    have hlt : (n : ℚ) < 2 ^ 1024 := lt_of_le_of_lt (by exact_mod_cast hn : (n : ℚ) ≤ 2 ^ 53) (pow_lt_pow_right₀ (by norm_num) (by norm_num))
    have hge : (1 : ℚ) / 2 ^ 1022 ≤ n := le_trans (by rw [div_le_one (by positivity)]; exact one_le_pow₀ (by norm_num)) (by exact_mod_cast h0 : (1 : ℚ) ≤ n)
    have h1 := fixed_numeral (L := L) (toDigits_dec n) (fp := []) (by intro c hc; simp at hc) hne (by rw [hr]; exact hge) (by rw [hr]; exact hlt)
    refine ⟨_, by simpa [fracText] using h1, ?_⟩
    have h2 := is_near (L := L) (q := (digitsVal 10 (Nat.toDigits 10 n ++ []) : ℚ) / 10 ^ ([] : Str).length) (by rw [hr, abs_of_pos (by exact_mod_cast h0)]; exact hlt)
    rw [hr] at h2
    simpa using h2

/-- **C133** for every text `v*v-u`, with any spacing: let the text consist of a variable `v`, `*`, the same variable, `-`, and a numeral for a double `a`
from 0 to 65536.  `Solve` by Newton's method from 1 returns a number whose square is within `epsilon + 2^-33` of `a`. -/
theorem C133_text (hm : cfg.nonlinearMethod = .newtonRaphson) (hi : cfg.initialValue.Is 1) (he : cfg.epsilon.Is ε) (h1 : 1 / 2 ^ 30 ≤ ε) (h2 : ε ≤ 1)
    (hmax : 83 ≤ cfg.maxIterations) (ha : a.Is q) (hq0 : 0 ≤ q) (hq : q ≤ 2 ^ 16) {text : Str} {ts : List (Tok (Double L) × Nat)}
    (hlex : Lexed WordMeans 0 text ts) (hts : ts.map Prod.fst = [.var v, .sym '*', .var v, .sym '-', .num a]) (hv : NoCollision v) :
    ∃ (ans : VarsTable (Double L)) (y : Double L) (Y : ℚ), (∀ lsFuel fuel, solveTexts cfg lsFuel fuel [text] = .ok ans) ∧ ans.vars = [v] ∧
      ans.table.lookup v = some y ∧ y.Is Y ∧ |Y ^ 2 - q| ≤ ε + 1 / 2 ^ 33 ∧ (q + 2 * ε ≤ 1 → Y < 0) ∧ (1 + 2 * ε ≤ q → 0 < Y) :=
  C133 hm hi he h1 h2 hmax ha hq0 hq (square_tokens hlex hts hv)

/-- **C133** for natural numbers written in digits: for every `n` from 2 to 65536 and every readable variable name, `Solve` of the text `v*v-n` by
Newton's method from 1 returns a positive number within `(epsilon + 2^-33) / √n` of `√n`. -/
theorem C133_natural (hm : cfg.nonlinearMethod = .newtonRaphson) (hi : cfg.initialValue.Is 1) (he : cfg.epsilon.Is ε) (h1 : 1 / 2 ^ 30 ≤ ε) (h2 : ε ≤ 1 / 2)
    (hmax : 83 ≤ cfg.maxIterations) {n : ℕ} (hn : 2 ≤ n) (hn' : n ≤ 65536) (hv : ReadableName (Double L) v) :
    ∃ (ans : VarsTable (Double L)) (y : Double L) (Y : ℚ), (∀ lsFuel fuel, solveTexts cfg lsFuel fuel [squareText v (Nat.toDigits 10 n)] = .ok ans) ∧
      ans.vars = [v] ∧ ans.table.lookup v = some y ∧ y.Is Y ∧ |(Y : ℝ) - Real.sqrt n| ≤ (ε + 1 / 2 ^ 33) / Real.sqrt n := by
  obtain ⟨a, d1, d2⟩ := digits_numeral (L := L) (n := n) (le_trans hn' (by norm_num))
  obtain ⟨ts, t1, t2⟩ := square_lexed hv.1 d1
  have hq : ((n : ℚ)) ≤ 2 ^ 16 := by
    have : (n : ℚ) ≤ 65536 := by exact_mod_cast hn'
    linarith
  have hq2 : (2 : ℚ) ≤ n := by exact_mod_cast hn
  have := C133_above hm hi he h1 (by linarith) hmax d2 (by linarith) hq (square_tokens t1 t2 hv.2)
  simpa using this

/-! ### Cases -/

/-- C133_natural applied to `x*x-65535` with every setting at its default -/
example : ∃ (ans : VarsTable (Double accurate)) (y : Double accurate) (Y : ℚ), (∀ lsFuel fuel, solveTexts defaultA lsFuel fuel ["x*x-65535".toList] = .ok ans) ∧
    ans.vars = ["x".toList] ∧ ans.table.lookup "x".toList = some y ∧ y.Is Y ∧
    |(Y : ℝ) - Real.sqrt (65535 : ℕ)| ≤ (defaultA.epsilon.raw.toRat + 1 / 2 ^ 33) / Real.sqrt (65535 : ℕ) := by
  have hb : 1 / 2 ^ 30 ≤ defaultA.epsilon.raw.toRat ∧ defaultA.epsilon.raw.toRat ≤ 1 / 4 := by decide +kernel
  exact C133_natural (v := "x".toList) rfl one_is ⟨by decide +kernel, rfl⟩ hb.1 (by linarith [hb.2]) (by decide) (n := 65535) (by norm_num) (by norm_num)
    readable_x_double

end Double
end Tom
