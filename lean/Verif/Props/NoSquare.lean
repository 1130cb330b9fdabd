import Verif.Props.SquareText
import Verif.Props.Subs
/-
C134: equations with roots that no double meets to the default tolerance.
-/
set_option linter.unusedSectionVars false
namespace Tom
namespace Double
variable {L : Libm} {cfg : Config (Double L)} {ε : ℚ} {v : Str} {a : Double L}

/-- no double has a square, as computed, close to an odd power of two -/
theorem square_gap (m : ℕ) {Y : ℚ} (hY : IsDouble Y) : 3 * 2 ^ (2 * m) / 2 ^ 55 ≤ |rnd (Y * Y) - 2 ^ (2 * m + 1)| := by
  set y := |Y| with hyd
  have hyf : IsFloat y := isFloat_abs ((isDouble_iff Y).mp hY).1
  have hy0 : 0 ≤ y := abs_nonneg _
  have hyy : Y * Y = y * y := by rw [hyd, abs_mul_abs_self]
  rw [hyy]
  set T : ℚ := 2 ^ (2 * m) with hT
  have hT0 : 0 < T := by positivity
  have hT2 : (2 : ℚ) ^ (2 * m + 1) = 2 * T := by rw [hT, pow_succ]; ring
  rw [hT2]
  set U : ℚ := 2 ^ ((m : ℤ) - 52) with hU
  have hU0 : 0 < U := by positivity
  have hR : U * 2 ^ 52 = 2 ^ m := by
    rw [hU, ← zpow_natCast (2 : ℚ) 52, ← zpow_add₀ (by norm_num)]
    rw [← zpow_natCast]; congr 1; push_cast; ring
  have hUT : U * U * 2 ^ 104 = T := by
    have : U * U * 2 ^ 104 = (U * 2 ^ 52) * (U * 2 ^ 52) := by ring
    rw [this, hR, hT, ← pow_add]; congr 1; ring
  have fl : ∀ (n j : ℤ), |n| < 2 ^ 53 → -1074 ≤ j → IsFloat ((n : ℚ) * 2 ^ j) := fun n j h1 h2 => ⟨n, j, h1, h2, rfl⟩
  have hz : ∀ j : ℕ, (2 : ℚ) ^ ((2 * m : ℕ) - (j : ℤ)) * 2 ^ j = T := by
    intro j
    rw [← zpow_natCast (2 : ℚ) j, ← zpow_add₀ (by norm_num), hT, ← zpow_natCast]; congr 1; ring
  rcases lt_or_ge y (2 ^ m) with h | h
  · have h1 : y * y ≤ T := by
      have : y * y ≤ 2 ^ m * 2 ^ m := by nlinarith
      rw [hT]; refine this.trans (le_of_eq ?_); rw [← pow_add]; congr 1; ring
    have h2 : IsFloat T := by
      have := fl 1 (2 * m : ℕ) (by norm_num) (by push_cast; omega)
      rw [zpow_natCast] at this; simpa using this
    have h3 := rnd_le _ _ h2 h1
    rw [abs_of_nonpos (by linarith)]
    linarith
  · obtain ⟨z, hzy⟩ := isFloat_units hyf ((m : ℤ) - 52) (.inr (by
      rw [sub_add_cancel, zpow_natCast, abs_of_nonneg hy0]; exact h))
    rw [← hU] at hzy
    rcases lt_or_ge z 6369051672525773 with hc | hc
    · have h1 : y ≤ 6369051672525772 * U := by
        rw [hzy]
        have : (z : ℚ) ≤ 6369051672525772 := by exact_mod_cast Int.lt_add_one_iff.mp hc
        exact mul_le_mul_of_nonneg_right this hU0.le
      have h2 : y * y ≤ 6369051672525772 * 6369051672525772 * (U * U) := by
        have := mul_le_mul h1 h1 hy0 (by positivity)
        linarith
      have h3 := fl (2 ^ 53 - 1) ((2 * m : ℕ) - (52 : ℕ)) (by norm_num) (by push_cast; omega)
      have h4 := hz 52
      set W : ℚ := 2 ^ (((2 * m : ℕ) : ℤ) - ((52 : ℕ) : ℤ)) with hW
      have h5 : U * U * 2 ^ 104 = W * 2 ^ 52 := by rw [hUT, h4]
      have h6 : y * y ≤ ((2 ^ 53 - 1 : ℤ) : ℚ) * W := by
        push_cast
        nlinarith [mul_pos hU0 hU0]
      have h7 := rnd_le _ _ h3 h6
      push_cast at h7
      have hW0 : 0 < W := by positivity
      rw [abs_of_nonpos (by nlinarith)]
      rw [← h4]
      nlinarith
    · have h1 : 6369051672525773 * U ≤ y := by
        rw [hzy]
        have : (6369051672525773 : ℚ) ≤ z := by exact_mod_cast hc
        exact mul_le_mul_of_nonneg_right this hU0.le
      have h2 : 6369051672525773 * 6369051672525773 * (U * U) ≤ y * y := by
        have := mul_le_mul h1 h1 (by positivity) hy0
        linarith
      have h3 := fl (2 ^ 52 + 1) ((2 * m : ℕ) - (51 : ℕ)) (by norm_num) (by push_cast; omega)
      have h4 := hz 51
      set W : ℚ := 2 ^ (((2 * m : ℕ) : ℤ) - ((51 : ℕ) : ℤ)) with hW
      have hW0 : 0 < W := by positivity
      have h5 : U * U * 2 ^ 104 = W * 2 ^ 51 := by rw [hUT, h4]
      have h6 := rnd_nearest (6369051672525773 * 6369051672525773 * (U * U)) _ h3
      have h7 := rnd_mono h2
      push_cast at h6
      have h8 : 6369051672525773 * 6369051672525773 * (U * U) = W * (6369051672525773 * 6369051672525773 / 2 ^ 53) := by
        have : U * U = W / 2 ^ 53 := by
          rw [eq_div_iff (by norm_num)]
          have : U * U * 2 ^ 53 * 2 ^ 51 = W * 2 ^ 51 := by rw [← h5]; ring
          exact mul_right_cancel₀ (by norm_num) this
        rw [this]; ring
      rw [h8] at h6 h7
      have h10 : |4503599627370497 * W - W * (6369051672525773 * 6369051672525773 / 2 ^ 53)| ≤ 39 / 100 * W := by
        rw [abs_le]; constructor <;> linarith
      have h9 := (abs_le.mp (h6.trans h10)).1
      rw [← h4]
      refine le_trans ?_ (le_abs_self _)
      nlinarith

/-- **C134**: let `a` be the double `2^(2m+1)`, and let epsilon be at most `3 * 2^(2m) / 2^55` (the default, `10^-9`, is for `m = 12` and above).  Then
there is a square root of `a`, and doubles within a relative distance of `2^-52` of it, but at no double, infinity or NaN `y` does the computed value of
`y*y-a` pass the test of `Solve`. -/
theorem C134_no_double (he : cfg.epsilon.Is ε) {m : ℕ} (hε : ε ≤ 3 * 2 ^ (2 * m) / 2 ^ 55) (ha : a.Is (2 ^ (2 * m + 1))) (y : Double L) :
    Arith.lt (Arith.abs (Arith.sub (Arith.sub (Arith.mul y y) a) (Dbl.ofInt 0))) cfg.epsilon = false := by
  rw [Bool.eq_false_iff]
  intro h
  obtain ⟨r, hr⟩ : ∃ r, (Arith.abs (Arith.sub (Arith.sub (Arith.mul y y) a) (Dbl.ofInt 0)) : Double L).Is r := by
    set b : Double L := Arith.sub (Arith.sub (Arith.mul y y) a) (Dbl.ofInt 0)
    have h' : F64.lt (F64.abs b.raw) cfg.epsilon.raw = true := h
    have hb : (Arith.abs b).raw = F64.abs b.raw := rfl
    have : (F64.abs b.raw).isInvalid = false := by
      cases hc : b.raw <;> rw [hc] at h' <;> first | rfl | (exfalso; revert h'; simp [F64.abs, F64.lt]; done) | skip
      exfalso
      rcases is_cases he with ⟨-, s, hs⟩ | ⟨-, hs⟩ <;> rw [hs] at h' <;> simp [F64.abs, F64.lt] at h'
    exact ⟨_, is_of_valid this⟩
  rw [lt_is hr he, decide_eq_true_eq] at h
  obtain ⟨p, hp, rfl⟩ := abs_inv hr
  have h0 : (Dbl.ofInt 0 : Double L).Is 0 := by exact_mod_cast is_ofInt (L := L) (i := 0) (by norm_num)
  obtain ⟨p1, p2, k1, k2, rfl, -⟩ := sub_inv hp
  obtain rfl := is_unique k2 h0
  rw [sub_zero, rnd_of_isDouble (is_double k1)] at h
  obtain ⟨S, q, k3, k4, rfl, -⟩ := sub_inv k1
  obtain rfl := is_unique k4 ha
  obtain ⟨Y, Y', k5, k6, rfl, -⟩ := mul_inv k3
  obtain rfl := is_unique k5 k6
  have hg := square_gap m (is_double k5)
  have hεd := ((isDouble_iff ε).mp (is_double he)).1
  have hle : ε ≤ |rnd (Y * Y) - 2 ^ (2 * m + 1)| := hε.trans hg
  rcases le_abs.mp hle with k | k
  · have := le_rnd _ _ hεd k
    linarith [le_abs_self (rnd (rnd (Y * Y) - 2 ^ (2 * m + 1)))]
  · have := rnd_le _ _ (isFloat_neg hεd) (show rnd (Y * Y) - 2 ^ (2 * m + 1) ≤ -ε by linarith)
    linarith [neg_abs_le (rnd (rnd (Y * Y) - 2 ^ (2 * m + 1)))]

/-- **C134**: with `a` and epsilon as above, `Solve` of `v*v-a = 0` returns a table for no method, no initial table, no limit of the number of iterations and
no `<cmath>`. -/
theorem C134 (he : cfg.epsilon.Is ε) {m : ℕ} (hε : ε ≤ 3 * 2 ^ (2 * m) / 2 ^ 55) (ha : a.Is (2 ^ (2 * m + 1))) {t : VarsTable (Double L)} (ht : t.Reachable)
    (lsFuel fuel : ℕ) (t' : VarsTable (Double L)) : solve cfg lsFuel fuel (symOf (squareEquation v a)) t ≠ .ok t' := by
  intro h
  obtain ⟨F, h1, h2⟩ := C42 cfg lsFuel fuel _ ht h 0
  have h3 := (C17_subsValues_vpa cfg (squareMinus v a) t'.table).symm.trans h1
  have hck : ∀ {z w : Double L}, checked cfg.throwOnInvalidValue z = .ok w → z = w := by
    intro z w hz
    unfold checked at hz
    split at hz
    · cases hz
    · exact Res.ok.inj hz
  cases hl : t'.table.lookup v with
  | none =>
    simp only [squareMinus, Expr.eval, hl] at h3
    cases h3
  | some y =>
    simp only [squareMinus, Expr.eval, hl, Res.bind_ok, BinOp.apply] at h3
    obtain ⟨w, h4, h5⟩ := Res.bind_eq_ok.mp h3
    obtain rfl := hck h4
    obtain rfl := hck h5
    rw [C134_no_double he hε ha y] at h2
    cases h2

/-- **C134** for texts: `Solve` of a text that is read as `v*v-a` returns no table. -/
theorem C134_text (he : cfg.epsilon.Is ε) {m : ℕ} (hε : ε ≤ 3 * 2 ^ (2 * m) / 2 ^ 55) (ha : a.Is (2 ^ (2 * m + 1))) {text : Str}
    (ht : parse text = .ok (embed (squareMinus v a))) (lsFuel fuel : ℕ) (t' : VarsTable (Double L)) : solveTexts cfg lsFuel fuel [text] ≠ .ok t' := by
  intro h
  have heq : equationsOf [text] = .ok (symOf (squareEquation v a)) := equationsOf_eq (texts := fun _ => text) Nat.one_pos (fun _ => ht)
  unfold solveTexts at h
  rw [heq, Res.bind_ok] at h
  obtain ⟨names, t, -, h2, h3⟩ := solveAuto_unfold h
  exact C134 he hε ha (.ofVars h2) lsFuel fuel t' h3

/-- **C134** for `Solve` with its default settings: the text is `x*x-` and the digits of an odd power of two from `2^25` to `2^53`. -/
theorem C134_default (m : ℕ) (hm : 12 ≤ m) (hm' : m ≤ 26) (cfg : Config (Double L)) (he : cfg.epsilon.Is (defaultA.epsilon.raw.toRat)) (lsFuel fuel : ℕ)
    (t' : VarsTable (Double L)) : solveTexts cfg lsFuel fuel ["x*x-".toList ++ Nat.toDigits 10 (2 ^ (2 * m + 1))] ≠ .ok t' := by
  have hp : 2 ^ (2 * m + 1) ≤ 2 ^ 53 := Nat.pow_le_pow_right (by norm_num) (by omega)
  obtain ⟨a, d1, d2⟩ := digits_numeral (L := L) hp
  obtain ⟨ts, t1, t2⟩ := square_lexed (readable_x_double (L := L)).1 d1
  have hb : defaultA.epsilon.raw.toRat ≤ 3 * 2 ^ 24 / 2 ^ 55 := by decide +kernel
  have hb2 : (3 : ℚ) * 2 ^ 24 / 2 ^ 55 ≤ 3 * 2 ^ (2 * m) / 2 ^ 55 := by
    have : (2 : ℚ) ^ 24 ≤ 2 ^ (2 * m) := pow_le_pow_right₀ (by norm_num) (by omega)
    gcongr
  refine C134_text (v := ['x']) he (hb.trans hb2) (by exact_mod_cast d2) ?_ lsFuel fuel t'
  exact square_tokens t1 t2 (readable_x_double (L := L)).2

/-- by default `Solve` of `x*x-33554432` reaches the limit of its iterations and throws, although the equation has two roots -/
theorem C134_throws : solveTexts defaultA 100 200 ["x*x-33554432".toList] = .throw .runtime := by decide +kernel

end Double
end Tom
