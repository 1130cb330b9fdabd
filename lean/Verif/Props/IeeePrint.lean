import Verif.Lemmas.IeeeText
import Verif.Props.Print
/-
Property C74: IEEE doubles, their texts and what Parse makes of them.
-/
namespace Tom
namespace Double
variable {L : Libm}

theorem tiny_le : (1 : ℚ) / 2 ^ 1022 ≤ 1 / 2 ^ 60 := one_div_pow_le_one_div_pow_of_le (by norm_num) (by norm_num)

theorem huge_ge : (2 : ℚ) ^ 60 ≤ 2 ^ 1024 := pow_le_pow_right₀ (by norm_num) (by norm_num)

/-- a whole number of `1e-16` -/
theorem scaled {a : ℚ} {n k : ℕ} (hk : k ≤ 16) (ha : a = (n : ℚ) / 10 ^ k) : ∃ N : ℕ, a = (N : ℚ) / 10 ^ 16 := by
  obtain ⟨j, hj⟩ := Nat.exists_eq_add_of_le hk
  refine ⟨n * 10 ^ j, ?_⟩
  have : (10 : ℚ) ^ 16 = 10 ^ k * 10 ^ j := by rw [← pow_add, ← hj]
  rw [ha, this]; push_cast; field_simp

/-- C74: zero reads back. -/
theorem C74_zero (x : Double L) (hx : x.raw = .zero false) : ReadsBack x := by
  refine .plain ?_
  have ht : Dbl.toStr x = ['0'] := by show F64.toStr x.raw = _; rw [hx]; rfl
  rw [ht]
  have e : decRat 0 0 = 0 := by simp [decRat]
  obtain ⟨y, hy, hr⟩ := ofDec_some (L := L) (m := 0) (e := 0) (by rw [e]; exact ofNumeral_zero)
  have : y = x := Double.ext (hr.trans hx.symm)
  subst this
  have h1 : DecDigits ['0'] := by intro c hc; simp at hc; subst hc; decide
  have := Numeral.dec (α := Double L) (Mantissa.int h1 (by simp)) .none (by simpa [digitsVal, digitVal] using hy)
  simpa using this

/-- C74: every double from 0.5 up to 1e16 in absolute value reads back as itself: what `ToString` writes is read by `Parse` as a
numeral for exactly this double, or as a minus sign and a numeral for exactly its negation. -/
theorem C74_reads_back (x : Double L) (v : ℚ) (hx : x.Is v) (hlo : 1 / 2 ≤ |v|) (hhi : |v| < 10 ^ 16) : ReadsBack x := by
  have hd := is_double hx
  obtain ⟨ip, fp, h1, h2, h3, h4, h5⟩ := C51_nearest v hd hlo hhi
  have hlo' : 1 / 2 ^ 1022 ≤ |v| := le_trans (le_trans tiny_le (by norm_num)) hlo
  refine readsBack_of_text hx hlo' h1 h2 h3 h4 ?_
  generalize (digitsVal 10 (ip ++ fp) : ℚ) / 10 ^ fp.length = a at h5 ⊢
  -- the number written is no further than another double, here: the double itself is nearer than its neighbours
  have key : ∀ v', IsDouble v' → v' ≠ |v| → |a - abs v| < |a - v'| := by
    intro v' hv' hne
    by_cases hneg : v < 0
    · have := h5 (-v') (isDouble_neg hv') (by rw [abs_of_neg hneg] at hne; rintro rfl; exact hne (by ring))
      simp only [if_pos hneg] at this
      rw [abs_of_neg hneg, show a - -v = -(-1 * a - v) by ring, show a - v' = -(-1 * a - -v') by ring, abs_neg, abs_neg]
      exact this
    · have := h5 v' hv' (by rwa [abs_of_nonneg (not_lt.mp hneg)] at hne)
      simp only [if_neg hneg, one_mul] at this
      rw [abs_of_nonneg (not_lt.mp hneg)]
      exact this
  -- so it is not huge
  have hfar : |a - abs v| < |a - 0| := key 0 isDouble_zero (by intro h; rw [← h] at hlo; norm_num at hlo)
  have hfar2 := key (2 * 10 ^ 16) (by
    exact ⟨2 * 5 ^ 16, 16, by norm_num, by norm_num, by norm_num, by norm_num, by norm_num⟩) (by intro h; rw [← h] at hhi; norm_num at hhi)
  have ha : |a| ≤ 2 * 10 ^ 16 := by
    rw [abs_le]
    constructor
    · by_contra hc
      have e1 : |a - abs v| = -(a - abs v) := abs_of_neg (by linarith [abs_nonneg v])
      have e2 : |a - 0| = -(a - 0) := abs_of_neg (by linarith)
      rw [e1, e2] at hfar
      linarith [abs_nonneg v]
    · by_contra hc
      have e1 : |a - abs v| = a - abs v := abs_of_pos (by linarith)
      have e2 : |a - 2 * 10 ^ 16| = a - 2 * 10 ^ 16 := abs_of_pos (by linarith)
      rw [e1, e2] at hfar2
      linarith
  refine rnd_of_nearest (isDouble_abs hd) ?_ key
  have h2e16 : IsFloat (2 * 10 ^ 16) := ⟨2 * 5 ^ 16, 16, by norm_num, by norm_num, by norm_num⟩
  refine lt_of_le_of_lt (abs_rnd_le a _ h2e16 ha) (lt_of_lt_of_le (by norm_num) huge_ge)

theorem rnd_abs_comm (q : ℚ) : |rnd q| = rnd |q| := by
  have h0 : ∀ p : ℚ, 0 ≤ p → 0 ≤ rnd p := fun p hp => le_rnd p 0 ⟨0, 0, by norm_num, by norm_num, by norm_num⟩ hp
  rcases le_total 0 q with h | h
  · rw [abs_of_nonneg h, abs_of_nonneg (h0 q h)]
  · rw [abs_of_nonpos h, rnd_neg, abs_of_nonpos]
    have := h0 (-q) (by linarith)
    rw [rnd_neg] at this
    linarith

theorem rnd_err' {q : ℚ} (h : |q| ≤ 1 / 10 ^ 16) : |rnd q - q| ≤ 1 / 2 / 10 ^ 16 := by
  rcases le_total (1 / 2 ^ 1022) |q| with h1 | h1
  · refine le_trans (rnd_rel q h1) ?_
    refine le_trans (mul_le_mul_of_nonneg_left h (by norm_num)) (by norm_num)
  · have hr := abs_rnd_le q (1 / 2 ^ 60) ⟨1, -60, by norm_num, by norm_num, by norm_num⟩ (le_trans h1 tiny_le)
    have := abs_sub_le (rnd q) 0 q
    rw [sub_zero, zero_sub, abs_neg] at this
    have e : (1 : ℚ) / 2 ^ 60 + 1 / 2 ^ 60 ≤ 1 / 2 / 10 ^ 16 := by norm_num
    linarith [le_trans h1 tiny_le]

/-- no numeral begins with a minus sign -/
theorem no_minus {u : Str} {a : Double L} : ¬ Numeral ('-' :: u) a := by
  intro h
  generalize hw : ('-' :: u) = w at h
  cases h with
  | @dec m ip fp ex n _ hm hx ho =>
    cases hm with
    | int h1 h2 =>
      obtain ⟨c, cs, rfl⟩ := List.exists_cons_of_ne_nil h2
      have hc := (List.cons.inj hw).1
      subst hc
      exact absurd (h1 '-' (by simp)).1 (by decide)
    | point h1 h2 h3 =>
      cases ip with
      | nil => exact absurd (List.cons.inj hw).1 (by decide)
      | cons c cs =>
        have hc := (List.cons.inj hw).1
        subst hc
        exact absurd (h1 '-' (by simp)).1 (by decide)
  | hex h1 hm hx ho => exact absurd (List.cons.inj hw).1 (by decide)
  | inf h1 h2 h3 => rcases h1 with rfl | rfl <;> exact absurd (List.cons.inj hw).1 (by decide)
  | infinity h1 => rcases h1 with rfl | rfl <;> exact absurd (List.cons.inj hw).1 (by decide)
  | nan h1 h2 h3 => rcases h1 with rfl | rfl <;> exact absurd (List.cons.inj hw).1 (by decide)

/-- C74: a double that is the nearest one to a multiple of 1e-16 (at least 2e-16, and below 1e16) reads back as itself.  Every number
the user writes with at most 16 decimals is read as such a double. -/
theorem C74_decimal (x : Double L) (v : ℚ) (hx : x.Is v) (z : ℤ) (hz : 2 ≤ |z|) (hv : v = rnd (z / 10 ^ 16)) (hhi : |v| < 10 ^ 16) :
    ReadsBack x := by
  by_cases hbig : 1 / 2 ≤ |v|
  · exact C74_reads_back x v hx hbig hhi
  push Not at hbig
  have hza : |(z : ℚ) / 10 ^ 16| = ((|z| : ℤ) : ℚ) / 10 ^ 16 := by rw [abs_div, abs_of_pos (by norm_num : (0 : ℚ) < 10 ^ 16), Int.cast_abs]
  have hz2 : (2 : ℚ) ≤ ((|z| : ℤ) : ℚ) := by exact_mod_cast hz
  have hdlo : (2 : ℚ) / 10 ^ 16 ≤ |(z : ℚ) / 10 ^ 16| := by rw [hza]; exact div_le_div_of_nonneg_right hz2 (by norm_num)
  have habs : |v| = rnd |(z : ℚ) / 10 ^ 16| := by rw [hv, rnd_abs_comm]
  have hd0 : |(z : ℚ) / 10 ^ 16| < 1 / 2 := by
    by_contra hc
    have := le_rnd _ (1 / 2) ⟨1, -1, by norm_num, by norm_num, by norm_num⟩ (not_lt.mp hc)
    rw [← habs] at this
    linarith
  rw [hza] at hdlo habs hd0
  generalize hdd : ((|z| : ℤ) : ℚ) / 10 ^ 16 = d at hdlo habs hd0
  have hdpos : 0 < d := lt_of_lt_of_le (by norm_num) hdlo
  -- the rounding error is less than half of 1e-16
  have herr : |rnd d - d| ≤ 1 / 2 ^ 55 := by
    refine le_trans (rnd_err d) ?_
    obtain ⟨_, _, h3⟩ := ratUlp_spec d (ne_of_gt hdpos)
    have hu : ratUlp d ≤ -54 := by
      rcases h3 with h3 | h3
      · by_contra hc
        rw [abs_of_pos hdpos] at h3
        have : (2 : ℚ) ^ (-1 : ℤ) ≤ 2 ^ (ratUlp d + 52) := zpow_le_zpow_right₀ (by norm_num) (by omega)
        norm_num at this
        linarith
      · omega
    refine le_trans (zpow_le_zpow_right₀ (by norm_num) (by omega : ratUlp d - 1 ≤ -55)) (by norm_num)
  rw [← habs] at herr
  have hvlo : 1 / 10 ^ 16 < |v| := by
    have := (abs_le.mp herr).1
    have h55 : (1 : ℚ) / 2 ^ 55 < 1 / 10 ^ 16 := by norm_num
    have h2 : (2 : ℚ) / 10 ^ 16 = 1 / 10 ^ 16 + 1 / 10 ^ 16 := by norm_num
    linarith
  obtain ⟨ip, fp, h1, h2, h3, h4, _, h6, _, h8⟩ := C51_fixed v hvlo hhi
  refine readsBack_of_text hx (le_trans (le_trans tiny_le (by norm_num)) (le_of_lt hvlo)) h1 h2 h3 h4 ?_
  obtain ⟨N, hN⟩ := scaled (a := (digitsVal 10 (ip ++ fp) : ℚ) / 10 ^ fp.length) h6 rfl
  rw [hN] at h8 ⊢
  have hclose : |(N : ℚ) / 10 ^ 16 - d| < 1 / 10 ^ 16 := by
    have h9 : |(N : ℚ) / 10 ^ 16 - d| ≤ |(N : ℚ) / 10 ^ 16 - abs v| + |abs v - d| := abs_sub_le _ _ _
    have h55 : (1 : ℚ) / 2 ^ 55 < 1 / 2 / 10 ^ 16 := by norm_num
    have h2 : (1 : ℚ) / 10 ^ 16 = 1 / 2 / 10 ^ 16 + 1 / 2 / 10 ^ 16 := by norm_num
    linarith
  have hNz : (N : ℤ) = |z| := by
    rw [← hdd, ← sub_div, abs_div, abs_of_pos (by norm_num : (0 : ℚ) < 10 ^ 16), div_lt_div_iff_of_pos_right (by norm_num)] at hclose
    by_contra hne
    have h1 : (1 : ℤ) ≤ |(N : ℤ) - abs z| := Int.one_le_abs (sub_ne_zero.mpr hne)
    have h2 : (1 : ℚ) ≤ |(N : ℚ) - ((abs z : ℤ) : ℚ)| := by exact_mod_cast h1
    linarith
  have : (N : ℚ) / 10 ^ 16 = d := by rw [← hdd, ← hNz]; norm_num
  rw [this, habs]

/-- C74: exactly the doubles nearest to a multiple of 1e-16 read back (from 2e-16 up to 1e16). -/
theorem C74_iff (x : Double L) (v : ℚ) (hx : x.Is v) (hlo : 2 / 10 ^ 16 ≤ |v|) (hhi : |v| < 10 ^ 16) :
    ReadsBack x ↔ ∃ z : ℤ, v = rnd (z / 10 ^ 16) := by
  have hvlo : 1 / 10 ^ 16 < |v| := lt_of_lt_of_le (by norm_num) hlo
  have hraw : x.raw = .num v := by
    rcases is_cases hx with ⟨h, _⟩ | ⟨_, h⟩
    · rw [h, abs_zero] at hvlo; exact absurd hvlo (by norm_num)
    · exact h
  have hts : Dbl.toStr x = formatDouble v := by
    show F64.toStr x.raw = _
    rw [hraw]; rfl
  obtain ⟨ip, fp, h1, h2, h3, h4, h5, h6, _, h8⟩ := C51_fixed v hvlo hhi
  obtain ⟨N, hN⟩ := scaled (a := (digitsVal 10 (ip ++ fp) : ℚ) / 10 ^ fp.length) h6 rfl
  constructor
  · intro h
    have h8' := abs_le.mp h8
    have hN1 : (1 : ℚ) / 10 ^ 16 ≤ (digitsVal 10 (ip ++ fp) : ℚ) / 10 ^ fp.length := by
      have e : (2 : ℚ) / 10 ^ 16 = 1 / 10 ^ 16 + (1 / 2 / 10 ^ 16 + 1 / 2 / 10 ^ 16) := by norm_num
      linarith [(by norm_num : (0 : ℚ) < 1 / 2 / 10 ^ 16)]
    have hN2 : (digitsVal 10 (ip ++ fp) : ℚ) / 10 ^ fp.length ≤ 2 * 10 ^ 16 := by
      linarith [(by norm_num : (1 : ℚ) / 2 / 10 ^ 16 < 1)]
    have hl : 1 / 2 ^ 60 ≤ rnd ((digitsVal 10 (ip ++ fp) : ℚ) / 10 ^ fp.length) :=
      le_rnd _ _ ⟨1, -60, by norm_num, by norm_num, by norm_num⟩ (le_trans (by norm_num) hN1)
    have hh : rnd ((digitsVal 10 (ip ++ fp) : ℚ) / 10 ^ fp.length) ≤ 2 * 10 ^ 16 :=
      rnd_le _ _ ⟨2 * 5 ^ 16, 16, by norm_num, by norm_num, by norm_num⟩ hN2
    have hh' : rnd ((digitsVal 10 (ip ++ fp) : ℚ) / 10 ^ fp.length) < 2 ^ 1024 :=
      lt_of_le_of_lt hh (lt_of_lt_of_le (by norm_num) huge_ge)
    have hn := fixed_numeral (L := L) h2 h3 h4 (le_trans tiny_le hl) hh'
    have hnr : (near L ((digitsVal 10 (ip ++ fp) : ℚ) / 10 ^ fp.length)).raw = .num (rnd ((digitsVal 10 (ip ++ fp) : ℚ) / 10 ^ fp.length)) :=
      near_raw (ne_of_gt (lt_of_lt_of_le (by norm_num) hl)) (by rw [abs_of_pos (lt_of_lt_of_le (by norm_num) hl)]; exact hh')
    have uniq : ∀ {u : Str} {a b : Double L}, Numeral u a → Numeral u b → a = b := fun ha hb =>
      Option.some.inj (((stodFull_iff _ _).mpr ha).symm.trans ((stodFull_iff _ _).mpr hb))
    cases h with
    | plain hp =>
      rw [hts, h1] at hp
      by_cases hneg : v < 0
      · rw [signText, if_pos hneg] at hp
        exact absurd hp no_minus
      · rw [signText, if_neg hneg, List.nil_append] at hp
        have e := congrArg Double.raw (uniq hp hn)
        rw [hraw, hnr] at e
        refine ⟨N, ?_⟩
        rw [hN] at e
        simpa using F64.num.inj e
    | signed hl' ht hu hw =>
      rw [hts, h1] at ht
      have hneg : v < 0 := by
        rw [lt_is hx (is_ofInt (i := 0) (by norm_num))] at hl'
        simpa using hl'
      rw [signText, if_pos hneg] at ht
      have hu' := (List.cons.inj ht).2
      subst hu'
      rw [uniq hu hn] at hw
      have e := congrArg Double.raw hw
      have e2 : (Arith.neg (near L ((digitsVal 10 (ip ++ fp) : ℚ) / 10 ^ fp.length))).raw =
        F64.neg (near L ((digitsVal 10 (ip ++ fp) : ℚ) / 10 ^ fp.length)).raw := rfl
      rw [hraw, e2, hnr, hN] at e
      refine ⟨-N, ?_⟩
      have := F64.num.inj e
      rw [← this, ← rnd_neg]
      push_cast
      rw [neg_div]
  · rintro ⟨z, hz⟩
    by_cases hz1 : 2 ≤ |z|
    · exact C74_decimal x v hx z hz1 hz hhi
    · exfalso
      have hz2 : |z| ≤ 1 := by omega
      have : |(z : ℚ) / 10 ^ 16| ≤ 1 / 10 ^ 16 := by
        rw [abs_div, abs_of_pos (by norm_num : (0 : ℚ) < 10 ^ 16)]
        refine div_le_div_of_nonneg_right ?_ (by norm_num)
        exact_mod_cast hz2
      have h3 : |v| ≤ 1 / 2 ^ 53 := by
        rw [hz]
        exact abs_rnd_le _ _ ⟨1, -53, by norm_num, by norm_num, by norm_num⟩ (le_trans this (by norm_num))
      have h4 : |v| ≤ 3 / 2 / 10 ^ 16 := by
        have h5 := rnd_err' this
        rw [← hz] at h5
        have h6 : |v| ≤ |v - z / 10 ^ 16| + |(z : ℚ) / 10 ^ 16| := by
          have := abs_sub_le v (z / 10 ^ 16) 0
          simpa using this
        have e : (3 : ℚ) / 2 / 10 ^ 16 = 1 / 2 / 10 ^ 16 + 1 / 10 ^ 16 := by norm_num
        linarith
      have e : (3 : ℚ) / 2 / 10 ^ 16 < 2 / 10 ^ 16 := by norm_num
      linarith

/-- C74: the infinities and NaN read back (`inf`, `-inf`, `nan` are numerals to `Parse`). -/
theorem C74_nonfinite (x : Double L) (hx : Dbl.isInvalid x = true) : ReadsBack x := by
  obtain ⟨r, hr⟩ := x
  cases r with
  | nan => exact .plain (Numeral.nan (.inl rfl) (.inl rfl) (.inl rfl))
  | inf s =>
    cases s with
    | false => exact .plain (Numeral.inf (.inl rfl) (.inl rfl) (.inl rfl))
    | true => exact .signed (u := ['i', 'n', 'f']) (w := Dbl.inf) rfl rfl (Numeral.inf (.inl rfl) (.inl rfl) (.inl rfl)) rfl
  | zero s => cases hx
  | num q => cases hx

/-- C74: the sign of a zero is lost: -0 is written `0`, which reads as +0. -/
theorem C74_negative_zero_false : ∃ x y : Double L, x.raw = .zero true ∧ toStringNode (embed (.num x)) = .ok ['0'] ∧
    parse ['0'] = .ok (embed (.num y)) ∧ x ≠ y := by
  let x : Double L := ⟨.zero true, trivial⟩
  let y : Double L := ⟨.zero false, trivial⟩
  have h : ReadsBack y := C74_zero y rfl
  refine ⟨x, y, rfl, rfl, ?_, fun h => by cases congrArg Double.raw h⟩
  obtain ⟨s, h1, h2⟩ := C06_same_partial (.num y) (by
    intro v hv
    simp [Expr.nums] at hv
    subst hv
    exact h) (by simp [Expr.vars]) (by simp [Expr.NoArc]) rfl
  have h3 : toStringNode (embed (.num y)) = .ok ['0'] := rfl
  rw [h3] at h1
  cases h1
  exact h2

/-- C74: below 0.5 a double may be read back as another one: 0.1 + 0.2 is written `0.3`, which is read as a different double. -/
theorem C74_false : ∃ a b c : Double L, (Dbl.ofDec 1 (-1) : Option (Double L)) = some a ∧ Dbl.ofDec 2 (-1) = some b ∧
    Numeral ['0', '.', '3'] c ∧ Dbl.toStr (Arith.add a b) = ['0', '.', '3'] ∧ Arith.eq (Arith.add a b) c = false := by
  have h1 : F64.ofNumeral (decRat 1 (-1)) = some (.num (3602879701896397 / 2 ^ 55)) := by decide +kernel
  have h2 : F64.ofNumeral (decRat 2 (-1)) = some (.num (3602879701896397 / 2 ^ 54)) := by decide +kernel
  have h3 : F64.ofNumeral (decRat 3 (-1)) = some (.num (5404319552844595 / 2 ^ 54)) := by decide +kernel
  obtain ⟨a, ha, ha'⟩ := ofDec_some (L := L) h1
  obtain ⟨b, hb, hb'⟩ := ofDec_some (L := L) h2
  obtain ⟨c, hc, hc'⟩ := ofDec_some (L := L) h3
  have hd0 : DecDigits ['0'] := by intro c hc; simp at hc; subst hc; decide
  have hd3 : DecDigits ['3'] := by intro c hc; simp at hc; subst hc; decide
  have hs : F64.add (.num (3602879701896397 / 2 ^ 55)) (.num (3602879701896397 / 2 ^ 54)) = .num (5404319552844596 / 2 ^ 54) := by
    decide +kernel
  refine ⟨a, b, c, ha, hb, ?_, ?_, ?_⟩
  · have := Numeral.dec (α := Double L) (Mantissa.point hd0 hd3 (by simp)) .none (v := c) (by simpa [digitsVal, digitVal] using hc)
    simpa using this
  · show F64.toStr (F64.add a.raw b.raw) = _
    rw [ha', hb', hs]
    decide +kernel
  · show F64.eq (F64.add a.raw b.raw) c.raw = _
    rw [ha', hb', hc', hs]
    decide +kernel

/-- C74: from 1e16 on, and from 1e-16 down, the text (with an exponent, so not for `Parse`, see C06_false_large) denotes a number whose
nearest double is the number written: correctly rounded reading, as by `std::stod`, gives it back. -/
theorem C74_scientific (x : Double L) (v : ℚ) (hx : x.Is v) (h0 : v ≠ 0) (hr : |v| ≤ 1 / 10 ^ 16 ∨ 10 ^ 16 ≤ |v|) :
    ∃ (d : Char) (fp ed : Str) (e : ℤ), Dbl.toStr x = signText v ++ d :: fracText fp ++ expText e ed ∧
    DecDigits (d :: fp) ∧ DecDigits ed ∧ digitsVal 10 ed = e.natAbs ∧
    rnd ((if v < 0 then -1 else 1) * ((digitsVal 10 (d :: fp) : ℚ) / 10 ^ fp.length * 10 ^ e)) = v := by
  have hraw : x.raw = .num v := by
    rcases is_cases hx with ⟨h, _⟩ | ⟨_, h⟩
    · exact absurd h h0
    · exact h
  have hts : Dbl.toStr x = formatDouble v := by
    show F64.toStr x.raw = _
    rw [hraw]; rfl
  obtain ⟨d, fp, ed, e, h1, h2, h3, h4, h5, h6, _, _, h9, h10⟩ := C51_scientific v h0 hr
  refine ⟨d, fp, ed, e, by rw [hts, h1], h2, h6, h9, ?_⟩
  have hfl := ((isDouble_iff v).mp (is_double hx)).1
  -- the leading digit is not 0
  have hpe : (0 : ℚ) < 10 ^ e := by positivity
  have hlead : (1 : ℚ) ≤ (digitsVal 10 (d :: fp) : ℚ) / 10 ^ fp.length := by
    rw [le_div_iff₀ (by positivity), one_mul]
    have hd1 : 1 ≤ digitVal d := by
      have hd := h2 d (by simp)
      have : d.toNat ≠ 48 := by
        intro hc
        apply h3
        apply Char.ext
        apply UInt32.toNat.inj
        exact hc
      unfold digitVal
      rw [if_pos hd.2]
      omega
    have : 10 ^ fp.length ≤ digitsVal 10 (d :: fp) := by
      show _ ≤ digitVal d * 10 ^ fp.length + digitsVal 10 fp
      have : 1 * 10 ^ fp.length ≤ digitVal d * 10 ^ fp.length := Nat.mul_le_mul_right _ hd1
      omega
    exact_mod_cast this
  generalize (digitsVal 10 (d :: fp) : ℚ) / 10 ^ fp.length = a at hlead h10 ⊢
  have hsign : (if v < 0 then (-1 : ℚ) else 1) * (a * 10 ^ e) - v = (if v < 0 then (-1 : ℚ) else 1) * (a * 10 ^ e - abs v) := by
    split
    · rename_i h; rw [abs_of_neg h]; ring
    · rename_i h; rw [abs_of_nonneg (not_lt.mp h)]; ring
  apply rnd_of_near hfl
  rw [hsign, abs_mul]
  have hone : |(if v < 0 then (-1 : ℚ) else 1)| = 1 := by split <;> simp
  rw [hone, one_mul]
  have hae : (10 : ℚ) ^ e ≤ a * 10 ^ e := le_mul_of_one_le_left (le_of_lt hpe) hlead
  have hvp : 0 < |v| := abs_pos.mpr h0
  generalize (10 : ℚ) ^ e = t at *
  have h11 := (abs_le.mp h10).2
  have h12 : t * (1 - 1 / 2 / 10 ^ 16) ≤ |v| := by linarith
  have h13 : 1 / 2 / 10 ^ 16 * t < 1 / 2 ^ 54 * |v| := by
    have : 1 / 2 ^ 54 * (t * (1 - 1 / 2 / 10 ^ 16)) ≤ 1 / 2 ^ 54 * |v| := mul_le_mul_of_nonneg_left h12 (by norm_num)
    refine lt_of_lt_of_le ?_ this
    have : (1 : ℚ) / 2 / 10 ^ 16 < 1 / 2 ^ 54 * (1 - 1 / 2 / 10 ^ 16) := by norm_num
    nlinarith
  exact lt_of_le_of_lt h10 h13

/-- The literals that survive `ToString` and `Parse`. -/
def Safe (x : Double L) : Prop :=
  x.raw = .zero false ∨ Dbl.isInvalid x = true ∨ (∃ v, x.Is v ∧ 1 / 2 ≤ |v| ∧ |v| < 10 ^ 16) ∨
  ∃ (v : ℚ) (z : ℤ), x.Is v ∧ 2 ≤ |z| ∧ v = rnd (z / 10 ^ 16) ∧ |v| < 10 ^ 16

/-- C74: `Parse(ToString(e))` for an expression whose literals are doubles of these kinds is `e` up to regrouping; all literals are read
back exactly. -/
theorem C74_expression (e : Expr (Double L)) (hn : ∀ v ∈ e.nums, Safe v) (hv : ∀ x ∈ e.vars, ReadableName (Double L) x) (ha : e.NoArc) :
    ∃ s e', toStringNode (embed e) = .ok s ∧ parse s = .ok (embed e') ∧ Regroups e e' := by
  refine C06_partial e (fun v h => ?_) hv ha
  rcases hn v h with h | h | ⟨q, h1, h2, h3⟩ | ⟨q, z, h1, h2, h3, h4⟩
  · exact C74_zero v h
  · exact C74_nonfinite v h
  · exact C74_reads_back v q h1 h2 h3
  · exact C74_decimal v q h1 z h2 h3 h4

/-- a concrete case: `0.1*x` with the double nearest to 0.1, which is not a decimal fraction of 16 places -/
example (x : Double L) (h : Dbl.ofDec 1 (-1) = some x) : Safe x ∧ ¬ ∃ z : ℤ, x.raw.toRat * 10 ^ 16 = z := by
  have h1 : F64.ofNumeral (decRat 1 (-1)) = some (.num (3602879701896397 / 2 ^ 55)) := by decide +kernel
  have h2 := ofDec_inv h
  rw [h1] at h2
  have h3 := (Option.some.inj h2).symm
  constructor
  · refine .inr (.inr (.inr ⟨3602879701896397 / 2 ^ 55, 10 ^ 15, is_num h3, by norm_num, ?_, ?_⟩))
    · have : IsFloat (3602879701896397 / 2 ^ 55) := ⟨7205759403792794, -56, by norm_num, by norm_num, by norm_num⟩
      symm
      apply rnd_of_near this
      rw [abs_of_neg (by norm_num), abs_of_pos (by norm_num)]
      norm_num
    · rw [abs_of_pos (by norm_num)]; norm_num
  · rintro ⟨z, hz⟩
    rw [h3] at hz
    have hz' : (3602879701896397 : ℚ) / 2 ^ 55 * 10 ^ 16 = z := hz
    have : (3602879701896397 : ℚ) * 10 ^ 16 = z * 2 ^ 55 := by rw [← hz']; norm_num
    have : (3602879701896397 : ℤ) * 10 ^ 16 = z * 2 ^ 55 := by exact_mod_cast this
    omega

end Double
end Tom
