import Verif.Lemmas.Format
import Verif.Lemmas.RoundTrip
import Verif.Model.Num
import Mathlib.Tactic.NormNum
/-
Property C51: the text of a number.
-/
namespace Tom

/-- C51: zero is written `0`. -/
theorem C51_zero : formatDouble 0 = ['0'] := rfl

/-- C51: a number between 1e-16 and 1e16 (in absolute value) is written as an optional minus sign, decimal digits without
superfluous leading zeros and, unless they are all zero, a point and at most 16 further digits of which the last is not 0.  The
number written differs from the exact value by at most half a unit of the sixteenth decimal. -/
theorem C51_fixed (v : ℚ) (hlo : 1 / 10 ^ 16 < abs v) (hhi : abs v < 10 ^ 16) : ∃ ip fp : Str,
    formatDouble v = signText v ++ ip ++ fracText fp ∧
    DecDigits ip ∧ DecDigits fp ∧ ip ≠ [] ∧ (ip.head? = some '0' → ip = ['0']) ∧ fp.length ≤ 16 ∧ fp.getLast? ≠ some '0' ∧
    |(digitsVal 10 (ip ++ fp) : ℚ) / 10 ^ fp.length - abs v| ≤ 1 / 2 / 10 ^ 16 := by
  have h0 : v ≠ 0 := by
    rintro rfl
    rw [abs_zero] at hlo
    exact absurd hlo (by norm_num)
  have ha : (if v < 0 then -v else v) = abs v := by
    split
    · rename_i h; exact (abs_of_neg h).symm
    · rename_i h; exact (abs_of_nonneg (not_lt.mp h)).symm
  have hf : formatDouble v = stripEnd (fmtFixed16 v) := by
    unfold formatDouble
    rw [if_neg h0]
    simp only
    rw [ha, if_neg]
    rintro (h | h)
    · exact absurd hhi (not_lt.mpr h)
    · rw [div_lt_iff₀ (by norm_num)] at hlo
      exact absurd hlo (not_lt.mpr h)
  rw [hf]
  exact fixed_text v

/-- C51: a multiple of 1e-16 in that range is written exactly. -/
theorem C51_exact (v : ℚ) (hlo : 1 / 10 ^ 16 < abs v) (hhi : abs v < 10 ^ 16) (z : ℤ) (hz : v * 10 ^ 16 = z) : ∃ ip fp : Str,
    formatDouble v = signText v ++ ip ++ fracText fp ∧ DecDigits ip ∧ DecDigits fp ∧ ip ≠ [] ∧
    (digitsVal 10 (ip ++ fp) : ℚ) / 10 ^ fp.length = abs v := by
  obtain ⟨ip, fp, h1, h2, h3, h4, _, h6, _, h8⟩ := C51_fixed v hlo hhi
  refine ⟨ip, fp, h1, h2, h3, h4, ?_⟩
  obtain ⟨k, hk⟩ := Nat.exists_eq_add_of_le h6
  have h10 : (10 : ℚ) ^ fp.length * 10 ^ k = 10 ^ 16 := by rw [← pow_add, ← hk]
  have e1 : (digitsVal 10 (ip ++ fp) : ℚ) / 10 ^ fp.length = ((digitsVal 10 (ip ++ fp) * 10 ^ k : ℕ) : ℚ) / 10 ^ 16 := by
    rw [← h10]; push_cast; field_simp
  have e2 : abs v = ((|z| : ℤ) : ℚ) / 10 ^ 16 := by
    rw [Int.cast_abs, ← hz, abs_mul, abs_of_pos (by norm_num : (0 : ℚ) < 10 ^ 16)]
    field_simp
  have e3 : (((digitsVal 10 (ip ++ fp) * 10 ^ k : ℕ) : ℤ) : ℚ) = ((digitsVal 10 (ip ++ fp) * 10 ^ k : ℕ) : ℚ) := by norm_cast
  rw [e1, e2, ← e3] at h8 ⊢
  generalize (((digitsVal 10 (ip ++ fp) * 10 ^ k : ℕ) : ℤ)) = a at *
  generalize |z| = b at *
  rw [← sub_div, abs_div, abs_of_pos (by norm_num : (0 : ℚ) < 10 ^ 16)] at h8
  have h9 : |(a : ℚ) - b| ≤ 1 / 2 := by
    by_contra hc
    have := div_lt_div_of_pos_right (not_le.mp hc) (by norm_num : (0 : ℚ) < 10 ^ 16)
    exact absurd h8 (not_le.mpr this)
  have h11 : a = b := by
    by_contra hne
    have h12 : (1 : ℤ) ≤ |a - b| := Int.one_le_abs (sub_ne_zero.mpr hne)
    have h13 : (1 : ℚ) ≤ |(a : ℚ) - b| := by exact_mod_cast h12
    linarith
  rw [h11]

/-- the text of a number without its sign is a numeral for the number written -/
theorem fixed_numeral {ip fp : Str} (h1 : DecDigits ip) (h2 : DecDigits fp) (h3 : ip ≠ []) :
    Numeral (ip ++ fracText fp) (.fin ((digitsVal 10 (ip ++ fp) : ℚ) / 10 ^ fp.length) : XNum Rat) := by
  have hval : ∀ n : ℕ, (Dbl.ofDec (digitsVal 10 (ip ++ fp)) ((0 : ℕ) - (n : ℤ)) : Option (XNum Rat)) =
      some (.fin ((digitsVal 10 (ip ++ fp) : ℚ) / 10 ^ n)) := by
    intro n
    simp only [Dbl.ofDec]
    cases n with
    | zero => simp
    | succ n =>
      rw [if_neg (by push_cast; omega)]
      have : (-(((0 : ℕ) : ℤ) - ((n + 1 : ℕ) : ℤ))).toNat = n + 1 := by omega
      rw [this]
  unfold fracText
  split
  · rename_i h
    subst h
    have := Numeral.dec (α := XNum Rat) (Mantissa.int h1 h3) .none (by simpa using hval 0)
    simpa using this
  · have := Numeral.dec (α := XNum Rat) (Mantissa.point h1 h2 (by simp [h3])) .none (hval fp.length)
    simpa using this

/-- C51: the text after the sign is a numeral (as `Parse` reads them) for a number within 0.5e-16 of the absolute value. -/
theorem C51_reads (v : ℚ) (hlo : 1 / 10 ^ 16 < abs v) (hhi : abs v < 10 ^ 16) : ∃ (u : Str) (w : ℚ),
    formatDouble v = signText v ++ u ∧ Numeral u (.fin w : XNum Rat) ∧ |w - abs v| ≤ 1 / 2 / 10 ^ 16 := by
  obtain ⟨ip, fp, h1, h2, h3, h4, _, _, _, h8⟩ := C51_fixed v hlo hhi
  exact ⟨ip ++ fracText fp, _, by rw [h1, List.append_assoc], fixed_numeral h2 h3 h4, h8⟩

/-- C51: a literal that is a multiple of 1e-16, below 1e16, reads back as itself. -/
theorem C51_readsBack (v : ℚ) (hlo : v = 0 ∨ 1 / 10 ^ 16 < abs v) (hhi : abs v < 10 ^ 16) (z : ℤ) (hz : v * 10 ^ 16 = z) :
    ReadsBack (.fin v : XNum Rat) := by
  rcases hlo with rfl | hlo
  · refine .plain ?_
    have := fixed_numeral (ip := ['0']) (fp := []) (by intro c hc; simp at hc; subst hc; decide) (by intro c hc; simp at hc) (by simp)
    have h2 : Numeral ['0'] (.fin 0 : XNum Rat) := by simpa [fracText, digitsVal, digitVal] using this
    exact h2
  · obtain ⟨ip, fp, h1, h2, h3, h4, h5⟩ := C51_exact v hlo hhi z hz
    have hn := fixed_numeral h2 h3 h4
    rw [h5] at hn
    have hts : (Dbl.toStr (.fin v : XNum Rat)) = formatDouble v := rfl
    by_cases hneg : v < 0
    · refine .signed (u := ip ++ fracText fp) (w := .fin (abs v)) ?_ ?_ hn ?_
      · show decide (v < ((0 : ℤ) : ℚ)) = true
        simpa using hneg
      · rw [hts, h1, signText, if_pos hneg]; rfl
      · show XNum.fin (-(abs v)) = XNum.fin v
        rw [abs_of_neg hneg, neg_neg]
    · refine .plain ?_
      rw [hts, h1, signText, if_neg hneg]
      rw [abs_of_nonneg (not_lt.mp hneg)] at hn
      simpa using hn

/-- C51: for every `double` from 0.5 up to 1e16 in absolute value, the number written is nearer to it than to any other
`double`: reading the text with correct rounding gives the same `double`. -/
theorem C51_nearest (v : ℚ) (hd : IsDouble v) (hlo : 1 / 2 ≤ abs v) (hhi : abs v < 10 ^ 16) : ∃ ip fp : Str,
    formatDouble v = signText v ++ ip ++ fracText fp ∧ DecDigits ip ∧ DecDigits fp ∧ ip ≠ [] ∧
    ∀ v', IsDouble v' → v' ≠ v →
      let w := (if v < 0 then -1 else 1) * ((digitsVal 10 (ip ++ fp) : ℚ) / 10 ^ fp.length)
      |w - v| < |w - v'| := by
  have hlo' : 1 / 10 ^ 16 < abs v := lt_of_lt_of_le (by norm_num) hlo
  rcases eq_or_lt_of_le hlo with hhalf | hgt
  · -- exactly one half
    have hz : ∃ z : ℤ, v * 10 ^ 16 = z := by
      rcases abs_eq (by norm_num : (0 : ℚ) ≤ 1 / 2) |>.mp hhalf.symm with h | h
      · exact ⟨5000000000000000, by rw [h]; norm_num⟩
      · exact ⟨-5000000000000000, by rw [h]; norm_num⟩
    obtain ⟨z, hz⟩ := hz
    obtain ⟨ip, fp, h1, h2, h3, h4, h5⟩ := C51_exact v hlo' hhi z hz
    refine ⟨ip, fp, h1, h2, h3, h4, fun v' _ hne => ?_⟩
    have hw : (if v < 0 then (-1 : ℚ) else 1) * abs v = v := by
      split
      · rename_i h; rw [abs_of_neg h]; ring
      · rename_i h; rw [abs_of_nonneg (not_lt.mp h)]; ring
    simp only [h5, hw, sub_self, abs_zero]
    exact abs_pos.mpr (sub_ne_zero.mpr hne.symm)
  · obtain ⟨ip, fp, h1, h2, h3, h4, _, _, _, h8⟩ := C51_fixed v hlo' hhi
    refine ⟨ip, fp, h1, h2, h3, h4, fun v' hd' hne => ?_⟩
    simp only
    generalize (digitsVal 10 (ip ++ fp) : ℚ) / 10 ^ fp.length = a at h8
    have hw : |(if v < 0 then (-1 : ℚ) else 1) * a - v| ≤ 1 / 2 / 10 ^ 16 := by
      split
      · rename_i h
        rw [abs_of_neg h] at h8
        rw [show -1 * a - v = -(a - -v) by ring, abs_neg]; exact h8
      · rename_i h
        rw [abs_of_nonneg (not_lt.mp h)] at h8
        rw [one_mul]; exact h8
    generalize (if v < 0 then (-1 : ℚ) else 1) * a = w at hw
    have hsmall : (1 : ℚ) / 2 / 10 ^ 16 < 1 / 2 ^ 54 := by norm_num
    have hfar : (1 : ℚ) / 2 ^ 53 ≤ |v - v'| := by
      obtain ⟨m, k, hm1, hm2, _, _, rfl⟩ := hd
      obtain ⟨m', k', hm1', hm2', _, _, rfl⟩ := hd'
      have h2pos : ∀ j : ℤ, (0 : ℚ) < (2 : ℚ) ^ j := fun j => by positivity
      have hk : -53 ≤ k := by
        by_contra hc
        have hle : (2 : ℚ) ^ k ≤ 2 ^ (-54 : ℤ) := zpow_le_zpow_right₀ (by norm_num) (by omega)
        have hma : |(m : ℚ)| ≤ 2 ^ 53 := by
          rw [abs_le]
          constructor
          · have : -(2 : ℤ) ^ 53 ≤ m := le_of_lt hm1
            exact_mod_cast this
          · have : m ≤ (2 : ℤ) ^ 53 := le_of_lt hm2
            exact_mod_cast this
        rw [abs_mul, abs_of_pos (h2pos k)] at hgt
        have : |(m : ℚ)| * 2 ^ k ≤ 2 ^ 53 * 2 ^ (-54 : ℤ) :=
          mul_le_mul hma hle (le_of_lt (h2pos k)) (by norm_num)
        have e : (2 : ℚ) ^ 53 * 2 ^ (-54 : ℤ) = 1 / 2 := by norm_num
        rw [e] at this
        linarith
      have scale : ∀ (m k : ℤ), -53 ≤ k → ∃ M : ℤ, (m : ℚ) * 2 ^ k = M / 2 ^ 53 := by
        intro m k hk
        refine ⟨m * 2 ^ (k + 53).toNat, ?_⟩
        have : (2 : ℚ) ^ k = 2 ^ (k + 53).toNat / 2 ^ 53 := by
          rw [eq_div_iff (by norm_num), ← zpow_natCast, ← zpow_natCast, ← zpow_add₀ (by norm_num : (2 : ℚ) ≠ 0)]
          congr 1
          omega
        rw [this]; push_cast; ring
      obtain ⟨M, hM⟩ := scale m k hk
      by_cases hk' : -53 ≤ k'
      · obtain ⟨M', hM'⟩ := scale m' k' hk'
        have hne' : M ≠ M' := by rintro rfl; exact hne (hM'.trans hM.symm)
        rw [hM, hM']
        have h12 : (1 : ℤ) ≤ |M - M'| := Int.one_le_abs (sub_ne_zero.mpr hne')
        have h13 : (1 : ℚ) ≤ |(M : ℚ) - M'| := by exact_mod_cast h12
        rw [← sub_div, abs_div, abs_of_pos (by norm_num : (0 : ℚ) < 2 ^ 53)]
        exact div_le_div_of_nonneg_right h13 (by norm_num)
      · have hv' : |(m' : ℚ) * 2 ^ k'| ≤ 1 / 2 := by
          have hle : (2 : ℚ) ^ k' ≤ 2 ^ (-54 : ℤ) := zpow_le_zpow_right₀ (by norm_num) (by omega)
          have hma : |(m' : ℚ)| ≤ 2 ^ 53 := by
            rw [abs_le]
            constructor
            · have : -(2 : ℤ) ^ 53 ≤ m' := le_of_lt hm1'
              exact_mod_cast this
            · have : m' ≤ (2 : ℤ) ^ 53 := le_of_lt hm2'
              exact_mod_cast this
          rw [abs_mul, abs_of_pos (h2pos k')]
          have : |(m' : ℚ)| * 2 ^ k' ≤ 2 ^ 53 * 2 ^ (-54 : ℤ) :=
            mul_le_mul hma hle (le_of_lt (h2pos k')) (by norm_num)
          have e : (2 : ℚ) ^ 53 * 2 ^ (-54 : ℤ) = 1 / 2 := by norm_num
          rwa [e] at this
        have hMv : (1 : ℚ) / 2 + 1 / 2 ^ 53 ≤ |(m : ℚ) * 2 ^ k| := by
          rw [hM] at hgt ⊢
          rw [abs_div, abs_of_pos (by norm_num : (0 : ℚ) < 2 ^ 53)] at hgt ⊢
          rw [lt_div_iff₀ (by norm_num)] at hgt
          rw [le_div_iff₀ (by norm_num)]
          have h14 : ((2 ^ 52 : ℤ) : ℚ) < ((|M| : ℤ) : ℚ) := by
            rw [Int.cast_abs]
            refine lt_of_le_of_lt (le_of_eq ?_) hgt
            norm_num
          have h15 : (2 ^ 52 : ℤ) + 1 ≤ |M| := by
            have : (2 ^ 52 : ℤ) < |M| := by exact_mod_cast h14
            omega
          have h16 : ((2 ^ 52 + 1 : ℤ) : ℚ) ≤ |(M : ℚ)| := by
            rw [← Int.cast_abs]; exact_mod_cast h15
          refine le_trans (le_of_eq ?_) h16
          norm_num
        have := abs_sub_abs_le_abs_sub ((m : ℚ) * 2 ^ k) ((m' : ℚ) * 2 ^ k')
        linarith
    have h3' : |v - v'| ≤ |w - v| + |w - v'| := by
      have := abs_sub_le v w v'
      rw [abs_sub_comm v w] at this
      exact this
    have : (1 : ℚ) / 2 ^ 53 = 2 * (1 / 2 ^ 54) := by norm_num
    linarith

/-- C51, below 0.5: `0.1 + 0.2`, a `double` other than the one nearest to 0.3, is written `0.3`. -/
theorem C51_nearest_false : ∃ v v' : ℚ, IsDouble v ∧ IsDouble v' ∧ 1 / 4 < abs v ∧ formatDouble v = ['0', '.', '3'] ∧
    |(3 / 10 : ℚ) - v'| < |3 / 10 - v| := by
  refine ⟨5404319552844596 / 2 ^ 54, 5404319552844595 / 2 ^ 54, ⟨5404319552844596, -54, by norm_num, by norm_num, by norm_num, by norm_num, by norm_num⟩,
    ⟨5404319552844595, -54, by norm_num, by norm_num, by norm_num, by norm_num, by norm_num⟩, ?_, by decide +kernel, ?_⟩
  · rw [abs_of_pos (by norm_num)]; norm_num
  · rw [abs_of_pos (by norm_num), abs_of_neg (by norm_num)]; norm_num

/-- C51, outside the fixed-point range: one non-zero digit, unless they are all zero a point and at most 16 further digits
without trailing zeros, and an exponent of at least two digits; the number written differs from the exact value by at most half a
unit of the seventeenth digit. -/
theorem C51_scientific (v : ℚ) (h0 : v ≠ 0) (hr : abs v ≤ 1 / 10 ^ 16 ∨ 10 ^ 16 ≤ abs v) :
    ∃ (d : Char) (fp ed : Str) (e : ℤ), formatDouble v = signText v ++ d :: fracText fp ++ expText e ed ∧
    DecDigits (d :: fp) ∧ d ≠ '0' ∧ fp.length ≤ 16 ∧ fp.getLast? ≠ some '0' ∧
    DecDigits ed ∧ 2 ≤ ed.length ∧ (ed.head? = some '0' → ed.length = 2) ∧ digitsVal 10 ed = e.natAbs ∧
    |(digitsVal 10 (d :: fp) : ℚ) / 10 ^ fp.length * 10 ^ e - abs v| ≤ 1 / 2 / 10 ^ 16 * 10 ^ e := by
  have ha : (if v < 0 then -v else v) = abs v := by
    split
    · rename_i h; exact (abs_of_neg h).symm
    · rename_i h; exact (abs_of_nonneg (not_lt.mp h)).symm
  have hf : formatDouble v = stripE (fmtSci16 v) := by
    unfold formatDouble
    rw [if_neg h0]
    simp only
    rw [ha, if_pos]
    rcases hr with h | h
    · right
      rwa [le_div_iff₀ (by norm_num)] at h
    · exact .inl h
  obtain ⟨d, fp, e, h1, h2, h3, h4, h5, h6⟩ := sci_text v h0
  refine ⟨d, fp, padDigits 2 e.natAbs, e, by rw [hf, h1], h2, h3, h4, h5, padDigits_dec _ _, padDigits_length_ge _ _, ?_,
    padDigits_val _ _, h6⟩
  intro hh
  have hlen := padDigits_length_ge 2 e.natAbs
  by_contra hc
  have hz : padDigits 2 e.natAbs = Nat.toDigits 10 e.natAbs := by
    simp only [padDigits] at hc ⊢
    simp only [List.length_append, List.length_replicate] at hc
    rw [show 2 - (Nat.toDigits 10 e.natAbs).length = 0 by omega]
    rfl
  rw [hz] at hh hc hlen
  have := toDigits_head _ hh
  rw [this] at hc hlen
  simp at hlen

example : formatDouble (-5 / 4) = ['-', '1', '.', '2', '5'] := by decide +kernel
example : formatDouble (123456789012345678 : Rat) = "1.2345678901234568e+17".toList := by decide +kernel
example : formatDouble (1 / 10 ^ 20 : Rat) = "1e-20".toList := by decide +kernel
/-- rounding up to the next power of ten -/
example : formatDouble (10 ^ 20 - 1 : Rat) = "1e+20".toList := by decide +kernel
example : IsDouble (3 / 2) := ⟨3, -1, by norm_num, by norm_num, by norm_num, by norm_num, by norm_num⟩

end Tom
