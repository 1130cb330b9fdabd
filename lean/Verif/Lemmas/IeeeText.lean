import Verif.Lemmas.Double
import Verif.Props.Format
import Verif.Spec.Printing
/-
Doubles and their decimal texts: when does a decimal number near a double round to that double?
-/
namespace Tom

/-- two floats are never closer than half a unit of the last of 53 places -/
theorem float_gap_pos {a v : ℚ} (ha : IsFloat a) (hv : IsFloat v) (hne : a ≠ v) (hpos : 0 < v) : 1 / 2 ^ 53 * v ≤ |a - v| := by
  obtain ⟨h1, h2, h3⟩ := ratUlp_spec v (ne_of_gt hpos)
  rw [abs_of_pos hpos] at h2 h3
  have hp : (0 : ℚ) < 2 ^ ratUlp v := by positivity
  have e53 : (2 : ℚ) ^ (ratUlp v + 53) = 2 ^ 53 * 2 ^ ratUlp v := by rw [zpow_add₀ (by norm_num)]; norm_num; ring
  have e52 : (2 : ℚ) ^ (ratUlp v + 52) = 2 ^ 52 * 2 ^ ratUlp v := by rw [zpow_add₀ (by norm_num)]; norm_num; ring
  rw [e53] at h2
  rw [e52] at h3
  have small : 1 / 2 ^ 53 * v ≤ 2 ^ ratUlp v := by
    have : 1 / 2 ^ 53 * v ≤ 1 / 2 ^ 53 * (2 ^ 53 * 2 ^ ratUlp v) := mul_le_mul_of_nonneg_left (le_of_lt h2) (by norm_num)
    calc _ ≤ _ := this
      _ = 2 ^ ratUlp v := by ring
  obtain ⟨z, hz⟩ := isFloat_units hv (ratUlp v) (by rw [abs_of_pos hpos, e52]; tauto)
  -- a multiple of a unit at a distance
  have far : ∀ (p : ℚ) (x y : ℤ), 0 < p → (x : ℚ) * p ≠ y * p → p ≤ |x * p - y * p| := by
    intro p x y hp hne
    have hxy : x ≠ y := by rintro rfl; exact hne rfl
    have : (1 : ℤ) ≤ |x - y| := Int.one_le_abs (sub_ne_zero.mpr hxy)
    have h' : (1 : ℚ) ≤ |(x : ℚ) - y| := by exact_mod_cast this
    rw [← sub_mul, abs_mul, abs_of_pos hp]
    exact le_mul_of_one_le_left (le_of_lt hp) h'
  by_cases hbig : ratUlp v = -1074 ∨ 2 ^ (ratUlp v + 52) ≤ |a|
  · obtain ⟨y, hy⟩ := isFloat_units ha (ratUlp v) hbig
    refine le_trans small ?_
    have := far _ y z hp (by rw [← hz, ← hy]; exact hne)
    rwa [← hz, ← hy] at this
  · push Not at hbig
    obtain ⟨hb1, hb2⟩ := hbig
    rw [e52] at hb2
    have h3' : 2 ^ 52 * 2 ^ ratUlp v ≤ v := by tauto
    -- `a < 2^52 u <= v`
    have ha2 : a < 2 ^ 52 * 2 ^ ratUlp v := lt_of_le_of_lt (le_abs_self a) hb2
    have hgap : 2 ^ ratUlp v / 2 ≤ 2 ^ 52 * 2 ^ ratUlp v - a := by
      by_cases hs : 2 ^ 51 * 2 ^ ratUlp v ≤ |a|
      · obtain ⟨y, hy⟩ := isFloat_units ha (ratUlp v - 1) (by
          right
          refine le_trans (le_of_eq ?_) hs
          rw [show ratUlp v - 1 + 52 = ratUlp v + 51 by ring, zpow_add₀ (by norm_num)]; norm_num; ring)
        have e1 : (2 : ℚ) ^ (ratUlp v - 1) = 2 ^ ratUlp v / 2 := by rw [zpow_sub₀ (by norm_num)]; norm_num
        have e2 : (2 : ℚ) ^ 52 * 2 ^ ratUlp v = ((2 ^ 53 : ℤ) : ℚ) * 2 ^ (ratUlp v - 1) := by rw [e1]; push_cast; ring
        have hne' : ((2 ^ 53 : ℤ) : ℚ) * 2 ^ (ratUlp v - 1) ≠ y * 2 ^ (ratUlp v - 1) := by
          rw [← e2, ← hy]; exact ne_of_gt ha2
        have := far _ _ y (by positivity) hne'
        rw [← e2, ← hy, abs_of_pos (by linarith), e1] at this
        exact this
      · push Not at hs
        have : a ≤ |a| := le_abs_self a
        nlinarith
    rw [abs_of_neg (by linarith)]
    rcases eq_or_lt_of_le h3' with he | hlt
    · have : 1 / 2 ^ 53 * v = 2 ^ ratUlp v / 2 := by linarith
      rw [this]
      linarith
    · have : 2 ^ ratUlp v ≤ v - 2 ^ 52 * 2 ^ ratUlp v := by
        have e : (2 : ℚ) ^ 52 * 2 ^ ratUlp v = ((2 ^ 52 : ℤ) : ℚ) * 2 ^ ratUlp v := by push_cast; ring
        have hne' : (z : ℚ) * 2 ^ ratUlp v ≠ ((2 ^ 52 : ℤ) : ℚ) * 2 ^ ratUlp v := by rw [← hz, ← e]; exact ne_of_gt hlt
        have := far _ _ _ hp hne'
        rw [← hz, ← e, abs_of_pos (by linarith)] at this
        exact this
      linarith

theorem float_gap {a v : ℚ} (ha : IsFloat a) (hv : IsFloat v) (hne : a ≠ v) : 1 / 2 ^ 53 * |v| ≤ |a - v| := by
  rcases lt_trichotomy v 0 with h | h | h
  · have := float_gap_pos (isFloat_neg ha) (isFloat_neg hv) (fun e => hne (neg_injective e)) (by linarith)
    rw [abs_of_neg h, show a - v = -(-a - -v) by ring, abs_neg]
    exact this
  · subst h; simp
  · rw [abs_of_pos h]; exact float_gap_pos ha hv hne h

/-- a number nearer than a quarter of a unit rounds to the double -/
theorem rnd_of_near {w v : ℚ} (hv : IsFloat v) (h : |w - v| < 1 / 2 ^ 54 * |v|) : rnd w = v := by
  by_contra hne
  have h1 := float_gap (isFloat_rnd w) hv hne
  have h2 := rnd_nearest w v hv
  have h3 : |rnd w - v| ≤ |rnd w - w| + |w - v| := abs_sub_le _ _ _
  rw [abs_sub_comm v w] at h2
  have : (1 : ℚ) / 2 ^ 53 * |v| = 2 * (1 / 2 ^ 54 * |v|) := by ring
  linarith

/-- a number that is nearer to a double than to any other double rounds to it -/
theorem rnd_of_nearest {w v : ℚ} (hv : IsDouble v) (hw : |rnd w| < 2 ^ 1024) (h : ∀ v', IsDouble v' → v' ≠ v → |w - v| < |w - v'|) :
    rnd w = v := by
  by_contra hne
  have h1 := h _ (isDouble_rnd w hw) hne
  have h2 := rnd_nearest w v ((isDouble_iff v).mp hv).1
  rw [abs_sub_comm _ w, abs_sub_comm _ w] at h2
  linarith

namespace Double
variable {L : Libm}

theorem near_raw {q : ℚ} (h0 : rnd q ≠ 0) (h1 : |rnd q| < 2 ^ 1024) : (near L q).raw = .num (rnd q) := by
  show F64.round false q = _
  rw [round_eq]
  have : q ≠ 0 := by rintro rfl; exact h0 rnd_zero
  rw [if_neg this, if_neg h0, if_neg (not_le.mpr h1)]

theorem ofNumeral_zero : F64.ofNumeral 0 = some (.zero false) := by decide +kernel

theorem ofNumeral_normal {q : ℚ} (h0 : 1 / 2 ^ 1022 ≤ rnd q) (h1 : rnd q < 2 ^ 1024) : F64.ofNumeral q = some (.num (rnd q)) := by
  have hp : 0 < rnd q := lt_of_lt_of_le (by norm_num) h0
  have h := near_raw (L := ⟨id, id, id, id, id, id, id, id, id, id, id, fun a _ => a, fun _ _ => (0, 0)⟩) (q := q) (ne_of_gt hp)
    (by rw [abs_of_pos hp]; exact h1)
  have h' : F64.round false q = .num (rnd q) := h
  unfold F64.ofNumeral
  rw [h']
  simp only
  rw [if_neg]
  rintro ⟨h2, _⟩
  rw [div_le_iff₀ (by positivity)] at h0
  linarith

/-- a decimal fraction that is neither tiny nor huge is a numeral for the double nearest to it -/
theorem fixed_numeral {ip fp : Str} (h1 : DecDigits ip) (h2 : DecDigits fp) (h3 : ip ≠ [])
    (hlo : 1 / 2 ^ 1022 ≤ rnd ((digitsVal 10 (ip ++ fp) : ℚ) / 10 ^ fp.length))
    (hhi : rnd ((digitsVal 10 (ip ++ fp) : ℚ) / 10 ^ fp.length) < 2 ^ 1024) :
    Numeral (ip ++ fracText fp) (near L ((digitsVal 10 (ip ++ fp) : ℚ) / 10 ^ fp.length)) := by
  have hval : (Dbl.ofDec (digitsVal 10 (ip ++ fp)) ((0 : ℕ) - (fp.length : ℤ)) : Option (Double L)) =
      some (near L ((digitsVal 10 (ip ++ fp) : ℚ) / 10 ^ fp.length)) := by
    have e : decRat (digitsVal 10 (ip ++ fp)) ((0 : ℕ) - (fp.length : ℤ)) = (digitsVal 10 (ip ++ fp) : ℚ) / 10 ^ fp.length := by
      rw [decRat_eq, show ((0 : ℕ) : ℤ) - (fp.length : ℤ) = -(fp.length : ℤ) by push_cast; ring, zpow_neg, zpow_natCast, div_eq_mul_inv]
    obtain ⟨x, hx, hr⟩ := ofDec_some (L := L) (m := digitsVal 10 (ip ++ fp)) (e := (0 : ℕ) - (fp.length : ℤ)) (by
      rw [e]; exact ofNumeral_normal hlo hhi)
    rw [hx]
    congr 1
    apply Double.ext
    rw [hr, near_raw]
    · exact ne_of_gt (lt_of_lt_of_le (by norm_num) hlo)
    · rw [abs_of_pos (lt_of_lt_of_le (by norm_num) hlo)]; exact hhi
  unfold fracText
  split
  · rename_i h
    subst h
    have := Numeral.dec (Mantissa.int h1 h3) .none (by simpa using hval)
    simpa using this
  · have := Numeral.dec (Mantissa.point h1 h2 (by simp [h3])) .none hval
    simpa using this

/-- If the number written for a double (after the sign) rounds to its absolute value, the text reads back as the double. -/
theorem readsBack_of_text {x : Double L} {v : ℚ} (hx : x.Is v) (h0 : 1 / 2 ^ 1022 ≤ |v|) {ip fp : Str}
    (ht : formatDouble v = signText v ++ ip ++ fracText fp) (h1 : DecDigits ip) (h2 : DecDigits fp) (h3 : ip ≠ [])
    (hr : rnd ((digitsVal 10 (ip ++ fp) : ℚ) / 10 ^ fp.length) = |v|) : ReadsBack x := by
  have hv0 : v ≠ 0 := by rintro rfl; rw [abs_zero] at h0; exact absurd h0 (by norm_num)
  have hraw : x.raw = .num v := by
    rcases is_cases hx with ⟨h, _⟩ | ⟨_, h⟩
    · exact absurd h hv0
    · exact h
  have hd := is_double hx
  have hlt := isDouble_lt hd
  have hn := fixed_numeral (L := L) h1 h2 h3 (by rw [hr]; exact h0) (by rw [hr]; exact hlt)
  have hts : Dbl.toStr x = formatDouble v := by
    show F64.toStr x.raw = _
    rw [hraw]; rfl
  have hna : (near L ((digitsVal 10 (ip ++ fp) : ℚ) / 10 ^ fp.length)).raw = .num |v| := by
    rw [near_raw] <;> rw [hr]
    · exact abs_ne_zero.mpr hv0
    · rw [abs_abs]; exact hlt
  by_cases hneg : v < 0
  · refine .signed ?_ (by rw [hts, ht, signText, if_pos hneg]; rfl) hn ?_
    · rw [lt_is hx (is_ofInt (i := 0) (by norm_num))]
      simpa using hneg
    · apply Double.ext
      show F64.neg (near L _).raw = _
      rw [hna, hraw]
      show F64.num (-|v|) = _
      rw [abs_of_neg hneg, neg_neg]
  · refine .plain ?_
    rw [hts, ht, signText, if_neg hneg, List.nil_append]
    have : near L ((digitsVal 10 (ip ++ fp) : ℚ) / 10 ^ fp.length) = x := by
      apply Double.ext
      rw [hna, hraw, abs_of_nonneg (not_lt.mp hneg)]
    rw [← this]; exact hn

end Double
end Tom
