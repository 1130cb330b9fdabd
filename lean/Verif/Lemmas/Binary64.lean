import Verif.Spec.Binary64
import Verif.Model.Double
/-
The data of the model are the data of the interchange encoding.
-/
namespace Tom

theorem fieldsValue_eq (e m : ℕ) (hm : m ≤ 2 ^ 53) (h : 2 ^ 52 ≤ m ∨ e = 0) :
    fieldsValue (e * 2 ^ 52 + m) = (m : ℚ) * 2 ^ ((e : ℤ) - 1074) := by
  rcases lt_or_ge m (2 ^ 52) with h1 | h1
  · obtain rfl : e = 0 := by omega
    have e1 : (0 * 2 ^ 52 + m) / 2 ^ 52 = 0 := by omega
    have e2 : (0 * 2 ^ 52 + m) % 2 ^ 52 = m := by omega
    rw [fieldsValue, if_pos e1, e2]
    norm_num
  · rcases eq_or_lt_of_le hm with h2 | h2
    · have e1 : (e * 2 ^ 52 + m) / 2 ^ 52 = e + 2 := by omega
      have e2 : (e * 2 ^ 52 + m) % 2 ^ 52 = 0 := by omega
      rw [fieldsValue, e1, e2, if_neg (by omega), h2]
      have e3 : ((e + 2 : ℕ) : ℤ) - 1075 = ((e : ℤ) - 1074) + 1 := by push_cast; ring
      rw [e3, zpow_add₀ (by norm_num), zpow_one]
      push_cast
      ring
    · have e1 : (e * 2 ^ 52 + m) / 2 ^ 52 = e + 1 := by omega
      have e2 : (e * 2 ^ 52 + m) % 2 ^ 52 = m - 2 ^ 52 := by omega
      rw [fieldsValue, e1, e2, if_neg (by omega), show 2 ^ 52 + (m - 2 ^ 52) = m by omega]
      have e3 : ((e + 1 : ℕ) : ℤ) - 1075 = (e : ℤ) - 1074 := by push_cast; ring
      rw [e3]

/-- every field value has this form -/
theorem fields_split (n : ℕ) : ∃ e m : ℕ, n = e * 2 ^ 52 + m ∧ m < 2 ^ 53 ∧ (2 ^ 52 ≤ m ∨ e = 0) := by
  rcases Nat.eq_zero_or_pos (n / 2 ^ 52) with h | h
  · exact ⟨0, n, by omega, by omega, .inr rfl⟩
  · exact ⟨n / 2 ^ 52 - 1, 2 ^ 52 + n % 2 ^ 52, by omega, by omega, .inl (by omega)⟩

theorem fieldsValue_mono : StrictMono fieldsValue := by
  refine strictMono_nat_of_lt_succ fun n => ?_
  obtain ⟨e, m, rfl, h1, h2⟩ := fields_split n
  rw [fieldsValue_eq e m h1.le h2, add_assoc, fieldsValue_eq e (m + 1) h1 (h2.imp (fun h => by omega) id)]
  refine mul_lt_mul_of_pos_right ?_ (by positivity)
  push_cast; linarith

theorem fieldsValue_zero : fieldsValue 0 = 0 := by simp [fieldsValue]

theorem fieldsValue_pos {n : ℕ} (h : n ≠ 0) : 0 < fieldsValue n := by
  rw [← fieldsValue_zero]; exact fieldsValue_mono (Nat.pos_of_ne_zero h)

theorem fieldsValue_top : fieldsValue (2047 * 2 ^ 52) = 2 ^ 1024 := by
  rw [show 2047 * 2 ^ 52 = 2045 * 2 ^ 52 + 2 ^ 53 by norm_num, fieldsValue_eq _ _ (le_refl _) (.inl (by norm_num))]
  rw [show ((2045 : ℕ) : ℤ) - 1074 = 971 by norm_num]
  rw [show ((2 ^ 53 : ℕ) : ℚ) = 2 ^ (53 : ℤ) by norm_num, ← zpow_add₀ (by norm_num), show (53 + 971 : ℤ) = (1024 : ℕ) by norm_num,
    zpow_natCast]

/-- the numbers with fields below the infinities are doubles -/
theorem isDouble_fields {n : ℕ} (h : n < 2047 * 2 ^ 52) : IsDouble (fieldsValue n) := by
  rw [isDouble_iff]
  constructor
  · obtain ⟨e, m, rfl, h1, h2⟩ := fields_split n
    rw [fieldsValue_eq e m h1.le h2]
    refine ⟨m, (e : ℤ) - 1074, ?_, by omega, by push_cast; rfl⟩
    rw [abs_of_nonneg (by positivity)]; exact_mod_cast h1
  · have h1 : fieldsValue n < 2 ^ 1024 := by rw [← fieldsValue_top]; exact fieldsValue_mono h
    have h2 : 0 ≤ fieldsValue n := by rw [← fieldsValue_zero]; exact fieldsValue_mono.monotone (Nat.zero_le _)
    exact lt_of_eq_of_lt (abs_of_nonneg h2) h1

theorem decode_ok (b : BitVec 64) : (decode b).Ok := by
  unfold decode decodeFields
  generalize decide (2 ^ 63 ≤ b.toNat) = s
  generalize b.toNat % 2 ^ 63 = n
  split_ifs with h1 h2 h3 h4
  · trivial
  · exact ⟨neg_ne_zero.mpr (fieldsValue_pos h1).ne', isDouble_neg (isDouble_fields h2)⟩
  · exact ⟨(fieldsValue_pos h1).ne', isDouble_fields h2⟩
  · trivial
  · trivial

/-- the pattern with these sign and fields -/
theorem decode_ofFields (s : Bool) (n : ℕ) (h : n < 2 ^ 63) :
    ∃ b : BitVec 64, decode b = decodeFields s n ∧ b.toNat % 2 = n % 2 := by
  refine ⟨BitVec.ofNat 64 ((if s then 2 ^ 63 else 0) + n), ?_, ?_⟩
  · have : (BitVec.ofNat 64 ((if s then 2 ^ 63 else 0) + n)).toNat = (if s then 2 ^ 63 else 0) + n := by
      rw [BitVec.toNat_ofNat, Nat.mod_eq_of_lt]; cases s <;> simp <;> omega
    unfold decode
    rw [this]
    cases s
    · simp only [Bool.false_eq_true, if_false, zero_add, Nat.mod_eq_of_lt h]
      rw [decide_eq_false (by omega)]
    · simp only [if_true, Nat.add_mod_left, Nat.mod_eq_of_lt h]
      rw [decide_eq_true (by omega)]
  · rw [BitVec.toNat_ofNat]
    cases s <;> simp <;> omega

/-- a number of at most `2^53` units, encoded -/
theorem decode_units {q : ℚ} {m : ℕ} {e : ℤ} (hq : |q| = m * 2 ^ e) (hm : m ≤ 2 ^ 53) (h0 : q ≠ 0) (he : -1074 ≤ e)
    (h : 2 ^ 52 ≤ m ∨ e = -1074) (hlt : |q| < 2 ^ 1024) : ∃ b, decode b = .num q ∧ b.toNat % 2 = m % 2 := by
  obtain ⟨k, hk⟩ : ∃ k : ℕ, e = (k : ℤ) - 1074 := ⟨(e + 1074).toNat, by omega⟩
  have hf := fieldsValue_eq k m hm (h.imp id fun h => by omega)
  rw [← hk, ← hq] at hf
  have hn : k * 2 ^ 52 + m < 2047 * 2 ^ 52 := by
    rw [← hf, ← fieldsValue_top] at hlt
    exact fieldsValue_mono.lt_iff_lt.mp hlt
  obtain ⟨b, h1, h2⟩ := decode_ofFields (decide (q < 0)) (k * 2 ^ 52 + m) (by omega)
  refine ⟨b, ?_, by omega⟩
  have hz : k * 2 ^ 52 + m ≠ 0 := by
    intro hz
    rw [hz, fieldsValue_zero] at hf
    exact h0 (abs_eq_zero.mp hf.symm)
  rw [h1, decodeFields, if_neg hz, if_pos hn, hf]
  rcases lt_or_ge q 0 with h | h
  · rw [decide_eq_true h, if_pos rfl, abs_of_neg h, neg_neg]
  · rw [decide_eq_false (not_lt.mpr h), if_neg (by simp), abs_of_nonneg h]

/-- Every datum of the model has an encoding. -/
theorem decode_surj {x : F64} (h : x.Ok) : ∃ b, decode b = x := by
  cases x with
  | nan =>
    obtain ⟨b, h1, _⟩ := decode_ofFields false (2047 * 2 ^ 52 + 1) (by norm_num)
    exact ⟨b, h1.trans (by simp [decodeFields])⟩
  | inf s =>
    obtain ⟨b, h1, _⟩ := decode_ofFields s (2047 * 2 ^ 52) (by norm_num)
    exact ⟨b, h1.trans (by simp [decodeFields])⟩
  | zero s =>
    obtain ⟨b, h1, _⟩ := decode_ofFields s 0 (by norm_num)
    exact ⟨b, h1.trans (by simp [decodeFields])⟩
  | num q =>
    obtain ⟨h0, hd⟩ := h
    have hr := rnd_of_isDouble hd
    have hl := isDouble_lt hd
    have ha := abs_rnd q
    rw [hr] at ha
    obtain ⟨h1, h2⟩ := units_bounds q h0
    obtain ⟨b, hb, _⟩ := decode_units ha h1 h0 (ratUlp_spec q h0).1 h2 hl
    exact ⟨b, hb⟩

/-- Different encodings are different data, but for NaN. -/
theorem decode_inj {b c : BitVec 64} (h : decode b = decode c) (hn : decode b ≠ .nan) : b = c := by
  have hb := b.isLt
  have hc := c.isLt
  apply BitVec.eq_of_toNat_eq
  have hsplit : ∀ x : BitVec 64, x.toNat = (if decide (2 ^ 63 ≤ x.toNat) then 2 ^ 63 else 0) + x.toNat % 2 ^ 63 := by
    intro x
    have := x.isLt
    by_cases h : 2 ^ 63 ≤ x.toNat
    · rw [decide_eq_true h]; simp only [if_true]; omega
    · rw [decide_eq_false h]; simp only [Bool.false_eq_true, if_false]; omega
  unfold decode at h hn
  rw [hsplit b, hsplit c]
  generalize decide (2 ^ 63 ≤ b.toNat) = s at *
  generalize decide (2 ^ 63 ≤ c.toNat) = t at *
  generalize b.toNat % 2 ^ 63 = n at *
  generalize c.toNat % 2 ^ 63 = k at *
  suffices s = t ∧ n = k by rw [this.1, this.2]
  have hp : ∀ {n}, n ≠ 0 → 0 < fieldsValue n := fieldsValue_pos
  have hin : ∀ {n k}, fieldsValue n = fieldsValue k → n = k := fun h => fieldsValue_mono.injective h
  have hbad : ∀ (u v : Bool) {x y : ℕ}, x ≠ 0 → y ≠ 0 → (if u then -fieldsValue x else fieldsValue x) =
      (if v then -fieldsValue y else fieldsValue y) → u = v ∧ x = y := by
    intro u v x y hx hy hxy
    have h1 := hp hx
    have h2 := hp hy
    cases u <;> cases v <;> simp only [Bool.false_eq_true, if_true, if_false] at hxy
    · exact ⟨rfl, hin hxy⟩
    · linarith
    · linarith
    · exact ⟨rfl, hin (neg_injective hxy)⟩
  have key : ∀ (u : Bool) (x : ℕ), (x = 0 ∧ decodeFields u x = .zero u) ∨
      (x ≠ 0 ∧ x ≠ 2047 * 2 ^ 52 ∧ decodeFields u x = .num (if u then -fieldsValue x else fieldsValue x)) ∨
      (x = 2047 * 2 ^ 52 ∧ decodeFields u x = .inf u) ∨ decodeFields u x = .nan := by
    intro u x
    unfold decodeFields
    by_cases h1 : x = 0
    · left; exact ⟨h1, if_pos h1⟩
    · right
      rw [if_neg h1]
      by_cases h2 : x < 2047 * 2 ^ 52
      · left; exact ⟨h1, by omega, if_pos h2⟩
      · right
        rw [if_neg h2]
        by_cases h3 : x = 2047 * 2 ^ 52
        · left; exact ⟨h3, if_pos h3⟩
        · right; exact if_neg h3
  clear hb hc hsplit
  rcases key s n with ⟨h1, e1⟩ | ⟨h1, _, e1⟩ | ⟨h1, e1⟩ | e1 <;> rw [e1] at h hn <;>
    rcases key t k with ⟨h2, e2⟩ | ⟨h2, _, e2⟩ | ⟨h2, e2⟩ | e2 <;> rw [e2] at h
  all_goals first
    | exact absurd rfl hn
    | exact ⟨F64.zero.inj h, h1.trans h2.symm⟩
    | exact ⟨F64.inf.inj h, h1.trans h2.symm⟩
    | exact hbad s t h1 h2 (F64.num.inj h)
    | cases h

end Tom
