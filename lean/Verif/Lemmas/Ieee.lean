import Verif.Model.Ieee
import Verif.Spec.Printing
import Verif.Lemmas.Format
import Mathlib.Tactic.NormNum
import Mathlib.Tactic.Linarith
import Mathlib.Tactic.Positivity
import Mathlib.Algebra.Order.Field.Rat
import Mathlib.Data.Rat.Cast.Order
/-
Facts about rounding to binary64.
-/
namespace Tom

theorem pow2_eq (e : ℤ) : pow2 e = (2 : ℚ) ^ e := by
  unfold pow2
  split
  · rename_i h
    conv_rhs => rw [← Int.toNat_of_nonneg h]
    rw [zpow_natCast]
  · rename_i h
    have h' : e = -((-e).toNat : ℤ) := by omega
    conv_rhs => rw [h']
    rw [zpow_neg, zpow_natCast, one_div]

theorem two_zpow_split (e : ℤ) : (2 : ℚ) ^ e = 2 ^ e.toNat / 2 ^ (-e).toNat := by
  rcases le_total 0 e with h | h
  · have h1 : (-e).toNat = 0 := by omega
    rw [h1, pow_zero, div_one]
    conv_lhs => rw [← Int.toNat_of_nonneg h]
    rw [zpow_natCast]
  · have h1 : e.toNat = 0 := by omega
    rw [h1, pow_zero]
    have h' : e = -((-e).toNat : ℤ) := by omega
    conv_lhs => rw [h']
    rw [zpow_neg, zpow_natCast, one_div]

theorem ilog2_spec (n d : ℕ) (hn : 0 < n) (hd : 0 < d) :
    (2 : ℚ) ^ ilog2 n d ≤ n / d ∧ (n : ℚ) / d < 2 ^ (ilog2 n d + 1) := by
  have hn1 : (2 : ℚ) ^ (Nat.log2 n : ℤ) ≤ n := by
    rw [zpow_natCast]; exact_mod_cast Nat.log2_self_le hn.ne'
  have hn2 : (n : ℚ) < 2 ^ ((Nat.log2 n : ℤ) + 1) := by
    have := Nat.lt_log2_self (n := n)
    have h : ((Nat.log2 n : ℤ) + 1) = ((Nat.log2 n + 1 : ℕ) : ℤ) := by push_cast; rfl
    rw [h, zpow_natCast]; exact_mod_cast this
  have hd1 : (2 : ℚ) ^ (Nat.log2 d : ℤ) ≤ d := by
    rw [zpow_natCast]; exact_mod_cast Nat.log2_self_le hd.ne'
  have hd2 : (d : ℚ) < 2 ^ ((Nat.log2 d : ℤ) + 1) := by
    have := Nat.lt_log2_self (n := d)
    have h : ((Nat.log2 d : ℤ) + 1) = ((Nat.log2 d + 1 : ℕ) : ℤ) := by push_cast; rfl
    rw [h, zpow_natCast]; exact_mod_cast this
  have hn0 : (0 : ℚ) < n := by exact_mod_cast hn
  have hd0 : (0 : ℚ) < d := by exact_mod_cast hd
  have hcond : ∀ e : ℤ, d * 2 ^ e.toNat ≤ n * 2 ^ (-e).toNat ↔ (2 : ℚ) ^ e ≤ n / d := by
    intro e
    rw [two_zpow_split e, div_le_div_iff₀ (by positivity) hd0]
    constructor
    · intro h
      have : ((d * 2 ^ e.toNat : ℕ) : ℚ) ≤ ((n * 2 ^ (-e).toNat : ℕ) : ℚ) := by exact_mod_cast h
      push_cast at this; linarith
    · intro h
      have : ((d * 2 ^ e.toNat : ℕ) : ℚ) ≤ ((n * 2 ^ (-e).toNat : ℕ) : ℚ) := by push_cast; linarith
      exact_mod_cast this
  unfold ilog2
  simp only
  set e : ℤ := (Nat.log2 n : ℤ) - Nat.log2 d with he
  have hlow : (2 : ℚ) ^ (e - 1) ≤ n / d := by
    rw [le_div_iff₀ hd0]
    calc (2 : ℚ) ^ (e - 1) * d ≤ 2 ^ (e - 1) * 2 ^ ((Nat.log2 d : ℤ) + 1) := by gcongr
      _ = 2 ^ (Nat.log2 n : ℤ) := by rw [← zpow_add₀ (by norm_num)]; congr 1; rw [he]; ring
      _ ≤ n := hn1
  have hup : (n : ℚ) / d < 2 ^ (e + 1) := by
    rw [div_lt_iff₀ hd0]
    calc (n : ℚ) < 2 ^ ((Nat.log2 n : ℤ) + 1) := hn2
      _ = 2 ^ (e + 1) * 2 ^ (Nat.log2 d : ℤ) := by rw [← zpow_add₀ (by norm_num)]; congr 1; rw [he]; ring
      _ ≤ 2 ^ (e + 1) * d := by gcongr
  split
  · rename_i h
    exact ⟨(hcond e).mp h, hup⟩
  · rename_i h
    refine ⟨hlow, ?_⟩
    rw [sub_add_cancel]
    exact not_le.mp fun h' => h ((hcond e).mpr h')

/-- the exponent of the last binary place of a rational number -/
def ratUlp (q : ℚ) : ℤ := ulpExp q.num.natAbs q.den

theorem natAbs_div_den (q : ℚ) : ((q.num.natAbs : ℕ) : ℚ) / q.den = |q| := by
  conv_rhs => rw [← Rat.num_div_den q, abs_div, Nat.abs_cast]
  congr 1
  rw [← Int.cast_abs, Int.abs_eq_natAbs, Int.cast_natCast]

theorem roundUnits_spec (q : ℚ) (e : ℤ) :
    |(roundUnits q.num.natAbs q.den e : ℚ) - |q| / 2 ^ e| ≤ 1 / 2 := by
  have h := roundHalfEven_rat (q.num.natAbs * 2 ^ (-e).toNat) (q.den * 2 ^ e.toNat) (Nat.mul_pos q.den_pos (by positivity))
  unfold roundUnits
  have e1 : ((q.num.natAbs * 2 ^ (-e).toNat : ℕ) : ℚ) / ((q.den * 2 ^ e.toNat : ℕ) : ℚ) = |q| / 2 ^ e := by
    rw [two_zpow_split e, ← natAbs_div_den q]; push_cast; field_simp
  rwa [e1] at h

/-- an exact multiple of the unit is not changed -/
theorem roundUnits_exact (q : ℚ) (e : ℤ) (m : ℕ) (h : |q| = m * 2 ^ e) : roundUnits q.num.natAbs q.den e = m := by
  have h1 := roundUnits_spec q e
  rw [h, mul_div_cancel_right₀ _ (by positivity)] at h1
  have h2 : |((roundUnits q.num.natAbs q.den e : ℤ) - m : ℤ)| < 1 := by
    have : |(((roundUnits q.num.natAbs q.den e : ℤ) - m : ℤ) : ℚ)| < 1 := by push_cast; exact lt_of_le_of_lt h1 (by norm_num)
    exact_mod_cast this
  have := Int.abs_lt_one_iff.mp h2
  omega

theorem ratUlp_spec (q : ℚ) (hq : q ≠ 0) :
    -1074 ≤ ratUlp q ∧ |q| < 2 ^ (ratUlp q + 53) ∧ (2 ^ (ratUlp q + 52) ≤ |q| ∨ ratUlp q = -1074) := by
  obtain ⟨h1, h2⟩ := ilog2_spec q.num.natAbs q.den (Int.natAbs_pos.mpr (Rat.num_ne_zero.mpr hq)) q.den_pos
  rw [natAbs_div_den] at h1 h2
  refine ⟨le_max_right _ _, lt_of_lt_of_le h2 (zpow_le_zpow_right₀ (by norm_num) ?_), ?_⟩
  · have : ilog2 q.num.natAbs q.den - 52 ≤ ratUlp q := le_max_left _ _
    omega
  · unfold ratUlp ulpExp
    rcases le_total (ilog2 q.num.natAbs q.den - 52) (-1074) with h | h
    · exact .inr (max_eq_right h)
    · left
      rw [max_eq_left h, sub_add_cancel]; exact h1

/-- The number `q` is rounded to, without the limit on the exponent. -/
def rnd (q : ℚ) : ℚ := (if q < 0 then -1 else 1) * ((roundUnits q.num.natAbs q.den (ratUlp q) : ℚ) * 2 ^ ratUlp q)

theorem rnd_zero : rnd 0 = 0 := by
  have : roundUnits (0 : ℚ).num.natAbs (0 : ℚ).den (ratUlp 0) = 0 := roundUnits_exact 0 _ 0 (by simp)
  simp only [rnd, this]; simp

theorem sign_abs (q : ℚ) : (if q < 0 then (-1 : ℚ) else 1) * |q| = q := by
  split
  · rename_i h; rw [abs_of_neg h]; ring
  · rename_i h; rw [abs_of_nonneg (not_lt.mp h)]; ring

theorem sign_sq (q : ℚ) : |(if q < 0 then (-1 : ℚ) else 1)| = 1 := by
  split <;> simp

/-- The error is at most half a unit in the last place. -/
theorem rnd_err (q : ℚ) : |rnd q - q| ≤ 2 ^ (ratUlp q - 1) := by
  have h := roundUnits_spec q (ratUlp q)
  have e : rnd q - q = (if q < 0 then (-1 : ℚ) else 1) *
      (((roundUnits q.num.natAbs q.den (ratUlp q) : ℚ) - |q| / 2 ^ ratUlp q) * 2 ^ ratUlp q) := by
    conv_lhs => rw [← sign_abs q]
    rw [sign_abs]
    have : |q| / 2 ^ ratUlp q * 2 ^ ratUlp q = |q| := div_mul_cancel₀ _ (by positivity)
    rw [sub_mul, this, mul_sub, sign_abs, rnd]
  rw [e, abs_mul, sign_sq, one_mul, abs_mul, abs_of_pos (show (0 : ℚ) < 2 ^ ratUlp q by positivity), zpow_sub_one₀ (by norm_num)]
  calc _ ≤ 1 / 2 * (2 : ℚ) ^ ratUlp q := by gcongr
    _ = _ := by ring

theorem round_eq (z : Bool) (q : ℚ) : F64.round z q =
    if q = 0 then .zero z else if rnd q = 0 then .zero (decide (q < 0)) else
      if 2 ^ 1024 ≤ |rnd q| then .inf (decide (q < 0)) else .num (rnd q) := by
  have hp : (0 : ℚ) < 2 ^ ratUlp q := by positivity
  have habs : |rnd q| = (roundUnits q.num.natAbs q.den (ratUlp q) : ℚ) * 2 ^ ratUlp q := by
    rw [rnd, abs_mul, sign_sq, one_mul, abs_of_nonneg (by positivity)]
  have hz : rnd q = 0 ↔ roundUnits q.num.natAbs q.den (ratUlp q) = 0 := by
    rw [← abs_eq_zero, habs, mul_eq_zero]
    constructor
    · rintro (h | h)
      · exact_mod_cast h
      · exact absurd h hp.ne'
    · intro h; left; exact_mod_cast h
  unfold F64.round
  rw [habs]
  simp only [pow2_eq, hz]
  have e1 : ulpExp q.num.natAbs q.den = ratUlp q := rfl
  simp only [e1]
  have e2 : (if q < 0 then -((roundUnits q.num.natAbs q.den (ratUlp q) : ℚ) * 2 ^ ratUlp q) else
      (roundUnits q.num.natAbs q.den (ratUlp q) : ℚ) * 2 ^ ratUlp q) = rnd q := by
    rw [rnd]; split <;> ring
  rw [e2]

theorem rnd_neg (q : ℚ) : rnd (-q) = -rnd q := by
  rcases eq_or_ne q 0 with rfl | hq
  · rw [neg_zero, rnd_zero, neg_zero]
  · have e1 : (-q).num.natAbs = q.num.natAbs := by rw [Rat.num_neg_eq_neg_num, Int.natAbs_neg]
    have e2 : (-q).den = q.den := Rat.den_neg_eq_den q
    have e3 : ratUlp (-q) = ratUlp q := by rw [ratUlp, e1, e2, ratUlp]
    rw [rnd, rnd, e1, e2, e3]
    rcases lt_or_gt_of_ne hq with h | h
    · rw [if_neg (by linarith), if_pos h]; ring
    · rw [if_pos (by linarith), if_neg (by linarith)]; ring

theorem abs_rnd (q : ℚ) : |rnd q| = (roundUnits q.num.natAbs q.den (ratUlp q) : ℚ) * 2 ^ ratUlp q := by
  rw [rnd, abs_mul, sign_sq, one_mul, abs_of_nonneg (by positivity)]

/-- the rounded number counts at most `2^53` units, and at least `2^52` unless the exponent is the least -/
theorem units_bounds (q : ℚ) (hq : q ≠ 0) : roundUnits q.num.natAbs q.den (ratUlp q) ≤ 2 ^ 53 ∧
    (2 ^ 52 ≤ roundUnits q.num.natAbs q.den (ratUlp q) ∨ ratUlp q = -1074) := by
  have hs := abs_le.mp (roundUnits_spec q (ratUlp q))
  obtain ⟨_, h2, h3⟩ := ratUlp_spec q hq
  have hp : (0 : ℚ) < 2 ^ ratUlp q := by positivity
  constructor
  · have h4 : |q| / 2 ^ ratUlp q < 2 ^ 53 := by
      rw [div_lt_iff₀ hp, mul_comm]
      calc |q| < 2 ^ (ratUlp q + 53) := h2
        _ = 2 ^ ratUlp q * 2 ^ 53 := by rw [zpow_add₀ (by norm_num)]; norm_num
    have h5 : (roundUnits q.num.natAbs q.den (ratUlp q) : ℚ) < ((2 ^ 53 + 1 : ℕ) : ℚ) := by push_cast; linarith [hs.2]
    have := Nat.cast_lt.mp h5
    omega
  · rcases h3 with h3 | h3
    · left
      have h4 : (2 : ℚ) ^ 52 ≤ |q| / 2 ^ ratUlp q := by
        rw [le_div_iff₀ hp, mul_comm]
        calc (2 : ℚ) ^ ratUlp q * 2 ^ 52 = 2 ^ (ratUlp q + 52) := by rw [zpow_add₀ (by norm_num)]; norm_num
          _ ≤ |q| := h3
      have h5 : ((2 ^ 52 : ℕ) : ℚ) < ((roundUnits q.num.natAbs q.den (ratUlp q) + 1 : ℕ) : ℚ) := by push_cast; linarith [hs.1]
      have := Nat.cast_lt.mp h5
      omega
    · exact .inr h3

/-- a number of 53 binary places, without upper limit on the exponent -/
def IsFloat (v : ℚ) : Prop := ∃ m k : ℤ, |m| < 2 ^ 53 ∧ -1074 ≤ k ∧ v = (m : ℚ) * 2 ^ k

theorem isFloat_neg {v : ℚ} (h : IsFloat v) : IsFloat (-v) := by
  obtain ⟨m, k, h1, h3, h5⟩ := h
  exact ⟨-m, k, by rwa [abs_neg], h3, by rw [h5]; push_cast; ring⟩

theorem isFloat_abs {v : ℚ} (h : IsFloat v) : IsFloat |v| := by
  rcases abs_choice v with h' | h' <;> rw [h']
  · exact h
  · exact isFloat_neg h

theorem isFloat_of_abs {v : ℚ} (h : IsFloat |v|) : IsFloat v := by
  rcases abs_choice v with h' | h'
  · rwa [h'] at h
  · rw [h'] at h; simpa using isFloat_neg h

theorem isDouble_iff (v : ℚ) : IsDouble v ↔ IsFloat v ∧ |v| < 2 ^ 1024 := by
  constructor
  · rintro ⟨m, k, h1, h2, h3, h4, rfl⟩
    have hm' : |m| < 2 ^ 53 := abs_lt.mpr ⟨h1, h2⟩
    refine ⟨⟨m, k, hm', h3, rfl⟩, ?_⟩
    rw [abs_mul, abs_of_pos (show (0 : ℚ) < 2 ^ k by positivity)]
    have hm : |(m : ℚ)| < 2 ^ (53 : ℤ) := by rw [zpow_ofNat]; exact_mod_cast hm'
    calc |(m : ℚ)| * 2 ^ k < 2 ^ (53 : ℤ) * 2 ^ k := by gcongr
      _ = 2 ^ (53 + k) := by rw [← zpow_add₀ (by norm_num)]
      _ ≤ 2 ^ (1024 : ℤ) := zpow_le_zpow_right₀ (by norm_num) (by omega)
      _ = 2 ^ 1024 := by rw [zpow_ofNat]
  · rintro ⟨⟨m, k, h1, h3, rfl⟩, h⟩
    rcases le_or_gt k 971 with hk | hk
    · exact ⟨m, k, (abs_lt.mp h1).1, (abs_lt.mp h1).2, h3, hk, rfl⟩
    · have e : (2 : ℚ) ^ k = 2 ^ (k - 971).toNat * 2 ^ (971 : ℤ) := by
        rw [← zpow_natCast, ← zpow_add₀ (by norm_num)]; congr 1; omega
      have e2 : (m : ℚ) * 2 ^ k = ((m * 2 ^ (k - 971).toNat : ℤ) : ℚ) * 2 ^ (971 : ℤ) := by rw [e]; push_cast; ring
      rw [e2] at h ⊢
      have hb : |((m * 2 ^ (k - 971).toNat : ℤ) : ℚ)| < 2 ^ (53 : ℤ) := by
        rw [abs_mul, abs_of_pos (show (0 : ℚ) < 2 ^ (971 : ℤ) by positivity)] at h
        have : (2 : ℚ) ^ 1024 = 2 ^ (53 : ℤ) * 2 ^ (971 : ℤ) := by rw [← zpow_add₀ (by norm_num)]; exact (zpow_ofNat _ _).symm
        rw [this] at h
        exact lt_of_mul_lt_mul_right h (by positivity)
      rw [zpow_ofNat] at hb
      have hb' : |m * 2 ^ (k - 971).toNat| < 2 ^ 53 := by exact_mod_cast hb
      exact ⟨_, 971, (abs_lt.mp hb').1, (abs_lt.mp hb').2, by norm_num, by norm_num, rfl⟩

theorem isDouble_neg {v : ℚ} (h : IsDouble v) : IsDouble (-v) := by
  rw [isDouble_iff] at h ⊢
  exact ⟨isFloat_neg h.1, by rw [abs_neg]; exact h.2⟩

theorem isDouble_abs {v : ℚ} (h : IsDouble v) : IsDouble |v| := by
  rw [isDouble_iff] at h ⊢
  exact ⟨isFloat_abs h.1, by rw [abs_abs]; exact h.2⟩

theorem isDouble_zero : IsDouble 0 := ⟨0, 0, by norm_num, by norm_num, by norm_num, by norm_num, by norm_num⟩

/-- doubles are below `2^1024` -/
theorem isDouble_lt {v : ℚ} (h : IsDouble v) : |v| < 2 ^ 1024 := ((isDouble_iff v).mp h).2

theorem isFloat_rnd (q : ℚ) : IsFloat (rnd q) := by
  rcases eq_or_ne q 0 with rfl | hq
  · rw [rnd_zero]; exact ((isDouble_iff 0).mp isDouble_zero).1
  · obtain ⟨h1, h2⟩ := units_bounds q hq
    obtain ⟨h3, _, _⟩ := ratUlp_spec q hq
    refine isFloat_of_abs ?_
    rw [abs_rnd]
    set m := roundUnits q.num.natAbs q.den (ratUlp q)
    rcases Nat.lt_or_ge m (2 ^ 53) with hm | hm
    · exact ⟨m, ratUlp q, by rw [Nat.abs_cast]; exact_mod_cast hm, h3, by push_cast; rfl⟩
    · have hm' : m = 2 ^ 53 := by omega
      refine ⟨2 ^ 52, ratUlp q + 1, by norm_num, by omega, ?_⟩
      rw [hm', zpow_add_one₀ (by norm_num)]; push_cast; ring

/-- What is not too large is rounded to a double. -/
theorem isDouble_rnd (q : ℚ) (h : |rnd q| < 2 ^ 1024) : IsDouble (rnd q) := (isDouble_iff _).mpr ⟨isFloat_rnd q, h⟩

/-- A float is a multiple of the unit of any smaller number's last place. -/
theorem isFloat_units {v : ℚ} (h : IsFloat v) (e : ℤ) (he : e = -1074 ∨ 2 ^ (e + 52) ≤ |v|) : ∃ z : ℤ, v = z * 2 ^ e := by
  obtain ⟨m, k, h1, h3, rfl⟩ := h
  have hk : e ≤ k := by
    rcases he with he | he
    · omega
    · rw [abs_mul, abs_of_pos (show (0 : ℚ) < 2 ^ k by positivity)] at he
      have hm : |(m : ℚ)| < 2 ^ (53 : ℤ) := by rw [zpow_ofNat]; exact_mod_cast h1
      have : (2 : ℚ) ^ (e + 52) < 2 ^ (53 + k) := by
        calc (2 : ℚ) ^ (e + 52) ≤ |(m : ℚ)| * 2 ^ k := he
          _ < 2 ^ (53 : ℤ) * 2 ^ k := by gcongr
          _ = 2 ^ (53 + k) := by rw [zpow_add₀ (by norm_num)]
      have := (zpow_lt_zpow_iff_right₀ (by norm_num : (1 : ℚ) < 2)).mp this
      omega
  refine ⟨m * 2 ^ (k - e).toNat, ?_⟩
  have h5 : (2 : ℚ) ^ k = 2 ^ (k - e).toNat * 2 ^ e := by
    rw [← zpow_natCast, ← zpow_add₀ (by norm_num)]; congr 1; omega
  rw [h5]; push_cast; ring

/-- A float is not changed. -/
theorem rnd_of_isFloat {v : ℚ} (h : IsFloat v) : rnd v = v := by
  rcases eq_or_ne v 0 with rfl | hv
  · exact rnd_zero
  · obtain ⟨_, _, h3⟩ := ratUlp_spec v hv
    obtain ⟨z, hz⟩ := isFloat_units (isFloat_abs h) (ratUlp v) (by rw [abs_abs]; exact h3.symm)
    have hz0 : 0 ≤ z := by
      have : (0 : ℚ) ≤ z := by
        by_contra hc
        have : (z : ℚ) * 2 ^ ratUlp v < 0 := mul_neg_of_neg_of_pos (not_le.mp hc) (by positivity)
        linarith [abs_nonneg v]
      exact_mod_cast this
    obtain ⟨n, rfl⟩ := Int.eq_ofNat_of_zero_le hz0
    have := roundUnits_exact v (ratUlp v) n (by simpa using hz)
    rw [rnd, this]
    have e : ((n : ℕ) : ℚ) * 2 ^ ratUlp v = |v| := by rw [hz]; simp
    rw [e, sign_abs]

theorem rnd_of_isDouble {v : ℚ} (h : IsDouble v) : rnd v = v := rnd_of_isFloat ((isDouble_iff v).mp h).1

theorem nearest_units (q : ℚ) (e : ℤ) (z : ℤ) :
    |(roundUnits q.num.natAbs q.den e : ℚ) * 2 ^ e - abs q| ≤ |z * 2 ^ e - abs q| := by
  have hp : (0 : ℚ) < 2 ^ e := by positivity
  have hs := roundUnits_spec q e
  set m := roundUnits q.num.natAbs q.den e
  have e1 : ∀ x : ℚ, |x * 2 ^ e - abs q| = |x - abs q / 2 ^ e| * 2 ^ e := by
    intro x
    rw [← abs_of_pos hp, ← abs_mul, abs_of_pos hp, sub_mul, div_mul_cancel₀ _ hp.ne']
  rw [e1, e1]
  refine mul_le_mul_of_nonneg_right ?_ hp.le
  rcases eq_or_ne (m : ℤ) z with hme | hne
  · rw [← hme]; push_cast; exact le_refl _
  · have h1 : (1 : ℚ) ≤ |(m : ℚ) - z| := by
      have : (1 : ℤ) ≤ |(m : ℤ) - z| := Int.one_le_abs (sub_ne_zero.mpr hne)
      exact_mod_cast this
    have h2 := abs_sub_le (m : ℚ) (|q| / 2 ^ e) z
    rw [abs_sub_comm (|q| / 2 ^ e) (z : ℚ)] at h2
    linarith

/-- No float is nearer. -/
theorem rnd_nearest (q v : ℚ) (hv : IsFloat v) : |rnd q - q| ≤ |v - q| := by
  rcases eq_or_ne q 0 with rfl | hq
  · rw [rnd_zero, sub_self, abs_zero]; exact abs_nonneg _
  have e1 : |rnd q - q| = |(roundUnits q.num.natAbs q.den (ratUlp q) : ℚ) * 2 ^ ratUlp q - abs q| := by
    have : rnd q - q = (if q < 0 then (-1 : ℚ) else 1) *
        ((roundUnits q.num.natAbs q.den (ratUlp q) : ℚ) * 2 ^ ratUlp q - |q|) := by
      rw [mul_sub, sign_abs, rnd]
    rw [this, abs_mul, sign_sq, one_mul]
  rw [e1]
  refine le_trans ?_ (abs_abs_sub_abs_le_abs_sub v q)
  obtain ⟨_, h2, h3⟩ := ratUlp_spec q hq
  by_cases hc : ratUlp q = -1074 ∨ 2 ^ (ratUlp q + 52) ≤ |v|
  · obtain ⟨z, hz⟩ := isFloat_units (isFloat_abs hv) (ratUlp q) (by rwa [abs_abs])
    rw [hz]; exact nearest_units q _ z
  · push Not at hc
    have h3' := h3.resolve_right hc.1
    refine le_trans (nearest_units q _ (2 ^ 52)) ?_
    have e2 : (((2 ^ 52 : ℤ)) : ℚ) * 2 ^ ratUlp q = 2 ^ (ratUlp q + 52) := by
      rw [zpow_add₀ (by norm_num)]; push_cast; norm_num; ring
    have hv' := hc.2
    rw [e2, abs_of_nonpos (sub_nonpos.mpr h3'), abs_of_nonpos (sub_nonpos.mpr (hv'.le.trans h3'))]
    linarith

theorem rnd_le (q v : ℚ) (hv : IsFloat v) (h : q ≤ v) : rnd q ≤ v := by
  by_contra hc
  have h1 := rnd_nearest q v hv
  rw [abs_of_nonneg (by linarith), abs_of_nonneg (by linarith)] at h1
  linarith

theorem le_rnd (q v : ℚ) (hv : IsFloat v) (h : v ≤ q) : v ≤ rnd q := by
  by_contra hc
  have h1 := rnd_nearest q v hv
  rw [abs_of_nonpos (by linarith), abs_of_nonpos (by linarith)] at h1
  linarith

theorem abs_rnd_le (q v : ℚ) (hv : IsFloat v) (h : |q| ≤ v) : |rnd q| ≤ v := by
  obtain ⟨h1, h2⟩ := abs_le.mp h
  exact abs_le.mpr ⟨le_rnd q (-v) (isFloat_neg hv) h1, rnd_le q v hv h2⟩

/-- Rounding is monotonic. -/
theorem rnd_mono {p q : ℚ} (h : p ≤ q) : rnd p ≤ rnd q := by
  rcases eq_or_lt_of_le h with rfl | hlt
  · exact le_refl _
  by_contra hc
  push Not at hc
  have h1 := rnd_nearest p (rnd q) (isFloat_rnd q)
  have h2 := rnd_nearest q (rnd p) (isFloat_rnd p)
  -- the midpoint separates the two
  have hp : (rnd p + rnd q) / 2 ≤ p := by
    by_contra hm
    rcases abs_cases (rnd p - p) with h3 | h3 <;> rcases abs_cases (rnd q - p) with h4 | h4 <;> linarith
  have hq : q ≤ (rnd p + rnd q) / 2 := by
    by_contra hm
    rcases abs_cases (rnd p - q) with h3 | h3 <;> rcases abs_cases (rnd q - q) with h4 | h4 <;> linarith
  linarith

/-- Relative error `2^-53` from `2^-1022` on. -/
theorem rnd_rel (q : ℚ) (h : 1 / 2 ^ 1022 ≤ |q|) : |rnd q - q| ≤ 1 / 2 ^ 53 * |q| := by
  have hq : q ≠ 0 := by
    rintro rfl
    rw [abs_zero] at h
    exact absurd h (by norm_num)
  obtain ⟨_, _, h3⟩ := ratUlp_spec q hq
  refine le_trans (rnd_err q) ?_
  have h4 : (2 : ℚ) ^ (ratUlp q + 52) ≤ |q| := by
    rcases h3 with h3 | h3
    · exact h3
    · rw [h3]; refine le_trans (le_of_eq ?_) h; norm_num
  calc (2 : ℚ) ^ (ratUlp q - 1) = 1 / 2 ^ 53 * 2 ^ (ratUlp q + 52) := by
        rw [zpow_sub₀ (by norm_num), zpow_add₀ (by norm_num)]; norm_num; ring
    _ ≤ _ := by gcongr

/-- Absolute error `2^-1075` below. -/
theorem rnd_abs (q : ℚ) (h : |q| < 1 / 2 ^ 1022) : |rnd q - q| ≤ 1 / 2 ^ 1075 := by
  rcases eq_or_ne q 0 with rfl | hq
  · rw [rnd_zero, sub_self, abs_zero]; positivity
  obtain ⟨h1, _, h3⟩ := ratUlp_spec q hq
  have : ratUlp q = -1074 := by
    rcases h3 with h3 | h3
    · exfalso
      have h5 : (2 : ℚ) ^ (-1022 : ℤ) ≤ 2 ^ (ratUlp q + 52) := zpow_le_zpow_right₀ (by norm_num) (by omega)
      have h6 : (2 : ℚ) ^ (-1022 : ℤ) = 1 / 2 ^ 1022 := by norm_num
      linarith
    · exact h3
  refine le_trans (rnd_err q) (le_of_eq ?_)
  rw [this]; norm_num

/-- A sum of doubles is never rounded by more than the relative error. -/
theorem rnd_add_rel {p q : ℚ} (hp : IsDouble p) (hq : IsDouble q) : |rnd (p + q) - (p + q)| ≤ 1 / 2 ^ 53 * |p + q| := by
  rcases le_or_gt (1 / 2 ^ 1022) |p + q| with h | h
  · exact rnd_rel _ h
  · obtain ⟨y, hy⟩ := isFloat_units ((isDouble_iff p).mp hp).1 (-1074) (.inl rfl)
    obtain ⟨z, hz⟩ := isFloat_units ((isDouble_iff q).mp hq).1 (-1074) (.inl rfl)
    have e : p + q = (y + z : ℤ) * 2 ^ (-1074 : ℤ) := by rw [hy, hz]; push_cast; ring
    have hd : IsDouble (p + q) := by
      have hb : |((y + z : ℤ) : ℚ)| < 2 ^ 53 := by
        rw [e, abs_mul, abs_of_pos (show (0 : ℚ) < 2 ^ (-1074 : ℤ) by positivity)] at h
        have : (1 : ℚ) / 2 ^ 1022 = 2 ^ 52 * 2 ^ (-1074 : ℤ) := by
          rw [one_div, ← zpow_ofNat, ← zpow_neg, ← zpow_ofNat, ← zpow_add₀ (by norm_num)]; norm_num
        rw [this] at h
        have := lt_of_mul_lt_mul_right h (by positivity)
        linarith [show (2 : ℚ) ^ 52 < 2 ^ 53 by norm_num]
      have hb' : |y + z| < 2 ^ 53 := by exact_mod_cast hb
      obtain ⟨h1, h2⟩ := abs_lt.mp hb'
      exact ⟨y + z, -1074, h1, h2, by norm_num, by norm_num, e⟩
    rw [rnd_of_isDouble hd, sub_self, abs_zero]; positivity

/-- Integers up to `2^53` are doubles. -/
theorem isDouble_int (z : ℤ) (h : |z| ≤ 2 ^ 53) : IsDouble (z : ℚ) := by
  rcases eq_or_lt_of_le h with h | h
  · have : IsDouble ((2 ^ 53 : ℤ) : ℚ) := ⟨2 ^ 52, 1, by norm_num, by norm_num, by norm_num, by norm_num, by norm_num⟩
    rcases abs_choice z with h' | h'
    · rw [h'] at h; rw [h]; exact this
    · rw [h'] at h
      have e : z = -(2 ^ 53) := by omega
      rw [e]; push_cast
      have := isDouble_neg this
      push_cast at this; exact this
  · obtain ⟨h1, h2⟩ := abs_lt.mp h
    exact ⟨z, 0, h1, h2, by norm_num, by norm_num, by norm_num⟩

end Tom
