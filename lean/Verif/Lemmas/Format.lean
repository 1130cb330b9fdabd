import Verif.Spec.Printing
import Verif.Model.Format
import Mathlib.Algebra.Order.Field.Rat
import Mathlib.Algebra.Order.Field.Power
import Mathlib.Data.Rat.Cast.Order
import Mathlib.Tactic.Linarith
import Mathlib.Tactic.FieldSimp
import Mathlib.Tactic.Positivity
import Mathlib.Tactic.Ring
import Mathlib.Tactic.IntervalCases
/-
`ToString(double)`: digits, rounding, removal of trailing zeros.
-/
namespace Tom

/-! ### digits -/

theorem digitVal_digitChar {k : Nat} (h : k < 10) : digitVal k.digitChar = k := by
  interval_cases k <;> rfl

theorem digitChar_code {k : Nat} (h : k < 10) : 48 ≤ k.digitChar.toNat ∧ k.digitChar.toNat ≤ 57 := by
  rw [Nat.toNat_digitChar_of_lt_ten h]; omega

theorem digitsVal_append (b : Nat) (x y : Str) : digitsVal b (x ++ y) = digitsVal b x * b ^ y.length + digitsVal b y := by
  induction x with
  | nil => simp [digitsVal]
  | cons c cs ih =>
    simp only [List.cons_append, digitsVal, ih, List.length_append, pow_add]
    ring

theorem digitsVal_zeros (b k : Nat) : digitsVal b (List.replicate k '0') = 0 := by
  induction k with
  | zero => rfl
  | succ k ih =>
    rw [List.replicate_succ, digitsVal, ih]
    simp [digitVal]

theorem toDigits_val (n : Nat) : digitsVal 10 (Nat.toDigits 10 n) = n := by
  induction n using Nat.strongRecOn with
  | ind n ih =>
    by_cases h : n < 10
    · rw [Nat.toDigits_of_lt_base h]
      simp [digitsVal, digitVal_digitChar h]
    · rw [Nat.toDigits_of_base_le (by decide) (by omega), digitsVal_append, ih _ (by omega)]
      simp only [List.length_singleton, pow_one, digitsVal, List.length_nil, pow_zero, mul_one, Nat.add_zero]
      rw [digitVal_digitChar (Nat.mod_lt _ (by decide))]
      omega

theorem toDigits_dec (n : Nat) : DecDigits (Nat.toDigits 10 n) := by
  induction n using Nat.strongRecOn with
  | ind n ih =>
    by_cases h : n < 10
    · rw [Nat.toDigits_of_lt_base h]
      intro c hc
      simp only [List.mem_singleton] at hc
      subst hc
      exact digitChar_code h
    · rw [Nat.toDigits_of_base_le (by decide) (by omega)]
      intro c hc
      simp only [List.mem_append, List.mem_singleton] at hc
      rcases hc with hc | rfl
      · exact ih _ (by omega) c hc
      · exact digitChar_code (Nat.mod_lt _ (by decide))

/-- the first digit is 0 only for the number 0 -/
theorem toDigits_head (n : Nat) (h : (Nat.toDigits 10 n).head? = some '0') : n = 0 := by
  induction n using Nat.strongRecOn with
  | ind n ih =>
    by_cases hn : n < 10
    · rw [Nat.toDigits_of_lt_base hn] at h
      revert h
      interval_cases n <;> simp <;> decide
    · exfalso
      rw [Nat.toDigits_of_base_le (by decide) (by omega), List.head?_append_of_ne_nil _ Nat.toDigits_ne_nil] at h
      have := ih _ (by omega) h
      omega

theorem padDigits_dec (w n : Nat) : DecDigits (padDigits w n) := by
  intro c hc
  simp only [padDigits, List.mem_append, List.mem_replicate] at hc
  rcases hc with ⟨_, rfl⟩ | hc
  · decide
  · exact toDigits_dec n c hc

theorem padDigits_val (w n : Nat) : digitsVal 10 (padDigits w n) = n := by
  simp only [padDigits]
  rw [digitsVal_append, digitsVal_zeros, toDigits_val]
  omega

theorem padDigits_length {w n : Nat} (hw : 0 < w) (h : n < 10 ^ w) : (padDigits w n).length = w := by
  have := (Nat.length_toDigits_le_iff (b := 10) (n := n) (by decide) hw).mpr h
  simp only [padDigits, List.length_append, List.length_replicate]
  omega

theorem padDigits_length_ge (w n : Nat) : w ≤ (padDigits w n).length := by
  simp only [padDigits, List.length_append, List.length_replicate]
  omega

/-! ### trailing zeros -/

theorem split_zeros (ds : Str) : ∃ fp k, ds = fp ++ List.replicate k '0' ∧ fp.getLast? ≠ some '0' := by
  induction ds using List.reverseRecOn with
  | nil => exact ⟨[], 0, rfl, by simp⟩
  | append_singleton ds c ih =>
    by_cases hc : c = '0'
    · obtain ⟨fp, k, rfl, h⟩ := ih
      refine ⟨fp, k + 1, ?_, h⟩
      rw [List.append_assoc, hc, ← List.replicate_succ']
    · exact ⟨ds ++ [c], 0, by simp, by simpa using hc⟩

theorem last_not_zeros {fp : Str} (h : fp.getLast? ≠ some '0') (hne : fp ≠ []) (k : Nat) :
    (fp ++ List.replicate k '0').all (· == '0') = false := by
  obtain ⟨ds, c, rfl⟩ : ∃ ds c, fp = ds ++ [c] := ⟨fp.dropLast, fp.getLast hne, (List.dropLast_append_getLast hne).symm⟩
  have hc : c ≠ '0' := by simpa using h
  rw [List.all_append, List.all_append]
  simp [hc]

theorem zerosToEnd_zeros {k : Nat} (h : 0 < k) : zerosToEnd (List.replicate k '0') = true := by
  obtain ⟨k, rfl⟩ : ∃ j, k = j + 1 := ⟨k - 1, by omega⟩
  simp [zerosToEnd, List.replicate_succ]

theorem zerosToEnd_false {cs : Str} (h : cs.all (· == '0') = false) : zerosToEnd cs = false := by
  cases cs with
  | nil => rfl
  | cons => exact h

theorem matchEnd_other {c : Char} (cs : Str) (h : c ≠ '.') : matchEnd (c :: cs) = zerosToEnd (c :: cs) := by
  unfold matchEnd
  split
  · rename_i heq
    cases heq
    exact absurd rfl h
  · rfl

theorem stripEnd_zeros (k : Nat) : stripEnd (List.replicate k '0') = [] := by
  cases k with
  | zero => rfl
  | succ k =>
    rw [List.replicate_succ, stripEnd, matchEnd_other _ (by decide), ← List.replicate_succ, zerosToEnd_zeros (by omega)]
    rfl

theorem stripEnd_digits (fp : Str) (hd : ∀ c ∈ fp, c ≠ '.') (h : fp.getLast? ≠ some '0') (k : Nat) :
    stripEnd (fp ++ List.replicate k '0') = fp := by
  induction fp with
  | nil => exact stripEnd_zeros k
  | cons c cs ih =>
    rw [List.cons_append, stripEnd, matchEnd_other _ (hd c (by simp)),
      zerosToEnd_false (by rw [← List.cons_append]; exact last_not_zeros h (by simp) k)]
    rw [if_neg (by decide), ih (fun d hd' => hd d (by simp [hd']))]
    intro hl
    cases cs with
    | nil => simp at hl
    | cons d ds => rw [List.getLast?_cons_cons] at h; exact h hl

theorem stripEnd_point (fp : Str) (hd : ∀ c ∈ fp, c ≠ '.') (h : fp.getLast? ≠ some '0') (k : Nat) (hk : fp ++ List.replicate k '0' ≠ []) :
    stripEnd ('.' :: (fp ++ List.replicate k '0')) = fracText fp := by
  rw [stripEnd]
  unfold fracText
  by_cases hfp : fp = []
  · subst hfp
    have hk : 0 < k := by
      rcases Nat.eq_zero_or_pos k with rfl | h
      · simp at hk
      · exact h
    simp only [List.nil_append]
    rw [show matchEnd ('.' :: List.replicate k '0') = zerosToEnd (List.replicate k '0') from rfl, zerosToEnd_zeros hk]
    rfl
  · rw [show matchEnd ('.' :: (fp ++ List.replicate k '0')) = zerosToEnd (fp ++ List.replicate k '0') from rfl,
      zerosToEnd_false (last_not_zeros h hfp k), if_neg (by decide), stripEnd_digits fp hd h k, if_neg hfp]

theorem stripEnd_prefix (ip rest : Str) (hd : ∀ c ∈ ip, c ≠ '.') :
    stripEnd (ip ++ '.' :: rest) = ip ++ stripEnd ('.' :: rest) := by
  induction ip with
  | nil => rfl
  | cons c cs ih =>
    rw [List.cons_append, stripEnd, matchEnd_other _ (hd c (by simp)), zerosToEnd_false (by simp), if_neg (by decide),
      ih (fun d hd' => hd d (by simp [hd'])), List.cons_append]

theorem zerosToE_zeros (k : Nat) (r : Str) (hk : 0 < k) : zerosToE (List.replicate k '0' ++ 'e' :: r) = some ('e' :: r) := by
  induction k with
  | zero => omega
  | succ k ih =>
    cases k with
    | zero => rfl
    | succ k =>
      have := ih (by omega)
      rw [List.replicate_succ, List.cons_append]
      rw [zerosToE.eq_2]
      · exact this
      · intro cs hcs
        rw [List.replicate_succ, List.cons_append] at hcs
        cases hcs

theorem zerosToE_digits (fp r : Str) (hd : DecDigits fp) (h : fp.getLast? ≠ some '0') (hne : fp ≠ []) (k : Nat) :
    zerosToE (fp ++ List.replicate k '0' ++ 'e' :: r) = none := by
  induction fp with
  | nil => exact absurd rfl hne
  | cons c cs ih =>
    by_cases hc : c = '0'
    · subst hc
      have hcs : cs ≠ [] := by
        rintro rfl
        simp at h
      have h' : cs.getLast? ≠ some '0' := by
        obtain ⟨d, ds, rfl⟩ := List.exists_cons_of_ne_nil hcs
        rw [List.getLast?_cons_cons] at h; exact h
      have := ih (fun d hd' => hd d (by simp [hd'])) h' hcs
      simp only [List.cons_append]
      rw [zerosToE.eq_2]
      · exact this
      · intro cs' hcs'
        obtain ⟨d, ds, rfl⟩ := List.exists_cons_of_ne_nil hcs
        simp only [List.cons_append, List.cons.injEq] at hcs'
        have := hd d (by simp)
        rw [hcs'.1] at this
        exact absurd this (by decide)
    · simp only [List.cons_append]
      rw [zerosToE.eq_3]
      · intro cs' h0
        simp only [List.cons.injEq] at h0
        exact hc h0.1
      · intro cs' h0
        simp only [List.cons.injEq] at h0
        exact hc h0.1

theorem digit_ne_point {fp : Str} (hd : DecDigits fp) : ∀ c ∈ fp, c ≠ '.' := by
  rintro c hc rfl
  exact absurd (hd _ hc) (by decide)

theorem matchE_other {c : Char} (cs : Str) (h : c ≠ '.') : matchE (c :: cs) = zerosToE (c :: cs) := by
  unfold matchE
  split
  · rename_i heq
    cases heq
    exact absurd rfl h
  · rfl

/-- a part of the text in which nothing is removed -/
theorem zerosToE_noE (cs : Str) (h : ∀ c ∈ cs, c ≠ 'e') : zerosToE cs = none := by
  induction cs with
  | nil => rfl
  | cons c cs ih =>
    by_cases hc : c = '0'
    · subst hc
      rw [zerosToE.eq_2]
      · exact ih (fun d hd => h d (by simp [hd]))
      · intro cs' h0
        subst h0
        exact h 'e' (by simp) rfl
    · rw [zerosToE.eq_3]
      · intro cs' h0
        simp only [List.cons.injEq] at h0
        exact hc h0.1
      · intro cs' h0
        simp only [List.cons.injEq] at h0
        exact hc h0.1

theorem stripE_noE (cs : Str) (h : ∀ c ∈ cs, c ≠ 'e') : stripE cs = cs := by
  induction cs with
  | nil => rfl
  | cons c cs ih =>
    have hm : matchE (c :: cs) = none := by
      unfold matchE
      split
      · rename_i heq
        cases heq
        exact zerosToE_noE _ (fun d hd => h d (by simp [hd]))
      · exact zerosToE_noE _ h
    rw [stripE, hm]
    simp only
    rw [ih (fun d hd => h d (by simp [hd]))]

theorem stripE_exp (r : Str) (h : ∀ c ∈ r, c ≠ 'e') : stripE ('e' :: r) = 'e' :: r := by
  have hm : matchE ('e' :: r) = none := rfl
  rw [stripE, hm]
  simp only
  rw [stripE_noE r h]

theorem stripE_digits (fp r : Str) (hr : ∀ c ∈ r, c ≠ 'e') (hd : DecDigits fp) (h : fp.getLast? ≠ some '0') (k : Nat) :
    stripE (fp ++ List.replicate k '0' ++ 'e' :: r) = fp ++ 'e' :: r := by
  induction fp with
  | nil =>
    simp only [List.nil_append]
    cases k with
    | zero => exact stripE_exp r hr
    | succ k =>
      have hm := zerosToE_zeros (k + 1) r (by omega)
      rw [List.replicate_succ, List.cons_append] at hm ⊢
      rw [stripE, matchE_other _ (by decide), hm]
  | cons c cs ih =>
    have hm := zerosToE_digits (c :: cs) r hd h (by simp) k
    simp only [List.cons_append] at hm ⊢
    rw [stripE, matchE_other _ (digit_ne_point hd c (by simp)), hm]
    simp only
    rw [ih (fun d hd' => hd d (by simp [hd']))]
    intro hl
    cases cs with
    | nil => simp at hl
    | cons d ds => rw [List.getLast?_cons_cons] at h; exact h hl

theorem stripE_point (fp r : Str) (hr : ∀ c ∈ r, c ≠ 'e') (hd : DecDigits fp) (h : fp.getLast? ≠ some '0') (k : Nat)
    (hk : fp ++ List.replicate k '0' ≠ []) :
    stripE ('.' :: (fp ++ List.replicate k '0' ++ 'e' :: r)) = fracText fp ++ 'e' :: r := by
  rw [stripE]
  unfold fracText
  by_cases hfp : fp = []
  · subst hfp
    have hk : 0 < k := by
      rcases Nat.eq_zero_or_pos k with rfl | h
      · simp at hk
      · exact h
    simp only [List.nil_append]
    rw [show matchE ('.' :: (List.replicate k '0' ++ 'e' :: r)) = zerosToE (List.replicate k '0' ++ 'e' :: r) from rfl,
      zerosToE_zeros k r hk]
    rfl
  · rw [show matchE ('.' :: (fp ++ List.replicate k '0' ++ 'e' :: r)) = zerosToE (fp ++ List.replicate k '0' ++ 'e' :: r) from rfl,
      zerosToE_digits fp r hd h hfp k]
    simp only
    rw [stripE_digits fp r hr hd h k, if_neg hfp]
    rfl

/-- a character before the decimal point -/
theorem stripE_cons_point (c : Char) (hc : c ≠ '.') (rest : Str) : stripE (c :: '.' :: rest) = c :: stripE ('.' :: rest) := by
  have hm : matchE (c :: '.' :: rest) = none := by
    rw [matchE_other _ hc]
    by_cases h0 : c = '0'
    · subst h0
      rfl
    · rw [zerosToE.eq_3]
      · intro cs' h
        simp only [List.cons.injEq] at h
        exact h0 h.1
      · intro cs' h
        simp only [List.cons.injEq] at h
        exact h0 h.1
  rw [stripE, hm]

theorem stripE_minus (rest : Str) : stripE ('-' :: rest) = '-' :: stripE rest := by
  have hm : matchE ('-' :: rest) = none := rfl
  rw [stripE, hm]

/-! ### rounding -/

theorem roundHalfEven_spec (n d : Nat) (hd : 0 < d) :
    2 * n ≤ 2 * (roundHalfEven n d * d) + d ∧ 2 * (roundHalfEven n d * d) ≤ 2 * n + d := by
  have h := Nat.div_add_mod n d
  have hlt := Nat.mod_lt n hd
  have hc : d * (n / d) = n / d * d := Nat.mul_comm _ _
  have h1 : (n / d + 1) * d = n / d * d + d := by ring
  unfold roundHalfEven
  simp only
  split
  · omega
  · split
    · rw [h1]; omega
    · split
      · omega
      · rw [h1]; omega

theorem roundHalfEven_rat (n d : Nat) (hd : 0 < d) : |(roundHalfEven n d : ℚ) - n / d| ≤ 1 / 2 := by
  obtain ⟨h1, h2⟩ := roundHalfEven_spec n d hd
  have hd' : (0 : ℚ) < d := by exact_mod_cast hd
  have h1' : (2 * n : ℚ) ≤ 2 * (roundHalfEven n d * d) + d := by exact_mod_cast h1
  have h2' : (2 * (roundHalfEven n d * d) : ℚ) ≤ 2 * n + d := by exact_mod_cast h2
  have e : (roundHalfEven n d : ℚ) - n / d = (roundHalfEven n d * d - n) / d := by field_simp
  rw [e, abs_le]
  constructor
  · rw [le_div_iff₀ hd']; linarith
  · rw [div_le_iff₀ hd']; linarith

theorem rat_abs (v : ℚ) : |v| = (ratAbsNum v : ℚ) / v.den := by
  unfold ratAbsNum
  rw [Nat.cast_natAbs]
  have h : (v.num : ℚ) / v.den = v := Rat.num_div_den v
  have hd : (0 : ℚ) < v.den := by exact_mod_cast v.den_pos
  rw [Int.cast_abs, ← abs_of_pos hd, ← abs_div, h]

/-! ### fixed-point format -/

theorem fixed_text (v : ℚ) : ∃ ip fp : Str, stripEnd (fmtFixed16 v) = signText v ++ ip ++ fracText fp ∧
    DecDigits ip ∧ DecDigits fp ∧ ip ≠ [] ∧ (ip.head? = some '0' → ip = ['0']) ∧ fp.length ≤ 16 ∧ fp.getLast? ≠ some '0' ∧
    |(digitsVal 10 (ip ++ fp) : ℚ) / 10 ^ fp.length - abs v| ≤ 1 / 2 / 10 ^ 16 := by
  let n := roundHalfEven (ratAbsNum v * 10 ^ 16) v.den
  obtain ⟨fp, k, hfp, hl⟩ := split_zeros (padDigits 16 (n % 10 ^ 16))
  have hlen : (padDigits 16 (n % 10 ^ 16)).length = 16 := padDigits_length (by decide) (Nat.mod_lt _ (by positivity))
  have hdp : DecDigits (padDigits 16 (n % 10 ^ 16)) := padDigits_dec _ _
  have hdf : DecDigits fp := by
    intro c hc
    exact hdp c (by rw [hfp]; simp [hc])
  have hk : fp.length + k = 16 := by
    rw [hfp] at hlen
    simpa using hlen
  refine ⟨Nat.toDigits 10 (n / 10 ^ 16), fp, ?_, toDigits_dec _, hdf, Nat.toDigits_ne_nil, ?_, by omega, hl, ?_⟩
  · have htext : fmtFixed16 v = (signText v ++ Nat.toDigits 10 (n / 10 ^ 16)) ++ '.' :: (fp ++ List.replicate k '0') := by
      simp only [fmtFixed16, signText]
      rw [← hfp]
      simp [n]
    rw [htext, stripEnd_prefix, stripEnd_point fp (digit_ne_point hdf) hl k]
    · rw [← hfp]
      intro h
      rw [h] at hlen
      simp at hlen
    · intro c hc
      rcases List.mem_append.mp hc with hc | hc
      · unfold signText at hc
        split at hc
        · simp only [List.mem_singleton] at hc
          subst hc; decide
        · simp at hc
      · exact digit_ne_point (toDigits_dec _) c hc
  · intro h
    rw [toDigits_head _ h]
    rfl
  · have hval : digitsVal 10 (Nat.toDigits 10 (n / 10 ^ 16) ++ fp) * 10 ^ k = n := by
      have h1 : digitsVal 10 (Nat.toDigits 10 (n / 10 ^ 16) ++ padDigits 16 (n % 10 ^ 16)) = n := by
        rw [digitsVal_append, toDigits_val, padDigits_val, hlen]
        exact Nat.div_add_mod' n (10 ^ 16)
      rw [hfp, ← List.append_assoc, digitsVal_append, digitsVal_zeros, List.length_replicate] at h1
      simpa using h1
    have hq : (digitsVal 10 (Nat.toDigits 10 (n / 10 ^ 16) ++ fp) : ℚ) / 10 ^ fp.length = n / 10 ^ 16 := by
      have hv : (digitsVal 10 (Nat.toDigits 10 (n / 10 ^ 16) ++ fp) : ℚ) * 10 ^ k = n := by exact_mod_cast hval
      rw [div_eq_div_iff (by positivity) (by positivity), ← hv, mul_assoc, ← pow_add, Nat.add_comm k, hk]
    rw [hq, rat_abs v]
    have h := roundHalfEven_rat (ratAbsNum v * 10 ^ 16) v.den v.den_pos
    have hd : (v.den : ℚ) ≠ 0 := by exact_mod_cast v.den_nz
    have e : (n : ℚ) / 10 ^ 16 - ratAbsNum v / v.den = ((n : ℚ) - (ratAbsNum v * 10 ^ 16 : ℕ) / v.den) / 10 ^ 16 := by
      push_cast
      field_simp
      try ring
    rw [e, abs_div, abs_of_pos (by positivity : (0 : ℚ) < 10 ^ 16)]
    exact div_le_div_of_nonneg_right h (by positivity)

/-! ### scientific format -/

theorem toDigits_bounds {q : Nat} (hq : 0 < q) :
    10 ^ ((Nat.toDigits 10 q).length - 1) ≤ q ∧ q < 10 ^ (Nat.toDigits 10 q).length ∧ 0 < (Nat.toDigits 10 q).length := by
  have hl : 0 < (Nat.toDigits 10 q).length := List.length_pos_iff.mpr Nat.toDigits_ne_nil
  refine ⟨?_, (Nat.length_toDigits_le_iff (b := 10) (n := q) (by decide) hl).mp (Nat.le_refl _), hl⟩
  by_contra hc
  rcases Nat.eq_zero_or_pos ((Nat.toDigits 10 q).length - 1) with h0 | h0
  · rw [h0] at hc; simp at hc; omega
  · have := (Nat.length_toDigits_le_iff (b := 10) (n := q) (by decide) h0).mpr (by omega)
    omega

theorem decExponent_spec {n d : Nat} (hn : 0 < n) (hd : 0 < d) :
    (10 : ℚ) ^ decExponent n d ≤ n / d ∧ (n : ℚ) / d < 10 ^ (decExponent n d + 1) := by
  have hd' : (0 : ℚ) < d := by exact_mod_cast hd
  have hn' : (0 : ℚ) < n := by exact_mod_cast hn
  unfold decExponent
  split
  · rename_i h
    have hq : 0 < n / d := Nat.div_pos h hd
    obtain ⟨h1, h2, h3⟩ := toDigits_bounds hq
    generalize (Nat.toDigits 10 (n / d)).length = L at *
    obtain ⟨L, rfl⟩ : ∃ l, L = l + 1 := ⟨L - 1, by omega⟩
    have e : (((L + 1 : ℕ) : ℤ) - 1) = (L : ℤ) := by omega
    rw [e, zpow_natCast, show ((L : ℤ) + 1) = ((L + 1 : ℕ) : ℤ) by omega, zpow_natCast]
    rw [le_div_iff₀ hd', div_lt_iff₀ hd']
    have hm := Nat.div_add_mod n d
    have hlt := Nat.mod_lt n hd
    constructor
    · have : 10 ^ L * d ≤ n := le_trans (Nat.mul_le_mul_right d (by simpa using h1)) (Nat.div_mul_le_self n d)
      exact_mod_cast this
    · have : n < 10 ^ (L + 1) * d := by
        rw [← Nat.div_lt_iff_lt_mul hd]; exact h2
      exact_mod_cast this
  · rename_i h
    have hc : 2 ≤ (d + n - 1) / n := by
      rw [Nat.le_div_iff_mul_le hn]; omega
    obtain ⟨h1, h2, h3⟩ := toDigits_bounds (q := (d + n - 1) / n - 1) (by omega)
    generalize (Nat.toDigits 10 ((d + n - 1) / n - 1)).length = L at *
    obtain ⟨L, rfl⟩ : ∃ l, L = l + 1 := ⟨L - 1, by omega⟩
    have e : (-((L + 1 : ℕ) : ℤ) + 1) = -(L : ℤ) := by omega
    rw [e, zpow_neg, zpow_neg, zpow_natCast, zpow_natCast]
    rw [le_div_iff₀ hd', div_lt_iff₀ hd', inv_mul_le_iff₀ (by positivity), lt_inv_mul_iff₀ (by positivity)]
    constructor
    · have : d ≤ 10 ^ (L + 1) * n := by
        have h4 : (d + n - 1) / n < 10 ^ (L + 1) + 1 := by omega
        rw [Nat.div_lt_iff_lt_mul hn, Nat.add_mul] at h4
        omega
      exact_mod_cast this
    · have : 10 ^ L * n < d := by
        have h4 : 10 ^ L + 1 ≤ (d + n - 1) / n := by
          simp only [Nat.add_sub_cancel] at h1; omega
        rw [Nat.le_div_iff_mul_le hn, Nat.add_mul] at h4
        omega
      exact_mod_cast this

/-- the seventeen digits of the scientific format and the exponent -/
def sciParts (v : ℚ) : Nat × ℤ :=
  let n := ratAbsNum v
  let e := decExponent n v.den
  let m := if e ≤ 16 then roundHalfEven (n * 10 ^ (16 - e).toNat) v.den
    else roundHalfEven n (v.den * 10 ^ (e - 16).toNat)
  if m = 10 ^ 17 then (10 ^ 16, e + 1) else (m, e)

theorem fmtSci_parts (v : ℚ) : fmtSci16 v = signText v ++
    (match Nat.toDigits 10 (sciParts v).1 with
      | [] => []
      | d :: ds => d :: '.' :: ds) ++ expText (sciParts v).2 (padDigits 2 (sciParts v).2.natAbs) := by
  simp only [fmtSci16, signText, expText, sciParts]
  rw [List.append_assoc, List.append_assoc, List.append_assoc]
  congr 1

theorem sciParts_spec (v : ℚ) (hv : v ≠ 0) : 10 ^ 16 ≤ (sciParts v).1 ∧ (sciParts v).1 < 10 ^ 17 ∧
    |((sciParts v).1 : ℚ) / 10 ^ 16 * 10 ^ (sciParts v).2 - abs v| ≤ 1 / 2 / 10 ^ 16 * 10 ^ (sciParts v).2 := by
  have hn : 0 < ratAbsNum v := by
    unfold ratAbsNum
    have : v.num ≠ 0 := Rat.num_ne_zero.mpr hv
    omega
  have hd' : (0 : ℚ) < v.den := by exact_mod_cast v.den_pos
  obtain ⟨hlo, hhi⟩ := decExponent_spec hn v.den_pos
  rw [← rat_abs v] at hlo hhi
  let e := decExponent (ratAbsNum v) v.den
  let m := if e ≤ 16 then roundHalfEven (ratAbsNum v * 10 ^ (16 - e).toNat) v.den
    else roundHalfEven (ratAbsNum v) (v.den * 10 ^ (e - 16).toNat)
  have hsp : sciParts v = if m = 10 ^ 17 then (10 ^ 16, e + 1) else (m, e) := rfl
  have hme : |(m : ℚ) - abs v * 10 ^ (16 - e)| ≤ 1 / 2 := by
    by_cases he : e ≤ 16
    · have hm : m = roundHalfEven (ratAbsNum v * 10 ^ (16 - e).toNat) v.den := if_pos he
      have h := roundHalfEven_rat (ratAbsNum v * 10 ^ (16 - e).toNat) v.den v.den_pos
      rw [← hm] at h
      have e2 : abs v * 10 ^ (16 - e) = (ratAbsNum v * 10 ^ (16 - e).toNat : ℕ) / v.den := by
        rw [rat_abs v, show (16 - e) = (((16 - e).toNat : ℕ) : ℤ) by omega, zpow_natCast]
        push_cast
        simp only [Int.toNat_natCast]
        ring
      rw [e2]; exact h
    · have hm : m = roundHalfEven (ratAbsNum v) (v.den * 10 ^ (e - 16).toNat) := if_neg he
      have h := roundHalfEven_rat (ratAbsNum v) (v.den * 10 ^ (e - 16).toNat) (Nat.mul_pos v.den_pos (by positivity))
      rw [← hm] at h
      have e2 : abs v * 10 ^ (16 - e) = (ratAbsNum v : ℚ) / (v.den * 10 ^ (e - 16).toNat : ℕ) := by
        rw [rat_abs v, show (16 - e) = -(((e - 16).toNat : ℕ) : ℤ) by omega, zpow_neg, zpow_natCast]
        push_cast
        field_simp
      rw [e2]; exact h
  have hp : (0 : ℚ) < 10 ^ e := by positivity
  have h10 : (10 : ℚ) ≠ 0 := by norm_num
  have hsub : (10 : ℚ) ^ (16 - e) = 10 ^ 16 / 10 ^ e := by
    rw [zpow_sub₀ h10]; norm_cast
  have hlo' : (10 : ℚ) ^ 16 ≤ abs v * 10 ^ (16 - e) := by
    rw [hsub, mul_div_assoc', le_div_iff₀ hp, mul_comm]
    exact mul_le_mul_of_nonneg_right hlo (by positivity)
  have hhi' : abs v * 10 ^ (16 - e) < (10 : ℚ) ^ 17 := by
    rw [hsub, mul_div_assoc', div_lt_iff₀ hp]
    have : abs v * 10 ^ 16 < 10 ^ (e + 1) * 10 ^ 16 := mul_lt_mul_of_pos_right hhi (by positivity)
    rw [zpow_add₀ h10] at this
    calc abs v * 10 ^ 16 < 10 ^ e * 10 ^ (1 : ℤ) * 10 ^ 16 := this
      _ = 10 ^ 17 * 10 ^ e := by ring
  have hab := abs_le.mp hme
  have hm1 : 10 ^ 16 ≤ m := by
    by_contra hc
    have : (m : ℚ) + 1 ≤ 10 ^ 16 := by
      have : m + 1 ≤ 10 ^ 16 := by omega
      exact_mod_cast this
    linarith [hab.1]
  have hm2 : m ≤ 10 ^ 17 := by
    by_contra hc
    have : (10 : ℚ) ^ 17 + 1 ≤ m := by
      have : 10 ^ 17 + 1 ≤ m := by omega
      exact_mod_cast this
    linarith [hab.2]
  have herr : |(m : ℚ) / 10 ^ 16 * 10 ^ e - abs v| ≤ 1 / 2 / 10 ^ 16 * 10 ^ e := by
    have e3 : (m : ℚ) / 10 ^ 16 * 10 ^ e - abs v = (m - abs v * 10 ^ (16 - e)) * (10 ^ e / 10 ^ 16) := by
      rw [hsub]; field_simp
    rw [e3, abs_mul, abs_of_pos (by positivity : (0 : ℚ) < 10 ^ e / 10 ^ 16)]
    calc _ ≤ (1 / 2) * ((10 : ℚ) ^ e / 10 ^ 16) := mul_le_mul_of_nonneg_right hme (by positivity)
      _ = _ := by ring
  rw [hsp]
  by_cases hc : m = 10 ^ 17
  · rw [if_pos hc]
    refine ⟨le_refl _, by norm_num, ?_⟩
    rw [hc] at herr
    have e4 : ((10 ^ 16 : ℕ) : ℚ) / 10 ^ 16 * 10 ^ (e + 1) = ((10 ^ 17 : ℕ) : ℚ) / 10 ^ 16 * 10 ^ e := by
      rw [zpow_add₀ h10]; push_cast; ring
    simp only
    rw [e4]
    refine le_trans herr ?_
    rw [zpow_add₀ h10]
    have : (0 : ℚ) < 1 / 2 / 10 ^ 16 * 10 ^ e := by positivity
    rw [zpow_one]
    linarith
  · rw [if_neg hc]
    exact ⟨hm1, by simp only; omega, herr⟩

theorem expText_noE (e : ℤ) : ∀ c ∈ (if e < 0 then '-' else '+') :: padDigits 2 e.natAbs, c ≠ 'e' := by
  intro c hc
  rcases List.mem_cons.mp hc with h | h
  · split at h <;> subst h <;> decide
  · rintro rfl
    exact absurd (padDigits_dec _ _ _ h) (by decide)

theorem sci_text (v : ℚ) (hv : v ≠ 0) : ∃ (d : Char) (fp : Str) (e : ℤ),
    stripE (fmtSci16 v) = signText v ++ d :: fracText fp ++ expText e (padDigits 2 e.natAbs) ∧
    DecDigits (d :: fp) ∧ d ≠ '0' ∧ fp.length ≤ 16 ∧ fp.getLast? ≠ some '0' ∧
    |(digitsVal 10 (d :: fp) : ℚ) / 10 ^ fp.length * 10 ^ e - abs v| ≤ 1 / 2 / 10 ^ 16 * 10 ^ e := by
  obtain ⟨h1, h2, h3⟩ := sciParts_spec v hv
  have hlen : (Nat.toDigits 10 (sciParts v).1).length = 17 := by
    have ha := (Nat.length_toDigits_le_iff (b := 10) (n := (sciParts v).1) (k := 17) (by decide) (by decide)).mpr h2
    have hb := mt (Nat.length_toDigits_le_iff (b := 10) (n := (sciParts v).1) (k := 16) (by decide) (by decide)).mp (by omega)
    omega
  have hdec := toDigits_dec (sciParts v).1
  have hval := toDigits_val (sciParts v).1
  have hhead := toDigits_head (sciParts v).1
  have htext := fmtSci_parts v
  generalize Nat.toDigits 10 (sciParts v).1 = ds at *
  cases ds with
  | nil => simp at hlen
  | cons d ds =>
    obtain ⟨fp, k, rfl, hl⟩ := split_zeros ds
    have hk : fp.length + k = 16 := by simpa using hlen
    have hfd : DecDigits fp := fun c hc => hdec c (by simp [hc])
    refine ⟨d, fp, (sciParts v).2, ?_, ?_, ?_, by omega, hl, ?_⟩
    · rw [htext]
      have hd : d ≠ '.' := digit_ne_point hdec d (by simp)
      have key : stripE (d :: '.' :: (fp ++ List.replicate k '0' ++ expText (sciParts v).2 (padDigits 2 (sciParts v).2.natAbs))) =
          d :: (fracText fp ++ expText (sciParts v).2 (padDigits 2 (sciParts v).2.natAbs)) := by
        rw [stripE_cons_point d hd]
        congr 1
        refine stripE_point fp _ (expText_noE _) hfd hl k ?_
        intro h
        have := congrArg List.length h
        rw [List.length_append, List.length_replicate, hk] at this
        cases this
      unfold signText
      split
      · simp only [List.cons_append, List.nil_append, List.append_assoc] at key ⊢
        rw [stripE_minus, key]
      · simp only [List.cons_append, List.nil_append, List.append_assoc] at key ⊢
        rw [key]
    · intro c hc
      exact hdec c (by simp at hc ⊢; tauto)
    · rintro rfl
      have h0 := hhead rfl
      rw [h0] at h1
      omega
    · have hv2 : digitsVal 10 (d :: fp) * 10 ^ k = (sciParts v).1 := by
        rw [← hval, ← List.cons_append, digitsVal_append, digitsVal_zeros, List.length_replicate]
        rfl
      have hq : (digitsVal 10 (d :: fp) : ℚ) / 10 ^ fp.length = (sciParts v).1 / 10 ^ 16 := by
        have hv : (digitsVal 10 (d :: fp) : ℚ) * 10 ^ k = (sciParts v).1 := by exact_mod_cast hv2
        rw [div_eq_div_iff (by positivity) (by positivity), ← hv, mul_assoc, ← pow_add, Nat.add_comm k, hk]
      rw [hq]
      exact h3

end Tom
