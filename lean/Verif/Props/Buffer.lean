import Verif.Model.Buffer
import Verif.Lemmas.Format
import Verif.Model.Double
import Verif.Props.Size
/-
Property C94: the texts of numbers fit into the buffer of `ToString(double)`.
-/
namespace Tom

theorem signText_length (v : ℚ) : (signText v).length ≤ 1 := by unfold signText; split <;> simp

theorem stripEnd_length (s : Str) : (stripEnd s).length ≤ s.length := by
  induction s with
  | nil => exact le_refl _
  | cons c cs ih => rw [stripEnd]; split <;> simp; omega

theorem fixed_length (v : ℚ) (h : |v| < 10 ^ 16) : (fmtFixed16 v).length ≤ 35 := by
  have hn := roundHalfEven_rat (ratAbsNum v * 10 ^ 16) v.den v.den_pos
  have hd' : (0 : ℚ) < v.den := by exact_mod_cast v.den_pos
  have e1 : ((ratAbsNum v * 10 ^ 16 : ℕ) : ℚ) / v.den = |v| * 10 ^ 16 := by
    rw [rat_abs v]; push_cast; ring
  rw [e1] at hn
  have hm : roundHalfEven (ratAbsNum v * 10 ^ 16) v.den ≤ 10 ^ 32 := by
    by_contra hc
    have : (10 : ℚ) ^ 32 + 1 ≤ (roundHalfEven (ratAbsNum v * 10 ^ 16) v.den : ℕ) := by
      have : 10 ^ 32 + 1 ≤ roundHalfEven (ratAbsNum v * 10 ^ 16) v.den := by omega
      exact_mod_cast this
    have h1 := (abs_le.mp hn).2
    have h2 : |v| * 10 ^ 16 < 10 ^ 16 * 10 ^ 16 := mul_lt_mul_of_pos_right h (by positivity)
    generalize ((roundHalfEven (ratAbsNum v * 10 ^ 16) v.den : ℕ) : ℚ) = r at *
    have e : (10 : ℚ) ^ 16 * 10 ^ 16 = 10 ^ 32 := by norm_num
    rw [e] at h2
    linarith
  have h1 : (Nat.toDigits 10 (roundHalfEven (ratAbsNum v * 10 ^ 16) v.den / 10 ^ 16)).length ≤ 17 :=
    (Nat.length_toDigits_le_iff (b := 10) (by decide) (by decide)).mpr (by omega)
  have h2 : (padDigits 16 (roundHalfEven (ratAbsNum v * 10 ^ 16) v.den % 10 ^ 16)).length = 16 :=
    padDigits_length (by decide) (Nat.mod_lt _ (by positivity))
  have h3 := signText_length v
  have : fmtFixed16 v = signText v ++ Nat.toDigits 10 (roundHalfEven (ratAbsNum v * 10 ^ 16) v.den / 10 ^ 16) ++ ['.'] ++
      padDigits 16 (roundHalfEven (ratAbsNum v * 10 ^ 16) v.den % 10 ^ 16) := rfl
  rw [this]
  simp only [List.length_append, List.length_cons, List.length_nil]
  omega

theorem sci_exponent (v : ℚ) (h0 : v ≠ 0) (hd : IsDouble v) : (sciParts v).2.natAbs ≤ 324 := by
  have hn : 0 < ratAbsNum v := by
    unfold ratAbsNum
    have : v.num ≠ 0 := Rat.num_ne_zero.mpr h0
    omega
  obtain ⟨hlo, hhi⟩ := decExponent_spec hn v.den_pos
  rw [← rat_abs v] at hlo hhi
  have hv1 : |v| < 10 ^ (309 : ℤ) := lt_trans (isDouble_lt hd) (by
    have : (2 : ℕ) ^ 1024 < 10 ^ 309 := by decide +kernel
    exact_mod_cast this)
  have hv2 : (10 : ℚ) ^ (-324 : ℤ) ≤ |v| := by
    obtain ⟨m, k, _, _, hk, _, rfl⟩ := hd
    have hm : m ≠ 0 := by rintro rfl; simp at h0
    have hm1 : (1 : ℚ) ≤ |(m : ℚ)| := by
      have : (1 : ℤ) ≤ |m| := Int.one_le_abs hm
      exact_mod_cast this
    rw [abs_mul, abs_of_pos (by positivity : (0 : ℚ) < 2 ^ k)]
    have h2 : (2 : ℚ) ^ (-1074 : ℤ) ≤ 2 ^ k := zpow_le_zpow_right₀ (by norm_num) hk
    calc (10 : ℚ) ^ (-324 : ℤ) ≤ 2 ^ (-1074 : ℤ) := by
          rw [zpow_neg, zpow_neg]
          have : (2 : ℕ) ^ 1074 ≤ 10 ^ 324 := by decide +kernel
          exact inv_anti₀ (by positivity) (by exact_mod_cast this)
      _ ≤ 1 * 2 ^ k := by rw [one_mul]; exact h2
      _ ≤ _ := mul_le_mul_of_nonneg_right hm1 (by positivity)
  have b1 : decExponent (ratAbsNum v) v.den < 309 := (zpow_lt_zpow_iff_right₀ (by norm_num)).mp (lt_of_le_of_lt hlo hv1)
  have b2 : -324 < decExponent (ratAbsNum v) v.den + 1 := (zpow_lt_zpow_iff_right₀ (by norm_num)).mp (lt_of_le_of_lt hv2 hhi)
  simp only [sciParts]
  split <;> split <;> (try simp only) <;> omega

theorem sci_length (v : ℚ) (h0 : v ≠ 0) (hd : IsDouble v) : (fmtSci16 v).length ≤ 24 := by
  obtain ⟨_, h2, _⟩ := sciParts_spec v h0
  have he := sci_exponent v h0 hd
  have hlen : (Nat.toDigits 10 (sciParts v).1).length ≤ 17 :=
    (Nat.length_toDigits_le_iff (b := 10) (by decide) (by decide)).mpr h2
  have hp : (padDigits 2 (sciParts v).2.natAbs).length ≤ 3 := by
    have := (Nat.length_toDigits_le_iff (b := 10) (n := (sciParts v).2.natAbs) (k := 3) (by decide) (by decide)).mpr (by omega)
    simp only [padDigits, List.length_append, List.length_replicate]
    omega
  have hs := signText_length v
  rw [fmtSci_parts]
  generalize Nat.toDigits 10 (sciParts v).1 = ds at hlen
  cases ds with
  | nil => simp only [List.length_append, expText, List.length_cons, List.length_nil]; omega
  | cons d ds =>
    simp only [List.length_cons] at hlen
    simp only [List.length_append, expText, List.length_cons]
    omega

theorem abs_ite (v : ℚ) : (if v < 0 then -v else v) = |v| := by
  split
  · rename_i h; exact (abs_of_neg h).symm
  · rename_i h; exact (abs_of_nonneg (not_lt.mp h)).symm

theorem stripE_length (s : Str) : (stripE s).length ≤ s.length := by
  have z : ∀ s r, zerosToE s = some r → r.length ≤ s.length := by
    intro s
    induction s with
    | nil => intro r h; simp [zerosToE] at h
    | cons c cs ih =>
      intro r h
      unfold zerosToE at h
      split at h
      · rename_i heq
        cases heq
        simp only [Option.some.injEq] at h
        subst h; simp
      · rename_i heq
        cases heq
        have := ih r h
        simp; omega
      · simp at h
  induction s with
  | nil => exact le_refl _
  | cons c cs ih =>
    rw [stripE]
    split
    · rename_i rest h
      unfold matchE at h
      split at h
      · rename_i heq
        cases heq
        have := z _ _ h
        simp; omega
      · exact z _ _ h
    · simp; omega

/-- C94: for every double the text `snprintf` produces fits into the buffer, so nothing is cut off, and the text of the number has at
most 35 characters -/
theorem C94 (x : F64) (hx : x.Ok) : x.toStrBuf = x.toStr ∧ x.toStr.length ≤ 35 := by
  cases x with
  | nan => exact ⟨by decide +kernel, by decide⟩
  | inf s => cases s <;> exact ⟨by decide +kernel, by decide⟩
  | zero s => exact ⟨rfl, by simp [F64.toStr]⟩
  | num v =>
    obtain ⟨h0, hd⟩ := hx
    simp only [F64.toStrBuf, F64.toStr, formatDoubleBuf, formatDouble, if_neg h0, abs_ite]
    split
    · have h := sci_length v h0 hd
      have e : intoBuffer (fmtSci16 v) = fmtSci16 v := List.take_of_length_le (by unfold bufferSize; omega)
      rw [e]
      exact ⟨rfl, le_trans (stripE_length _) (by omega)⟩
    · rename_i hc
      have h := fixed_length v (not_le.mp fun hh => hc (.inl hh))
      have e : intoBuffer (fmtFixed16 v) = fmtFixed16 v := List.take_of_length_le (by unfold bufferSize; omega)
      rw [e]
      exact ⟨rfl, le_trans (stripEnd_length _) (by omega)⟩

/-- concrete cases: the longest scientific text, and a text of 35 characters -/
example : (F64.num (-1 / 2 ^ 1074)).Ok ∧ (fmtSci16 (-1 / 2 ^ 1074)).length = 24 :=
  ⟨⟨by norm_num, ⟨-1, -1074, by norm_num, by norm_num, by norm_num, by norm_num, by rw [zpow_neg, neg_div, one_div, Int.cast_neg, Int.cast_one, neg_one_mul]; norm_cast⟩⟩, by decide +kernel⟩

/-- C94, why the choice of the format matters: with "%.16f" alone the text of the largest doubles would be cut off -/
theorem C94_format_matters : (F64.num (2 ^ 1000)).Ok ∧ intoBuffer (fmtFixed16 (2 ^ 1000)) ≠ fmtFixed16 (2 ^ 1000) := by
  refine ⟨⟨by positivity, ⟨2 ^ 52, 948, by norm_num, by norm_num, by norm_num, by norm_num, by
    have : (2 : ℕ) ^ 1000 = 2 ^ 52 * 2 ^ 948 := by decide +kernel
    exact_mod_cast this⟩⟩, ?_⟩
  intro h
  have := congrArg List.length h
  revert this
  decide +kernel

/-- C93 and C94: the text of an expression of n nodes over doubles whose names have at most 35 characters has at most 42 n
characters -/
theorem C93_toString_double {L : Libm} (e : Expr (Double L)) (hv : ∀ x ∈ e.vars, x.length ≤ 35) :
    ∃ s, toStringNode (embed e) = .ok s ∧ s.length ≤ 42 * e.size :=
  C93_toString 35 e (fun v _ => (C94 v.1 v.2).2) hv

end Tom
