import Verif.Lemmas.Binary64
import Mathlib.Tactic.LinearCombination
/-
Model/Ieee against the standard (Spec/Binary64).
-/
namespace Tom

/-- a float that is equally near to `q` as `rnd q` differs from it by one unit, and `rnd q` counts an even number of units -/
theorem rnd_tie (q w : ℚ) (hq : q ≠ 0) (hw : IsFloat w) (h : |rnd q - q| = |w - q|) (hne : rnd q ≠ w) :
    roundUnits q.num.natAbs q.den (ratUlp q) % 2 = 0 ∧
    ∃ k : ℕ, |w| = k * 2 ^ ratUlp q ∧ (k = roundUnits q.num.natAbs q.den (ratUlp q) + 1 ∨ k + 1 = roundUnits q.num.natAbs q.den (ratUlp q)) ∧
      k ≤ 2 ^ 53 ∧ (2 ^ 52 ≤ k ∨ ratUlp q = -1074) := by
  obtain ⟨he, hupper, h3⟩ := ratUlp_spec q hq
  have hlower := h3
  have hp : (0 : ℚ) < 2 ^ ratUlp q := by positivity
  have hmul : ∃ z : ℤ, w = z * 2 ^ ratUlp q := by
    apply isFloat_units hw
    rcases h3 with h3 | h3
    · right
      by_contra hlt
      push Not at hlt
      have hu : IsFloat (2 ^ (ratUlp q + 52)) := ⟨1, ratUlp q + 52, by norm_num, by omega, by simp⟩
      have hx : ∀ u : ℚ, IsFloat u → |rnd q - q| ≤ |u - q| := fun u hu => rnd_nearest q u hu
      rcases lt_or_ge q 0 with hs | hs
      · have h4 := hx _ (isFloat_neg hu)
        rw [abs_of_neg hs] at h3
        have h5 := abs_lt.mp hlt
        rw [h, abs_of_pos (by linarith), abs_of_nonneg (by linarith)] at h4
        linarith
      · have h4 := hx _ hu
        rw [abs_of_nonneg hs] at h3
        have h5 := abs_lt.mp hlt
        rw [h, abs_of_neg (by linarith), abs_of_nonpos (by linarith)] at h4
        linarith
    · exact .inl h3
  obtain ⟨z, hz⟩ := hmul
  set m := roundUnits q.num.natAbs q.den (ratUlp q) with hm
  obtain ⟨σ, hσ, hσ2, hσq⟩ : ∃ σ : ℤ, rnd q = σ * m * 2 ^ ratUlp q ∧ σ * σ = 1 ∧ q = σ * |q| := by
    refine ⟨if q < 0 then -1 else 1, ?_, ?_, ?_⟩
    · rw [rnd]; split <;> push_cast <;> ring
    · split <;> norm_num
    · have := sign_abs q
      split <;> rename_i hh
      · rw [if_pos hh] at this; push_cast; exact this.symm
      · rw [if_neg hh] at this; push_cast; exact this.symm
  have hσ' : (σ : ℚ) * σ = 1 := by exact_mod_cast hσ2
  have hσa : |(σ : ℚ)| = 1 := by
    have := abs_mul_abs_self (σ : ℚ)
    rw [hσ'] at this
    nlinarith [abs_nonneg (σ : ℚ)]
  -- in units
  have e1 : |rnd q - q| = |(m : ℚ) - |q| / 2 ^ ratUlp q| * 2 ^ ratUlp q := by
    have : rnd q - q = σ * (((m : ℚ) - |q| / 2 ^ ratUlp q) * 2 ^ ratUlp q) := by
      rw [sub_mul, div_mul_cancel₀ _ hp.ne', hσ]
      linear_combination -hσq
    rw [this, abs_mul, hσa, one_mul, abs_mul, abs_of_pos hp]
  have e2 : |w - q| = |((σ * z : ℤ) : ℚ) - |q| / 2 ^ ratUlp q| * 2 ^ ratUlp q := by
    have : w - q = σ * ((((σ * z : ℤ) : ℚ) - |q| / 2 ^ ratUlp q) * 2 ^ ratUlp q) := by
      rw [sub_mul, div_mul_cancel₀ _ hp.ne', hz]
      push_cast
      linear_combination (-(z : ℚ) * 2 ^ ratUlp q) * hσ' - hσq
    rw [this, abs_mul, hσa, one_mul, abs_mul, abs_of_pos hp]
  rw [e1, e2] at h
  have h5 : |(m : ℚ) - |q| / 2 ^ ratUlp q| = |((σ * z : ℤ) : ℚ) - |q| / 2 ^ ratUlp q| := mul_right_cancel₀ hp.ne' h
  have hmz : (m : ℤ) ≠ σ * z := by
    intro hh
    apply hne
    rw [hσ, hz]
    have : (m : ℚ) = σ * z := by exact_mod_cast hh
    rw [this]
    linear_combination ((z : ℚ) * 2 ^ ratUlp q) * hσ'
  have h6 := roundUnits_spec q (ratUlp q)
  rw [← hm] at h6
  have h7 : (1 : ℚ) ≤ |(m : ℚ) - ((σ * z : ℤ) : ℚ)| := by
    have : (1 : ℤ) ≤ |(m : ℤ) - σ * z| := Int.one_le_abs (sub_ne_zero.mpr hmz)
    exact_mod_cast this
  -- a tie
  have h8 : |(m : ℚ) - |q| / 2 ^ ratUlp q| = 1 / 2 := by
    have h9 := abs_sub_le (m : ℚ) (|q| / 2 ^ ratUlp q) ((σ * z : ℤ) : ℚ)
    rw [abs_sub_comm (|q| / 2 ^ ratUlp q), ← h5] at h9
    linarith
  refine ⟨?_, ?_⟩
  swap
  · have h9 : |((σ * z : ℤ) : ℚ) - |q| / 2 ^ ratUlp q| = 1 / 2 := by rw [← h5, h8]
    have hx0 : 0 < |q| / 2 ^ ratUlp q := div_pos (abs_pos.mpr hq) hp
    have hx1 : |q| / 2 ^ ratUlp q < 2 ^ 53 := by
      rw [div_lt_iff₀ hp]
      rw [zpow_add₀ (by norm_num)] at hupper
      calc |q| < _ := hupper
        _ = _ := by norm_num [mul_comm]
    have hx2 : 2 ^ 52 ≤ |q| / 2 ^ ratUlp q ∨ ratUlp q = -1074 := hlower.imp (fun h => by
      rw [le_div_iff₀ hp]
      rw [zpow_add₀ (by norm_num)] at h
      calc _ = _ := by norm_num [mul_comm]
        _ ≤ |q| := h) id
    have hw : |w| = |((σ * z : ℤ) : ℚ)| * 2 ^ ratUlp q := by
      rw [hz, abs_mul, abs_of_pos hp]; push_cast; rw [abs_mul, hσa, one_mul]
    have hmz' : (m : ℚ) ≠ ((σ * z : ℤ) : ℚ) := fun h => hmz (by exact_mod_cast h)
    generalize |q| / 2 ^ ratUlp q = x at h8 h9 hx0 hx1 hx2
    generalize σ * z = y at h9 hw hmz'
    have hsum : (m : ℚ) + y = 2 * x ∧ ((y : ℚ) = m + 1 ∨ (y : ℚ) + 1 = m) := by
      rcases abs_eq (by norm_num : (0 : ℚ) ≤ 1 / 2) |>.mp h8 with a | a <;> rcases abs_eq (by norm_num : (0 : ℚ) ≤ 1 / 2) |>.mp h9 with b | b
      · exact absurd (by linarith) hmz'
      · exact ⟨by linarith, .inr (by linarith)⟩
      · exact ⟨by linarith, .inl (by linarith)⟩
      · exact absurd (by linarith) hmz'
    obtain ⟨hs1, hs2⟩ := hsum
    have hy0 : 0 ≤ y := by
      have h1 : 0 < (m : ℤ) + y := by
        have : (0 : ℚ) < m + y := by linarith
        exact_mod_cast this
      have h2 : y = m + 1 ∨ y + 1 = m := hs2.imp (fun h => by exact_mod_cast h) (fun h => by exact_mod_cast h)
      omega
    obtain ⟨k, rfl⟩ := Int.eq_ofNat_of_zero_le hy0
    have h2 : k = m + 1 ∨ k + 1 = m := hs2.imp (fun h => by exact_mod_cast h) (fun h => by exact_mod_cast h)
    refine ⟨k, by rw [hw]; simp, h2, ?_, hx2.imp (fun h => ?_) id⟩
    · have : m + k < 2 * 2 ^ 53 := by
        have : (m : ℚ) + k < 2 * 2 ^ 53 := by push_cast at hs1; linarith
        exact_mod_cast this
      omega
    · have : 2 * 2 ^ 52 ≤ m + k := by
        have : 2 * 2 ^ 52 ≤ (m : ℚ) + k := by push_cast at hs1; linarith
        exact_mod_cast this
      omega
  have h10 : |q| / 2 ^ ratUlp q = ((q.num.natAbs * 2 ^ (-(ratUlp q)).toNat : ℕ) : ℚ) / ((q.den * 2 ^ (ratUlp q).toNat : ℕ) : ℚ) := by
    rw [two_zpow_split (ratUlp q), ← natAbs_div_den q]; push_cast; field_simp
  rw [h10] at h8
  rw [hm]
  rw [hm] at h8
  unfold roundUnits at h8 ⊢
  have hd : 0 < q.den * 2 ^ (ratUlp q).toNat := Nat.mul_pos q.den_pos (by positivity)
  generalize q.num.natAbs * 2 ^ (-(ratUlp q)).toNat = N at h8 ⊢
  generalize q.den * 2 ^ (ratUlp q).toNat = D at h8 hd ⊢
  have hdm := Nat.div_add_mod N D
  have hml := Nat.mod_lt N hd
  have hDq : (0 : ℚ) < D := by exact_mod_cast hd
  have hN : (N : ℚ) / D = (N / D : ℕ) + ((N % D : ℕ) : ℚ) / D := by
    rw [eq_comm, ← mul_left_inj' hDq.ne', add_mul, div_mul_cancel₀ _ hDq.ne', div_mul_cancel₀ _ hDq.ne']
    have : ((D * (N / D) + N % D : ℕ) : ℚ) = N := by rw [hdm]
    rw [← this]; push_cast; ring
  unfold roundHalfEven at h8 ⊢
  simp only at h8 ⊢
  have hr0 : (0 : ℚ) ≤ ((N % D : ℕ) : ℚ) / D := by positivity
  have hr1 : ((N % D : ℕ) : ℚ) / D < 1 := by rw [div_lt_one hDq]; exact_mod_cast hml
  split_ifs at h8 ⊢ with c1 c2 c3
  · exfalso
    rw [hN] at h8
    have : ((N % D : ℕ) : ℚ) / D < 1 / 2 := by
      rw [div_lt_iff₀ hDq]
      have : ((2 * (N % D) : ℕ) : ℚ) < D := by exact_mod_cast c1
      push_cast at this; linarith
    rw [show ((N / D : ℕ) : ℚ) - ((N / D : ℕ) + ((N % D : ℕ) : ℚ) / D) = -(((N % D : ℕ) : ℚ) / D) by ring, abs_neg, abs_of_nonneg hr0] at h8
    linarith
  · exfalso
    rw [hN] at h8
    have : 1 / 2 < ((N % D : ℕ) : ℚ) / D := by
      rw [lt_div_iff₀ hDq]
      have : (D : ℚ) < ((2 * (N % D) : ℕ) : ℚ) := by exact_mod_cast c2
      push_cast at this; linarith
    rw [show ((N / D + 1 : ℕ) : ℚ) - ((N / D : ℕ) + ((N % D : ℕ) : ℚ) / D) = 1 - (((N % D : ℕ) : ℚ) / D) by push_cast; ring,
      abs_of_pos (by linarith)] at h8
    linarith
  · exact c3
  · omega

theorem rnd_abs_eq (q : ℚ) : rnd |q| = |rnd q| := by
  rcases abs_choice q with h | h
  · have h0 : 0 ≤ q := by rw [← h]; exact abs_nonneg q
    have : 0 ≤ rnd q := by rw [← rnd_zero]; exact rnd_mono h0
    rw [h, abs_of_nonneg this]
  · have h0 : q ≤ 0 := by have := abs_nonneg q; rw [h] at this; linarith
    have : rnd q ≤ 0 := by rw [← rnd_zero]; exact rnd_mono h0
    rw [h, rnd_neg, abs_of_nonpos this]

/-- where rounding overflows -/
theorem overflow_iff (q : ℚ) : 2 ^ 1024 - 2 ^ 970 ≤ |q| ↔ 2 ^ 1024 ≤ |rnd q| := by
  have h1 : rnd (2 ^ 1024 - 2 ^ 970) = 2 ^ 1024 := by decide +kernel
  have h2 : IsFloat (2 ^ 1024 - 2 * 2 ^ 970) := by
    refine ⟨2 ^ 53 - 1, 971, by norm_num, by norm_num, ?_⟩
    rw [show (971 : ℤ) = (971 : ℕ) by norm_num, zpow_natCast]
    decide +kernel
  have h0 : (0 : ℚ) < 2 ^ 970 := by positivity
  rw [← rnd_abs_eq]
  have hn := rnd_nearest |q| _ h2
  have hle := rnd_le |q| _ h2
  have hmono := @rnd_mono (2 ^ 1024 - 2 ^ 970) |q|
  rw [h1] at hmono
  generalize |q| = x at *
  generalize (2 : ℚ) ^ 1024 = T at *
  generalize (2 : ℚ) ^ 970 = a at *
  refine ⟨hmono, fun h => ?_⟩
  by_contra hlt
  push Not at hlt
  rcases le_or_gt x (T - 2 * a) with h3 | h3
  · have := hle h3; linarith
  · rw [abs_of_nonneg (by linarith), abs_of_neg (by linarith)] at hn
    linarith

theorem isFloat_decode {b : BitVec 64} {w : ℚ} (h : (decode b).isInvalid = false) (hw : (decode b).val = ((w : ℝ) : EReal)) : IsFloat w := by
  have hk := decode_ok b
  cases hd : decode b with
  | nan => rw [hd] at h; cases h
  | inf s => rw [hd] at h; cases h
  | zero s =>
    rw [hd] at hw
    have : (w : ℝ) = 0 := EReal.coe_eq_zero.mp hw.symm
    have : w = 0 := by exact_mod_cast this
    rw [this]; exact ((isDouble_iff 0).mp isDouble_zero).1
  | num q =>
    rw [hd] at hw hk
    have : (q : ℝ) = w := by simpa [F64.val] using hw
    have : q = w := by exact_mod_cast this
    rw [← this]; exact ((isDouble_iff q).mp hk.2).1

/-- The rounding of the model is the standard's. -/
theorem IEEE_round (z : Bool) (q : ℚ) (hq : q ≠ 0) : NearestEven q (F64.round z q) ∧ ∃ b, decode b = F64.round z q := by
  refine ⟨?_, decode_surj (F64.ok_round z q)⟩
  have hp : (0 : ℚ) < 2 ^ ratUlp q := by positivity
  have hov := overflow_iff q
  have hsign : rnd q ≠ 0 → (rnd q < 0 ↔ q < 0) := by
    intro h
    constructor
    · intro h1
      by_contra h2
      have : 0 ≤ rnd q := by rw [← rnd_zero]; exact rnd_mono (not_lt.mp h2)
      linarith
    · intro h1
      have : rnd q ≤ 0 := by rw [← rnd_zero]; exact rnd_mono h1.le
      exact lt_of_le_of_ne this h
  have htie : ∀ b w, (decode b).isInvalid = false → (decode b).val = ((w : ℚ) : ℝ) → |rnd q - q| ≤ |w - q| ∧
      (|rnd q - q| = |w - q| → rnd q ≠ w → roundUnits q.num.natAbs q.den (ratUlp q) % 2 = 0) := by
    intro b w h1 h2
    have hf := isFloat_decode h1 h2
    exact ⟨rnd_nearest q w hf, fun h1 h2 => (rnd_tie q w hq hf h1 h2).1⟩
  rw [round_eq, if_neg hq]
  by_cases hz : rnd q = 0
  · rw [if_pos hz]
    refine ⟨by simp [F64.negative], ?_⟩
    rw [if_neg (by rw [hov, hz, abs_zero]; exact not_le.mpr (by positivity))]
    refine ⟨rnd q, by rw [hz]; simp [F64.val], rfl, fun b w h1 h2 => ?_⟩
    obtain ⟨h3, h4⟩ := htie b w h1 h2
    refine ⟨h3, fun _ _ => ?_⟩
    obtain ⟨b, h5, h6⟩ := decode_ofFields (decide (q < 0)) 0 (by norm_num)
    exact ⟨b, h5.trans (by simp [decodeFields]), by omega⟩
  · rw [if_neg hz]
    by_cases ho : 2 ^ 1024 ≤ |rnd q|
    · rw [if_pos ho]
      refine ⟨by simp [F64.negative], ?_⟩
      rw [if_pos (hov.mpr ho)]
      exact ⟨_, rfl⟩
    · rw [if_neg ho]
      refine ⟨hsign hz, ?_⟩
      rw [if_neg (fun h => ho (hov.mp h))]
      refine ⟨rnd q, rfl, rfl, fun b w h1 h2 => ?_⟩
      obtain ⟨h3, h4⟩ := htie b w h1 h2
      refine ⟨h3, fun h5 h6 => ?_⟩
      obtain ⟨h7, h8⟩ := units_bounds q hq
      obtain ⟨b, h9, h10⟩ := decode_units (abs_rnd q) h7 hz (ratUlp_spec q hq).1 h8 (not_le.mp ho)
      exact ⟨b, h9, h10.trans (h4 h5 h6)⟩

/-- There is only one such datum: the specification of rounding determines its result. -/
theorem IEEE_round_unique (z : Bool) (q : ℚ) (hq : q ≠ 0) (r : F64) (hr : r.Ok) (h : NearestEven q r) : r = F64.round z q := by
  obtain ⟨h1, -⟩ := IEEE_round z q hq
  have hok := F64.ok_round z q
  have hneg : r.negative ↔ (F64.round z q).negative := h.1.trans h1.1.symm
  have h2 := h.2
  have h3 := h1.2
  by_cases ho : 2 ^ 1024 - 2 ^ 970 ≤ |q|
  · rw [if_pos ho] at h2 h3
    obtain ⟨s, rfl⟩ := h2
    obtain ⟨t, ht⟩ := h3
    rw [ht] at hneg ⊢
    simp only [F64.negative] at hneg
    cases s <;> cases t <;> simp_all
  · rw [if_neg ho] at h2 h3
    obtain ⟨v, hv, vi, h2⟩ := h2
    obtain ⟨b, hb⟩ := decode_surj hr
    have hrnd : (F64.round z q).val = (((rnd q : ℚ) : ℝ) : EReal) ∧ (F64.round z q).isInvalid = false := by
      rw [round_eq, if_neg hq]
      split_ifs with c1 c2
      · simp [F64.val, c1, F64.isInvalid]
      · exact absurd ((overflow_iff q).mpr c2) ho
      · simp [F64.val, F64.isInvalid]
    obtain ⟨b', hb'⟩ := decode_surj hok
    have hle := (h2 b' (rnd q) (by rw [hb']; exact hrnd.2) (by rw [hb']; exact hrnd.1))
    have hf : IsFloat v := isFloat_decode (b := b) (by rw [hb]; exact vi) (by rw [hb]; exact hv)
    have heq : |rnd q - q| = |v - q| := le_antisymm (rnd_nearest q v hf) hle.1
    have hvr : v = rnd q := by
      by_contra hne
      obtain ⟨c, hc1, hc2⟩ := hle.2 heq.symm hne
      obtain ⟨e1, k, e2, e3, e4, e5⟩ := rnd_tie q v hq hf heq (Ne.symm hne)
      have hv0 : v ≠ 0 := by
        rintro rfl
        rw [abs_zero] at e2
        have hp : (0 : ℚ) < 2 ^ ratUlp q := by positivity
        have : (k : ℚ) = 0 := (mul_eq_zero.mp e2.symm).resolve_right hp.ne'
        have : k = 0 := by exact_mod_cast this
        omega
      have hrv : r = .num v := by
        cases r with
        | nan => cases vi
        | inf s => cases vi
        | zero s =>
          exfalso; apply hv0
          have : ((v : ℝ) : EReal) = 0 := hv.symm
          exact_mod_cast EReal.coe_eq_zero.mp this
        | num w =>
          have : (w : ℝ) = v := by simpa [F64.val] using hv
          rw [show w = v by exact_mod_cast this]
      have hlt : |v| < 2 ^ 1024 := by
        have := hr
        rw [hrv] at this
        exact isDouble_lt this.2
      obtain ⟨d, hd1, hd2⟩ := decode_units e2 e4 hv0 (ratUlp_spec q hq).1 e5 hlt
      have hcd : c = d := decode_inj (hc1.trans (hrv.trans hd1.symm)) (by rw [hc1, hrv]; simp)
      rw [hcd] at hc2
      omega
    rw [hvr, ← hrnd.1] at hv
    have hfin := hrnd.2
    generalize F64.round z q = r' at *
    cases r <;> cases r' <;> simp [F64.isInvalid] at vi hfin
    · rename_i s t
      simp only [F64.negative] at hneg
      cases s <;> cases t <;> simp_all
    · rename_i s w
      exfalso; apply hok.1
      have : ((w : ℝ) : EReal) = 0 := hv.symm
      exact_mod_cast EReal.coe_eq_zero.mp this
    · rename_i w s
      exfalso; apply hr.1
      have : ((w : ℝ) : EReal) = 0 := hv
      exact_mod_cast EReal.coe_eq_zero.mp this
    · rename_i w w'
      have : (w : ℝ) = w' := by simpa [F64.val] using hv
      rw [show w = w' by exact_mod_cast this]

/-- The data of the model are exactly the data with an encoding, and only NaN has several encodings. -/
theorem IEEE_encoding : (∀ b, (decode b).Ok) ∧ (∀ x : F64, x.Ok → ∃ b, decode b = x) ∧
    (∀ b c, decode b = decode c → decode b ≠ .nan → b = c) := ⟨decode_ok, fun _ h => decode_surj h, fun _ _ h hn => decode_inj h hn⟩

/-! ### the operations -/

/-- 6.1, 6.3, 7.2: addition. -/
theorem IEEE_add (a b : F64) (ha : a.Ok) (hb : b.Ok) :
    (F64.add a b = .nan ↔ a = .nan ∨ b = .nan ∨ ∃ s, a = .inf s ∧ b = .inf (!s)) ∧
    (F64.add a b ≠ .nan → (∃ s, a = .inf s ∨ b = .inf s) → (F64.add a b).val = a.val + b.val ∧ (F64.add a b).isInvalid = true) ∧
    (a.isInvalid = false → b.isInvalid = false →
      (a.toRat + b.toRat ≠ 0 → NearestEven (a.toRat + b.toRat) (F64.add a b)) ∧
      (a.toRat + b.toRat = 0 → ∃ s, F64.add a b = .zero s ∧ (s = true ↔ a.negative ∧ b.negative))) := by
  have hround : ∀ q : ℚ, F64.round false q ≠ .nan := by
    intro q; rw [round_eq]; split_ifs <;> simp
  have hdbl : ∀ q : ℚ, q ≠ 0 → IsDouble q → NearestEven q (.num q) := by
    intro q h0 hd
    have := (IEEE_round false q h0).1
    rw [round_eq, if_neg h0, rnd_of_isDouble hd, if_neg h0, if_neg (not_le.mpr (isDouble_lt hd))] at this
    exact this
  refine ⟨?_, ?_, ?_⟩
  · cases a <;> cases b <;> simp [F64.add, hround]
    rename_i s t
    cases s <;> cases t <;> simp
  · cases a <;> cases b <;> simp [F64.add, F64.val, F64.isInvalid]
    all_goals try (rename_i s t; cases s <;> cases t <;> simp [F64.val, F64.isInvalid])
  · intro h1 h2
    cases a <;> cases b <;> simp [F64.isInvalid] at h1 h2
    · simp [F64.toRat, F64.add, F64.negative]
    · refine ⟨fun _ => ?_, fun h => ?_⟩
      · simpa [F64.toRat, F64.add] using hdbl _ hb.1 hb.2
      · exact absurd (by simpa [F64.toRat] using h) hb.1
    · refine ⟨fun _ => ?_, fun h => ?_⟩
      · simpa [F64.toRat, F64.add] using hdbl _ ha.1 ha.2
      · exact absurd (by simpa [F64.toRat] using h) ha.1
    · rename_i p q
      refine ⟨fun h => (IEEE_round false _ h).1, fun h => ⟨false, ?_, ?_⟩⟩
      · simp only [F64.toRat] at h
        simp [F64.add, round_eq, h]
      · simp only [F64.toRat] at h
        simp only [F64.negative, Bool.false_eq_true, false_iff, not_and, not_lt]
        intro hp; linarith

/-- 6.3: `a - b` is `a + (-b)`; the sign operations act on the sign only. -/
theorem IEEE_neg_abs (a : F64) : (F64.neg a = .nan ↔ a = .nan) ∧ (F64.neg a).val = -a.val ∧
    (a ≠ .nan → a.Ok → ((F64.neg a).negative ↔ ¬ a.negative)) ∧
    (F64.abs a = .nan ↔ a = .nan) ∧ ((F64.abs a).val = a.val ∨ (F64.abs a).val = -a.val) ∧ (a.Ok → ¬ (F64.abs a).negative) := by
  cases a with
  | nan => simp [F64.neg, F64.abs, F64.val, F64.negative]
  | inf s => cases s <;> simp [F64.neg, F64.abs, F64.val, F64.negative]
  | zero s => cases s <;> simp [F64.neg, F64.abs, F64.val, F64.negative]
  | num q =>
    refine ⟨by simp [F64.neg], by simp [F64.neg, F64.val], ?_, by simp [F64.abs], ?_, ?_⟩
    · intro _ hk
      simp only [F64.neg, F64.negative]
      have := hk.1
      constructor
      · intro h; linarith
      · intro h; have := lt_of_le_of_ne (not_lt.mp h) (Ne.symm this); linarith
    · simp only [F64.abs]
      split
      · right; simp [F64.val]
      · left; rfl
    · intro hk
      simp only [F64.abs, F64.negative]
      split <;> linarith

theorem negative_xor {p q : ℚ} (hp : p ≠ 0) (hq : q ≠ 0) : p * q < 0 ↔ ¬ (p < 0 ↔ q < 0) := by
  rcases lt_or_gt_of_ne hp with h1 | h1 <;> rcases lt_or_gt_of_ne hq with h2 | h2
  · have := mul_pos_of_neg_of_neg h1 h2
    exact iff_of_false (by linarith) (fun h => h (iff_of_true h1 h2))
  · have := mul_neg_of_neg_of_pos h1 h2
    exact iff_of_true this (fun h => absurd (h.mp h1) (by linarith))
  · have := mul_neg_of_pos_of_neg h1 h2
    exact iff_of_true this (fun h => absurd (h.mpr h2) (by linarith))
  · have := mul_pos h1 h2
    exact iff_of_false (by linarith) (fun h => h (iff_of_false (by linarith) (by linarith)))

/-- 6.1, 6.3, 7.2: multiplication. -/
theorem IEEE_mul (a b : F64) (ha : a.Ok) (hb : b.Ok) :
    (F64.mul a b = .nan ↔ a = .nan ∨ b = .nan ∨ (∃ s t, a = .inf s ∧ b = .zero t) ∨ (∃ s t, a = .zero s ∧ b = .inf t)) ∧
    (F64.mul a b ≠ .nan → ((F64.mul a b).negative ↔ ¬ (a.negative ↔ b.negative))) ∧
    (F64.mul a b ≠ .nan → (∃ s, a = .inf s ∨ b = .inf s) → ∃ s, F64.mul a b = .inf s) ∧
    (a.isInvalid = false → b.isInvalid = false →
      (a.toRat * b.toRat ≠ 0 → NearestEven (a.toRat * b.toRat) (F64.mul a b)) ∧
      (a.toRat * b.toRat = 0 → ∃ s, F64.mul a b = .zero s)) := by
  have hround : ∀ q : ℚ, F64.round false q ≠ .nan := by
    intro q; rw [round_eq]; split_ifs <;> simp
  have hd : ∀ (s : Bool) (q : ℚ), ((s ^^ decide (q < 0)) = true) ↔ ¬ (s = true ↔ q < 0) := by
    intro s q; cases s <;> by_cases h : q < 0 <;> simp [h]
  have hd' : ∀ (s : Bool) (q : ℚ), ((decide (q < 0) ^^ s) = true) ↔ ¬ (q < 0 ↔ s = true) := by
    intro s q; cases s <;> by_cases h : q < 0 <;> simp [h]
  have hx : ∀ s t : Bool, ((s ^^ t) = true) ↔ ¬ (s = true ↔ t = true) := by
    intro s t; cases s <;> cases t <;> simp
  refine ⟨?_, ?_, ?_, ?_⟩
  · cases a <;> cases b <;> simp [F64.mul, hround]
  · have hnum : ∀ p q : ℚ, a = .num p → b = .num q → ((F64.round false (p * q)).negative ↔ ¬ (p < 0 ↔ q < 0)) := by
      rintro p q rfl rfl
      rw [(IEEE_round false _ (mul_ne_zero ha.1 hb.1)).1.1, negative_xor ha.1 hb.1]
    cases a with
    | num p =>
      cases b with
      | num q => exact fun _ => hnum p q rfl rfl
      | nan => simp [F64.mul]
      | inf t => intro _; simpa [F64.mul, F64.negative, F64.signBit, -bne_iff_ne] using hd' t p
      | zero t => intro _; simpa [F64.mul, F64.negative, F64.signBit, -bne_iff_ne] using hd' t p
    | nan => cases b <;> simp [F64.mul]
    | inf s =>
      cases b with
      | num q => intro _; simpa [F64.mul, F64.negative, F64.signBit, -bne_iff_ne] using hd s q
      | nan => simp [F64.mul]
      | inf t => cases s <;> cases t <;> simp [F64.mul, F64.negative, F64.signBit]
      | zero t => cases s <;> cases t <;> simp [F64.mul, F64.negative, F64.signBit]
    | zero s =>
      cases b with
      | num q => intro _; simpa [F64.mul, F64.negative, F64.signBit, -bne_iff_ne] using hd s q
      | nan => simp [F64.mul]
      | inf t => cases s <;> cases t <;> simp [F64.mul, F64.negative, F64.signBit]
      | zero t => cases s <;> cases t <;> simp [F64.mul, F64.negative, F64.signBit]
  · cases a <;> cases b <;> simp [F64.mul]
  · intro h1 h2
    cases a <;> cases b <;> simp [F64.isInvalid] at h1 h2
    · simp [F64.toRat, F64.mul]
    · simp [F64.toRat, F64.mul]
    · simp [F64.toRat, F64.mul]
    · rename_i p q
      exact ⟨fun h => (IEEE_round false _ h).1, fun h => absurd h (mul_ne_zero ha.1 hb.1)⟩

/-- 6.1, 6.3, 7.2, 7.3: division. -/
theorem IEEE_div (a b : F64) (ha : a.Ok) (hb : b.Ok) :
    (F64.div a b = .nan ↔ a = .nan ∨ b = .nan ∨ (∃ s t, a = .inf s ∧ b = .inf t) ∨ (∃ s t, a = .zero s ∧ b = .zero t)) ∧
    (F64.div a b ≠ .nan → ((F64.div a b).negative ↔ ¬ (a.negative ↔ b.negative))) ∧
    (F64.div a b ≠ .nan → (∃ s, a = .inf s ∨ b = .zero s) → ∃ s, F64.div a b = .inf s) ∧
    (F64.div a b ≠ .nan → (∃ s, b = .inf s ∨ a = .zero s) → ∃ s, F64.div a b = .zero s) ∧
    (a.isInvalid = false → b.isInvalid = false → a.toRat ≠ 0 → b.toRat ≠ 0 → NearestEven (a.toRat / b.toRat) (F64.div a b)) := by
  have hround : ∀ q : ℚ, F64.round false q ≠ .nan := by
    intro q; rw [round_eq]; split_ifs <;> simp
  have hd : ∀ (s : Bool) (q : ℚ), ((s ^^ decide (q < 0)) = true) ↔ ¬ (s = true ↔ q < 0) := by
    intro s q; cases s <;> by_cases h : q < 0 <;> simp [h]
  have hd' : ∀ (s : Bool) (q : ℚ), ((decide (q < 0) ^^ s) = true) ↔ ¬ (q < 0 ↔ s = true) := by
    intro s q; cases s <;> by_cases h : q < 0 <;> simp [h]
  have hx : ∀ s t : Bool, ((s ^^ t) = true) ↔ ¬ (s = true ↔ t = true) := by
    intro s t; cases s <;> cases t <;> simp
  refine ⟨?_, ?_, ?_, ?_, ?_⟩
  · cases a <;> cases b <;> simp [F64.div, hround]
  · have hnum : ∀ p q : ℚ, a = .num p → b = .num q → ((F64.round false (p / q)).negative ↔ ¬ (p < 0 ↔ q < 0)) := by
      rintro p q rfl rfl
      rw [(IEEE_round false _ (div_ne_zero ha.1 hb.1)).1.1, div_eq_mul_inv, negative_xor ha.1 (inv_ne_zero hb.1), inv_lt_zero]
    cases a with
    | num p =>
      cases b with
      | num q => exact fun _ => hnum p q rfl rfl
      | nan => simp [F64.div]
      | inf t => intro _; simpa [F64.div, F64.negative, F64.signBit, -bne_iff_ne] using hd' t p
      | zero t => intro _; simpa [F64.div, F64.negative, F64.signBit, -bne_iff_ne] using hd' t p
    | nan => cases b <;> simp [F64.div]
    | inf s =>
      cases b with
      | num q => intro _; simpa [F64.div, F64.negative, F64.signBit, -bne_iff_ne] using hd s q
      | nan => simp [F64.div]
      | inf t => cases s <;> cases t <;> simp [F64.div, F64.negative, F64.signBit]
      | zero t => cases s <;> cases t <;> simp [F64.div, F64.negative, F64.signBit]
    | zero s =>
      cases b with
      | num q => intro _; simpa [F64.div, F64.negative, F64.signBit, -bne_iff_ne] using hd s q
      | nan => simp [F64.div]
      | inf t => cases s <;> cases t <;> simp [F64.div, F64.negative, F64.signBit]
      | zero t => cases s <;> cases t <;> simp [F64.div, F64.negative, F64.signBit]
  · cases a <;> cases b <;> simp [F64.div]
  · cases a <;> cases b <;> simp [F64.div]
  · intro h1 h2 h3 h4
    cases a <;> cases b <;> simp [F64.isInvalid] at h1 h2
    · exact absurd rfl h3
    · exact absurd rfl h3
    · exact absurd rfl h4
    · rename_i p q
      exact (IEEE_round false _ (div_ne_zero ha.1 hb.1)).1

theorem coe_rat_ereal (p q : ℚ) : (((p : ℝ) : EReal) < ((q : ℝ) : EReal) ↔ p < q) ∧ (((p : ℝ) : EReal) = ((q : ℝ) : EReal) ↔ p = q) := by
  constructor
  · rw [EReal.coe_lt_coe_iff]; exact_mod_cast Iff.rfl
  · rw [EReal.coe_eq_coe_iff]; exact_mod_cast Iff.rfl

theorem val_finite {a : F64} (h : a.isInvalid = false) : a.val = ((a.toRat : ℝ) : EReal) := by
  cases a <;> simp_all [F64.isInvalid, F64.val, F64.toRat]

/-- 5.11: comparisons; NaN compares with nothing. -/
theorem IEEE_compare (a b : F64) :
    (F64.lt a b = true ↔ a ≠ .nan ∧ b ≠ .nan ∧ a.val < b.val) ∧
    (F64.eq a b = true ↔ a ≠ .nan ∧ b ≠ .nan ∧ a.val = b.val) ∧
    (F64.le a b = true ↔ a ≠ .nan ∧ b ≠ .nan ∧ a.val ≤ b.val) := by
  have key : (F64.lt a b = true ↔ a ≠ .nan ∧ b ≠ .nan ∧ a.val < b.val) ∧ (F64.eq a b = true ↔ a ≠ .nan ∧ b ≠ .nan ∧ a.val = b.val) := by
    by_cases hf : a.isInvalid = false ∧ b.isInvalid = false
    · have e1 : F64.lt a b = decide (a.toRat < b.toRat) := by
        cases a <;> cases b <;> simp_all [F64.isInvalid, F64.lt]
      have e2 : F64.eq a b = decide (a.toRat = b.toRat) := by
        cases a <;> cases b <;> simp_all [F64.isInvalid, F64.eq]
      have n1 : a ≠ .nan := by rintro rfl; simp [F64.isInvalid] at hf
      have n2 : b ≠ .nan := by rintro rfl; simp [F64.isInvalid] at hf
      rw [val_finite hf.1, val_finite hf.2, (coe_rat_ereal _ _).1, (coe_rat_ereal _ _).2, e1, e2]
      simp [n1, n2]
    · cases a <;> cases b <;> simp [F64.isInvalid] at hf
      all_goals try simp [F64.lt, F64.eq, F64.val]
      all_goals rename_i s t
      all_goals try cases s
      all_goals try cases t
      all_goals simp [EReal.bot_lt_coe, EReal.coe_lt_top]
  refine ⟨key.1, key.2, ?_⟩
  rw [F64.le, Bool.or_eq_true, key.1, key.2, le_iff_lt_or_eq]
  tauto

/-- math_operator.cpp:349-350: the test `v == inf || v == -inf || v != v`. -/
theorem IEEE_isInvalid (a : F64) : F64.isInvalid a = (F64.eq a (.inf false) || F64.eq a (.inf true) || !F64.eq a a) := by
  cases a with
  | nan => rfl
  | inf s => cases s <;> rfl
  | zero s => simp [F64.isInvalid, F64.eq]
  | num q => simp [F64.isInvalid, F64.eq]

/-- 5.4.1, 5.8: conversions from and to `int` (truncation; undefined in C++ when the result does not fit). -/
theorem IEEE_int (i : ℤ) (h : -2147483648 ≤ i ∧ i ≤ 2147483647) (a : F64) :
    (F64.ofInt i).val = ((i : ℝ) : EReal) ∧ (F64.toInt32 a = some i → a.isInvalid = false ∧ |a.toRat - i| < 1 ∧ |(i : ℚ)| ≤ |a.toRat|) ∧
    (a.isInvalid = false → |a.toRat - i| < 1 → |(i : ℚ)| ≤ |a.toRat| → F64.toInt32 a = some i) := by
  have htr : ∀ q : ℚ, |q - q.num.tdiv q.den| < 1 ∧ |((q.num.tdiv q.den : ℤ) : ℚ)| ≤ |q| ∧
      ∀ j : ℤ, |q - j| < 1 → |(j : ℚ)| ≤ |q| → j = q.num.tdiv q.den := by
    intro q
    have hd : (0 : ℚ) < q.den := by exact_mod_cast q.den_pos
    have e0 : q * q.den = q.num := Rat.mul_den_eq_num q
    have key : ∀ q : ℚ, 0 ≤ q → |q - q.num.tdiv q.den| < 1 ∧ |((q.num.tdiv q.den : ℤ) : ℚ)| ≤ |q| ∧
        ∀ j : ℤ, |q - j| < 1 → |(j : ℚ)| ≤ |q| → j = q.num.tdiv q.den := by
      intro q hq
      have e1 : q.num.tdiv q.den = ⌊q⌋ := by
        have e2 : ⌊q⌋ = q.num / q.den := Rat.floor_def q
        rw [e2, Int.tdiv_eq_ediv_of_nonneg (Rat.num_nonneg.mpr hq)]
      rw [e1]
      have h1 := Int.floor_le q
      have h2 := Int.lt_floor_add_one q
      have h3 : (0 : ℚ) ≤ ⌊q⌋ := by exact_mod_cast Int.floor_nonneg.mpr hq
      refine ⟨by rw [abs_of_nonneg (by linarith)]; linarith, by rw [abs_of_nonneg h3, abs_of_nonneg hq]; exact h1, fun j h4 h5 => ?_⟩
      rw [abs_of_nonneg hq] at h5
      have h6 := abs_lt.mp h4
      refine (Int.floor_eq_iff.mpr ⟨?_, ?_⟩).symm
      · exact le_trans (le_abs_self _) h5
      · linarith
    rcases le_total 0 q with hq | hq
    · exact key q hq
    · obtain ⟨h1, h2, h3⟩ := key (-q) (by linarith)
      have e1 : (-q).num.tdiv (-q).den = -q.num.tdiv q.den := by
        rw [Rat.num_neg_eq_neg_num, Rat.den_neg_eq_den, Int.neg_tdiv]
      rw [e1] at h1 h2 h3
      push_cast at h1 h2
      rw [abs_neg, abs_neg] at h2
      rw [show -q - -((q.num.tdiv q.den : ℤ) : ℚ) = -(q - (q.num.tdiv q.den : ℤ)) by ring, abs_neg] at h1
      refine ⟨h1, h2, fun j h4 h5 => ?_⟩
      have := h3 (-j) (by push_cast; rw [show -q - -(j : ℚ) = -(q - j) by ring, abs_neg]; exact h4) (by push_cast; rw [abs_neg, abs_neg]; exact h5)
      linarith
  refine ⟨?_, ?_, ?_⟩
  · have hd : IsDouble (i : ℚ) := isDouble_int i (by rw [abs_le]; constructor <;> linarith [h.1, h.2])
    rw [F64.ofInt, round_eq, rnd_of_isDouble hd]
    split_ifs with h1 h2
    · have : i = 0 := by exact_mod_cast h1
      simp [F64.val, this]
    · exact absurd h2 (not_le.mpr (isDouble_lt hd))
    · simp [F64.val]
  · intro ht
    cases a with
    | nan => cases ht
    | inf s => cases ht
    | zero s =>
      have : i = 0 := (Option.some.inj ht).symm
      simp [this, F64.isInvalid, F64.toRat]
    | num q =>
      simp only [F64.toInt32] at ht
      split at ht
      · obtain rfl := Option.some.inj ht
        exact ⟨rfl, (htr q).1, (htr q).2.1⟩
      · cases ht
  · intro h1 h2 h3
    cases a with
    | nan => cases h1
    | inf s => cases h1
    | zero s =>
      have : (i : ℚ) = 0 := abs_eq_zero.mp (le_antisymm (by simpa [F64.toRat] using h3) (abs_nonneg _))
      have : i = 0 := by exact_mod_cast this
      rw [this]; rfl
    | num q =>
      have := (htr q).2.2 i h2 h3
      simp only [F64.toInt32]
      rw [← this, if_pos h]

end Tom
