import Verif.Model.Double
/-
Operations on finite doubles.
-/
namespace Tom
namespace Double
variable {L : Libm}

theorem is_double {x : Double L} {q : ℚ} (h : x.Is q) : IsDouble q := by
  obtain ⟨h1, rfl⟩ := h
  have := x.ok
  cases hx : x.raw <;> rw [hx] at this h1
  · simp [F64.isInvalid] at h1
  · simp [F64.isInvalid] at h1
  · exact isDouble_zero
  · exact this.2

theorem is_unique {x : Double L} {p q : ℚ} (h : x.Is p) (h' : x.Is q) : p = q := h.2.symm.trans h'.2

theorem is_of_valid {x : Double L} (h : Dbl.isInvalid x = false) : x.Is x.raw.toRat := ⟨h, rfl⟩

/-- a finite datum: a signed zero or a non-zero number -/
theorem is_cases {x : Double L} {q : ℚ} (h : x.Is q) : (q = 0 ∧ ∃ s, x.raw = .zero s) ∨ (q ≠ 0 ∧ x.raw = .num q) := by
  obtain ⟨h1, rfl⟩ := h
  have hk := x.ok
  cases hx : x.raw <;> rw [hx] at h1 hk
  · simp [F64.isInvalid] at h1
  · simp [F64.isInvalid] at h1
  · exact .inl ⟨rfl, _, rfl⟩
  · exact .inr ⟨hk.1, rfl⟩

theorem is_num {x : Double L} {q : ℚ} (h : x.raw = .num q) : x.Is q := ⟨by rw [h]; rfl, by rw [h]; rfl⟩

theorem is_zero {x : Double L} {s : Bool} (h : x.raw = .zero s) : x.Is 0 := ⟨by rw [h]; rfl, by rw [h]; rfl⟩

/-- a rounded result that is not too large -/
theorem is_round {x : Double L} {z : Bool} {q : ℚ} (hx : x.raw = F64.round z q) (hq : |rnd q| < 2 ^ 1024) : x.Is (rnd q) := by
  rw [round_eq] at hx
  split_ifs at hx with h1 h2 h3
  · subst h1; rw [rnd_zero]; exact is_zero hx
  · rw [h2]; exact is_zero hx
  · exact absurd hq (not_lt.mpr h3)
  · exact is_num hx

/-- a rounded result that is finite -/
theorem round_valid {x : Double L} {z : Bool} {q r : ℚ} (hx : x.raw = F64.round z q) (h : x.Is r) : r = rnd q ∧ |rnd q| < 2 ^ 1024 := by
  rw [round_eq] at hx
  split_ifs at hx with h1 h2 h3
  · subst h1; rw [rnd_zero]; exact ⟨is_unique h (is_zero hx), by positivity⟩
  · rw [h2]; exact ⟨is_unique h (is_zero hx), by positivity⟩
  · have := h.1; rw [hx] at this; simp [F64.isInvalid] at this
  · exact ⟨is_unique h (is_num hx), not_le.mp h3⟩

theorem is_near {q : ℚ} (hq : |rnd q| < 2 ^ 1024) : (near L q).Is (rnd q) := is_round rfl hq

theorem is_ofInt {i : ℤ} (h : |i| ≤ 2 ^ 53) : (Dbl.ofInt i : Double L).Is i := by
  have hd := isDouble_int i h
  have := is_round (x := (Dbl.ofInt i : Double L)) (z := false) (q := (i : ℚ)) rfl (by rw [rnd_of_isDouble hd]; exact isDouble_lt hd)
  rwa [rnd_of_isDouble hd] at this

/-- Sums of finite doubles are rounded; a finite result has finite operands. -/
theorem add_is {a b : Double L} {p q : ℚ} (ha : a.Is p) (hb : b.Is q) (h : |rnd (p + q)| < 2 ^ 1024) :
    (Arith.add a b).Is (rnd (p + q)) := by
  have hr : (Arith.add a b : Double L).raw = F64.add a.raw b.raw := rfl
  have hpd := is_double ha
  have hqd := is_double hb
  rcases is_cases ha with ⟨rfl, s, hs⟩ | ⟨hp, hs⟩ <;> rcases is_cases hb with ⟨rfl, t, ht⟩ | ⟨hq, ht⟩ <;> rw [hs, ht] at hr
  · rw [add_zero, rnd_zero]; exact is_zero hr
  · rw [zero_add, rnd_of_isDouble hqd]; exact is_num hr
  · rw [add_zero, rnd_of_isDouble hpd]; exact is_num hr
  · exact is_round hr h

theorem add_inv {a b : Double L} {r : ℚ} (h : (Arith.add a b).Is r) :
    ∃ p q, a.Is p ∧ b.Is q ∧ r = rnd (p + q) ∧ |rnd (p + q)| < 2 ^ 1024 := by
  have hr : (Arith.add a b : Double L).raw = F64.add a.raw b.raw := rfl
  have h1 := h.1
  have hfa : a.raw.isInvalid = false ∧ b.raw.isInvalid = false := by
    rw [hr] at h1
    cases ha : a.raw <;> cases hb : b.raw <;> rw [ha, hb] at h1 <;> simp_all [F64.add, F64.isInvalid]
    rename_i s t
    rcases s <;> rcases t <;> simp at h1
  refine ⟨_, _, ⟨hfa.1, rfl⟩, ⟨hfa.2, rfl⟩, ?_⟩
  have hpd := is_double (x := a) ⟨hfa.1, rfl⟩
  have hqd := is_double (x := b) ⟨hfa.2, rfl⟩
  rcases is_cases (x := a) ⟨hfa.1, rfl⟩ with ⟨e, s, hs⟩ | ⟨hp, hs⟩ <;> rcases is_cases (x := b) ⟨hfa.2, rfl⟩ with ⟨e', t, ht⟩ | ⟨hq, ht⟩ <;>
    rw [hs, ht] at hr
  · rw [e, e', add_zero, rnd_zero]; exact ⟨is_unique h (is_zero hr), by positivity⟩
  · rw [e, zero_add, rnd_of_isDouble hqd]; exact ⟨is_unique h (is_num hr), isDouble_lt hqd⟩
  · rw [e', add_zero, rnd_of_isDouble hpd]; exact ⟨is_unique h (is_num hr), isDouble_lt hpd⟩
  · exact round_valid hr h

theorem neg_is {a : Double L} {p : ℚ} (ha : a.Is p) : (Arith.neg a).Is (-p) := by
  have hr : (Arith.neg a : Double L).raw = F64.neg a.raw := rfl
  rcases is_cases ha with ⟨rfl, s, hs⟩ | ⟨hp, hs⟩ <;> rw [hs] at hr
  · rw [neg_zero]; exact is_zero hr
  · exact is_num hr

theorem neg_inv {a : Double L} {r : ℚ} (h : (Arith.neg a).Is r) : a.Is (-r) := by
  have hr : (Arith.neg a : Double L).raw = F64.neg a.raw := rfl
  have h1 := h.1
  have hf : a.raw.isInvalid = false := by
    rw [hr] at h1
    cases ha : a.raw <;> rw [ha] at h1 <;> simp_all [F64.neg, F64.isInvalid]
  have := neg_is (a := a) ⟨hf, rfl⟩
  have e := is_unique h this
  rw [e, neg_neg]; exact ⟨hf, rfl⟩

theorem abs_is {a : Double L} {p : ℚ} (ha : a.Is p) : (Arith.abs a).Is |p| := by
  have hr : (Arith.abs a : Double L).raw = F64.abs a.raw := rfl
  rcases is_cases ha with ⟨rfl, s, hs⟩ | ⟨hp, hs⟩ <;> rw [hs] at hr
  · rw [abs_zero]; exact is_zero hr
  · have e : (if p < 0 then -p else p) = |p| := by
      split
      · rename_i h; rw [abs_of_neg h]
      · rename_i h; rw [abs_of_nonneg (not_lt.mp h)]
    simp only [F64.abs, e] at hr
    exact is_num hr

theorem abs_inv {a : Double L} {r : ℚ} (h : (Arith.abs a).Is r) : ∃ p, a.Is p ∧ r = |p| := by
  have hr : (Arith.abs a : Double L).raw = F64.abs a.raw := rfl
  have h1 := h.1
  have hf : a.raw.isInvalid = false := by
    rw [hr] at h1
    cases ha : a.raw <;> rw [ha] at h1 <;> simp_all [F64.abs, F64.isInvalid]
  exact ⟨_, ⟨hf, rfl⟩, is_unique h (abs_is ⟨hf, rfl⟩)⟩

theorem sub_eq (a b : Double L) : Arith.sub a b = Arith.add a (Arith.neg b) := rfl

theorem sub_is {a b : Double L} {p q : ℚ} (ha : a.Is p) (hb : b.Is q) (h : |rnd (p - q)| < 2 ^ 1024) :
    (Arith.sub a b).Is (rnd (p - q)) := by
  rw [sub_eq, sub_eq_add_neg p q]
  exact add_is ha (neg_is hb) (by rwa [← sub_eq_add_neg])

theorem sub_inv {a b : Double L} {r : ℚ} (h : (Arith.sub a b).Is r) :
    ∃ p q, a.Is p ∧ b.Is q ∧ r = rnd (p - q) ∧ |rnd (p - q)| < 2 ^ 1024 := by
  rw [sub_eq] at h
  obtain ⟨p, q, h1, h2, h3, h4⟩ := add_inv h
  have := neg_inv h2
  exact ⟨p, -q, h1, this, by rw [h3, sub_neg_eq_add], by rwa [sub_neg_eq_add]⟩

theorem mul_is {a b : Double L} {p q : ℚ} (ha : a.Is p) (hb : b.Is q) (h : |rnd (p * q)| < 2 ^ 1024) :
    (Arith.mul a b).Is (rnd (p * q)) := by
  have hr : (Arith.mul a b : Double L).raw = F64.mul a.raw b.raw := rfl
  rcases is_cases ha with ⟨rfl, s, hs⟩ | ⟨hp, hs⟩ <;> rcases is_cases hb with ⟨rfl, t, ht⟩ | ⟨hq, ht⟩ <;> rw [hs, ht] at hr
  · rw [mul_zero, rnd_zero]; exact is_zero hr
  · rw [zero_mul, rnd_zero]; exact is_zero hr
  · rw [mul_zero, rnd_zero]; exact is_zero hr
  · exact is_round hr h

theorem mul_inv {a b : Double L} {r : ℚ} (h : (Arith.mul a b).Is r) :
    ∃ p q, a.Is p ∧ b.Is q ∧ r = rnd (p * q) ∧ |rnd (p * q)| < 2 ^ 1024 := by
  have hr : (Arith.mul a b : Double L).raw = F64.mul a.raw b.raw := rfl
  have h1 := h.1
  have hfa : a.raw.isInvalid = false ∧ b.raw.isInvalid = false := by
    rw [hr] at h1
    cases ha : a.raw <;> cases hb : b.raw <;> rw [ha, hb] at h1 <;> simp_all [F64.mul, F64.isInvalid]
  refine ⟨_, _, ⟨hfa.1, rfl⟩, ⟨hfa.2, rfl⟩, ?_⟩
  rcases is_cases (x := a) ⟨hfa.1, rfl⟩ with ⟨e, s, hs⟩ | ⟨hp, hs⟩ <;> rcases is_cases (x := b) ⟨hfa.2, rfl⟩ with ⟨e', t, ht⟩ | ⟨hq, ht⟩ <;>
    rw [hs, ht] at hr
  · rw [e, e', mul_zero, rnd_zero]; exact ⟨is_unique h (is_zero hr), by positivity⟩
  · rw [e, zero_mul, rnd_zero]; exact ⟨is_unique h (is_zero hr), by positivity⟩
  · rw [e', mul_zero, rnd_zero]; exact ⟨is_unique h (is_zero hr), by positivity⟩
  · exact round_valid hr h

theorem div_is {a b : Double L} {p q : ℚ} (ha : a.Is p) (hb : b.Is q) (hq0 : q ≠ 0) (h : |rnd (p / q)| < 2 ^ 1024) :
    (Arith.div a b).Is (rnd (p / q)) := by
  have hr : (Arith.div a b : Double L).raw = F64.div a.raw b.raw := rfl
  rcases is_cases ha with ⟨rfl, s, hs⟩ | ⟨hp, hs⟩ <;> rcases is_cases hb with ⟨rfl, t, ht⟩ | ⟨hq, ht⟩ <;> rw [hs, ht] at hr
  · exact absurd rfl hq0
  · rw [zero_div, rnd_zero]; exact is_zero hr
  · exact absurd rfl hq0
  · exact is_round hr h

/-- a finite quotient of finite numbers -/
theorem div_inv {a b : Double L} {p q r : ℚ} (ha : a.Is p) (hb : b.Is q) (h : (Arith.div a b).Is r) :
    q ≠ 0 ∧ r = rnd (p / q) ∧ |rnd (p / q)| < 2 ^ 1024 := by
  have hr : (Arith.div a b : Double L).raw = F64.div a.raw b.raw := rfl
  rcases is_cases ha with ⟨rfl, s, hs⟩ | ⟨hp, hs⟩ <;> rcases is_cases hb with ⟨rfl, t, ht⟩ | ⟨hq, ht⟩ <;> rw [hs, ht] at hr
  · have := h.1; rw [hr] at this; simp [F64.div, F64.isInvalid] at this
  · refine ⟨hq, ?_⟩
    rw [zero_div, rnd_zero]; exact ⟨is_unique h (is_zero hr), by positivity⟩
  · have := h.1; rw [hr] at this; simp [F64.div, F64.isInvalid] at this
  · exact ⟨hq, round_valid hr h⟩

theorem lt_is {a b : Double L} {p q : ℚ} (ha : a.Is p) (hb : b.Is q) : Arith.lt a b = decide (p < q) := by
  have hr : Arith.lt a b = F64.lt a.raw b.raw := rfl
  rcases is_cases ha with ⟨rfl, s, hs⟩ | ⟨hp, hs⟩ <;> rcases is_cases hb with ⟨rfl, t, ht⟩ | ⟨hq, ht⟩ <;> rw [hs, ht] at hr <;>
    rw [hr] <;> rfl

theorem eq_is {a b : Double L} {p q : ℚ} (ha : a.Is p) (hb : b.Is q) : Arith.eq a b = decide (p = q) := by
  have hr : Arith.eq a b = F64.eq a.raw b.raw := rfl
  rcases is_cases ha with ⟨rfl, s, hs⟩ | ⟨hp, hs⟩ <;> rcases is_cases hb with ⟨rfl, t, ht⟩ | ⟨hq, ht⟩ <;> rw [hs, ht] at hr <;>
    rw [hr] <;> rfl

theorem le_is {a b : Double L} {p q : ℚ} (ha : a.Is p) (hb : b.Is q) : Arith.le a b = decide (p ≤ q) := by
  have hr : Arith.le a b = (Arith.lt a b || Arith.eq a b) := rfl
  rw [hr, lt_is ha hb, eq_is ha hb, ← Bool.decide_or]
  exact decide_eq_decide.mpr le_iff_lt_or_eq.symm

/-- the value `m * 10^e` of a decimal numeral -/
def decRat (m : ℕ) (e : ℤ) : ℚ := if 0 ≤ e then m * 10 ^ e.toNat else m / 10 ^ (-e).toNat

theorem decRat_eq (m : ℕ) (e : ℤ) : decRat m e = m * (10 : ℚ) ^ e := by
  unfold decRat
  split
  · rename_i h
    conv_rhs => rw [← Int.toNat_of_nonneg h]
    rw [zpow_natCast]
  · rename_i h
    have h' : e = -((-e).toNat : ℤ) := by omega
    conv_rhs => rw [h']
    rw [zpow_neg, zpow_natCast, div_eq_mul_inv]

theorem ofDec_some {m : ℕ} {e : ℤ} {v : F64} (h : F64.ofNumeral (decRat m e) = some v) :
    ∃ x : Double L, Dbl.ofDec m e = some x ∧ x.raw = v := by
  refine ⟨⟨v, F64.ok_ofNumeral h⟩, ?_, rfl⟩
  simp only [Dbl.ofDec]
  split
  · rename_i w hw
    have : some v = some w := h.symm.trans hw
    exact congrArg some (Subtype.ext (Option.some.inj this).symm)
  · rename_i hw
    exact absurd (h.symm.trans hw) (by simp)

theorem ofDec_inv {m : ℕ} {e : ℤ} {x : Double L} (h : Dbl.ofDec m e = some x) : F64.ofNumeral (decRat m e) = some x.raw := by
  simp only [Dbl.ofDec] at h
  split at h
  · rename_i w hw
    have h' := Option.some.inj h
    exact hw.trans (congrArg (fun y : Double L => some y.raw) h')
  · simp at h

end Double
end Tom
