import Verif.Props.VarsTable
import Verif.Props.IeeeUnderflow
import Verif.Lemmas.DoubleSum
/-
Equality of tables of variables with `double` values.
-/
namespace Tom
variable {L : Libm}

namespace F64

theorem abs_round (z : Bool) (q : ℚ) : abs (round z q) = abs (round z (-q)) := by
  rw [round_eq, round_eq, rnd_neg, abs_neg]
  by_cases h1 : q = 0
  · rw [if_pos h1, if_pos (by rw [h1, neg_zero])]
  · rw [if_neg h1, if_neg (neg_ne_zero.mpr h1)]
    by_cases h2 : rnd q = 0
    · rw [if_pos h2, if_pos (by rw [h2, neg_zero])]; rfl
    · rw [if_neg h2, if_neg (neg_ne_zero.mpr h2)]
      split
      · rfl
      · simp only [abs]
        congr 1
        rcases lt_or_gt_of_ne h2 with h | h
        · rw [if_pos h, if_neg (by linarith)]
        · rw [if_neg (by linarith), if_pos (by linarith), neg_neg]

/-- `|a - b|` and `|b - a|` are the same datum, whatever `a` and `b` are. -/
theorem abs_sub_comm (a b : F64) : abs (sub a b) = abs (sub b a) := by
  cases a <;> cases b <;> try rfl
  case inf.inf s t => rcases s <;> rcases t <;> rfl
  case zero.num s q => 
    simp only [sub, neg, add, abs, neg_neg]
    congr 1
    rcases lt_trichotomy q 0 with h | h | h
    · rw [if_pos h, if_neg (show ¬ -q < 0 by linarith)]
    · subst h; simp
    · rw [if_neg (show ¬ q < 0 by linarith), if_pos (show -q < 0 by linarith)]
  case num.zero q s => 
    simp only [sub, neg, add, abs, neg_neg]
    congr 1
    rcases lt_trichotomy q 0 with h | h | h
    · rw [if_pos h, if_neg (show ¬ -q < 0 by linarith)]
    · subst h; simp
    · rw [if_neg (show ¬ q < 0 by linarith), if_pos (show -q < 0 by linarith)]
  case num.num p q =>
    simp only [sub, neg, add]
    rw [abs_round]
    congr 2
    ring

end F64

namespace Double

/-- C54 with doubles: equality is symmetric, whatever the values are (also infinities and NaNs) and whatever epsilon is. -/
theorem C54_ieee_symm (eps : Double L) {a b : VarsTable (Double L)} (ha : a.Reachable) (hb : b.Reachable) :
    VarsTable.eq eps a b = VarsTable.eq eps b a := by
  obtain ⟨r, h1, h2⟩ := C54_meaning eps ha hb
  obtain ⟨s, h3, h4⟩ := C54_meaning eps hb ha
  rw [h1, h3]
  congr 1
  rw [Bool.eq_iff_iff, h2, h4]
  have key : ∀ u v : Double L, Arith.abs (Arith.sub u v) = Arith.abs (Arith.sub v u) :=
    fun u v => Double.ext (F64.abs_sub_comm u.raw v.raw)
  constructor
  · rintro ⟨h5, h6⟩
    exact ⟨fun x => (h5 x).symm, fun x u v hu hv => key v u ▸ h6 x v u hv hu⟩
  · rintro ⟨h5, h6⟩
    exact ⟨fun x => (h5 x).symm, fun x u v hu hv => key v u ▸ h6 x v u hv hu⟩

theorem le_inf (s : Bool) {x eps : Double L} {e : ℚ} (he : eps.Is e) (hx : x.raw = .inf s) : Arith.le (Arith.abs x) eps = false := by
  have hr : Arith.le (Arith.abs x) eps = F64.le (F64.abs x.raw) eps.raw := rfl
  rw [hr, hx]
  rcases is_cases he with ⟨rfl, t, ht⟩ | ⟨hp, ht⟩ <;> rw [ht] <;> rfl

theorem le_nan {x eps : Double L} (hx : x.raw = .nan) : Arith.le (Arith.abs x) eps = false := by
  have hr : Arith.le (Arith.abs x) eps = F64.le (F64.abs x.raw) eps.raw := rfl
  rw [hr, hx]
  rfl

/-- C54 with doubles: `t == t` is true exactly if all values of `t` are finite (for a finite epsilon that is not negative). -/
theorem C54_ieee_refl (eps : Double L) {e : ℚ} (he : eps.Is e) (he0 : 0 ≤ e) {t : VarsTable (Double L)} (ht : t.Reachable) :
    ∃ r, VarsTable.eq eps t t = .ok r ∧ (r = true ↔ ∀ x u, t.get x = .ok u → u.Finite) := by
  obtain ⟨r, h1, h2⟩ := C54_meaning eps ht ht
  refine ⟨r, h1, h2.trans ⟨fun ⟨_, h⟩ x u hu => ?_, fun h => ⟨fun _ => Iff.rfl, fun x u v hu hv => ?_⟩⟩⟩
  · have hle := h x u u hu hu
    by_contra hf
    have hs : (Arith.sub u u : Double L).raw = F64.sub u.raw u.raw := rfl
    have : (Arith.sub u u : Double L).raw = .nan := by
      rw [hs]
      unfold Finite at hf
      cases hu : u.raw with
      | nan => rfl
      | inf s => cases s <;> rfl
      | zero s => rw [hu] at hf; exact absurd rfl hf
      | num q => rw [hu] at hf; exact absurd rfl hf
    rw [le_nan this] at hle
    cases hle
  · rw [hu, Res.ok.injEq] at hv
    subst hv
    have hd := (h x u hu).is
    have hz := sub_is hd hd (by rw [sub_self, rnd_zero, abs_zero]; positivity)
    rw [sub_self, rnd_zero] at hz
    rw [le_is (abs_is hz) he, abs_zero]
    simpa using he0

/-- a difference that is too large is infinite -/
theorem sub_inf {u v : Double L} (hu : u.Finite) (hv : v.Finite) (big : 2 ^ 1024 ≤ |rnd (u.rat - v.rat)|) :
    ∃ s, (Arith.sub u v : Double L).raw = .inf s := by
  have hsr : (Arith.sub u v : Double L).raw = F64.sub u.raw v.raw := rfl
  have hpd := is_double hu.is
  have hqd := is_double hv.is
  rw [hsr]
  rcases is_cases hu.is with ⟨e1, s, h6⟩ | ⟨e1, h6⟩ <;> rcases is_cases hv.is with ⟨e2, t, h7⟩ | ⟨e2, h7⟩
  · rw [e1, e2, sub_zero, rnd_zero, abs_zero] at big; exact absurd big (not_le.mpr (by positivity))
  · rw [e1, zero_sub, rnd_neg, abs_neg, rnd_of_isDouble hqd] at big; exact absurd (isDouble_lt hqd) (not_lt.mpr big)
  · rw [e2, sub_zero, rnd_of_isDouble hpd] at big; exact absurd (isDouble_lt hpd) (not_lt.mpr big)
  · rw [h6, h7]
    have hne : rnd (u.rat - v.rat) ≠ 0 := by
      intro h0; rw [h0, abs_zero] at big; exact absurd big (not_le.mpr (by positivity))
    have hne' : u.rat - v.rat ≠ 0 := by intro h0; rw [h0] at hne; exact hne rnd_zero
    simp only [F64.sub, F64.neg, F64.add]
    rw [← sub_eq_add_neg, round_eq, if_neg hne', if_neg hne, if_pos big]
    exact ⟨_, rfl⟩

/-- C54 with doubles: what `==` means for tables of finite values.  Differences of at most epsilon count as equal; values that count as
equal differ by at most epsilon, up to the rounding of their difference. -/
theorem C54_ieee_meaning (eps : Double L) {e : ℚ} (he : eps.Is e) {a b : VarsTable (Double L)} (ha : a.Reachable) (hb : b.Reachable)
    (fa : ∀ x u, a.get x = .ok u → u.Finite) (fb : ∀ x u, b.get x = .ok u → u.Finite) :
    ∃ r, VarsTable.eq eps a b = .ok r ∧
      ((∀ x, x ∈ a.vars ↔ x ∈ b.vars) →
        (∀ x u v, a.get x = .ok u → b.get x = .ok v → |u.rat - v.rat| ≤ e) → r = true) ∧
      (r = true → (∀ x, x ∈ a.vars ↔ x ∈ b.vars) ∧
        ∀ x u v, a.get x = .ok u → b.get x = .ok v → |u.rat - v.rat| * (1 - 1 / 2 ^ 53) ≤ e) := by
  obtain ⟨r, h1, h2⟩ := C54_meaning eps ha hb
  refine ⟨r, h1, fun hv h => h2.mpr ⟨hv, fun x u v hu hw => ?_⟩, fun hr => ?_⟩
  · have hd := h x u v hu hw
    have hle : |rnd (u.rat - v.rat)| ≤ e := abs_rnd_le _ _ ((isDouble_iff _).mp (is_double he)).1 hd
    have hs := sub_is (fa x u hu).is (fb x v hw).is (lt_of_le_of_lt hle (lt_of_le_of_lt (le_abs_self e) (isDouble_lt (is_double he))))
    rw [le_is (abs_is hs) he]
    simpa using hle
  · obtain ⟨h3, h4⟩ := h2.mp hr
    refine ⟨h3, fun x u v hu hw => ?_⟩
    have h5 := h4 x u v hu hw
    have hpd := is_double (fa x u hu).is
    have hqd := is_double (fb x v hw).is
    by_cases hlt : |rnd (u.rat - v.rat)| < 2 ^ 1024
    · have hs := sub_is (fa x u hu).is (fb x v hw).is hlt
      rw [le_is (abs_is hs) he, decide_eq_true_eq] at h5
      have hrel := rnd_add_rel hpd (isDouble_neg hqd)
      rw [← sub_eq_add_neg] at hrel
      have := abs_sub_abs_le_abs_sub (u.rat - v.rat) (rnd (u.rat - v.rat))
      rw [abs_sub_comm (u.rat - v.rat)] at this
      change |rnd (u.rat - v.rat) - (u.rat - v.rat)| ≤ 1 / 2 ^ 53 * |u.rat - v.rat| at hrel
      linarith
    · exfalso
      obtain ⟨s, hs⟩ := sub_inf (fa x u hu) (fb x v hw) (not_lt.mp hlt)
      rw [le_inf s he hs] at h5
      cases h5

/-! ### not an equivalence relation; the hypotheses are met -/

/-- a table with one variable -/
def one (v : Double libm0) : VarsTable (Double libm0) := ⟨[['x']], ⟨1, 1, [v]⟩, [(['x'], v)]⟩

theorem one_reachable (v : Double libm0) : (one v).Reachable := .ofList (l := [(['x'], v)]) rfl

/-- C54 with doubles: a table with an infinite value is not equal to itself. -/
theorem C54_ieee_false_refl : (one Dbl.inf).Reachable ∧ VarsTable.eq config.epsilon (one Dbl.inf) (one Dbl.inf) = .ok false :=
  ⟨one_reachable _, by decide +kernel⟩

/-- C54 with doubles: equality is not transitive in the default configuration. -/
theorem C54_ieee_not_transitive : ∃ a b c : VarsTable (Double libm0), a.Reachable ∧ b.Reachable ∧ c.Reachable ∧
    VarsTable.eq config.epsilon a b = .ok true ∧ VarsTable.eq config.epsilon b c = .ok true ∧
    VarsTable.eq config.epsilon a c = .ok false :=
  ⟨one (near libm0 0), one (near libm0 (1 / 1000000000)), one (near libm0 (2 / 1000000000)), one_reachable _, one_reachable _,
    one_reachable _, by decide +kernel, by decide +kernel, by decide +kernel⟩

example : ∃ e : ℚ, config.epsilon.Is e ∧ 0 ≤ e := ⟨config.epsilon.raw.toRat, ⟨by decide +kernel, rfl⟩, by decide +kernel⟩

example : (one (near libm0 3)).Reachable ∧ ∀ x u, (one (near libm0 3)).get x = .ok u → u.Finite := by
  refine ⟨one_reachable _, fun x u h => ?_⟩
  unfold VarsTable.get one at h
  simp only [mapFind] at h
  split_ifs at h with hx
  rw [Res.ok.injEq] at h; subst h; show F64.isInvalid _ = _; decide +kernel

end Double
end Tom
