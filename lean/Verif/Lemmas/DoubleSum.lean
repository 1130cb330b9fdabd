import Verif.Lemmas.SumOrder
import Verif.Spec.DoubleSum
import Verif.Props.Rounding
import Verif.Model.Mat
namespace Tom
namespace Double
variable {L : Libm}

theorem Finite.is {x : Double L} (h : x.Finite) : x.Is x.rat := ⟨h, rfl⟩
theorem Is.finite {x : Double L} {p : ℚ} (h : x.Is p) : x.Finite := h.1
theorem Is.rat {x : Double L} {p : ℚ} (h : x.Is p) : x.rat = p := h.2

theorem u_nonneg : (0 : ℚ) ≤ unitRound := by norm_num [unitRound]

theorem one_le_growth (n : ℕ) : (1 : ℚ) ≤ (1 + unitRound) ^ n := one_le_pow₀ (by linarith [u_nonneg])

theorem zero_is : (Arith.zero : Double L).Is 0 := is_zero (s := false) rfl

theorem abs_sum_le (l : List ℚ) : |l.sum| ≤ (l.map abs).sum := by
  induction l with
  | nil => simp
  | cons a l ih =>
    simp only [List.sum_cons, List.map_cons]
    exact le_trans (abs_add_le _ _) (by linarith)

theorem abs_sum_nonneg (l : List ℚ) : 0 ≤ (l.map abs).sum := le_trans (abs_nonneg _) (abs_sum_le l)

/-- the sum in any order, if it is finite -/
theorem someOrder_bound {xs : List (Double L)} {s : Double L} (h : SomeOrder xs s) (hs : s.Finite) :
    (∀ x ∈ xs, x.Finite) ∧ (xs = [] → s.rat = 0) ∧
    |s.rat - (xs.map rat).sum| ≤ ((1 + unitRound) ^ (xs.length - 1) - 1) * ((xs.map rat).map abs).sum := by
  induction h with
  | none => exact ⟨by simp, fun _ => zero_is.rat, by simp [zero_is.rat]⟩
  | one x => exact ⟨by simpa using hs, by simp, by simp⟩
  | @add xs ys zs x y hx hy hp ihx ihy =>
    obtain ⟨p, q, h1, h2, h3, -⟩ := add_inv hs.is
    obtain ⟨a1, a2, a3⟩ := ihx h1.finite
    obtain ⟨b1, b2, b3⟩ := ihy h2.finite
    rw [h1.rat] at a2 a3
    rw [h2.rat] at b2 b3
    have hr := rnd_add_rel (is_double h1) (is_double h2)
    rw [← h3] at hr
    have e1 : (zs.map rat).sum = (xs.map rat).sum + (ys.map rat).sum := by
      rw [(hp.map rat).sum_eq, List.map_append, List.sum_append]
    have e2 : ((zs.map rat).map abs).sum = ((xs.map rat).map abs).sum + ((ys.map rat).map abs).sum := by
      rw [((hp.map rat).map abs).sum_eq, List.map_append, List.map_append, List.sum_append]
    have e3 : zs.length = xs.length + ys.length := by rw [hp.length_eq, List.length_append]
    refine ⟨?_, ?_, ?_⟩
    · intro z hz
      rcases List.mem_append.mp (hp.mem_iff.mp hz) with hz | hz
      · exact a1 z hz
      · exact b1 z hz
    · intro hz
      subst hz
      have : xs = [] ∧ ys = [] := by simpa using hp.symm.eq_nil
      rw [h3, a2 this.1, b2 this.2, add_zero, rnd_zero]
    · rw [e1, e2, e3]
      by_cases hx0 : xs = []
      · subst hx0
        rw [a2 rfl, zero_add, rnd_of_isDouble (is_double h2)] at h3
        rw [h3]
        simpa using b3
      by_cases hy0 : ys = []
      · subst hy0
        rw [b2 rfl, add_zero, rnd_of_isDouble (is_double h1)] at h3
        rw [h3]
        simpa using a3
      have l1 : 0 < xs.length := List.length_pos_iff.mpr hx0
      have l2 : 0 < ys.length := List.length_pos_iff.mpr hy0
      have e4 : xs.length + ys.length - 1 = (xs.length - 1) + (ys.length - 1) + 1 := by omega
      rw [e4, pow_succ, pow_add]
      exact add_growth (one_le_growth _) (one_le_growth _) u_nonneg (abs_sum_le _) (abs_sum_le _) a3 b3 hr

/-- the sum in any order is finite if the numbers are and the sum of their absolute values is not too large -/
theorem someOrder_finite {xs : List (Double L)} {s : Double L} (h : SomeOrder xs s) (hx : ∀ x ∈ xs, x.Finite)
    (hb : (1 + unitRound) ^ xs.length * ((xs.map rat).map abs).sum < 2 ^ 1023) : s.Finite := by
  induction h with
  | none => exact zero_is.finite
  | one x => exact hx x (by simp)
  | @add xs ys zs x y sx sy hp ihx ihy =>
    have e2 : ((zs.map rat).map abs).sum = ((xs.map rat).map abs).sum + ((ys.map rat).map abs).sum := by
      rw [((hp.map rat).map abs).sum_eq, List.map_append, List.map_append, List.sum_append]
    have e3 : zs.length = xs.length + ys.length := by rw [hp.length_eq, List.length_append]
    have nx := abs_sum_nonneg (xs.map rat)
    have ny := abs_sum_nonneg (ys.map rat)
    have g : ∀ {a b : ℕ}, a ≤ b → (1 + unitRound) ^ a ≤ (1 + unitRound) ^ b := fun h =>
      pow_le_pow_right₀ (by linarith [u_nonneg]) h
    rw [e2, e3, mul_add] at hb
    have gx := mul_le_mul_of_nonneg_right (g (by omega : xs.length ≤ xs.length + ys.length)) nx
    have gy := mul_le_mul_of_nonneg_right (g (by omega : ys.length ≤ xs.length + ys.length)) ny
    have px := mul_nonneg (le_trans zero_le_one (one_le_growth (xs.length + ys.length))) nx
    have py := mul_nonneg (le_trans zero_le_one (one_le_growth (xs.length + ys.length))) ny
    have fx := ihx (fun z hz => hx z (hp.mem_iff.mpr (List.mem_append_left _ hz))) (by linarith)
    have fy := ihy (fun z hz => hx z (hp.mem_iff.mpr (List.mem_append_right _ hz))) (by linarith)
    obtain ⟨-, -, ax⟩ := someOrder_bound sx fx
    obtain ⟨-, -, ay⟩ := someOrder_bound sy fy
    have mx := mul_le_mul_of_nonneg_right (g (by omega : xs.length - 1 ≤ xs.length + ys.length)) nx
    have my := mul_le_mul_of_nonneg_right (g (by omega : ys.length - 1 ≤ xs.length + ys.length)) ny
    have tx := abs_sum_le (xs.map rat)
    have ty := abs_sum_le (ys.map rat)
    have bx : |x.rat| ≤ (1 + unitRound) ^ (xs.length + ys.length) * ((xs.map rat).map abs).sum := by
      have := abs_sub_abs_le_abs_sub x.rat (xs.map rat).sum
      linarith
    have by' : |y.rat| ≤ (1 + unitRound) ^ (xs.length + ys.length) * ((ys.map rat).map abs).sum := by
      have := abs_sub_abs_le_abs_sub y.rat (ys.map rat).sum
      linarith
    have hlt : |x.rat + y.rat| < 2 ^ 1023 := lt_of_le_of_lt (abs_add_le _ _) (by linarith)
    refine (add_is fx.is fy.is (rnd_bound ?_)).finite
    have : ((|x.rat + y.rat| : ℚ) : ℝ) < ((2 ^ 1023 : ℚ) : ℝ) := by exact_mod_cast hlt
    push_cast at this ⊢
    exact this

/-- `valarray::sum` adds up in some order -/
theorem sumV_someOrder {xs : List (Double L)} {s : Double L} (h : sumV xs = .ok s) : SomeOrder xs s := by
  replace h := sumV_addsUp h
  induction h with
  | one x => exact .one x
  | add _ _ hp ihx ihy => exact .add ihx ihy hp

/-- the sum of rounded products, in any order -/
theorem someOrder_products {as bs : List (Double L)} (hl : as.length = bs.length) {s : Double L}
    (h : SomeOrder (List.zipWith Arith.mul as bs) s) (hs : s.Finite) :
    (∀ p ∈ as.zip bs, p.1.Finite ∧ p.2.Finite) ∧
    |s.rat - ((as.zip bs).map fun p => p.1.rat * p.2.rat).sum| ≤
      ((1 + unitRound) ^ as.length - 1) * ((as.zip bs).map fun p => |p.1.rat * p.2.rat| + 1 / 2 ^ 1022).sum := by
  obtain ⟨h1, h2, h3⟩ := someOrder_bound h hs
  have hz : List.zipWith Arith.mul as bs = (as.zip bs).map fun p => Arith.mul p.1 p.2 := by
    rw [List.zip, List.map_zipWith]
  have hlen : (List.zipWith Arith.mul as bs).length = as.length := by simp [hl]
  rw [hlen] at h3
  rw [hz] at h1 h2 h3
  have hlen' : (as.zip bs).length = as.length := by simp [hl]
  clear hz hlen h
  generalize as.zip bs = ps at *
  have fin : ∀ p ∈ ps, p.1.Finite ∧ p.2.Finite ∧ |(Arith.mul p.1 p.2 : Double L).rat - p.1.rat * p.2.rat| ≤
      unitRound * (|p.1.rat * p.2.rat| + 1 / 2 ^ 1022) := by
    intro p hp
    have := h1 (Arith.mul p.1 p.2) (List.mem_map.mpr ⟨p, hp, rfl⟩)
    obtain ⟨a, b, e1, e2, e3, -⟩ := mul_inv this.is
    refine ⟨e1.finite, e2.finite, ?_⟩
    rw [e3, e1.rat, e2.rat]
    exact rnd_mixed' _
  refine ⟨fun p hp => ⟨(fin p hp).1, (fin p hp).2.1⟩, ?_⟩
  have d1 : |((ps.map fun p => (Arith.mul p.1 p.2 : Double L)).map rat).sum - (ps.map fun p => p.1.rat * p.2.rat).sum| ≤
      unitRound * (ps.map fun p => |p.1.rat * p.2.rat| + 1 / 2 ^ 1022).sum := by
    clear h1 h2 h3 hlen'
    induction ps with
    | nil => simp
    | cons p ps ih =>
      simp only [List.map_cons, List.sum_cons]
      have i1 := ih (fun p hp => fin p (List.mem_cons_of_mem _ hp))
      have i2 := (fin p (List.mem_cons_self)).2.2
      generalize (1 : ℚ) / 2 ^ 1022 = m at *
      rw [add_sub_add_comm, mul_add]
      exact le_trans (abs_add_le _ _) (add_le_add i2 i1)
  have d2 : (((ps.map fun p => (Arith.mul p.1 p.2 : Double L)).map rat).map abs).sum ≤
      (1 + unitRound) * (ps.map fun p => |p.1.rat * p.2.rat| + 1 / 2 ^ 1022).sum := by
    have hm : (0 : ℚ) ≤ 1 / 2 ^ 1022 := by positivity
    generalize (1 : ℚ) / 2 ^ 1022 = m at *
    clear h1 h2 h3 hlen' d1
    induction ps with
    | nil => simp
    | cons p ps ih =>
      simp only [List.map_cons, List.sum_cons]
      have i1 := ih (fun p hp => fin p (List.mem_cons_of_mem _ hp))
      have i2 := (fin p (List.mem_cons_self)).2.2
      have i3 := abs_sub_abs_le_abs_sub (Arith.mul p.1 p.2 : Double L).rat (p.1.rat * p.2.rat)
      have hu := u_nonneg
      rw [mul_add]
      nlinarith
  have hS : 0 ≤ (ps.map fun p => |p.1.rat * p.2.rat| + 1 / 2 ^ 1022).sum := by
    apply List.sum_nonneg
    intro x hx
    obtain ⟨p, -, rfl⟩ := List.mem_map.mp hx
    positivity
  rcases Nat.eq_zero_or_pos as.length with h0 | h0
  · have : ps = [] := List.length_eq_zero_iff.mp (hlen'.trans h0)
    subst this
    rw [h2 rfl]
    simp
  · generalize (1 : ℚ) / 2 ^ 1022 = m at *
    have e : (1 + unitRound) ^ as.length = (1 + unitRound) ^ (as.length - 1) * (1 + unitRound) := by
      rw [← pow_succ]; congr 1; omega
    have hg := one_le_growth (as.length - 1)
    rw [e]
    have := abs_sub_le s.rat ((ps.map fun p => (Arith.mul p.1 p.2 : Double L)).map rat).sum (ps.map fun p => p.1.rat * p.2.rat).sum
    have h4 := mul_le_mul_of_nonneg_left d2 (by linarith : (0 : ℚ) ≤ (1 + unitRound) ^ (as.length - 1) - 1)
    linarith

end Double
end Tom
