import Verif.Lemmas.DoubleDet
import Verif.Spec.DoubleDet
/-
Rounding error of the determinant in doubles.
-/
namespace Tom

/-- the determinant of the leading block -/
def detQ (n : ℕ) (f : ℕ → ℕ → ℚ) : ℚ := (Matrix.of fun (i j : Fin n) => f i j).det

theorem sub_minor (n : ℕ) (f : ℕ → ℕ → ℚ) (k : Fin (n + 1)) :
    ((Matrix.of fun (i j : Fin (n + 1)) => f i j).submatrix Fin.succ k.succAbove) = Matrix.of fun (i j : Fin n) => minorA 0 k f i j := by
  ext a b
  simp only [Matrix.submatrix_apply, Matrix.of_apply, minorA, Nat.not_lt_zero, if_false, Fin.val_succ]
  congr 1
  unfold Fin.succAbove
  simp only [Fin.lt_def, Fin.val_castSucc]
  split <;> simp

theorem detQ_succ (n : ℕ) (f : ℕ → ℕ → ℚ) :
    detQ (n + 1) f = ∑ j ∈ Finset.range (n + 1), (-1) ^ j * f 0 j * detQ n (minorA 0 j f) := by
  unfold detQ
  rw [Matrix.det_succ_row_zero, Finset.sum_range]
  apply Finset.sum_congr rfl
  intro j _
  rw [sub_minor]
  simp only [Matrix.of_apply, Fin.val_zero]

/-- `absDet` of the leading block -/
def absD (m : ℚ) (n : ℕ) (f : ℕ → ℕ → ℚ) : ℚ := absDet m n (Matrix.of fun (i j : Fin n) => f i j)

theorem absD_one (m : ℚ) (f : ℕ → ℕ → ℚ) : absD m 1 f = |f 0 0| := by simp [absD, absDet]

theorem absD_succ (m : ℚ) (n : ℕ) (f : ℕ → ℕ → ℚ) :
    absD m (n + 2) f = ∑ j ∈ Finset.range (n + 2), (|f 0 j| * absD m (n + 1) (minorA 0 j f) + m) := by
  unfold absD
  rw [absDet, Finset.sum_range]
  apply Finset.sum_congr rfl
  intro j _
  rw [sub_minor]
  simp only [Matrix.of_apply, Fin.val_zero]

theorem absD_ge {m : ℚ} (hm : 0 ≤ m) (n : ℕ) : ∀ f, |detQ n f| ≤ absD m n f := by
  induction n with
  | zero => intro f; simp [detQ, absD, absDet]
  | succ n ih =>
    intro f
    cases n with
    | zero => simp [detQ, absD_one]
    | succ n =>
      rw [detQ_succ, absD_succ]
      refine le_trans (Finset.abs_sum_le_sum_abs _ _) (Finset.sum_le_sum fun j _ => ?_)
      rw [abs_mul, abs_mul, abs_pow, abs_neg, abs_one, one_pow, one_mul]
      have := mul_le_mul_of_nonneg_left (ih (minorA 0 j f)) (abs_nonneg (f 0 j))
      linarith

theorem absD_nonneg {m : ℚ} (hm : 0 ≤ m) (n : ℕ) (f : ℕ → ℕ → ℚ) : 0 ≤ absD m n f := le_trans (abs_nonneg _) (absD_ge hm n f)

/-- adding two sums of the same relative error -/
theorem add_same {A B x y v w K u z : ℚ} (hK : 1 ≤ K) (hu : 0 ≤ u) (hv : |v| ≤ A) (hw : |w| ≤ B)
    (hx : |x - v| ≤ (K - 1) * A) (hy : |y - w| ≤ (K - 1) * B) (hz : |z - (x + y)| ≤ u * |x + y|) :
    |z - (v + w)| ≤ (K * (1 + u) - 1) * (A + B) := by
  have h1 : |x + y - (v + w)| ≤ (K - 1) * A + (K - 1) * B := by
    rw [show x + y - (v + w) = (x - v) + (y - w) by ring]
    exact le_trans (abs_add_le _ _) (add_le_add hx hy)
  have h2 : |x + y| ≤ K * (A + B) := by
    have h3 := abs_sub_abs_le_abs_sub (x + y) (v + w)
    have h4 : |v + w| ≤ A + B := le_trans (abs_add_le _ _) (add_le_add hv hw)
    linarith
  have h3 : |z - (v + w)| ≤ |z - (x + y)| + |x + y - (v + w)| := abs_sub_le _ _ _
  have h4 : u * |x + y| ≤ u * (K * (A + B)) := mul_le_mul_of_nonneg_left h2 hu
  linarith

/-- a factor without error and one with a relative error -/
theorem mul_err {a x v A K u m z : ℚ} (hK : 1 ≤ K) (hu : 0 ≤ u) (hm : 0 ≤ m) (hv : |v| ≤ A) (hx : |x - v| ≤ (K - 1) * A)
    (hz : |z - a * x| ≤ u * (|a * x| + m)) : |z - a * v| ≤ (K * (1 + u) - 1) * (|a| * A + m) := by
  have hA : 0 ≤ A := le_trans (abs_nonneg _) hv
  have h1 : |a * x - a * v| ≤ (K - 1) * (|a| * A) := by
    rw [← mul_sub, abs_mul]
    have := mul_le_mul_of_nonneg_left hx (abs_nonneg a)
    linarith
  have h2 : |a * x| ≤ K * (|a| * A) := by
    have h3 := abs_sub_abs_le_abs_sub (a * x) (a * v)
    have h4 : |a * v| ≤ |a| * A := by rw [abs_mul]; exact mul_le_mul_of_nonneg_left hv (abs_nonneg a)
    linarith
  have h3 : |z - a * v| ≤ |z - a * x| + |a * x - a * v| := abs_sub_le _ _ _
  have h4 : u * (|a * x| + m) ≤ u * (K * (|a| * A) + m) := mul_le_mul_of_nonneg_left (by linarith) hu
  have h5 : 0 ≤ (K - 1) * (1 + u) * m := mul_nonneg (mul_nonneg (by linarith) (by linarith)) hm
  linarith

theorem detRoundings_succ (n : ℕ) : detRoundings (n + 2) = detRoundings (n + 1) + 1 + (n + 1) := by
  unfold detRoundings
  have h1 : (n + 2) * (n + 2 + 1) = (n + 1) * (n + 1 + 1) + 2 * (n + 2) := by ring
  rw [h1, Nat.add_mul_div_left _ _ (by norm_num)]
  have : 1 ≤ (n + 1) * (n + 1 + 1) / 2 := by
    rw [Nat.le_div_iff_mul_le (by norm_num)]
    nlinarith
  omega

namespace Double
variable {L : Libm}

/-- the smallest normal number, as an opaque constant for the arithmetic below -/
def tiny : ℚ := 1 / 2 ^ 1022
theorem tiny_nonneg : 0 ≤ tiny := by unfold tiny; positivity

theorem absD_le {m M : ℚ} (hm : 0 ≤ m) (hM : 1 ≤ M) (n : ℕ) : ∀ f : ℕ → ℕ → ℚ, (∀ i j, i < n → j < n → |f i j| ≤ M) →
    absD m n f ≤ n.factorial * (M + m) ^ n := by
  induction n with
  | zero => intro f _; simp [absD, absDet]
  | succ n ih =>
    intro f hf
    cases n with
    | zero =>
      rw [absD_one]
      have := hf 0 0 (by omega) (by omega)
      simp
      linarith
    | succ n =>
      rw [absD_succ]
      have hP : (1 : ℚ) ≤ (n + 1).factorial * (M + m) ^ (n + 1) := by
        have h1 : (1 : ℚ) ≤ (M + m) ^ (n + 1) := one_le_pow₀ (by linarith)
        have h2 : (1 : ℚ) ≤ (n + 1).factorial := by exact_mod_cast Nat.factorial_pos (n + 1)
        exact one_le_mul_of_one_le_of_one_le h2 h1
      have : ∀ j ∈ Finset.range (n + 2), |f 0 j| * absD m (n + 1) (minorA 0 j f) + m ≤ (M + m) * ((n + 1).factorial * (M + m) ^ (n + 1)) := by
        intro j hj
        have hj' := Finset.mem_range.mp hj
        have h1 := ih (minorA 0 j f) (fun a b ha hb => hf _ _ (minorA_lt (n := n + 2) ha) (minorA_lt (n := n + 2) hb))
        have h2 := mul_le_mul (hf 0 j (by omega) hj') h1 (absD_nonneg hm _ _) (by linarith)
        have h3 := mul_le_mul_of_nonneg_left hP hm
        linarith
      refine le_trans (Finset.sum_le_card_nsmul _ _ _ this) (le_of_eq ?_)
      rw [Finset.card_range, nsmul_eq_mul, Nat.factorial_succ (n + 1), pow_succ (M + m) (n + 1)]
      push_cast
      ring

/-- the result of a determinant computation: what a finite result says, and when it is finite -/
def DetOk (n : ℕ) (f : ℕ → ℕ → Double L) (x : Double L) : Prop :=
  (x.Finite → (∀ i j, i < n → j < n → (f i j).Finite) ∧
    |x.rat - detQ n fun i j => (f i j).rat| ≤ ((1 + unitRound) ^ detRoundings n - 1) * absD tiny n fun i j => (f i j).rat) ∧
  (∀ M : ℚ, 1 ≤ M → (∀ i j, i < n → j < n → (f i j).Finite ∧ |(f i j).rat| ≤ M) →
    (1 + unitRound) ^ detRoundings n * (n.factorial * (M + tiny) ^ n) < 2 ^ 1023 → x.Finite)

theorem rnd_fin {q B : ℚ} (h : |q| ≤ B) (hB : B < 2 ^ 1023) : |rnd q| < 2 ^ 1024 := by
  apply rnd_bound
  have h5 := lt_of_le_of_lt h hB
  have : ((|q| : ℚ) : ℝ) < ((2 ^ 1023 : ℚ) : ℝ) := by exact_mod_cast h5
  push_cast at this ⊢
  exact this

theorem growth_mono {a b : ℕ} (h : a ≤ b) : (1 + unitRound) ^ a ≤ (1 + unitRound) ^ b :=
  pow_le_pow_right₀ (by linarith [u_nonneg]) h

/-- one product of the expansion: `(±v)·d` -/
theorem det_term {n : ℕ} {g : ℕ → ℕ → Double L} {d v sg : Double L} {k : ℕ} (hsg : sg.Is ((-1) ^ k)) (h : DetOk n g d) :
    ((Arith.mul (Arith.mul sg v) d).Finite → v.Finite ∧ (∀ i j, i < n → j < n → (g i j).Finite) ∧
      |(Arith.mul (Arith.mul sg v) d).rat - (-1) ^ k * v.rat * detQ n fun i j => (g i j).rat| ≤
        ((1 + unitRound) ^ (detRoundings n + 1) - 1) * (|v.rat| * (absD tiny n fun i j => (g i j).rat) + tiny)) ∧
    (v.Finite → d.Finite → (1 + unitRound) ^ (detRoundings n + 1) * (|v.rat| * (absD tiny n fun i j => (g i j).rat) + tiny) < 2 ^ 1023 →
      (Arith.mul (Arith.mul sg v) d).Finite) := by
  have hs1 : |((-1 : ℚ)) ^ k| = 1 := by rw [abs_pow, abs_neg, abs_one, one_pow]
  have hsv : ∀ {q : ℚ}, v.Is q → rnd ((-1) ^ k * q) = (-1) ^ k * q := by
    intro q hq
    rcases neg_one_pow_eq_or ℚ k with e | e <;> rw [e]
    · rw [one_mul]; exact rnd_of_isDouble (is_double hq)
    · rw [neg_one_mul, rnd_neg, rnd_of_isDouble (is_double hq)]
  have hD := absD_ge tiny_nonneg n fun i j => (g i j).rat
  constructor
  · intro hf
    obtain ⟨p, q, h1, h2, h3, -⟩ := mul_inv hf.is
    obtain ⟨p', q', h1', h2', h3', -⟩ := mul_inv h1
    obtain ⟨h4, h5⟩ := h.1 h2.finite
    have e : p' = (-1) ^ k := by rw [← h1'.rat, hsg.rat]
    rw [e, hsv h2'] at h3'
    refine ⟨h2'.finite, h4, ?_⟩
    have := rnd_mixed' (p * q)
    rw [← h3] at this
    change _ ≤ unitRound * (_ + tiny) at this
    have h6 := mul_err (one_le_growth _) u_nonneg tiny_nonneg hD (x := q) (by rw [← h2.rat]; exact h5) this
    rw [h3', abs_mul, hs1, one_mul] at h6
    rw [h2'.rat, pow_succ (1 + unitRound)]
    exact h6
  · intro hv hd hb
    have h1 := mul_is hsg hv.is (by rw [hsv hv.is, abs_mul, hs1, one_mul]; exact isDouble_lt (is_double hv.is))
    rw [hsv hv.is] at h1
    refine (mul_is h1 hd.is (rnd_fin ?_ hb)).finite
    have h5 := (h.1 hd).2
    have h6 : |d.rat| ≤ (1 + unitRound) ^ detRoundings n * absD tiny n fun i j => (g i j).rat := by
      have := abs_sub_abs_le_abs_sub d.rat (detQ n fun i j => (g i j).rat)
      linarith
    rw [abs_mul, abs_mul, hs1, one_mul]
    have h7 := mul_le_mul_of_nonneg_left h6 (abs_nonneg v.rat)
    have h8 := growth_mono (Nat.le_succ (detRoundings n))
    have h9 := mul_le_mul_of_nonneg_right h8 (mul_nonneg (abs_nonneg v.rat) (absD_nonneg tiny_nonneg n fun i j => (g i j).rat))
    have h10 := mul_nonneg (le_trans zero_le_one (one_le_growth (detRoundings n + 1))) tiny_nonneg
    rw [mul_add]
    change _ ≤ (1 + unitRound) ^ (detRoundings n + 1) * _ at h9
    linarith

theorem det_two (f : ℕ → ℕ → Double L) : DetOk 2 f (Arith.sub (Arith.mul (f 0 0) (f 1 1)) (Arith.mul (f 1 0) (f 0 1))) := by
  have e : (detQ 2 fun i j => (f i j).rat) = (f 0 0).rat * (f 1 1).rat + -((f 1 0).rat * (f 0 1).rat) := by
    simp only [detQ, Matrix.det_fin_two, Matrix.of_apply, Fin.val_zero, Fin.val_one]
    ring
  have e' : (absD tiny 2 fun i j => (f i j).rat) = (|(f 0 0).rat * (f 1 1).rat| + tiny) + (|(f 1 0).rat * (f 0 1).rat| + tiny) := by
    rw [absD_succ, Finset.sum_range_succ, Finset.sum_range_one, absD_one, absD_one]
    simp only [minorA, Nat.not_lt_zero, if_false, zero_add, zero_lt_one, if_true, abs_mul]
    ring
  have er : detRoundings 2 = 1 + 1 := rfl
  have hm := tiny_nonneg
  have hg := one_le_growth 1
  have one : ∀ a b : ℚ, |rnd (a * b) - a * b| ≤ ((1 + unitRound) ^ 1 - 1) * (|a * b| + tiny) := by
    intro a b
    rw [pow_one, add_sub_cancel_left]
    exact rnd_mixed' _
  have big : ∀ a b : ℚ, |rnd (a * b)| ≤ (1 + unitRound) ^ 1 * (|a * b| + tiny) := by
    intro a b
    have h1 := one a b
    have h2 := abs_sub_abs_le_abs_sub (rnd (a * b)) (a * b)
    linarith
  constructor
  · intro hf
    obtain ⟨p, q, h1, h2, h3, -⟩ := sub_inv hf.is
    obtain ⟨a, d, a1, d1, p1, -⟩ := mul_inv h1
    obtain ⟨b, c', b1, c1, q1, -⟩ := mul_inv h2
    constructor
    · intro i j hi hj
      have : (i = 0 ∨ i = 1) ∧ (j = 0 ∨ j = 1) := by omega
      rcases this with ⟨rfl | rfl, rfl | rfl⟩
      · exact a1.finite
      · exact c1.finite
      · exact b1.finite
      · exact d1.finite
    · rw [e, e', er, a1.rat, d1.rat, b1.rat, c1.rat, h3, sub_eq_add_neg p q, pow_succ]
      have hr := rnd_add_rel (is_double h1) (isDouble_neg (is_double h2))
      change _ ≤ unitRound * _ at hr
      refine add_same hg u_nonneg ?_ ?_ ?_ ?_ hr
      · linarith
      · rw [abs_neg]; linarith
      · rw [p1]; exact one a d
      · rw [q1, ← neg_sub', abs_neg]; exact one b c'
  · intro M hM hf hb
    have hgr := one_le_growth (detRoundings 2)
    have a1 := (hf 0 0 (by omega) (by omega)).1.is
    have b1 := (hf 0 1 (by omega) (by omega)).1.is
    have c1 := (hf 1 0 (by omega) (by omega)).1.is
    have d1 := (hf 1 1 (by omega) (by omega)).1.is
    have hle := absD_le tiny_nonneg hM 2 (fun i j => (f i j).rat) fun i j hi hj => (hf i j hi hj).2
    rw [e'] at hle
    have hb' := lt_of_le_of_lt (mul_le_mul_of_nonneg_left hle (le_trans zero_le_one hgr)) hb
    clear hb hle
    rw [er] at hb' hgr
    have q1 := abs_nonneg ((f 0 0).rat * (f 1 1).rat)
    have q2 := abs_nonneg ((f 1 0).rat * (f 0 1).rat)
    have hg2 : (1 + unitRound) ^ 1 ≤ (1 + unitRound) ^ (1 + 1) := growth_mono (by omega)
    have s0 : (|(f 0 0).rat * (f 1 1).rat| + tiny) + (|(f 1 0).rat * (f 0 1).rat| + tiny) ≤ (1 + unitRound) ^ (1 + 1) * ((|(f 0 0).rat * (f 1 1).rat| + tiny) + (|(f 1 0).rat * (f 0 1).rat| + tiny)) :=
      le_mul_of_one_le_left (by linarith) hgr
    have m1 := mul_is a1 d1 (rnd_fin (le_trans (by linarith) s0) hb')
    have m2 := mul_is c1 b1 (rnd_fin (le_trans (by linarith) s0) hb')
    refine (sub_is m1 m2 (rnd_fin ?_ hb')).finite
    have t1 := big (f 0 0).rat (f 1 1).rat
    have t2 := big (f 1 0).rat (f 0 1).rat
    refine le_trans (abs_sub _ _) (le_trans (add_le_add t1 t2) ?_)
    rw [← mul_add]
    exact mul_le_mul_of_nonneg_right hg2 (by linarith)

theorem det_err (n : ℕ) : ∀ (r c : ℕ) (f : ℕ → ℕ → Double L), 0 < n → n ≤ r → n ≤ c →
    ∃ x, det n (Mat.mk' r c f) = .ok x ∧ DetOk n f x := by
  induction n using Nat.strong_induction_on with
  | _ n ih =>
    intro r c f h0 hr hc
    match n, ih with
    | 0, _ => omega
    | 1, _ =>
      refine ⟨f 0 0, ?_, ?_, ?_⟩
      · unfold det
        rw [value_mk' _ (by omega) (by omega)]
      · intro hf
        refine ⟨fun i j hi hj => by rw [show i = 0 by omega, show j = 0 by omega]; exact hf, ?_⟩
        simp [detQ, detRoundings]
      · intro M _ hf _
        exact (hf 0 0 (by omega) (by omega)).1
    | 2, _ =>
      refine ⟨Arith.sub (Arith.mul (f 0 0) (f 1 1)) (Arith.mul (f 1 0) (f 0 1)), ?_, ?_⟩
      · unfold det
        rw [value_mk' _ (by omega) (by omega), value_mk' _ (by omega) (by omega), value_mk' _ (by omega) (by omega),
          value_mk' _ (by omega) (by omega)]
        simp only [Res.bind_ok]
      exact det_two f
    | n + 3, ih =>
      unfold det
      rw [new_mk' (by omega) (by omega)]
      simp only [Res.bind_ok]
      let t : ℕ → ℚ := fun j => (-1) ^ j * (f 0 j).rat * detQ (n + 2) fun a b => (minorA 0 j f a b).rat
      let T : ℕ → ℚ := fun j => |(f 0 j).rat| * (absD tiny (n + 2) fun a b => (minorA 0 j f a b).rat) + tiny
      have hT : ∀ j, |t j| ≤ T j := by
        intro j
        simp only [t, T]
        rw [abs_mul, abs_mul, abs_pow, abs_neg, abs_one, one_pow, one_mul]
        have := mul_le_mul_of_nonneg_left (absD_ge tiny_nonneg (n + 2) fun a b => (minorA 0 j f a b).rat) (abs_nonneg (f 0 j).rat)
        have := tiny_nonneg
        linarith
      have hT0 : ∀ j, 0 ≤ T j := fun j => le_trans (abs_nonneg _) (hT j)
      have hst : ∀ k, |∑ j ∈ Finset.range k, t j| ≤ ∑ j ∈ Finset.range k, T j := fun k =>
        le_trans (Finset.abs_sum_le_sum_abs _ _) (Finset.sum_le_sum fun j _ => hT j)
      have hmono : ∀ k, k ≤ n + 3 → ∑ j ∈ Finset.range k, T j ≤ ∑ j ∈ Finset.range (n + 3), T j := fun k hk =>
        Finset.sum_le_sum_of_subset_of_nonneg (Finset.range_mono hk) fun j _ _ => hT0 j
      have hstep : ∀ k, k < n + 3 → ∃ x, det (n + 2) (Mat.mk' (n + 2) (n + 2) (minorA 0 k f)) = .ok x ∧ DetOk (n + 2) (minorA 0 k f) x :=
        fun k _ => ih (n + 2) (by omega) (n + 2) (n + 2) _ (by omega) le_rfl le_rfl
      have eT : (absD tiny (n + 3) fun i j => (f i j).rat) = ∑ j ∈ Finset.range (n + 3), T j := absD_succ _ _ _
      have et : (detQ (n + 3) fun i j => (f i j).rat) = ∑ j ∈ Finset.range (n + 3), t j := detQ_succ _ _
      set E : ℕ := detRoundings (n + 2) with hE
      have er : detRoundings (n + 3) = E + 1 + (n + 2) := detRoundings_succ (n + 1)
      obtain ⟨s', hs, -, hD1, hD2, -⟩ := forRes_inv (n := n + 3)
        (s := ((Mat.mk' (n + 2) (n + 2) fun _ _ => Arith.zero : Mat (Double L)), (Arith.zero : Double L), (Arith.one : Double L)))
        (f := fun (s : Mat (Double L) × Double L × Double L) j => do
          let cof ← getCofactor (Mat.mk' r c f) s.1 0 j (n + 3)
          let dt ← det (n + 2) cof
          let v ← (Mat.mk' r c f).value 0 j
          .ok (cof, Arith.add s.2.1 (Arith.mul (Arith.mul s.2.2 v) dt), Arith.neg s.2.2))
        (P := fun k s => (∃ g, s.1 = Mat.mk' (n + 2) (n + 2) g) ∧
          (s.2.1.Finite → (∀ j, j < k → (f 0 j).Finite ∧ ∀ a b, a < n + 2 → b < n + 2 → (minorA 0 j f a b).Finite) ∧
            (k = 0 → s.2.1.rat = 0) ∧
            |s.2.1.rat - ∑ j ∈ Finset.range k, t j| ≤ ((1 + unitRound) ^ (E + 1 + (k - 1)) - 1) * ∑ j ∈ Finset.range k, T j) ∧
          (∀ M : ℚ, 1 ≤ M → (∀ i j, i < n + 3 → j < n + 3 → (f i j).Finite ∧ |(f i j).rat| ≤ M) →
            (1 + unitRound) ^ (E + 1 + (n + 2)) * ((n + 3).factorial * (M + tiny) ^ (n + 3)) < 2 ^ 1023 → s.2.1.Finite) ∧
          s.2.2.Is ((-1) ^ k))
        ⟨⟨_, rfl⟩, fun _ => ⟨by intro j hj; omega, fun _ => zero_is.rat, by simp [zero_is.rat]⟩, fun _ _ _ _ => zero_is.finite,
          by simpa using oneZ_is⟩ (by
          rintro k hk ⟨_, D, sg⟩ ⟨⟨g, rfl⟩, hD1, hD2, hsg⟩
          simp only at hD1 hD2 hsg
          obtain ⟨x, hx1, hx2⟩ := hstep k hk
          have e1 : getCofactor (Mat.mk' r c f) (Mat.mk' (n + 2) (n + 2) g) 0 k (n + 3) = .ok (Mat.mk' (n + 2) (n + 2) (minorA 0 k f)) :=
            getCofactor_mk' f g (n := n + 3) (by omega) hk hr hc
          have e2 : (Mat.mk' r c f).value 0 k = .ok (f 0 k) := value_mk' _ (by omega) (by omega)
          simp only [e1, Res.bind_ok, hx1, e2]
          obtain ⟨p1, p2⟩ := det_term (v := f 0 k) hsg hx2
          set m := Arith.mul (Arith.mul sg (f 0 k)) x with hm
          have p1' : m.Finite → |m.rat - t k| ≤ ((1 + unitRound) ^ (E + 1) - 1) * T k := fun h => (p1 h).2.2
          have p2' : (f 0 k).Finite → x.Finite → (1 + unitRound) ^ (E + 1) * T k < 2 ^ 1023 → m.Finite := p2
          refine ⟨_, rfl, ⟨_, rfl⟩, ?_, ?_, ?_⟩
          · intro hf
            obtain ⟨p, q, h1, h2, h3, -⟩ := add_inv hf.is
            obtain ⟨q1, q2, q3⟩ := hD1 h1.finite
            obtain ⟨r1, r2, -⟩ := p1 h2.finite
            have r3 := p1' h2.finite
            refine ⟨?_, by omega, ?_⟩
            · intro j hj
              rcases Nat.lt_succ_iff_lt_or_eq.mp hj with hj | rfl
              · exact q1 j hj
              · exact ⟨r1, r2⟩
            · rw [Finset.sum_range_succ, Finset.sum_range_succ, h3]
              rw [h1.rat] at q2 q3
              rw [h2.rat] at r3
              rcases Nat.eq_zero_or_pos k with hk0 | hk0
              · subst hk0
                rw [q2 rfl, zero_add, rnd_of_isDouble (is_double h2)]
                simpa using r3
              · have hr := rnd_add_rel (is_double h1) (is_double h2)
                change _ ≤ unitRound * _ at hr
                have e3 : E + 1 + (k + 1 - 1) = E + 1 + (k - 1) + 1 := by omega
                rw [e3, pow_succ]
                refine add_same (one_le_growth _) u_nonneg (hst k) (hT k) q3 (le_trans r3 ?_) hr
                have := growth_mono (show E + 1 ≤ E + 1 + (k - 1) by omega)
                exact mul_le_mul_of_nonneg_right (by linarith) (hT0 k)
          · intro M hM hf hb
            have fD := hD2 M hM hf hb
            have hTk : T k ≤ ∑ j ∈ Finset.range (n + 3), T j :=
              Finset.single_le_sum (f := T) (fun i _ => hT0 i) (Finset.mem_range.mpr hk)
            have hgr := growth_mono (show E + 1 ≤ E + 1 + (n + 2) by omega)
            have g1 := one_le_growth (E + 1)
            have hle := absD_le tiny_nonneg hM (n + 3) (fun i j => (f i j).rat) fun i j hi hj => (hf i j hi hj).2
            rw [eT] at hle
            have hb0 : (1 + unitRound) ^ (E + 1 + (n + 2)) * ∑ j ∈ Finset.range (n + 3), T j < 2 ^ 1023 :=
              lt_of_le_of_lt (mul_le_mul_of_nonneg_left hle (by linarith)) hb
            have hb1 : (1 + unitRound) ^ (E + 1) * T k < 2 ^ 1023 := by
              refine lt_of_le_of_lt ?_ hb0
              exact mul_le_mul hgr hTk (hT0 k) (by linarith)
            have fx : x.Finite := by
              refine hx2.2 M hM (fun i j hi hj => hf _ _ (minorA_lt (n := n + 3) hi) (minorA_lt (n := n + 3) hj)) (lt_of_le_of_lt ?_ hb)
              have h1 := growth_mono (show E ≤ E + 1 + (n + 2) by omega)
              refine mul_le_mul h1 ?_ ?_ (by linarith)
              · have h2 : ((n + 2).factorial : ℚ) ≤ (n + 3).factorial := by exact_mod_cast Nat.factorial_le (by omega)
                have h3 : (M + tiny) ^ (n + 2) ≤ (M + tiny) ^ (n + 3) :=
                  pow_le_pow_right₀ (by linarith [tiny_nonneg]) (by omega)
                exact mul_le_mul h2 h3 (pow_nonneg (by linarith [tiny_nonneg]) _) (by positivity)
              · exact mul_nonneg (by positivity) (pow_nonneg (by linarith [tiny_nonneg]) _)
            have fm := p2' (hf 0 k (by omega) hk).1 fx hb1
            refine (add_is fD.is fm.is (rnd_fin ?_ hb0)).finite
            have q3 := (hD1 fD).2.2
            have r3 := p1' fm
            have g2 := growth_mono (show E + 1 + (k - 1) ≤ E + 1 + (n + 2) by omega)
            have u1 := abs_sub_abs_le_abs_sub D.rat (∑ j ∈ Finset.range k, t j)
            have u2 := abs_sub_abs_le_abs_sub m.rat (t k)
            have u3 := hst k
            have u4 := hT k
            have u5 := hmono (k + 1) (by omega)
            rw [Finset.sum_range_succ] at u5
            have pos : 0 ≤ ∑ j ∈ Finset.range k, T j := Finset.sum_nonneg fun j _ => hT0 j
            have v1 := mul_le_mul_of_nonneg_right g2 pos
            have v2 := mul_le_mul_of_nonneg_right hgr (hT0 k)
            have v3 := mul_le_mul_of_nonneg_left u5 (le_trans (by linarith : (0 : ℚ) ≤ (1 + unitRound) ^ (E + 1)) hgr)
            have v4 := abs_add_le D.rat m.rat
            clear hb hb0 hb1 hle
            linarith
          · have := neg_is hsg
            rw [pow_succ, mul_neg_one]
            exact this)
      rw [hs]
      simp only [Res.bind_ok]
      refine ⟨_, rfl, ?_, ?_⟩
      · intro hf
        obtain ⟨q1, -, q3⟩ := hD1 hf
        refine ⟨?_, ?_⟩
        · intro i j hi hj
          rcases Nat.eq_zero_or_pos i with rfl | hi0
          · exact (q1 j hj).1
          · rcases Nat.eq_zero_or_pos j with rfl | hj0
            · have := (q1 1 (by omega)).2 (i - 1) 0 (by omega) (by omega)
              simpa [minorA, Nat.sub_add_cancel hi0] using this
            · have := (q1 0 (by omega)).2 (i - 1) (j - 1) (by omega) (by omega)
              simpa [minorA, Nat.sub_add_cancel hi0, Nat.sub_add_cancel hj0] using this
        · rw [er, eT, et]; exact q3
      · intro M hM hf hb
        rw [er] at hb
        exact hD2 M hM hf hb

end Double
end Tom
