import Verif.Props.RoundedNewton
import Verif.Lemmas.RoundedLM
import Verif.Spec.SquareRoot
/-
Newton's method with doubles for `x x - a`: one step, with rounding errors.
-/
set_option linter.unusedSectionVars false
namespace Tom
namespace Double
variable {L : Libm}

/-- one step of Newton's method for `x^2 - a`, with relative errors `t` -/
theorem heron_err {x a S F J Q X t : ℚ} (ht0 : 0 ≤ t) (ht : t ≤ 1 / 10 ^ 4) (hx : x ≠ 0) (ha : 0 ≤ a)
    (hS : |S - x ^ 2| ≤ t * x ^ 2) (hF : |F - (S - a)| ≤ t * |S - a|) (hJ : |J - 2 * x| ≤ t * |2 * x|)
    (hQ : |Q - -F / J| ≤ t * |-F / J|) (hX : |X - (x + Q)| ≤ t * |x + Q|) :
    |X ^ 2 - ((x ^ 2 + a) / (2 * x)) ^ 2| ≤ 16 * t * ((x ^ 2 + a) / (2 * x)) ^ 2 ∧ 0 < x * X := by
  set y := x ^ 2 + a with hy
  have hx2 : 0 < x ^ 2 := by positivity
  have hy0 : 0 < y := by linarith
  have hxy : x ^ 2 ≤ y := by linarith
  have hE : |x ^ 2 - a| ≤ y := by rw [abs_le]; constructor <;> linarith
  set E := x ^ 2 - a with hEd
  have h1 : |S - a| ≤ y + t * y := by
    have e : S - a = (S - x ^ 2) + E := by rw [hEd]; ring
    rw [e]
    refine (abs_add_le _ _).trans ?_
    nlinarith
  have h2 : |F - E| ≤ 21 / 10 * t * y := by
    have e : F - E = (F - (S - a)) + (S - x ^ 2) := by rw [hEd]; ring
    rw [e]
    refine (abs_add_le _ _).trans ?_
    have k1 := mul_le_mul_of_nonneg_left h1 ht0
    have k2 := mul_le_mul_of_nonneg_left hxy ht0
    have k3 : t * (t * y) ≤ 1 / 10 ^ 4 * (t * y) := mul_le_mul_of_nonneg_right ht (by positivity)
    have k4 : 0 ≤ t * y := by positivity
    linarith
  have hty : 0 ≤ t * y := by positivity
  have hty' : t * y ≤ 1 / 10 ^ 4 * y := mul_le_mul_of_nonneg_right ht hy0.le
  have h3 : |F| ≤ 1001 / 1000 * y := by
    have := abs_sub_abs_le_abs_sub F E
    linarith
  have hJ0 : J ≠ 0 := by
    rintro rfl
    rw [zero_sub, abs_neg] at hJ
    have : 0 < |2 * x| := abs_pos.mpr (by positivity)
    nlinarith
  have hJp : 0 < |J| := abs_pos.mpr hJ0
  have h4 : |Q * J + F| ≤ t * |F| := by
    have e : Q * J + F = (Q - -F / J) * J := by field_simp; ring
    rw [e, abs_mul]
    refine (mul_le_mul_of_nonneg_right hQ hJp.le).trans (le_of_eq ?_)
    rw [abs_div, abs_neg]; field_simp
  have h5 : |Q * J| ≤ (1 + t) * |F| := by
    have := abs_sub_abs_le_abs_sub (Q * J) (-F)
    rw [abs_neg, sub_neg_eq_add] at this
    linarith
  have h6 : (1 - t) * (|Q * (2 * x)|) ≤ |Q * J| := by
    have e : Q * J = Q * (2 * x) + Q * (J - 2 * x) := by ring
    have k := abs_sub_abs_le_abs_sub (Q * (2 * x)) (Q * (2 * x) - Q * J)
    have e2 : Q * (2 * x) - (Q * (2 * x) - Q * J) = Q * J := by ring
    rw [e2] at k
    have e3 : |Q * (2 * x) - Q * J| ≤ t * |Q * (2 * x)| := by
      rw [← mul_sub, abs_mul, abs_mul, abs_sub_comm]
      have := mul_le_mul_of_nonneg_left hJ (abs_nonneg Q)
      linarith
    linarith
  have h7 : |Q * (2 * x)| ≤ 1001 / 1000 * |F| := by
    have hF0 := abs_nonneg F
    have hQ0 := abs_nonneg (Q * (2 * x))
    have k1 : t * |F| ≤ 1 / 10 ^ 4 * |F| := mul_le_mul_of_nonneg_right ht hF0
    have k2 : t * |Q * (2 * x)| ≤ 1 / 10 ^ 4 * |Q * (2 * x)| := mul_le_mul_of_nonneg_right ht hQ0
    linarith
  have h8 : |Q * (2 * x) + E| ≤ 42 / 10 * t * y := by
    have e : Q * (2 * x) + E = (Q * J + F) - Q * (J - 2 * x) - (F - E) := by ring
    rw [e]
    have k1 := abs_sub (Q * J + F - Q * (J - 2 * x)) (F - E)
    have k2 := abs_sub (Q * J + F) (Q * (J - 2 * x))
    have k3 : |Q * (J - 2 * x)| ≤ t * |Q * (2 * x)| := by
      rw [abs_mul, abs_mul]
      have := mul_le_mul_of_nonneg_left hJ (abs_nonneg Q)
      linarith
    have k4 := mul_le_mul_of_nonneg_left h7 ht0
    have k5 := mul_le_mul_of_nonneg_left h3 ht0
    linarith
  have h9 : |2 * x * (x + Q) - y| ≤ 42 / 10 * t * y := by
    have e : 2 * x * (x + Q) - y = Q * (2 * x) + E := by rw [hy, hEd]; ring
    rw [e]; exact h8
  have h10 : |2 * x * (x + Q)| ≤ 1001 / 1000 * y := by
    have := abs_sub_abs_le_abs_sub (2 * x * (x + Q)) y
    rw [abs_of_pos hy0] at this
    linarith
  have h11 : |2 * x * X - y| ≤ 53 / 10 * t * y := by
    have e : 2 * x * X - y = 2 * x * (X - (x + Q)) + (2 * x * (x + Q) - y) := by ring
    rw [e]
    refine (abs_add_le _ _).trans ?_
    have k1 : |2 * x * (X - (x + Q))| ≤ t * |2 * x * (x + Q)| := by
      rw [abs_mul (2 * x) (X - (x + Q)), abs_mul (2 * x) (x + Q)]
      have := mul_le_mul_of_nonneg_left hX (abs_nonneg (2 * x))
      linarith
    have k2 := mul_le_mul_of_nonneg_left h10 ht0
    linarith
  have h12 : |(2 * x * X) ^ 2 - y ^ 2| ≤ 16 * t * y ^ 2 := by
    have e : (2 * x * X) ^ 2 - y ^ 2 = (2 * x * X - y) * ((2 * x * X - y) + 2 * y) := by ring
    rw [e, abs_mul]
    have k1 : |2 * x * X - y + 2 * y| ≤ 2001 / 1000 * y := by
      refine (abs_add_le _ _).trans ?_
      rw [abs_of_pos (by linarith : 0 < 2 * y)]
      linarith
    refine (mul_le_mul h11 k1 (abs_nonneg _) (by positivity)).trans ?_
    have : 0 ≤ t * y ^ 2 := by positivity
    nlinarith
  refine ⟨?_, by have := (abs_le.mp h11).1; linarith⟩
  have e : X ^ 2 - (y / (2 * x)) ^ 2 = ((2 * x * X) ^ 2 - y ^ 2) / (2 * x) ^ 2 := by field_simp
  rw [e, abs_div, abs_of_pos (by positivity : 0 < (2 * x) ^ 2), div_pow, div_le_iff₀ (by positivity)]
  refine h12.trans (le_of_eq ?_)
  field_simp

/-- the exact step -/
theorem heron_exact {x a : ℚ} (hx : x ≠ 0) : ((x ^ 2 + a) / (2 * x)) ^ 2 = a + (x ^ 2 - a) ^ 2 / (4 * x ^ 2) := by
  field_simp; ring

theorem sq_tiny_le {k : ℕ} (hk : k ≤ 1000) : (1 : ℚ) / 2 ^ 1000 ≤ 1 / 2 ^ k := one_div_pow_le_one_div_pow_of_le (by norm_num) hk
theorem sq_huge_le {k : ℕ} (hk : k ≤ 1000) : (2 : ℚ) ^ k ≤ 2 ^ 1000 := pow_le_pow_right₀ (by norm_num) hk

theorem rnd_rel' {q : ℚ} (h : 1 / 2 ^ 1000 ≤ |q|) : |rnd q - q| ≤ 1 / 2 ^ 53 * |q| := by
  have h1 : (1 : ℚ) / 2 ^ 1022 ≤ 1 / 2 ^ 1000 := one_div_pow_le_one_div_pow_of_le (by norm_num) (by norm_num)
  exact rnd_rel q (h1.trans h)

theorem rnd_any {q : ℚ} : |rnd q - q| ≤ 1 / 2 ^ 53 * |q| + 1 / 2 ^ 200 := by
  by_cases h : 1 / 2 ^ 1022 ≤ |q|
  · exact (rnd_rel q h).trans (le_add_of_nonneg_right (by positivity))
  · have h1 : (1 : ℚ) / 2 ^ 1075 ≤ 1 / 2 ^ 200 := one_div_pow_le_one_div_pow_of_le (by norm_num) (by norm_num)
    exact ((rnd_abs q (not_le.mp h)).trans h1).trans (le_add_of_nonneg_left (by positivity))

/-- the value of `x * x - a` in doubles, at any point -/
theorem square_value {x a : Double L} {p q : ℚ} (hx : x.Is p) (ha : a.Is q) (hq0 : 0 ≤ q) (hq : q ≤ 2 ^ 16) (hp : |p| ≤ 2 ^ 70) :
    ∃ F, (Arith.mul x x).Is (rnd (p * p)) ∧ (Arith.sub (Arith.mul x x) a).Is F ∧ F = rnd (rnd (p * p) - q) ∧
      |F - (p ^ 2 - q)| ≤ 3 / 2 ^ 53 * (p ^ 2 + q) + 1 / 2 ^ 100 := by
  have hp2 : p * p ≤ 2 ^ 140 := by
    have := mul_le_mul hp hp (abs_nonneg _) (by positivity)
    rw [abs_mul_abs_self] at this
    exact this.trans (by norm_num)
  have hp0 : 0 ≤ p * p := mul_self_nonneg p
  have s1 : (Arith.mul x x).Is (rnd (p * p)) := mul_is hx hx (small_rnd (by rw [abs_of_nonneg hp0]; exact hp2.trans (sq_huge_le (by norm_num))))
  have e1 := rnd_any (q := p * p)
  rw [abs_of_nonneg hp0] at e1
  set S := rnd (p * p) with hS
  have hpp : p * p = p ^ 2 := by ring
  rw [hpp] at e1 hp0 hp2
  have e2 : |S - q| ≤ (1 + 1 / 2 ^ 53) * (p ^ 2 + q) + 1 / 2 ^ 200 := by
    have e : S - q = (S - p ^ 2) + (p ^ 2 - q) := by ring
    rw [e]
    refine (abs_add_le _ _).trans ?_
    have : |p ^ 2 - q| ≤ p ^ 2 + q := by rw [abs_le]; constructor <;> linarith
    linarith [(by positivity : (0 : ℚ) ≤ 1 / 2 ^ 53 * q)]
  have s2 : (Arith.sub (Arith.mul x x) a).Is (rnd (S - q)) := sub_is s1 ha (small_rnd (le_trans e2 (by
    refine le_trans ?_ (sq_huge_le (k := 200) (by norm_num))
    have : (1 + 1 / 2 ^ 53) * (p ^ 2 + q) ≤ 2 * (2 ^ 140 + 2 ^ 16) := mul_le_mul (by norm_num) (by linarith) (by linarith) (by norm_num)
    refine (add_le_add this le_rfl).trans (by norm_num))))
  refine ⟨_, s1, s2, rfl, ?_⟩
  have e3 := rnd_any (q := S - q)
  have e : rnd (S - q) - (p ^ 2 - q) = (rnd (S - q) - (S - q)) + (S - p ^ 2) := by ring
  rw [e]
  refine (abs_add_le _ _).trans ?_
  have e4 := mul_le_mul_of_nonneg_left e2 (by positivity : (0 : ℚ) ≤ 1 / 2 ^ 53)
  have h0 : 0 ≤ p ^ 2 + q := by linarith
  have e5 : (1 : ℚ) / 2 ^ 53 * ((1 + 1 / 2 ^ 53) * (p ^ 2 + q)) ≤ 3 / 2 / 2 ^ 53 * (p ^ 2 + q) := by
    rw [← mul_assoc]
    exact mul_le_mul_of_nonneg_right (by norm_num) h0
  have e6 : (1 : ℚ) / 2 ^ 53 * (1 / 2 ^ 200) + 1 / 2 ^ 200 + 1 / 2 ^ 200 ≤ 1 / 2 ^ 100 := by norm_num
  have e7 : (1 : ℚ) / 2 ^ 53 * p ^ 2 ≤ 1 / 2 ^ 53 * (p ^ 2 + q) := mul_le_mul_of_nonneg_left (by linarith) (by positivity)
  linarith [(by ring : (3 : ℚ) / 2 ^ 53 * (p ^ 2 + q) = 3 / 2 / 2 ^ 53 * (p ^ 2 + q) + 1 / 2 ^ 53 * (p ^ 2 + q) + 1 / 2 / 2 ^ 53 * (p ^ 2 + q)),
    (by positivity : (0 : ℚ) ≤ 1 / 2 / 2 ^ 53 * (p ^ 2 + q))]

/-- one step of the program, from a point which is neither too small nor too large -/
theorem square_step {x a : Double L} {p q F : ℚ} (hx : x.Is p) (ha : a.Is q) (hq0 : 0 ≤ q) (hq : q ≤ 2 ^ 16) (hp : |p| ≤ 2 ^ 70)
    (hp1 : 1 / 2 ^ 40 ≤ |p|) (hF : (Arith.sub (Arith.mul x x) a).Is F) (hF1 : 1 / 2 ^ 40 ≤ |F|) :
    ∃ J Q X, (Arith.add x x).Is J ∧ |J - 2 * p| ≤ 1 / 2 ^ 53 * |2 * p| ∧
      (Arith.sub (Arith.div (Arith.neg (Arith.sub (Arith.mul x x) a)) (Arith.add x x)) Arith.zero).Is Q ∧
      (Arith.add x (Arith.sub (Arith.div (Arith.neg (Arith.sub (Arith.mul x x) a)) (Arith.add x x)) Arith.zero)).Is X ∧
      |X ^ 2 - (q + (p ^ 2 - q) ^ 2 / (4 * p ^ 2))| ≤ 1 / 2 ^ 49 * (q + (p ^ 2 - q) ^ 2 / (4 * p ^ 2)) ∧ 0 < p * X := by
  have hp0 : p ≠ 0 := by
    rintro rfl
    rw [abs_zero] at hp1
    exact absurd hp1 (not_le.mpr (by positivity))
  obtain ⟨F', s1, s2, rfl, eF⟩ := square_value hx ha hq0 hq hp
  obtain rfl := is_unique hF s2
  set S := rnd (p * p) with hS
  have hpp : p * p = p ^ 2 := by ring
  have hp2 : p ^ 2 ≤ 2 ^ 140 := by
    rw [← sq_abs]
    exact (pow_le_pow_left₀ (abs_nonneg _) hp 2).trans (by norm_num)
  have hp3 : 1 / 2 ^ 80 ≤ p ^ 2 := by
    rw [← sq_abs]
    exact le_trans (by norm_num) (pow_le_pow_left₀ (by positivity) hp1 2)
  have c1 : |S - p ^ 2| ≤ 1 / 2 ^ 53 * p ^ 2 := by
    have := rnd_rel' (q := p * p) (by rw [hpp, abs_of_nonneg (by positivity)]; exact (sq_tiny_le (by norm_num)).trans hp3)
    rwa [hpp, abs_of_nonneg (by positivity : 0 ≤ p ^ 2), ← hpp, ← hS, hpp] at this
  have c2 : |rnd (S - q) - (S - q)| ≤ 1 / 2 ^ 53 * |S - q| := by
    have := rnd_add_rel (is_double s1) (is_double (neg_is ha))
    rwa [← sub_eq_add_neg] at this
  set F := rnd (S - q) with hFd
  have s3 : (Arith.add x x).Is (rnd (p + p)) := add_is hx hx (small_rnd (by
    refine (abs_add_le _ _).trans ((add_le_add hp hp).trans ?_)
    exact le_trans (by norm_num) (sq_huge_le (k := 71) (by norm_num))))
  have c3 := rnd_add_rel (is_double hx) (is_double hx)
  rw [← two_mul] at c3 s3
  set J := rnd (2 * p) with hJ
  have h2p : |2 * p| = 2 * |p| := by rw [abs_mul, abs_of_pos (by norm_num : (0 : ℚ) < 2)]
  have j1 : |p| ≤ |J| := by
    have := abs_sub_abs_le_abs_sub (2 * p) (2 * p - J)
    rw [abs_sub_comm _ J, sub_sub_cancel] at this
    rw [h2p] at this c3
    linarith [abs_nonneg p]
  have j2 : |J| ≤ 3 * |p| := by
    have := abs_sub_abs_le_abs_sub J (2 * p)
    rw [h2p] at this c3
    linarith [abs_nonneg p]
  have hJ0 : J ≠ 0 := by
    intro h
    rw [h, abs_zero] at j1
    exact absurd (hp1.trans j1) (not_le.mpr (by positivity))
  have hJp : 0 < |J| := abs_pos.mpr hJ0
  have hFu : |F| ≤ 2 ^ 142 := by
    have := abs_sub_abs_le_abs_sub F (p ^ 2 - q)
    have h1 : |p ^ 2 - q| ≤ p ^ 2 + q := by rw [abs_le]; constructor <;> linarith [sq_nonneg p]
    have h2 : (3 : ℚ) / 2 ^ 53 * (p ^ 2 + q) ≤ 1 * (p ^ 2 + q) := mul_le_mul_of_nonneg_right (by norm_num) (by positivity)
    have h3 : (2 : ℚ) * (2 ^ 140 + 2 ^ 16) + 1 / 2 ^ 100 ≤ 2 ^ 142 := by norm_num
    linarith
  have hq1 : |-F / J| = |F| / |J| := by rw [abs_div, abs_neg]
  have q1 : (1 : ℚ) / 2 ^ 1000 ≤ |-F / J| := by
    rw [hq1]
    refine (sq_tiny_le (k := 120) (by norm_num)).trans ?_
    rw [le_div_iff₀ hJp]
    refine le_trans ?_ hF1
    have : 1 / 2 ^ 120 * |J| ≤ 1 / 2 ^ 120 * (3 * 2 ^ 70) := mul_le_mul_of_nonneg_left (by linarith) (by positivity)
    exact this.trans (by norm_num)
  have q2 : |-F / J| ≤ 2 ^ 200 := by
    rw [hq1, div_le_iff₀ hJp]
    refine hFu.trans ?_
    have : (2 : ℚ) ^ 200 * (1 / 2 ^ 40) ≤ 2 ^ 200 * |J| := mul_le_mul_of_nonneg_left (hp1.trans j1) (by positivity)
    exact le_trans (by norm_num) this
  have s4 : (Arith.div (Arith.neg (Arith.sub (Arith.mul x x) a)) (Arith.add x x)).Is (rnd (-F / J)) :=
    div_is (neg_is s2) s3 hJ0 (small_rnd (q2.trans (sq_huge_le (by norm_num))))
  have c4 := rnd_rel' q1
  set Q := rnd (-F / J) with hQ
  have hQd : rnd Q = Q := rnd_of_isDouble (is_double s4)
  have s5 := sub_is s4 is_zero' (by rw [sub_zero, hQd]; exact isDouble_lt (is_double s4))
  rw [sub_zero, hQd] at s5
  have hQu : |Q| ≤ 2 ^ 201 := by
    have := abs_sub_abs_le_abs_sub Q (-F / J)
    have h2 : (1 : ℚ) / 2 ^ 53 * |-F / J| ≤ 1 * |-F / J| := mul_le_mul_of_nonneg_right (by norm_num) (abs_nonneg _)
    linarith [(by norm_num : (2 : ℚ) ^ 201 = 2 * 2 ^ 200)]
  have s6 := add_is hx s5 (small_rnd (by
    refine (abs_add_le _ _).trans ((add_le_add hp hQu).trans ?_)
    exact le_trans (by norm_num) (sq_huge_le (k := 202) (by norm_num))))
  have c5 := rnd_add_rel (is_double hx) (is_double s5)
  refine ⟨J, Q, _, s3, c3, s5, s6, ?_⟩
  obtain ⟨this, hsgn⟩ := heron_err (t := 1 / 2 ^ 53) (by positivity) (by norm_num) hp0 hq0 c1 c2 c3 c4 c5
  rw [heron_exact hp0] at this
  refine ⟨?_, hsgn⟩
  refine this.trans (le_of_eq ?_)
  ring

/-- `x + x` -/
def twice (v : Str) : Matrix (Fin 1) (Fin 1) (Expr (Double L)) := fun _ _ => .bin .add (.var v) (.var v)

theorem square_simp (cfg : Config (Double L)) (v : Str) (a : Double L) :
    simpE cfg (dE v (squareMinus v a)) = .ok (twice v 0 0) := by
  have h11 : Arith.eq (Dbl.ofInt 1 : Double L) (Dbl.ofInt 1) = true := by rw [eq_is one_is one_is]; rfl
  have h0 : (Dbl.ofInt 0 : Double L).Is 0 := by exact_mod_cast is_ofInt (L := L) (i := 0) (by norm_num)
  have h10 : Arith.eq (Dbl.ofInt 1 : Double L) (Dbl.ofInt 0) = false := by rw [eq_is one_is h0]; rfl
  have h01 : Arith.eq (Dbl.ofInt 0 : Double L) (Dbl.ofInt 1) = false := by rw [eq_is h0 one_is]; rfl
  have h00 : Arith.eq (Dbl.ofInt 0 : Double L) (Dbl.ofInt 0) = true := by rw [eq_is h0 h0]; rfl
  simp [squareMinus, twice, dE, Expr.isNum, simpE, simpTop, isLit, h11, h10, h01, h00]

theorem square_diff (cfg : Config (Double L)) (v : Str) (a : Double L) :
    diffConst cfg (embed (squareMinus v a)) v 1 = .ok (embed (.bin .add (.var v) (.var v) : Expr (Double L))) := by
  unfold diffConst
  rw [clone_eq _ (embed_isSome _), Res.bind_ok, diff_ok cfg _ 1 (by omega) _ (by simp [squareMinus, Expr.hasIntOp]), simplify_embed]
  simp only [Int.toNat_one, Function.iterate_one]
  rw [square_simp cfg v a, Res.bind_ok]
  rfl

theorem square_jacobian (cfg : Config (Double L)) (v : Str) (a : Double L) :
    (symOf (squareEquation v a)).jacobian cfg [v] = .ok (symOf (twice v)) := by
  have hj : ∀ j : Fin [v].length, [v][j] = v := fun j => by
    match j with
    | ⟨0, _⟩ => rfl
  obtain ⟨J, hJ⟩ := (C32_returns Nat.one_pos cfg (squareEquation v a) [v] (by simp)).1.mpr fun i j => by
    rw [hj j]; exact ⟨_, square_diff cfg v a⟩
  obtain ⟨D, rfl⟩ := jacobian_symOf Nat.one_pos cfg _ [v] (by simp) J hJ
  obtain ⟨_, _, _, h⟩ := C32 Nat.one_pos cfg _ [v] (by simp) _ hJ
  have hD : D = fun _ _ => .bin .add (.var v) (.var v) := by
    funext i j
    obtain ⟨d, h1, h2⟩ := h i j
    rw [C50_value, Res.ok.injEq] at h1
    rw [hj j] at h2
    have h3 := (square_diff cfg v a).symm.trans h2
    rw [Res.ok.injEq] at h3
    exact embed_injective (h1.trans h3.symm)
  rw [hJ, hD]
  rfl

theorem eval_bin_is {strict : Bool} {env : Str → Res (Double L)} {o : BinOp} {a b : Expr (Double L)} {x y z : Double L} {q : ℚ}
    (ha : a.eval strict env = .ok x) (hb : b.eval strict env = .ok y) (ho : o.apply x y = some z) (hz : z.Is q) :
    (Expr.bin o a b).eval strict env = .ok z := by
  have h1 : Dbl.isInvalid z = false := hz.1
  simp only [Expr.eval, ha, hb, Res.bind_ok, ho, checked, h1]
  simp

theorem table_env {t : VarsTable (Double L)} {v : Str} {w : Fin [v].length → Double L} (ht : DoubleTable t [v] w) : envOf t.table v = .ok (w 0) := by
  have h : t.table.lookup v = some (w 0) := DoubleTable.lookup ht (0 : Fin 1)
  unfold envOf
  rw [h]

theorem square_evalVec (cfg : Config (Double L)) {t : VarsTable (Double L)} {v : Str} {w : Fin [v].length → Double L} (ht : DoubleTable t [v] w)
    {a : Double L} {S F : ℚ} (hS : (Arith.mul (w 0) (w 0)).Is S) (hF : (Arith.sub (Arith.mul (w 0) (w 0)) a).Is F) :
    evalVec cfg (symOf (squareEquation v a)) t = .ok ⟨1, 1, [Arith.sub (Arith.mul (w 0) (w 0)) a]⟩ := by
  refine (evalVec_ok Nat.one_pos cfg _ t _).mpr ⟨fun _ _ => Arith.sub (Arith.mul (w 0) (w 0)) a, rfl, fun i => ?_⟩
  have h1 : (Expr.var v : Expr (Double L)).eval cfg.throwOnInvalidValue (envOf t.table) = .ok (w 0) := table_env ht
  exact eval_bin_is (eval_bin_is h1 h1 rfl hS) rfl rfl hF

theorem twice_evalMat (cfg : Config (Double L)) {t : VarsTable (Double L)} {v : Str} {w : Fin [v].length → Double L} (ht : DoubleTable t [v] w)
    {J : ℚ} (hJ : (Arith.add (w 0) (w 0)).Is J) : evalMat cfg (symOf (twice v)) t = .ok ⟨1, 1, [Arith.add (w 0) (w 0)]⟩ := by
  refine (C50_evaluate Nat.one_pos Nat.one_pos cfg _ t _).mpr ⟨fun _ _ => Arith.add (w 0) (w 0), rfl, fun i j => ?_⟩
  have h1 : (Expr.var v : Expr (Double L)).eval cfg.throwOnInvalidValue (envOf t.table) = .ok (w 0) := table_env ht
  exact eval_bin_is h1 h1 rfl hJ

theorem one_eqNum {F : Double L} {ε : Double L} {q r : ℚ} (hF : F.Is q) (hε : ε.Is r) :
    (⟨1, 1, [F]⟩ : Mat (Double L)).eqNum ε (Dbl.ofInt 0) = decide (|q| < r) := by
  have h0 : (Dbl.ofInt 0 : Double L).Is 0 := by exact_mod_cast is_ofInt (L := L) (i := 0) (by norm_num)
  have hd := is_double hF
  have h1 : (Arith.sub F (Dbl.ofInt 0)).Is q := by
    have := sub_is hF h0 (by rw [sub_zero, rnd_of_isDouble hd]; exact isDouble_lt hd)
    rwa [sub_zero, rnd_of_isDouble hd] at this
  simp only [Mat.eqNum, List.all_cons, List.all_nil, Bool.and_true]
  rw [lt_is (abs_is h1) hε]

/-- the test is passed -/
theorem square_done (cfg : Config (Double L)) {ε : ℚ} (he : cfg.epsilon.Is ε) {t : VarsTable (Double L)} {v : Str} {w : Fin [v].length → Double L}
    (ht : DoubleTable t [v] w) {a : Double L} {S F : ℚ} (hS : (Arith.mul (w 0) (w 0)).Is S) (hF : (Arith.sub (Arith.mul (w 0) (w 0)) a).Is F)
    (h : |F| < ε) (ja : SymMat (Double L)) (fuel it : ℕ) (q : Mat (Double L)) :
    newtonLoop cfg (symOf (squareEquation v a)) ja (fuel + 1) it t q = .ok t := by
  unfold newtonLoop
  rw [square_evalVec cfg ht hS hF, Res.bind_ok, one_eqNum hF he, decide_eq_true h, if_pos rfl]

/-- one more step -/
theorem square_more (cfg : Config (Double L)) {ε : ℚ} (he : cfg.epsilon.Is ε) {t : VarsTable (Double L)} {v : Str} {w : Fin [v].length → Double L}
    (ht : DoubleTable t [v] w) {a : Double L} {S F J : ℚ} (hS : (Arith.mul (w 0) (w 0)).Is S) (hF : (Arith.sub (Arith.mul (w 0) (w 0)) a).Is F)
    (hJ : (Arith.add (w 0) (w 0)).Is J) (h : ε ≤ |F|) (hJε : ε ≤ |J|) (fuel it : ℕ) (hit : (it : ℤ) ≤ cfg.maxIterations) (y : Double L) :
    ∃ t', DoubleTable t' [v] (fun _ => Arith.add y (Arith.sub (Arith.div (Arith.neg (Arith.sub (Arith.mul (w 0) (w 0)) a)) (Arith.add (w 0) (w 0))) Arith.zero)) ∧
      newtonLoop cfg (symOf (squareEquation v a)) (symOf (twice v)) (fuel + 1) it t ⟨1, 1, [y]⟩ =
        newtonLoop cfg (symOf (squareEquation v a)) (symOf (twice v)) fuel (it + 1) t'
          ⟨1, 1, [Arith.add y (Arith.sub (Arith.div (Arith.neg (Arith.sub (Arith.mul (w 0) (w 0)) a)) (Arith.add (w 0) (w 0))) Arith.zero)]⟩ := by
  obtain ⟨t', k1, k2⟩ := DoubleTable.setValues ht (fun _ => Arith.add y (Arith.sub (Arith.div (Arith.neg (Arith.sub (Arith.mul (w 0) (w 0)) a)) (Arith.add (w 0) (w 0))) Arith.zero))
  refine ⟨t', k2, ?_⟩
  conv_lhs => unfold newtonLoop
  rw [square_evalVec cfg ht hS hF, Res.bind_ok, one_eqNum hF he, decide_eq_false (not_lt.mpr h), if_neg (by simp), if_neg (not_lt.mpr hit),
    twice_evalMat cfg ht hJ, Res.bind_ok]
  have e1 : (⟨1, 1, [Arith.sub (Arith.mul (w 0) (w 0)) a]⟩ : Mat (Double L)).neg = ⟨1, 1, [Arith.neg (Arith.sub (Arith.mul (w 0) (w 0)) a)]⟩ := rfl
  rw [e1, solveLinear_one _ _ _ (by rw [eq_is (abs_is hJ) (abs_is hJ)]; exact decide_eq_true rfl), if_neg (by
    rw [lt_is (abs_is hJ) he, decide_eq_true_iff]; exact not_lt.mpr hJε), Res.bind_ok, one_add, Res.bind_ok]
  have e2 : ∀ z : Double L, vec (fun _ : Fin [v].length => z) = ⟨1, 1, [z]⟩ := fun z => rfl
  rw [e2] at k1
  rw [k1, Res.bind_ok]

theorem half_exact {F : ℚ} (hF : IsDouble F) (h : 1 / 2 ^ 30 ≤ |F|) : rnd (F / 2) = F / 2 := by
  apply rnd_of_isFloat
  obtain ⟨m, k, h1, -, h3⟩ := ((isDouble_iff F).mp hF).1
  refine ⟨m, k - 1, h1, ?_, ?_⟩
  · by_contra hk
    have hk' : k ≤ -100 := by omega
    have h4 : (2 : ℚ) ^ k ≤ 2 ^ (-100 : ℤ) := zpow_le_zpow_right₀ (by norm_num) hk'
    have h5 : |(m : ℚ)| ≤ 2 ^ 53 := by
      have : ((|m| : ℤ) : ℚ) ≤ ((2 ^ 53 : ℤ) : ℚ) := by exact_mod_cast h1.le
      push_cast at this; exact this
    rw [h3, abs_mul, abs_of_pos (by positivity : (0 : ℚ) < 2 ^ k)] at h
    have := h.trans (mul_le_mul h5 h4 (by positivity) (by positivity))
    norm_num at this
  · rw [h3, zpow_sub_one₀ (by norm_num)]; ring

/-- what the loop has found -/
def Found (cfg : Config (Double L)) (v : Str) (a : Double L) (q ε s : ℚ) (fuel it : ℕ) (t : VarsTable (Double L)) (y : Double L) : Prop :=
  ∃ (t' : VarsTable (Double L)) (x : Double L) (X : ℚ), newtonLoop cfg (symOf (squareEquation v a)) (symOf (twice v)) fuel it t ⟨1, 1, [y]⟩ = .ok t' ∧
    DoubleTable t' [v] (fun _ => x) ∧ x.Is X ∧ |X ^ 2 - q| ≤ ε + 1 / 2 ^ 33 ∧ 0 < s * X

section
variable {cfg : Config (Double L)} {ε q : ℚ} {v : Str} {a : Double L}

theorem passed {p F : ℚ} (hq : q ≤ 2 ^ 16) (h2 : ε ≤ 1) (hF : |F - (p ^ 2 - q)| ≤ 3 / 2 ^ 53 * (p ^ 2 + q) + 1 / 2 ^ 100) (h : |F| < ε) :
    |p ^ 2 - q| ≤ ε + 1 / 2 ^ 33 := by
  have e1 := abs_sub_abs_le_abs_sub (p ^ 2 - q) F
  rw [abs_sub_comm (p ^ 2 - q) F] at e1
  have e2 : p ^ 2 + q ≤ |p ^ 2 - q| + 2 * 2 ^ 16 := by linarith [le_abs_self (p ^ 2 - q)]
  have e3 : (3 : ℚ) / 2 ^ 53 * (p ^ 2 + q) ≤ 3 / 2 ^ 53 * (|p ^ 2 - q| + 2 * 2 ^ 16) := mul_le_mul_of_nonneg_left e2 (by positivity)
  linarith

theorem failed {p F : ℚ} (hq : q ≤ 2 ^ 16) (h1 : 1 / 2 ^ 30 ≤ ε) (hF : |F - (p ^ 2 - q)| ≤ 3 / 2 ^ 53 * (p ^ 2 + q) + 1 / 2 ^ 100) (h : ε ≤ |F|) :
    9 / 10 * ε ≤ |p ^ 2 - q| := by
  have e1 := abs_sub_abs_le_abs_sub F (p ^ 2 - q)
  have e2 : p ^ 2 + q ≤ |p ^ 2 - q| + 2 * 2 ^ 16 := by linarith [le_abs_self (p ^ 2 - q)]
  have e3 : (3 : ℚ) / 2 ^ 53 * (p ^ 2 + q) ≤ 3 / 2 ^ 53 * (|p ^ 2 - q| + 2 * 2 ^ 16) := mul_le_mul_of_nonneg_left e2 (by positivity)
  linarith

/-- from the second step on the error is divided by almost four in every step -/
theorem square_steady (he : cfg.epsilon.Is ε) (h1 : 1 / 2 ^ 30 ≤ ε) (h2 : ε ≤ 1) (ha : a.Is q) (hq0 : 0 ≤ q) (hq : q ≤ 2 ^ 16) {s : ℚ} :
    ∀ (N : ℕ), N ≤ 81 → ∀ (fuel it : ℕ) (t : VarsTable (Double L)) (x : Double L) (p : ℚ), N < fuel → ((it + N : ℕ) : ℤ) ≤ cfg.maxIterations →
      DoubleTable t [v] (fun _ => x) → x.Is p → 0 < s * p → -(1 / 2 ^ 33) ≤ p ^ 2 - q → p ^ 2 - q ≤ 1 / 2 ^ 32 * (50 / 13) ^ N + 1 / 2 ^ 32 →
      Found cfg v a q ε s fuel it t x
  | N, hN, 0, _, _, _, _, hfuel, _, _, _, _, _, _ => absurd hfuel (Nat.not_lt_zero _)
  | N, hN, fuel + 1, it, t, x, p, hfuel, hit, ht, hx, hs, hlow, hup => by
    have hpow : (50 / 13 : ℚ) ^ N ≤ (50 / 13) ^ 81 := pow_le_pow_right₀ (by norm_num) hN
    have hp2 : p ^ 2 ≤ 2 ^ 140 := by
      have : (1 : ℚ) / 2 ^ 32 * (50 / 13) ^ 81 + 1 / 2 ^ 32 + 2 ^ 16 ≤ 2 ^ 140 := by norm_num
      linarith [mul_le_mul_of_nonneg_left hpow (by positivity : (0 : ℚ) ≤ 1 / 2 ^ 32)]
    have hp : |p| ≤ 2 ^ 70 := by
      refine le_of_sq_le_sq ?_ (by positivity)
      rw [sq_abs]
      exact hp2.trans (by norm_num)
    obtain ⟨F, k1, k2, -, k4⟩ := square_value hx ha hq0 hq hp
    by_cases hF : |F| < ε
    · exact ⟨t, x, p, square_done cfg he ht k1 k2 hF _ _ _ _, ht, hx, passed hq h2 k4 hF, hs⟩
    have hF' : ε ≤ |F| := not_lt.mp hF
    have hE := failed hq h1 k4 hF'
    have hEpos : 9 / 10 * ε ≤ p ^ 2 - q := by
      rcases abs_cases (p ^ 2 - q) with ⟨e, -⟩ | ⟨e, -⟩
      · rwa [e] at hE
      · exfalso; rw [e] at hE
        linarith [(by norm_num : (1 : ℚ) / 2 ^ 33 < 9 / 10 * (1 / 2 ^ 30))]
    have hε0 : 0 < ε := lt_of_lt_of_le (by positivity) h1
    have hp2' : 9 / 10 * ε ≤ p ^ 2 := by linarith
    have hp1 : 1 / 2 ^ 40 ≤ |p| := by
      refine le_of_sq_le_sq ?_ (abs_nonneg p)
      rw [sq_abs]
      refine le_trans ?_ hp2'
      linarith [(by norm_num : ((1 : ℚ) / 2 ^ 40) ^ 2 ≤ 9 / 10 * (1 / 2 ^ 30))]
    obtain ⟨J, Q, X, j1, j2, j3, j4, j5, j6⟩ := square_step hx ha hq0 hq hp hp1 k2 (le_trans (by norm_num) (h1.trans hF'))
    have hJ : ε ≤ |J| := by
      have e1 : ε ≤ 19 / 10 * |p| := by
        refine le_of_sq_le_sq ?_ (by positivity)
        rw [mul_pow, sq_abs]
        nlinarith
      have e2 := abs_sub_abs_le_abs_sub (2 * p) (2 * p - J)
      rw [abs_sub_comm _ J, sub_sub_cancel] at e2
      rw [abs_mul, abs_of_pos (by norm_num : (0 : ℚ) < 2)] at j2 e2
      linarith [abs_nonneg p]
    match N, hN, hfuel, hit, hup with
    | 0, _, _, _, hup =>
      exfalso
      rw [pow_zero] at hup
      linarith [(by norm_num : (1 : ℚ) / 2 ^ 32 * 1 + 1 / 2 ^ 32 < 9 / 10 * (1 / 2 ^ 30))]
    | N + 1, hN, hfuel, hit, hup =>
      obtain ⟨t', m1, m2⟩ := square_more cfg he ht k1 k2 j1 hF' hJ fuel it (by push_cast at hit; omega) x
      have hEp : 0 ≤ p ^ 2 - q := by linarith
      have hG0 : 0 ≤ (p ^ 2 - q) ^ 2 / (4 * p ^ 2) := by positivity
      have hG : (p ^ 2 - q) ^ 2 / (4 * p ^ 2) ≤ 1 / 4 * (p ^ 2 - q) := by
        rw [div_le_iff₀ (by linarith)]
        nlinarith
      set G := (p ^ 2 - q) ^ 2 / (4 * p ^ 2)
      obtain ⟨g1, g2⟩ := abs_le.mp j5
      have hpX : 0 < s * X := by
        have : 0 < (s * p) * (p * X) := mul_pos hs j6
        have e : (s * p) * (p * X) = p ^ 2 * (s * X) := by ring
        rw [e] at this
        exact (mul_pos_iff_of_pos_left (by linarith)).mp this
      obtain ⟨t'', x', X', r1, r2⟩ := square_steady he h1 h2 ha hq0 hq (s := s) N (by omega) fuel (it + 1) t' _ X (by omega) (by push_cast at hit ⊢; omega) m1 j4 hpX
        (by linarith) (by
          rw [pow_succ (50 / 13 : ℚ) N] at hup
          have : 0 ≤ (50 / 13 : ℚ) ^ N := by positivity
          linarith)
      exact ⟨t'', x', X', m2.trans r1, r2⟩


/-- the whole run from the value 1 -/
theorem square_run (he : cfg.epsilon.Is ε) (h1 : 1 / 2 ^ 30 ≤ ε) (h2 : ε ≤ 1) (ha : a.Is q) (hq0 : 0 ≤ q) (hq : q ≤ 2 ^ 16) (fuel : ℕ)
    (hfuel : 84 ≤ fuel) (hmax : 83 ≤ cfg.maxIterations) {t : VarsTable (Double L)} {x : Double L} (ht : DoubleTable t [v] (fun _ => x)) (hx : x.Is 1) :
    (∃ F, (Arith.sub (Arith.mul x x) a).Is F ∧ |F| < ε ∧ newtonLoop cfg (symOf (squareEquation v a)) (symOf (twice v)) fuel 0 t ⟨1, 1, [Arith.zero]⟩ = .ok t ∧
      |1 - q| ≤ ε + 1 / 2 ^ 33) ∨ Found cfg v a q ε (q - 1) fuel 0 t Arith.zero := by
  obtain ⟨n, rfl⟩ : ∃ n, fuel = n + 2 := ⟨fuel - 2, by omega⟩
  obtain ⟨F, k1, k2, k3, k4⟩ := square_value hx ha hq0 hq (by norm_num)
  have hε0 : 0 < ε := lt_of_lt_of_le (by positivity) h1
  rw [one_pow] at k4
  by_cases hF : |F| < ε
  · left
    refine ⟨F, k2, hF, square_done cfg he ht k1 k2 hF _ _ _ _, ?_⟩
    have := passed (p := 1) hq h2 (by rw [one_pow]; exact k4) hF
    rwa [one_pow] at this
  right
  have hF' : ε ≤ |F| := not_lt.mp hF
  have hE := failed (p := 1) hq h1 (by rw [one_pow]; exact k4) hF'
  rw [one_pow] at hE
  have hnoise : (3 : ℚ) / 2 ^ 53 * (1 + q) + 1 / 2 ^ 100 ≤ 1 / 2 ^ 34 := by
    have : (3 : ℚ) / 2 ^ 53 * (1 + q) ≤ 3 / 2 ^ 53 * (1 + 2 ^ 16) := mul_le_mul_of_nonneg_left (by linarith) (by positivity)
    exact (add_le_add this le_rfl).trans (by norm_num)
  have hsgn : 0 < (1 - q) * F := by
    have k5 := k4.trans hnoise
    have k6 : (1 : ℚ) / 2 ^ 34 < 9 / 10 * (1 / 2 ^ 30) := by norm_num
    have k7 := (abs_le.mp k5)
    rcases abs_cases (1 - q) with ⟨e, -⟩ | ⟨e, -⟩
    · rw [e] at hE
      exact mul_pos (by linarith) (by linarith [k7.1])
    · rw [e] at hE
      exact mul_pos_of_neg_of_neg (by linarith) (by linarith [k7.2])
  have hFu : |F| ≤ 2 ^ 17 := by
    have := abs_sub_abs_le_abs_sub F (1 - q)
    have e1 : |1 - q| ≤ 2 ^ 16 := by rw [abs_le]; constructor <;> linarith [(by norm_num : (1 : ℚ) ≤ 2 ^ 16)]
    linarith [(by norm_num : (1 : ℚ) / 2 ^ 34 ≤ 1)]
  -- the first step
  have two_d : rnd (1 + 1 : ℚ) = 2 := by
    have := is_double (is_ofInt (L := L) (i := 2) (by norm_num))
    rw [show (1 + 1 : ℚ) = ((2 : ℤ) : ℚ) by norm_num, rnd_of_isDouble this]; norm_num
  have j1 : (Arith.add x x).Is 2 := by
    have := add_is hx hx (by rw [two_d]; exact lt_of_lt_of_le (by norm_num : |(2 : ℚ)| < 2 ^ 10) (pow_le_pow_right₀ (by norm_num) (by norm_num)))
    rwa [two_d] at this
  have hFd := is_double k2
  have hneg : rnd (-F / 2) = -F / 2 := by
    rw [neg_div, rnd_neg, half_exact hFd (h1.trans hF')]
  have hsmall : |-F / 2| < 2 ^ 1024 := by
    have := isDouble_lt hFd
    rw [neg_div, abs_neg, abs_div, abs_of_pos (by norm_num : (0 : ℚ) < 2)]
    exact lt_of_le_of_lt (half_le_self (abs_nonneg F)) this
  have q1 : (Arith.div (Arith.neg (Arith.sub (Arith.mul x x) a)) (Arith.add x x)).Is (-F / 2) := by
    have := div_is (neg_is k2) j1 (by norm_num) (by rw [hneg]; exact hsmall)
    rwa [hneg] at this
  have q2 := sub_is q1 is_zero' (by rw [sub_zero, hneg]; exact hsmall)
  rw [sub_zero, hneg] at q2
  have q3 := add_is is_zero' q2 (by rw [zero_add, hneg]; exact hsmall)
  rw [zero_add, hneg] at q3
  obtain ⟨t1, m1, m2⟩ := square_more cfg he ht k1 k2 j1 hF' (by rw [abs_of_pos (by norm_num : (0 : ℚ) < 2)]; linarith) (n + 1) 0 (by push_cast; omega) Arith.zero
  set x1 : Double L := Arith.add Arith.zero (Arith.sub (Arith.div (Arith.neg (Arith.sub (Arith.mul x x) a)) (Arith.add x x)) Arith.zero)
  set p : ℚ := -F / 2 with hp
  have hpF : |p| = |F| / 2 := by rw [hp, abs_div, abs_neg, abs_of_pos (by norm_num : (0 : ℚ) < 2)]
  have hs1 : 0 < (q - 1) * p := by
    have e : (q - 1) * p = (1 - q) * F / 2 := by rw [hp]; ring
    rw [e]; linarith
  have hpu : |p| ≤ 2 ^ 16 := by rw [hpF]; linarith [(by norm_num : (2 : ℚ) ^ 17 = 2 * 2 ^ 16)]
  have hpl : 1 / 2 ^ 31 ≤ |p| := by rw [hpF]; linarith [(by norm_num : (1 : ℚ) / 2 ^ 31 = 1 / 2 ^ 30 / 2)]
  -- the second step
  obtain ⟨F1, l1, l2, -, l4⟩ := square_value q3 ha hq0 hq (hpu.trans (by norm_num))
  by_cases hF1 : |F1| < ε
  · exact ⟨t1, x1, p, m2.trans (square_done cfg he m1 l1 l2 hF1 _ _ _ _), m1, q3, passed hq h2 l4 hF1, hs1⟩
  have hF1' : ε ≤ |F1| := not_lt.mp hF1
  obtain ⟨J, Q, X, i1, i2, i3, i4, i5, i6⟩ := square_step q3 ha hq0 hq (hpu.trans (by norm_num)) (le_trans (by norm_num) hpl) l2 (le_trans (by norm_num) (h1.trans hF1'))
  have hJ : ε ≤ |J| := by
    have e1 : rnd (p + p) = -F := by
      have : p + p = -F := by rw [hp]; ring
      rw [this, rnd_neg, rnd_of_isDouble hFd]
    have := add_is q3 q3 (by rw [e1, abs_neg]; exact isDouble_lt hFd)
    rw [e1] at this
    rw [is_unique i1 this, abs_neg]
    exact hF'
  obtain ⟨t2, n1, n2⟩ := square_more cfg he m1 l1 l2 i1 hF1' hJ n 1 (by push_cast; omega) x1
  have hp2 : p ^ 2 ≤ 2 ^ 32 := by
    rw [← sq_abs]
    exact (pow_le_pow_left₀ (abs_nonneg _) hpu 2).trans (by norm_num)
  have hp3 : 1 / 2 ^ 62 ≤ p ^ 2 := by
    rw [← sq_abs]
    exact le_trans (by norm_num) (pow_le_pow_left₀ (by positivity) hpl 2)
  have hppos : 0 < p ^ 2 := lt_of_lt_of_le (by positivity) hp3
  have hG0 : 0 ≤ (p ^ 2 - q) ^ 2 / (4 * p ^ 2) := by positivity
  have hG : (p ^ 2 - q) ^ 2 / (4 * p ^ 2) ≤ 2 ^ 124 := by
    rw [div_le_iff₀ (by linarith)]
    have e1 : |p ^ 2 - q| ≤ 2 ^ 32 := by rw [abs_le]; constructor <;> linarith [(by norm_num : (2 : ℚ) ^ 16 ≤ 2 ^ 32)]
    have e2 := pow_le_pow_left₀ (abs_nonneg _) e1 2
    rw [sq_abs] at e2
    refine e2.trans ?_
    have := mul_le_mul_of_nonneg_left hp3 (by positivity : (0 : ℚ) ≤ 2 ^ 124 * 4)
    rw [← mul_assoc]
    exact le_trans (by norm_num) this
  set G := (p ^ 2 - q) ^ 2 / (4 * p ^ 2)
  obtain ⟨g1, g2⟩ := abs_le.mp i5
  have hsX : 0 < (q - 1) * X := by
    have h3 : 0 < ((q - 1) * p) * (p * X) := mul_pos hs1 i6
    have e : ((q - 1) * p) * (p * X) = p ^ 2 * ((q - 1) * X) := by ring
    rw [e] at h3
    exact (mul_pos_iff_of_pos_left hppos).mp h3
  obtain ⟨t3, x3, X3, r1, r2⟩ := square_steady he h1 h2 ha hq0 hq (s := q - 1) 81 le_rfl n 2 t2 _ X (by omega) (by push_cast; omega) n1 i4 hsX
    (by linarith) (by
      have : (2 : ℚ) ^ 125 ≤ 1 / 2 ^ 32 * (50 / 13) ^ 81 + 1 / 2 ^ 32 := by norm_num
      linarith [(by norm_num : (2 : ℚ) ^ 124 + 1 / 2 ^ 49 * (2 ^ 16 + 2 ^ 124) ≤ 2 ^ 125)])
  exact ⟨t3, x3, X3, m2.trans (n2.trans r1), r2⟩
end
end Double
end Tom
