import Verif.Lemmas.SquareRoot
import Verif.Lemmas.DoubleDet
import Verif.Spec.Shift
/-
Newton's method with doubles for `v + a` and `v - a`, with integers: every operation is exact; then with any doubles.
-/
set_option linter.unusedSectionVars false
namespace Tom
namespace Double
variable {L : Libm}

/-- `x + a` or `x - a` -/
def shiftF (plus : Bool) (x a : Double L) : Double L := if plus then Arith.add x a else Arith.sub x a

theorem shift_apply (plus : Bool) (x a : Double L) : (shiftOp plus).apply x a = some (shiftF plus x a) := by
  cases plus <;> rfl

theorem shift_is {plus : Bool} {x a : Double L} {k r : ℤ} (hx : x.Is k) (ha : a.Is ((if plus then -r else r : ℤ) : ℚ)) (h : |k - r| ≤ 2 ^ 53) :
    (shiftF plus x a).Is ((k - r : ℤ) : ℚ) := by
  cases plus
  · exact int_sub hx ha h
  · have := int_add hx ha (by simpa [← sub_eq_add_neg] using h)
    simpa [shiftF, sub_eq_add_neg] using this

/-- the derivative, as it is computed: `1 + 0` or `1 - 0` -/
def shiftOne (plus : Bool) : Double L := shiftF plus (Dbl.ofInt 1) (Dbl.ofInt 0)

theorem shiftOne_is (plus : Bool) : (shiftOne plus : Double L).Is ((1 : ℤ) : ℚ) := by
  have h0 : (Dbl.ofInt 0 : Double L).Is ((if plus then -0 else 0 : ℤ) : ℚ) := by
    have := is_ofInt (L := L) (i := 0) (by norm_num)
    simpa using this
  have := shift_is (plus := plus) (k := 1) (r := 0) oneZ_is h0 (by norm_num)
  rw [sub_zero] at this
  exact this

/-- the Jacobian matrix -/
def shiftJac (plus : Bool) : Matrix (Fin 1) (Fin 1) (Expr (Double L)) := fun _ _ => .num (shiftOne plus)

theorem shift_simp (cfg : Config (Double L)) (plus : Bool) (v : Str) (a : Double L) :
    simpE cfg (dE v (shifted plus v a)) = .ok (.num (shiftOne plus)) := by
  have hv : Dbl.isInvalid (shiftOne plus : Double L) = false := (shiftOne_is plus).1
  have hc : checked cfg.throwOnInvalidValue (shiftOne plus : Double L) = .ok (shiftOne plus) := by
    unfold checked; rw [hv]; simp
  have ha := shift_apply (L := L) plus (Dbl.ofInt 1) (Dbl.ofInt 0)
  change _ = some (shiftOne plus) at ha
  have hd : dE v (shifted plus v a) = .bin (shiftOp plus) (.num (Dbl.ofInt 1)) (.num (Dbl.ofInt 0)) := by
    cases plus <;> simp [shifted, shiftOp, dE, Expr.isNum]
  rw [hd]
  have : simpE cfg (.bin (shiftOp plus) (.num (Dbl.ofInt 1)) (.num (Dbl.ofInt 0))) = (checked cfg.throwOnInvalidValue (shiftOne plus : Double L)).noexcept >>= fun w => Res.ok (Expr.num w) := by
    cases plus <;> simp [shiftOp, simpE, simpTop, isLit] at ha ⊢ <;> rw [ha]
  rw [this, hc]
  rfl

theorem shift_diff (cfg : Config (Double L)) (plus : Bool) (v : Str) (a : Double L) :
    diffConst cfg (embed (shifted plus v a)) v 1 = .ok (embed (.num (shiftOne plus) : Expr (Double L))) := by
  unfold diffConst
  rw [clone_eq _ (embed_isSome _), Res.bind_ok, diff_ok cfg _ 1 (by omega) _ (by cases plus <;> simp [shifted, shiftOp, Expr.hasIntOp]), simplify_embed]
  simp only [Int.toNat_one, Function.iterate_one]
  rw [shift_simp cfg plus v a, Res.bind_ok]

theorem shift_jacobian (cfg : Config (Double L)) (plus : Bool) (v : Str) (a : Double L) :
    (symOf (shiftEquation plus v a)).jacobian cfg [v] = .ok (symOf (shiftJac plus)) := by
  have hj : ∀ j : Fin [v].length, [v][j] = v := fun j => by
    match j with
    | ⟨0, _⟩ => rfl
  obtain ⟨J, hJ⟩ := (C32_returns Nat.one_pos cfg (shiftEquation plus v a) [v] (by simp)).1.mpr fun i j => by
    rw [hj j]; exact ⟨_, shift_diff cfg plus v a⟩
  obtain ⟨D, rfl⟩ := jacobian_symOf Nat.one_pos cfg _ [v] (by simp) J hJ
  obtain ⟨_, _, _, h⟩ := C32 Nat.one_pos cfg _ [v] (by simp) _ hJ
  have hD : D = fun _ _ => .num (shiftOne plus) := by
    funext i j
    obtain ⟨d, h1, h2⟩ := h i j
    rw [C50_value, Res.ok.injEq] at h1
    rw [hj j] at h2
    have h3 := (shift_diff cfg plus v a).symm.trans h2
    rw [Res.ok.injEq] at h3
    exact embed_injective (h1.trans h3.symm)
  rw [hJ, hD]
  rfl

theorem shift_evalVec (cfg : Config (Double L)) {t : VarsTable (Double L)} {v : Str} {w : Fin [v].length → Double L} (ht : DoubleTable t [v] w)
    {plus : Bool} {a : Double L} {F : ℚ} (hF : (shiftF plus (w 0) a).Is F) :
    evalVec cfg (symOf (shiftEquation plus v a)) t = .ok ⟨1, 1, [shiftF plus (w 0) a]⟩ := by
  refine (evalVec_ok Nat.one_pos cfg _ t _).mpr ⟨fun _ _ => shiftF plus (w 0) a, rfl, fun i => ?_⟩
  have h1 : (Expr.var v : Expr (Double L)).eval cfg.throwOnInvalidValue (envOf t.table) = .ok (w 0) := table_env ht
  exact eval_bin_is h1 rfl (shift_apply plus _ _) hF

theorem shift_evalMat (cfg : Config (Double L)) (t : VarsTable (Double L)) (plus : Bool) :
    evalMat cfg (symOf (shiftJac plus)) t = .ok ⟨1, 1, [shiftOne plus]⟩ :=
  (C50_evaluate Nat.one_pos Nat.one_pos cfg _ t _).mpr ⟨fun _ _ => shiftOne plus, rfl, fun _ _ => rfl⟩

variable {cfg : Config (Double L)} {ε : ℚ} {v : Str} {a : Double L} {plus : Bool}

/-- the test is passed -/
theorem shift_done (he : cfg.epsilon.Is ε) {t : VarsTable (Double L)} {w : Fin [v].length → Double L} (ht : DoubleTable t [v] w) {F : ℚ}
    (hF : (shiftF plus (w 0) a).Is F) (h : |F| < ε) (ja : SymMat (Double L)) (fuel it : ℕ) (q : Mat (Double L)) :
    newtonLoop cfg (symOf (shiftEquation plus v a)) ja (fuel + 1) it t q = .ok t := by
  unfold newtonLoop
  rw [shift_evalVec cfg ht hF, Res.bind_ok, one_eqNum hF he, decide_eq_true h, if_pos rfl]

/-- one more step: the value `d` is added to `y` -/
theorem shift_more (he : cfg.epsilon.Is ε) (h1 : ε ≤ 1) {t : VarsTable (Double L)} {w : Fin [v].length → Double L} (ht : DoubleTable t [v] w) {F m : ℤ}
    (hF : (shiftF plus (w 0) a).Is F) (h : ε ≤ |(F : ℚ)|) (hFm : |F| ≤ 2 ^ 53) {y : Double L} (hy : y.Is m) (hm : |m - F| ≤ 2 ^ 53) (fuel it : ℕ)
    (hit : (it : ℤ) ≤ cfg.maxIterations) :
    ∃ (t' : VarsTable (Double L)) (z : Double L), z.Is ((m - F : ℤ) : ℚ) ∧ DoubleTable t' [v] (fun _ => z) ∧
      newtonLoop cfg (symOf (shiftEquation plus v a)) (symOf (shiftJac plus)) (fuel + 1) it t ⟨1, 1, [y]⟩ =
        newtonLoop cfg (symOf (shiftEquation plus v a)) (symOf (shiftJac plus)) fuel (it + 1) t' ⟨1, 1, [z]⟩ := by
  have hJ := shiftOne_is (L := L) plus
  set z : Double L := Arith.add y (Arith.sub (Arith.div (Arith.neg (shiftF plus (w 0) a)) (shiftOne plus)) Arith.zero) with hz
  have hd := isDouble_int (-F) (by rwa [abs_neg])
  have d1 : (Arith.div (Arith.neg (shiftF plus (w 0) a)) (shiftOne plus)).Is ((-F : ℤ) : ℚ) := by
    have e : (((-F : ℤ) : ℚ)) / ((1 : ℤ) : ℚ) = ((-F : ℤ) : ℚ) := by rw [Int.cast_one, div_one]
    have := div_is (int_neg hF) hJ (by norm_num) (by rw [e, rnd_of_isDouble hd]; exact isDouble_lt hd)
    rwa [e, rnd_of_isDouble hd] at this
  have z0 : (Arith.zero : Double L).Is ((0 : ℤ) : ℚ) := by rw [Int.cast_zero]; exact is_zero'
  have d2 := int_sub d1 z0 (by rw [sub_zero, abs_neg]; exact hFm)
  rw [sub_zero] at d2
  have d3 := int_add hy d2 (by rwa [← sub_eq_add_neg])
  rw [← sub_eq_add_neg] at d3
  obtain ⟨t', k1, k2⟩ := DoubleTable.setValues ht (fun _ => z)
  refine ⟨t', z, d3, k2, ?_⟩
  conv_lhs => unfold newtonLoop
  rw [shift_evalVec cfg ht hF, Res.bind_ok, one_eqNum hF he, decide_eq_false (not_lt.mpr h), if_neg (by simp), if_neg (not_lt.mpr hit),
    shift_evalMat cfg t plus, Res.bind_ok]
  have e1 : (⟨1, 1, [shiftF plus (w 0) a]⟩ : Mat (Double L)).neg = ⟨1, 1, [Arith.neg (shiftF plus (w 0) a)]⟩ := rfl
  rw [e1, solveLinear_one _ _ _ (by rw [eq_is (abs_is hJ) (abs_is hJ)]; exact decide_eq_true rfl), if_neg (by
    rw [lt_is (abs_is hJ) he, decide_eq_true_iff]; exact not_lt.mpr (by simpa using h1)), Res.bind_ok, one_add, Res.bind_ok]
  have e2 : ∀ z : Double L, vec (fun _ : Fin [v].length => z) = ⟨1, 1, [z]⟩ := fun z => rfl
  rw [e2] at k1
  rw [k1, Res.bind_ok]

/-- the whole run from an integer -/
theorem shift_run (he : cfg.epsilon.Is ε) (h0 : 0 < ε) (h1 : ε ≤ 1) (hmax : 1 ≤ cfg.maxIterations) {r i : ℤ} (hr : |r| ≤ 2 ^ 52) (hi : |i| ≤ 2 ^ 52)
    (ha : a.Is ((if plus then -r else r : ℤ) : ℚ)) {t : VarsTable (Double L)} {x : Double L} (ht : DoubleTable t [v] (fun _ => x)) (hx : x.Is i) (fuel : ℕ) :
    ∃ (t' : VarsTable (Double L)) (y : Double L),
      newtonLoop cfg (symOf (shiftEquation plus v a)) (symOf (shiftJac plus)) (fuel + 3) 0 t ⟨1, 1, [Arith.zero]⟩ = .ok t' ∧
      DoubleTable t' [v] (fun _ => y) ∧ y.Is r := by
  obtain ⟨hr1, hr2⟩ := abs_le.mp hr
  obtain ⟨hi1, hi2⟩ := abs_le.mp hi
  have z0 : (Arith.zero : Double L).Is ((0 : ℤ) : ℚ) := by rw [Int.cast_zero]; exact is_zero'
  have big : ∀ k : ℤ, k ≠ 0 → ε ≤ |(k : ℚ)| := fun k hk => by
    refine h1.trans ?_
    exact_mod_cast Int.one_le_abs hk
  have b0 : |i - r| ≤ 2 ^ 53 := by rw [abs_le]; constructor <;> omega
  have f0 := shift_is hx ha b0
  by_cases c0 : i - r = 0
  · refine ⟨t, x, shift_done he ht f0 (by rw [c0]; simpa using h0) _ _ _ _, ht, ?_⟩
    rwa [← sub_eq_zero.mp c0]
  obtain ⟨t1, z1, k1, k2, k3⟩ := shift_more (plus := plus) he h1 ht f0 (big _ c0) b0 z0 (by rw [abs_le]; constructor <;> omega) (fuel + 2) 0 (by push_cast; omega)
  have f1 := shift_is k1 ha (by rw [abs_le]; constructor <;> omega)
  have e1 : 0 - (i - r) - r = -i := by ring
  rw [e1] at f1
  by_cases c1 : i = 0
  · refine ⟨t1, z1, k3.trans (shift_done he k2 f1 (by rw [c1]; simpa using h0) _ _ _ _), k2, ?_⟩
    rw [c1] at k1
    simpa using k1
  obtain ⟨t2, z2, l1, l2, l3⟩ := shift_more (plus := plus) he h1 k2 f1 (big _ (neg_ne_zero.mpr c1)) (by rw [abs_neg]; exact hi.trans (by norm_num)) k1
    (by rw [abs_le]; constructor <;> omega) (fuel + 1) 1 (by push_cast; omega)
  have e2 : 0 - (i - r) - -i = r := by ring
  rw [e2] at l1
  have f2 := shift_is l1 ha (by simp)
  exact ⟨t2, z2, k3.trans (l3.trans (shift_done he l2 f2 (by simpa using h0) _ _ _ _)), l2, l1⟩

/-! ### Any doubles -/

/-- Sterbenz: the difference of two doubles which is not larger than either of them is a double -/
theorem sterbenz {p q : ℚ} (hp : IsDouble p) (hq : IsDouble q) (h1 : |p - q| ≤ |p|) (h2 : |p - q| ≤ |q|) : IsDouble (p - q) := by
  obtain ⟨⟨m, k, a1, a2, a3⟩, a4⟩ := (isDouble_iff p).mp hp
  obtain ⟨⟨n, l, b1, b2, b3⟩, b4⟩ := (isDouble_iff q).mp hq
  refine (isDouble_iff _).mpr ⟨?_, lt_of_le_of_lt h1 a4⟩
  have key : ∀ (M c : ℤ) (b : ℤ) (r : ℚ), |b| < 2 ^ 53 → r = (b : ℚ) * 2 ^ c → -1074 ≤ c → p - q = (M : ℚ) * 2 ^ c → |p - q| ≤ |r| → IsFloat (p - q) := by
    intro M c b r hb hr hc hM hle
    refine ⟨M, c, ?_, hc, hM⟩
    rw [hM, hr, abs_mul, abs_mul] at hle
    have h3 := le_of_mul_le_mul_right hle (abs_pos.mpr (by positivity : (2 : ℚ) ^ c ≠ 0))
    have h4 : |M| ≤ |b| := by exact_mod_cast h3
    exact lt_of_le_of_lt h4 hb
  rcases le_total k l with h | h
  · obtain ⟨d, rfl⟩ := Int.le.dest h
    refine key (m - n * 2 ^ d) k m p a1 a3 a2 ?_ h1
    rw [a3, b3, zpow_add₀ (by norm_num)]; push_cast; rw [zpow_natCast]; ring
  · obtain ⟨d, rfl⟩ := Int.le.dest h
    refine key (m * 2 ^ d - n) l n q b1 b3 b2 ?_ h2
    rw [a3, b3, zpow_add₀ (by norm_num)]; push_cast; rw [zpow_natCast]; ring

theorem shift_near {plus : Bool} {x a : Double L} {k r : ℚ} (hx : x.Is k) (ha : a.Is (if plus then -r else r)) (h : |k - r| ≤ 2 ^ 1000) :
    (shiftF plus x a).Is (rnd (k - r)) := by
  cases plus
  · exact sub_is hx ha (small_rnd h)
  · have := add_is hx ha (small_rnd (by simpa [← sub_eq_add_neg] using h))
    simpa [shiftF, sub_eq_add_neg] using this

/-- one more step, for any doubles -/
theorem shift_step (he : cfg.epsilon.Is ε) (h1 : ε ≤ 1) {t : VarsTable (Double L)} {w : Fin [v].length → Double L} (ht : DoubleTable t [v] w) {F m : ℚ}
    (hF : (shiftF plus (w 0) a).Is F) (h : ε ≤ |F|) {y : Double L} (hy : y.Is m) (hm : |m - F| ≤ 2 ^ 1000) (fuel it : ℕ)
    (hit : (it : ℤ) ≤ cfg.maxIterations) :
    ∃ (t' : VarsTable (Double L)) (z : Double L), z.Is (rnd (m - F)) ∧ DoubleTable t' [v] (fun _ => z) ∧
      newtonLoop cfg (symOf (shiftEquation plus v a)) (symOf (shiftJac plus)) (fuel + 1) it t ⟨1, 1, [y]⟩ =
        newtonLoop cfg (symOf (shiftEquation plus v a)) (symOf (shiftJac plus)) fuel (it + 1) t' ⟨1, 1, [z]⟩ := by
  have hJ := shiftOne_is (L := L) plus
  set z : Double L := Arith.add y (Arith.sub (Arith.div (Arith.neg (shiftF plus (w 0) a)) (shiftOne plus)) Arith.zero) with hz
  have hd := is_double (neg_is hF)
  have d1 : (Arith.div (Arith.neg (shiftF plus (w 0) a)) (shiftOne plus)).Is (-F) := by
    have e : -F / ((1 : ℤ) : ℚ) = -F := by rw [Int.cast_one, div_one]
    have := div_is (neg_is hF) hJ (by norm_num) (by rw [e, rnd_of_isDouble hd]; exact isDouble_lt hd)
    rwa [e, rnd_of_isDouble hd] at this
  have d2 := sub_is d1 is_zero' (by rw [sub_zero, rnd_of_isDouble hd]; exact isDouble_lt hd)
  rw [sub_zero, rnd_of_isDouble hd] at d2
  have hm' : |m + -F| ≤ 2 ^ 1000 := by rw [← sub_eq_add_neg]; exact hm
  have d3 := add_is hy d2 (small_rnd hm')
  rw [← sub_eq_add_neg] at d3
  obtain ⟨t', k1, k2⟩ := DoubleTable.setValues ht (fun _ => z)
  refine ⟨t', z, d3, k2, ?_⟩
  conv_lhs => unfold newtonLoop
  rw [shift_evalVec cfg ht hF, Res.bind_ok, one_eqNum hF he, decide_eq_false (not_lt.mpr h), if_neg (by simp), if_neg (not_lt.mpr hit),
    shift_evalMat cfg t plus, Res.bind_ok]
  have e1 : (⟨1, 1, [shiftF plus (w 0) a]⟩ : Mat (Double L)).neg = ⟨1, 1, [Arith.neg (shiftF plus (w 0) a)]⟩ := rfl
  rw [e1, solveLinear_one _ _ _ (by rw [eq_is (abs_is hJ) (abs_is hJ)]; exact decide_eq_true rfl), if_neg (by
    rw [lt_is (abs_is hJ) he, decide_eq_true_iff]; exact not_lt.mpr (by simpa using h1)), Res.bind_ok, one_add, Res.bind_ok]
  have e2 : ∀ z : Double L, vec (fun _ : Fin [v].length => z) = ⟨1, 1, [z]⟩ := fun z => rfl
  rw [e2] at k1
  rw [k1, Res.bind_ok]

/-- the first value is not near the root, or is the root -/
theorem first_far {q : ℚ} (hq : IsDouble q) (hp : IsDouble (rnd (q - 1))) : rnd (q - 1) = q ∨ 1 / 2 ≤ |rnd (q - 1) - q| := by
  set p := rnd (q - 1) with hpd
  have one_d : IsDouble (-1 : ℚ) := by exact_mod_cast isDouble_int (-1) (by norm_num)
  have e1 := rnd_add_rel hq one_d
  rw [← sub_eq_add_neg, ← hpd] at e1
  rcases le_or_gt |q - 1| (2 ^ 52) with c | c
  · right
    have e2 : |p - (q - 1)| ≤ 1 / 2 := e1.trans (by linarith [mul_le_mul_of_nonneg_left c (by positivity : (0 : ℚ) ≤ 1 / 2 ^ 53)])
    have e3 := abs_sub_abs_le_abs_sub (1 : ℚ) (1 - (q - p))
    have e4 : (1 : ℚ) - (1 - (q - p)) = q - p := by ring
    have e5 : 1 - (q - p) = p - (q - 1) := by ring
    rw [e4, e5, abs_one, abs_sub_comm q p] at e3
    linarith
  · have hq2 : 2 ^ (-1 + 52 : ℤ) ≤ |q| := by
      have := abs_sub q 1
      rw [abs_one] at this
      norm_num at this c ⊢
      linarith
    have hp2 : 2 ^ (-1 + 52 : ℤ) ≤ |p| := by
      have := abs_sub_abs_le_abs_sub (q - 1) p
      rw [abs_sub_comm _ p] at this
      norm_num at this c e1 ⊢
      linarith
    obtain ⟨y, hy⟩ := isFloat_units ((isDouble_iff q).mp hq).1 (-1) (.inr hq2)
    obtain ⟨z, hz⟩ := isFloat_units ((isDouble_iff p).mp hp).1 (-1) (.inr hp2)
    rcases eq_or_ne z y with rfl | hne
    · left; rw [hz, ← hy]
    · right
      rw [hz, hy, ← sub_mul, abs_mul]
      have : (1 : ℚ) ≤ |(z : ℚ) - y| := by exact_mod_cast Int.one_le_abs (sub_ne_zero.mpr hne)
      norm_num
      linarith

/-- the whole run from 1, for any double -/
theorem shift_run_double (he : cfg.epsilon.Is ε) (h0 : 1 / 2 ^ 49 < ε) (h1 : ε ≤ 1 / 2) (hmax : 1 ≤ cfg.maxIterations) {q : ℚ} (hq : |q| ≤ 2 ^ 900)
    (ha : a.Is (if plus then -q else q)) {t : VarsTable (Double L)} {x : Double L} (ht : DoubleTable t [v] (fun _ => x)) (hx : x.Is 1) (fuel : ℕ) :
    ∃ (t' : VarsTable (Double L)) (y : Double L) (Y : ℚ),
      newtonLoop cfg (symOf (shiftEquation plus v a)) (symOf (shiftJac plus)) (fuel + 3) 0 t ⟨1, 1, [Arith.zero]⟩ = .ok t' ∧
      DoubleTable t' [v] (fun _ => y) ∧ y.Is Y ∧ ((Y = 1 ∧ |1 - q| ≤ ε + 1 / 2 ^ 50) ∨ |Y - q| ≤ 1 / 2 ^ 50) ∧ (2 ≤ |q| → Y = q) := by
  have hqd : IsDouble q := by
    have := is_double ha
    cases plus
    · exact this
    · have h2 := is_double (neg_is ha)
      simpa using h2
  have hnd : IsDouble (-q) := by
    have := is_double ha
    cases plus
    · exact is_double (neg_is ha)
    · simpa using this
  have one_d : IsDouble (1 : ℚ) := is_double hx
  have hsm : ∀ z : ℚ, z ≤ 4 * (1 + |q|) → z ≤ 2 ^ 1000 := by
    intro z hz
    have h8 : (8 : ℚ) * 2 ^ 900 ≤ 2 ^ 1000 := by
      have : (8 : ℚ) * 2 ^ 900 = 2 ^ 903 := by rw [show (8 : ℚ) = 2 ^ 3 by norm_num, ← pow_add]
      rw [this]
      exact pow_le_pow_right₀ (by norm_num) (by norm_num)
    have h2 : (1 : ℚ) ≤ 2 ^ 900 := one_le_pow₀ (by norm_num)
    generalize (2 : ℚ) ^ 900 = B at *
    refine le_trans ?_ h8
    linarith
  have hq0 := abs_nonneg q
  have b0 : |1 - q| ≤ 1 + |q| := by simpa using abs_sub (1 : ℚ) q
  have f0 := shift_near hx ha (hsm _ (b0.trans (by linarith)))
  have e0 := rnd_add_rel one_d hnd
  rw [← sub_eq_add_neg] at e0
  by_cases c0 : |rnd (1 - q)| < ε
  · refine ⟨t, x, 1, shift_done he ht f0 c0 _ _ _ _, ht, hx, .inl ⟨rfl, ?_⟩, fun h => ?_⟩
    · have := abs_sub_abs_le_abs_sub (1 - q) (rnd (1 - q))
      rw [abs_sub_comm _ (rnd (1 - q))] at this
      linarith
    · exfalso
      have h3 := abs_sub_abs_le_abs_sub (1 - q) (rnd (1 - q))
      rw [abs_sub_comm _ (rnd (1 - q))] at h3
      have h4 := abs_sub_abs_le_abs_sub q (q - 1)
      rw [sub_sub_cancel, abs_one, abs_sub_comm q 1] at h4
      linarith
  have hp : -rnd (1 - q) = rnd (q - 1) := by rw [← rnd_neg, neg_sub]
  have e0' : |rnd (q - 1) - (q - 1)| ≤ 1 / 2 ^ 53 * |q - 1| := by
    have e : rnd (q - 1) - (q - 1) = -(rnd (1 - q) - (1 - q)) := by rw [← hp]; ring
    rw [e, abs_neg, abs_sub_comm q 1]; exact e0
  have hpd : IsDouble (rnd (q - 1)) := by rw [← hp]; exact is_double (neg_is f0)
  rw [abs_sub_comm 1 q] at b0
  have hp3 : |rnd (q - 1)| ≤ 2 * (1 + |q|) := by
    have := abs_sub_abs_le_abs_sub (rnd (q - 1)) (q - 1)
    linarith [abs_nonneg (q - 1)]
  obtain ⟨t1, z1, k1, k2, k3⟩ := shift_step (plus := plus) he (by linarith) ht f0 (not_lt.mp c0) is_zero' (by
    rw [zero_sub, hp]
    exact hsm _ (hp3.trans (by linarith))) (fuel + 2) 0 (by push_cast; omega)
  rw [zero_sub, hp, rnd_of_isDouble hpd] at k1
  set p := rnd (q - 1) with hpdef
  have b1 : |p - q| ≤ 1 + 1 / 2 ^ 53 * |q - 1| := by
    have e : p - q = (p - (q - 1)) + -1 := by ring
    rw [e]
    refine (abs_add_le _ _).trans ?_
    rw [abs_neg, abs_one]; linarith
  have f1 := shift_near k1 ha (hsm _ (b1.trans (by linarith)))
  have e1 := rnd_add_rel hpd hnd
  rw [← sub_eq_add_neg] at e1
  rcases le_or_gt 2 |q| with hc | hc
  · -- the second value, or the third, is the root
    have g1 : |q| ≤ |q - 1| + 1 := by
      have := abs_sub_abs_le_abs_sub q 1
      rw [abs_one] at this; linarith
    rcases first_far hqd hpd with hpq | hfar
    · rw [← hpdef] at hpq
      have f1' := f1
      rw [hpq, sub_self, rnd_zero] at f1'
      refine ⟨t1, z1, p, k3.trans (shift_done he k2 f1' (by rw [abs_zero]; linarith) _ _ _ _), k2, k1, .inr ?_, fun _ => hpq⟩
      rw [hpq, sub_self, abs_zero]; positivity
    · have hpl : |q - 1| - 1 / 2 ^ 53 * |q - 1| ≤ |p| := by
        have := abs_sub_abs_le_abs_sub (q - 1) p
        rw [abs_sub_comm _ p] at this
        linarith
      have hst : IsDouble (p - q) := by
        have m0 : p ≤ q := by
          rw [← rnd_of_isDouble hqd, hpdef]; exact rnd_mono (by linarith)
        have m1 : q - p ≤ |q| := by
          rw [abs_sub_comm, abs_of_nonneg (by linarith)] at b1
          linarith
        rw [abs_sub_comm q 1] at *
        refine sterbenz hpd hqd ?_ ?_ <;> rw [abs_sub_comm, abs_of_nonneg (sub_nonneg.mpr m0)]
        · rcases abs_cases q with ⟨c1, -⟩ | ⟨c1, c2⟩
          · rw [c1] at hc
            have hh := half_exact hqd (by rw [c1]; exact le_trans (by norm_num) hc)
            have m2 : q / 2 ≤ p := by
              rw [← hh, hpdef]; exact rnd_mono (by linarith)
            rw [abs_of_nonneg (by linarith)]; linarith
          · rw [abs_of_neg (by linarith)]
            linarith
        · exact m1
      rw [rnd_of_isDouble hst] at f1
      obtain ⟨t2, z2, l1, l2, l3⟩ := shift_step (plus := plus) he (by linarith) k2 f1 (h1.trans hfar) k1 (by
        rw [sub_sub_cancel]; exact hsm _ (by linarith)) (fuel + 1) 1 (by push_cast; omega)
      rw [sub_sub_cancel, rnd_of_isDouble hqd] at l1
      have f2 := shift_near l1 ha (by rw [sub_self, abs_zero]; positivity)
      rw [sub_self, rnd_zero] at f2
      refine ⟨t2, z2, q, k3.trans (l3.trans (shift_done he l2 f2 (by rw [abs_zero]; linarith) _ _ _ _)), l2, l1, .inr ?_, fun _ => rfl⟩
      rw [sub_self, abs_zero]; positivity
  · -- rounding errors of a few units of the last place of 1
    have g0 : |q - 1| ≤ 3 := by linarith
    have g1 : |p - q| ≤ 1 + 3 / 2 ^ 53 := by linarith
    have g2 : 1 - 3 / 2 ^ 53 ≤ |p - q| := by
      have e3 := abs_sub_abs_le_abs_sub (1 : ℚ) (1 - (q - p))
      have e4 : (1 : ℚ) - (1 - (q - p)) = q - p := by ring
      have e5 : 1 - (q - p) = p - (q - 1) := by ring
      rw [e4, e5, abs_one, abs_sub_comm q p] at e3
      linarith
    set f := rnd (p - q) with hf
    have g3 : |f - (p - q)| ≤ 2 / 2 ^ 53 := by linarith
    have g4 : ε ≤ |f| := by
      have := abs_sub_abs_le_abs_sub (p - q) f
      rw [abs_sub_comm _ f] at this
      linarith
    have g5 : |(p - f) - q| ≤ 2 / 2 ^ 53 := by
      have e : (p - f) - q = -(f - (p - q)) := by ring
      rw [e, abs_neg]; exact g3
    have g6 : |p - f| ≤ 3 := by
      have := abs_sub_abs_le_abs_sub (p - f) q
      linarith
    obtain ⟨t2, z2, l1, l2, l3⟩ := shift_step (plus := plus) he (by linarith) k2 f1 g4 k1 (hsm _ (by linarith)) (fuel + 1) 1 (by push_cast; omega)
    have e2 := rnd_add_rel hpd (is_double (neg_is f1))
    rw [← sub_eq_add_neg] at e2
    set X := rnd (p - f) with hX
    have g7 : |X - q| ≤ 5 / 2 ^ 53 := by
      have e : X - q = (X - (p - f)) + ((p - f) - q) := by ring
      rw [e]
      refine (abs_add_le _ _).trans ?_
      linarith
    have f2 := shift_near l1 ha (hsm _ (by linarith))
    have e3 := rnd_add_rel (is_double l1) hnd
    rw [← sub_eq_add_neg] at e3
    have g8 : |rnd (X - q)| < ε := by
      have := abs_sub_abs_le_abs_sub (rnd (X - q)) (X - q)
      linarith
    exact ⟨t2, z2, X, k3.trans (l3.trans (shift_done he l2 f2 g8 _ _ _ _)), l2, l1, .inr (by linarith), fun h => absurd h (not_le.mpr hc)⟩
end Double
end Tom
