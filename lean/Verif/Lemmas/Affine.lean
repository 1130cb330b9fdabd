import Verif.Lemmas.Shift
import Verif.Spec.Affine
/-
Newton's method with doubles for `k v + a` and `k v - a` with integers: every operation is exact.
-/
set_option linter.unusedSectionVars false
namespace Tom
namespace Double
variable {L : Libm}

/-- the derivative, as it is computed: `k * 1 + 0` or `k * 1 - 0` -/
def affineSlope (plus : Bool) (k : Double L) : Double L := shiftF plus (Arith.mul k (Dbl.ofInt 1)) (Dbl.ofInt 0)

theorem affine_mul_one {k : Double L} {c : ℤ} (hk : k.Is c) (h : |c| ≤ 2 ^ 53) : (Arith.mul k (Dbl.ofInt 1)).Is c := by
  have := int_mul hk (oneZ_is (L := L)) (by rwa [mul_one])
  rw [mul_one] at this
  exact this

theorem affineSlope_is (plus : Bool) {k : Double L} {c : ℤ} (hk : k.Is c) (h : |c| ≤ 2 ^ 53) : (affineSlope plus k).Is c := by
  have h0 : (Dbl.ofInt 0 : Double L).Is ((if plus then -0 else 0 : ℤ) : ℚ) := by
    have := is_ofInt (L := L) (i := 0) (by norm_num)
    simpa using this
  have := shift_is (plus := plus) (r := 0) (affine_mul_one hk h) h0 (by rwa [sub_zero])
  rw [sub_zero] at this
  exact this

/-- the Jacobian matrix -/
def affineJac (plus : Bool) (k : Double L) : Matrix (Fin 1) (Fin 1) (Expr (Double L)) := fun _ _ => .num (affineSlope plus k)

theorem affine_simp (cfg : Config (Double L)) (plus : Bool) (v : Str) {k : Double L} (a : Double L) {c : ℤ} (hk : k.Is c) (h : |c| ≤ 2 ^ 53) :
    simpE cfg (dE v (affine plus v k a)) = .ok (.num (affineSlope plus k)) := by
  have hc : ∀ {z : Double L} {q : ℚ}, z.Is q → checked cfg.throwOnInvalidValue z = .ok z := fun {z q} hz => by
    have : Dbl.isInvalid z = false := hz.1
    unfold checked; rw [this]; simp
  have hd : dE v (affine plus v k a) = .bin (shiftOp plus) (.bin .mul (.num k) (.num (Dbl.ofInt 1))) (.num (Dbl.ofInt 0)) := by
    cases plus <;> simp [affine, shiftOp, dE, Expr.isNum]
  have h1 : simpE cfg (.bin .mul (.num k) (.num (Dbl.ofInt 1))) = .ok (.num (Arith.mul k (Dbl.ofInt 1))) := by
    show (Res.noexcept (checked cfg.throwOnInvalidValue (Arith.mul k (Dbl.ofInt 1))) >>= fun w => Res.ok (Expr.num w)) = _
    rw [hc (affine_mul_one hk h)]; rfl
  have h2 : (shiftOp plus).apply (Arith.mul k (Dbl.ofInt 1)) (Dbl.ofInt 0) = some (affineSlope plus k) := shift_apply plus _ _
  have h3 : simpTop cfg (.bin (shiftOp plus) (.num (Arith.mul k (Dbl.ofInt 1))) (.num (Dbl.ofInt 0))) =
      Res.noexcept (checked cfg.throwOnInvalidValue (affineSlope plus k)) >>= fun w => .ok (.num w) := by
    simp only [simpTop]
    rw [h2]
  rw [hd, simpE, h1, Res.bind_ok, simpE, Res.bind_ok, h3, hc (affineSlope_is plus hk h)]
  rfl

theorem affine_diff (cfg : Config (Double L)) (plus : Bool) (v : Str) {k : Double L} (a : Double L) {c : ℤ} (hk : k.Is c) (h : |c| ≤ 2 ^ 53) :
    diffConst cfg (embed (affine plus v k a)) v 1 = .ok (embed (.num (affineSlope plus k) : Expr (Double L))) := by
  unfold diffConst
  rw [clone_eq _ (embed_isSome _), Res.bind_ok, diff_ok cfg _ 1 (by omega) _ (by cases plus <;> simp [affine, shiftOp, Expr.hasIntOp]), simplify_embed]
  simp only [Int.toNat_one, Function.iterate_one]
  rw [affine_simp cfg plus v a hk h, Res.bind_ok]

theorem affine_jacobian (cfg : Config (Double L)) (plus : Bool) (v : Str) {k : Double L} (a : Double L) {c : ℤ} (hk : k.Is c) (hc : |c| ≤ 2 ^ 53) :
    (symOf (affineEquation plus v k a)).jacobian cfg [v] = .ok (symOf (affineJac plus k)) := by
  have hj : ∀ j : Fin [v].length, [v][j] = v := fun j => by
    match j with
    | ⟨0, _⟩ => rfl
  obtain ⟨J, hJ⟩ := (C32_returns Nat.one_pos cfg (affineEquation plus v k a) [v] (by simp)).1.mpr fun i j => by
    rw [hj j]; exact ⟨_, affine_diff cfg plus v a hk hc⟩
  obtain ⟨D, rfl⟩ := jacobian_symOf Nat.one_pos cfg _ [v] (by simp) J hJ
  obtain ⟨_, _, _, h⟩ := C32 Nat.one_pos cfg _ [v] (by simp) _ hJ
  have hD : D = fun _ _ => .num (affineSlope plus k) := by
    funext i j
    obtain ⟨d, h1, h2⟩ := h i j
    rw [C50_value, Res.ok.injEq] at h1
    rw [hj j] at h2
    have h3 := (affine_diff cfg plus v a hk hc).symm.trans h2
    rw [Res.ok.injEq] at h3
    exact embed_injective (h1.trans h3.symm)
  rw [hJ, hD]
  rfl

/-- `k x + a` or `k x - a` -/
def affineF (plus : Bool) (k x a : Double L) : Double L := shiftF plus (Arith.mul k x) a

theorem affine_evalVec (cfg : Config (Double L)) {t : VarsTable (Double L)} {v : Str} {w : Fin [v].length → Double L} (ht : DoubleTable t [v] w)
    {plus : Bool} {k a : Double L} {M F : ℚ} (hM : (Arith.mul k (w 0)).Is M) (hF : (affineF plus k (w 0) a).Is F) :
    evalVec cfg (symOf (affineEquation plus v k a)) t = .ok ⟨1, 1, [affineF plus k (w 0) a]⟩ := by
  refine (evalVec_ok Nat.one_pos cfg _ t _).mpr ⟨fun _ _ => affineF plus k (w 0) a, rfl, fun i => ?_⟩
  have h1 : (Expr.var v : Expr (Double L)).eval cfg.throwOnInvalidValue (envOf t.table) = .ok (w 0) := table_env ht
  exact eval_bin_is (eval_bin_is rfl h1 rfl hM) rfl (shift_apply plus _ _) hF

theorem affine_evalMat (cfg : Config (Double L)) (t : VarsTable (Double L)) (plus : Bool) (k : Double L) :
    evalMat cfg (symOf (affineJac plus k)) t = .ok ⟨1, 1, [affineSlope plus k]⟩ :=
  (C50_evaluate Nat.one_pos Nat.one_pos cfg _ t _).mpr ⟨fun _ _ => affineSlope plus k, rfl, fun _ _ => rfl⟩

variable {cfg : Config (Double L)} {ε : ℚ} {v : Str} {k a : Double L} {plus : Bool}

/-- the test is passed -/
theorem affine_done (he : cfg.epsilon.Is ε) {t : VarsTable (Double L)} {w : Fin [v].length → Double L} (ht : DoubleTable t [v] w) {M F : ℚ}
    (hM : (Arith.mul k (w 0)).Is M) (hF : (affineF plus k (w 0) a).Is F) (h : |F| < ε) (ja : SymMat (Double L)) (fuel it : ℕ) (q : Mat (Double L)) :
    newtonLoop cfg (symOf (affineEquation plus v k a)) ja (fuel + 1) it t q = .ok t := by
  unfold newtonLoop
  rw [affine_evalVec cfg ht hM hF, Res.bind_ok, one_eqNum hF he, decide_eq_true h, if_pos rfl]

/-- one more step: the left hand side is `c d`, and `d` is subtracted from `y` -/
theorem affine_more (he : cfg.epsilon.Is ε) (h1 : ε ≤ 1) {c : ℤ} (hk : k.Is c) (hc : |c| ≤ 2 ^ 53) (hc0 : c ≠ 0) {t : VarsTable (Double L)}
    {w : Fin [v].length → Double L} (ht : DoubleTable t [v] w) {M : ℚ} {d m : ℤ} (hM : (Arith.mul k (w 0)).Is M)
    (hF : (affineF plus k (w 0) a).Is ((c * d : ℤ) : ℚ)) (hd : d ≠ 0) (hdm : |d| ≤ 2 ^ 53) {y : Double L} (hy : y.Is m) (hm : |m - d| ≤ 2 ^ 53) (fuel it : ℕ)
    (hit : (it : ℤ) ≤ cfg.maxIterations) :
    ∃ (t' : VarsTable (Double L)) (z : Double L), z.Is ((m - d : ℤ) : ℚ) ∧ DoubleTable t' [v] (fun _ => z) ∧
      newtonLoop cfg (symOf (affineEquation plus v k a)) (symOf (affineJac plus k)) (fuel + 1) it t ⟨1, 1, [y]⟩ =
        newtonLoop cfg (symOf (affineEquation plus v k a)) (symOf (affineJac plus k)) fuel (it + 1) t' ⟨1, 1, [z]⟩ := by
  have hJ := affineSlope_is plus hk hc
  have hcq : (c : ℚ) ≠ 0 := by exact_mod_cast hc0
  have big : ∀ j : ℤ, j ≠ 0 → ε ≤ |(j : ℚ)| := fun j hj => h1.trans (by exact_mod_cast Int.one_le_abs hj)
  have h := big _ (mul_ne_zero hc0 hd)
  set z : Double L := Arith.add y (Arith.sub (Arith.div (Arith.neg (affineF plus k (w 0) a)) (affineSlope plus k)) Arith.zero) with hz
  have hdd := isDouble_int (-d) (by rwa [abs_neg])
  have d1 : (Arith.div (Arith.neg (affineF plus k (w 0) a)) (affineSlope plus k)).Is ((-d : ℤ) : ℚ) := by
    have e : (((-(c * d) : ℤ) : ℚ)) / (c : ℚ) = ((-d : ℤ) : ℚ) := by push_cast; field_simp
    have := div_is (int_neg hF) hJ hcq (by rw [e, rnd_of_isDouble hdd]; exact isDouble_lt hdd)
    rwa [e, rnd_of_isDouble hdd] at this
  have z0 : (Arith.zero : Double L).Is ((0 : ℤ) : ℚ) := by rw [Int.cast_zero]; exact is_zero'
  have d2 := int_sub d1 z0 (by rw [sub_zero, abs_neg]; exact hdm)
  rw [sub_zero] at d2
  have d3 := int_add hy d2 (by rwa [← sub_eq_add_neg])
  rw [← sub_eq_add_neg] at d3
  obtain ⟨t', k1, k2⟩ := DoubleTable.setValues ht (fun _ => z)
  refine ⟨t', z, d3, k2, ?_⟩
  conv_lhs => unfold newtonLoop
  rw [affine_evalVec cfg ht hM hF, Res.bind_ok, one_eqNum hF he, decide_eq_false (not_lt.mpr h), if_neg (by simp), if_neg (not_lt.mpr hit),
    affine_evalMat cfg t plus, Res.bind_ok]
  have e1 : (⟨1, 1, [affineF plus k (w 0) a]⟩ : Mat (Double L)).neg = ⟨1, 1, [Arith.neg (affineF plus k (w 0) a)]⟩ := rfl
  rw [e1, solveLinear_one _ _ _ (by rw [eq_is (abs_is hJ) (abs_is hJ)]; exact decide_eq_true rfl), if_neg (by
    rw [lt_is (abs_is hJ) he, decide_eq_true_iff]; exact not_lt.mpr (big _ hc0)), Res.bind_ok, one_add, Res.bind_ok]
  have e2 : ∀ z : Double L, vec (fun _ : Fin [v].length => z) = ⟨1, 1, [z]⟩ := fun z => rfl
  rw [e2] at k1
  rw [k1, Res.bind_ok]

/-- the whole run from an integer -/
theorem affine_run (he : cfg.epsilon.Is ε) (h0 : 0 < ε) (h1 : ε ≤ 1) (hmax : 1 ≤ cfg.maxIterations) {c r i : ℤ} (hk : k.Is c) (hc0 : c ≠ 0)
    (hc : |c| ≤ 2 ^ 53) (hr : |c * r| ≤ 2 ^ 51) (hi : |c * i| ≤ 2 ^ 51) (ha : a.Is ((if plus then -(c * r) else c * r : ℤ) : ℚ))
    {t : VarsTable (Double L)} {x : Double L} (ht : DoubleTable t [v] (fun _ => x)) (hx : x.Is i) (fuel : ℕ) :
    ∃ (t' : VarsTable (Double L)) (y : Double L),
      newtonLoop cfg (symOf (affineEquation plus v k a)) (symOf (affineJac plus k)) (fuel + 3) 0 t ⟨1, 1, [Arith.zero]⟩ = .ok t' ∧
      DoubleTable t' [v] (fun _ => y) ∧ y.Is r := by
  have small : ∀ {j : ℤ}, |c * j| ≤ 2 ^ 51 → |j| ≤ 2 ^ 51 := fun {j} h => by
    rw [abs_mul] at h
    exact le_trans (le_mul_of_one_le_left (abs_nonneg j) (Int.one_le_abs hc0)) h
  obtain ⟨hr1, hr2⟩ := abs_le.mp (small hr)
  obtain ⟨hi1, hi2⟩ := abs_le.mp (small hi)
  obtain ⟨hr3, hr4⟩ := abs_le.mp hr
  obtain ⟨hi3, hi4⟩ := abs_le.mp hi
  have z0 : (Arith.zero : Double L).Is ((0 : ℤ) : ℚ) := by rw [Int.cast_zero]; exact is_zero'
  have m0 := int_mul hk hx (hi.trans (by norm_num))
  have f0 := shift_is (plus := plus) m0 ha (by rw [abs_le]; constructor <;> linarith)
  rw [← mul_sub] at f0
  by_cases c0 : i - r = 0
  · refine ⟨t, x, affine_done he ht m0 f0 (by rw [c0]; simpa using h0) _ _ _ _, ht, ?_⟩
    rwa [← sub_eq_zero.mp c0]
  obtain ⟨t1, z1, k1, k2, k3⟩ := affine_more (plus := plus) he h1 hk hc hc0 ht m0 f0 c0 (by rw [abs_le]; constructor <;> linarith) z0
    (by rw [abs_le]; constructor <;> linarith) (fuel + 2) 0 (by push_cast; omega)
  have m1 := int_mul hk k1 (by rw [abs_le]; constructor <;> linarith [mul_sub c i r, mul_sub c 0 (i - r), mul_zero c])
  have f1 := shift_is (plus := plus) m1 ha (by rw [abs_le]; constructor <;> linarith [mul_sub c i r, mul_sub c 0 (i - r), mul_zero c])
  have e1 : c * (0 - (i - r)) - c * r = c * (-i) := by ring
  rw [e1] at f1
  by_cases c1 : i = 0
  · refine ⟨t1, z1, k3.trans (affine_done he k2 m1 f1 (by rw [c1]; simpa using h0) _ _ _ _), k2, ?_⟩
    rw [c1] at k1
    simpa using k1
  obtain ⟨t2, z2, l1, l2, l3⟩ := affine_more (plus := plus) he h1 hk hc hc0 k2 m1 f1 (neg_ne_zero.mpr c1) (by rw [abs_neg]; exact (small hi).trans (by norm_num))
    k1 (by rw [abs_le]; constructor <;> linarith) (fuel + 1) 1 (by push_cast; omega)
  have e2 : 0 - (i - r) - -i = r := by ring
  rw [e2] at l1
  have m2 := int_mul hk l1 (hr.trans (by norm_num))
  have f2 := shift_is (plus := plus) m2 ha (by simp)
  exact ⟨t2, z2, k3.trans (l3.trans (affine_done he l2 m2 f2 (by simpa using h0) _ _ _ _)), l2, l1⟩

end Double
end Tom
