import Verif.Props.Underflow
import Verif.Lemmas.Double
/-
`double` satisfies the laws of Spec/Underflow, so line searches with `double` end.
-/
namespace Tom
variable {L : Libm}
namespace Double

/-- finite -/
def IsFin (x : Double L) : Prop := x.raw.isInvalid = false
/-- `+0` or `-0` -/
def Zero (x : Double L) : Prop := ∃ s, x.raw = .zero s
/-- finite and not `-0` -/
def Plain (x : Double L) : Prop := x.raw.isInvalid = false ∧ x.raw ≠ .zero true
/-- a zero, a positive number or `+inf` -/
def Nonneg (x : Double L) : Prop := (∃ s, x.raw = .zero s) ∨ (∃ q, 0 < q ∧ x.raw = .num q) ∨ x.raw = .inf false

theorem half_raw : (lit 5 (-1) : Double L).raw = .num (1 / 2) := by
  obtain ⟨x, h1, h2⟩ := ofDec_some (L := L) (m := 5) (e := -1) (v := .num (1 / 2)) (by decide +kernel)
  rw [lit, h1, Option.getD_some, h2]

theorem gamma_raw : ∃ q, (lit 4 (-1) : Double L).raw = .num q := by
  obtain ⟨x, h1, h2⟩ := ofDec_some (L := L) (m := 4) (e := -1) (v := .num (3602879701896397 / 9007199254740992)) (by decide +kernel)
  exact ⟨_, by rw [lit, h1, Option.getD_some, h2]⟩

theorem isDouble_half_pow (k : ℕ) (hk : k ≤ 1074) : IsDouble ((2 : ℚ) ^ (-(k : ℤ))) :=
  ⟨1, -k, by norm_num, by norm_num, by omega, by omega, by norm_num⟩

theorem halving (k : ℕ) (hk : k ≤ 1074) :
    ((fun a : Double L => Arith.mul a (lit 5 (-1)))^[k] (Dbl.ofInt 1)).raw = .num (2 ^ (-(k : ℤ))) := by
  induction k with
  | zero => show F64.round false 1 = _; rw [show (2 : ℚ) ^ (-((0 : ℕ) : ℤ)) = 1 by norm_num]; decide +kernel
  | succ k ih =>
    rw [Function.iterate_succ_apply']
    show F64.mul (raw _) (raw _) = _
    rw [ih (by omega), half_raw]
    show F64.round false _ = _
    have e : (2 : ℚ) ^ (-(k : ℤ)) * (1 / 2) = 2 ^ (-((k + 1 : ℕ) : ℤ)) := by
      push_cast
      rw [neg_add, ← sub_eq_add_neg, zpow_sub_one₀ (by norm_num), one_div]
    have hd := isDouble_half_pow (k + 1) hk
    rw [e, round_eq, rnd_of_isDouble hd, if_neg (by positivity), if_neg (by positivity),
      if_neg (not_le.mpr (isDouble_lt hd))]

/-- The smallest positive number is `2^-1074`; half of it is rounded to zero. -/
theorem halves : Zero ((fun a : Double L => Arith.mul a (lit 5 (-1)))^[1075] (Dbl.ofInt 1)) := by
  have e0 := Function.iterate_succ_apply' (fun a : Double L => Arith.mul a (lit 5 (-1))) 1074 (Dbl.ofInt 1)
  rw [show (1075 : ℕ) = Nat.succ 1074 from rfl, e0]
  refine ⟨false, ?_⟩
  have e1 : ∀ a : Double L, (Arith.mul a (lit 5 (-1)) : Double L).raw = F64.mul a.raw (lit 5 (-1) : Double L).raw := fun _ => rfl
  rw [e1, halving 1074 (le_refl _), half_raw]
  have e : (2 : ℚ) ^ (-((1074 : ℕ) : ℤ)) = 1 / 2 ^ 1074 := by rw [zpow_neg, zpow_natCast, one_div]
  rw [e]
  decide +kernel

/-- `double` underflows: 1075 halvings of 1 give zero. -/
def underflows (L : Libm) : Underflows (Double L) 1075 where
  fin := IsFin
  zero := Zero
  plain := Plain
  nonneg := Nonneg
  halves := halves
  fin_zero := rfl
  zero_zero := ⟨false, rfl⟩
  lit_mul := by
    rintro a ⟨s, h⟩
    obtain ⟨q, hq⟩ := gamma_raw (L := L)
    refine ⟨xor (decide (q < 0)) s, ?_⟩
    show F64.mul (raw _) (raw _) = _
    rw [hq, h]; rfl
  mul_zero := by
    rintro v a hv ⟨s, h⟩
    show ∃ t, F64.mul (raw v) (raw a) = .zero t
    unfold IsFin at hv
    rw [h]
    cases hr : v.raw <;> rw [hr] at hv
    · simp [F64.isInvalid] at hv
    · simp [F64.isInvalid] at hv
    · exact ⟨_, rfl⟩
    · exact ⟨_, rfl⟩
  zero_mul := by
    rintro a v ⟨s, h⟩ hv
    show ∃ t, F64.mul (raw a) (raw v) = .zero t
    unfold IsFin at hv
    rw [h]
    cases hr : v.raw <;> rw [hr] at hv
    · simp [F64.isInvalid] at hv
    · simp [F64.isInvalid] at hv
    · exact ⟨_, rfl⟩
    · exact ⟨_, rfl⟩
  zero_add := by
    rintro a b ⟨s, h⟩ ⟨t, h'⟩
    refine ⟨s && t, ?_⟩
    show F64.add (raw a) (raw b) = _
    rw [h, h']; rfl
  add_zero := by
    rintro v a ⟨hv, hp⟩ ⟨s, h⟩
    refine Double.ext ?_
    show F64.add (raw v) (raw a) = _
    rw [h]
    cases hr : v.raw <;> rw [hr] at hv hp
    · simp [F64.isInvalid] at hv
    · simp [F64.isInvalid] at hv
    · rename_i t
      cases t
      · rfl
      · exact absurd rfl hp
    · rfl
  square := by
    rintro v a hv ⟨s, h⟩
    refine Double.ext ?_
    show F64.mul (F64.add (raw v) (raw a)) (F64.add (raw v) (raw a)) = F64.mul (raw v) (raw v)
    unfold IsFin at hv
    rw [h]
    cases hr : v.raw <;> rw [hr] at hv
    · simp [F64.isInvalid] at hv
    · simp [F64.isInvalid] at hv
    · simp [F64.add, F64.mul, F64.signBit]
    · rfl
  square_nonneg := by
    rintro v hv
    unfold IsFin at hv
    have e : (Arith.mul v v : Double L).raw = F64.mul v.raw v.raw := rfl
    unfold Nonneg
    rw [e]
    cases hr : v.raw <;> rw [hr] at hv
    · simp [F64.isInvalid] at hv
    · simp [F64.isInvalid] at hv
    · exact .inl ⟨_, rfl⟩
    · rename_i q
      show (∃ s, F64.round false (q * q) = .zero s) ∨ (∃ p, 0 < p ∧ F64.round false (q * q) = .num p) ∨ F64.round false (q * q) = .inf false
      rw [round_eq]
      split_ifs with h1 h2 h3
      · exact .inl ⟨_, rfl⟩
      · exact .inl ⟨_, rfl⟩
      · right; right
        rw [decide_eq_false (not_lt.mpr (mul_self_nonneg q))]
      · right; left
        refine ⟨_, lt_of_le_of_ne ?_ (Ne.symm h2), rfl⟩
        exact le_rnd _ 0 ((isDouble_iff 0).mp isDouble_zero).1 (mul_self_nonneg q)
  add_nonneg := by
    rintro a b ha hb
    have e : (Arith.add a b : Double L).raw = F64.add a.raw b.raw := rfl
    unfold Nonneg
    rw [e]
    rcases ha with ⟨s, ha⟩ | ⟨p, hp, ha⟩ | ha <;> rcases hb with ⟨t, hb⟩ | ⟨q, hq, hb⟩ | hb <;> rw [ha, hb]
    · exact .inl ⟨_, rfl⟩
    · exact .inr (.inl ⟨q, hq, rfl⟩)
    · exact .inr (.inr rfl)
    · exact .inr (.inl ⟨p, hp, rfl⟩)
    · show (∃ s, F64.round false (p + q) = .zero s) ∨ (∃ r, 0 < r ∧ F64.round false (p + q) = .num r) ∨ F64.round false (p + q) = .inf false
      rw [round_eq]
      split_ifs with h1 h2 h3
      · exact .inl ⟨_, rfl⟩
      · exact .inl ⟨_, rfl⟩
      · right; right
        rw [decide_eq_false (not_lt.mpr (by linarith))]
      · right; left
        refine ⟨_, lt_of_le_of_ne ?_ (Ne.symm h2), rfl⟩
        exact le_rnd _ 0 ((isDouble_iff 0).mp isDouble_zero).1 (by linarith)
    · exact .inr (.inr rfl)
    · exact .inr (.inr rfl)
    · exact .inr (.inr rfl)
    · exact .inr (.inr rfl)
  le_refl := by
    rintro a ha
    show F64.le a.raw a.raw = true
    rcases ha with ⟨s, ha⟩ | ⟨p, hp, ha⟩ | ha <;> rw [ha]
    · simp [F64.le, F64.lt, F64.eq]
    · simp [F64.le, F64.lt, F64.eq]
    · rfl

end Double

/-- C43, C53 for `double`: `Armijo` ends after at most 1076 rounds if the point, the direction, the equations and the Jacobian at the point
are finite (and no coordinate of the point is `-0`), and the callbacks return. -/
theorem C43_ieee_line_search (f df : Mat (Double L) → Res (Mat (Double L))) (hf : ∀ v, f v ≠ .diverge) (hdf : ∀ v, df v ≠ .diverge)
    (x d : Mat (Double L)) (hx : ∀ v ∈ x.data, Dbl.isInvalid v = false ∧ v.raw ≠ .zero true) (hd : ∀ v ∈ d.data, Dbl.isInvalid v = false)
    (hF : ∀ F, f x = .ok F → ∀ v ∈ F.data, Dbl.isInvalid v = false) (hJ : ∀ J, df x = .ok J → ∀ v ∈ J.data, Dbl.isInvalid v = false)
    (fuel : ℕ) (hfuel : 1075 < fuel) : armijo fuel x d f df ≠ .diverge :=
  C43_line_search (Double.underflows L) f df hf hdf x d hx hd hF hJ fuel hfuel

theorem add_not_negZero {x y : Double L} (hx : x.raw ≠ .zero true) : (Arith.add x y : Double L).raw ≠ .zero true := by
  intro h
  have hi : (Arith.add x y : Double L).Is 0 := Double.is_zero h
  obtain ⟨p, q, hp, hq, h1, h2⟩ := Double.add_inv hi
  have e : (Arith.add x y : Double L).raw = F64.add x.raw y.raw := rfl
  rw [h] at e
  rcases Double.is_cases hp with ⟨rfl, s, hs⟩ | ⟨hp0, hs⟩ <;> rcases Double.is_cases hq with ⟨rfl, t, ht⟩ | ⟨hq0, ht⟩ <;> rw [hs, ht] at e
  · cases s
    · cases t <;> simp [F64.add] at e
    · exact hx hs
  · simp [F64.add] at e
  · simp [F64.add] at e
  · have h3 := rnd_add_rel (Double.is_double hp) (Double.is_double hq)
    have h4 : p + q ≠ 0 := by
      intro h0
      simp [F64.add, h0, F64.round] at e
    rw [← h1, zero_sub, abs_neg] at h3
    have : 0 < |p + q| := abs_pos.mpr h4
    have h5 : (1 : ℚ) / 2 ^ 53 * |p + q| < 1 * |p + q| := mul_lt_mul_of_pos_right (by norm_num) this
    linarith

/-- Adding a step never makes a coordinate `-0`. -/
theorem step_not_negZero (q d q' : Mat (Double L)) (hq : ∀ v ∈ q.data, v.raw ≠ .zero true) (h : q.add d = .ok q') :
    ∀ v ∈ q'.data, v.raw ≠ .zero true := by
  unfold Mat.add at h
  split at h
  · unfold zipV at h
    split at h
    · simp only [Res.bind_ok, Res.ok.injEq] at h
      subst h
      intro v hv
      obtain ⟨i, hi, rfl⟩ := List.getElem_of_mem hv
      simp only [List.getElem_zipWith]
      exact add_not_negZero (hq _ (List.getElem_mem _))
    · cases h
  · cases h

/-- C43 for `double`, partial: from a start without `-0`, LM with a non-negative `maxIterations` ends, unless a line search starts at a
point where a coordinate, the direction, an equation or an entry of the Jacobian is inf or nan.  Missing: that case, see
`C43_false_nan`. -/
theorem C43_ieee_lm_partial {r : ℕ} (hr : 0 < r) (cfg : Config (Double L)) (hmax : 0 ≤ cfg.maxIterations)
    (lsFuel fuel : ℕ) (hls : 1075 < lsFuel) (hfuel : cfg.maxIterations < fuel) (f : Matrix (Fin r) (Fin 1) (Expr (Double L)))
    {t : VarsTable (Double L)} (ht : t.Reachable) (h0 : ∀ v ∈ t.values.data, v.raw ≠ .zero true)
    (hfin : ∀ J, (symOf f).jacobian cfg t.vars = .ok J → ∀ (t0 : VarsTable (Double L)) k (t1 : VarsTable (Double L)) (d : Mat (Double L)),
      t0.vars = t.vars → (∀ v ∈ t0.values.data, v.raw ≠ .zero true) → LMSearch cfg (symOf f) J t0 k t1 d →
      (∀ v ∈ t0.values.data, Dbl.isInvalid v = false) ∧ (∀ v ∈ d.data, Dbl.isInvalid v = false) ∧
      (∀ F, evalVec cfg (symOf f) t0 = .ok F → ∀ v ∈ F.data, Dbl.isInvalid v = false) ∧
      ∀ j, evalMat cfg J t0 = .ok j → ∀ v ∈ j.data, Dbl.isInvalid v = false) :
    solveByLM cfg lsFuel fuel (symOf f) t ≠ .diverge :=
  C43_lm_underflow_partial (Double.underflows L) hr cfg hmax lsFuel fuel hls hfuel f ht (fun q => ∀ v ∈ q.data, v.raw ≠ .zero true)
    step_not_negZero h0 fun J hJ t0 k t1 d h1 h2 h3 => by
      obtain ⟨a, b, c, e⟩ := hfin J hJ t0 k t1 d h1 h2 h3
      exact ⟨fun v hv => ⟨a v hv, h2 v hv⟩, b, c, e⟩

/-! ### the hypotheses are met -/
namespace Double

/-- a libm (it plays no role in the example) -/
def libm0 : Libm := ⟨id, id, id, id, id, id, id, id, id, id, id, fun a _ => a, libstdcxxOrder⟩

/-- `x + 1` -/
def plusOne : Matrix (Fin 1) (Fin 1) (Expr (Double libm0)) := fun _ _ => .bin .add (.var ['x']) (.num (Dbl.ofInt 1))

/-- its derivative -/
def plusOneJ : Matrix (Fin 1) (Fin 1) (Expr (Double libm0)) := fun _ _ => .num (Dbl.ofInt 1)

/-- the default configuration (config.h:12-41) with LM -/
def config : Config (Double libm0) where
  throwOnInvalidValue := true
  epsilon := lit 1 (-9)
  maxIterations := 100
  nonlinearMethod := .lm
  initialValue := Dbl.ofInt 1
  allowIndeterminateEquation := false

/-- a table with the variable `x` -/
def var (v : Double libm0) : VarsTable (Double libm0) := ⟨[['x']], ⟨1, 1, [v]⟩, [(['x'], v)]⟩

theorem table_one {t : VarsTable (Double libm0)} (ht : t.Reachable) (hv : t.vars = [['x']]) : ∃ v, t = var v := by
  have hg := ht.good
  obtain ⟨vars, ⟨r, c, data⟩, table⟩ := t
  obtain ⟨h1, h2⟩ := hg.vec
  have h3 := hg.len
  simp only at h1 h2 h3 hv
  subst hv h1
  simp only [List.length_singleton] at h3
  subst h3
  obtain ⟨v, rfl⟩ := List.length_eq_one_iff.mp h2
  refine ⟨v, ?_⟩
  exact hg.ext (VarsTable.Reachable.ofList (l := [(['x'], v)]) rfl : (var v).Reachable).good rfl rfl

theorem one_is : (Dbl.ofInt 1 : Double L).Is 1 := by simpa using is_ofInt (L := L) (i := 1) (by norm_num)

/-- a positive number or `+inf` -/
def Pos (x : Double L) : Prop := (∃ q, 0 ≤ q ∧ x.Is q) ∨ x.raw = .inf false

theorem damping (k : ℕ) : Pos (lmDamping k : Double L) := by
  induction k with
  | zero =>
    obtain ⟨x, h1, h2⟩ := ofDec_some (L := L) (m := 1) (e := -5) (v := .num (5902958103587057 / 590295810358705651712)) (by decide +kernel)
    left
    refine ⟨_, by norm_num, is_num (q := 5902958103587057 / 590295810358705651712) ?_⟩
    show (lit 1 (-5) : Double L).raw = _
    rw [lit, h1, Option.getD_some, h2]
  | succ k ih =>
    have e : (lmDamping (k + 1) : Double L) = Arith.mul (lmDamping k) (Dbl.ofInt 10) := by
      unfold lmDamping; rw [Function.iterate_succ_apply']
    have h10 : (Dbl.ofInt 10 : Double L).Is 10 := by simpa using is_ofInt (L := L) (i := 10) (by norm_num)
    rw [e]
    rcases ih with ⟨q, hq, hi⟩ | hi
    · by_cases hb : |rnd (q * 10)| < 2 ^ 1024
      · exact .inl ⟨_, le_rnd _ 0 ((isDouble_iff 0).mp isDouble_zero).1 (by linarith), mul_is hi h10 hb⟩
      · right
        have e1 : (Arith.mul (lmDamping k) (Dbl.ofInt 10) : Double L).raw = F64.mul (lmDamping k : Double L).raw (Dbl.ofInt 10 : Double L).raw := rfl
        rcases is_cases hi with ⟨h0, s, hs⟩ | ⟨h0, hs⟩
        · rw [h0, zero_mul, rnd_zero] at hb; exact absurd (by positivity) hb
        · rcases is_cases h10 with ⟨h0', _⟩ | ⟨_, hs'⟩
          · norm_num at h0'
          · rw [e1, hs, hs']
            show F64.round false (q * 10) = _
            rw [round_eq, if_neg (by simp [h0]), if_neg (by intro h; rw [h] at hb; exact hb (by positivity)), if_pos (not_lt.mp hb)]
            simp [hq]
    · right
      rcases is_cases h10 with ⟨h0', _⟩ | ⟨_, hs'⟩
      · norm_num at h0'
      · show F64.mul (lmDamping k : Double L).raw (Dbl.ofInt 10 : Double L).raw = _
        rw [hi, hs']; simp [F64.mul, F64.signBit]

theorem add_one_pos {x : Double L} (h : Pos x) : (∃ q, 1 ≤ q ∧ (Arith.add (Dbl.ofInt 1) x).Is q) ∨ (Arith.add (Dbl.ofInt 1) x).raw = .inf false := by
  have e1 : (Arith.add (Dbl.ofInt 1) x : Double L).raw = F64.add (Dbl.ofInt 1 : Double L).raw x.raw := rfl
  have h1d := ((isDouble_iff 1).mp (is_double (one_is (L := L)))).1
  rcases h with ⟨q, hq, hi⟩ | hi
  · by_cases hb : |rnd (1 + q)| < 2 ^ 1024
    · exact .inl ⟨_, le_rnd _ 1 h1d (by linarith), add_is one_is hi hb⟩
    · right
      rcases is_cases hi with ⟨h0, s, hs⟩ | ⟨h0, hs⟩
      · rw [h0, add_zero, rnd_of_isFloat h1d] at hb
        exact absurd (by rw [abs_one]; exact one_lt_pow₀ (by norm_num) (by norm_num)) hb
      · rcases is_cases (one_is (L := L)) with ⟨h0', _⟩ | ⟨_, hs'⟩
        · norm_num at h0'
        · rw [e1, hs, hs']
          show F64.round false (1 + q) = _
          rw [round_eq, if_neg (by linarith), if_neg (by intro h; rw [h] at hb; exact hb (by positivity)), if_pos (not_lt.mp hb)]
          have : ¬ (1 + q < 0) := by linarith
          simp [this]
  · right
    rcases is_cases (one_is (L := L)) with ⟨h0', _⟩ | ⟨_, hs'⟩
    · norm_num at h0'
    · rw [e1, hi, hs']; rfl

theorem mul_one_left {x : Double L} {q : ℚ} (hx : x.Is q) : (Arith.mul (Dbl.ofInt 1) x).Is q := by
  have hd := is_double hx
  have := mul_is one_is hx (by rw [one_mul, rnd_of_isDouble hd]; exact isDouble_lt hd)
  rwa [one_mul, rnd_of_isDouble hd] at this

theorem one_mul_pos {x : Double L} (h : Pos x) : Pos (Arith.mul (Dbl.ofInt 1) x) := by
  rcases h with ⟨q, hq, hi⟩ | hi
  · exact .inl ⟨q, hq, mul_one_left hi⟩
  · right
    rcases is_cases (one_is (L := L)) with ⟨h0', _⟩ | ⟨_, hs'⟩
    · norm_num at h0'
    · show F64.mul (Dbl.ofInt 1 : Double L).raw x.raw = _
      rw [hi, hs']; simp [F64.mul, F64.signBit]

/-- The hypotheses of `C43_ieee_lm_partial` are met by `x + 1`, from any start other than `-0`. -/
example (v : Double libm0) (hv0 : v.raw ≠ .zero true) : solveByLM config 1076 101 (symOf plusOne) (var v) ≠ .diverge := by
  have hr : (var v).Reachable := .ofList (l := [(['x'], v)]) rfl
  refine C43_ieee_lm_partial Nat.one_pos config (by decide) 1076 101 (by decide) (by decide) plusOne hr (by simpa [var] using hv0) ?_
  intro J hJ t0 k t1 d hv hnz ⟨r0, r1, hv1, _, F, hF, hd⟩
  have hJ' : (symOf plusOne).jacobian config [['x']] = .ok (symOf plusOneJ) := by decide +kernel
  rw [show (var v).vars = [['x']] from rfl, hJ', Res.ok.injEq] at hJ
  subst hJ
  obtain ⟨v0, rfl⟩ := table_one r0 hv
  obtain ⟨v1, rfl⟩ := table_one r1 (hv1.trans hv)
  have hj : ∀ w j, evalMat config (symOf plusOneJ) (var w) = .ok j → j = ⟨1, 1, [Dbl.ofInt 1]⟩ := by
    intro w j h
    obtain ⟨u, h1, h2⟩ := (C50_evaluate Nat.one_pos Nat.one_pos config plusOneJ (var w) j).mp h
    have h3 := h2 0 0
    simp only [plusOneJ, Expr.eval, Res.ok.injEq] at h3
    rw [h1]
    show (⟨1, 1, [u 0 0]⟩ : Mat (Double libm0)) = _
    rw [← h3]
  have hF' : ∃ q p : ℚ, v0.Is q ∧ (Arith.add v0 (Dbl.ofInt 1)).Is p ∧ F = ⟨1, 1, [Arith.add v0 (Dbl.ofInt 1)]⟩ := by
    obtain ⟨m, h1, h2⟩ := Res.bind_eq_ok.mp hF
    obtain ⟨u, h3, h4⟩ := (C50_evaluate Nat.one_pos Nat.one_pos config plusOne (var v0) m).mp h1
    subst h3
    have h5 := h4 0 0
    have h6 : (⟨1, 1, [u 0 0]⟩ : Mat (Double libm0)) = F := by
      have : (ofEntries u).toVec = .ok ⟨1, 1, [u 0 0]⟩ := rfl
      rw [this, Res.ok.injEq] at h2
      exact h2
    have h7 : (plusOne 0 0).eval true (envOf (var v0).table) = checked true (Arith.add v0 (Dbl.ofInt 1)) := rfl
    rw [show config.throwOnInvalidValue = true from rfl, h7] at h5
    unfold checked at h5
    split at h5
    · cases h5
    · rename_i hni
      rw [Res.ok.injEq] at h5
      have hval : Dbl.isInvalid (Arith.add v0 (Dbl.ofInt 1)) = false := by simpa using hni
      obtain ⟨p, q, h8, _⟩ := add_inv (is_of_valid hval)
      exact ⟨p, _, h8, is_of_valid hval, by rw [← h6, ← h5]⟩
  obtain ⟨q, p, hq, hp, rfl⟩ := hF'
  refine ⟨?_, ?_, ?_, ?_⟩
  · intro w hw
    simp only [var, List.mem_singleton] at hw
    rw [hw]; exact hq.1
  · obtain ⟨j, h1, hd⟩ := Res.bind_eq_ok.mp hd
    rw [hj _ _ h1] at hd
    have e4 : (⟨1, 1, [Dbl.ofInt 1]⟩ : Mat (Double libm0)).transpose = .ok ⟨1, 1, [Dbl.ofInt 1]⟩ := by decide +kernel
    have e5 : (⟨1, 1, [Dbl.ofInt 1]⟩ : Mat (Double libm0)).mul ⟨1, 1, [Dbl.ofInt 1]⟩ = .ok ⟨1, 1, [Dbl.ofInt 1]⟩ := by decide +kernel
    have e7 : Mat.new 1 1 (Arith.zero : Double libm0) = .ok ⟨1, 1, [Arith.zero]⟩ := by decide +kernel
    have e8 : (⟨1, 1, [Arith.zero]⟩ : Mat (Double libm0)).ones = .ok ⟨1, 1, [Dbl.ofInt 1]⟩ := by decide +kernel
    rw [e4, Res.bind_ok, e5, Res.bind_ok] at hd
    set mu : Double libm0 := Arith.add (Dbl.ofInt 1) (Arith.mul (Dbl.ofInt 1) (lmDamping k)) with hmu
    set g : Double libm0 := Arith.mul (Dbl.ofInt 1) (Arith.add v0 (Dbl.ofInt 1)) with hg
    have e9 : (⟨1, 1, [Dbl.ofInt 1]⟩ : Mat (Double libm0)).add (Mat.scaleLeft (lmDamping k) ⟨1, 1, [Dbl.ofInt 1]⟩) = .ok ⟨1, 1, [mu]⟩ := rfl
    have e6 : (⟨1, 1, [Dbl.ofInt 1]⟩ : Mat (Double libm0)).mul ⟨1, 1, [Arith.add v0 (Dbl.ofInt 1)]⟩ = .ok ⟨1, 1, [g]⟩ := rfl
    have e10 : (⟨1, 1, [g]⟩ : Mat (Double libm0)).toVec = .ok ⟨1, 1, [g]⟩ := rfl
    have e11 : (⟨1, 1, [g]⟩ : Mat (Double libm0)).neg = ⟨1, 1, [Arith.neg g]⟩ := rfl
    simp only [e7, Res.bind_ok, e8, e9, e6, e10, e11] at hd
    have hgi : g.Is p := mul_one_left hp
    have hmu' := add_one_pos (one_mul_pos (damping (L := libm0) k))
    rw [← hmu] at hmu'
    have heps : ∃ r, r < 1 ∧ config.epsilon.Is r := by
      obtain ⟨x, h1, h2⟩ := ofDec_some (L := libm0) (m := 1) (e := -9) (v := .num (4835703278458517 / 4835703278458516698824704)) (by decide +kernel)
      refine ⟨_, ?_, is_num (q := 4835703278458517 / 4835703278458516698824704) ?_⟩
      · norm_num
      · show (lit 1 (-9) : Double libm0).raw = _
        rw [lit, h1, Option.getD_some, h2]
    obtain ⟨r, hr1, hr⟩ := heps
    have hlt : Arith.lt (Arith.abs mu) config.epsilon = false ∧ Arith.eq (Arith.abs mu) (Arith.abs mu) = true := by
      rcases hmu' with ⟨m, hm, hi⟩ | hi
      · have ha := abs_is hi
        rw [lt_is ha hr, eq_is ha ha]
        refine ⟨decide_eq_false ?_, by simp⟩
        rw [abs_of_nonneg (by linarith)]; linarith
      · rcases is_cases hr with ⟨_, s, hs⟩ | ⟨_, hs⟩
        all_goals
          constructor
          · show F64.lt (F64.abs mu.raw) config.epsilon.raw = false
            rw [hi, hs]; rfl
          · show F64.eq (F64.abs mu.raw) (F64.abs mu.raw) = true
            rw [hi]; rfl
    rw [solve_one config mu (Arith.neg g) hlt.1 hlt.2, Res.ok.injEq] at hd
    subst hd
    have hz : ∀ {y : Double libm0} {s : ℚ}, y.Is s → Dbl.isInvalid (Arith.sub y Arith.zero) = false := by
      intro y s hy
      have hd := is_double hy
      exact (sub_is hy (is_zero (x := (Arith.zero : Double libm0)) (s := false) rfl) (by rw [sub_zero, rnd_of_isDouble hd]; exact isDouble_lt hd)).1
    have hdiv : ∃ s, (Arith.div (Arith.neg g) mu).Is s := by
      have hn := neg_is hgi
      rcases hmu' with ⟨m, hm, hi⟩ | hi
      · refine ⟨_, div_is hn hi (by linarith) ?_⟩
        have hpd := is_double hp
        refine lt_of_le_of_lt (abs_rnd_le _ |p| ((isDouble_iff _).mp (isDouble_abs hpd)).1 ?_) (isDouble_lt hpd)
        rw [abs_div, abs_neg, abs_of_pos (show 0 < m by linarith)]
        exact div_le_self (abs_nonneg _) hm
      · refine ⟨0, ?_⟩
        have e1 : (Arith.div (Arith.neg g) mu : Double libm0).raw = F64.div (Arith.neg g : Double libm0).raw mu.raw := rfl
        rcases is_cases hn with ⟨_, s, hs⟩ | ⟨_, hs⟩ <;> rw [hs, hi] at e1 <;> exact is_zero e1
    obtain ⟨s, hs⟩ := hdiv
    intro w hw
    simp only [List.mem_singleton] at hw
    rw [hw]; exact hz hs
  · intro F hF2
    rw [hF, Res.ok.injEq] at hF2
    subst hF2
    intro w hw
    simp only [List.mem_singleton] at hw
    rw [hw]; exact hp.1
  · intro j h
    rw [hj _ _ h]
    intro w hw
    simp only [List.mem_singleton] at hw
    rw [hw]; exact one_is.1

end Double
end Tom
