import Verif.Props.Binary64
import Verif.Props.RoundingCases
import Verif.Props.IeeeUnderflow
/-
C84: the operators + - * / and the signs, evaluated by the library, are the operations of IEEE 754 on binary64, each rounded once to
nearest with ties to even; comparison with the limits, conversion to `int`, and the operators that use it.
-/
namespace Tom

theorem toRat_of_val {a : F64} {p : ℚ} (h : a.isInvalid = false) (hp : a.val = ((p : ℝ) : EReal)) : a.toRat = p := by
  rw [val_finite h] at hp
  exact (coe_rat_ereal _ _).2.mp hp

theorem ieeeAdd (a b : F64) (ha : a.Ok) (hb : b.Ok) : IeeeAdd a b (F64.add a b) := by
  obtain ⟨h1, h2, h3⟩ := IEEE_add a b ha hb
  refine ⟨h1, h2, fun p q i1 i2 e1 e2 => ?_⟩
  have := h3 i1 i2
  rwa [toRat_of_val i1 e1, toRat_of_val i2 e2] at this

theorem ieeeSub (a b : F64) (ha : a.Ok) (hb : b.Ok) : IeeeSub a b (F64.sub a b) := by
  obtain ⟨h1, h2, h3, -⟩ := IEEE_neg_abs b
  exact ⟨F64.neg b, decode_surj (F64.ok_neg hb), h1, fun h => h3 h hb, h2, ieeeAdd a _ ha (F64.ok_neg hb)⟩

theorem ieeeMul (a b : F64) (ha : a.Ok) (hb : b.Ok) : IeeeMul a b (F64.mul a b) := by
  obtain ⟨h1, h2, h3, h4⟩ := IEEE_mul a b ha hb
  refine ⟨h1, h2, h3, fun p q i1 i2 e1 e2 => ?_⟩
  have := h4 i1 i2
  rwa [toRat_of_val i1 e1, toRat_of_val i2 e2] at this

theorem ieeeDiv (a b : F64) (ha : a.Ok) (hb : b.Ok) : IeeeDiv a b (F64.div a b) := by
  obtain ⟨h1, h2, h3, h4, h5⟩ := IEEE_div a b ha hb
  refine ⟨h1, h2, h3, h4, fun p q i1 i2 e1 e2 => ?_⟩
  have := h5 i1 i2
  rwa [toRat_of_val i1 e1, toRat_of_val i2 e2] at this

/-- The relation IEEE 754 prescribes between operands and result of an arithmetic operator of the language. -/
def IeeeOp : BinOp → F64 → F64 → F64 → Prop
  | .add => IeeeAdd
  | .sub => IeeeSub
  | .mul => IeeeMul
  | .div => IeeeDiv
  | _ => fun _ _ _ => True

variable {L : Libm}

/-- C84: if the operands evaluate to `x` and `y`, then the expression with one of `+ - * /` evaluates to what IEEE 754 prescribes for
`x` and `y`; only if that is infinite or NaN and `throwOnInvalidValue` is set, it throws instead. -/
theorem C84_operators (strict : Bool) (env : Str → Res (Double L)) (o : BinOp) (ho : o = .add ∨ o = .sub ∨ o = .mul ∨ o = .div)
    (a b : Expr (Double L)) (x y : Double L) (ha : a.eval strict env = .ok x) (hb : b.eval strict env = .ok y) :
    ∃ r : Double L, IeeeOp o x.raw y.raw r.raw ∧
      (Expr.bin o a b).eval strict env =
        if strict = true ∧ r.raw.isInvalid = true then .throw (.math .invalidNumber) else .ok r := by
  have hc : ∀ r : Double L, checked strict r =
      if strict = true ∧ r.raw.isInvalid = true then .throw (.math .invalidNumber) else .ok r := by
    intro r
    simp only [checked, Bool.and_eq_true]
    rfl
  rcases ho with rfl | rfl | rfl | rfl
  · exact ⟨Arith.add x y, ieeeAdd _ _ x.2 y.2, by rw [← hc]; simp only [Expr.eval, ha, hb]; rfl⟩
  · exact ⟨Arith.sub x y, ieeeSub _ _ x.2 y.2, by rw [← hc]; simp only [Expr.eval, ha, hb]; rfl⟩
  · exact ⟨Arith.mul x y, ieeeMul _ _ x.2 y.2, by rw [← hc]; simp only [Expr.eval, ha, hb]; rfl⟩
  · exact ⟨Arith.div x y, ieeeDiv _ _ x.2 y.2, by rw [← hc]; simp only [Expr.eval, ha, hb]; rfl⟩

/-- C84 for `Vpa` of an expression without variables. -/
theorem C84_vpa (cfg : Config (Double L)) (o : BinOp) (ho : o = .add ∨ o = .sub ∨ o = .mul ∨ o = .div)
    (a b : Expr (Double L)) (x y : Double L) (ha : vpa cfg (embed a) = .ok x) (hb : vpa cfg (embed b) = .ok y) :
    ∃ r : Double L, IeeeOp o x.raw y.raw r.raw ∧
      vpa cfg (embed (Expr.bin o a b)) =
        if cfg.throwOnInvalidValue = true ∧ r.raw.isInvalid = true then .throw (.math .invalidNumber) else .ok r := by
  rw [C12_vpa] at ha hb ⊢
  exact C84_operators _ _ o ho a b x y ha hb

theorem inf_of_val {r r' : F64} (h : r.val = r'.val) (h1 : r.isInvalid = true) (h2 : r'.isInvalid = true) (n1 : r ≠ .nan) (n2 : r' ≠ .nan) :
    r = r' := by
  cases r <;> simp [F64.isInvalid] at h1 n1
  cases r' <;> simp [F64.isInvalid] at h2 n2
  rename_i s t
  cases s <;> cases t <;> simp_all [F64.val]

theorem finite_or (x : F64) : x = .nan ∨ (∃ s, x = .inf s) ∨ (x.isInvalid = false ∧ x.val = ((x.toRat : ℝ) : EReal)) := by
  cases x with
  | nan => exact .inl rfl
  | inf s => exact .inr (.inl ⟨s, rfl⟩)
  | zero s => exact .inr (.inr ⟨rfl, val_finite rfl⟩)
  | num q => exact .inr (.inr ⟨rfl, val_finite rfl⟩)

theorem nearest_unique {q : ℚ} (hq : q ≠ 0) {r r' : F64} (hr : r.Ok) (hr' : r'.Ok) (h : NearestEven q r) (h' : NearestEven q r') : r = r' :=
  (IEEE_round_unique false q hq r hr h).trans (IEEE_round_unique false q hq r' hr' h').symm

theorem ieeeAdd_unique {x y r r' : F64} (hr : r.Ok) (hr' : r'.Ok) (h : IeeeAdd x y r) (h' : IeeeAdd x y r') : r = r' := by
  obtain ⟨a1, a2, a3⟩ := h
  obtain ⟨b1, b2, b3⟩ := h'
  by_cases hn : r = .nan
  · rw [hn]; exact (b1.mpr (a1.mp hn)).symm
  have hn' : r' ≠ .nan := fun hh => hn (a1.mpr (b1.mp hh))
  by_cases hi : ∃ s, x = .inf s ∨ y = .inf s
  · obtain ⟨c1, c2⟩ := a2 hn hi
    obtain ⟨d1, d2⟩ := b2 hn' hi
    exact inf_of_val (c1.trans d1.symm) c2 d2 hn hn'
  · obtain ⟨e1, e2⟩ := ((finite_or x).resolve_left (fun h => hn (a1.mpr (.inl h)))).resolve_left (fun ⟨s, h⟩ => hi ⟨s, .inl h⟩)
    obtain ⟨e3, e4⟩ := ((finite_or y).resolve_left (fun h => hn (a1.mpr (.inr (.inl h))))).resolve_left (fun ⟨s, h⟩ => hi ⟨s, .inr h⟩)
    obtain ⟨c1, c2⟩ := a3 _ _ e1 e3 e2 e4
    obtain ⟨d1, d2⟩ := b3 _ _ e1 e3 e2 e4
    by_cases h0 : x.toRat + y.toRat = 0
    · obtain ⟨s, rfl, hs⟩ := c2 h0
      obtain ⟨t, rfl, ht⟩ := d2 h0
      have := hs.trans ht.symm
      cases s <;> cases t <;> simp_all
    · exact nearest_unique h0 hr hr' (c1 h0) (d1 h0)

theorem datum_determined {r r' : F64} (hr : r.Ok) (hr' : r'.Ok) (n1 : r ≠ .nan) (n2 : r' ≠ .nan) (hs : r.negative ↔ r'.negative)
    (hv : r.val = r'.val) : r = r' := by
  have hz : ∀ q : ℚ, ((q : ℝ) : EReal) = 0 → q = 0 := fun q h => by exact_mod_cast EReal.coe_eq_zero.mp h
  cases r with
  | nan => exact absurd rfl n1
  | inf s =>
    cases r' with
    | nan => exact absurd rfl n2
    | inf t => cases s <;> cases t <;> simp_all [F64.val]
    | zero t => cases s <;> simp [F64.val] at hv
    | num q => cases s <;> simp [F64.val] at hv
  | zero s =>
    cases r' with
    | nan => exact absurd rfl n2
    | inf t => cases t <;> simp [F64.val] at hv
    | zero t => simp only [F64.negative] at hs; cases s <;> cases t <;> simp_all
    | num q => exact absurd (hz q hv.symm) hr'.1
  | num p =>
    cases r' with
    | nan => exact absurd rfl n2
    | inf t => cases t <;> simp [F64.val] at hv
    | zero t => exact absurd (hz p hv) hr.1
    | num q => rw [(coe_rat_ereal p q).2.mp hv]

theorem sign_determined {r r' : F64} (h : (∃ s, r = .inf s) ∧ (∃ s, r' = .inf s) ∨ (∃ s, r = .zero s) ∧ (∃ s, r' = .zero s))
    (hs : r.negative ↔ r'.negative) : r = r' := by
  rcases h with ⟨⟨s, rfl⟩, ⟨t, rfl⟩⟩ | ⟨⟨s, rfl⟩, ⟨t, rfl⟩⟩
  all_goals
    simp only [F64.negative] at hs
    cases s <;> cases t <;> simp_all

theorem ieeeMul_unique {x y r r' : F64} (hr : r.Ok) (hr' : r'.Ok) (h : IeeeMul x y r) (h' : IeeeMul x y r') : r = r' := by
  obtain ⟨a1, as, a2, a3⟩ := h
  obtain ⟨b1, bs, b2, b3⟩ := h'
  by_cases hn : r = .nan
  · rw [hn]; exact (b1.mpr (a1.mp hn)).symm
  have hn' : r' ≠ .nan := fun hh => hn (a1.mpr (b1.mp hh))
  have hs := (as hn).trans (bs hn').symm
  by_cases hi : ∃ s, x = .inf s ∨ y = .inf s
  · exact sign_determined (.inl ⟨a2 hn hi, b2 hn' hi⟩) hs
  · obtain ⟨e1, e2⟩ := ((finite_or x).resolve_left (fun h => hn (a1.mpr (.inl h)))).resolve_left (fun ⟨s, h⟩ => hi ⟨s, .inl h⟩)
    obtain ⟨e3, e4⟩ := ((finite_or y).resolve_left (fun h => hn (a1.mpr (.inr (.inl h))))).resolve_left (fun ⟨s, h⟩ => hi ⟨s, .inr h⟩)
    obtain ⟨c1, c2⟩ := a3 _ _ e1 e3 e2 e4
    obtain ⟨d1, d2⟩ := b3 _ _ e1 e3 e2 e4
    by_cases h0 : x.toRat * y.toRat = 0
    · exact sign_determined (.inr ⟨c2 h0, d2 h0⟩) hs
    · exact nearest_unique h0 hr hr' (c1 h0) (d1 h0)

theorem ieeeDiv_unique {x y r r' : F64} (hx : x.Ok) (hy : y.Ok) (hr : r.Ok) (hr' : r'.Ok) (h : IeeeDiv x y r) (h' : IeeeDiv x y r') :
    r = r' := by
  obtain ⟨a1, as, a2, az, a3⟩ := h
  obtain ⟨b1, bs, b2, bz, b3⟩ := h'
  by_cases hn : r = .nan
  · rw [hn]; exact (b1.mpr (a1.mp hn)).symm
  have hn' : r' ≠ .nan := fun hh => hn (a1.mpr (b1.mp hh))
  have hs := (as hn).trans (bs hn').symm
  by_cases hi : ∃ s, x = .inf s ∨ y = .zero s
  · exact sign_determined (.inl ⟨a2 hn hi, b2 hn' hi⟩) hs
  by_cases hi' : ∃ s, y = .inf s ∨ x = .zero s
  · exact sign_determined (.inr ⟨az hn hi', bz hn' hi'⟩) hs
  · obtain ⟨e1, e2⟩ := ((finite_or x).resolve_left (fun h => hn (a1.mpr (.inl h)))).resolve_left (fun ⟨s, h⟩ => hi ⟨s, .inl h⟩)
    obtain ⟨e3, e4⟩ := ((finite_or y).resolve_left (fun h => hn (a1.mpr (.inr (.inl h))))).resolve_left (fun ⟨s, h⟩ => hi' ⟨s, .inl h⟩)
    have x0 : x.toRat ≠ 0 := by
      cases x with
      | nan => cases e1
      | inf s => cases e1
      | zero s => exact absurd ⟨s, .inr rfl⟩ hi'
      | num q => exact hx.1
    have y0 : y.toRat ≠ 0 := by
      cases y with
      | nan => cases e3
      | inf s => cases e3
      | zero s => exact absurd ⟨s, .inr rfl⟩ hi
      | num q => exact hy.1
    exact nearest_unique (div_ne_zero x0 y0) hr hr' (a3 _ _ e1 e3 e2 e4 x0 y0) (b3 _ _ e1 e3 e2 e4 x0 y0)

/-- C84: IEEE 754 leaves no choice; the result of `+ - * /` is determined by `IeeeOp`. -/
theorem C84_unique (o : BinOp) (ho : o = .add ∨ o = .sub ∨ o = .mul ∨ o = .div) (x y r r' : Double L)
    (h : IeeeOp o x.raw y.raw r.raw) (h' : IeeeOp o x.raw y.raw r'.raw) : r = r' := by
  apply Double.ext
  rcases ho with rfl | rfl | rfl | rfl
  · exact ieeeAdd_unique r.2 r'.2 h h'
  · obtain ⟨y1, ⟨c, hc⟩, a1, a2, a3, a4⟩ := h
    obtain ⟨y2, ⟨d, hd⟩, b1, b2, b3, b4⟩ := h'
    have hy : y1 = y2 := by
      by_cases hn : y.raw = .nan
      · rw [a1.mpr hn, b1.mpr hn]
      · exact datum_determined (hc ▸ decode_ok c) (hd ▸ decode_ok d) (fun h => hn (a1.mp h)) (fun h => hn (b1.mp h))
          ((a2 hn).trans (b2 hn).symm) (a3.trans b3.symm)
    rw [← hy] at b4
    exact ieeeAdd_unique r.2 r'.2 a4 b4
  · exact ieeeMul_unique r.2 r'.2 h h'
  · exact ieeeDiv_unique x.2 y.2 r.2 r'.2 h h'

/-- C84: the double a bit pattern encodes exists for every pattern, every double has a pattern, and only NaN has several; so the values
the theorem ranges over are those of the C++ type. -/
theorem C84_data (L : Libm) : (∀ b : BitVec 64, ∃ x : Double L, x.raw = decode b) ∧ (∀ x : Double L, ∃ b, decode b = x.raw) ∧
    (∀ b c, decode b = decode c → decode b ≠ .nan → b = c) :=
  ⟨fun b => ⟨⟨decode b, decode_ok b⟩, rfl⟩, fun x => decode_surj x.2, fun _ _ h hn => decode_inj h hn⟩

/-- C84: the test that decides whether an operation throws recognises exactly infinities and NaN. -/
theorem C84_isInvalid (x : Double L) : Dbl.isInvalid x = true ↔ x.raw = .nan ∨ ∃ s, x.raw = .inf s := by
  show F64.isInvalid x.raw = true ↔ _
  cases x.raw <;> simp [F64.isInvalid]

/-- C84: the conversion to `int` used by `% & |` truncates, and is defined exactly for the numbers whose truncation fits 32 bits. -/
theorem C84_toInt (x : Double L) (i : ℤ) : Dbl.toInt32 x = some i ↔
    (-2147483648 ≤ i ∧ i ≤ 2147483647) ∧ x.raw.isInvalid = false ∧ |x.raw.toRat - i| < 1 ∧ |(i : ℚ)| ≤ |x.raw.toRat| := by
  constructor
  · intro h
    have hr : -2147483648 ≤ i ∧ i ≤ 2147483647 := by
      have h' : F64.toInt32 x.raw = some i := h
      cases hx : x.raw with
      | nan => rw [hx] at h'; cases h'
      | inf s => rw [hx] at h'; cases h'
      | zero s => rw [hx] at h'; obtain rfl := Option.some.inj h'; omega
      | num q =>
        rw [hx] at h'
        simp only [F64.toInt32] at h'
        split at h'
        · rename_i hh; obtain rfl := Option.some.inj h'; exact hh
        · cases h'
    exact ⟨hr, (IEEE_int i hr x.raw).2.1 h⟩
  · rintro ⟨hr, h1, h2, h3⟩
    exact (IEEE_int i hr x.raw).2.2 h1 h2 h3

theorem ofNumeral_spec (q : ℚ) (hq : 0 ≤ q) :
    (∀ r, F64.ofNumeral q = some r → (q = 0 → r = .zero false) ∧ (q ≠ 0 → NearestEven q r ∧ r.isInvalid = false)) ∧
    (F64.ofNumeral q = none ↔ q ≠ 0 ∧ ∃ r, r = F64.round false q ∧ (r.isInvalid = true ∨ (r.toRat ≠ q ∧ |r.toRat| < 1 / 2 ^ 1022))) := by
  by_cases h0 : q = 0
  · subst h0
    have : F64.ofNumeral 0 = some (.zero false) := by decide +kernel
    rw [this]
    simp
  · have hn := (IEEE_round false q h0).1
    have hneg : ¬ (F64.round false q).negative := by rw [hn.1]; exact not_lt.mpr hq
    have hok := F64.ok_round false q
    unfold F64.ofNumeral
    generalize hr : F64.round false q = r at *
    have hp : (0 : ℚ) < 2 ^ 1022 := by positivity
    cases r with
    | nan =>
      have := round_eq false q
      rw [hr] at this
      split_ifs at this
    | inf s => simp [h0, F64.isInvalid]
    | zero s =>
      simp only [h0, if_false, reduceCtorEq, false_implies, implies_true, true_and, ne_eq, not_false_eq_true, F64.isInvalid,
        F64.toRat, abs_zero, exists_eq_left, false_or, true_iff, Bool.false_eq_true]
      exact ⟨fun h => h0 h.symm, by positivity⟩
    | num v =>
      have hv : 0 < v := lt_of_le_of_ne (not_lt.mp hneg) (Ne.symm hok.1)
      have e1 : v * 2 ^ 1022 < 1 ↔ v < 1 / 2 ^ 1022 := (lt_div_iff₀ hp).symm
      simp only [e1]
      constructor
      · intro r h
        split at h
        · cases h
        · obtain rfl := Option.some.inj h
          exact ⟨fun h => absurd h h0, fun _ => ⟨hn, rfl⟩⟩
      · simp only [F64.isInvalid, F64.toRat, exists_eq_left, Bool.false_eq_true, false_or, abs_of_pos hv, ne_eq, h0,
          not_false_eq_true, true_and]
        split_ifs with h
        · exact ⟨fun _ => ⟨h.2, h.1⟩, fun _ => rfl⟩
        · simp only [false_iff, not_and]
          intro h1 h2
          exact h ⟨h2, h1⟩

/-- C84: a numeral of the value `m * 10^e` is read as the double nearest to it, ties to even; reading throws (`none`) exactly if that
double is infinite, or if it is below `2^-1022` and not exact (glibc). -/
theorem C84_decimal (m : ℕ) (e : ℤ) :
    (∀ x : Double L, Dbl.ofDec m e = some x → (m = 0 → x.raw = .zero false) ∧
      (m ≠ 0 → NearestEven (m * 10 ^ e) x.raw ∧ x.raw.isInvalid = false)) ∧
    ((Dbl.ofDec m e : Option (Double L)) = none ↔ m ≠ 0 ∧ ∃ r, r = F64.round false (m * 10 ^ e) ∧
      (r.isInvalid = true ∨ (r.toRat ≠ m * 10 ^ e ∧ |r.toRat| < 1 / 2 ^ 1022))) := by
  have hq : (if 0 ≤ e then (m : ℚ) * 10 ^ e.toNat else m / 10 ^ (-e).toNat) = m * 10 ^ e := by
    split
    · rename_i h; rw [← zpow_natCast, Int.toNat_of_nonneg h]
    · rename_i h; rw [← zpow_natCast, Int.toNat_of_nonneg (by omega), zpow_neg, div_inv_eq_mul]
  have h0 : (m : ℚ) * 10 ^ e = 0 ↔ m = 0 := by
    rw [mul_eq_zero]; simp [zpow_ne_zero]
  obtain ⟨h1, h2⟩ := ofNumeral_spec (m * 10 ^ e) (by positivity)
  rw [← hq] at h1 h2
  constructor
  · intro x h
    have hx : F64.ofNumeral (if 0 ≤ e then (m : ℚ) * 10 ^ e.toNat else m / 10 ^ (-e).toNat) = some x.raw := by
      simp only [Dbl.ofDec] at h
      split at h
      · rename_i v hv; rw [← Option.some.inj h]; exact hv
      · cases h
    have := h1 _ hx
    rw [hq, ne_eq, h0] at this
    exact this
  · rw [ne_eq, ← h0, ← ne_eq, ← hq, ← h2]
    simp only [Dbl.ofDec]
    split
    · rename_i v hv
      exact ⟨fun h => absurd h (by simp), fun h => absurd (hv.symm.trans h) (by simp)⟩
    · rename_i hv; exact ⟨fun _ => hv, fun _ => rfl⟩

/-- C84: the same for hexadecimal numerals, of the value `m * 2^e`. -/
theorem C84_hexadecimal (m : ℕ) (e : ℤ) :
    (∀ x : Double L, Dbl.ofHex m e = some x → (m = 0 → x.raw = .zero false) ∧
      (m ≠ 0 → NearestEven (m * 2 ^ e) x.raw ∧ x.raw.isInvalid = false)) ∧
    ((Dbl.ofHex m e : Option (Double L)) = none ↔ m ≠ 0 ∧ ∃ r, r = F64.round false (m * 2 ^ e) ∧
      (r.isInvalid = true ∨ (r.toRat ≠ m * 2 ^ e ∧ |r.toRat| < 1 / 2 ^ 1022))) := by
  have hq : (if 0 ≤ e then (m : ℚ) * 2 ^ e.toNat else m / 2 ^ (-e).toNat) = m * 2 ^ e := by
    split
    · rename_i h; rw [← zpow_natCast, Int.toNat_of_nonneg h]
    · rename_i h; rw [← zpow_natCast, Int.toNat_of_nonneg (by omega), zpow_neg, div_inv_eq_mul]
  have h0 : (m : ℚ) * 2 ^ e = 0 ↔ m = 0 := by
    rw [mul_eq_zero]; simp [zpow_ne_zero]
  obtain ⟨h1, h2⟩ := ofNumeral_spec (m * 2 ^ e) (by positivity)
  rw [← hq] at h1 h2
  constructor
  · intro x h
    have hx : F64.ofNumeral (if 0 ≤ e then (m : ℚ) * 2 ^ e.toNat else m / 2 ^ (-e).toNat) = some x.raw := by
      simp only [Dbl.ofHex] at h
      split at h
      · rename_i v hv; rw [← Option.some.inj h]; exact hv
      · cases h
    have := h1 _ hx
    rw [hq, ne_eq, h0] at this
    exact this
  · rw [ne_eq, ← h0, ← ne_eq, ← hq, ← h2]
    simp only [Dbl.ofHex]
    split
    · rename_i v hv
      exact ⟨fun h => absurd h (by simp), fun h => absurd (hv.symm.trans h) (by simp)⟩
    · rename_i hv; exact ⟨fun _ => hv, fun _ => rfl⟩

-- 0.1 and 0x1.8p1 are read; 1e400 and 1e-320 are not
example : (Dbl.ofDec 1 (-1) : Option (Double Double.libm0)) = some (Double.near _ (1 / 10)) ∧
    (Dbl.ofHex 24 (-3) : Option (Double Double.libm0)) = some (Double.near _ 3) ∧
    (Dbl.ofDec 1 400 : Option (Double Double.libm0)) = none ∧ (Dbl.ofDec 1 (-320) : Option (Double Double.libm0)) = none := by
  decide +kernel

/-! ### concrete cases -/

-- the encodings of 1, 0.1, the least positive number, -0 and the infinities
example : decode 0x3FF0000000000000#64 = .num 1 ∧ decode 0x3FB999999999999A#64 = F64.round false (1 / 10) ∧
    decode 1#64 = .num (1 / 2 ^ 1074) ∧ decode 0x8000000000000000#64 = .zero true ∧ decode 0xFFF0000000000000#64 = .inf true ∧
    decode 0x7FEFFFFFFFFFFFFF#64 = .num (2 ^ 1024 - 2 ^ 971) := by decide +kernel

-- ties go to even: 2^53 + 1 to 2^53, 2^53 + 3 to 2^53 + 4; half the least positive number to 0
example : F64.round false (2 ^ 53 + 1) = .num (2 ^ 53) ∧ F64.round false (2 ^ 53 + 3) = .num (2 ^ 53 + 4) ∧
    F64.round false (1 / 2 ^ 1075) = .zero false ∧ F64.round false (-(1 / 2 ^ 1075)) = .zero true := by decide +kernel

-- 0.1 + 0.2 is not 0.3
example : F64.add (F64.round false (1 / 10)) (F64.round false (2 / 10)) ≠ F64.round false (3 / 10) := by decide +kernel

-- the hypotheses of C84: "1/3" evaluates to the double nearest to 1/3, and "1/0" throws
example : (Expr.bin .div (.num (Double.near Double.libm0 1)) (.num (Double.near Double.libm0 3))).eval true noEnv
      = .ok (Double.near Double.libm0 (1 / 3)) ∧
    (Expr.bin .div (.num (Double.near Double.libm0 1)) (.num (Double.near Double.libm0 0))).eval true noEnv
      = .throw (.math .invalidNumber) := by decide +kernel

end Tom
