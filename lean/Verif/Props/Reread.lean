import Verif.Spec.Reread
import Verif.Props.PrintStable
import Verif.Props.IeeePrint
import Verif.Props.TextValue
/-
C130: printing an expression and reading it again, with IEEE doubles as literals.
-/
namespace Tom
namespace Double
variable {L : Libm}

theorem roundHalfEven_unique {n d N : ℕ} (hd : 0 < d) (h : |(N : ℚ) - n / d| < 1 / 2) : roundHalfEven n d = N := by
  have h1 := roundHalfEven_rat n d hd
  have h2 : |(roundHalfEven n d : ℚ) - N| < 1 := by
    have := abs_sub_le (roundHalfEven n d : ℚ) (n / d) N
    rw [abs_sub_comm (_ / _ : ℚ) (N : ℚ)] at this
    linarith
  have h3 : |(roundHalfEven n d : ℤ) - N| < 1 := by exact_mod_cast h2
  have := Int.abs_lt_one_iff.mp h3
  omega

theorem ratAbsNum_div (v : ℚ) : ((ratAbsNum v * 10 ^ 16 : ℕ) : ℚ) / v.den = |v| * 10 ^ 16 := by
  have h : |v| = (v.num.natAbs : ℚ) / v.den := by
    conv_lhs => rw [← Rat.num_div_den v]
    rw [abs_div, Nat.abs_cast]
    congr 1
    rw [Nat.cast_natAbs]
    push_cast
    rfl
  rw [h]
  unfold ratAbsNum
  push_cast
  ring

/-- numbers of the same sign with the same sixteen decimals have the same text -/
theorem formatDouble_same {p q : ℚ} (hs : p < 0 ↔ q < 0) (hp : 1 / 10 ^ 16 < |p|) (hq : 1 / 10 ^ 16 < |q|) (hp' : |p| < 10 ^ 16) (hq' : |q| < 10 ^ 16)
    {N : ℕ} (h1 : roundHalfEven (ratAbsNum p * 10 ^ 16) p.den = N) (h2 : |(N : ℚ) - |q| * 10 ^ 16| < 1 / 2) : formatDouble q = formatDouble p := by
  have e : ∀ v : ℚ, 1 / 10 ^ 16 < |v| → |v| < 10 ^ 16 → formatDouble v = stripEnd (fmtFixed16 v) := by
    intro v hv hv'
    have h0 : v ≠ 0 := by
      rintro rfl
      rw [abs_zero] at hv
      exact absurd hv (by norm_num)
    have ha : (if v < 0 then -v else v) = abs v := by
      split
      · rename_i h; exact (abs_of_neg h).symm
      · rename_i h; exact (abs_of_nonneg (not_lt.mp h)).symm
    unfold formatDouble
    rw [if_neg h0]
    simp only [ha]
    rw [if_neg]
    rintro (h | h)
    · linarith
    · rw [div_lt_iff₀ (by norm_num)] at hv
      linarith
  rw [e p hp hp', e q hq hq']
  have h3 : roundHalfEven (ratAbsNum q * 10 ^ 16) q.den = N := by
    apply roundHalfEven_unique q.den_pos
    rw [ratAbsNum_div]
    exact h2
  unfold fmtFixed16
  simp only [h1, h3]
  by_cases h : p < 0
  · rw [if_pos h, if_pos (hs.mp h)]
  · rw [if_neg h, if_neg (fun h' => h (hs.mpr h'))]

theorem lt_zero_iff {x : Double L} {p : ℚ} (h : x.Is p) : Arith.lt x (Dbl.ofInt 0) = true ↔ p < 0 := by
  rw [negative_iff]
  rcases is_cases h with ⟨rfl, s, hs⟩ | ⟨h0, hs⟩ <;> rw [hs] <;> simp

/-- what becomes of a literal: it is written like a double that reads back -/
theorem reread_literal (v : Double L) (h : v.FixedPoint) : ∃ v' : Double L, RereadLiteral v v' ∧ ReadsBack v' ∧ Dbl.toStr v' = Dbl.toStr v ∧
    Arith.lt v' (Dbl.ofInt 0) = Arith.lt v (Dbl.ofInt 0) := by
  obtain ⟨p, hp, h⟩ := h
  have hlt : ∀ {v' : Double L} {p' : ℚ}, v'.Is p' → (p < 0 ↔ p' < 0) → Arith.lt v' (Dbl.ofInt 0) = Arith.lt v (Dbl.ofInt 0) := by
    intro v' p' h1 h2
    rw [Bool.eq_iff_iff, lt_zero_iff h1, lt_zero_iff hp, h2]
  rcases h with rfl | ⟨h1, h2⟩
  · obtain ⟨v', hv'⟩ : ∃ v' : Double L, v'.raw = .zero false := ⟨⟨.zero false, trivial⟩, rfl⟩
    have hi : v'.Is 0 := is_zero hv'
    refine ⟨v', ⟨0, 0, hp, hi, by norm_num, .rfl, .rfl, fun _ => rfl⟩, C74_zero v' hv', ?_, hlt hi .rfl⟩
    show F64.toStr v'.raw = F64.toStr v.raw
    rcases is_cases hp with ⟨-, s, hs⟩ | ⟨h0, -⟩
    · rw [hv', hs]; rfl
    · exact absurd rfl h0
  · by_cases hbig : 1 / 2 ≤ |p|
    · exact ⟨v, ⟨p, p, hp, hp, by norm_num, .rfl, .rfl, fun _ => rfl⟩, C74_reads_back v p hp hbig h2, rfl, rfl⟩
    push Not at hbig
    have h0 : p ≠ 0 := by
      rintro rfl
      rw [abs_zero] at h1
      exact absurd h1 (by norm_num)
    obtain ⟨N, hN⟩ : ∃ N, roundHalfEven (ratAbsNum p * 10 ^ 16) p.den = N := ⟨_, rfl⟩
    have hN1 := roundHalfEven_rat (ratAbsNum p * 10 ^ 16) p.den p.den_pos
    rw [ratAbsNum_div, hN] at hN1
    have hN2 := abs_le.mp hN1
    have hlow : (2 : ℚ) ≤ |p| * 10 ^ 16 := by rwa [div_le_iff₀ (by norm_num)] at h1
    have hNlo : 2 ≤ N := by
      have : (1 : ℚ) < N := by linarith
      have : 1 < N := by exact_mod_cast this
      omega
    have hNhi : N ≤ 5 * 10 ^ 15 := by
      have : (N : ℚ) < 5 * 10 ^ 15 + 1 := by
        have : |p| * 10 ^ 16 < 1 / 2 * 10 ^ 16 := mul_lt_mul_of_pos_right hbig (by norm_num)
        linarith
      have : N < 5 * 10 ^ 15 + 1 := by exact_mod_cast this
      omega
    set a : ℚ := (N : ℚ) / 10 ^ 16 with ha
    have ha1 : 2 / 10 ^ 16 ≤ a := div_le_div_of_nonneg_right (by exact_mod_cast hNlo) (by norm_num)
    have ha2 : a ≤ 1 / 2 := by
      rw [ha, div_le_iff₀ (by norm_num)]
      have : (N : ℚ) ≤ 5 * 10 ^ 15 := by exact_mod_cast hNhi
      linarith
    have ha0 : 0 < a := lt_of_lt_of_le (by norm_num) ha1
    have herr : |rnd a - a| ≤ 1 / 2 ^ 55 := by
      rcases ha2.lt_or_eq with h | h
      · refine le_trans (rnd_err a) ?_
        obtain ⟨_, _, h3⟩ := ratUlp_spec a (ne_of_gt ha0)
        have hu : ratUlp a ≤ -54 := by
          rcases h3 with h3 | h3
          · by_contra hc
            rw [abs_of_pos ha0] at h3
            have : (2 : ℚ) ^ (-1 : ℤ) ≤ 2 ^ (ratUlp a + 52) := zpow_le_zpow_right₀ (by norm_num) (by omega)
            norm_num at this
            linarith
          · omega
        refine le_trans (zpow_le_zpow_right₀ (by norm_num) (by omega : ratUlp a - 1 ≤ -55)) (by norm_num)
      · have h3 : rnd a = a := le_antisymm (rnd_le a a ⟨1, -1, by norm_num, by norm_num, by rw [h]; norm_num⟩ le_rfl)
          (le_rnd a a ⟨1, -1, by norm_num, by norm_num, by rw [h]; norm_num⟩ le_rfl)
        rw [h3, sub_self, abs_zero]
        norm_num
    have herr' := abs_le.mp herr
    have c55 : (1 : ℚ) / 2 ^ 55 < 1 / 2 / 10 ^ 16 := by norm_num
    have c2 : (2 : ℚ) / 10 ^ 16 = 1 / 10 ^ 16 + 1 / 10 ^ 16 := by norm_num
    have c1 : (1 : ℚ) / 10 ^ 16 = 1 / 2 / 10 ^ 16 + 1 / 2 / 10 ^ 16 := by norm_num
    have c0 : (0 : ℚ) < 1 / 2 / 10 ^ 16 := by norm_num
    have hr1 : 1 / 10 ^ 16 < rnd a := by linarith
    have hr2 : rnd a < 1 := by linarith [(by norm_num : (1 : ℚ) / 2 ^ 55 < 1 / 2)]
    have hr0 : 0 < rnd a := lt_trans (by norm_num) hr1
    have hnum : F64.ofNumeral a = some (.num (rnd a)) := ofNumeral_normal (le_trans (le_trans tiny_le (by norm_num)) hr1.le)
      (lt_of_lt_of_le hr2 (le_trans (by norm_num) huge_ge))
    obtain ⟨y, hy⟩ : ∃ y : Double L, y.raw = .num (rnd a) := ⟨⟨_, F64.ok_ofNumeral hnum⟩, rfl⟩
    have hyi : y.Is (rnd a) := ⟨by rw [hy]; rfl, by rw [hy]; rfl⟩
    -- the sign
    obtain ⟨v', p', z, hv', hz, hz2, hp', hsign, hpos, habs⟩ : ∃ (v' : Double L) (p' : ℚ) (z : ℤ), v'.Is p' ∧ p' = rnd (z / 10 ^ 16) ∧ 2 ≤ |z| ∧
        |p' - p| ≤ 1 / 10 ^ 16 ∧ (p < 0 ↔ p' < 0) ∧ (0 < p ↔ 0 < p') ∧ |p'| = rnd a := by
      have hd : |a - abs p| ≤ 1 / 2 / 10 ^ 16 := by
        rw [ha, div_sub' (by norm_num), abs_div, abs_of_pos (by norm_num : (0 : ℚ) < 10 ^ 16), mul_comm]
        exact div_le_div_of_nonneg_right hN1 (by norm_num)
      have hd' : |rnd a - abs p| ≤ 1 / 10 ^ 16 := (abs_sub_le _ a _).trans (by linarith)
      by_cases hneg : p < 0
      · refine ⟨Arith.neg y, -rnd a, -N, neg_is hyi, ?_, ?_, ?_, ⟨fun _ => by linarith, fun _ => hneg⟩,
          ⟨fun h => by linarith, fun h => by linarith⟩, ?_⟩
        · rw [← rnd_neg]; congr 1; push_cast; rw [ha]; ring
        · rw [abs_neg, abs_of_nonneg (by positivity)]; exact_mod_cast hNlo
        · rw [abs_of_neg hneg] at hd'
          rw [← abs_neg]
          convert hd' using 2
          ring
        · rw [abs_neg, abs_of_pos hr0]
      · refine ⟨y, rnd a, N, hyi, rfl, ?_, ?_, ⟨fun h => absurd h hneg, fun h => by linarith⟩,
          ⟨fun _ => hr0, fun _ => lt_of_le_of_ne (not_lt.mp hneg) (Ne.symm h0)⟩, abs_of_pos hr0⟩
        · rw [abs_of_nonneg (by positivity)]; exact_mod_cast hNlo
        · rwa [abs_of_nonneg (not_lt.mp hneg)] at hd'
    refine ⟨v', ⟨p, p', hp, hv', hp', hsign, hpos, ?_⟩, ?_, ?_, hlt hv' hsign⟩
    · rintro (h | h)
      · exact absurd h h0
      · linarith
    · exact C74_decimal v' p' hv' z hz2 hz (by rw [habs]; linarith [(by norm_num : (1 : ℚ) < 10 ^ 16)])
    · have hraw : v.raw = .num p := by
        rcases is_cases hp with ⟨h, -⟩ | ⟨-, h⟩
        · exact absurd h h0
        · exact h
      have hp0 : p' ≠ 0 := by
        rintro rfl
        rw [abs_zero] at habs
        linarith
      have hraw' : v'.raw = .num p' := by
        rcases is_cases hv' with ⟨h, -⟩ | ⟨-, h⟩
        · exact absurd h hp0
        · exact h
      show F64.toStr v'.raw = F64.toStr v.raw
      rw [hraw, hraw']
      show formatDouble p' = formatDouble p
      refine formatDouble_same hsign (lt_of_lt_of_le (by norm_num) h1) (by rw [habs]; exact hr1) h2
        (by rw [habs]; linarith [(by norm_num : (1 : ℚ) < 10 ^ 16)]) hN ?_
      rw [habs]
      have : (N : ℚ) - rnd a * 10 ^ 16 = (a - rnd a) * 10 ^ 16 := by rw [ha]; ring
      rw [this, abs_mul, abs_sub_comm, abs_of_pos (by norm_num : (0 : ℚ) < 10 ^ 16)]
      have := mul_le_mul_of_nonneg_right herr (by norm_num : (0 : ℚ) ≤ 10 ^ 16)
      exact lt_of_le_of_lt this (by norm_num)

/-- what becomes of an expression -/
theorem reread_expr (e : Expr (Double L)) (hn : ∀ v ∈ e.nums, v.FixedPoint) : ∃ e₁, Reread e e₁ ∧ (∀ v ∈ e₁.nums, ReadsBack v) ∧
    (∀ ctx, infixText ctx e₁ = infixText ctx e) ∧ e₁.isLeaf = e.isLeaf ∧ e₁.vars = e.vars ∧ (e.NoArc → e₁.NoArc) := by
  induction e with
  | num v =>
    obtain ⟨v', h1, h2, h3, h4⟩ := reread_literal v (hn v (by simp [Expr.nums]))
    exact ⟨.num v', .num h1, by simpa [Expr.nums] using h2, fun ctx => by simp only [infixText, h3, h4], rfl, rfl, fun _ => trivial⟩
  | var x => exact ⟨.var x, .var x, by simp [Expr.nums], fun _ => rfl, rfl, rfl, fun _ => trivial⟩
  | un o e ih =>
    obtain ⟨e₁, h1, h2, h3, h4, h5, h6⟩ := ih (fun v hv => hn v (by simpa [Expr.nums] using hv))
    exact ⟨.un o e₁, .un o h1, by simpa [Expr.nums] using h2, fun ctx => by simp only [infixText, h3, h4], rfl, by simp only [Expr.vars, h5],
      fun h => ⟨h.1, h.2.1, h.2.2.1, h6 h.2.2.2⟩⟩
  | bin o a b iha ihb =>
    obtain ⟨a₁, h1, h2, h3, h4, h5, h6⟩ := iha (fun v hv => hn v (by simp [Expr.nums, hv]))
    obtain ⟨b₁, g1, g2, g3, g4, g5, g6⟩ := ihb (fun v hv => hn v (by simp [Expr.nums, hv]))
    refine ⟨.bin o a₁ b₁, .bin o h1 g1, ?_, fun ctx => ?_, rfl, by simp only [Expr.vars, h5, g5], fun h => ⟨h6 h.1, g6 h.2⟩⟩
    · intro v hv
      simp only [Expr.nums, List.mem_append] at hv
      rcases hv with hv | hv
      · exact h2 v hv
      · exact g2 v hv
    · simp only [infixText, h3, g3]

theorem rereadLiteral_neg {v v' : Double L} (h : RereadLiteral v v') : RereadLiteral (Arith.neg v) (Arith.neg v') := by
  obtain ⟨p, p', h1, h2, h3, h4, h4', h5⟩ := h
  refine ⟨-p, -p', neg_is h1, neg_is h2, by rw [← abs_neg]; convert h3 using 2; ring, ?_, ?_, ?_⟩
  · rw [neg_lt_zero, neg_lt_zero]; exact h4'
  · rw [neg_pos, neg_pos]; exact h4
  · rw [neg_eq_zero, abs_neg]
    intro h
    rw [h5 h]

theorem neg_neg_double (v : Double L) : Arith.neg (Arith.neg v) = v := by
  apply Subtype.ext
  show F64.neg (F64.neg v.raw) = v.raw
  cases v.raw <;> simp [F64.neg]

theorem rereadLiteral_negative {v v' : Double L} (h : RereadLiteral v v') (hn : Arith.lt v' (Dbl.ofInt 0) = true) : Arith.lt v (Dbl.ofInt 0) = true := by
  obtain ⟨p, p', h1, h2, -, h4, -⟩ := h
  rw [lt_zero_iff h2] at hn
  rw [lt_zero_iff h1, h4]
  exact hn

/-- rounding the literals and regrouping may be exchanged -/
theorem reread_regroups {e₁ e₂ : Expr (Double L)} (h : Regroups e₁ e₂) : ∀ {e : Expr (Double L)}, Reread e e₁ → ∃ g, Regroups e g ∧ Reread g e₂ := by
  induction h with
  | refl e₁ => intro e he; exact ⟨e, .refl e, he⟩
  | trans _ _ ih1 ih2 =>
    intro e he
    obtain ⟨g, h1, h2⟩ := ih1 he
    obtain ⟨g', h3, h4⟩ := ih2 h2
    exact ⟨g', h1.trans h3, h4⟩
  | un o _ ih =>
    intro e he
    cases he with
    | un _ he =>
      obtain ⟨g, h1, h2⟩ := ih he
      exact ⟨.un o g, .un o h1, .un o h2⟩
  | bin o _ _ ih1 ih2 =>
    intro e he
    cases he with
    | bin _ ha hb =>
      obtain ⟨g, h1, h2⟩ := ih1 ha
      obtain ⟨g', h3, h4⟩ := ih2 hb
      exact ⟨.bin o g g', .bin o h1 h3, .bin o h2 h4⟩
  | @negative v w hv hw =>
    intro e he
    cases he with
    | @num v0 _ h0 =>
      refine ⟨.un .neg (.num (Arith.neg v0)), .negative (rereadLiteral_negative h0 hv) (neg_neg_double v0), .un .neg (.num ?_)⟩
      have := rereadLiteral_neg h0
      rwa [← hw, neg_neg_double] at this
  | addAdd a b c =>
    intro e he
    cases he with
    | bin _ ha hbc => cases hbc with | bin _ hb hc => exact ⟨_, .addAdd _ _ _, .bin _ (.bin _ ha hb) hc⟩
  | addSub a b c =>
    intro e he
    cases he with
    | bin _ ha hbc => cases hbc with | bin _ hb hc => exact ⟨_, .addSub _ _ _, .bin _ (.bin _ ha hb) hc⟩
  | mulMul a b c =>
    intro e he
    cases he with
    | bin _ ha hbc => cases hbc with | bin _ hb hc => exact ⟨_, .mulMul _ _ _, .bin _ (.bin _ ha hb) hc⟩
  | mulDiv a b c =>
    intro e he
    cases he with
    | bin _ ha hbc => cases hbc with | bin _ hb hc => exact ⟨_, .mulDiv _ _ _, .bin _ (.bin _ ha hb) hc⟩

theorem rereadEnclosure_value (δ : ℝ) (ρ : Str → ℝ) (e : Expr (Double L)) (v E : ℝ) (h : rereadEnclosure δ ρ e = some (v, E)) :
    realVal ρ (e.mapNum Double.toReal) = some v := by
  induction e generalizing v E with
  | num x =>
    simp only [rereadEnclosure] at h
    simp only [Expr.mapNum, realVal, toReal]
    split at h
    · cases h
    · rename_i hx
      rw [if_neg hx, ← (Prod.mk.inj (Option.some.inj h)).1]; rfl
  | var s =>
    simp only [rereadEnclosure] at h
    simp only [Expr.mapNum, realVal, (Prod.mk.inj (Option.some.inj h)).1]
  | un o e ih =>
    simp only [rereadEnclosure] at h
    obtain ⟨⟨w, F⟩, h1, h⟩ := Option.bind_eq_some_iff.mp h
    obtain ⟨r, h2, h⟩ := Option.bind_eq_some_iff.mp h
    obtain ⟨D, h3, h⟩ := Option.bind_eq_some_iff.mp h
    split at h
    · simp only [Expr.mapNum, realVal, ih w F h1, Option.bind_some, h2, (Prod.mk.inj (Option.some.inj h)).1]
    · cases h
  | bin o a b iha ihb =>
    simp only [rereadEnclosure] at h
    obtain ⟨⟨w, F⟩, h1, h⟩ := Option.bind_eq_some_iff.mp h
    obtain ⟨⟨w', F'⟩, h1', h⟩ := Option.bind_eq_some_iff.mp h
    obtain ⟨r, h2, h⟩ := Option.bind_eq_some_iff.mp h
    obtain ⟨D, h3, h⟩ := Option.bind_eq_some_iff.mp h
    split at h
    · simp only [Expr.mapNum, realVal, iha w F h1, ihb w' F' h1', Option.bind_some, h2, (Prod.mk.inj (Option.some.inj h)).1]
    · cases h

theorem rereadEnclosure_eval (δ : ℝ) (hL : L.Within δ) (strict : Bool) (env : Str → Res (Double L)) (ρ : Str → ℝ)
    (e e' : Expr (Double L)) (ht : Reread e e')
    (henv : ∀ s ∈ e.vars, ∃ x p, env s = .ok x ∧ x.Is p ∧ ρ s = ((p : ℚ) : ℝ)) (v E : ℝ) (h : rereadEnclosure δ ρ e = some (v, E)) :
    ∃ x p, e'.eval strict env = .ok x ∧ x.Is p ∧ |((p : ℚ) : ℝ) - v| ≤ E := by
  induction ht generalizing v E with
  | @num w y hy =>
    obtain ⟨p, p', h1, h2, h3, -, -, h5⟩ := hy
    simp only [rereadEnclosure] at h
    split at h
    · cases h
    obtain ⟨rfl, rfl⟩ := Prod.mk.inj (Option.some.inj h)
    refine ⟨y, p', rfl, h2, ?_⟩
    have hp : w.raw.toRat = p := h1.2
    rw [hp]
    split
    · rename_i hc
      rw [h5 hc]; simp
    · have := cast_le h3
      push_cast at this ⊢
      exact this
  | var s =>
    simp only [rereadEnclosure] at h
    obtain ⟨rfl, rfl⟩ := Prod.mk.inj (Option.some.inj h)
    obtain ⟨x, p, h1, h2, h3⟩ := henv s (by simp [Expr.vars])
    exact ⟨x, p, h1, h2, by simp [h3]⟩
  | un o _ ih =>
    simp only [rereadEnclosure] at h
    obtain ⟨⟨w, F⟩, h1, h⟩ := Option.bind_eq_some_iff.mp h
    obtain ⟨r, h2, h⟩ := Option.bind_eq_some_iff.mp h
    obtain ⟨D, h3, h⟩ := Option.bind_eq_some_iff.mp h
    split at h
    · rename_i hb
      obtain ⟨rfl, rfl⟩ := Prod.mk.inj (Option.some.inj h)
      obtain ⟨x, p, e1, e2, e3⟩ := ih (fun s hs => henv s (by simpa [Expr.vars] using hs)) w F h1
      obtain ⟨r', g1, g2⟩ := un_spread h2 h3 e3
      obtain ⟨q, g3, g4⟩ := un_step hL e2 g1 g2 hb
      exact ⟨_, q, by simp only [Expr.eval, e1, Res.bind_ok, checked_is g3], g3, g4⟩
    · cases h
  | bin o _ _ iha ihb =>
    simp only [rereadEnclosure] at h
    obtain ⟨⟨w, F⟩, h1, h⟩ := Option.bind_eq_some_iff.mp h
    obtain ⟨⟨w', F'⟩, h1', h⟩ := Option.bind_eq_some_iff.mp h
    obtain ⟨r, h2, h⟩ := Option.bind_eq_some_iff.mp h
    obtain ⟨D, h3, h⟩ := Option.bind_eq_some_iff.mp h
    split at h
    · rename_i hb
      obtain ⟨rfl, rfl⟩ := Prod.mk.inj (Option.some.inj h)
      obtain ⟨x, p, e1, e2, e3⟩ := iha (fun s hs => henv s (by simp [Expr.vars, hs])) w F h1
      obtain ⟨y, q, f1, f2, f3⟩ := ihb (fun s hs => henv s (by simp [Expr.vars, hs])) w' F' h1'
      obtain ⟨r', g1, g2⟩ := bin_spread h2 h3 e3 f3
      obtain ⟨z, t, g3, g4, g5⟩ := bin_step hL e2 f2 g1 g2 hb
      exact ⟨z, t, by simp only [Expr.eval, e1, f1, Res.bind_ok, g3, checked_is g4], g4, g5⟩
    · cases h

theorem toReal_neg (w : Double L) : Double.toReal (Arith.neg w) = (Double.toReal w).map fun x => -x := toRealNum_neg w

/-- C130: an expression with readable names and without arcsin, arccos, arctan, whose literals are doubles that are 0 or from `2e-16` up to `1e16` in
absolute value.  Its text is read without error; what is read is the expression up to regrouping of sums and products (C06), and up to this: a literal
below one half may have become another double of the same sign, at most `1e-16` away. -/
theorem C130_text (e : Expr (Double L)) (hn : ∀ v ∈ e.nums, v.FixedPoint) (hv : ∀ x ∈ e.vars, ReadableName (Double L) x) (ha : e.NoArc) :
    ∃ (s : Str) (e₁ e₂ : Expr (Double L)), toStringNode (embed e) = .ok s ∧ parse s = .ok (embed e₂) ∧ Reread e e₁ ∧ Regroups e₁ e₂ := by
  obtain ⟨e₁, h1, h2, h3, -, h5, h6⟩ := reread_expr e hn
  obtain ⟨s, e₂, g1, g2, g3⟩ := C06_partial e₁ h2 (by rw [h5]; exact hv) (h6 ha)
  refine ⟨s, e₁, e₂, ?_, g2, h1, g3⟩
  rw [toString_embed] at g1 ⊢
  rw [← h3]
  exact g1

/-- C130, the second time: printing what was read and reading it again changes no literal any more; and from then on the text stays the same. -/
theorem C130_again (e : Expr (Double L)) (hn : ∀ v ∈ e.nums, v.FixedPoint) (hv : ∀ x ∈ e.vars, ReadableName (Double L) x) (ha : e.NoArc) :
    ∃ (s : Str) (e₂ : Expr (Double L)) (s' : Str) (e₃ : Expr (Double L)), toStringNode (embed e) = .ok s ∧ parse s = .ok (embed e₂) ∧ toStringNode (embed e₂) = .ok s' ∧ parse s' = .ok (embed e₃) ∧
      Regroups e₂ e₃ ∧ toStringNode (embed e₃) = .ok s' := by
  obtain ⟨e₁, h1, h2, h3, -, h5, h6⟩ := reread_expr e hn
  have hv1 : ∀ x ∈ e₁.vars, ReadableName (Double L) x := by rw [h5]; exact hv
  obtain ⟨s, e₂, g1, g2, g3⟩ := C06_partial e₁ h2 hv1 (h6 ha)
  have hn' : ∀ v ∈ e₂.nums, ReadsBack v := by
    intro w hw
    rcases regroups_nums g3 Double.negText w hw with h | ⟨h, h'⟩
    · exact h2 w h
    · exact Double.readsBack_neg (h2 _ h) h'
  have hv2 : ∀ x ∈ e₂.vars, ReadableName (Double L) x := fun x hx => hv1 x ((regroups_vars g3 x).mp hx)
  have ha2 := regroups_noArc g3 (h6 ha)
  obtain ⟨s', e₃, k1, k2, k3⟩ := C06_partial e₂ hn' hv2 ha2
  obtain ⟨s'', t, m1, m2, m3⟩ := C112_stable_partial e₂ hn' hv2 ha2 (.of_nonneg (parse_nonneg g2))
  rw [k1] at m1
  cases m1
  rw [k2] at m2
  cases m2
  refine ⟨s, e₂, s', e₃, ?_, g2, k1, k2, k3, m3⟩
  rw [toString_embed] at g1 ⊢
  rw [← h3]
  exact g1

/-- C130, the value: with `g` the regrouped expression, and `v` the exact value of the expression at a point of doubles (with the bound `E` for `g`), the
tree read from the text, evaluated there, gives a double within `E` of `v`. -/
theorem C130 (δ : ℝ) (hL : L.Within δ) (cfg : Config (Double L)) (e : Expr (Double L)) (hn : ∀ v ∈ e.nums, v.FixedPoint)
    (hv : ∀ x ∈ e.vars, ReadableName (Double L) x) (ha : e.NoArc) :
    ∃ (s : Str) (t : Raw (Double L)) (g : Expr (Double L)), toStringNode (embed e) = .ok s ∧ parse s = .ok t ∧ Regroups e g ∧
      ∀ (values : List (Str × Double L)) (ρ : Str → ℝ), (∀ x ∈ e.vars, ∃ y p, values.lookup x = some y ∧ y.Is p ∧ ρ x = ((p : ℚ) : ℝ)) →
        ∀ v E, rereadEnclosure δ ρ g = some (v, E) →
          realVal ρ (e.mapNum Double.toReal) = some v ∧
          ∃ y p, (subsValues t values >>= fun t => vpa cfg t) = .ok y ∧ y.Is p ∧ |((p : ℚ) : ℝ) - v| ≤ E := by
  obtain ⟨s, e₁, e₂, h1, h2, h3, h4⟩ := C130_text e hn hv ha
  obtain ⟨g, h5, h6⟩ := reread_regroups h4 h3
  refine ⟨s, embed e₂, g, h1, h2, h5, fun values ρ hρ v E h => ⟨?_, ?_⟩⟩
  · rw [← regroups_real Double.toReal toReal_neg h5 ρ]
    exact rereadEnclosure_value δ ρ g v E h
  · rw [C17_subsValues_vpa]
    refine rereadEnclosure_eval δ hL _ _ ρ g e₂ h6 (fun x hx => ?_) v E h
    obtain ⟨y, p, r1, r2, r3⟩ := hρ x ((regroups_vars h5 x).mp hx)
    exact ⟨y, p, by simp only [r1], r2, r3⟩

/-- C130 for an expression that is grouped to the left and has no negative literals: `g` is the expression itself. -/
theorem C130_left (δ : ℝ) (hL : L.Within δ) (cfg : Config (Double L)) (e : Expr (Double L)) (hn : ∀ v ∈ e.nums, v.FixedPoint)
    (hv : ∀ x ∈ e.vars, ReadableName (Double L) x) (ha : e.NoArc) (hl : e.LeftGrouped) :
    ∃ (s : Str) (t : Raw (Double L)), toStringNode (embed e) = .ok s ∧ parse s = .ok t ∧
      ∀ (values : List (Str × Double L)) (ρ : Str → ℝ), (∀ x ∈ e.vars, ∃ y p, values.lookup x = some y ∧ y.Is p ∧ ρ x = ((p : ℚ) : ℝ)) →
        ∀ v E, rereadEnclosure δ ρ e = some (v, E) →
          realVal ρ (e.mapNum Double.toReal) = some v ∧
          ∃ y p, (subsValues t values >>= fun t => vpa cfg t) = .ok y ∧ y.Is p ∧ |((p : ℚ) : ℝ) - v| ≤ E := by
  obtain ⟨s, t, g, h1, h2, h3, h4⟩ := C130 δ hL cfg e hn hv ha
  have := regroups_leftGrouped h3 hl
  subst this
  exact ⟨s, t, h1, h2, h4⟩

/-- a case: `x*c`, where the literal `c` is the double that `0.1+0.2` gives (0.3000000000000000444…, written `0.3`, read as 0.2999999999999999888…).  After
printing and reading, the value at `x = 2` is within `3e-16` of the exact one. -/
example (cfg : Config (Double accurate)) (c two : Double accurate) (hc : c.raw = .num (5404319552844596 / 2 ^ 54)) (h2 : two.raw = .num 2) :
    ∃ (s : Str) (t : Raw (Double accurate)) (y : Double accurate) (p : ℚ), toStringNode (embed (.bin .mul (.var ['x']) (.num c))) = .ok s ∧ parse s = .ok t ∧
      (subsValues t [(['x'], two)] >>= fun t => vpa cfg t) = .ok y ∧ y.Is p ∧ |((p : ℚ) : ℝ) - 2 * (5404319552844596 / 2 ^ 54)| ≤ 3 / 10 ^ 16 := by
  have hci : c.Is (5404319552844596 / 2 ^ 54) := is_num hc
  obtain ⟨s, t, h3, h4, h5⟩ := C130_left (1 / 2 ^ 53) accurate_within cfg (.bin .mul (.var ['x']) (.num c))
    (by
      intro v hv
      simp [Expr.nums] at hv
      subst hv
      exact ⟨_, hci, .inr ⟨by rw [abs_of_pos (by norm_num)]; norm_num, by rw [abs_of_pos (by norm_num)]; norm_num⟩⟩)
    (by intro x hx; simp [Expr.vars] at hx; subst hx; exact readable_x_double) (by simp [Expr.NoArc])
    ⟨trivial, by
      show Arith.lt c (Dbl.ofInt 0) = false
      rw [Bool.eq_false_iff, ne_eq, lt_zero_iff hci]
      norm_num, (by intro h; cases h), (by intro _ p x y h; cases h)⟩
  have hx : ∀ x ∈ (Expr.bin .mul (.var ['x']) (.num c)).vars, ∃ y p, List.lookup x [(['x'], two)] = some y ∧ y.Is p ∧ (2 : ℝ) = ((p : ℚ) : ℝ) := by
    intro x hx
    simp [Expr.vars] at hx
    subst hx
    exact ⟨two, 2, by simp [List.lookup], is_num h2, by norm_num⟩
  have hinv : Dbl.isInvalid c = false := hci.1
  have hbig : (2 : ℝ) ^ 10 ≤ 2 ^ 1023 := pow_le_pow_right₀ (by norm_num) (by norm_num)
  have hq : ¬ ((5404319552844596 / 2 ^ 54 : ℚ) = 0 ∨ 1 / 2 ≤ |(5404319552844596 / 2 ^ 54 : ℚ)|) := by
    rw [abs_of_pos (by norm_num)]; norm_num
  have enc : ∃ D, rereadEnclosure (1 / 2 ^ 53) (fun _ => 2) (.bin .mul (.var ['x']) (.num c) : Expr (Double accurate)) =
      some (2 * (5404319552844596 / 2 ^ 54), D) ∧ D ≤ 3 / 10 ^ 16 := by
    have q1 : ((5404319552844596 / 2 ^ 54 : ℚ) : ℝ) = 5404319552844596 / 2 ^ 54 := by push_cast; rfl
    have q2 : |(2 : ℝ) * (5404319552844596 / 2 ^ 54)| = 5404319552844596 / 2 ^ 53 := by rw [abs_of_pos (by norm_num)]; norm_num
    have q3 : |(2 : ℝ)| * (1 / 10 ^ 16) + |(5404319552844596 / 2 ^ 54 : ℝ)| * 0 + 0 * (1 / 10 ^ 16) = 2 / 10 ^ 16 := by norm_num
    refine ⟨2 / 10 ^ 16 + BinOp.roundoff (1 / 2 ^ 53) .mul (2 * (5404319552844596 / 2 ^ 54)) (2 / 10 ^ 16), ?_, ?_⟩
    · simp only [rereadEnclosure, hinv, Bool.false_eq_true, if_false, hci.2, if_neg hq, Option.bind_some, BinOp.real, BinOp.spread]
      rw [q1, q3, if_pos]
      rw [q2]
      have : (5404319552844596 / 2 ^ 53 + 2 / 10 ^ 16 : ℝ) ≤ 1 := by norm_num
      generalize (2 : ℝ) ^ 1023 = t at hbig
      linarith
    · simp only [BinOp.roundoff]
      rw [if_neg (by rintro ⟨h, -⟩; norm_num at h), q2]
      have hsm : (1 : ℝ) / 2 ^ 1075 ≤ 1 / 2 ^ 60 := one_div_pow_le_one_div_pow_of_le (by norm_num) (by norm_num)
      generalize (1 : ℝ) / 2 ^ 1075 = t at hsm
      norm_num at hsm ⊢
      linarith
  obtain ⟨D, e1, e2⟩ := enc
  obtain ⟨-, y, p, g1, g2, g3⟩ := h5 _ _ hx _ _ e1
  exact ⟨s, t, y, p, h3, h4, g1, g2, g3.trans e2⟩

end Double
end Tom
