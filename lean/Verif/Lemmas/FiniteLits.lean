import Verif.Spec.Anchored
import Verif.Lemmas.Diff
import Verif.Lemmas.Simplify
import Verif.Lemmas.Double
import Verif.Lemmas.Tree
/-
Finite literals stay finite under differentiation and simplification; an equation that has been evaluated with finite intermediate
results has been evaluated at finite values of the variables it pins down.
-/
namespace Tom
variable {L : Libm}
namespace Double

theorem valid_of_is {x : Double L} {q : ℚ} (h : x.Is q) : Dbl.isInvalid x = false := h.1

theorem valid_ofInt (i : ℤ) (h : |i| ≤ 2 ^ 53) : Dbl.isInvalid (Dbl.ofInt i : Double L) = false := (is_ofInt h).1

/-- a finite double minus one is finite -/
theorem valid_sub_one {c : Double L} (h : Dbl.isInvalid c = false) : Dbl.isInvalid (Arith.sub c (Dbl.ofInt 1)) = false := by
  have hc := is_of_valid h
  have h1 : (Dbl.ofInt 1 : Double L).Is 1 := by simpa using is_ofInt (L := L) (i := 1) (by norm_num)
  refine (sub_is hc h1 ?_).1
  generalize c.raw.toRat = p at hc
  have hd := is_double hc
  have hr := rnd_add_rel hd (isDouble_neg (is_double h1))
  rw [← sub_eq_add_neg] at hr
  have hb : |p| ≤ (2 ^ 106 - 2 ^ 53) * 2 ^ 918 := by
    obtain ⟨m, k, h2, h3, h4, h5, rfl⟩ := hd
    rw [abs_mul, abs_of_pos (by positivity : (0 : ℚ) < 2 ^ k)]
    have hm : |(m : ℚ)| ≤ 2 ^ 53 - 1 := by
      have : |m| ≤ 2 ^ 53 - 1 := abs_le.mpr ⟨by omega, by omega⟩
      exact_mod_cast this
    have hk : (2 : ℚ) ^ k ≤ 2 ^ (971 : ℤ) := zpow_le_zpow_right₀ (by norm_num) h5
    have e : (2 : ℚ) ^ (971 : ℤ) = 2 ^ 53 * 2 ^ 918 := by rw [show (971 : ℤ) = ((53 + 918 : ℕ) : ℤ) by norm_num, zpow_natCast, pow_add]
    rw [e] at hk
    refine le_trans (mul_le_mul hm hk (by positivity) (by norm_num)) (le_of_eq ?_)
    generalize (2 : ℚ) ^ 918 = B
    ring
  have e : (2 : ℚ) ^ 1024 = 2 ^ 106 * 2 ^ 918 := by rw [← pow_add]
  rw [e]
  have hB : (4 : ℚ) ≤ 2 ^ 918 := le_trans (by norm_num : (4 : ℚ) ≤ 2 ^ 2) (pow_le_pow_right₀ (by norm_num) (by norm_num))
  revert hb hB
  generalize (2 : ℚ) ^ 918 = B
  intro hb hB
  clear e hd hc h h1
  have ht : |p - 1| ≤ |p| + 1 := by
    have := abs_sub p 1
    rwa [abs_one] at this
  have h2 : |rnd (p - 1)| ≤ |rnd (p - 1) - (p - 1)| + |p - 1| := by
    have := abs_add_le (rnd (p - 1) - (p - 1)) (p - 1)
    rwa [sub_add_cancel] at this
  have h3 : |rnd (p - 1)| ≤ (1 / 2 ^ 53 + 1) * ((2 ^ 106 - 2 ^ 53) * B + 1) := by
    have : |p - 1| ≤ (2 ^ 106 - 2 ^ 53) * B + 1 := by linarith
    calc |rnd (p - 1)| ≤ 1 / 2 ^ 53 * |p - 1| + |p - 1| := by linarith
      _ = (1 / 2 ^ 53 + 1) * |p - 1| := by ring
      _ ≤ _ := mul_le_mul_of_nonneg_left this (by norm_num)
  refine lt_of_le_of_lt h3 ?_
  norm_num
  linarith

theorem valid_add {a b : Double L} (h : Dbl.isInvalid (Arith.add a b) = false) : Dbl.isInvalid a = false ∧ Dbl.isInvalid b = false := by
  obtain ⟨p, q, hp, hq, _⟩ := add_inv (is_of_valid h)
  exact ⟨hp.1, hq.1⟩

theorem valid_sub {a b : Double L} (h : Dbl.isInvalid (Arith.sub a b) = false) : Dbl.isInvalid a = false ∧ Dbl.isInvalid b = false := by
  obtain ⟨p, q, hp, hq, _⟩ := sub_inv (is_of_valid h)
  exact ⟨hp.1, hq.1⟩

theorem valid_mul {a b : Double L} (h : Dbl.isInvalid (Arith.mul a b) = false) : Dbl.isInvalid a = false ∧ Dbl.isInvalid b = false := by
  obtain ⟨p, q, hp, hq, _⟩ := mul_inv (is_of_valid h)
  exact ⟨hp.1, hq.1⟩

theorem valid_div {a b : Double L} (h : Dbl.isInvalid (Arith.div a b) = false) : Dbl.isInvalid a = false := by
  have h' : F64.isInvalid (F64.div a.raw b.raw) = false := h
  show F64.isInvalid a.raw = false
  cases ha : a.raw with
  | nan => rw [ha] at h'; cases hb : b.raw <;> rw [hb] at h' <;> cases h'
  | inf s => rw [ha] at h'; cases hb : b.raw <;> rw [hb] at h' <;> cases h'
  | zero s => rfl
  | num q => rfl

theorem valid_neg {a : Double L} (h : Dbl.isInvalid (Arith.neg a) = false) : Dbl.isInvalid a = false := (neg_inv (is_of_valid h)).1

end Double

theorem strict_ok {v w : Double L} (h : checked true v = .ok w) : w = v ∧ Dbl.isInvalid v = false := by
  unfold checked at h
  split at h
  · cases h
  · rename_i hc
    rw [Res.ok.injEq] at h
    exact ⟨h.symm, by simpa using hc⟩

theorem not_invalid {x : Double L} {f : Double L → Double L} (h : ∀ x, Dbl.isInvalid x = true → Dbl.isInvalid (f x) = true)
    (hv : Dbl.isInvalid (f x) = false) : Dbl.isInvalid x = false := by
  by_contra hc
  rw [h x (by simpa using hc)] at hv
  cases hv

/-- If the expression has a value in strict mode, so do the variables it pins down, and they are finite. -/
theorem Expr.Anchored.finite (hL : L.AtInfinity) {x : Str} {e : Expr (Double L)} (ha : e.Anchored x) {env : Str → Res (Double L)} {v : Double L}
    (h : e.eval true env = .ok v) : ∃ y, env x = .ok y ∧ Dbl.isInvalid y = false := by
  induction e generalizing v with
  | num c => exact ha.elim
  | var z => exact ha.elim
  | un o e ih =>
    obtain ⟨y, h1, h2⟩ := Res.bind_eq_ok.mp h
    rcases ha with ⟨rfl, h3, h4⟩ | ha
    · refine ⟨y, h1, ?_⟩
      have hv := (strict_ok h2).2
      cases o with
      | pos => exact hv
      | neg => exact Double.valid_neg hv
      | sin => exact not_invalid hL.sin hv
      | cos => exact not_invalid hL.cos hv
      | tan => exact not_invalid hL.tan hv
      | asin => exact not_invalid hL.asin hv
      | acos => exact not_invalid hL.acos hv
      | atan => exact absurd rfl h4
      | sqrt => exact not_invalid hL.sqrt hv
      | log => exact not_invalid hL.log hv
      | log2 => exact not_invalid hL.log2 hv
      | log10 => exact not_invalid hL.log10 hv
      | exp => exact absurd rfl h3
    · exact ih ha h1
  | bin o a b iha ihb =>
    obtain ⟨y, h1, h'⟩ := Res.bind_eq_ok.mp h
    obtain ⟨z, h2, hz⟩ := Res.bind_eq_ok.mp h'
    clear h h'
    rcases ha with ⟨rfl, ha⟩ | ⟨rfl, hb⟩ | ha | hb
    · refine ⟨y, h1, ?_⟩
      rcases ha with rfl | rfl | rfl | rfl | ⟨rfl, c, q, rfl, hc, hq⟩
      · exact (Double.valid_add (strict_ok hz).2).1
      · exact (Double.valid_sub (strict_ok hz).2).1
      · exact (Double.valid_mul (strict_ok hz).2).1
      · exact Double.valid_div (strict_ok hz).2
      · have hv := (strict_ok hz).2
        have : c = z := by simpa [Expr.eval] using h2
        subst this
        exact not_invalid (f := fun t => Dbl.pow t c) (fun t ht => hL.pow t c q ht hc hq) hv
    · refine ⟨z, h2, ?_⟩
      rcases hb with rfl | rfl | rfl
      · exact (Double.valid_add (strict_ok hz).2).2
      · exact (Double.valid_sub (strict_ok hz).2).2
      · exact (Double.valid_mul (strict_ok hz).2).2
    · exact iha ha h1
    · exact ihb hb h2

/-- A value of an expression in strict mode is finite if the literals and the values of the variables are. -/
theorem Expr.FiniteLits.eval_finite {e : Expr (Double L)} (he : e.FiniteLits) {env : Str → Res (Double L)}
    (henv : ∀ x ∈ e.vars, ∀ y, env x = .ok y → Dbl.isInvalid y = false) {v : Double L} (h : e.eval true env = .ok v) :
    Dbl.isInvalid v = false := by
  cases e with
  | num c =>
    have : c = v := by simpa [Expr.eval] using h
    subst this; exact he
  | var x => exact henv x (by simp [Expr.vars]) v h
  | un o e =>
    obtain ⟨y, h1, h2⟩ := Res.bind_eq_ok.mp h
    obtain ⟨rfl, h3⟩ := strict_ok h2
    exact h3
  | bin o a b =>
    obtain ⟨y, h1, h⟩ := Res.bind_eq_ok.mp h
    obtain ⟨z, h2, h⟩ := Res.bind_eq_ok.mp h
    cases ho : o.apply y z with
    | none => simp only [ho] at h; cases h
    | some w =>
      simp only [ho] at h
      obtain ⟨rfl, h3⟩ := strict_ok h
      exact h3

theorem dE_finiteLits (hL : L.AtInfinity) (x : Str) (e : Expr (Double L)) (he : e.FiniteLits) : (dE x e).FiniteLits := by
  have z := Double.valid_ofInt (L := L) 0 (by norm_num)
  have o := Double.valid_ofInt (L := L) 1 (by norm_num)
  have t := Double.valid_ofInt (L := L) 2 (by norm_num)
  have n := Double.valid_ofInt (L := L) (-1) (by norm_num)
  have l2 := hL.ln_two
  have l10 := hL.ln_ten
  fun_induction dE x e <;> simp_all [Expr.FiniteLits, Double.valid_sub_one]
  split <;> assumption

theorem simpTop_finiteLits {cfg : Config (Double L)} (hs : cfg.throwOnInvalidValue = true) {e e' : Expr (Double L)} (he : e.FiniteLits)
    (h : simpTop cfg e = .ok e') : e'.FiniteLits := by
  have z := Double.valid_ofInt (L := L) 0 (by norm_num)
  have hck : ∀ (v w : Double L), Res.noexcept (checked true v) = .ok w → Dbl.isInvalid w = false := by
    intro v w h
    unfold checked at h
    split at h
    · simp [Res.noexcept] at h
    · rename_i hc
      simp only [Res.noexcept, Res.ok.injEq] at h
      subst h; simpa using hc
  unfold simpTop at h
  rw [hs] at h
  split at h
  · obtain ⟨w, h1, h2⟩ := Res.bind_eq_ok.mp h
    rw [Res.ok.injEq] at h2
    subst h2; exact hck _ _ h1
  · split at h
    · cases h
    · obtain ⟨w, h1, h2⟩ := Res.bind_eq_ok.mp h
      rw [Res.ok.injEq] at h2
      subst h2; exact hck _ _ h1
  · dsimp only at h
    split at h
    · rw [Res.ok.injEq] at h; subst h; exact z
    · split at h
      · split at h
        · rw [Res.ok.injEq] at h; subst h; exact he.2
        · split at h
          · rw [Res.ok.injEq] at h; subst h; exact he.1
          · rw [Res.ok.injEq] at h; subst h; exact he
      · rw [Res.ok.injEq] at h; subst h; exact he
  · rw [Res.ok.injEq] at h; subst h; exact he

theorem simpE_finiteLits {cfg : Config (Double L)} (hs : cfg.throwOnInvalidValue = true) {e e' : Expr (Double L)} (he : e.FiniteLits)
    (h : simpE cfg e = .ok e') : e'.FiniteLits := by
  induction e generalizing e' with
  | num v => simp only [simpE, Res.ok.injEq] at h; subst h; exact he
  | var v => simp only [simpE, Res.ok.injEq] at h; subst h; exact he
  | un o e ih =>
    obtain ⟨a, h1, h2⟩ := Res.bind_eq_ok.mp h
    exact simpTop_finiteLits (e := .un o a) hs (by exact ih (e' := a) he h1) h2
  | bin o a b iha ihb =>
    obtain ⟨a', h1, h⟩ := Res.bind_eq_ok.mp h
    obtain ⟨b', h2, h⟩ := Res.bind_eq_ok.mp h
    exact simpTop_finiteLits (e := .bin o a' b') hs ⟨iha he.1 h1, ihb he.2 h2⟩ h

/-- The derivative (strict mode) of an expression with finite literals has finite literals. -/
theorem diff_finiteLits (hL : L.AtInfinity) {cfg : Config (Double L)} (hs : cfg.throwOnInvalidValue = true) {e d : Expr (Double L)}
    (he : e.FiniteLits) {x : Str} (h : diff cfg (embed e) x 1 = .ok (embed d)) : d.FiniteLits := by
  by_cases hi : e.hasIntOp = true
  · rw [diff_throw cfg x 1 (by norm_num) e hi] at h; cases h
  · rw [diff_ok cfg x 1 (by norm_num) e (by simpa using hi)] at h
    simp only [Int.toNat_one, Function.iterate_one] at h
    rw [simplify_embed] at h
    obtain ⟨e', h1, h2⟩ := Res.bind_eq_ok.mp h
    rw [Res.ok.injEq] at h2
    have := embed_injective h2
    subst this
    exact simpE_finiteLits hs (dE_finiteLits hL x e he) h1

end Tom
