import Verif.Spec.DoubleSimplify
import Verif.Props.RealSimplify
import Verif.Props.Rounding
import Verif.Props.Subs
/-
C82: simplification does not change what an expression evaluates to in double arithmetic.
-/
namespace Tom
namespace Double
variable {L : Libm}

theorem checked_ok {x y : Double L} (h : checked true x = .ok y) : y = x ∧ ∃ p, x.Is p := by
  unfold checked at h
  split at h
  · cases h
  · rename_i hx
    refine ⟨(Res.ok.inj h).symm, _, is_of_valid ?_⟩
    simpa using hx

theorem apply_un_blind (hL : L.AnnexF) {o : UnOp} {x x' : Double L} {p r : ℚ} (hx : x.Is p) (hx' : x'.Is p)
    (h : (o.apply x).Is r) : (o.apply x').Is r := by
  by_cases h1 : o = .pos
  · subst h1
    have := is_unique (h : x.Is r) hx
    subst this; exact hx'
  by_cases h2 : o = .neg
  · subst h2
    have e := is_unique (h : (Arith.neg x).Is r) (neg_is hx)
    subst e; exact neg_is hx'
  exact hL.un o x x' p r h1 h2 hx hx' h

theorem apply_bin_blind (hL : L.AnnexF) {o : BinOp} {x x' y y' z : Double L} {p s r : ℚ} (hx : x.Is p) (hx' : x'.Is p)
    (hy : y.Is s) (hy' : y'.Is s) (hz : o.apply x y = some z) (h : z.Is r) : ∃ z', o.apply x' y' = some z' ∧ z'.Is r := by
  have hi : ∀ {a b : Double L} {q : ℚ}, a.Is q → b.Is q → Dbl.toInt32 a = Dbl.toInt32 b := fun ha hb => by
    rw [toInt32_is ha, toInt32_is hb]
  cases o
  case add =>
    obtain rfl := Option.some.inj hz
    obtain ⟨p', s', h1, h2, h3, h4⟩ := add_inv h
    rw [is_unique h1 hx, is_unique h2 hy] at h3 h4
    exact ⟨_, rfl, h3 ▸ add_is hx' hy' h4⟩
  case sub =>
    obtain rfl := Option.some.inj hz
    obtain ⟨p', s', h1, h2, h3, h4⟩ := sub_inv h
    rw [is_unique h1 hx, is_unique h2 hy] at h3 h4
    exact ⟨_, rfl, h3 ▸ sub_is hx' hy' h4⟩
  case mul =>
    obtain rfl := Option.some.inj hz
    obtain ⟨p', s', h1, h2, h3, h4⟩ := mul_inv h
    rw [is_unique h1 hx, is_unique h2 hy] at h3 h4
    exact ⟨_, rfl, h3 ▸ mul_is hx' hy' h4⟩
  case div =>
    obtain rfl := Option.some.inj hz
    obtain ⟨h2, h3, h4⟩ := div_inv hx hy h
    exact ⟨_, rfl, h3 ▸ div_is hx' hy' h2 h4⟩
  case pow =>
    obtain rfl := Option.some.inj hz
    exact ⟨_, rfl, hL.pow x x' y y' p s r hx hx' hy hy' h⟩
  all_goals
    refine ⟨z, ?_, h⟩
    rw [← hz]
    simp only [BinOp.apply, hi hx' hx, hi hy' hy]

/-- a literal that simplification recognizes as the integer `i` -/
theorem isLit_is {e : Expr (Double L)} {i : ℤ} (hi : |i| ≤ 2 ^ 53) {env : Str → Res (Double L)} {x : Double L} {q : ℚ}
    (h : isLit (Dbl.ofInt i) e = true) (hv : e.eval true env = .ok x) (hx : x.Is q) : q = i := by
  cases e <;> simp [isLit] at h
  rename_i v
  have : v = x := Res.ok.inj hv
  subst this
  rw [eq_is hx (is_ofInt hi)] at h
  simpa using h

/-- Evaluation that succeeds gives a finite number. -/
theorem eval_is {env : Str → Res (Double L)} (henv : ∀ s x, env s = .ok x → ∃ p, x.Is p) (e : Expr (Double L))
    (hn : ∀ v ∈ e.nums, Dbl.isInvalid v = false) {v : Double L} (h : e.eval true env = .ok v) : ∃ p, v.Is p := by
  cases e with
  | num w =>
    have : w = v := Res.ok.inj h
    subst this
    exact ⟨_, is_of_valid (hn w (by simp [Expr.nums]))⟩
  | var x => exact henv x v h
  | un o a =>
    obtain ⟨x, _, h⟩ := Res.bind_eq_ok.mp h
    obtain ⟨rfl, h'⟩ := checked_ok h
    exact h'
  | bin o a b =>
    obtain ⟨x, _, h⟩ := Res.bind_eq_ok.mp h
    obtain ⟨y, _, h⟩ := Res.bind_eq_ok.mp h
    cases hz : o.apply x y <;> simp only [hz] at h
    · cases h
    · obtain ⟨rfl, h'⟩ := checked_ok h
      exact h'

theorem simpE_double (hL : L.AnnexF) (cfg : Config (Double L)) {env : Str → Res (Double L)}
    (henv : ∀ s x, env s = .ok x → ∃ p, x.Is p) (e : Expr (Double L)) (hn : ∀ v ∈ e.nums, Dbl.isInvalid v = false)
    (hz : e.NoZeroPow env) {v : Double L} {r : ℚ} (h : e.eval true env = .ok v) (hv : v.Is r) :
    ∃ e' v', simpE cfg e = .ok e' ∧ e'.eval true env = .ok v' ∧ v'.Is r := by
  induction e generalizing v r with
  | num w => exact ⟨_, _, rfl, h, hv⟩
  | var x => exact ⟨_, _, rfl, h, hv⟩
  | un o e ih =>
    obtain ⟨x, hx, h⟩ := Res.bind_eq_ok.mp h
    obtain ⟨rfl, _⟩ := checked_ok h
    obtain ⟨p, hp⟩ := eval_is henv e hn hx
    obtain ⟨a', x', ha', hx', hp'⟩ := ih hn hz hx hp
    have hb := apply_un_blind hL hp hp' hv
    have hun : (Expr.un o a').eval true env = .ok (o.apply x') := by
      simp only [Expr.eval, hx', Res.bind_ok, checked_is hb]
    simp only [simpE, ha', Res.bind_ok]
    cases a' with
    | num w =>
      have : w = x' := Res.ok.inj hx'
      subst this
      simp only [simpTop, checked_is hb, Res.noexcept_ok, Res.bind_ok]
      exact ⟨_, _, rfl, rfl, hb⟩
    | var x => exact ⟨_, _, rfl, hun, hb⟩
    | un o' x => exact ⟨_, _, rfl, hun, hb⟩
    | bin o' x y => exact ⟨_, _, rfl, hun, hb⟩
  | bin o a b iha ihb =>
    obtain ⟨x, hx, h⟩ := Res.bind_eq_ok.mp h
    obtain ⟨y, hy, h⟩ := Res.bind_eq_ok.mp h
    cases hap : o.apply x y <;> simp only [hap] at h
    · cases h
    obtain ⟨rfl, _⟩ := checked_ok h
    have hna : ∀ v ∈ a.nums, Dbl.isInvalid v = false := fun v hv => hn v (by simp [Expr.nums, hv])
    have hnb : ∀ v ∈ b.nums, Dbl.isInvalid v = false := fun v hv => hn v (by simp [Expr.nums, hv])
    obtain ⟨p, hp⟩ := eval_is henv a hna hx
    obtain ⟨s, hs⟩ := eval_is henv b hnb hy
    obtain ⟨a', x', ha', hx', hp'⟩ := iha hna hz.2.1 hx hp
    obtain ⟨b', y', hb', hy', hs'⟩ := ihb hnb hz.2.2 hy hs
    obtain ⟨z', hz', hr'⟩ := apply_bin_blind hL hp hp' hs hs' hap hv
    have hbin : (Expr.bin o a' b').eval true env = .ok z' := by
      simp only [Expr.eval, hx', hy', Res.bind_ok, hz', checked_is hr']
    simp only [simpE, ha', hb', Res.bind_ok]
    have hok : ∃ e', simpTop cfg (.bin o a' b') = .ok e' := by
      by_cases hnum : a'.isNum = true ∧ b'.isNum = true
      · cases a' <;> simp [Expr.isNum] at hnum
        cases b' <;> simp [Expr.isNum] at hnum
        obtain rfl := Res.ok.inj hx'
        obtain rfl := Res.ok.inj hy'
        simp only [simpTop, hz', checked_is hr', Res.noexcept_ok, Res.bind_ok]
        exact ⟨_, rfl⟩
      · cases a' <;> cases b' <;> simp [Expr.isNum] at hnum <;> simp only [simpTop] <;> (repeat' split) <;> exact ⟨_, rfl⟩
    obtain ⟨e', he'⟩ := hok
    have zero_is : (Dbl.ofInt 0 : Double L).Is 0 := by simpa using is_ofInt (L := L) (i := 0) (by norm_num)
    have l0 : ∀ {e : Expr (Double L)} {x : Double L} {q : ℚ}, isLit (Dbl.ofInt 0) e = true → e.eval true env = .ok x → x.Is q → q = 0 :=
      fun h1 h2 h3 => by simpa using isLit_is (by norm_num) h1 h2 h3
    have l1 : ∀ {e : Expr (Double L)} {x : Double L} {q : ℚ}, isLit (Dbl.ofInt 1) e = true → e.eval true env = .ok x → x.Is q → q = 1 :=
      fun h1 h2 h3 => by simpa using isLit_is (by norm_num) h1 h2 h3
    have hpd := is_double hp
    have hsd := is_double hs
    refine ⟨e', ?_⟩
    suffices H : ∃ v', e'.eval true env = .ok v' ∧ v'.Is r by
      obtain ⟨v', h1, h2⟩ := H; exact ⟨v', he', h1, h2⟩
    rcases simpTop_bin_ok he' with ⟨x0, y0, u, w, rfl, rfl, h1, h2, rfl⟩ | ⟨hnn, hk⟩
    · obtain rfl := Res.ok.inj hx'
      obtain rfl := Res.ok.inj hy'
      rw [hz'] at h1
      obtain rfl := Option.some.inj h1
      rw [checked_is hr'] at h2
      obtain rfl := Res.ok.inj h2
      exact ⟨_, rfl, hr'⟩
    · rcases hk with ⟨rfl, hk⟩ | ⟨rfl, hk⟩ | ⟨rfl, hna, hk⟩ | rfl
      · refine ⟨_, rfl, ?_⟩
        suffices r = 0 by rw [this]; exact zero_is
        rcases hk with ⟨rfl, hk | hk⟩ | ⟨rfl, hk⟩ | ⟨rfl, hk⟩
        · obtain rfl := l0 hk hx' hp'
          obtain rfl := Option.some.inj hz'
          obtain ⟨p1, q1, h1, h2, h3, _⟩ := mul_inv hr'
          rw [h3, is_unique h1 hp', zero_mul, rnd_zero]
        · obtain rfl := l0 hk hy' hs'
          obtain rfl := Option.some.inj hz'
          obtain ⟨p1, q1, h1, h2, h3, _⟩ := mul_inv hr'
          rw [h3, is_unique h2 hs', mul_zero, rnd_zero]
        · obtain rfl := l0 hk hx' hp'
          obtain rfl := Option.some.inj hz'
          obtain ⟨_, h3, _⟩ := div_inv hp' hs' hr'
          rw [h3, zero_div, rnd_zero]
        · obtain rfl := l0 hk hx' hp'
          have hs0 : s ≠ 0 := by
            rintro rfl
            have hbn : b'.isNum = false := by
              cases hb : b'.isNum with
              | false => rfl
              | true =>
                exfalso; apply hnn
                refine ⟨?_, hb⟩
                cases a' <;> simp_all [isLit, Expr.isNum]
            have hbv : b.vars ≠ [] := by
              intro hbv
              have h1 := simpE_noConst cfg b b' hb'
              have h2 := (simpE_size_vars cfg b b' hb').2
              rw [hbv] at h2
              have h3 : b'.vars = [] := List.eq_nil_iff_forall_not_mem.mpr fun y hy => by simpa using h2 y hy
              rw [noConst_vars_isNum b' h1 h3] at hbn
              cases hbn
            exact hz.1 rfl hbv ⟨x, y, hx, hy, hp, hs⟩
          obtain rfl := Option.some.inj hz'
          exact hL.zero_pow _ _ s r hp' hs' hs0 hr'
      · refine ⟨y', hy', ?_⟩
        suffices r = s by rw [this]; exact hs'
        rcases hk with ⟨rfl, hk⟩ | ⟨rfl, hk⟩ | ⟨_, h1, h2⟩ | ⟨_, h1, h2⟩
        · obtain rfl := l0 hk hx' hp'
          obtain rfl := Option.some.inj hz'
          obtain ⟨p1, q1, h1, h2, h3, _⟩ := add_inv hr'
          rw [h3, is_unique h1 hp', is_unique h2 hs', zero_add, rnd_of_isDouble hsd]
        · obtain rfl := l1 hk hx' hp'
          obtain rfl := Option.some.inj hz'
          obtain ⟨p1, q1, h1, h2, h3, _⟩ := mul_inv hr'
          rw [h3, is_unique h1 hp', is_unique h2 hs', one_mul, rnd_of_isDouble hsd]
        · exact absurd ⟨h1, h2⟩ hnn
        · exact absurd ⟨h1, h2⟩ hnn
      · refine ⟨x', hx', ?_⟩
        suffices r = p by rw [this]; exact hp'
        rcases hk with ⟨rfl, hk⟩ | ⟨rfl, hk⟩ | ⟨rfl, hk⟩ | ⟨rfl, hk⟩ | ⟨rfl, hk⟩
        · obtain rfl := l0 hk hy' hs'
          obtain rfl := Option.some.inj hz'
          obtain ⟨p1, q1, h1, h2, h3, _⟩ := add_inv hr'
          rw [h3, is_unique h1 hp', is_unique h2 hs', add_zero, rnd_of_isDouble hpd]
        · obtain rfl := l0 hk hy' hs'
          obtain rfl := Option.some.inj hz'
          obtain ⟨p1, q1, h1, h2, h3, _⟩ := sub_inv hr'
          rw [h3, is_unique h1 hp', is_unique h2 hs', sub_zero, rnd_of_isDouble hpd]
        · obtain rfl := l1 hk hy' hs'
          obtain rfl := Option.some.inj hz'
          obtain ⟨p1, q1, h1, h2, h3, _⟩ := mul_inv hr'
          rw [h3, is_unique h1 hp', is_unique h2 hs', mul_one, rnd_of_isDouble hpd]
        · obtain rfl := l1 hk hy' hs'
          obtain rfl := Option.some.inj hz'
          obtain ⟨_, h3, _⟩ := div_inv hp' hs' hr'
          rw [h3, div_one, rnd_of_isDouble hpd]
        · obtain rfl := l1 hk hy' hs'
          obtain rfl := Option.some.inj hz'
          exact is_unique hr' (hL.pow_one _ _ p hp' hs')
      · exact ⟨z', hbin, hr'⟩

theorem mem_of_lookup {β : Type} {l : List (Str × β)} {s : Str} {w : β} (h : l.lookup s = some w) : (s, w) ∈ l := by
  induction l with
  | nil => simp at h
  | cons b l ih =>
    obtain ⟨k, u⟩ := b
    rw [List.lookup_cons] at h
    split at h
    · rename_i hk
      rw [beq_iff_eq] at hk
      simp_all
    · exact List.mem_cons_of_mem _ (ih h)

/-- C82, partial: if with `throwOnInvalidValue` substituting the (finite) `values` into an expression with finite literals and evaluating
gives the number `v`, then `Simplify` returns normally, and substituting and evaluating the simplified expression gives a number
that `==` `v`: no rounding error is gained or lost by simplifying.  Left out: points where some `a^b` with a variable exponent is `0^0`
(`C82_false`). -/
theorem C82_partial (hL : L.AnnexF) (cfg : Config (Double L)) (hs : cfg.throwOnInvalidValue = true) (e : Expr (Double L))
    (hn : ∀ v ∈ e.nums, Dbl.isInvalid v = false) (values : List (Str × Double L)) (hval : ∀ b ∈ values, Dbl.isInvalid b.2 = false)
    (hz : e.NoZeroPow (tableEnv values)) (v : Double L)
    (h : (subsValues (embed e) values >>= fun t => vpa cfg t) = .ok v) :
    ∃ t v', simplify cfg (embed e) = .ok t ∧ (subsValues t values >>= fun t => vpa cfg t) = .ok v' ∧ Arith.eq v v' = true := by
  rw [C17_subsValues_vpa, hs] at h
  have henv : ∀ s x, tableEnv values s = .ok x → ∃ p, x.Is p := by
    intro s x h
    unfold tableEnv at h
    split at h
    · rename_i w hw
      obtain rfl := Res.ok.inj h
      exact ⟨_, is_of_valid (hval (s, w) (mem_of_lookup hw))⟩
    · cases h
  obtain ⟨r, hv⟩ := eval_is (env := tableEnv values) henv e hn h
  obtain ⟨e', v', h1, h2, h3⟩ := simpE_double hL cfg henv e hn hz h hv
  refine ⟨embed e', v', (simplify_ok_iff cfg e _).mpr ⟨e', h1, rfl⟩, ?_, ?_⟩
  · rw [C17_subsValues_vpa, hs]; exact h2
  · rw [eq_is hv h3]; simp

/-- a libm that is right about `pow` at 0 and 1 -/
def libmF : Libm := ⟨id, id, id, id, id, id, id, id, id, id, id, fun x y =>
  if F64.eq y.1 (F64.round false 1) then x
  else if F64.eq y.1 (.zero false) then ⟨F64.round false 1, F64.ok_round _ _⟩
  else if F64.eq x.1 (.zero false) then ⟨.zero false, trivial⟩ else ⟨F64.round false 1, F64.ok_round _ _⟩, libstdcxxOrder⟩

theorem powF (x y : Double libmF) : Dbl.pow x y = if Arith.eq y (Dbl.ofInt 1) then x else if Arith.eq y (Dbl.ofInt 0) then Dbl.ofInt 1
    else if Arith.eq x (Dbl.ofInt 0) then Dbl.ofInt 0 else Dbl.ofInt 1 := by
  have h0 : (Dbl.ofInt 0 : Double libmF) = ⟨.zero false, trivial⟩ := Double.ext (by decide +kernel)
  rw [h0]
  rfl

theorem annexF : libmF.AnnexF := by
  have h0 : (Dbl.ofInt 0 : Double libmF).Is 0 := by simpa using is_ofInt (L := libmF) (i := 0) (by norm_num)
  have h1 : (Dbl.ofInt 1 : Double libmF).Is 1 := by simpa using is_ofInt (L := libmF) (i := 1) (by norm_num)
  have hp : ∀ (x y : Double libmF) (p s : ℚ), x.Is p → y.Is s →
      (Dbl.pow x y).Is (if s = 1 then p else if s = 0 then 1 else if p = 0 then 0 else 1) := by
    intro x y p s hx hy
    rw [powF, eq_is hy h1, eq_is hy h0, eq_is hx h0]
    simp only [decide_eq_true_eq]
    split_ifs <;> assumption
  refine ⟨?_, ?_, ?_, ?_⟩
  · intro o x x' p r h2 h3 hx hx' h
    cases o <;> first | exact absurd rfl h2 | exact absurd rfl h3 | (have e := is_unique (h : x.Is r) hx; subst e; exact hx')
  · intro x x' y y' p s r hx hx' hy hy' h
    rw [is_unique h (hp x y p s hx hy)]
    exact hp x' y' p s hx' hy'
  · intro x y p hx hy
    simpa using hp x y p 1 hx hy
  · intro x y s r hx hy hs h
    rw [is_unique h (hp x y 0 s hx hy)]
    simp [hs]

/-- a configuration that rejects invalid values, or not -/
def configF (strict : Bool) : Config (Double libmF) where
  throwOnInvalidValue := strict
  epsilon := near libmF (1 / 1000000000)
  maxIterations := 100
  nonlinearMethod := .newtonRaphson
  initialValue := Dbl.ofInt 1
  allowIndeterminateEquation := false

/-- C82 fails as stated: `0^x` evaluates to 1 at `x = 0`, its simplification to 0. -/
theorem C82_false :
    let e : Expr (Double libmF) := .bin .pow (.num (Dbl.ofInt 0)) (.var ['x'])
    let values : List (Str × Double libmF) := [(['x'], Dbl.ofInt 0)]
    (subsValues (embed e) values >>= fun t => vpa (configF true) t) = .ok (Dbl.ofInt 1) ∧
    (simplify (configF true) (embed e) >>= fun t => subsValues t values >>= fun t => vpa (configF true) t) = .ok (Dbl.ofInt 0) ∧
    Arith.eq (Dbl.ofInt 0 : Double libmF) (Dbl.ofInt 1) = false := by
  refine ⟨?_, ?_, ?_⟩ <;> decide +kernel

/-- Without `throwOnInvalidValue` the sign of a zero, which simplification does not keep, becomes visible: `1/(x+0)` is `+inf` at
`x = -0`, its simplification `1/x` is `-inf`. -/
theorem C82_false_signed_zero :
    let e : Expr (Double libmF) := .bin .div (.num (Dbl.ofInt 1)) (.bin .add (.var ['x']) (.num (Dbl.ofInt 0)))
    let values : List (Str × Double libmF) := [(['x'], Arith.neg (Dbl.ofInt 0))]
    (subsValues (embed e) values >>= fun t => vpa (configF false) t) = .ok Dbl.inf ∧
    (simplify (configF false) (embed e) >>= fun t => subsValues t values >>= fun t => vpa (configF false) t) = .ok (Arith.neg Dbl.inf) ∧
    Arith.lt (Arith.neg Dbl.inf : Double libmF) Dbl.inf = true := by
  refine ⟨?_, ?_, ?_⟩ <;> decide +kernel

/-- The hypotheses of `C82_partial` are met by `(x*0 + 1*y)^1 / 3` at `x = 0.1`, `y = 7`, where the quotient is rounded. -/
example : let e : Expr (Double libmF) := .bin .div (.bin .pow (.bin .add (.bin .mul (.var ['x']) (.num (Dbl.ofInt 0)))
        (.bin .mul (.num (Dbl.ofInt 1)) (.var ['y']))) (.num (Dbl.ofInt 1))) (.num (Dbl.ofInt 3))
    let values : List (Str × Double libmF) := [(['x'], near libmF (1 / 10)), (['y'], Dbl.ofInt 7)]
    (∀ v ∈ e.nums, Dbl.isInvalid v = false) ∧ (∀ b ∈ values, Dbl.isInvalid b.2 = false) ∧ e.NoZeroPow (tableEnv values) ∧
    (subsValues (embed e) values >>= fun t => vpa (configF true) t) = .ok (near libmF (7 / 3)) := by
  refine ⟨by decide +kernel, by decide +kernel, ?_, by decide +kernel⟩
  simp [Expr.NoZeroPow, Expr.vars]

end Double
end Tom
