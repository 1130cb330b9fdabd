import Verif.Props.RoundingCases
import Verif.Props.Nonlinear
import Verif.Props.IeeeUnderflow
/-
C78: how far the point returned by `Solve`, computed with IEEE doubles, is from satisfying the equations exactly.
-/
namespace Tom
namespace Double
variable {L : Libm}

/-- the number the table holds for a variable, as a rational number (0 if the variable is missing or its value is not finite) -/
def ratPoint (t : VarsTable (Double L)) (s : Str) : ℚ :=
  match t.table.lookup s with
  | some x => x.raw.toRat
  | none => 0

/-- the variables of the expression are in the table, with finite values -/
def FiniteIn (t : VarsTable (Double L)) (e : Expr (Double L)) : Prop :=
  ∀ s ∈ e.vars, ∃ x, t.table.lookup s = some x ∧ Dbl.isInvalid x = false

theorem envOf_finite {t : VarsTable (Double L)} {e : Expr (Double L)} (h : FiniteIn t e) :
    ∀ s ∈ e.vars, ∃ x, envOf t.table s = .ok x ∧ x.Is (ratPoint t s) := by
  intro s hs
  obtain ⟨x, h1, h2⟩ := h s hs
  refine ⟨x, by simp [envOf, h1], h2, ?_⟩
  simp [ratPoint, h1]

/-- `|x - 0| < epsilon` in doubles says the same of the numbers, and only finite numbers pass -/
theorem below_eps {x ε : Double L} {q : ℚ} (hε : ε.Is q) (h : Arith.lt (Arith.abs (Arith.sub x (Dbl.ofInt 0))) ε = true) :
    ∃ p, x.Is p ∧ |p| < q := by
  have h0 : (Dbl.ofInt 0 : Double L).Is 0 := by exact_mod_cast is_ofInt (L := L) (i := 0) (by norm_num)
  have hf : (Arith.abs (Arith.sub x (Dbl.ofInt 0)) : Double L).raw.isInvalid = false := by
    have hr : Arith.lt (Arith.abs (Arith.sub x (Dbl.ofInt 0))) ε = F64.lt (Arith.abs (Arith.sub x (Dbl.ofInt 0)) : Double L).raw ε.raw := rfl
    rw [hr] at h
    have habs : (Arith.abs (Arith.sub x (Dbl.ofInt 0)) : Double L).raw = F64.abs (Arith.sub x (Dbl.ofInt 0) : Double L).raw := rfl
    rw [habs] at h ⊢
    cases hv : (Arith.sub x (Dbl.ofInt 0) : Double L).raw <;> rw [hv] at h
    · cases hε' : ε.raw <;> rw [hε'] at h <;> simp [F64.abs, F64.lt] at h
    · rename_i s
      rcases is_cases hε with ⟨_, s', hs'⟩ | ⟨_, hs'⟩ <;> rw [hs'] at h <;> simp [F64.abs, F64.lt] at h
    · rfl
    · simp only [F64.abs]; split <;> rfl
  have ha : (Arith.abs (Arith.sub x (Dbl.ofInt 0)) : Double L).Is _ := ⟨hf, rfl⟩
  rw [lt_is ha hε] at h
  obtain ⟨p, hp, hpe⟩ := abs_inv ha
  obtain ⟨p1, p2, h1, h2, h3, h4⟩ := sub_inv hp
  have e2 : p2 = 0 := is_unique h2 h0
  subst e2
  rw [sub_zero, rnd_of_isDouble (is_double h1)] at h3
  refine ⟨p1, h1, ?_⟩
  rw [hpe, h3] at h
  simpa using h

/-- C78: at the point `Solve` returns, the exact value `v` of each equation (as a function of real numbers) is below
`epsilon + E`, where `E` bounds the rounding errors of evaluating that equation. -/
theorem C78_residual {r : ℕ} (δ : ℝ) (hL : L.Within δ) (cfg : Config (Double L)) (ε : ℚ) (hε : cfg.epsilon.Is ε) (lsFuel fuel : ℕ)
    (f : Matrix (Fin r) (Fin 1) (Expr (Double L))) {t t' : VarsTable (Double L)} (ht : t.Reachable)
    (h : solve cfg lsFuel fuel (symOf f) t = .ok t') (i : Fin r) (hfin : FiniteIn t' (f i 0)) (v E : ℝ)
    (hE : enclosure δ (fun s => (ratPoint t' s : ℝ)) (f i 0) = some (v, E)) :
    realVal (fun s => (ratPoint t' s : ℝ)) ((f i 0).mapNum Double.toReal) = some v ∧ |v| < ε + E := by
  refine ⟨C76_exact_value δ _ _ v E hE, ?_⟩
  obtain ⟨x, h1, h2⟩ := C42 cfg lsFuel fuel f ht h i
  rw [C17_subsValues_vpa] at h1
  obtain ⟨p, hp, hlt⟩ := below_eps hε h2
  obtain ⟨y, q, g1, g2, g3⟩ := C76_enclosure δ hL cfg.throwOnInvalidValue (envOf t'.table) _ (f i 0)
    (fun s hs => by obtain ⟨x, a, b⟩ := envOf_finite hfin s hs; exact ⟨x, _, a, b, rfl⟩) v E hE
  have hxy : x = y := by
    have : (Res.ok x : Res (Double L)) = .ok y := h1.symm.trans g1
    exact Res.ok.inj this
  subst hxy
  rw [is_unique g2 hp] at g3
  have h3 : ((|p| : ℚ) : ℝ) < (ε : ℝ) := by exact_mod_cast hlt
  push_cast at h3
  have h4 := abs_sub_abs_le_abs_sub v p
  rw [abs_sub_comm] at g3
  linarith

/-- The value of a polynomial is finite only if all numbers in it are. -/
theorem polynomial_finite (strict : Bool) (env : Str → Res (Double L)) (e : Expr (Double L)) (hp : e.Polynomial) (x : Double L) (p : ℚ)
    (h : e.eval strict env = .ok x) (hx : x.Is p) : ∀ s ∈ e.vars, ∃ y q, env s = .ok y ∧ y.Is q := by
  have chk : ∀ {y z : Double L}, checked strict y = .ok z → y = z := by
    intro y z h
    unfold checked at h
    split at h
    · cases h
    · exact Res.ok.inj h
  induction e generalizing x p with
  | num y => simp [Expr.vars]
  | var s =>
    intro s' hs'
    simp only [Expr.vars, List.mem_singleton] at hs'
    subst hs'
    exact ⟨x, p, h, hx⟩
  | un o e ih =>
    simp only [Expr.eval] at h
    obtain ⟨y, h1, h2⟩ := Res.bind_eq_ok.mp h
    have h2 := chk h2
    rcases hp with ⟨rfl | rfl, hp⟩
    · subst h2
      simpa [Expr.vars] using ih hp _ p h1 hx
    · subst h2
      simpa [Expr.vars] using ih hp y (-p) h1 (neg_inv hx)
  | bin o a b iha ihb =>
    obtain ⟨ho, hpa, hpb⟩ := hp
    simp only [Expr.eval] at h
    obtain ⟨y, h1, h⟩ := Res.bind_eq_ok.mp h
    obtain ⟨z, h2, h⟩ := Res.bind_eq_ok.mp h
    have key : ∃ p1 p2, y.Is p1 ∧ z.Is p2 := by
      rcases ho with rfl | rfl | rfl <;> simp only [BinOp.apply] at h <;> have h3 := chk h <;> subst h3
      · obtain ⟨p1, p2, e1, e2, _⟩ := add_inv hx
        exact ⟨p1, p2, e1, e2⟩
      · obtain ⟨p1, p2, e1, e2, _⟩ := sub_inv hx
        exact ⟨p1, p2, e1, e2⟩
      · obtain ⟨p1, p2, e1, e2, _⟩ := mul_inv hx
        exact ⟨p1, p2, e1, e2⟩
    obtain ⟨p1, p2, e1, e2⟩ := key
    intro s hs
    simp only [Expr.vars, List.mem_append] at hs
    rcases hs with hs | hs
    · exact iha hpa y p1 h1 e1 s hs
    · exact ihb hpb z p2 h2 e2 s hs

/-- C78 for a polynomial equation with `n` operations, without any further assumption: at the point `Solve` returns, the exact value is
below `epsilon + ((1 + 2^-53)^n - 1) A`, where `A` is the value with all terms taken absolutely. -/
theorem C78_polynomial {r : ℕ} (cfg : Config (Double L)) (ε : ℚ) (hε : cfg.epsilon.Is ε) (lsFuel fuel : ℕ)
    (f : Matrix (Fin r) (Fin 1) (Expr (Double L))) {t t' : VarsTable (Double L)} (ht : t.Reachable)
    (h : solve cfg lsFuel fuel (symOf f) t = .ok t') (i : Fin r) (hp : (f i 0).Polynomial) :
    FiniteIn t' (f i 0) ∧
    |polyVal (ratPoint t') (f i 0)| < ε + ((1 + 1 / 2 ^ 53) ^ (f i 0).ops - 1) * absVal (ratPoint t') (f i 0) := by
  obtain ⟨x, h1, h2⟩ := C42 cfg lsFuel fuel f ht h i
  rw [C17_subsValues_vpa] at h1
  obtain ⟨p, hx, hlt⟩ := below_eps hε h2
  have hfin : FiniteIn t' (f i 0) := by
    intro s hs
    obtain ⟨y, q, g1, g2⟩ := polynomial_finite _ _ _ hp x p h1 hx s hs
    split at g1
    · rename_i w hw
      exact ⟨w, hw, by rw [Res.ok.inj g1]; exact g2.1⟩
    · cases g1
  refine ⟨hfin, ?_⟩
  have h3 := C76_polynomial _ _ (ratPoint t') (f i 0) hp (envOf_finite hfin) x p h1 hx
  have h4 := abs_sub_abs_le_abs_sub (polyVal (ratPoint t') (f i 0)) p
  rw [abs_sub_comm] at h3
  linarith

/-- the equation `x * x - 2 = 0` -/
def sqrtTwo : Matrix (Fin 1) (Fin 1) (Expr (Double libm0)) :=
  fun _ _ => .bin .sub (.bin .mul (.var ['x']) (.var ['x'])) (.num (Dbl.ofInt 2))

/-- 1.4142135623773533, what `Solve` returns for it from `x = 1` with LM -/
def root : Double libm0 := near libm0 (3184525836272475 / 2251799813685248)

theorem root_is : root.Is (3184525836272475 / 2251799813685248) := is_num (by decide +kernel)

theorem sqrtTwo_solved : solve config 100 200 (symOf sqrtTwo) (var (Dbl.ofInt 1)) = .ok (var root) := by decide +kernel

/-- C78 applied to this run: the square of the number returned differs from 2 by less than `epsilon + 2^-50`.  (It is within `10^-10`;
the rounding errors are within `2^-50`.) -/
example : |(ratPoint (var root) ['x']) * ratPoint (var root) ['x'] - 2| <
    config.epsilon.raw.toRat + ((1 + 1 / 2 ^ 53) ^ 2 - 1) * (ratPoint (var root) ['x'] * ratPoint (var root) ['x'] + 1 / 2 ^ 1022 + 2) := by
  have hp : (sqrtTwo 0 0).Polynomial := by simp [sqrtTwo, Expr.Polynomial]
  have hε : config.epsilon.Is config.epsilon.raw.toRat := ⟨by decide +kernel, rfl⟩
  have h := (C78_polynomial config _ hε 100 200 sqrtTwo (.ofList (l := [(['x'], Dbl.ofInt 1)]) rfl) sqrtTwo_solved 0 hp).2
  have h2 : (Dbl.ofInt 2 : Double libm0).raw.toRat = 2 := by decide +kernel
  have hpos : |ratPoint (var root) ['x']| = ratPoint (var root) ['x'] := by decide +kernel
  simp only [sqrtTwo, polyVal, absVal, Expr.ops, h2, hpos] at h
  simpa using h

end Double
end Tom
