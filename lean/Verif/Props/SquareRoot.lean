import Verif.Lemmas.SquareRoot
import Verif.Props.TextSolve
/-
C133: `Solve` of `x*x-a` with IEEE doubles, from the default initial value: a square root of `a`, for every double `a` from 0 to 65536.
-/
set_option linter.unusedSectionVars false
namespace Tom
namespace Double
variable {L : Libm} {cfg : Config (Double L)} {ε q : ℚ} {v : Str} {a : Double L}

/-- **C133** for Newton's method called with a table: let the table hold the one variable with the value 1, let epsilon be between `2^-30` and 1 (the
default is `10^-9`), and let 83 iterations be allowed (the default is 100).  For every double `a` from 0 to 65536, with whatever `<cmath>` and
whether or not invalid values are checked, Newton's method returns; the number it returns has a square within `epsilon + 2^-33` of `a` (as exact
numbers); and it is negative if `a` is below `1 - 2 epsilon`, positive if `a` is above `1 + 2 epsilon`. -/
theorem C133_newton (he : cfg.epsilon.Is ε) (h1 : 1 / 2 ^ 30 ≤ ε) (h2 : ε ≤ 1) (hmax : 83 ≤ cfg.maxIterations) (ha : a.Is q) (hq0 : 0 ≤ q)
    (hq : q ≤ 2 ^ 16) {t : VarsTable (Double L)} {x : Double L} (ht : DoubleTable t [v] (fun _ => x)) (hx : x.Is 1) :
    ∃ (t' : VarsTable (Double L)) (y : Double L) (Y : ℚ), solveByNewtonRaphson cfg (symOf (squareEquation v a)) t = .ok t' ∧
      DoubleTable t' [v] (fun _ => y) ∧ y.Is Y ∧ |Y ^ 2 - q| ≤ ε + 1 / 2 ^ 33 ∧ (q + 2 * ε ≤ 1 → Y < 0) ∧ (1 + 2 * ε ≤ q → 0 < Y) := by
  have hn : (1 : ℚ) / 2 ^ 33 < 1 / 2 ^ 30 := by norm_num
  have hstart : ∀ r, newtonLoop cfg (symOf (squareEquation v a)) (symOf (twice v)) ((cfg.maxIterations + 2).toNat + 1) 0 t ⟨1, 1, [Arith.zero]⟩ = .ok r →
      solveByNewtonRaphson cfg (symOf (squareEquation v a)) t = .ok r := by
    intro r hr
    have e1 : Mat.new t.varNums 1 (Arith.zero : Double L) = .ok ⟨1, 1, [Arith.zero]⟩ := by
      have : t.varNums = 1 := by rw [VarsTable.varNums, ht.1.good.length, ht.2.1]; rfl
      rw [this]; rfl
    unfold solveByNewtonRaphson
    rw [e1, Res.bind_ok, ht.2.1, square_jacobian, Res.bind_ok]
    exact hr
  rcases square_run he h1 h2 ha hq0 hq ((cfg.maxIterations + 2).toNat + 1) (by omega) hmax ht hx with ⟨F, -, -, r1, r2⟩ | ⟨t', y, Y, r1, r2, r3, r4, r5⟩
  · refine ⟨t, x, 1, hstart _ r1, ht, hx, by rwa [one_pow], fun h => ?_, fun _ => one_pos⟩
    have := (abs_le.mp r2).2
    linarith
  · refine ⟨t', y, Y, hstart _ r1, r2, r3, r4, fun h => ?_, fun h => ?_⟩
    · by_contra hY
      have := mul_nonpos_of_nonpos_of_nonneg (by linarith : q - 1 ≤ 0) (not_lt.mp hY)
      linarith
    · exact (mul_pos_iff_of_pos_left (by linarith)).mp r5

/-- **C133** for `Solve` of a text, with Newton's method (the default) and the initial value 1 (the default): if the text is read as `v*v-a`, then
for every double `a` from 0 to 65536 `Solve` returns, and gives `v` a number whose square is within `epsilon + 2^-33` of `a`. -/
theorem C133 (hm : cfg.nonlinearMethod = .newtonRaphson) (hi : cfg.initialValue.Is 1) (he : cfg.epsilon.Is ε) (h1 : 1 / 2 ^ 30 ≤ ε) (h2 : ε ≤ 1)
    (hmax : 83 ≤ cfg.maxIterations) (ha : a.Is q) (hq0 : 0 ≤ q) (hq : q ≤ 2 ^ 16) {text : Str} (ht : parse text = .ok (embed (squareMinus v a))) :
    ∃ (ans : VarsTable (Double L)) (y : Double L) (Y : ℚ), (∀ lsFuel fuel, solveTexts cfg lsFuel fuel [text] = .ok ans) ∧ ans.vars = [v] ∧
      ans.table.lookup v = some y ∧ y.Is Y ∧ |Y ^ 2 - q| ≤ ε + 1 / 2 ^ 33 ∧ (q + 2 * ε ≤ 1 → Y < 0) ∧ (1 + 2 * ε ≤ q → 0 < Y) := by
  set t0 : VarsTable (Double L) := ⟨[v], ⟨1, 1, [cfg.initialValue]⟩, [(v, cfg.initialValue)]⟩ with ht0
  have hv : VarsTable.ofVars [v] cfg.initialValue = .ok t0 := rfl
  have htab : DoubleTable t0 [v] fun _ => cfg.initialValue := ⟨.ofVars hv, rfl, rfl⟩
  obtain ⟨t', y, Y, r1, r2, r3, r4⟩ := C133_newton (v := v) he h1 h2 hmax ha hq0 hq htab hi
  refine ⟨t', y, Y, fun lsFuel fuel => ?_, r2.2.1, DoubleTable.lookup r2 (0 : Fin 1), r3, r4⟩
  have heq : equationsOf [text] = .ok (symOf (squareEquation v a)) := equationsOf_eq (texts := fun _ => text) Nat.one_pos (fun _ => ht)
  have hnames : (symOf (squareEquation v a)).getAllVarNames = .ok [v] := by
    obtain ⟨out, k1, k2, k3⟩ := C50_getAllVarNames (squareEquation v a)
    rw [k1]
    have k4 : ∀ y, y ∈ out ↔ y = v := by
      intro y
      rw [k3 y]
      simp [squareEquation, squareMinus, Expr.vars]
    match out, k2, k4 with
    | [], _, k4 => exact absurd ((k4 v).mpr rfl) (by simp)
    | [x], _, k4 => rw [(k4 x).mp (by simp)]
    | x :: y :: l, k2, k4 =>
      have hx := (k4 x).mp (by simp)
      have hy := (k4 y).mp (by simp)
      have := (List.pairwise_cons.mp k2).1 y (by simp)
      rw [hx, hy] at this
      simp [strLt_irrefl] at this
  unfold solveTexts solveAuto
  rw [heq, Res.bind_ok, hnames, Res.bind_ok, hv, Res.bind_ok]
  unfold solve
  rw [hm]
  exact r1

/-- **C133**, the distance to the square root: for `a` above `1 + 2 epsilon` the answer is within `epsilon + 2^-33` of the positive square root. -/
theorem C133_above (hm : cfg.nonlinearMethod = .newtonRaphson) (hi : cfg.initialValue.Is 1) (he : cfg.epsilon.Is ε) (h1 : 1 / 2 ^ 30 ≤ ε) (h2 : ε ≤ 1)
    (hmax : 83 ≤ cfg.maxIterations) (ha : a.Is q) (hq1 : 1 + 2 * ε ≤ q) (hq : q ≤ 2 ^ 16) {text : Str} (ht : parse text = .ok (embed (squareMinus v a))) :
    ∃ (ans : VarsTable (Double L)) (y : Double L) (Y : ℚ), (∀ lsFuel fuel, solveTexts cfg lsFuel fuel [text] = .ok ans) ∧ ans.vars = [v] ∧
      ans.table.lookup v = some y ∧ y.Is Y ∧ |(Y : ℝ) - Real.sqrt q| ≤ (ε + 1 / 2 ^ 33) / Real.sqrt q := by
  have hε0 : 0 < ε := lt_of_lt_of_le (by positivity) h1
  obtain ⟨ans, y, Y, r1, r2, r3, r4, r5, -, r7⟩ := C133 hm hi he h1 h2 hmax ha (by linarith) hq ht
  refine ⟨ans, y, Y, r1, r2, r3, r4, ?_⟩
  have hq0 : (0 : ℝ) < q := by exact_mod_cast (by linarith : (0 : ℚ) < q)
  have hY : (0 : ℝ) < Y := by exact_mod_cast r7 hq1
  have hs := Real.sqrt_pos.mpr hq0
  have hsq := Real.sq_sqrt hq0.le
  have r5' : |(Y : ℝ) ^ 2 - q| ≤ ε + 1 / 2 ^ 33 := by
    have := (Rat.cast_le (K := ℝ)).mpr r5
    push_cast at this; exact this
  rw [le_div_iff₀ hs]
  refine le_trans ?_ r5'
  have e : (Y : ℝ) ^ 2 - q = (Y - Real.sqrt q) * (Y + Real.sqrt q) := by
    have e' : (Y - Real.sqrt q) * (Y + Real.sqrt q) = (Y : ℝ) ^ 2 - Real.sqrt q ^ 2 := by ring
    rw [e', hsq]
  rw [e, abs_mul, abs_of_pos (by linarith : 0 < (Y : ℝ) + Real.sqrt q)]
  exact mul_le_mul_of_nonneg_left (by linarith) (abs_nonneg _)

/-- **C133**, a consequence of starting the corrections at 0: for `a` below `1 - 2 epsilon` the answer is close to the *negative* root, although the
positive root lies between 0 and the initial value 1. -/
theorem C133_below (hm : cfg.nonlinearMethod = .newtonRaphson) (hi : cfg.initialValue.Is 1) (he : cfg.epsilon.Is ε) (h1 : 1 / 2 ^ 30 ≤ ε) (h2 : ε ≤ 1)
    (hmax : 83 ≤ cfg.maxIterations) (ha : a.Is q) (hq0 : 0 ≤ q) (hq1 : q + 2 * ε ≤ 1) {text : Str} (ht : parse text = .ok (embed (squareMinus v a))) :
    ∃ (ans : VarsTable (Double L)) (y : Double L) (Y : ℚ), (∀ lsFuel fuel, solveTexts cfg lsFuel fuel [text] = .ok ans) ∧ ans.vars = [v] ∧
      ans.table.lookup v = some y ∧ y.Is Y ∧ Y < 0 ∧ |(Y : ℝ) - -Real.sqrt q| ≤ Real.sqrt (ε + 1 / 2 ^ 33) := by
  have hε0 : 0 < ε := lt_of_lt_of_le (by positivity) h1
  obtain ⟨ans, y, Y, r1, r2, r3, r4, r5, r6, -⟩ := C133 hm hi he h1 h2 hmax ha hq0 (by linarith [(by norm_num : (1 : ℚ) ≤ 2 ^ 16)]) ht
  have hY := r6 hq1
  refine ⟨ans, y, Y, r1, r2, r3, r4, hY, ?_⟩
  have hq0' : (0 : ℝ) ≤ q := by exact_mod_cast hq0
  have hY' : (Y : ℝ) < 0 := by exact_mod_cast hY
  have hs := Real.sqrt_nonneg (q : ℝ)
  have hsq := Real.sq_sqrt hq0'
  have r5' : |(Y : ℝ) ^ 2 - q| ≤ ε + 1 / 2 ^ 33 := by
    have := (Rat.cast_le (K := ℝ)).mpr r5
    push_cast at this; exact this
  apply Real.le_sqrt_of_sq_le
  rw [sq_abs]
  refine le_trans ?_ r5'
  have e : (Y : ℝ) ^ 2 - q = (Y - -Real.sqrt q) * (Y - Real.sqrt q) := by
    have : (Y - -Real.sqrt q) * (Y - Real.sqrt q) = (Y : ℝ) ^ 2 - Real.sqrt q ^ 2 := by ring
    rw [this, hsq]
  rw [e, abs_mul, ← sq_abs, sq]
  refine mul_le_mul_of_nonneg_left ?_ (abs_nonneg _)
  rw [abs_of_neg (by linarith : (Y : ℝ) - Real.sqrt q < 0), abs_le]
  constructor <;> linarith

/-! ### Cases -/

/-- C133 applied to `x*x-2` with every setting at its default: a number within `10^-9 / √2 + ...` of `√2` -/
example : ∃ (ans : VarsTable (Double accurate)) (y : Double accurate) (Y : ℚ), (∀ lsFuel fuel, solveTexts defaultA lsFuel fuel ["x*x-2".toList] = .ok ans) ∧
    ans.vars = [['x']] ∧ ans.table.lookup ['x'] = some y ∧ y.Is Y ∧
    |(Y : ℝ) - Real.sqrt ((2 : ℚ) : ℝ)| ≤ (defaultA.epsilon.raw.toRat + 1 / 2 ^ 33) / Real.sqrt ((2 : ℚ) : ℝ) := by
  have hb : 1 / 2 ^ 30 ≤ defaultA.epsilon.raw.toRat ∧ defaultA.epsilon.raw.toRat ≤ 1 / 4 := by decide +kernel
  have h2 : (Dbl.ofInt 2 : Double accurate).Is 2 := is_ofInt (i := 2) (by norm_num)
  exact C133_above rfl one_is ⟨by decide +kernel, rfl⟩ hb.1 (by linarith [hb.2]) (by decide) h2 (by linarith [hb.2]) (by norm_num) (by decide +kernel)

/-- C133 applied to `x*x-0.25` with every setting at its default: the answer is close to `-0.5` -/
example : ∃ (ans : VarsTable (Double accurate)) (y : Double accurate) (Y : ℚ), (∀ lsFuel fuel, solveTexts defaultA lsFuel fuel ["x*x-0.25".toList] = .ok ans) ∧
    ans.vars = [['x']] ∧ ans.table.lookup ['x'] = some y ∧ y.Is Y ∧ Y < 0 ∧
    |(Y : ℝ) - -Real.sqrt ((1 / 4 : ℚ) : ℝ)| ≤ Real.sqrt (defaultA.epsilon.raw.toRat + 1 / 2 ^ 33) := by
  have hb : 1 / 2 ^ 30 ≤ defaultA.epsilon.raw.toRat ∧ defaultA.epsilon.raw.toRat ≤ 1 / 4 := by decide +kernel
  have h2 : (lit 25 (-2) : Double accurate).Is (1 / 4) := ⟨by decide +kernel, by decide +kernel⟩
  exact C133_below rfl one_is ⟨by decide +kernel, rfl⟩ hb.1 (by linarith [hb.2]) (by decide) h2 (by norm_num) (by linarith [hb.2]) (by decide +kernel)

end Double
end Tom
