import Verif.Spec.ConvexNewton
import Verif.Props.NewtonOrder
import Verif.Props.NearRoot
import Mathlib.Analysis.Convex.Deriv
/-
C118: Newton-Raphson finds the root of a convex (or concave) strictly monotone equation from far away.
-/
set_option linter.unusedSectionVars false
namespace Tom

section
variable {x : Str} {e : Expr (XNum ℝ)} {I : Set ℝ} {f f' : ℝ → ℝ} {s r : ℝ}

/-- the tangent lies below -/
theorem ConvexEquation.tangent (h : ConvexEquation x e I f f' s r) {u v : ℝ} (hu : u ∈ I) (hv : v ∈ I) :
    s * f u + s * f' u * (v - u) ≤ s * f v := by
  have hd : HasDerivAt (fun u => s * f u) (s * f' u) u := (h.slope u hu).const_mul s
  rcases lt_trichotomy u v with hlt | rfl | hlt
  · have := h.convex.le_slope_of_hasDerivAt hu hv hlt hd
    rw [slope_def_field, le_div_iff₀ (by linarith)] at this
    linarith
  · simp
  · have := h.convex.slope_le_of_hasDerivAt hv hu hlt hd
    rw [slope_def_field, div_le_iff₀ (by linarith)] at this
    nlinarith

theorem ConvexEquation.r_sq (h : ConvexEquation x e I f f' s r) : r * r = 1 := by
  rcases h.signs.2 with h | h <;> rw [h] <;> norm_num

theorem ConvexEquation.s_sq (h : ConvexEquation x e I f f' s r) : s * s = 1 := by
  rcases h.signs.1 with h | h <;> rw [h] <;> norm_num

theorem ConvexEquation.ne (h : ConvexEquation x e I f f' s r) {u : ℝ} (hu : u ∈ I) : f' u ≠ 0 := by
  intro h0
  have := h.monotone u hu
  rw [h0] at this
  simp at this

/-- the slope grows in direction `r` -/
theorem ConvexEquation.steeper (h : ConvexEquation x e I f f' s r) {u v : ℝ} (hu : u ∈ I) (huv : r * u ≤ r * v) :
    s * (r * f' u) ≤ s * (r * f' v) := by
  have hv := h.endless u hu v huv
  have h1 := h.tangent hu hv
  have h2 := h.tangent hv hu
  rcases huv.eq_or_lt with heq | hlt
  · have : u = v := by
      have := congrArg (r * ·) heq
      simp only [← mul_assoc, h.r_sq, one_mul] at this
      exact this
    rw [this]
  · have h3 : 0 ≤ (s * f' v - s * f' u) * (v - u) := by nlinarith
    rcases h.signs.2 with hr | hr <;> subst hr <;> nlinarith

/-- one Newton step from a point of `I` leads to the far side of the root, and from there backwards -/
theorem ConvexEquation.step (h : ConvexEquation x e I f f' s r) {z u : ℝ} (hz : z ∈ I) (h0 : f z = 0) (hu : u ∈ I) :
    r * z ≤ r * (u - f u / f' u) ∧ r * (u - (u - f u / f' u)) = s * f u / (s * (r * f' u)) ∧ 0 ≤ s * f (u - f u / f' u) := by
  have hq := h.monotone u hu
  have hne := h.ne hu
  have hrne : r ≠ 0 := by intro hr; rw [hr] at hq; simp at hq
  have hsne : s ≠ 0 := by intro hr; rw [hr] at hq; simp at hq
  have h2 : r * (u - (u - f u / f' u)) = s * f u / (s * (r * f' u)) := by
    rw [sub_sub_cancel, mul_div_mul_left _ _ hsne, eq_div_iff (mul_ne_zero hrne hne)]
    have := h.r_sq
    field_simp
    linear_combination (f u) * this
  have h1 : r * z ≤ r * (u - f u / f' u) := by
    have ht := h.tangent hu hz
    rw [h0, mul_zero] at ht
    have e1 : s * (r * f' u) * (r * (u - f u / f' u) - r * z) = s * f' u * (u - z) - s * f u := by
      have := h.r_sq
      field_simp
      linear_combination (f' u * (u - z) - f u) * this
    have : 0 ≤ s * (r * f' u) * (r * (u - f u / f' u) - r * z) := by rw [e1]; linarith
    have := nonneg_of_mul_nonneg_right this hq
    linarith
  refine ⟨h1, h2, ?_⟩
  have ht := h.tangent hu (h.endless z hz _ h1)
  have : s * f u + s * f' u * (u - f u / f' u - u) = 0 := by field_simp; ring
  linarith

/-- the points from the second on are beyond the root, and go back towards it -/
theorem ConvexEquation.points (h : ConvexEquation x e I f f' s r) {z u : ℝ} (hz : z ∈ I) (h0 : f z = 0)
    (h1 : newtonFrom f f' u 1 ∈ I) (k : ℕ) :
    newtonFrom f f' u (k + 1) ∈ I ∧ r * z ≤ r * newtonFrom f f' u (k + 2) ∧ 0 ≤ s * f (newtonFrom f f' u (k + 2)) ∧
      r * newtonFrom f f' u (k + 2) ≤ r * newtonFrom f f' u 2 := by
  have hrec : ∀ k, newtonFrom f f' u (k + 2) = newtonFrom f f' u (k + 1) -
      f (newtonFrom f f' u (k + 1)) / f' (newtonFrom f f' u (k + 1)) := fun k => rfl
  induction k with
  | zero =>
    obtain ⟨a, _, c⟩ := h.step hz h0 h1
    exact ⟨h1, by rw [hrec]; exact a, by rw [hrec]; exact c, le_rfl⟩
  | succ k ih =>
    obtain ⟨i1, i2, i3, i4⟩ := ih
    have hm := h.endless z hz _ i2
    obtain ⟨a, b, c⟩ := h.step hz h0 hm
    refine ⟨hm, by rw [hrec]; exact a, by rw [hrec]; exact c, ?_⟩
    have : 0 ≤ r * (newtonFrom f f' u (k + 2) - newtonFrom f f' u (k + 3)) := by
      rw [hrec (k + 1), b]
      exact div_nonneg i3 (h.monotone _ hm).le
    linarith

/-- value times slope becomes at least four times smaller with every step -/
theorem ConvexEquation.soon (h : ConvexEquation x e I f f' s r) {z u : ℝ} (hz : z ∈ I) (h0 : f z = 0)
    (h1 : newtonFrom f f' u 1 ∈ I) (n : ℕ) :
    4 ^ n * (s * f (newtonFrom f f' u (n + 2)) * (s * (r * f' (newtonFrom f f' u (n + 2))))) ≤
      s * f (newtonFrom f f' u 2) * (s * (r * f' (newtonFrom f f' u 2))) := by
  induction n with
  | zero => simp
  | succ n ih =>
    obtain ⟨_, i2, i3, _⟩ := h.points hz h0 h1 n
    obtain ⟨_, j2, j3, _⟩ := h.points hz h0 h1 (n + 1)
    have hm := h.endless z hz _ i2
    have hm' := h.endless z hz _ j2
    have hq := h.monotone _ hm
    have hq' := h.monotone _ hm'
    have ht := h.tangent hm' hm
    have hb := (h.step hz h0 hm).2.1
    have hrec : newtonFrom f f' u (n + 1 + 2) = newtonFrom f f' u (n + 2) -
        f (newtonFrom f f' u (n + 2)) / f' (newtonFrom f f' u (n + 2)) := rfl
    rw [← hrec] at hb
    rw [eq_div_iff hq.ne'] at hb
    have hr := h.r_sq
    generalize newtonFrom f f' u (n + 2) = v at *
    generalize newtonFrom f f' u (n + 1 + 2) = v' at *
    have e1 : s * f' v' * (v - v') = s * (r * f' v') * (r * (v - v')) := by linear_combination (-(s * f' v' * (v - v'))) * hr
    rw [e1] at ht
    generalize s * f v = a at *
    generalize s * f v' = a' at *
    generalize s * (r * f' v) = b at *
    generalize s * (r * f' v') = b' at *
    generalize r * (v - v') = d at *
    -- `a' + b' d ≤ a`, `d b = a`
    have h4 : 4 * (a' * b') ≤ a * b := by
      have h5 : a' * b + b' * a ≤ a * b := by
        have := mul_le_mul_of_nonneg_right ht hq.le
        nlinarith
      have h6 : 4 * (a' * b') * (a * b) ≤ (a * b) * (a * b) := by nlinarith [sq_nonneg (a' * b - b' * a), mul_nonneg j3 hq.le, mul_nonneg hq'.le i3]
      rcases i3.eq_or_lt with ha | ha
      · subst ha
        have : a' * b ≤ 0 := by linarith
        have : a' ≤ 0 := by
          by_contra hc
          push Not at hc
          have := mul_pos hc hq
          linarith
        have : a' = 0 := le_antisymm this j3
        rw [this]; simp
      · exact le_of_mul_le_mul_right h6 (mul_pos ha hq)
    have : (4 : ℝ) ^ (n + 1) * (a' * b') = 4 ^ n * (4 * (a' * b')) := by ring
    rw [this]
    exact (mul_le_mul_of_nonneg_left h4 (by positivity)).trans ih

/-- how far a point of `I` is from the root, by the value there -/
theorem ConvexEquation.near (h : ConvexEquation x e I f f' s r) {z w m : ℝ} (hz : z ∈ I) (h0 : f z = 0) (hw : w ∈ I)
    (hmz : m ≤ |f' z|) (hmw : m ≤ |f' w|) : m * |w - z| ≤ |f w| := by
  have habs : ∀ u ∈ I, |f' u| = s * (r * f' u) := by
    intro u hu
    have hq := h.monotone u hu
    rw [← abs_of_pos hq, abs_mul, abs_mul]
    rcases h.signs.1 with a | a <;> rcases h.signs.2 with b | b <;> rw [a, b] <;> simp
  have hs : ∀ v, s * v ≤ |v| := by
    intro v
    rcases h.signs.1 with a | a <;> rw [a]
    · rw [one_mul]; exact le_abs_self v
    · rw [neg_one_mul]; exact neg_le_abs v
  have hs' : ∀ v, -(s * v) ≤ |v| := by
    intro v
    have := hs (-v)
    rw [abs_neg] at this
    linarith
  have hr := h.r_sq
  have hrabs : |w - z| = |r * (w - z)| := by
    rw [abs_mul]
    rcases h.signs.2 with a | a <;> rw [a] <;> simp
  rcases le_total (r * z) (r * w) with hle | hle
  · have ht := h.tangent hz hw
    rw [h0, mul_zero, zero_add] at ht
    have e1 : s * f' z * (w - z) = s * (r * f' z) * (r * (w - z)) := by linear_combination (-(s * f' z * (w - z))) * hr
    have e2 : |w - z| = r * (w - z) := by rw [hrabs, abs_of_nonneg (by linarith)]
    rw [e1, ← habs z hz, ← e2] at ht
    exact (mul_le_mul_of_nonneg_right hmz (abs_nonneg _)).trans (ht.trans (hs _))
  · have ht := h.tangent hw hz
    rw [h0, mul_zero] at ht
    have e1 : s * f' w * (z - w) = s * (r * f' w) * (r * (z - w)) := by linear_combination (-(s * f' w * (z - w))) * hr
    have e2 : |w - z| = r * (z - w) := by rw [hrabs, abs_of_nonpos (by linarith)]; ring
    rw [e1, ← habs w hw, ← e2] at ht
    exact (mul_le_mul_of_nonneg_right hmw (abs_nonneg _)).trans (le_trans (by linarith) (hs' _))

theorem ConvexEquation.isValue (h : ConvexEquation x e I f f' s r) {u : ℝ} (hu : u ∈ I) :
    IsValue (fun _ _ => e : Matrix (Fin [x].length) (Fin 1) (Expr (XNum ℝ))) [x] (fun _ => u) (fun _ => f u) := fun _ => h.value u hu

/-- the matrix with one row, one column -/
def oneByOne (x : Str) (a : ℝ) : Matrix (Fin [x].length) (Fin [x].length) ℝ := fun _ _ => a

theorem assign_single (x : Str) (u : ℝ) : assign [x] (fun _ => u) x = u := by simp [assign]

theorem at_assign_single (x : Str) (u v : ℝ) : at_ (assign [x] fun _ => u) x v = assign [x] fun _ => v := by
  funext y
  by_cases hy : y = x
  · subst hy; rw [assign_single]; simp [at_]
  · have : ¬ x = y := fun h => hy h.symm
    simp [at_, assign, hy, this, List.idxOf_cons]

theorem ConvexEquation.isJacobian (h : ConvexEquation x e I f f' s r) {u : ℝ} (hu : u ∈ I) :
    IsJacobian (fun _ _ => e : Matrix (Fin [x].length) (Fin 1) (Expr (XNum ℝ))) [x] (fun _ => u) (oneByOne x (f' u)) := by
  intro i j
  have hj : [x][j] = x := by
    have : j = (0 : Fin 1) := Subsingleton.elim (α := Fin 1) _ _
    subst this
    rfl
  rw [hj]
  refine ⟨f, ?_, ?_⟩
  · rw [assign_single]
    filter_upwards [h.isOpen.mem_nhds hu] with v hv
    rw [at_assign_single]
    exact h.value v hv
  · rw [assign_single]
    exact h.slope u hu

/-- **C118.** Let `e = 0` be one equation in one unknown, convex or concave and strictly monotone on an interval without end (in the
direction in which the slope grows), with the root `z`. Start `Solve` with Newton-Raphson at any point `u` of the interval, however far
from the root. If the first point it computes is in the interval too, and the slope is at least `m ≥ epsilon` in absolute value at these
two points and at the root, then `Solve` returns, and what it returns is within `epsilon / m` of the root. It needs at most `n + 1` loops,
where `4 ^ n` exceeds value times slope at the second computed point, divided by `m * epsilon`. -/
theorem C118 (h : ConvexEquation x e I f f' s r) {z u m eps : ℝ} (hz : z ∈ I) (h0 : f z = 0) (hu : u ∈ I)
    (h1 : newtonFrom f f' u 1 ∈ I) (hmu : m ≤ |f' u|) (hm1 : m ≤ |f' (newtonFrom f f' u 1)|) (hmz : m ≤ |f' z|)
    (heps : 0 < eps) (hem : eps ≤ m) (cfg : Config (XNum ℝ)) (hcfg : cfg.epsilon = .fin eps)
    (n : ℕ) (hit : n + 1 ≤ cfg.maxIterations) (hN : |f (newtonFrom f f' u 2)| * |f' (newtonFrom f f' u 2)| < 4 ^ n * (m * eps))
    (t : VarsTable (XNum ℝ)) (ht : TableAt t [x] fun _ => u) :
    ∃ u' t', solveByNewtonRaphson cfg (symOf (fun _ _ => e : Matrix (Fin [x].length) (Fin 1) (Expr (XNum ℝ)))) t = .ok t' ∧
      TableAt t' [x] (fun _ => u') ∧ u' ∈ I ∧ |f u'| < eps ∧ |u' - z| < eps / m := by
  have hmpos : 0 < m := lt_of_lt_of_le heps hem
  have hIk : ∀ k, newtonFrom f f' u k ∈ I := by
    intro k
    cases k with
    | zero => exact hu
    | succ k => exact (h.points hz h0 h1 k).1
  have habs : ∀ u ∈ I, |f' u| = s * (r * f' u) := by
    intro u hu
    have hq := h.monotone u hu
    rw [← abs_of_pos hq, abs_mul, abs_mul]
    rcases h.signs.1 with a | a <;> rcases h.signs.2 with b | b <;> rw [a, b] <;> simp
  have hslope : ∀ k, m ≤ |f' (newtonFrom f f' u k)| := by
    intro k
    rcases k with _ | _ | k
    · exact hmu
    · exact hm1
    · have := h.steeper hz (h.points hz h0 h1 k).2.1
      rw [← habs z hz, ← habs _ (hIk _)] at this
      exact hmz.trans this
  have hrec : ∀ k, f' (newtonFrom f f' u k) * (newtonFrom f f' u (k + 1) - if k = 0 then 0 else newtonFrom f f' u k) =
      -f (newtonFrom f f' u k) := by
    intro k
    have hne := h.ne (hIk k)
    cases k with
    | zero =>
      show f' u * (-(f u / f' u) - (if 0 = 0 then 0 else _)) = -f u
      have : f' u ≠ 0 := hne
      rw [if_pos rfl]
      field_simp
      ring
    | succ k =>
      rw [if_neg (by omega)]
      have : newtonFrom f f' u (k + 1 + 1) = newtonFrom f f' u (k + 1) -
        f (newtonFrom f f' u (k + 1)) / f' (newtonFrom f f' u (k + 1)) := rfl
      rw [this]
      field_simp
      ring
  obtain ⟨K, hK⟩ := Int.eq_ofNat_of_zero_le (by omega : 0 ≤ cfg.maxIterations)
  have hM : (cfg.maxIterations + 1).toNat = K + 1 := by rw [hK]; rfl
  have hstep : ∀ k, (oneByOne x (f' (newtonFrom f f' u k))).det ≠ 0 ∧
      (oneByOne x (f' (newtonFrom f f' u k))).mulVec
        ((fun _ => newtonFrom f f' u (k + 1)) - (if k = 0 then 0 else fun _ => newtonFrom f f' u k)) =
        -(fun _ => f (newtonFrom f f' u k)) := by
    intro k
    refine ⟨?_, ?_⟩
    · have : (oneByOne x (f' (newtonFrom f f' u k))).det = f' (newtonFrom f f' u k) :=
        Matrix.det_fin_one (fun _ _ => f' (newtonFrom f f' u k) : Matrix (Fin 1) (Fin 1) ℝ)
      rw [this]
      exact h.ne (hIk k)
    · funext i
      show dotProduct (m := Fin 1) _ _ = -f (newtonFrom f f' u k)
      rw [← hrec k]
      simp only [dotProduct, Fin.sum_univ_one]
      by_cases hk : k = 0
      · subst hk; simp; left; rfl
      · simp [hk]; left; rfl
  have hpts : NewtonPoints (vars := [x]) (fun _ _ => e) (K + 1) (fun k _ => newtonFrom f f' u k) :=
    ⟨fun k _ => h.smooth _ (hIk k), fun k _ => ⟨_, _, h.isValue (hIk k), h.isJacobian (hIk k), (hstep k).1, (hstep k).2⟩⟩
  have hsolve : ∀ k, k < K + 1 → ∀ b : Fin [x].length → ℝ, ∃ y : Fin [x].length → ℝ,
      solveLinear cfg (ofMatrix (oneByOne x (f' (newtonFrom f f' u k)))) (ofVec b) =
        .ok (ofVec y) ∧
      (oneByOne x (f' (newtonFrom f f' u k))).mulVec y = b ∧
      ∀ y', (oneByOne x (f' (newtonFrom f f' u k))).mulVec y' = b → y' = y := by
    intro k _ b
    have hne := h.ne (hIk k)
    have hmul : ∀ y : Fin [x].length → ℝ,
        (oneByOne x (f' (newtonFrom f f' u k))).mulVec y =
          fun _ => f' (newtonFrom f f' u k) * y (0 : Fin 1) := by
      intro y
      funext i
      show dotProduct (m := Fin 1) _ _ = _
      simp only [dotProduct, Fin.sum_univ_one]
      rfl
    refine ⟨fun _ => b (0 : Fin 1) / f' (newtonFrom f f' u k), ?_, ?_, ?_⟩
    · have hlin := solveLinear_one cfg (XNum.fin (f' (newtonFrom f f' u k))) (XNum.fin (b (0 : Fin 1)))
        (by exact decide_eq_true rfl)
      have hb : ofVec b = ⟨1, 1, [XNum.fin (b (0 : Fin 1))]⟩ := rfl
      have ha : ofMatrix (oneByOne x (f' (newtonFrom f f' u k))) =
        ⟨1, 1, [XNum.fin (f' (newtonFrom f f' u k))]⟩ := rfl
      rw [hb, ha, hlin, if_neg]
      · show Res.ok (⟨1, 1, _⟩ : Mat (XNum ℝ)) = Res.ok (⟨1, 1, _⟩ : Mat (XNum ℝ))
        have : Arith.sub (Arith.div (XNum.fin (b (0 : Fin 1))) (XNum.fin (f' (newtonFrom f f' u k)))) Arith.zero =
            XNum.fin (b (0 : Fin 1) / f' (newtonFrom f f' u k)) := by
          simp [Arith.sub, Arith.div, Arith.zero, hne, XNum.map2, XNum.map2O]
        rw [this]
        rfl
      · rw [hcfg]
        intro hlt
        have : |f' (newtonFrom f f' u k)| < eps := of_decide_eq_true hlt
        linarith [hslope k]
    · rw [hmul]
      funext i
      have : i = (0 : Fin 1) := Subsingleton.elim (α := Fin 1) _ _
      subst this
      field_simp
    · intro y' hy'
      rw [hmul] at hy'
      funext i
      have : i = (0 : Fin 1) := Subsingleton.elim (α := Fin 1) _ _
      subst this
      have := congrFun hy' (0 : Fin 1)
      rw [← this]
      field_simp
  have hsmall : ∀ k, Small (vars := [x]) (fun _ _ => e) eps (fun _ => newtonFrom f f' u k) ↔ |f (newtonFrom f f' u k)| < eps := by
    intro k
    constructor
    · intro hs
      obtain ⟨v, hv, hlt⟩ := hs (0 : Fin 1)
      rw [h.value _ (hIk k)] at hv
      injection hv with hv
      rwa [hv]
    · exact fun hlt _ => ⟨_, h.value _ (hIk k), hlt⟩
  rcases newton_points_run hpts (by simp) cfg eps heps hcfg _
    (fun k _ => ⟨_, h.isValue (hIk k), h.isJacobian (hIk k), (hstep k).1, (hstep k).2⟩) hsolve (K + 1) hM.symm le_rfl t ht with
    ⟨k, t', _, _, hs, hrun, htab⟩ | ⟨hnone, _⟩
  · have hlt := (hsmall k).mp hs
    refine ⟨_, t', hrun, htab, hIk k, hlt, ?_⟩
    rw [lt_div_iff₀ hmpos, mul_comm]
    exact (h.near hz h0 (hIk k) hmz (hslope k)).trans_lt hlt
  · exfalso
    have hsoon := h.soon hz h0 h1 n
    have hbig : eps ≤ |f (newtonFrom f f' u (n + 2))| :=
      not_lt.mp fun hlt => hnone (n + 2) (by omega) ((hsmall _).mpr hlt)
    have hsabs : ∀ k, |f (newtonFrom f f' u (k + 2))| = s * f (newtonFrom f f' u (k + 2)) := by
      intro k
      rw [← abs_of_nonneg (h.points hz h0 h1 k).2.2.1, abs_mul]
      rcases h.signs.1 with a | a <;> rw [a] <;> simp
    rw [← habs _ (hIk _), ← habs _ (hIk _), ← hsabs n, ← hsabs 0] at hsoon
    have h3 : m * eps ≤ |f (newtonFrom f f' u (n + 2))| * |f' (newtonFrom f f' u (n + 2))| := by
      rw [mul_comm m]
      exact mul_le_mul hbig (hslope _) hmpos.le (abs_nonneg _)
    have := mul_le_mul_of_nonneg_left h3 (show (0 : ℝ) ≤ 4 ^ n by positivity)
    linarith

end

/-- `x * x = c` on the positive numbers -/
theorem squareEq_convex (c : ℝ) : ConvexEquation ['x'] (squareEq c 0 0) (Set.Ioi 0) (fun u => u * u - c) (fun u => 2 * u) 1 1 where
  smooth u _ := by
    refine ⟨fun i => ?_, fun i => ?_, fun i => ?_⟩ <;> simp [squareEq, Expr.vars, Expr.NoForeignExp, Smooth]
  value u _ := by rw [squareEq_val, assign_single]
  slope u _ := by
    have := ((hasDerivAt_id u).mul (hasDerivAt_id u)).sub_const c
    simpa [two_mul] using this
  isOpen := isOpen_Ioi
  signs := ⟨.inl rfl, .inl rfl⟩
  monotone u hu := by
    have : 0 < u := hu
    linarith
  convex := by
    refine ⟨convex_Ioi 0, fun u hu v hv a b ha hb hab => ?_⟩
    simp only [one_mul, smul_eq_mul]
    have : b = 1 - a := by linarith
    subst this
    nlinarith [mul_nonneg (mul_nonneg ha hb) (sq_nonneg (u - v))]
  endless u hu v huv := by
    have : 0 < u := hu
    show 0 < v
    linarith

/-- `Solve` of `x * x - 2 = 0` with the default configuration, from `x = 1`: it returns a number within `10^-9` of the square root of 2. -/
example (lsFuel fuel : ℕ) (t : VarsTable (XNum ℝ)) (ht : TableAt t [['x']] fun _ => 1) :
    ∃ u t', solve realConfig lsFuel fuel (symOf (squareEq 2)) t = .ok t' ∧ TableAt t' [['x']] (fun _ => u) ∧
      |u - Real.sqrt 2| < 1 / 1000000000 := by
  have hs : (0 : ℝ) < Real.sqrt 2 := by positivity
  have h2 : Real.sqrt 2 * Real.sqrt 2 = 2 := Real.mul_self_sqrt (by norm_num)
  have y1 : newtonFrom (fun u => u * u - 2) (fun u => 2 * u) 1 1 = 1 / 2 := by norm_num [newtonFrom]
  have y2 : newtonFrom (fun u => u * u - 2) (fun u => 2 * u) 1 2 = 9 / 4 := by norm_num [newtonFrom]
  have h1 : (1 : ℝ) ≤ Real.sqrt 2 := by rw [Real.one_le_sqrt]; norm_num
  obtain ⟨u, t', hrun, ht', _, _, hd⟩ := C118 (squareEq_convex 2) (z := Real.sqrt 2) (u := 1) (m := 1) (eps := 1 / 1000000000)
    hs (by linarith) (by norm_num) (by rw [y1]; norm_num) (by norm_num) (by rw [y1]; norm_num)
    (by rw [abs_of_pos (by linarith)]; linarith) (by norm_num) (by norm_num) realConfig rfl 20 (by decide)
    (by rw [y2]; norm_num) t ht
  exact ⟨u, t', hrun, ht', by simpa using hd⟩

end Tom
