import Verif.Spec.RoundedNewton
import Verif.Props.NearRoot
import Verif.Props.DoubleDiffAll
import Verif.Props.DoubleLinear
/-
One step of Newton's method with doubles.
-/
set_option linter.unusedSectionVars false
namespace Tom
open Filter Topology

/-- the mean value inequality for the equations, on a ball where the Jacobian is within `c` of `A` -/
theorem mean_value {vars : List Str} (hnd : vars.Nodup) {f : Matrix (Fin vars.length) (Fin 1) (Expr (XNum ℝ))} {u : Fin vars.length → ℝ}
    {r c : ℝ} (hc0 : 0 ≤ c) (hs : ∀ w, ‖w - u‖ ≤ r → ∀ i, Smooth 1 (assign vars w) (f i 0)) (A : Matrix (Fin vars.length) (Fin vars.length) ℝ)
    (hch : ∀ w, ‖w - u‖ ≤ r → ∀ A', IsJacobian f vars w A' → ∀ i j, |A' i j - A i j| ≤ c) {x y : Fin vars.length → ℝ}
    (hx : ‖x - u‖ ≤ r) (hy : ‖y - u‖ ≤ r) {X Y : Fin vars.length → ℝ} (hX : IsValue f vars x X) (hY : IsValue f vars y Y) :
    ‖X - Y - A.mulVec (x - y)‖ ≤ vars.length * c * ‖x - y‖ := by
  have hval : ∀ {z : Fin vars.length → ℝ} {V}, IsValue f vars z V → sysFun vars f z = V := by
    intro z V hV
    funext i
    simp only [sysFun, hV i, Option.getD_some]
  rw [← hval hX, ← hval hY]
  let T : (Fin vars.length → ℝ) →L[ℝ] (Fin vars.length → ℝ) := LinearMap.toContinuousLinearMap (Matrix.mulVecLin A)
  have hT : ∀ x, T x = A.mulVec x := fun x => rfl
  refine (convex_closedBall u r).norm_image_sub_le_of_norm_hasFDerivWithin_le' (f := sysFun vars f) (f' := fderiv ℝ (sysFun vars f)) (φ := T)
    (C := vars.length * c) (fun w hw => (sysFun_local hnd (hs w (by rw [Metric.mem_closedBall, dist_eq_norm] at hw; exact hw))).1.hasFDerivAt.hasFDerivWithinAt)
    (fun w hw => ?_) ?_ ?_
  · rw [Metric.mem_closedBall, dist_eq_norm] at hw
    obtain ⟨_, _, A', hA', hl⟩ := sysFun_local hnd (hs w hw)
    refine ContinuousLinearMap.opNorm_le_bound _ (by positivity) fun x => ?_
    have e1 : (fderiv ℝ (sysFun vars f) w - T) x = (A' - A).mulVec x := by
      show fderiv ℝ (sysFun vars f) w x - T x = _
      rw [hl, hT, Matrix.sub_mulVec]
    rw [e1]
    exact mulVec_norm_le hc0 (fun i j => hch w hw A' hA' i j) x
  · rw [Metric.mem_closedBall, dist_eq_norm]; exact hy
  · rw [Metric.mem_closedBall, dist_eq_norm]; exact hx

namespace Double
variable {L : Libm}
open Finset

theorem DoubleTable.lookup {t : VarsTable (Double L)} {vars : List Str} {w : Fin vars.length → Double L} (h : DoubleTable t vars w)
    (j : Fin vars.length) : t.table.lookup vars[j] = some (w j) := by
  have g := h.1.good
  have hn : (t.table.map Prod.fst).Nodup := g.keys.nodup_iff.mpr g.nodup
  rw [lookup_iff _ hn, g.entries.mem_iff, h.2.1, h.2.2, List.mem_iff_getElem]
  exact ⟨j, by simp, by simp⟩

theorem DoubleTable.nodup {t : VarsTable (Double L)} {vars : List Str} {w : Fin vars.length → Double L} (h : DoubleTable t vars w) :
    vars.Nodup := by
  rw [← h.2.1]; exact h.1.good.nodup

theorem DoubleTable.setValues {t : VarsTable (Double L)} {vars : List Str} {w : Fin vars.length → Double L} (h : DoubleTable t vars w)
    (w' : Fin vars.length → Double L) : ∃ t', t.setValues (vec w') = .ok t' ∧ DoubleTable t' vars w' := by
  have hv : IsVec (vec w') := ⟨rfl, by simp [vec]⟩
  obtain ⟨t', h1, h2, h3⟩ := C46_setValues h.1 hv (by rw [VarsTable.varNums, h.1.good.length, h.2.1]; rfl)
  exact ⟨t', h1, .setValues h.1 hv h1, h2.trans h.2.1, h3⟩

theorem zip_lookup {vars : List Str} (hnd : vars.Nodup) (w : Fin vars.length → Double L) (j : Fin vars.length) :
    (vars.zip (List.ofFn w)).lookup vars[j] = some (w j) := by
  have hn : ((vars.zip (List.ofFn w)).map Prod.fst).Nodup := by
    rw [List.map_fst_zip (by simp)]; exact hnd
  rw [lookup_iff _ hn, List.mem_iff_getElem]
  exact ⟨j, by simp, by simp⟩

theorem DoubleTable.env {t : VarsTable (Double L)} {vars : List Str} {w : Fin vars.length → Double L} (h : DoubleTable t vars w) :
    tableEnv t.table = tableEnv (vars.zip (List.ofFn w)) := by
  funext x
  have : t.table.lookup x = (vars.zip (List.ofFn w)).lookup x := by
    by_cases hx : x ∈ vars
    · obtain ⟨j, hj, rfl⟩ := List.getElem_of_mem hx
      exact (DoubleTable.lookup h ⟨j, hj⟩).trans (zip_lookup (DoubleTable.nodup h) w ⟨j, hj⟩).symm
    · have g := h.1.good
      have e1 : t.table.lookup x = none := by
        rw [List.lookup_eq_none_iff]
        intro p hp
        have : p.1 ∈ vars := by
          rw [← h.2.1, ← g.keys.mem_iff]
          exact List.mem_map_of_mem hp
        simp only [bne_iff_ne, ne_eq]
        rintro rfl
        exact hx this
      have e2 : (vars.zip (List.ofFn w)).lookup x = none := by
        rw [List.lookup_eq_none_iff]
        intro p hp
        have : p.1 ∈ vars := (List.of_mem_zip hp).1
        simp only [bne_iff_ne, ne_eq]
        rintro rfl
        exact hx this
      rw [e1, e2]
  simp only [tableEnv, this]

theorem DoubleTable.point {t : VarsTable (Double L)} {vars : List Str} {w : Fin vars.length → Double L} (h : DoubleTable t vars w)
    (hf : ∀ j, (w j).Finite) (x : Str) (hx : x ∈ vars) :
    ∃ y p, t.table.lookup x = some y ∧ y.Is p ∧ assign vars (realVec w) x = ((p : ℚ) : ℝ) := by
  obtain ⟨j, hj, rfl⟩ := List.getElem_of_mem hx
  exact ⟨w ⟨j, hj⟩, _, DoubleTable.lookup h ⟨j, hj⟩, ⟨hf _, rfl⟩, assign_self (DoubleTable.nodup h) (realVec w) ⟨j, hj⟩⟩

theorem DoubleTable.valid {t : VarsTable (Double L)} {vars : List Str} {w : Fin vars.length → Double L} (h : DoubleTable t vars w)
    (hf : ∀ j, (w j).Finite) : ∀ b ∈ t.table, Dbl.isInvalid b.2 = false := by
  intro b hb
  have g := h.1.good
  rw [g.entries.mem_iff, h.2.1, h.2.2] at hb
  have := (List.of_mem_zip hb).2
  obtain ⟨j, hj⟩ := List.mem_ofFn.mp this
  rw [← hj]
  exact hf j

/-- solving a linear system: the solution with its size -/
theorem solve_bounded {n : ℕ} (hn : 0 < n) (cfg : Config (Double L)) {ε a β : ℚ} (he : cfg.epsilon.Is ε) (hroom : RoundedRoom n ε a β)
    (A : Matrix (Fin n) (Fin n) (Double L)) (b : Fin n → Double L) (hAe : ∀ i j, (A i j).Finite ∧ |(A i j).rat| ≤ a)
    (hbe : ∀ i, (b i).Finite ∧ |(b i).rat| ≤ β)
    (hA : Stretches (ε + 4 / 2 ^ 53 * growth ^ n * a) (ratMatrix A)) :
    ∃ x : Fin n → Double L, solveLinear cfg (ofEntries A) (vec b) = .ok (vec x) ∧ (∀ i, (x i).Finite ∧ |(x i).rat| ≤ 2 ^ 998) ∧
      ∀ i, |(ratMatrix A).mulVec (fun j => (x j).rat) i - (b i).rat| ≤ residualBound ε a β x := by
  have h : WellScaled ε a β A b := ⟨hroom.eps_pos, hroom.eps_le, hAe, hbe, hroom.a_small, hroom.β_small, hroom.balanced, hroom.a_big, hroom.β_big⟩
  obtain ⟨f', b', p, x, h1, h2, h3⟩ := run hn cfg he h hA
  have ha0 : 0 ≤ a := le_trans (by positivity) h.a_small
  have hβ0 : 0 ≤ β := le_trans (by positivity) h.β_small
  have hf := finite_nat (WellScaled.room hn h) ha0 h1 h2 rfl rfl (by rw [← growth_eq]; exact hroom.solution) n le_rfl
  refine ⟨fun i => x i, h3, fun i => ⟨(hf i (by omega) i.2).1, (hf i (by omega) i.2).2.trans ?_⟩, fun i => ?_⟩
  · refine le_trans ?_ hroom.solution
    rw [growth_eq]
    have hg0 : 0 ≤ stepGrowth ^ n := le_trans zero_le_one (one_le_stepGrowth n)
    have hε := hroom.eps_pos
    have hc0 : 0 ≤ 2 * stepGrowth ^ n * a / ε := by positivity
    apply mul_le_mul_of_nonneg_left _ (by positivity)
    exact pow_le_pow_right₀ (by linarith) (by omega)
  · rw [residualBound_eq, mulVec_eq, ← extV_fin b i]
    exact residual_nat hn ha0 h.balanced h1 h2 (fun i hi => (hf i (by omega) hi).1) i i.2

theorem vec_entries {n : ℕ} (v : Matrix (Fin n) (Fin 1) (Double L)) : ofEntries v = vec fun i => v i 0 := by
  unfold ofEntries vec
  congr 1
  apply List.ext_getElem
  · simp
  · intro i h1 h2
    have hi : i < n := by simpa using h1
    simp only [List.getElem_ofFn]
    rw [Subsingleton.elim (Fin.modNat _) 0]
    congr 1
    ext
    simp

theorem neg_vec {n : ℕ} (v : Fin n → Double L) : (vec v).neg = vec fun i => Arith.neg (v i) := by
  unfold Mat.neg vec
  simp only [List.map_ofFn]
  rfl

theorem add_vec {n : ℕ} (v w : Fin n → Double L) : (vec v).add (vec w) = .ok (vec fun i => Arith.add (v i) (w i)) := by
  unfold Mat.add vec zipV
  simp only [List.length_ofFn, true_and, if_true, Res.bind_ok]
  congr 2
  apply List.ext_getElem <;> simp

theorem zeroVec_vec (n : ℕ) : (zeroVec n : Mat (Double L)) = vec fun _ : Fin n => Arith.zero := by
  unfold zeroVec vec
  simp

section
variable {δ : ℝ} {vars : List Str} {f : Matrix (Fin vars.length) (Fin 1) (Expr (Double L))} {z : Fin vars.length → ℝ}
  {r M change a eF eA : ℝ}

/-- the values of the equations computed at a point of the region -/
theorem rounded_value (hW : L.Within δ) (hR : RoundedRegion δ vars f z r M change a eF eA) (hn : 0 < vars.length) (cfg : Config (Double L))
    {t : VarsTable (Double L)} {w : Fin vars.length → Double L} (ht : DoubleTable t vars w) (hw : ∀ j, (w j).Finite)
    (hwz : ‖realVec w - z‖ ≤ r) :
    ∃ (phi : Fin vars.length → Double L) (F : Fin vars.length → ℝ), evalVec cfg (symOf f) t = .ok (vec phi) ∧
      IsValue (realSystem f) vars (realVec w) F ∧ ∀ i, (phi i).Finite ∧ |((phi i).rat : ℝ) - F i| ≤ eF := by
  choose F E h1 h2 using hR.value w hw hwz
  have h3 := fun i => C76_enclosure δ hW cfg.throwOnInvalidValue (envOf t.table) (assign vars (realVec w)) (f i 0) (fun s hs => by
    obtain ⟨y, p, k1, k2, k3⟩ := DoubleTable.point ht hw s (hR.closed i s hs)
    exact ⟨y, p, by simp only [envOf, k1], k2, k3⟩) (F i) (E i) (h1 i)
  choose phi p k1 k2 k3 using h3
  refine ⟨phi, F, ?_, fun i => C76_exact_value δ _ _ _ _ (h1 i), fun i => ⟨(k2 i).1, ?_⟩⟩
  · rw [evalVec_ok hn]
    exact ⟨Matrix.of fun i _ => phi i, (vec_entries (Matrix.of fun i _ => phi i)).symm, k1⟩
  · have : (phi i).rat = p i := (k2 i).2
    rw [this]
    exact (k3 i).trans (h2 i)

/-- the partial derivatives computed at a point of the region -/
theorem rounded_deriv (hW : L.Within δ) (hF : L.AnnexF) (hR : RoundedRegion δ vars f z r M change a eF eA) (hn : 0 < vars.length)
    (cfg : Config (Double L)) (hs : cfg.throwOnInvalidValue = true) {J : SymMat (Double L)} (hJ : (symOf f).jacobian cfg vars = .ok J)
    {t : VarsTable (Double L)} {w : Fin vars.length → Double L} (ht : DoubleTable t vars w) (hw : ∀ j, (w j).Finite)
    (hwz : ‖realVec w - z‖ ≤ r) :
    ∃ (B : Matrix (Fin vars.length) (Fin vars.length) (Double L)) (A : Matrix (Fin vars.length) (Fin vars.length) ℝ),
      evalMat cfg J t = .ok (ofEntries B) ∧ IsJacobian (realSystem f) vars (realVec w) A ∧
      ∀ i j, (B i j).Finite ∧ |((B i j).rat : ℝ) - A i j| ≤ eA := by
  obtain ⟨D, rfl⟩ := jacobian_symOf hn cfg f vars hn J hJ
  obtain ⟨_, _, _, h5⟩ := C32 hn cfg f vars hn _ hJ
  choose A E h1 h2 using hR.deriv w hw hwz
  have h3 : ∀ (i j : Fin vars.length), HasPartialDeriv (assign vars (realVec w)) vars[j] (realSystem f i 0) (A i j) ∧
      ∃ y p, (D i j).eval cfg.throwOnInvalidValue (envOf t.table) = .ok y ∧ y.Is p ∧ |((p : ℚ) : ℝ) - A i j| ≤ E i j := by
    intro i j
    obtain ⟨v, EF, g1, -⟩ := hR.value w hw hwz i
    obtain ⟨k1, t1, y, p, k2, k3, k4, k5⟩ := C96_rounded_partial δ hW hF cfg hs (f i 0) vars[j] t.table (DoubleTable.valid ht hw)
      (assign vars (realVec w)) (fun s hs => DoubleTable.point ht hw s (hR.closed i s hs)) (enclosure_nums _ _ _ _ g1)
      (hR.noExp i _ (List.getElem_mem _)) (hR.smooth _ hwz i) (A i j) (E i j) (h1 i j)
    refine ⟨k1, y, p, ?_, k4, k5⟩
    obtain ⟨d, m1, m2⟩ := h5 i j
    rw [C50_value, Res.ok.injEq] at m1
    have e1 := embed_injective m1
    unfold diffConst at m2
    rw [clone_eq _ (embed_isSome _), Res.bind_ok, k2, Res.ok.injEq, ← e1] at m2
    rw [m2, C17_subsValues_vpa] at k3
    exact k3
  choose g1 B p g2 g3 g4 using h3
  refine ⟨Matrix.of B, Matrix.of A, ?_, g1, fun i j => ⟨(g3 i j).1, ?_⟩⟩
  · rw [C50_evaluate hn hn]
    exact ⟨_, rfl, g2⟩
  · have : (B i j).rat = p i j := (g3 i j).2
    show |((B i j).rat : ℝ) - A i j| ≤ eA
    rw [this]
    exact (g4 i j).trans (h2 i j)

/-- the symbolic Jacobian exists -/
theorem rounded_jacobian (hW : L.Within δ) (hF : L.AnnexF) (hR : RoundedRegion δ vars f z r M change a eF eA) (hn : 0 < vars.length)
    (cfg : Config (Double L)) (hs : cfg.throwOnInvalidValue = true) {t : VarsTable (Double L)} {w : Fin vars.length → Double L}
    (ht : DoubleTable t vars w) (hw : ∀ j, (w j).Finite) (hwz : ‖realVec w - z‖ ≤ r) :
    ∃ J, (symOf f).jacobian cfg vars = .ok J := by
  refine (C32_returns hn cfg f vars hn).1.mpr fun i j => ?_
  obtain ⟨v, EF, g1, -⟩ := hR.value w hw hwz i
  obtain ⟨A, E, h1, -⟩ := hR.deriv w hw hwz i j
  obtain ⟨k1, t1, y, p, k2, -⟩ := C96_rounded_partial δ hW hF cfg hs (f i 0) vars[j] t.table (DoubleTable.valid ht hw)
    (assign vars (realVec w)) (fun s hs => DoubleTable.point ht hw s (hR.closed i s hs)) (enclosure_nums _ _ _ _ g1)
    (hR.noExp i _ (List.getElem_mem _)) (hR.smooth _ hwz i) A E h1
  refine ⟨t1, ?_⟩
  unfold diffConst
  rw [clone_eq _ (embed_isSome _), Res.bind_ok, k2]
end

/-- What the theorems about Newton's method and the Levenberg-Marquardt method with doubles use of a region around a root: `f` are the equations as the
program has them, `g` the equations over the reals that are meant; values and derivatives of `g` are computed, from `f`, with errors at most
`eF` and `eA`. -/
structure ComputedRegion (vars : List Str) (f : Matrix (Fin vars.length) (Fin 1) (Expr (Double L)))
    (g : Matrix (Fin vars.length) (Fin 1) (Expr (XNum ℝ))) (z : Fin vars.length → ℝ) (r M change a eF eA : ℝ) : Prop where
  root : IsValue g vars z 0
  smooth : ∀ w, ‖w - z‖ ≤ r → ∀ i, Smooth 1 (assign vars w) (g i 0)
  stretch : ∀ w, ‖w - z‖ ≤ r → ∀ A, IsJacobian g vars w A → ∀ x, ‖x‖ ≤ M * ‖A.mulVec x‖
  bounded : ∀ w, ‖w - z‖ ≤ r → ∀ A, IsJacobian g vars w A → ∀ i j, |A i j| ≤ a
  steady : ∀ w w', ‖w - z‖ ≤ r → ‖w' - z‖ ≤ r → ∀ A A', IsJacobian g vars w A → IsJacobian g vars w' A' → ∀ i j, |A i j - A' i j| ≤ change
  value : ∀ (cfg : Config (Double L)) {t : VarsTable (Double L)} {w : Fin vars.length → Double L}, DoubleTable t vars w → (∀ j, (w j).Finite) →
    ‖realVec w - z‖ ≤ r → ∃ (phi : Fin vars.length → Double L) (F : Fin vars.length → ℝ), evalVec cfg (symOf f) t = .ok (vec phi) ∧
      IsValue g vars (realVec w) F ∧ ∀ i, (phi i).Finite ∧ |((phi i).rat : ℝ) - F i| ≤ eF
  deriv : ∀ (cfg : Config (Double L)), cfg.throwOnInvalidValue = true → ∀ {J : SymMat (Double L)}, (symOf f).jacobian cfg vars = .ok J →
    ∀ {t : VarsTable (Double L)} {w : Fin vars.length → Double L}, DoubleTable t vars w → (∀ j, (w j).Finite) → ‖realVec w - z‖ ≤ r →
    ∃ (B : Matrix (Fin vars.length) (Fin vars.length) (Double L)) (A : Matrix (Fin vars.length) (Fin vars.length) ℝ),
      evalMat cfg J t = .ok (ofEntries B) ∧ IsJacobian g vars (realVec w) A ∧
      ∀ i j, (B i j).Finite ∧ |((B i j).rat : ℝ) - A i j| ≤ eA
  jacobian : ∀ (cfg : Config (Double L)), cfg.throwOnInvalidValue = true → ∀ {t : VarsTable (Double L)} {w : Fin vars.length → Double L},
    DoubleTable t vars w → (∀ j, (w j).Finite) → ‖realVec w - z‖ ≤ r → ∃ J, (symOf f).jacobian cfg vars = .ok J

/-- a region given by trees with doubles as literals -/
theorem _root_.Tom.RoundedRegion.computed {δ : ℝ} {vars : List Str} {f : Matrix (Fin vars.length) (Fin 1) (Expr (Double L))} {z : Fin vars.length → ℝ}
    {r M change a eF eA : ℝ} (hW : L.Within δ) (hF : L.AnnexF) (hn : 0 < vars.length) (hR : RoundedRegion δ vars f z r M change a eF eA) :
    ComputedRegion vars f (realSystem f) z r M change a eF eA :=
  ⟨hR.root, hR.smooth, hR.stretch, hR.bounded, hR.steady, fun cfg _ _ ht hw hwz => rounded_value hW hR hn cfg ht hw hwz,
    fun cfg hs _ hJ _ _ ht hw hwz => rounded_deriv hW hF hR hn cfg hs hJ ht hw hwz,
    fun cfg hs _ _ ht hw hwz => rounded_jacobian hW hF hR hn cfg hs ht hw hwz⟩

end Double
end Tom
