import Verif.Spec.WrittenSolve
import Verif.Props.TextDeriv
import Verif.Props.Rename
import Verif.Props.RoundedStart
import Verif.Props.RoundedLM
import Verif.Lemmas.SystemLMLoop
/-
C128: `Solve` of equations written as texts, with IEEE doubles, finds the root of the equations as they are written.
-/
set_option linter.unusedSectionVars false
namespace Tom
namespace Double
variable {L : Libm} {δ : ℝ} {vars : List Str} {texts : Fin vars.length → Str} {g : Fin vars.length → Expr (XNum ℝ)} {z : Fin vars.length → ℝ}
  {r M change a eF eA : ℝ}

theorem realVec_double {n : ℕ} {w : Fin n → Double L} (hw : ∀ j, (w j).Finite) (j : Fin n) : IsDoubleReal (realVec w j) :=
  ⟨_, is_double (hw j).is, rfl⟩

/-- the values computed at a point of the region -/
theorem written_value (hW : L.Within δ) (hR : WrittenRegion δ vars texts g z r M change a eF eA) (hn : 0 < vars.length)
    {f : Matrix (Fin vars.length) (Fin 1) (Expr (Double L))} (hf : ∀ i, TreeReads (g i) (f i 0)) (cfg : Config (Double L))
    {t : VarsTable (Double L)} {w : Fin vars.length → Double L} (ht : DoubleTable t vars w) (hw : ∀ j, (w j).Finite)
    (hwz : ‖realVec w - z‖ ≤ r) :
    ∃ (phi : Fin vars.length → Double L) (F : Fin vars.length → ℝ), evalVec cfg (symOf f) t = .ok (vec phi) ∧
      IsValue (fun i _ => g i) vars (realVec w) F ∧ ∀ i, (phi i).Finite ∧ |((phi i).rat : ℝ) - F i| ≤ eF := by
  choose F E h1 h2 using hR.value _ (realVec_double hw) hwz
  have h3 := fun i => textEnclosure_eval δ hW cfg.throwOnInvalidValue (envOf t.table) (assign vars (realVec w)) (g i) (f i 0) (hf i) (fun s hs => by
    obtain ⟨y, p, k1, k2, k3⟩ := DoubleTable.point ht hw s ((hR.names s).mpr ⟨i, hs⟩)
    exact ⟨y, p, by simp only [envOf, k1], k2, k3⟩) (F i) (E i) (h1 i)
  choose phi p k1 k2 k3 using h3
  refine ⟨phi, F, ?_, fun i => textEnclosure_value δ _ _ _ _ (h1 i), fun i => ⟨(k2 i).1, ?_⟩⟩
  · rw [evalVec_ok hn]
    exact ⟨Matrix.of fun i _ => phi i, (vec_entries (Matrix.of fun i _ => phi i)).symm, k1⟩
  · have : (phi i).rat = p i := (k2 i).2
    rw [this]
    exact (k3 i).trans (h2 i)

/-- the partial derivatives computed at a point of the region -/
theorem written_jacobianValue (hW : L.Within δ) (hF : L.AnnexF) (hR : WrittenRegion δ vars texts g z r M change a eF eA) (hn : 0 < vars.length)
    {f : Matrix (Fin vars.length) (Fin 1) (Expr (Double L))} (hf : ∀ i, TreeReads (g i) (f i 0))
    (cfg : Config (Double L)) (hs : cfg.throwOnInvalidValue = true) {J : SymMat (Double L)}
    (hJ : (symOf f).jacobian cfg vars = .ok J)
    {t : VarsTable (Double L)} {w : Fin vars.length → Double L} (ht : DoubleTable t vars w) (hw : ∀ j, (w j).Finite)
    (hwz : ‖realVec w - z‖ ≤ r) :
    ∃ (B : Matrix (Fin vars.length) (Fin vars.length) (Double L)) (A : Matrix (Fin vars.length) (Fin vars.length) ℝ),
      evalMat cfg J t = .ok (ofEntries B) ∧ IsJacobian (fun i _ => g i) vars (realVec w) A ∧
      ∀ i j, (B i j).Finite ∧ |((B i j).rat : ℝ) - A i j| ≤ eA := by
  obtain ⟨D, rfl⟩ := jacobian_symOf hn cfg _ vars hn J hJ
  obtain ⟨_, _, _, h5⟩ := C32 hn cfg _ vars hn _ hJ
  choose A E h1 h2 using hR.deriv _ (realVec_double hw) hwz
  have h3 : ∀ (i j : Fin vars.length), HasPartialDeriv (assign vars (realVec w)) vars[j] (g i) (A i j) ∧
      ∃ y p, (D i j).eval cfg.throwOnInvalidValue (envOf t.table) = .ok y ∧ y.Is p ∧ |((p : ℚ) : ℝ) - A i j| ≤ E i j := by
    intro i j
    obtain ⟨k1, t1, y, p, k2, k3, k4, k5⟩ := written_deriv hW hF cfg hs (hf i) vars[j] (hR.noExp i _ (List.getElem_mem _)) t.table
      (DoubleTable.valid ht hw) (assign vars (realVec w)) (fun s hs => DoubleTable.point ht hw s ((hR.names s).mpr ⟨i, hs⟩))
      (hR.smooth _ hwz i) (A i j) (E i j) (h1 i j)
    refine ⟨k1, y, p, ?_, k4, k5⟩
    obtain ⟨d, m1, m2⟩ := h5 i j
    rw [C50_value, Res.ok.injEq] at m1
    have e1 := embed_injective m1
    unfold diffConst at m2
    rw [clone_eq _ (embed_isSome _), Res.bind_ok, k2, Res.ok.injEq, ← e1] at m2
    rw [m2, C17_subsValues_vpa] at k3
    exact k3
  choose g1 B p g2 g3 g4 using h3
  refine ⟨Matrix.of B, Matrix.of A, ?_, g1, fun i j => ⟨(g3 i j).1, ?_⟩⟩
  · rw [C50_evaluate hn hn]
    exact ⟨_, rfl, g2⟩
  · have : (B i j).rat = p i j := (g3 i j).2
    show |((B i j).rat : ℝ) - A i j| ≤ eA
    rw [this]
    exact (g4 i j).trans (h2 i j)

/-- the symbolic Jacobian exists -/
theorem written_jacobian (hW : L.Within δ) (hF : L.AnnexF) (hR : WrittenRegion δ vars texts g z r M change a eF eA) (hn : 0 < vars.length)
    {f : Matrix (Fin vars.length) (Fin 1) (Expr (Double L))} (hf : ∀ i, TreeReads (g i) (f i 0))
    (cfg : Config (Double L)) (hs : cfg.throwOnInvalidValue = true) {t : VarsTable (Double L)} {w : Fin vars.length → Double L}
    (ht : DoubleTable t vars w) (hw : ∀ j, (w j).Finite) (hwz : ‖realVec w - z‖ ≤ r) :
    ∃ J, (symOf f).jacobian cfg vars = .ok J := by
  refine (C32_returns hn cfg _ vars hn).1.mpr fun i j => ?_
  obtain ⟨A, E, h1, -⟩ := hR.deriv _ (realVec_double hw) hwz i j
  obtain ⟨k1, t1, y, p, k2, -⟩ := written_deriv hW hF cfg hs (hf i) vars[j] (hR.noExp i _ (List.getElem_mem _)) t.table
    (DoubleTable.valid ht hw) (assign vars (realVec w)) (fun s hs => DoubleTable.point ht hw s ((hR.names s).mpr ⟨i, hs⟩))
    (hR.smooth _ hwz i) A E h1
  refine ⟨t1, ?_⟩
  unfold diffConst
  rw [clone_eq _ (embed_isSome _), Res.bind_ok, k2]

/-- what is parsed and computed -/
theorem written_computed (hW : L.Within δ) (hF : L.AnnexF) (hR : WrittenRegion δ vars texts g z r M change a eF eA) (hn : 0 < vars.length) :
    ∃ f : Matrix (Fin vars.length) (Fin 1) (Expr (Double L)), equationsOf (List.ofFn texts) = .ok (symOf f) ∧
      (symOf f).getAllVarNames = .ok vars ∧ ComputedRegion vars f (fun i _ => g i) z r M change a eF eA := by
  have h : ∀ i, ∃ e' : Expr (Double L), parse (texts i) = .ok (embed e') ∧ TreeReads (g i) e' := fun i => by
    obtain ⟨ts, w1, w2, w3⟩ := hR.writes i
    exact parse_reads (L := L) (texts i) ts (g i) w1 w2 w3 (hR.literals i)
  choose f h1 h2 using h
  have h3 : ∀ i, TreeReads (g i) (Matrix.of (fun i (_ : Fin 1) => f i) i 0) := h2
  refine ⟨Matrix.of fun i _ => f i, equationsOf_eq hn h1, ?_, hR.root, hR.smooth, hR.stretch, hR.bounded, hR.steady,
    fun cfg _ _ ht hw hwz => written_value hW hR hn h3 cfg ht hw hwz,
    fun cfg hs _ hJ _ _ ht hw hwz => written_jacobianValue hW hF hR hn h3 cfg hs hJ ht hw hwz,
    fun cfg hs _ _ ht hw hwz => written_jacobian hW hF hR hn h3 cfg hs ht hw hwz⟩
  obtain ⟨out, k1, k2, k3⟩ := C50_getAllVarNames (Matrix.of fun i (_ : Fin 1) => f i)
  rw [k1, sorted_ext k2 hR.sorted fun x => ?_]
  rw [k3, hR.names]
  constructor
  · rintro ⟨i, j, hx⟩; exact ⟨i, by rw [← (h2 i).vars]; exact hx⟩
  · rintro ⟨i, hx⟩; exact ⟨i, 0, by show x ∈ (f i).vars; rw [(h2 i).vars]; exact hx⟩

/-- the table `Solve` starts with -/
theorem written_table (hR : WrittenRegion δ vars texts g z r M change a eF eA) (hn : 0 < vars.length) (v : Double L) :
    ∃ t, VarsTable.ofVars vars v = .ok t ∧ DoubleTable t vars fun _ => v := by
  obtain ⟨t, ht⟩ := (C46_ofVars vars v).mpr ⟨List.length_pos_iff.mp hn, hR.sorted.imp fun h => strLt_ne h⟩
  refine ⟨t, ht, .ofVars ht, (C47_ofVars ht).1, ?_⟩
  obtain ⟨m, h1, h2⟩ := Res.bind_eq_ok.mp ht
  unfold Mat.new at h1
  rw [if_pos ⟨hn, Nat.one_pos⟩, Res.ok.injEq] at h1
  subst h1
  dsimp only at h2
  split at h2
  · obtain rfl := Res.ok.inj h2
    simp
  · cases h2

/-- **C128** for Newton's method (the default): let texts write equations over the reals, and let there be a well-conditioned root `z` of the equations as
they are written.  If the initial value of the configuration is in the region around the root, and the region is so large that it contains the
first correction, then `Solve` of the texts, with doubles, returns; the table it returns has the variables of the texts, and its numbers are
within `4/3 M (epsilon + eF)` of the root of the written equations. -/
theorem C128_newton (hW : L.Within δ) (hF : L.AnnexF) (hR : WrittenRegion δ vars texts g z r M change a eF eA) (hn : 0 < vars.length)
    (cfg : Config (Double L)) (hm : cfg.nonlinearMethod = .newtonRaphson) (hs : cfg.throwOnInvalidValue = true) {ε a' β x₀ : ℚ}
    (he : cfg.epsilon.Is ε) (hi : cfg.initialValue.Is x₀)
    (hroom : RoundedRoom vars.length ε a' β) (hM : 0 < M) (ha : a + eA ≤ a') (hβ : vars.length * a * r + eF ≤ β)
    (hc : M * (vars.length * (ε + solveError vars.length * a' + eA)) ≤ 1 / 12) (hch : M * (vars.length * change) ≤ 1 / 4)
    (hzr : ‖z‖ + r ≤ 2 ^ 1000) (hnoise : newtonNoise z M eF β ≤ r / 2) (N : ℕ) (hN : (N : ℤ) ≤ cfg.maxIterations)
    (hlast : vars.length * a * (r / 2 ^ N + 2 * newtonNoise z M eF β) + eF < ε)
    (hwz : ‖(fun _ => (x₀ : ℝ)) - z‖ ≤ r) (hstart : |(x₀ : ℝ)| + 1 / 2 * ‖(fun _ => (x₀ : ℝ)) - z‖ + newtonNoise z M eF β ≤ r) :
    ∃ ans w', (∀ lsFuel fuel, solveTexts cfg lsFuel fuel (List.ofFn texts) = .ok ans) ∧ ans.vars = vars ∧
      (∀ j : Fin vars.length, ans.table.lookup vars[j] = some (w' j) ∧ (w' j).Finite) ∧ ‖realVec w' - z‖ ≤ 4 / 3 * M * (ε + eF) := by
  obtain ⟨f, h1, h2, h3⟩ := written_computed hW hF hR hn
  obtain ⟨t, h4, h5⟩ := written_table hR hn cfg.initialValue
  have h6 : realVec (fun _ : Fin vars.length => cfg.initialValue) = fun _ => (x₀ : ℝ) := by
    funext j
    have : cfg.initialValue.rat = x₀ := hi.2
    simp only [realVec, this]
  have hne : Nonempty (Fin vars.length) := ⟨⟨0, hn⟩⟩
  obtain ⟨t', w', r1, r2, r3, r4⟩ := computed_start h3 hn cfg hs he hroom hM ha hβ hc hch hzr hnoise N hN hlast t _ h5 (fun _ => hi.1)
    (by rw [h6]; exact hwz) (by rw [h6, pi_norm_const, Real.norm_eq_abs]; exact hstart)
  refine ⟨t', w', fun lsFuel fuel => ?_, r2.2.1, fun j => ⟨DoubleTable.lookup r2 j, r3 j⟩, r4⟩
  unfold solveTexts solveAuto
  rw [h1, Res.bind_ok, h2, Res.bind_ok, h4, Res.bind_ok]
  unfold solve
  rw [hm]
  exact r1

/-- **C128** for the Levenberg-Marquardt method, one equation in one unknown. -/
theorem C128_lm {x text : Str} {g : Expr (XNum ℝ)} {z : Fin 1 → ℝ} (hW : L.Within δ) (hF : L.AnnexF)
    (hR : WrittenRegion δ [x] (fun _ => text) (fun _ => g) z r M change a eF eA)
    (cfg : Config (Double L)) (hm : cfg.nonlinearMethod = .lm) (hs : cfg.throwOnInvalidValue = true) {ε x₀ : ℚ}
    (he : cfg.epsilon.Is ε) (hi : cfg.initialValue.Is x₀) (hroom : LMRoom z r M change a eF eA ε) (N : ℕ) (hN : (N : ℤ) ≤ cfg.maxIterations)
    (hlast : a * (r / 4 ^ N) + eF < ε) (hwz : |(x₀ : ℝ) - z 0| ≤ r) :
    ∃ ans w', (∀ lsFuel fuel, 0 < lsFuel → N < fuel → solveTexts cfg lsFuel fuel [text] = .ok ans) ∧ ans.vars = [x] ∧
      ans.table.lookup x = some w' ∧ w'.Finite ∧ |(w'.rat : ℝ) - z 0| ≤ 4 / 3 * M * (ε + eF) := by
  obtain ⟨f, h1, h2, h3⟩ := written_computed hW hF hR Nat.one_pos
  obtain ⟨t, h4, h5⟩ := written_table hR Nat.one_pos cfg.initialValue
  have h6 : realVec (fun _ : Fin [x].length => cfg.initialValue) 0 = (x₀ : ℝ) := by
    have : cfg.initialValue.rat = x₀ := hi.2
    simp only [realVec, this]
  obtain ⟨t', w', r1, r2, r3, r4⟩ := computedLM_solve h3 cfg hm hs he hroom N hN hlast t _ h5 (fun _ => hi.1) (by rw [h6]; exact hwz)
  refine ⟨t', w' 0, fun lsFuel fuel k1 k2 => ?_, r2.2.1, DoubleTable.lookup r2 (0 : Fin 1), r3, r4⟩
  have h1' : equationsOf [text] = .ok (symOf f) := h1
  unfold solveTexts solveAuto
  rw [h1', Res.bind_ok, h2, Res.bind_ok, h4, Res.bind_ok]
  exact r1 lsFuel fuel k1 k2

/-- **C128** for the Levenberg-Marquardt method, `n` equations in `n` unknowns, under the conditions on the constants of C129 (`Spec/SystemLM`). -/
theorem C128_lm_system {θ c : ℝ} (hW : L.Within δ) (hF : L.AnnexF) (hR : WrittenRegion δ vars texts g z r M change a eF eA) (hn : 0 < vars.length)
    (cfg : Config (Double L)) (hm : cfg.nonlinearMethod = .lm) (hs : cfg.throwOnInvalidValue = true) {ε a' β x₀ : ℚ}
    (he : cfg.epsilon.Is ε) (hi : cfg.initialValue.Is x₀) (hroom : SystemLMRoom z r M change a eF eA θ c ε a' β)
    (hls : ∀ w, ‖w - z‖ ≤ r → ∀ A, IsJacobian (fun i _ => g i) vars w A → SearchFactor c A)
    (N : ℕ) (hN : (N : ℤ) ≤ cfg.maxIterations) (hlast : vars.length * a * (r / 4 ^ N) + eF < ε)
    (hwz : ‖(fun _ => (x₀ : ℝ)) - z‖ ≤ r) :
    ∃ ans w', (∀ lsFuel fuel, 0 < lsFuel → N < fuel → solveTexts cfg lsFuel fuel (List.ofFn texts) = .ok ans) ∧ ans.vars = vars ∧
      (∀ j : Fin vars.length, ans.table.lookup vars[j] = some (w' j) ∧ (w' j).Finite) ∧ ‖realVec w' - z‖ ≤ 4 / 3 * M * (ε + eF) := by
  obtain ⟨f, h1, h2, h3⟩ := written_computed hW hF hR hn
  obtain ⟨t, h4, h5⟩ := written_table hR hn cfg.initialValue
  have h6 : realVec (fun _ : Fin vars.length => cfg.initialValue) = fun _ => (x₀ : ℝ) := by
    funext j
    have : cfg.initialValue.rat = x₀ := hi.2
    simp only [realVec, this]
  obtain ⟨t', w', r1, r2, r3, r4⟩ := systemLM h3 hn cfg hs he hroom hls N hN hlast t _ h5 (fun _ => hi.1) (by rw [h6]; exact hwz)
  refine ⟨t', w', fun lsFuel fuel k1 k2 => ?_, r2.2.1, fun j => ⟨DoubleTable.lookup r2 j, r3 j⟩, r4⟩
  unfold solveTexts solveAuto
  rw [h1, Res.bind_ok, h2, Res.bind_ok, h4, Res.bind_ok]
  unfold solve
  rw [hm]
  exact r1 lsFuel fuel k1 k2

end Double
end Tom
