import Verif.Lemmas.SystemLMDirection
/-
One step of the Levenberg-Marquardt method with doubles, for a system.
-/
set_option linter.unusedSectionVars false
namespace Tom
namespace Double
open Finset Matrix
variable {L : Libm} {n : ℕ}

theorem scale_vec (k : Double L) (d : Fin n → Double L) : Mat.scaleLeft k (vec d) = vec fun i => Arith.mul (d i) k := by
  rw [vec_of, (C33_scale _ _).2, vec_entries]
  rfl

/-- the line search accepts the full step -/
theorem vec_armijo (hn : 0 < n) (fuel : ℕ) (f df : Mat (Double L) → Res (Mat (Double L))) (w d phi phi' P s : Fin n → Double L)
    (B : Matrix (Fin n) (Fin n) (Double L)) {l r : Double L}
    (h1 : f (vec fun i => Arith.add (w i) (Arith.mul (d i) (Dbl.ofInt 1))) = .ok (vec phi')) (h2 : f (vec w) = .ok (vec phi))
    (h3 : df (vec w) = .ok (ofEntries B))
    (h4 : (Mat.scaleLeft (Arith.mul (lit 4 (-1)) (Dbl.ofInt 1)) (ofEntries Bᵀ)).mul (vec d) = .ok (vec P)) (h5 : (vec phi).add (vec P) = .ok (vec s))
    (h6 : (vec phi').norm2 = .ok l) (h7 : (vec s).norm2 = .ok r) (h8 : Arith.le l r = true) :
    armijo (fuel + 1) (vec w) (vec d) f df = .ok (Dbl.ofInt 1) := by
  unfold armijo armijoLoop
  rw [scale_vec, add_vec, Res.bind_ok, h1, Res.bind_ok, h6, Res.bind_ok, h2, Res.bind_ok, h3, Res.bind_ok, C33_transpose hn hn, Res.bind_ok,
    h4, Res.bind_ok, h5, Res.bind_ok, h7, Res.bind_ok, if_pos h8]

/-- `Norm2` of a vector with small entries is smaller than that of a vector with one large entry -/
theorem norm2_compare (hn : 0 < n) (x y : Fin n → Double L) {P Q Y : ℚ} (hP : 0 ≤ P) (hPY : P ≤ Y) (hx : ∀ k, (x k).Finite ∧ |(x k).rat| ≤ P)
    (hy : ∀ k, (y k).Finite ∧ |(y k).rat| ≤ Y) (hQ : ∃ k, Q ≤ |(y k).rat|) (hPQ : n * P ^ 2 ≤ 9 / 10 * Q ^ 2) (hQ0 : 1 / 2 ^ 80 ≤ Q) (hn2 : (n : ℚ) ≤ 2 ^ 50)
    (hY : Y ≤ 2 ^ 320) (hg : gam (n + 1) ≤ 1 / 100) :
    ∃ l r : Double L, (vec x).norm2 = .ok l ∧ (vec y).norm2 = .ok r ∧ Arith.lt l r = true ∧ Arith.le l r = true := by
  have hY0 : 0 ≤ Y := hP.trans hPY
  have big : n * (Y * Y + 1 / 2 ^ 250) ≤ 2 ^ 900 := by
    have h1 : Y * Y ≤ 2 ^ 320 * 2 ^ 320 := mul_le_mul hY hY hY0 (by positivity)
    have h2 : (1 : ℚ) / 2 ^ 250 ≤ 2 ^ 320 * 2 ^ 320 := by
      have k1 : (1 : ℚ) / 2 ^ 250 ≤ 1 := by norm_num
      have k2 : (1 : ℚ) ≤ 2 ^ 320 := one_le_pow₀ (by norm_num)
      exact k1.trans (one_le_mul_of_one_le_of_one_le k2 k2)
    have h3 := mul_le_mul hn2 (add_le_add h1 h2) (by positivity) (by positivity)
    refine h3.trans ?_
    have e : (2 : ℚ) ^ 50 * (2 ^ 320 * 2 ^ 320 + 2 ^ 320 * 2 ^ 320) = 2 ^ 691 := by
      rw [← two_mul, ← pow_add, ← pow_succ', ← pow_add]
    rw [e]
    exact pow_le_pow_right₀ (by norm_num) (by norm_num)
  have hg0 := gam_nonneg n
  have hgn : gam n ≤ 1 / 100 := by
    refine le_trans ?_ hg
    rw [gam_succ]
    have : (0 : ℚ) ≤ (1 + gam n) * (1 / 2 ^ 53) := by positivity
    linarith
  obtain ⟨l, l1, l2, l3⟩ := norm2_bounded hn x hP hx (by linarith) (by
    refine le_trans (mul_le_mul_of_nonneg_left ?_ (Nat.cast_nonneg n)) big
    have := mul_le_mul hPY hPY hP hY0
    linarith)
  obtain ⟨r, r1, r2, r3⟩ := norm2_bounded hn y hY0 hy (by linarith) big
  clear big
  have hS : ∑ k, (x k).rat ^ 2 ≤ n * P ^ 2 := sum_const_le fun k => by
    rw [← sq_abs]; exact pow_le_pow_left₀ (abs_nonneg _) (hx k).2 2
  have hS0 : 0 ≤ ∑ k, (x k).rat ^ 2 := sum_nonneg fun k _ => sq_nonneg _
  obtain ⟨i, hi⟩ := hQ
  have hQp : 0 ≤ Q := le_trans (by positivity) hQ0
  have hT : Q ^ 2 ≤ ∑ k, (y k).rat ^ 2 := by
    have h1 : (y i).rat ^ 2 ≤ ∑ k, (y k).rat ^ 2 := single_le_sum (f := fun k => (y k).rat ^ 2) (fun k _ => sq_nonneg _) (mem_univ i)
    refine le_trans ?_ h1
    rw [← sq_abs (y i).rat]; exact pow_le_pow_left₀ hQp hi 2
  have hu : n * ((1 : ℚ) / 2 ^ 250) ≤ 1 / 100 * Q ^ 2 := by
    have h1 := mul_le_mul_of_nonneg_right hn2 (by positivity : (0 : ℚ) ≤ 1 / 2 ^ 250)
    have h2 := pow_le_pow_left₀ (by positivity) hQ0 2
    refine h1.trans (le_trans ?_ (mul_le_mul_of_nonneg_left h2 (by norm_num)))
    norm_num
  have hu0 : (0 : ℚ) ≤ n * (1 / 2 ^ 250) := by positivity
  have hQ2 : 0 < Q ^ 2 := by
    have : 0 < Q := lt_of_lt_of_le (by positivity) hQ0
    positivity
  have a1 := (abs_le.mp l3).2
  have a2 := (abs_le.mp r3).1
  set S := ∑ k, (x k).rat ^ 2
  set T := ∑ k, (y k).rat ^ 2
  generalize n * ((1 : ℚ) / 2 ^ 250) = u at *
  have b1 : gam n * (S + u) ≤ 1 / 100 * (S + u) := mul_le_mul_of_nonneg_right hgn (by linarith)
  have b2 : gam n * (T + u) ≤ 1 / 100 * (T + u) := mul_le_mul_of_nonneg_right hgn (by linarith)
  have hlt : l.rat < r.rat := by linarith
  refine ⟨l, r, l1, r1, ?_, ?_⟩
  · rw [lt_is ⟨l2, rfl⟩ ⟨r2, rfl⟩]; exact decide_eq_true hlt
  · rw [le_is ⟨l2, rfl⟩ ⟨r2, rfl⟩]; exact decide_eq_true hlt.le

variable {vars : List Str} {f : Matrix (Fin vars.length) (Fin 1) (Expr (Double L))} {g : Matrix (Fin vars.length) (Fin 1) (Expr (XNum ℝ))}
  {z : Fin vars.length → ℝ} {r M change a eF eA θ c : ℝ}

theorem rat_abs_le {q b : ℚ} (h : |(q : ℝ)| ≤ (b : ℝ)) : |q| ≤ b := by
  have : ((|q| : ℚ) : ℝ) ≤ ((b : ℚ) : ℝ) := by push_cast; exact h
  exact_mod_cast this

set_option maxHeartbeats 1000000 in
/-- one step of the method, from a point of the region that is not accepted -/
theorem system_region_step (hR : ComputedRegion vars f g z r M change a eF eA) (hn : 0 < vars.length)
    (cfg : Config (Double L)) (hs : cfg.throwOnInvalidValue = true) {ε a' β : ℚ} (he : cfg.epsilon.Is ε) (hroom : SystemLMRoom z r M change a eF eA θ c ε a' β)
    (hls : ∀ w, ‖w - z‖ ≤ r → ∀ A, IsJacobian g vars w A → SearchFactor c A)
    {J : SymMat (Double L)} (hJ : (symOf f).jacobian cfg vars = .ok J)
    {t : VarsTable (Double L)} {w : Fin vars.length → Double L} (ht : DoubleTable t vars w) (hw : ∀ j, (w j).Finite)
    (hwz : ‖realVec w - z‖ ≤ r) {phi : Fin vars.length → Double L} (hphi : evalVec cfg (symOf f) t = .ok (vec phi))
    (hns : ¬ (vec phi).eqNum cfg.epsilon (Dbl.ofInt 0) = true) :
    ∃ (dq : Mat (Double L)) (FN : Mat (Double L)) (t1 : VarsTable (Double L)) (w1 : Fin vars.length → Double L),
      (∀ lsFuel innerFuel it, lmInner cfg (lsFuel + 1) (symOf f) J (vec w) (vec phi) (innerFuel + 1) t (lit 1 (-5)) it = .ok (dq, FN, t1, it)) ∧
      (vec w).add dq = .ok (vec w1) ∧ DoubleTable t1 vars w1 ∧ (∀ j, (w1 j).Finite) ∧ ‖realVec w1 - z‖ ≤ 1 / 4 * ‖realVec w - z‖ := by
  obtain ⟨phi0, Fv, h1, h2, h3⟩ := hR.value cfg ht hw hwz
  obtain rfl : phi = phi0 := by
    rw [hphi] at h1
    have h1' := congrArg Mat.data (Res.ok.inj h1)
    exact List.ofFn_injective h1'
  obtain ⟨B, A, h4, h5, h6⟩ := hR.deriv cfg hs hJ ht hw hwz
  have hr0 : 0 ≤ r := (norm_nonneg _).trans hwz
  have hzz : ‖z - z‖ ≤ r := by rw [sub_self, norm_zero]; exact hr0
  have i1 : Fin vars.length := ⟨0, hn⟩
  have hch0 : 0 ≤ change := (abs_nonneg _).trans (hR.steady _ _ hwz hwz A A h5 h5 i1 i1)
  have ha0 : 0 ≤ a := (abs_nonneg _).trans (hR.bounded _ hwz A h5 i1 i1)
  have heA : 0 ≤ eA := (abs_nonneg _).trans (h6 i1 i1).2
  have heF : 0 ≤ eF := (abs_nonneg _).trans (h3 i1).2
  have hM := hroom.M_pos
  obtain ⟨hθ0, hθ, hcθ⟩ := hroom.small
  have hst := hR.stretch _ hwz A h5
  have hAa := hR.bounded _ hwz A h5
  have hAn := mulVec_norm_le ha0 hAa
  have hC := cond_ge_one hn hM hst hAn
  have hn1 : (1 : ℝ) ≤ vars.length := by exact_mod_cast hn
  set e := realVec w - z with hed
  -- the mean value inequality with the Jacobian at the point
  have hmv : ∀ {w' : Fin vars.length → ℝ}, ‖w' - z‖ ≤ r → ∀ {V : Fin vars.length → ℝ}, IsValue g vars w' V →
      ‖V - A.mulVec (w' - z)‖ ≤ vars.length * change * ‖w' - z‖ := by
    intro w' hw' V hV
    have := mean_value (DoubleTable.nodup ht) hch0 hR.smooth A (fun w' hw' A' hA' i j => hR.steady _ _ hw' hwz A' A hA' h5 i j) hw' hzz hV hR.root
    rwa [sub_zero] at this
  -- the size of the values
  obtain ⟨i0, hi0⟩ := norm_attained hn (realVec phi)
  set p : ℚ := |(phi i0).rat| with hp
  have hpn : ‖realVec phi‖ = (p : ℝ) := by rw [hi0, hp, Rat.cast_abs]; rfl
  have hphib : ∀ i, (phi i).Finite ∧ |(phi i).rat| ≤ p := fun i => ⟨(h3 i).1, rat_abs_le (by rw [← hpn]; exact norm_le_pi_norm (realVec phi) i)⟩
  have hεp : ε ≤ p := by
    by_contra hc
    push Not at hc
    exact hns (eqNum_vec phi he (fun i => (h3 i).1) fun i => lt_of_le_of_lt (hphib i).2 hc)
  have hεpR : (ε : ℝ) ≤ p := by exact_mod_cast hεp
  have hεpos : (0 : ℚ) < ε := lt_of_lt_of_le (by positivity) hroom.eps
  have hεposR : (0 : ℝ) < ε := by exact_mod_cast hεpos
  have hp0 : (0 : ℝ) < p := lt_of_lt_of_le hεposR hεpR
  have hp0Q : (0 : ℚ) < p := lt_of_lt_of_le hεpos hεp
  have hpl : (1 : ℚ) / 2 ^ 50 ≤ p := hroom.eps.trans hεp
  have hφF : ‖realVec phi - Fv‖ ≤ eF := (pi_norm_le_iff_of_nonneg heF).mpr fun i => (h3 i).2
  obtain ⟨bg1, bg2, bg3, bg4⟩ := hroom.big
  have bg1 : ((vars.length : ℕ) : ℚ) ≤ 2 ^ 50 := by exact_mod_cast bg1
  have hpβ : p ≤ β := by
    have h7 := mean_value (DoubleTable.nodup ht) ha0 hR.smooth 0 (fun w' hw' A' hA' i j => by
      rw [Matrix.zero_apply, sub_zero]; exact hR.bounded w' hw' A' hA' i j) hwz hzz h2 hR.root
    rw [Matrix.zero_mulVec, sub_zero, sub_zero] at h7
    have h8 := mul_le_mul_of_nonneg_left hwz (by positivity : 0 ≤ vars.length * a)
    have h9 : realVec phi = (realVec phi - Fv) + Fv := by abel
    have h10 : (p : ℝ) ≤ eF + ‖Fv‖ := by
      rw [← hpn]
      conv_lhs => rw [h9]
      exact (norm_add_le _ _).trans (add_le_add hφF le_rfl)
    have h11 : (p : ℝ) ≤ (β : ℝ) := by have := hroom.values; linarith
    exact_mod_cast h11
  obtain ⟨ha1, ha2⟩ := hroom.entries
  have ha1R : (1 : ℝ) ≤ a' := by exact_mod_cast ha1
  have haa' : a ≤ a' := by linarith
  have hBb : ∀ i j, (B i j).Finite ∧ |(B i j).rat| ≤ a' := fun i j => ⟨(h6 i j).1, rat_abs_le (by
    have k1 := abs_sub_abs_le_abs_sub ((B i j).rat : ℝ) (A i j)
    linarith [(h6 i j).2, hAa i j])⟩
  have hnQ1 : (1 : ℚ) ≤ vars.length := by exact_mod_cast hn
  have hna' : (1 : ℚ) ≤ vars.length * a' := by nlinarith
  have hna'b : (vars.length : ℚ) * a' ≤ 2 ^ 150 := by
    have := mul_le_mul bg1 bg2 (by linarith) (by positivity)
    exact this.trans (by norm_num)
  -- the linear system
  set Br := (ratMatrix B).map (fun q : ℚ => (q : ℝ)) with hBr
  have hBA : ∀ i j, |Br i j - A i j| ≤ eA := fun i j => (h6 i j).2
  have hBst : ∀ x, ‖x‖ ≤ 2 * M * ‖Br.mulVec x‖ := by
    intro x
    have k1 := hst x
    have k2 := mulVec_norm_close heA hBA x
    have k3 : A.mulVec x = Br.mulVec x - (Br.mulVec x - A.mulVec x) := by abel
    have k4 : ‖A.mulVec x‖ ≤ ‖Br.mulVec x‖ + vars.length * eA * ‖x‖ := by
      rw [k3]
      exact (norm_sub_le _ _).trans (add_le_add le_rfl k2)
    have k5 := mul_le_mul_of_nonneg_left k4 hM.le
    have k6 := mul_le_mul_of_nonneg_right (hroom.slope.trans hθ) (norm_nonneg x)
    have k7 : M * (‖Br.mulVec x‖ + vars.length * eA * ‖x‖) = M * ‖Br.mulVec x‖ + M * (vars.length * eA) * ‖x‖ := by ring
    have k8 := norm_nonneg x
    rw [k7] at k5
    have k9 : 0 ≤ M * ‖Br.mulVec x‖ := by positivity
    linarith
  set σ := solveError vars.length with hσ
  have hσ0 : 0 ≤ σ := by have := gam_solve vars.length; have := gam_nonneg vars.length; linarith
  have hσR : (0 : ℝ) ≤ σ := by exact_mod_cast hσ0
  set T : ℝ := vars.length * ε + 3 * vars.length ^ 2 * a' ^ 2 * σ + 1 / 50000 with hT
  have hT0 : 0 ≤ T := by rw [hT]; positivity
  set C := M * (vars.length * a) with hCd
  have hdamp := hroom.damping
  rw [← hT, ← hCd] at hdamp
  set η : ℝ := vars.length * (2 * M) ^ 2 * T with hη
  have hη0 : 0 ≤ η := by rw [hη]; positivity
  have hCη : C * (4 * η) ≤ θ := by
    refine le_trans (le_of_eq ?_) hdamp
    rw [hη]; ring
  have h4η : 4 * η ≤ θ := by
    have := mul_le_mul_of_nonneg_right hC (by positivity : 0 ≤ 4 * η)
    linarith
  have hcond : 1 ≤ vars.length * (2 * M) * a' := by
    have k1 : C ≤ M * (vars.length * a') := by
      rw [hCd]
      exact mul_le_mul_of_nonneg_left (mul_le_mul_of_nonneg_left haa' (by positivity)) hM.le
    have k2 : 0 ≤ M * (vars.length * a') := by positivity
    linarith
  have hroom' : RoundedRoom vars.length ε (2 * vars.length * a' ^ 2) (2 * vars.length * a' * p) := by
    refine hroom.linear.smaller (mul_le_mul_of_nonneg_left hpβ (by positivity)) ?_ ?_
    · have k1 : (1 : ℚ) / 2 ^ 900 ≤ 1 / 2 ^ 50 := one_div_pow_le_one_div_pow_of_le (by norm_num) (by norm_num)
      refine k1.trans (hpl.trans (le_mul_of_one_le_left hp0Q.le ?_))
      linarith
    · have k1 : (2 : ℚ) ^ 150 * (1 / 2 ^ 1000) ≤ 1 / 2 ^ 50 := by
        have k2 : (1 : ℚ) / 2 ^ 1000 ≤ 1 / 2 ^ 200 := one_div_pow_le_one_div_pow_of_le (by norm_num) (by norm_num)
        exact (mul_le_mul_of_nonneg_left k2 (by positivity)).trans (by norm_num)
      have k3 : (vars.length * a') * (1 / 2 ^ 1000) ≤ p := (mul_le_mul_of_nonneg_right hna'b (by positivity)).trans (k1.trans hpl)
      have k4 := mul_le_mul_of_nonneg_left k3 (by positivity : (0 : ℚ) ≤ 2 * vars.length * a')
      refine le_trans (le_of_eq ?_) k4
      ring
  obtain ⟨d, d1, d2, d3, d4, d5⟩ := system_direction (η := η) hn cfg he B phi h4 ha1 (le_trans (by norm_num) hpl) hBb hphib
    (by
      have k1 : (vars.length : ℚ) * a' ^ 2 = (vars.length * a') * a' := by ring
      have k2 := mul_le_mul hna'b bg2 (by linarith) (by positivity)
      rw [k1]
      refine k2.trans ?_
      rw [← pow_add]
      exact pow_le_pow_right₀ (by norm_num) (by norm_num))
    (by
      have k1 : (vars.length : ℚ) * (a' * p) = (vars.length * a') * p := by ring
      have k2 := mul_le_mul hna'b (hpβ.trans bg3) hp0Q.le (by positivity)
      rw [k1]
      refine k2.trans ?_
      rw [← pow_add]
      exact pow_le_pow_right₀ (by norm_num) (by norm_num))
    hroom' (by positivity : 0 ≤ 2 * M) hBst hcond le_rfl (by linarith)
  clear hroom'
  obtain ⟨q1, q2, q3, q4, q5⟩ := system_step hn (e := e) (d := realVec d) hM heA ha0 hst hAa hBA (hmv hwz h2) hroom.steady hφF hpn
    (hroom.value.trans (mul_le_mul_of_nonneg_left hεpR hθ0)) hroom.slope d3 hCη (by positivity) heF hθ0 hθ (hls _ hwz A h5) hcθ
  have hc0 : 0 ≤ c := le_trans (by positivity) hroom.c_small
  have hdn : ‖realVec d‖ ≤ 9 / 8 * ‖e‖ := by
    have k1 := norm_sub_le (e + realVec d) e
    rw [add_sub_cancel_left] at k1
    linarith
  obtain ⟨j0, hj0⟩ := norm_attained hn (realVec d)
  set D : ℚ := |(d j0).rat| with hD
  have hDn : ‖realVec d‖ = (D : ℝ) := by rw [hj0, hD, Rat.cast_abs]; rfl
  have hD0 : 0 ≤ D := abs_nonneg _
  have hD0R : (0 : ℝ) ≤ D := by exact_mod_cast hD0
  have hdb : ∀ i, (d i).Finite ∧ |(d i).rat| ≤ D := fun i => ⟨d2 i, rat_abs_le (by rw [← hDn]; exact norm_le_pi_norm (realVec d) i)⟩
  have hzn := norm_nonneg z
  have hDb : D ≤ 2 ^ 101 := by
    have k1 : (D : ℝ) ≤ ((2 ^ 101 : ℚ) : ℝ) := by
      rw [← hDn]
      push_cast
      have k2 : (2 : ℝ) ^ 101 = 2 * 2 ^ 100 := by norm_num
      rw [k2]
      linarith
    exact_mod_cast k1
  have hnaD : (vars.length : ℚ) * (a' * D) ≤ 2 ^ 251 := by
    have k1 : (vars.length : ℚ) * (a' * D) = (vars.length * a') * D := by ring
    rw [k1]
    refine (mul_le_mul hna'b hDb hD0 (by positivity)).trans ?_
    norm_num
  obtain ⟨P, s, s1, s2, s3⟩ := search_numbers hn B phi d ha1 bg1 (le_trans (by norm_num) hpl)
    (hpβ.trans (bg3.trans (pow_le_pow_right₀ (by norm_num) (by norm_num)))) hD0 hBb hphib hdb (by linarith)
    (bg2.trans (pow_le_pow_right₀ (by norm_num) (by norm_num))) (hnaD.trans (pow_le_pow_right₀ (by norm_num) (by norm_num)))
  clear hna'b
  -- the test of the line search
  have hσD : (σ : ℝ) * (vars.length * (a' * D) + p) ≤ θ * p := by
    have k1 : (D : ℝ) ≤ 9 / 8 * (11 / 10 * (M * p)) := by rw [← hDn]; linarith
    have k2 := mul_le_mul_of_nonneg_left k1 (by positivity : (0 : ℝ) ≤ σ * (vars.length * a'))
    have k3 := mul_le_mul_of_nonneg_right d4 hp0.le
    have k4 : (σ : ℝ) * p ≤ vars.length * (2 * M) * a' * σ * p := by
      have := mul_le_mul_of_nonneg_right hcond (by positivity : (0 : ℝ) ≤ σ * p)
      linarith
    have k5 := mul_le_mul_of_nonneg_right h4η hp0.le
    have k6 : σ * (vars.length * a') * (9 / 8 * (11 / 10 * (M * p))) = 99 / 160 * (vars.length * (2 * M) * a' * σ * p) := by ring
    have k7 : (0 : ℝ) ≤ η * p := by positivity
    rw [k6] at k2
    linarith
  have hsr : ∀ i, |((s i).rat : ℝ) - (realVec phi + (2 / 5 : ℝ) • Brᵀ.mulVec (realVec d)) i| ≤ θ * p := by
    intro i
    have k1 := (s3 i).2
    have k2 : 6 * gam vars.length * (vars.length * (a' * D) + p) ≤ σ * (vars.length * (a' * D) + p) :=
      mul_le_mul_of_nonneg_right (gam_solve _) (by positivity)
    have k3 := (Rat.cast_le (K := ℝ)).mpr (k1.trans k2)
    have k4 : (realVec phi + (2 / 5 : ℝ) • Brᵀ.mulVec (realVec d)) i = (((phi i).rat + 2 / 5 * ∑ k, (B k i).rat * (d k).rat : ℚ) : ℝ) := by
      simp [Matrix.mulVec, dotProduct, hBr, realVec, ratMatrix]
    rw [k4]
    push_cast at k3 ⊢
    linarith
  have hcQ : ∃ cq : ℚ, 1 / 2 ^ 21 ≤ cq ∧ (cq : ℝ) ≤ c ∧ 99 / 100 * c ≤ cq := by
    have hc1 := hroom.c_small
    have hcp : 0 < c := lt_of_lt_of_le (by positivity) hc1
    obtain ⟨cq, k1, k2⟩ := exists_rat_btwn (by linarith : 99 / 100 * c < c)
    refine ⟨cq, ?_, k2.le, k1.le⟩
    have k3 : ((1 / 2 ^ 21 : ℚ) : ℝ) ≤ (cq : ℝ) := by
      push_cast
      have : (1 : ℝ) / 2 ^ 21 ≤ 99 / 100 * (1 / 2 ^ 20) := by norm_num
      linarith
    exact_mod_cast k3
  obtain ⟨cq, cq1, cq2, cq3⟩ := hcQ
  have hcqp : 0 < cq := lt_of_lt_of_le (by positivity) cq1
  have hsQ : ∃ k, 81 / 100 * cq * p ≤ |(s k).rat| := by
    obtain ⟨k, hk⟩ := norm_attained hn (realVec phi + (2 / 5 : ℝ) • Brᵀ.mulVec (realVec d))
    refine ⟨k, ?_⟩
    rw [hk] at q5
    have k1 := hsr k
    have k2 := abs_sub_abs_le_abs_sub ((realVec phi + (2 / 5 : ℝ) • Brᵀ.mulVec (realVec d)) k) ((s k).rat : ℝ)
    rw [abs_sub_comm] at k2
    have k3 := mul_le_mul_of_nonneg_right hcθ hp0.le
    have k4 := mul_le_mul_of_nonneg_right cq2 hp0.le
    have k5 : ((81 / 100 * cq * p : ℚ) : ℝ) ≤ ((|(s k).rat| : ℚ) : ℝ) := by
      push_cast
      have k6 : 0 ≤ c * p := by positivity
      linarith
    exact_mod_cast k5
  have hsY : ∀ k, (s k).Finite ∧ |(s k).rat| ≤ 2 ^ 253 := by
    intro k
    refine ⟨(s3 k).1, rat_abs_le ?_⟩
    have k1 := hsr k
    have k2 := abs_sub_abs_le_abs_sub ((s k).rat : ℝ) ((realVec phi + (2 / 5 : ℝ) • Brᵀ.mulVec (realVec d)) k)
    have k3 := norm_le_pi_norm (realVec phi + (2 / 5 : ℝ) • Brᵀ.mulVec (realVec d)) k
    have k4 := norm_add_le (realVec phi) ((2 / 5 : ℝ) • Brᵀ.mulVec (realVec d))
    have k5 : ‖Brᵀ.mulVec (realVec d)‖ ≤ vars.length * a' * ‖realVec d‖ := mulVec_norm_le (by linarith) (fun i j => by
      have := (Rat.cast_le (K := ℝ)).mpr (hBb j i).2
      rw [Rat.cast_abs] at this
      exact this) _
    rw [norm_smul, Real.norm_eq_abs, abs_of_pos (by norm_num : (0 : ℝ) < 2 / 5), hpn] at k4
    rw [hDn] at k5
    have k6 := (Rat.cast_le (K := ℝ)).mpr hnaD
    push_cast at k6
    have k7 := (Rat.cast_le (K := ℝ)).mpr (hpβ.trans bg3)
    push_cast at k7
    have k8 := mul_le_mul_of_nonneg_right hθ hp0.le
    rw [Real.norm_eq_abs] at k3
    push_cast
    have k9 : (2 : ℝ) ^ 100 ≤ 2 ^ 251 := pow_le_pow_right₀ (by norm_num) (by norm_num)
    have k10 : (2 : ℝ) ^ 253 = 4 * 2 ^ 251 := by norm_num
    rw [k10]
    generalize (2 : ℝ) ^ 251 = X1 at *
    generalize (2 : ℝ) ^ 100 = X2 at *
    linarith
  clear hnaD
  -- the new point
  have hone : ∀ j, (Arith.mul (d j) (Dbl.ofInt 1)).Is (d j).rat := fun j => by
    have hdi : (d j).Is (d j).rat := ⟨d2 j, rfl⟩
    have hdd := is_double hdi
    have := mul_is hdi one_is (by rw [_root_.mul_one, rnd_of_isDouble hdd]; exact isDouble_lt hdd)
    rwa [_root_.mul_one, rnd_of_isDouble hdd] at this
  have hwis : ∀ j, (w j).Is (w j).rat := fun j => ⟨hw j, rfl⟩
  have hwd : ∀ j, |((w j).rat : ℝ) + (d j).rat| ≤ ‖z‖ + r := fun j => by
    have k1 : ((w j).rat : ℝ) + (d j).rat = z j + (e + realVec d) j := by
      rw [hed, Pi.add_apply, Pi.sub_apply]; unfold realVec; ring
    have k2 := norm_le_pi_norm (e + realVec d) j
    have k3 := norm_le_pi_norm z j
    rw [Real.norm_eq_abs] at k2 k3
    rw [k1]
    refine (abs_add_le _ _).trans ?_
    linarith [norm_nonneg e]
  set w1 : Fin vars.length → Double L := fun j => Arith.add (w j) (Arith.mul (d j) (Dbl.ofInt 1)) with hw1
  have hw1is : ∀ j, (w1 j).Is (rnd ((w j).rat + (d j).rat)) := fun j => add_is (hwis j) (hone j) (small_rnd (by
    have k1 : |(w j).rat + (d j).rat| ≤ 2 ^ 100 := rat_abs_le (by push_cast; exact (hwd j).trans bg4)
    exact k1.trans (pow_le_pow_right₀ (by norm_num) (by norm_num))))
  have hw1f : ∀ j, (w1 j).Finite := fun j => (hw1is j).1
  set e2 := realVec w1 - z with he2
  set ρ : ℝ := (‖z‖ + r) / 2 ^ 53 with hρ
  have hρ0 : 0 ≤ ρ := by rw [hρ]; positivity
  have hrd : ‖e2 - (e + realVec d)‖ ≤ ρ := by
    refine (pi_norm_le_iff_of_nonneg hρ0).mpr fun j => ?_
    have k1 := rnd_add_rel (is_double (hwis j)) (is_double (hone j))
    have k2 := (Rat.cast_le (K := ℝ)).mpr k1
    push_cast at k2
    have k3 : (e2 - (e + realVec d)) j = ((rnd ((w j).rat + (d j).rat) : ℚ) : ℝ) - (((w j).rat : ℝ) + (d j).rat) := by
      rw [he2, hed, Pi.sub_apply, Pi.sub_apply, Pi.add_apply, Pi.sub_apply]
      unfold realVec
      have : (w1 j).rat = rnd ((w j).rat + (d j).rat) := (hw1is j).2
      rw [this]
      ring
    rw [Real.norm_eq_abs, k3]
    refine k2.trans ?_
    have := mul_le_mul_of_nonneg_left (hwd j) (by positivity : (0 : ℝ) ≤ 1 / 2 ^ 53)
    rw [hρ]
    linarith
  have hpt : vars.length * a * ρ ≤ θ * p := hroom.point.trans (mul_le_mul_of_nonneg_left hεpR hθ0)
  have he2s : e2 = (e + realVec d) + (e2 - (e + realVec d)) := by abel
  have hA2 : ‖A.mulVec e2‖ ≤ 6 * θ * p := by
    rw [he2s, Matrix.mulVec_add]
    refine (norm_add_le _ _).trans ?_
    have k1 := (hAn (e2 - (e + realVec d))).trans (mul_le_mul_of_nonneg_left hrd (by positivity))
    linarith
  have hen0 := norm_nonneg e
  have he3 : ‖e2‖ ≤ 1 / 4 * ‖e‖ := by
    have k1 : ‖e2‖ ≤ 1 / 8 * ‖e‖ + ρ := by
      conv_lhs => rw [he2s]
      exact (norm_add_le _ _).trans (add_le_add q1 hrd)
    have k2 : C * ρ ≤ C * (11 / 10 * (θ * ‖e‖)) := by
      have k3 := mul_le_mul_of_nonneg_left hpt hM.le
      have k4 := mul_le_mul_of_nonneg_left q3 (by positivity : 0 ≤ M * θ)
      have k5 : C * ρ = M * (vars.length * a * ρ) := by rw [hCd]; ring
      have k6 : C * (11 / 10 * (θ * ‖e‖)) = M * θ * (11 / 10 * (vars.length * a * ‖e‖)) := by rw [hCd]; ring
      rw [k5, k6]
      linarith
    have k7 := le_of_mul_le_mul_left k2 (by linarith : 0 < C)
    have k8 := mul_le_mul_of_nonneg_right hθ hen0
    linarith
  have hw1z : ‖realVec w1 - z‖ ≤ r := by rw [← he2]; linarith
  obtain ⟨t1, k1, k2⟩ := DoubleTable.setValues ht w1
  obtain ⟨phi', F', m1, m2, m3⟩ := hR.value cfg k2 hw1f hw1z
  have hF2 := hmv hw1z m2
  rw [← he2] at hF2
  obtain ⟨l0, hl0⟩ := norm_attained hn (realVec phi')
  set p' : ℚ := |(phi' l0).rat| with hp'
  have hp'n : ‖realVec phi'‖ = (p' : ℝ) := by rw [hl0, hp', Rat.cast_abs]; rfl
  have hp'0 : 0 ≤ p' := abs_nonneg _
  have hphi'b : ∀ i, (phi' i).Finite ∧ |(phi' i).rat| ≤ p' := fun i => ⟨(m3 i).1, rat_abs_le (by rw [← hp'n]; exact norm_le_pi_norm (realVec phi') i)⟩
  have hp'p : (p' : ℝ) ≤ 73 / 10 * θ * p := by
    have j1 : realVec phi' = (realVec phi' - F') + ((F' - A.mulVec e2) + A.mulVec e2) := by abel
    have j2 : ‖realVec phi' - F'‖ ≤ eF := (pi_norm_le_iff_of_nonneg heF).mpr fun i => (m3 i).2
    have j3 : (p' : ℝ) ≤ eF + (vars.length * change * ‖e2‖ + ‖A.mulVec e2‖) := by
      rw [← hp'n]
      conv_lhs => rw [j1]
      exact (norm_add_le _ _).trans (add_le_add j2 ((norm_add_le _ _).trans (add_le_add hF2 le_rfl)))
    have j4 : eF ≤ θ * p := by
      have := mul_le_mul_of_nonneg_right hC heF
      have := hroom.value.trans (mul_le_mul_of_nonneg_left hεpR hθ0)
      linarith
    have j5 : vars.length * change * ‖e2‖ ≤ θ * ‖A.mulVec e2‖ := by
      have j6 := mul_le_mul_of_nonneg_left (hst e2) (by positivity : 0 ≤ vars.length * change)
      have j7 := mul_le_mul_of_nonneg_right hroom.steady (norm_nonneg (A.mulVec e2))
      linarith
    have j8 := mul_le_mul_of_nonneg_right hθ (norm_nonneg (A.mulVec e2))
    have j9 : 0 ≤ θ * p := by positivity
    linarith
  have hsq : (p' : ℝ) ^ 2 ≤ 533 / 10 * (θ ^ 2 * p ^ 2) := by
    have j1 := pow_le_pow_left₀ (by exact_mod_cast hp'0) hp'p 2
    refine j1.trans ?_
    have j2 : (73 / 10 * θ * p) ^ 2 = 5329 / 100 * (θ ^ 2 * p ^ 2) := by ring
    rw [j2]
    have : 0 ≤ θ ^ 2 * (p : ℝ) ^ 2 := by positivity
    linarith
  obtain ⟨sr1, sr2⟩ := hroom.search
  have hp2 : (0 : ℝ) ≤ p ^ 2 := by positivity
  have hnp : vars.length * (p' : ℝ) ^ 2 ≤ 533 / 1000 * (100 * vars.length * θ ^ 2 * p ^ 2) := by
    have := mul_le_mul_of_nonneg_left hsq (by positivity : (0 : ℝ) ≤ vars.length)
    linarith
  have hp'Y : p' ≤ 2 ^ 253 := by
    have j1 : (p' : ℝ) ≤ p := by
      refine hp'p.trans ?_
      have := mul_le_mul_of_nonneg_right hθ hp0.le
      linarith
    have j2 : p' ≤ p := by exact_mod_cast j1
    exact j2.trans (hpβ.trans (bg3.trans (pow_le_pow_right₀ (by norm_num) (by norm_num))))
  have hYle : (2 : ℚ) ^ 253 ≤ 2 ^ 320 := pow_le_pow_right₀ (by norm_num) (by norm_num)
  obtain ⟨l, rr, g1, g2, -, g4⟩ := norm2_compare hn phi' s hp'0 hp'Y hphi'b hsY hsQ (by
      have j1 := mul_le_mul_of_nonneg_right sr1 hp2
      have j2 : c ^ 2 ≤ 103 / 100 * (cq : ℝ) ^ 2 := by
        have j3 := pow_le_pow_left₀ (by positivity) cq3 2
        rw [mul_pow] at j3
        linarith [sq_nonneg (cq : ℝ)]
      have j4 := mul_le_mul_of_nonneg_right j2 hp2
      have j5 : ((vars.length * p' ^ 2 : ℚ) : ℝ) ≤ ((9 / 10 * (81 / 100 * cq * p) ^ 2 : ℚ) : ℝ) := by
        push_cast
        have j6 : (9 : ℝ) / 10 * (81 / 100 * cq * p) ^ 2 = 59049 / 100000 * (cq ^ 2 * p ^ 2) := by ring
        rw [j6]
        have : (0 : ℝ) ≤ cq ^ 2 * p ^ 2 := by positivity
        linarith
      exact_mod_cast j5) (by
      have j1 := mul_le_mul cq1 hpl (by positivity) hcqp.le
      have j2 : (1 : ℚ) / 2 ^ 80 ≤ 81 / 100 * (1 / 2 ^ 21 * (1 / 2 ^ 50)) := by norm_num
      linarith) bg1 hYle d5
  have hβY : p ≤ 2 ^ 253 := hpβ.trans (bg3.trans (pow_le_pow_right₀ (by norm_num) (by norm_num)))
  obtain ⟨l', rr', g5, g6, g7, -⟩ := norm2_compare hn phi' phi hp'0 hp'Y hphi'b (fun k => ⟨(hphib k).1, (hphib k).2.trans hβY⟩) ⟨i0, le_refl p⟩ (by
      have j1 := mul_le_mul_of_nonneg_right sr2 hp2
      have j5 : ((vars.length * p' ^ 2 : ℚ) : ℝ) ≤ ((9 / 10 * p ^ 2 : ℚ) : ℝ) := by
        push_cast
        linarith
      exact_mod_cast j5) (le_trans (by norm_num) hpl) bg1 hYle d5
  clear hYle
  -- the run
  obtain ⟨t2, n1, n2⟩ := DoubleTable.setValues ht w
  obtain rfl : t2 = t := n2.1.good.ext ht.1.good (n2.2.1.trans ht.2.1.symm) (n2.2.2.trans ht.2.2.symm)
  have harm : ∀ lsFuel, armijo (lsFuel + 1) (vec w) (vec d) (lmF cfg (symOf f) t2) (lmDF cfg J t2) = .ok (Dbl.ofInt 1) := by
    intro lsFuel
    refine vec_armijo hn lsFuel _ _ w d phi phi' P s B ?_ ?_ ?_ s1 s2 g1 g2 g4
    · show (t2.setValues (vec w1) >>= _) = _
      rw [k1, Res.bind_ok, m1]
    · show (t2.setValues (vec w) >>= _) = _
      rw [n1, Res.bind_ok, hphi]
    · show (t2.setValues (vec w) >>= _) = _
      rw [n1, Res.bind_ok, h4]
  have hadd : (vec w).add (Mat.scaleLeft (Dbl.ofInt 1) (vec d)) = .ok (vec w1) := by
    rw [scale_vec, add_vec]
  refine ⟨Mat.scaleLeft (Dbl.ofInt 1) (vec d), vec phi', t1, w1, fun lsFuel innerFuel it => ?_, hadd, k2, hw1f, he3⟩
  rw [lmInner_succ, d1, Res.bind_ok, harm, Res.bind_ok, hadd, Res.bind_ok, k1, Res.bind_ok, m1, Res.bind_ok, g5, Res.bind_ok,
    g6, Res.bind_ok, if_pos g7]

end Double
end Tom
