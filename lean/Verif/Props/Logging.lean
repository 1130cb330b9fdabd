import Verif.Lemmas.Logging
import Verif.Spec.Moderate
import Verif.Props.SymMat
import Verif.Model.Num
/-
C86, C87: what the log level does.
-/
namespace Tom
variable {α : Type} [Dbl α]
open Out

theorem jacobian_prints {r : ℕ} (cfg : Config α) (f : Matrix (Fin r) (Fin 1) (Expr α)) (vars : List Str) (J : SymMat α)
    (h : (symOf f).jacobian cfg vars = .ok J) : Prints J := by
  have h0 : 0 < (symOf f).rows ∧ 0 < vars.length := by
    by_contra hc
    unfold SymMat.jacobian at h
    rw [if_neg hc] at h
    cases h
  obtain ⟨D, rfl⟩ := jacobian_symOf h0.1 cfg f vars h0.2 J h
  exact prints_symOf D

theorem bind_congr_ok {β γ : Type} {r : Res β} {f g : β → Res γ} (h : ∀ b, r = .ok b → f b = g b) : (r >>= f) = (r >>= g) := by
  cases r <;> try rfl
  exact h _ rfl

/-- C86: the log level (and how the stream formats numbers) has no influence on what `Solve` returns or throws, for any arithmetic, any
equations, table and configuration: `solve` is the model without a log. -/
theorem C86 (lvl : LogLevel) (fmt : α → Str) (cfg : Config α) (lsFuel fuel : Nat) {r : ℕ} (f : Matrix (Fin r) (Fin 1) (Expr α))
    (t : VarsTable α) : (solveLog lvl fmt cfg lsFuel fuel (symOf f) t).res = solve cfg lsFuel fuel (symOf f) t := by
  unfold solveLog solve
  cases cfg.nonlinearMethod
  · simp only
    unfold solveByNewtonRaphsonLog solveByNewtonRaphson
    rw [res_bind, res_quiet]
    congr 1; funext q
    rw [res_bind, res_printSolveStartInfo lvl (prints_symOf f) t, Res.bind_ok, res_bind, res_quiet]
    refine bind_congr_ok fun J hJ => ?_
    rw [res_bind, res_printJacobian lvl (jacobian_prints cfg f _ J hJ), Res.bind_ok]
    exact res_newtonLoopLog ..
  · simp only
    unfold solveByLMLog solveByLM
    rw [res_bind, res_quiet]
    congr 1; funext q
    rw [res_bind, res_printSolveStartInfo lvl (prints_symOf f) t, Res.bind_ok, res_bind, res_quiet]
    refine bind_congr_ok fun J hJ => ?_
    rw [res_bind, res_printJacobian lvl (jacobian_prints cfg f _ J hJ), Res.bind_ok, res_bind, res_lmOuterLog]
    simp only [res_bind, res_atLevel (res_say _), Res.bind_ok, res_quiet]
    cases lmOuter cfg lsFuel fuel (symOf f) J fuel t t.values 0 <;> rfl
  · rfl

/-- C86 for `Solve` without a table -/
theorem C86_auto (lvl : LogLevel) (fmt : α → Str) (cfg : Config α) (lsFuel fuel : Nat) {r : ℕ} (f : Matrix (Fin r) (Fin 1) (Expr α)) :
    (solveAutoLog lvl fmt cfg lsFuel fuel (symOf f)).res = solveAuto cfg lsFuel fuel (symOf f) := by
  unfold solveAutoLog solveAuto
  rw [res_bind, res_quiet]; congr 1; funext names
  rw [res_bind, res_quiet]; congr 1; funext t
  exact C86 ..

/-- C86: `SolveLinear` -/
theorem C86_linear (lvl : LogLevel) (cfg : Config α) (A b : Mat α) : (solveLinearLog lvl cfg A b).res = solveLinear cfg A b :=
  res_solveLinearLog lvl cfg A b

/-- C86: a higher log level only adds to what is written. -/
theorem C86_more {l l' : LogLevel} (h : l.rank ≤ l'.rank) (fmt : α → Str) (cfg : Config α) (lsFuel fuel : Nat) {r : ℕ}
    (f : Matrix (Fin r) (Fin 1) (Expr α)) (t : VarsTable α) :
    (solveLog l fmt cfg lsFuel fuel (symOf f) t).text.Sublist (solveLog l' fmt cfg lsFuel fuel (symOf f) t).text := by
  suffices Le (solveLog l fmt cfg lsFuel fuel (symOf f) t) (solveLog l' fmt cfg lsFuel fuel (symOf f) t) from this.2
  unfold solveLog
  cases cfg.nonlinearMethod
  · simp only
    unfold solveByNewtonRaphsonLog
    exact (Le.refl _).bind fun q _ => (le_printSolveStartInfo h (prints_symOf f) t).bind fun _ _ => (Le.refl _).bind fun J hJ =>
      (le_printJacobian h (jacobian_prints cfg f _ J hJ)).bind fun _ _ => le_newtonLoopLog h ..
  · simp only
    unfold solveByLMLog
    exact (Le.refl _).bind fun q _ => (le_printSolveStartInfo h (prints_symOf f) t).bind fun _ _ => (Le.refl _).bind fun J hJ =>
      (le_printJacobian h (jacobian_prints cfg f _ J hJ)).bind fun _ _ => (le_lmOuterLog h ..).bind fun t' _ =>
      (le_say h _).bind fun _ _ => .refl _
  · exact .refl _

/-- C86: at the levels OFF, FATAL, ERROR and WARN (the default) nothing is written. -/
theorem C86_silent {l : LogLevel} (h : l = .off ∨ l = .fatal ∨ l = .error ∨ l = .warn) (fmt : α → Str) (cfg : Config α)
    (lsFuel fuel : Nat) (eqs : SymMat α) (t : VarsTable α) : (solveLog l fmt cfg lsFuel fuel eqs t).text = [] := by
  have h1 : l.rank < LogLevel.info.rank := by rcases h with rfl | rfl | rfl | rfl <;> decide
  have h2 : l.rank < LogLevel.trace.rank := lt_of_lt_of_le h1 (by decide)
  unfold solveLog
  cases cfg.nonlinearMethod
  · simp only
    unfold solveByNewtonRaphsonLog
    exact text_bind_nil rfl fun q => text_bind_nil (atLevel_nil h1 _) fun _ => text_bind_nil rfl fun J =>
      text_bind_nil (atLevel_nil h2 _) fun _ => text_newtonLoopLog h1 ..
  · simp only
    unfold solveByLMLog
    exact text_bind_nil rfl fun q => text_bind_nil (atLevel_nil h1 _) fun _ => text_bind_nil rfl fun J =>
      text_bind_nil (atLevel_nil h2 _) fun _ => text_bind_nil (text_lmOuterLog h1 ..) fun t' =>
      text_bind_nil (atLevel_nil h2 _) fun _ => rfl
  · rfl

/-! ### C87: what the log says -/

/-- the lines about the equations `s` and the table at the start -/
def startText (method s : Str) (t : VarsTable α) : Str :=
  "Solve start.\n".toList ++ ("  Method: ".toList ++ method ++ ['\n']) ++ ("Equations:\n".toList ++ s) ++
    ("Inital Values:\n".toList ++ t.toString)

/-- the lines about iteration `k` -/
def iterationText (k : ℕ) (phi : Mat α) : Str :=
  "====================\n".toList ++ ("iteration times = ".toList ++ Nat.toDigits 10 k ++ ['\n']) ++ ("phi = \n".toList ++ phi.toString)

theorem text_printSolveStartInfo {lvl : LogLevel} (h : LogLevel.info.rank ≤ lvl.rank) {eqs : SymMat α} {s : Str} (hs : eqs.toString = .ok s)
    (t : VarsTable α) : (printSolveStartInfo lvl eqs t).text = startText "Newton Raphson".toList s t := by
  unfold printSolveStartInfo atLevel startText
  rw [if_pos h]
  simp only [text_bind, res_say, res_quiet, hs, Res.noexcept_ok, res_bind, Res.bind_ok, say, quiet]
  simp

theorem text_iteration {lvl : LogLevel} (h : LogLevel.info.rank ≤ lvl.rank) (it : ℕ) (phi : Mat α) :
    (printAtIterationStart lvl it).text ++ (atLevel lvl .info (say ("phi = \n".toList ++ phi.toString))).text = iterationText it phi := by
  unfold printAtIterationStart atLevel iterationText
  rw [if_pos h, if_pos h]
  simp only [text_bind, res_say, say, countText]

/-- The points of Newton's iteration from `t`, with the sum of the corrections so far: point 0 is `t`; the correction at point `k` is added
to the sum (which starts at zero), and that is point `k + 1` (see C44). -/
inductive NewtonPoint (cfg : Config α) (eqs J : SymMat α) (t : VarsTable α) : ℕ → VarsTable α → Mat α → Prop
  | start : NewtonPoint cfg eqs J t 0 t (zeroVec t.vars.length)
  | step {k : ℕ} {t1 t2 : VarsTable α} {q d q' : Mat α} (h : NewtonPoint cfg eqs J t k t1 q) (hd : NewtonCorrection cfg eqs J t1 d)
      (hq : q.add d = .ok q') (ht : t1.setValues q' = .ok t2) : NewtonPoint cfg eqs J t (k + 1) t2 q'

theorem newtonLoop_log {lvl : LogLevel} (h1 : LogLevel.info.rank ≤ lvl.rank) (h2 : lvl.rank < LogLevel.trace.rank) (cfg : Config α)
    (eqs ja : SymMat α) (t0 : VarsTable α) : ∀ fuel it (t : VarsTable α) (q : Mat α), NewtonPoint cfg eqs ja t0 it t q →
      ∃ phis : List (Mat α), ∃ rest : Str,
      (newtonLoopLog lvl cfg eqs ja fuel it t q).text = (phis.mapIdx fun k phi => iterationText (it + k) phi).flatten ++ rest ∧
      (∀ k phi, phis[k]? = some phi → ∃ t1 q1, NewtonPoint cfg eqs ja t0 (it + k) t1 q1 ∧ evalVec cfg eqs t1 = .ok phi) ∧
      ∀ t', newtonLoop cfg eqs ja fuel it t q = .ok t' → rest = [] ∧ ∃ phi, phis.getLast? = some phi ∧ evalVec cfg eqs t' = .ok phi := by
  intro fuel
  induction fuel with
  | zero => intro it t q _; exact ⟨[], [], rfl, by simp, fun t' h => by cases h⟩
  | succ fuel ih =>
    intro it t q hP
    unfold newtonLoopLog newtonLoop
    rw [text_bind_ok (res_printAtIterationStart lvl it)]
    cases hphi : evalVec cfg eqs t with
    | ok phi =>
      rw [text_bind_ok (res_quiet _), text_bind_ok (res_atLevel (res_say _))]
      have e : (quiet (Res.ok phi)).text = [] := rfl
      rw [e, List.nil_append, ← List.append_assoc, text_iteration h1]
      simp only [Res.bind_ok]
      have first : ∀ k p, ([phi] : List (Mat α))[k]? = some p →
          ∃ t1 q1, NewtonPoint cfg eqs ja t0 (it + k) t1 q1 ∧ evalVec cfg eqs t1 = .ok p := by
        intro k p hk
        rw [List.getElem?_eq_some_iff] at hk
        obtain ⟨hk, rfl⟩ := hk
        obtain rfl : k = 0 := by simpa using hk
        exact ⟨t, q, hP, hphi⟩
      have single : ∀ s : Str, iterationText it phi ++ s = (([phi] : List (Mat α)).mapIdx fun k phi => iterationText (it + k) phi).flatten ++ s := by
        intro s; simp
      split
      · refine ⟨[phi], [], ?_, first, fun t' h => ⟨rfl, phi, rfl, ?_⟩⟩
        · rw [← single]; rfl
        · rw [Res.ok.injEq] at h; subst h; exact hphi
      split
      · exact ⟨[phi], [], by rw [← single]; rfl, first, fun t' h => by cases h⟩
      have quietLin : ∀ A b : Mat α, (solveLinearLog lvl cfg A b).text = [] :=
        fun A b => text_bind_nil (atLevel_nil h2 _) fun _ => rfl
      have stop : ∀ (m : Out (VarsTable α)) (r : Res (VarsTable α)), m.text = [] → (∀ t', r ≠ .ok t') →
          ∃ phis : List (Mat α), ∃ rest : Str, iterationText it phi ++ m.text =
            (phis.mapIdx fun k phi => iterationText (it + k) phi).flatten ++ rest ∧
            (∀ k phi, phis[k]? = some phi → ∃ t1 q1, NewtonPoint cfg eqs ja t0 (it + k) t1 q1 ∧ evalVec cfg eqs t1 = .ok phi) ∧
            ∀ t', r = .ok t' → rest = [] ∧ ∃ phi, phis.getLast? = some phi ∧ evalVec cfg eqs t' = .ok phi := by
        intro m r hm hr
        exact ⟨[phi], [], by rw [hm, ← single], first, fun t' h => absurd h (hr t')⟩
      cases hj : evalMat cfg ja t with
      | ok j =>
        rw [text_bind_ok (res_quiet _)]
        simp only [Res.bind_ok]
        have e : (quiet (Res.ok j)).text = [] := rfl
        rw [e, List.nil_append]
        cases hd : solveLinear cfg j phi.neg with
        | ok dq =>
          rw [text_bind_ok (by rw [res_solveLinearLog, hd]), quietLin, List.nil_append, text_bind_ok (res_atLevel (res_say _)),
            atLevel_nil h2, List.nil_append]
          simp only [Res.bind_ok]
          cases hq : q.add dq with
          | ok q' =>
            rw [text_bind_ok (res_quiet _)]
            have e : (quiet (Res.ok q')).text = [] := rfl
            rw [e, List.nil_append, text_bind_ok (res_atLevel (by simp only [res_bind, res_say, Res.bind_ok])), atLevel_nil h2, List.nil_append]
            simp only [Res.bind_ok]
            cases ht : t.setValues q' with
            | ok t1 =>
              rw [text_bind_ok (res_quiet _)]
              have e : (quiet (Res.ok t1)).text = [] := rfl
              rw [e, List.nil_append]
              simp only [Res.bind_ok]
              obtain ⟨phis, rest, h3, h4, h5⟩ := ih (it + 1) t1 q' (hP.step ⟨phi, j, hphi, hj, hd⟩ hq ht)
              refine ⟨phi :: phis, rest, ?_, fun k p hk => ?_, fun t' h => ?_⟩
              · rw [h3]
                simp only [List.mapIdx_cons, List.flatten_cons, Nat.add_zero, List.append_assoc]
                congr 3
                exact congrFun (congrArg List.mapIdx (funext fun k => funext fun p => by rw [show it + (k + 1) = it + 1 + k by omega])) phis
              · cases k with
                | zero =>
                  simp only [List.getElem?_cons_zero, Option.some.injEq] at hk
                  subst hk
                  exact ⟨t, q, hP, hphi⟩
                | succ k =>
                  rw [List.getElem?_cons_succ] at hk
                  obtain ⟨t2, q2, h6, h7⟩ := h4 k p hk
                  exact ⟨t2, q2, by rwa [show it + (k + 1) = it + 1 + k by omega], h7⟩
              · obtain ⟨h6, p, h7, h8⟩ := h5 t' h
                refine ⟨h6, p, ?_, h8⟩
                rw [List.getLast?_cons, h7]; rfl
            | _ => exact stop _ _ (by rw [text_bind]; rfl) (by intro t' h; cases h)
          | _ => exact stop _ _ (by rw [text_bind]; rfl) (by intro t' h; cases h)
        | _ =>
          refine stop _ _ ?_ (by intro t' h; cases h)
          rw [text_bind, res_solveLinearLog, hd, quietLin]
      | _ => exact stop _ _ (by rw [text_bind]; rfl) (by intro t' h; cases h)
    | _ => exact ⟨[], _, rfl, by simp, fun t' h => by cases h⟩

/-- C87: the log of Newton-Raphson at the levels INFO and DEBUG: the equations, the initial values, then for every iteration its number
(counted from 0) and the values of the equations at that point of the iteration.  When a table is returned the last values in the log are those at the returned table and
nothing follows them. -/
theorem C87_newton {lvl : LogLevel} (hl : lvl = .info ∨ lvl = .debug) (fmt : α → Str) (cfg : Config α) (hm : cfg.nonlinearMethod = .newtonRaphson)
    (lsFuel fuel : Nat) {r : ℕ} (f : Matrix (Fin r) (Fin 1) (Expr α)) (s : Str) (hs : (symOf f).toString = .ok s) (t t' : VarsTable α)
    (ht : t.Reachable) (h : solve cfg lsFuel fuel (symOf f) t = .ok t') :
    ∃ phis : List (Mat α), (solveLog lvl fmt cfg lsFuel fuel (symOf f) t).text
        = startText "Newton Raphson".toList s t ++ (phis.mapIdx fun k phi => iterationText k phi).flatten ∧
      (∃ phi, phis.getLast? = some phi ∧ evalVec cfg (symOf f) t' = .ok phi) ∧
      ∃ J, (symOf f).jacobian cfg t.vars = .ok J ∧ ∀ k phi, phis[k]? = some phi →
        ∃ t1 q1, NewtonPoint cfg (symOf f) J t k t1 q1 ∧ evalVec cfg (symOf f) t1 = .ok phi := by
  have h1 : LogLevel.info.rank ≤ lvl.rank := by rcases hl with rfl | rfl <;> decide
  have h2 : lvl.rank < LogLevel.trace.rank := by rcases hl with rfl | rfl <;> decide
  unfold solveLog
  unfold solve at h
  rw [hm] at h ⊢
  simp only at h ⊢
  unfold solveByNewtonRaphson at h
  unfold solveByNewtonRaphsonLog
  obtain ⟨q, hq, h⟩ := Res.bind_eq_ok.mp h
  obtain ⟨J, hJ, h⟩ := Res.bind_eq_ok.mp h
  rw [hq, text_bind_ok (res_quiet _), text_bind_ok (res_printSolveStartInfo lvl ⟨s, hs⟩ t), text_printSolveStartInfo h1 hs, hJ,
    text_bind_ok (res_quiet _), text_bind_ok (res_printJacobian lvl (jacobian_prints cfg f _ J hJ))]
  have hq0 : q = zeroVec t.vars.length := by
    unfold Mat.new at hq
    split at hq
    · rw [Res.ok.injEq] at hq
      rw [← hq, zeroVec, VarsTable.varNums, Nat.mul_one, ht.good.length]
    · cases hq
  obtain ⟨phis, rest, h3, h4, h5⟩ := newtonLoop_log h1 h2 cfg (symOf f) J t ((cfg.maxIterations + 2).toNat + 1) 0 t q (hq0 ▸ .start)
  obtain ⟨h6, h7⟩ := h5 t' h
  refine ⟨phis, ?_, h7, J, rfl, fun k phi hk => by simpa using h4 k phi hk⟩
  have e : (printJacobian lvl J).text = [] := atLevel_nil h2 _
  rw [h3, h6, e]
  simp [quiet]

/-- C87 is false as stated: the log of `SolveByLM` says "Newton Raphson" as well. -/
theorem C87_false {lvl : LogLevel} (hl : LogLevel.info.rank ≤ lvl.rank) (fmt : α → Str) (cfg : Config α) (hm : cfg.nonlinearMethod = .lm)
    (lsFuel fuel : Nat) {r : ℕ} (f : Matrix (Fin r) (Fin 1) (Expr α)) (t : VarsTable α) (ht : 0 < t.varNums) :
    ∃ s rest, (symOf f).toString = .ok s ∧
      (solveLog lvl fmt cfg lsFuel fuel (symOf f) t).text = startText "Newton Raphson".toList s t ++ rest := by
  obtain ⟨s, hs⟩ := prints_symOf f
  have hnew : ∃ z, Mat.new t.varNums 1 (Arith.zero : α) = .ok z := by
    unfold Mat.new
    rw [if_pos ⟨ht, Nat.one_pos⟩]
    exact ⟨_, rfl⟩
  obtain ⟨z, hz⟩ := hnew
  unfold solveLog
  rw [hm]
  simp only
  unfold solveByLMLog
  rw [hz, text_bind_ok (res_quiet _), text_bind_ok (res_printSolveStartInfo lvl ⟨s, hs⟩ t), text_printSolveStartInfo hl hs]
  exact ⟨s, _, hs, rfl⟩

/-- C87: at the levels TRACE and ALL the log of a successful `SolveByLM` ends with "success". -/
theorem C87_success {lvl : LogLevel} (hl : LogLevel.trace.rank ≤ lvl.rank) (fmt : α → Str) (cfg : Config α) (hm : cfg.nonlinearMethod = .lm)
    (lsFuel fuel : Nat) {r : ℕ} (f : Matrix (Fin r) (Fin 1) (Expr α)) (t t' : VarsTable α)
    (h : solve cfg lsFuel fuel (symOf f) t = .ok t') :
    ∃ rest, (solveLog lvl fmt cfg lsFuel fuel (symOf f) t).text = rest ++ "success\n".toList := by
  unfold solve at h
  rw [hm] at h
  simp only at h
  unfold solveByLM at h
  obtain ⟨q, hq, h⟩ := Res.bind_eq_ok.mp h
  obtain ⟨J, hJ, h⟩ := Res.bind_eq_ok.mp h
  unfold solveLog
  rw [hm]
  simp only
  unfold solveByLMLog
  rw [hq, text_bind_ok (res_quiet _), text_bind_ok (res_printSolveStartInfo lvl (prints_symOf f) t), hJ,
    text_bind_ok (res_quiet _), text_bind_ok (res_printJacobian lvl (jacobian_prints cfg f _ J hJ)),
    text_bind_ok ((res_lmOuterLog ..).trans h), text_bind_ok (res_atLevel (res_say _))]
  have e : (atLevel lvl .trace (say "success\n".toList)).text = "success\n".toList := by
    unfold atLevel; rw [if_pos hl]; rfl
  have e' : ∀ t' : VarsTable α, (quiet (Res.ok t')).text = [] := fun _ => rfl
  rw [e, e', List.append_nil]
  simp only [← List.append_assoc]
  exact ⟨_, rfl⟩

/-! ### the number of the iteration in the log of `SolveByLM` -/

theorem lmInner_it (cfg : Config α) (ls : Nat) (eqs ja : SymMat α) (q F : Mat α) : ∀ fuel (t : VarsTable α) (mu : α) (it : Nat)
    (d F' : Mat α) (t' : VarsTable α) (it' : Nat), lmInner cfg ls eqs ja q F fuel t mu it = .ok (d, F', t', it') → it ≤ it' := by
  intro fuel
  induction fuel with
  | zero => intro t mu it d F' t' it' h; cases h
  | succ fuel ih =>
    intro t mu it d F' t' it' h
    unfold lmInner at h
    obtain ⟨_, _, h⟩ := Res.bind_eq_ok.mp h
    obtain ⟨_, _, h⟩ := Res.bind_eq_ok.mp h
    obtain ⟨_, _, h⟩ := Res.bind_eq_ok.mp h
    obtain ⟨_, _, h⟩ := Res.bind_eq_ok.mp h
    obtain ⟨_, _, h⟩ := Res.bind_eq_ok.mp h
    obtain ⟨_, _, h⟩ := Res.bind_eq_ok.mp h
    obtain ⟨_, _, h⟩ := Res.bind_eq_ok.mp h
    obtain ⟨_, _, h⟩ := Res.bind_eq_ok.mp h
    obtain ⟨_, _, h⟩ := Res.bind_eq_ok.mp h
    obtain ⟨_, _, h⟩ := Res.bind_eq_ok.mp h
    obtain ⟨_, _, h⟩ := Res.bind_eq_ok.mp h
    obtain ⟨_, _, h⟩ := Res.bind_eq_ok.mp h
    obtain ⟨_, _, h⟩ := Res.bind_eq_ok.mp h
    obtain ⟨_, _, h⟩ := Res.bind_eq_ok.mp h
    obtain ⟨_, _, h⟩ := Res.bind_eq_ok.mp h
    split at h
    · simp only [Res.ok.injEq, Prod.mk.injEq] at h
      omega
    split at h
    · cases h
    have := ih _ _ _ _ _ _ _ h
    omega

/-- the lines at the start of an iteration -/
def roundText (k : ℕ) : Str := "====================\n".toList ++ ("iteration times = ".toList ++ Nat.toDigits 10 k ++ ['\n'])

theorem lmOuter_log {lvl : LogLevel} (h1 : LogLevel.info.rank ≤ lvl.rank) (h2 : lvl.rank < LogLevel.trace.rank) (fmt : α → Str)
    (cfg : Config α) (ls inner : Nat) (eqs ja : SymMat α) : ∀ fuel (t : VarsTable α) (q : Mat α) (it : Nat), ∃ ks : List ℕ,
      (lmOuterLog lvl fmt cfg ls inner eqs ja fuel t q it).text = (ks.map roundText).flatten ∧ ks.Pairwise (· < ·) ∧ ∀ k ∈ ks, it ≤ k := by
  intro fuel
  induction fuel with
  | zero => intro t q it; exact ⟨[], rfl, .nil, by simp⟩
  | succ fuel ih =>
    intro t q it
    have hstart : (printAtIterationStart lvl it).text = roundText it := by
      unfold printAtIterationStart atLevel roundText
      rw [if_pos h1]
      simp only [text_bind, res_say, say, countText]
    have stop : ∀ s : Str, s = [] → ∃ ks : List ℕ, roundText it ++ s = (ks.map roundText).flatten ∧ ks.Pairwise (· < ·) ∧ ∀ k ∈ ks, it ≤ k := by
      rintro s rfl
      exact ⟨[it], by simp, by simp, by simp⟩
    unfold lmOuterLog
    rw [text_bind_ok (res_printAtIterationStart lvl it), hstart]
    cases hF : evalVec cfg eqs t with
    | ok F =>
      have e : (quiet (Res.ok F)).text = [] := rfl
      rw [text_bind_ok (res_quiet _), text_bind_ok (res_atLevel (res_say _)), e, atLevel_nil h2, List.nil_append, List.nil_append]
      split
      · exact stop _ rfl
      cases hi : lmInner cfg ls eqs ja q F inner t (lit 1 (-5)) it with
      | ok p =>
        obtain ⟨d, F', t1, it1⟩ := p
        have hle := lmInner_it cfg ls eqs ja q F inner t _ it d F' t1 it1 hi
        rw [text_bind_ok ((res_lmInnerLog ..).trans hi), text_lmInnerLog h2, List.nil_append]
        simp only
        cases hq : q.add d with
        | ok q' =>
          have e : (quiet (Res.ok q')).text = [] := rfl
          rw [text_bind_ok (res_quiet _), e, List.nil_append]
          cases ht : t1.setValues q' with
          | ok t2 =>
            have e : (quiet (Res.ok t2)).text = [] := rfl
            rw [text_bind_ok (res_quiet _), e, List.nil_append]
            split
            · exact stop _ rfl
            rw [text_bind_ok (res_atLevel (res_say _)), atLevel_nil h2, List.nil_append]
            obtain ⟨ks, h3, h4, h5⟩ := ih t2 q' (it1 + 1)
            refine ⟨it :: ks, by rw [h3]; rfl, List.pairwise_cons.mpr ⟨fun k hk => ?_, h4⟩, fun k hk => ?_⟩
            · have := h5 k hk; omega
            · rcases List.mem_cons.mp hk with rfl | hk
              · exact le_rfl
              · have := h5 k hk; omega
          | _ => exact stop _ (by rw [text_bind]; rfl)
        | _ => exact stop _ (by rw [text_bind]; rfl)
      | _ => exact stop _ (by rw [text_bind, res_lmInnerLog, hi]; exact text_lmInnerLog h2 ..)
    | _ => exact stop _ (by rw [text_bind]; rfl)

/-- C87: the log of `SolveByLM` at the levels INFO and DEBUG, whatever the outcome: the equations, the initial values, then the numbers of
the iterations, strictly increasing (rejected steps count too). -/
theorem C87_lm {lvl : LogLevel} (hl : lvl = .info ∨ lvl = .debug) (fmt : α → Str) (cfg : Config α) (hm : cfg.nonlinearMethod = .lm)
    (lsFuel fuel : Nat) {r : ℕ} (f : Matrix (Fin r) (Fin 1) (Expr α)) (s : Str) (hs : (symOf f).toString = .ok s) (t : VarsTable α)
    (ht : 0 < t.varNums) : ∃ ks : List ℕ, (solveLog lvl fmt cfg lsFuel fuel (symOf f) t).text
        = startText "Newton Raphson".toList s t ++ (ks.map roundText).flatten ∧ ks.Pairwise (· < ·) := by
  have h1 : LogLevel.info.rank ≤ lvl.rank := by rcases hl with rfl | rfl <;> decide
  have h2 : lvl.rank < LogLevel.trace.rank := by rcases hl with rfl | rfl <;> decide
  have hnew : ∃ z, Mat.new t.varNums 1 (Arith.zero : α) = .ok z := by
    unfold Mat.new
    rw [if_pos ⟨ht, Nat.one_pos⟩]
    exact ⟨_, rfl⟩
  obtain ⟨z, hz⟩ := hnew
  unfold solveLog
  rw [hm]
  simp only
  unfold solveByLMLog
  have e : (quiet (Res.ok z)).text = [] := rfl
  rw [hz, text_bind_ok (res_quiet _), text_bind_ok (res_printSolveStartInfo lvl ⟨s, hs⟩ t), text_printSolveStartInfo h1 hs, e, List.nil_append]
  cases hJ : (symOf f).jacobian cfg t.vars with
  | ok J =>
    have e : (quiet (Res.ok J)).text = [] := rfl
    have e' : (printJacobian lvl J).text = [] := atLevel_nil h2 _
    rw [text_bind_ok (res_quiet _), text_bind_ok (res_printJacobian lvl (jacobian_prints cfg f _ J hJ)), e, e', List.nil_append, List.nil_append]
    obtain ⟨ks, h3, h4, _⟩ := lmOuter_log h1 h2 fmt cfg lsFuel fuel (symOf f) J fuel t t.values 0
    refine ⟨ks, ?_, h4⟩
    rw [text_bind]
    cases (lmOuterLog lvl fmt cfg lsFuel fuel (symOf f) J fuel t t.values 0).res with
    | ok t' => 
      simp only
      rw [text_bind_ok (res_atLevel (res_say _)), atLevel_nil h2, h3]
      show _ ++ (_ ++ ([] ++ [])) = _
      simp
    | _ => simp only [h3]
  | _ => exact ⟨[], by rw [text_bind]; rfl, .nil⟩

/-! ### what is logged about the last step -/

/-- the line that compares the norms before and after a step that made the norm smaller -/
def betterLine : Str := "\tF(x k+1).Norm2()\t<\tF(x k).Norm2()\t\n".toList

theorem text_printLMStep_better {lvl : LogLevel} (hl : LogLevel.trace.rank ≤ lvl.rank) (fmt : α → Str) (it : Nat) (alpha mu : α)
    (F FNew : Mat α) {n0 n1 : α} (h0 : F.norm2 = .ok n0) (h1 : FNew.norm2 = .ok n1) (h : Arith.lt n1 n0 = true) :
    ∃ pre, (printLMStep lvl fmt it alpha mu F FNew).text = pre ++ betterLine := by
  have e : ("\tF(x k+1).Norm2()\t".toList ++ ['<'] ++ "\tF(x k).Norm2()\t\n".toList) = betterLine := by
    unfold betterLine; decide
  unfold printLMStep atLevel
  rw [if_pos hl]
  simp only [text_bind, res_say, res_quiet, h0, h1, h, if_true, say, e]
  simp only [← List.append_assoc]
  exact ⟨_, rfl⟩

/-- a step that is accepted has been logged as making the norm smaller -/
theorem lmInner_better {lvl : LogLevel} (hl : LogLevel.trace.rank ≤ lvl.rank) (fmt : α → Str) (cfg : Config α) (ls : Nat)
    (eqs ja : SymMat α) (q F : Mat α) : ∀ fuel (t : VarsTable α) (mu : α) (it : Nat) (r : Mat α × Mat α × VarsTable α × Nat),
      (lmInnerLog lvl fmt cfg ls eqs ja q F fuel t mu it).res = .ok r →
      ∃ pre, (lmInnerLog lvl fmt cfg ls eqs ja q F fuel t mu it).text = pre ++ betterLine := by
  have step : ∀ {β γ : Type} {m : Out β} {f : β → Out γ} {r : γ}, (m >>= f).res = .ok r →
      (∀ b, (f b).res = .ok r → ∃ pre, (f b).text = pre ++ betterLine) → ∃ pre, (m >>= f).text = pre ++ betterLine := by
    intro β γ m f r h hf
    rw [res_bind] at h
    obtain ⟨b, hb, h⟩ := Res.bind_eq_ok.mp h
    obtain ⟨pre, hp⟩ := hf b h
    rw [text_bind_ok hb, hp]
    exact ⟨m.text ++ pre, by rw [List.append_assoc]⟩
  intro fuel
  induction fuel with
  | zero => intro t mu it r h; cases h
  | succ fuel ih =>
    intro t mu it r h
    unfold lmInnerLog at h ⊢
    refine step h fun _ h => ?_
    refine step h fun _ h => ?_
    refine step h fun _ h => ?_
    refine step h fun _ h => ?_
    refine step h fun _ h => ?_
    refine step h fun _ h => ?_
    refine step h fun _ h => ?_
    refine step h fun _ h => ?_
    refine step h fun _ h => ?_
    refine step h fun _ h => ?_
    refine step h fun _ h => ?_
    refine step h fun _ h => ?_
    refine step h fun _ h => ?_
    refine step h fun _ h => ?_
    refine step h fun FNew h => ?_
    -- the log of the step, the two norms, the decision
    rw [res_bind] at h
    obtain ⟨_, hb, h⟩ := Res.bind_eq_ok.mp h
    rw [res_bind, res_quiet] at h
    obtain ⟨n1, h1, h⟩ := Res.bind_eq_ok.mp h
    rw [res_bind, res_quiet] at h
    obtain ⟨n0, h0, h⟩ := Res.bind_eq_ok.mp h
    have e1 : ∀ v : α, (quiet (Res.ok v)).text = [] := fun _ => rfl
    rw [text_bind_ok hb, h1, text_bind_ok (res_quiet _), h0, text_bind_ok (res_quiet _), e1, e1, List.nil_append, List.nil_append]
    by_cases hlt : Arith.lt n1 n0 = true
    · obtain ⟨pre, hp⟩ := text_printLMStep_better hl fmt it _ mu F FNew h0 h1 hlt
      rw [hp, if_pos hlt]
      exact ⟨pre, by show _ ++ [] = _; rw [List.append_nil]⟩
    · rw [if_neg hlt] at h ⊢
      by_cases hit : (it : Int) = cfg.maxIterations
      · rw [if_pos hit] at h; cases h
      · rw [if_neg hit] at h ⊢
        obtain ⟨pre, hp⟩ := ih _ _ _ _ h
        rw [hp]
        exact ⟨_, by rw [List.append_assoc]⟩

/-- the end of the log of the outer loop, when it returns: only the first round, or a step that made the norm smaller and one more round -/
theorem lmOuter_better {lvl : LogLevel} (hl : LogLevel.trace.rank ≤ lvl.rank) (fmt : α → Str) (cfg : Config α) (ls inner : Nat)
    (eqs ja : SymMat α) : ∀ fuel (t : VarsTable α) (q : Mat α) (it : Nat) (t' : VarsTable α),
      (lmOuterLog lvl fmt cfg ls inner eqs ja fuel t q it).res = .ok t' →
      ∃ F, evalVec cfg eqs t' = .ok F ∧ F.eqNum cfg.epsilon (Dbl.ofInt 0) = true ∧
      ((t' = t ∧ (lmOuterLog lvl fmt cfg ls inner eqs ja fuel t q it).text = roundText it ++ ("F = ".toList ++ F.toString ++ ['\n'])) ∨
        ∃ pre k, it < k ∧ (lmOuterLog lvl fmt cfg ls inner eqs ja fuel t q it).text
          = pre ++ betterLine ++ "====================\n".toList ++ roundText k ++ ("F = ".toList ++ F.toString ++ ['\n'])) := by
  have hinfo : LogLevel.info.rank ≤ lvl.rank := le_trans (by decide) hl
  intro fuel
  induction fuel with
  | zero => intro t q it t' h; cases h
  | succ fuel ih =>
    intro t q it t' h
    have hstart : (printAtIterationStart lvl it).text = roundText it := by
      unfold printAtIterationStart atLevel roundText
      rw [if_pos hinfo]
      simp only [text_bind, res_say, say, countText]
    have htrace : ∀ s : Str, (atLevel lvl .trace (say s)).text = s := by
      intro s; unfold atLevel; rw [if_pos hl]; rfl
    have hq : ∀ {β : Type} (r : Res β), (quiet r).text = [] := fun _ => rfl
    unfold lmOuterLog at h ⊢
    rw [res_bind, res_printAtIterationStart, Res.bind_ok, res_bind, res_quiet] at h
    obtain ⟨F, hF, h⟩ := Res.bind_eq_ok.mp h
    rw [text_bind_ok (res_printAtIterationStart lvl it), hstart, hF, text_bind_ok (res_quiet _), text_bind_ok (res_atLevel (res_say _)),
      hq, htrace, List.nil_append]
    rw [res_bind, res_atLevel (res_say _), Res.bind_ok] at h
    by_cases hz : F.eqNum cfg.epsilon (Dbl.ofInt 0) = true
    · rw [if_pos hz] at h ⊢
      cases h
      exact ⟨F, hF, hz, .inl ⟨rfl, by rw [hq, List.append_nil]⟩⟩
    · rw [if_neg hz] at h ⊢
      rw [res_bind] at h
      obtain ⟨⟨d, F', t1, it1⟩, hi, h⟩ := Res.bind_eq_ok.mp h
      have hle : it ≤ it1 := lmInner_it cfg ls eqs ja q F inner t _ it d F' t1 it1 ((res_lmInnerLog ..).symm.trans hi)
      obtain ⟨pre, hp⟩ := lmInner_better hl fmt cfg ls eqs ja q F inner t _ it _ hi
      simp only at h
      rw [res_bind, res_quiet] at h
      obtain ⟨q', hq', h⟩ := Res.bind_eq_ok.mp h
      rw [res_bind, res_quiet] at h
      obtain ⟨t2, ht2, h⟩ := Res.bind_eq_ok.mp h
      rw [text_bind_ok hi, hp]
      simp only
      rw [hq', text_bind_ok (res_quiet _), ht2, text_bind_ok (res_quiet _), hq, hq, List.nil_append, List.nil_append]
      by_cases hm : (it1 : Int) = cfg.maxIterations
      · rw [if_pos hm] at h; cases h
      · rw [if_neg hm] at h ⊢
        rw [res_bind, res_atLevel (res_say _), Res.bind_ok] at h
        rw [text_bind_ok (res_atLevel (res_say _)), htrace]
        obtain ⟨G, hG, hGz, hc⟩ := ih t2 q' (it1 + 1) t' h
        refine ⟨G, hG, hGz, .inr ?_⟩
        rcases hc with ⟨_, hc⟩ | ⟨pre', k, hk, hc⟩
        · rw [hc]
          refine ⟨roundText it ++ ("F = ".toList ++ F.toString ++ ['\n']) ++ pre, it1 + 1, by omega, ?_⟩
          simp only [List.append_assoc]
        · rw [hc]
          refine ⟨roundText it ++ ("F = ".toList ++ F.toString ++ ['\n']) ++ pre ++ betterLine ++ "====================\n".toList ++ pre', k,
            by omega, ?_⟩
          simp only [List.append_assoc]

/-- C87: the end of the log of `SolveByLM` at the levels TRACE and ALL when it returns `t'`: unless the initial values were the answer, the
last step is logged as one that made the norm smaller; then comes the last round with the values of the equations at `t'`, which are zero
within the tolerance, and "success". -/
theorem C87_lastStep {lvl : LogLevel} (hl : LogLevel.trace.rank ≤ lvl.rank) (fmt : α → Str) (cfg : Config α) (hm : cfg.nonlinearMethod = .lm)
    (lsFuel fuel : Nat) {r : ℕ} (f : Matrix (Fin r) (Fin 1) (Expr α)) (t t' : VarsTable α)
    (h : solve cfg lsFuel fuel (symOf f) t = .ok t') :
    ∃ pre k F, (solveLog lvl fmt cfg lsFuel fuel (symOf f) t).text
        = pre ++ roundText k ++ ("F = ".toList ++ F.toString ++ ['\n']) ++ "success\n".toList ∧
      evalVec cfg (symOf f) t' = .ok F ∧ F.eqNum cfg.epsilon (Dbl.ofInt 0) = true ∧
      ((t' = t ∧ k = 0) ∨ ∃ pre', pre = pre' ++ "\tF(x k+1).Norm2()\t<\tF(x k).Norm2()\t\n".toList ++ "====================\n".toList) := by
  have h' := h
  unfold solve at h
  rw [hm] at h
  simp only at h
  unfold solveByLM at h
  obtain ⟨q, hq, h⟩ := Res.bind_eq_ok.mp h
  obtain ⟨J, hJ, h⟩ := Res.bind_eq_ok.mp h
  have hres := (res_lmOuterLog lvl fmt cfg lsFuel fuel (symOf f) J fuel t t.values 0).trans h
  obtain ⟨F, hF, hz, hc⟩ := lmOuter_better hl fmt cfg lsFuel fuel (symOf f) J fuel t t.values 0 t' hres
  unfold solveLog
  rw [hm]
  simp only
  unfold solveByLMLog
  rw [hq, text_bind_ok (res_quiet _), text_bind_ok (res_printSolveStartInfo lvl (prints_symOf f) t), hJ,
    text_bind_ok (res_quiet _), text_bind_ok (res_printJacobian lvl (jacobian_prints cfg f _ J hJ)),
    text_bind_ok hres, text_bind_ok (res_atLevel (res_say _))]
  have e : (atLevel lvl .trace (say "success\n".toList)).text = "success\n".toList := by
    unfold atLevel; rw [if_pos hl]; rfl
  have e' : ∀ t' : VarsTable α, (quiet (Res.ok t')).text = [] := fun _ => rfl
  rw [e, e', List.append_nil]
  generalize "success\n".toList = S
  rcases hc with ⟨ht, hc⟩ | ⟨pre, k, _, hc⟩
  · rw [hc]
    refine ⟨(quiet (Res.ok q)).text ++ (printSolveStartInfo lvl (symOf f) t).text ++ (quiet (Res.ok J)).text ++ (printJacobian lvl J).text,
      0, F, ?_, hF, hz, .inl ⟨ht, rfl⟩⟩
    simp only [List.append_assoc]
  · rw [hc]
    refine ⟨(quiet (Res.ok q)).text ++ (printSolveStartInfo lvl (symOf f) t).text ++ (quiet (Res.ok J)).text ++ (printJacobian lvl J).text
      ++ pre ++ betterLine ++ "====================\n".toList, k, F, ?_, hF, hz, .inr ⟨_, by unfold betterLine; rfl⟩⟩
    simp only [List.append_assoc]

/-! ### a concrete log -/

/-- the equation `x - 3 = 0` -/
def minusThree : Matrix (Fin 1) (Fin 1) (Expr (XNum Rat)) := fun _ _ => .bin .sub (.var ['x']) (.num (.fin 3))

/-- the table `x = 1` -/
def xIsOne : VarsTable (XNum Rat) := ⟨[['x']], ⟨1, 1, [.fin 1]⟩, [(['x'], .fin 1)]⟩

example : xIsOne.Reachable := .ofList (l := [(['x'], XNum.fin 1)]) rfl

/-- C87 on an example: the whole log at level INFO.  The correction 2 is added to 0, not to the initial value 1 (C44). -/
theorem C87_example : (solveLog .info (fun _ => []) defaultConfig 0 0 (symOf minusThree) xIsOne).text =
    ("Solve start.\n  Method: Newton Raphson\nEquations:\n[x-3]\nInital Values:\nx = 1\n" ++
    "====================\niteration times = 0\nphi = \n[-2]\n" ++
    "====================\niteration times = 1\nphi = \n[-1]\n" ++
    "====================\niteration times = 2\nphi = \n[0]\n").toList := by
  decide +kernel

/-- a case for `C87_success` and `C87_lastStep`: Levenberg-Marquardt solves `x - 3 = 0` with the tolerance 0.001 -/
example : ∃ t', solve { defaultConfig with nonlinearMethod := .lm, epsilon := .fin (1 / 1000) } 20 20 (symOf minusThree) xIsOne = .ok t' ∧
    t' ≠ xIsOne := by
  have h : (match solve { defaultConfig with nonlinearMethod := .lm, epsilon := .fin (1 / 1000) } 20 20 (symOf minusThree) xIsOne with
    | .ok t' => decide (t' ≠ xIsOne)
    | _ => false) = true := by decide +kernel
  revert h
  cases solve { defaultConfig with nonlinearMethod := .lm, epsilon := .fin (1 / 1000) } 20 20 (symOf minusThree) xIsOne with
  | ok t' => intro h; exact ⟨t', rfl, of_decide_eq_true h⟩
  | _ => intro h; cases h

example : (solveLog .warn (fun _ => []) defaultConfig 0 0 (symOf minusThree) xIsOne).text = [] ∧
    (solveLog .info (fun _ => []) defaultConfig 0 0 (symOf minusThree) xIsOne).res =
      .ok ⟨[['x']], ⟨1, 1, [.fin 3]⟩, [(['x'], .fin 3)]⟩ := by
  decide +kernel

example : 0 < xIsOne.varNums := by decide

end Tom
