import Verif.Model.Logging
import Verif.Lemmas.Nonlinear
import Verif.Lemmas.Print
/-
The log does not influence what the solvers do.
-/
namespace Tom
variable {α : Type} [Dbl α] {β γ : Type}

namespace Out

theorem res_bind (m : Out β) (f : β → Out γ) : (m >>= f).res = m.res >>= fun b => (f b).res := by
  show (Out.bind m f).res = Res.bind m.res _
  unfold Out.bind Res.bind
  cases m.res <;> rfl

theorem res_pure (b : β) : (pure b : Out β).res = .ok b := rfl

theorem res_quiet (r : Res β) : (quiet r).res = r := rfl

theorem res_say (s : Str) : (say s).res = .ok () := rfl

theorem res_atLevel {l l' : LogLevel} {m : Out Unit} (h : m.res = .ok ()) : (atLevel l l' m).res = .ok () := by
  unfold atLevel; split
  · exact h
  · rfl

theorem text_bind (m : Out β) (f : β → Out γ) : (m >>= f).text = match m.res with
    | .ok b => m.text ++ (f b).text
    | _ => m.text := by
  show (Out.bind m f).text = _
  unfold Out.bind
  cases m.res <;> rfl

theorem text_bind_ok {m : Out β} {b : β} (h : m.res = .ok b) (f : β → Out γ) : (m >>= f).text = m.text ++ (f b).text := by
  rw [text_bind, h]

/-- the same outcome, and at most as much text -/
def Le (m m' : Out β) : Prop := m.res = m'.res ∧ m.text.Sublist m'.text

theorem Le.refl (m : Out β) : Le m m := ⟨rfl, List.Sublist.refl _⟩

theorem Le.bind {m m' : Out β} {f f' : β → Out γ} (h : Le m m') (hf : ∀ b, m.res = .ok b → Le (f b) (f' b)) : Le (m >>= f) (m' >>= f') := by
  obtain ⟨h1, h2⟩ := h
  refine ⟨?_, ?_⟩
  · rw [res_bind, res_bind, ← h1]
    cases hm : m.res <;> try rfl
    rename_i b
    exact (hf b hm).1
  · rw [text_bind, text_bind, ← h1]
    cases hm : m.res <;> try exact h2
    rename_i b
    exact h2.append (hf b hm).2

/-- nothing is written -/
theorem text_bind_nil {m : Out β} {f : β → Out γ} (h : m.text = []) (hf : ∀ b, (f b).text = []) : (m >>= f).text = [] := by
  rw [text_bind]
  cases hm : m.res <;> simp only [h]
  rename_i b
  rw [hf, List.nil_append]

theorem atLevel_mono {l l' x : LogLevel} (h : l.rank ≤ l'.rank) {m : Out Unit} (hm : m.res = .ok ()) :
    Le (atLevel l x m) (atLevel l' x m) := by
  refine ⟨by rw [res_atLevel hm, res_atLevel hm], ?_⟩
  unfold atLevel
  by_cases h1 : x.rank ≤ l.rank
  · rw [if_pos h1, if_pos (h1.trans h)]
  · rw [if_neg h1]; exact List.nil_sublist _

theorem atLevel_nil {l x : LogLevel} (h : l.rank < x.rank) (m : Out Unit) : (atLevel l x m).text = [] := by
  unfold atLevel
  rw [if_neg (by omega)]

end Out

open Out

theorem res_solveLinearLog (lvl : LogLevel) (cfg : Config α) (A b : Mat α) : (solveLinearLog lvl cfg A b).res = solveLinear cfg A b := by
  unfold solveLinearLog
  rw [res_bind, res_atLevel (by simp only [res_bind, res_say, Res.bind_ok]), Res.bind_ok, res_quiet]

theorem res_printAtIterationStart (lvl : LogLevel) (it : Nat) : (printAtIterationStart lvl it).res = .ok () :=
  res_atLevel (by simp only [res_bind, res_say, Res.bind_ok])

/-- the text of the equations can be written -/
def Prints (m : SymMat α) : Prop := ∃ s, m.toString = .ok s

theorem prints_symOf {r c : ℕ} (E : Matrix (Fin r) (Fin c) (Expr α)) : Prints (symOf E) := by
  unfold Prints SymMat.toString symOf
  simp only
  rw [mapRes_map, mapRes_eq_ok.mpr (forall₂_entries (R := fun e s => toStringNode (embed e) = Res.ok s)
    (B := Matrix.of fun i j => infixText none (E i j)) |>.mpr fun i j => toString_embed (E i j)), Res.bind_ok]
  exact ⟨_, rfl⟩

theorem res_printSolveStartInfo (lvl : LogLevel) {eqs : SymMat α} (h : Prints eqs) (t : VarsTable α) :
    (printSolveStartInfo lvl eqs t).res = .ok () := by
  obtain ⟨s, hs⟩ := h
  exact res_atLevel (by simp only [res_bind, res_say, res_quiet, hs, Res.noexcept_ok, Res.bind_ok])

theorem res_printJacobian (lvl : LogLevel) {ja : SymMat α} (h : Prints ja) : (printJacobian lvl ja).res = .ok () := by
  obtain ⟨s, hs⟩ := h
  exact res_atLevel (by simp only [res_bind, res_say, res_quiet, hs, Res.noexcept_ok, Res.bind_ok])

theorem norm2_cases (m : Mat α) : (∃ v, m.norm2 = .ok v) ∨ m.norm2 = .ub := by
  unfold Mat.norm2 sumV
  split
  · exact .inr rfl
  · exact .inl ⟨_, rfl⟩

theorem res_printLMStep (lvl : LogLevel) (fmt : α → Str) (it : Nat) (alpha mu : α) (F FNew : Mat α) {n0 n1 : α} (h0 : F.norm2 = .ok n0)
    (h1 : FNew.norm2 = .ok n1) : (printLMStep lvl fmt it alpha mu F FNew).res = .ok () :=
  res_atLevel (by simp only [res_bind, res_say, res_quiet, h0, h1, Res.bind_ok])

theorem res_printLMStep_bind (lvl : LogLevel) (fmt : α → Str) (it : Nat) (alpha mu : α) (F FNew : Mat α) {γ : Type} (k : α → α → Res γ) :
    ((printLMStep lvl fmt it alpha mu F FNew).res >>= fun _ => (FNew.norm2 >>= fun a => F.norm2 >>= fun b => k a b))
      = (FNew.norm2 >>= fun a => F.norm2 >>= fun b => k a b) := by
  rcases norm2_cases F with ⟨n0, h0⟩ | h0 <;> rcases norm2_cases FNew with ⟨n1, h1⟩ | h1
  · rw [res_printLMStep lvl fmt it alpha mu F FNew h0 h1]; rfl
  all_goals
    unfold printLMStep atLevel
    split
    · simp only [res_bind, res_say, res_quiet, h0, h1, Res.bind_ok]; rfl
    · rw [h1, h0]; rfl

theorem res_newtonLoopLog (lvl : LogLevel) (cfg : Config α) (eqs ja : SymMat α) : ∀ fuel it (t : VarsTable α) (q : Mat α),
    (newtonLoopLog lvl cfg eqs ja fuel it t q).res = newtonLoop cfg eqs ja fuel it t q := by
  intro fuel
  induction fuel with
  | zero => intro it t q; rfl
  | succ fuel ih =>
    intro it t q
    unfold newtonLoopLog newtonLoop
    rw [res_bind, res_printAtIterationStart, Res.bind_ok, res_bind, res_quiet]
    congr 1
    funext phi
    rw [res_bind, res_atLevel (res_say _), Res.bind_ok]
    split
    · rfl
    split
    · rfl
    rw [res_bind, res_quiet]
    congr 1
    funext j
    rw [res_bind, res_solveLinearLog]
    congr 1
    funext dq
    rw [res_bind, res_atLevel (res_say _), Res.bind_ok, res_bind, res_quiet]
    congr 1
    funext q'
    rw [res_bind, res_atLevel (by simp only [res_bind, res_say, Res.bind_ok]), Res.bind_ok, res_bind, res_quiet]
    congr 1
    funext t'
    exact ih _ _ _

theorem res_lmInnerLog (lvl : LogLevel) (fmt : α → Str) (cfg : Config α) (ls : Nat) (eqs ja : SymMat α) (q F : Mat α) :
    ∀ fuel (t : VarsTable α) (mu : α) (it : Nat),
    (lmInnerLog lvl fmt cfg ls eqs ja q F fuel t mu it).res = lmInner cfg ls eqs ja q F fuel t mu it := by
  intro fuel
  induction fuel with
  | zero => intro t mu it; rfl
  | succ fuel ih =>
    intro t mu it
    unfold lmInnerLog lmInner
    rw [res_bind, res_quiet]; congr 1; funext j
    rw [res_bind, res_atLevel (res_say _), Res.bind_ok, res_bind, res_quiet]; congr 1; funext jt
    rw [res_bind, res_quiet]; congr 1; funext jtj
    rw [res_bind, res_quiet]; congr 1; funext z
    rw [res_bind, res_quiet]; congr 1; funext one
    rw [res_bind, res_quiet]; congr 1; funext m
    rw [res_bind, res_quiet]; congr 1; funext g
    rw [res_bind, res_quiet]; congr 1; funext g'
    rw [res_bind, res_solveLinearLog]; congr 1; funext d
    rw [res_bind, res_atLevel (res_say _), Res.bind_ok, res_bind, res_quiet]; congr 1; funext alpha
    rw [res_bind, res_quiet]; congr 1; funext qT
    rw [res_bind, res_quiet]; congr 1; funext t'
    rw [res_bind, res_quiet]; congr 1; funext FN
    rw [res_bind]
    simp only [res_bind, res_quiet]
    rw [res_printLMStep_bind]
    congr 1; funext nN
    congr 1; funext nO
    split
    · rfl
    split
    · rfl
    exact ih _ _ _

theorem res_lmOuterLog (lvl : LogLevel) (fmt : α → Str) (cfg : Config α) (ls inner : Nat) (eqs ja : SymMat α) :
    ∀ fuel (t : VarsTable α) (q : Mat α) (it : Nat),
    (lmOuterLog lvl fmt cfg ls inner eqs ja fuel t q it).res = lmOuter cfg ls inner eqs ja fuel t q it := by
  intro fuel
  induction fuel with
  | zero => intro t q it; rfl
  | succ fuel ih =>
    intro t q it
    unfold lmOuterLog lmOuter
    rw [res_bind, res_printAtIterationStart, Res.bind_ok, res_bind, res_quiet]; congr 1; funext F
    rw [res_bind, res_atLevel (res_say _), Res.bind_ok]
    split
    · rfl
    rw [res_bind, res_lmInnerLog]; congr 1; funext ⟨dq, FN, t1, it1⟩
    simp only
    rw [res_bind, res_quiet]; congr 1; funext q'
    rw [res_bind, res_quiet]; congr 1; funext t'
    split
    · rfl
    rw [res_bind, res_atLevel (res_say _), Res.bind_ok]
    exact ih _ _ _

/-! ### more log levels, more text -/

theorem le_solveLinearLog {l l' : LogLevel} (h : l.rank ≤ l'.rank) (cfg : Config α) (A b : Mat α) :
    Le (solveLinearLog l cfg A b) (solveLinearLog l' cfg A b) :=
  (atLevel_mono h (by simp only [res_bind, res_say, Res.bind_ok])).bind fun _ _ => .refl _

theorem le_printAtIterationStart {l l' : LogLevel} (h : l.rank ≤ l'.rank) (it : Nat) :
    Le (printAtIterationStart l it) (printAtIterationStart l' it) :=
  atLevel_mono h (by simp only [res_bind, res_say, Res.bind_ok])

theorem le_say {l l' x : LogLevel} (h : l.rank ≤ l'.rank) (s : Str) : Le (atLevel l x (say s)) (atLevel l' x (say s)) :=
  atLevel_mono h rfl

theorem le_printSolveStartInfo {l l' : LogLevel} (h : l.rank ≤ l'.rank) {eqs : SymMat α} (hp : Prints eqs) (t : VarsTable α) :
    Le (printSolveStartInfo l eqs t) (printSolveStartInfo l' eqs t) := by
  obtain ⟨s, hs⟩ := hp
  exact atLevel_mono h (by simp only [res_bind, res_say, res_quiet, hs, Res.noexcept_ok, Res.bind_ok])

theorem le_printJacobian {l l' : LogLevel} (h : l.rank ≤ l'.rank) {ja : SymMat α} (hp : Prints ja) :
    Le (printJacobian l ja) (printJacobian l' ja) := by
  obtain ⟨s, hs⟩ := hp
  exact atLevel_mono h (by simp only [res_bind, res_say, res_quiet, hs, Res.noexcept_ok, Res.bind_ok])

theorem le_newtonLoopLog {l l' : LogLevel} (h : l.rank ≤ l'.rank) (cfg : Config α) (eqs ja : SymMat α) :
    ∀ fuel it (t : VarsTable α) (q : Mat α), Le (newtonLoopLog l cfg eqs ja fuel it t q) (newtonLoopLog l' cfg eqs ja fuel it t q) := by
  intro fuel
  induction fuel with
  | zero => intro it t q; exact .refl _
  | succ fuel ih =>
    intro it t q
    unfold newtonLoopLog
    refine (le_printAtIterationStart h it).bind fun _ _ => (Le.refl _).bind fun phi _ => (le_say h _).bind fun _ _ => ?_
    split
    · exact .refl _
    split
    · exact .refl _
    refine (Le.refl _).bind fun j _ => (le_solveLinearLog h cfg j _).bind fun dq _ => (le_say h _).bind fun _ _ =>
      (Le.refl _).bind fun q' _ => (atLevel_mono h (by simp only [res_bind, res_say, Res.bind_ok])).bind fun _ _ =>
      (Le.refl _).bind fun t' _ => ih _ _ _

theorem le_lmInnerLog {l l' : LogLevel} (h : l.rank ≤ l'.rank) (fmt : α → Str) (cfg : Config α) (ls : Nat) (eqs ja : SymMat α)
    (q F : Mat α) : ∀ fuel (t : VarsTable α) (mu : α) (it : Nat),
    Le (lmInnerLog l fmt cfg ls eqs ja q F fuel t mu it) (lmInnerLog l' fmt cfg ls eqs ja q F fuel t mu it) := by
  intro fuel
  induction fuel with
  | zero => intro t mu it; exact .refl _
  | succ fuel ih =>
    intro t mu it
    unfold lmInnerLog
    refine (Le.refl _).bind fun j _ => (le_say h _).bind fun _ _ => (Le.refl _).bind fun jt _ => (Le.refl _).bind fun jtj _ =>
      (Le.refl _).bind fun z _ => (Le.refl _).bind fun one _ => (Le.refl _).bind fun m _ => (Le.refl _).bind fun g _ =>
      (Le.refl _).bind fun g' _ => (le_solveLinearLog h cfg m _).bind fun d _ => (le_say h _).bind fun _ _ =>
      (Le.refl _).bind fun alpha _ => (Le.refl _).bind fun qT _ => (Le.refl _).bind fun t' _ => (Le.refl _).bind fun FN _ => ?_
    have hk : ∀ (nN nO : α), Le
        (if Arith.lt nN nO then quiet (.ok (Mat.scaleLeft alpha d, FN, t', it)) else if (it : Int) = cfg.maxIterations then quiet (.throw .runtime)
          else lmInnerLog l fmt cfg ls eqs ja q F fuel t' (Arith.mul mu (Dbl.ofInt 10)) (it + 1))
        (if Arith.lt nN nO then quiet (.ok (Mat.scaleLeft alpha d, FN, t', it)) else if (it : Int) = cfg.maxIterations then quiet (.throw .runtime)
          else lmInnerLog l' fmt cfg ls eqs ja q F fuel t' (Arith.mul mu (Dbl.ofInt 10)) (it + 1)) := by
      intro nN nO
      split
      · exact .refl _
      split
      · exact .refl _
      exact ih _ _ _
    have hrest := (Le.refl (quiet FN.norm2)).bind fun nN _ => (Le.refl (quiet F.norm2)).bind fun nO _ => hk nN nO
    rcases norm2_cases F with ⟨n0, h0⟩ | h0 <;> rcases norm2_cases FN with ⟨n1, h1⟩ | h1
    · exact (atLevel_mono h (by simp only [res_bind, res_say, res_quiet, h0, h1, Res.bind_ok])).bind fun _ _ => hrest
    all_goals
      refine ⟨?_, ?_⟩
      · simp only [res_bind, res_quiet]
        rw [res_printLMStep_bind, res_printLMStep_bind]
        simpa only [res_bind, res_quiet] using hrest.1
      · unfold printLMStep atLevel
        by_cases hl : LogLevel.trace.rank ≤ l.rank
        · rw [if_pos hl, if_pos (hl.trans h)]
          exact ((Le.refl _).bind fun _ _ => hrest).2
        · rw [if_neg hl]
          simp [text_bind, quiet, h0, h1]

theorem le_lmOuterLog {l l' : LogLevel} (h : l.rank ≤ l'.rank) (fmt : α → Str) (cfg : Config α) (ls inner : Nat) (eqs ja : SymMat α) :
    ∀ fuel (t : VarsTable α) (q : Mat α) (it : Nat),
    Le (lmOuterLog l fmt cfg ls inner eqs ja fuel t q it) (lmOuterLog l' fmt cfg ls inner eqs ja fuel t q it) := by
  intro fuel
  induction fuel with
  | zero => intro t q it; exact .refl _
  | succ fuel ih =>
    intro t q it
    unfold lmOuterLog
    refine (le_printAtIterationStart h it).bind fun _ _ => (Le.refl _).bind fun F _ => (le_say h _).bind fun _ _ => ?_
    split
    · exact .refl _
    refine (le_lmInnerLog h fmt cfg ls eqs ja q F inner t _ it).bind fun ⟨dq, FN, t1, it1⟩ _ => (Le.refl _).bind fun q' _ =>
      (Le.refl _).bind fun t' _ => ?_
    split
    · exact .refl _
    exact (le_say h _).bind fun _ _ => ih _ _ _

/-! ### below INFO nothing is written -/

theorem text_lmInnerLog {l : LogLevel} (h : l.rank < LogLevel.trace.rank) (fmt : α → Str) (cfg : Config α) (ls : Nat) (eqs ja : SymMat α)
    (q F : Mat α) (fuel : Nat) (t : VarsTable α) (mu : α) (it : Nat) : (lmInnerLog l fmt cfg ls eqs ja q F fuel t mu it).text = [] := by
  induction fuel generalizing t mu it with
  | zero => rfl
  | succ fuel ih =>
    unfold lmInnerLog
    refine text_bind_nil rfl fun j => text_bind_nil (atLevel_nil h _) fun _ => text_bind_nil rfl fun jt => text_bind_nil rfl fun jtj =>
      text_bind_nil rfl fun z => text_bind_nil rfl fun one => text_bind_nil rfl fun m => text_bind_nil rfl fun g =>
      text_bind_nil rfl fun g' => text_bind_nil (text_bind_nil (atLevel_nil h _) fun _ => rfl) fun d =>
      text_bind_nil (atLevel_nil h _) fun _ =>
      text_bind_nil rfl fun alpha => text_bind_nil rfl fun qT => text_bind_nil rfl fun t' => text_bind_nil rfl fun FN =>
      text_bind_nil (atLevel_nil h _) fun _ => text_bind_nil rfl fun nN => text_bind_nil rfl fun nO => ?_
    split
    · rfl
    split
    · rfl
    exact ih _ _ _

theorem text_lmOuterLog {l : LogLevel} (h : l.rank < LogLevel.info.rank) (fmt : α → Str) (cfg : Config α) (ls inner : Nat)
    (eqs ja : SymMat α) (fuel : Nat) (t : VarsTable α) (q : Mat α) (it : Nat) :
    (lmOuterLog l fmt cfg ls inner eqs ja fuel t q it).text = [] := by
  have h' : l.rank < LogLevel.trace.rank := lt_of_lt_of_le h (by decide)
  induction fuel generalizing t q it with
  | zero => rfl
  | succ fuel ih =>
    unfold lmOuterLog
    refine text_bind_nil (atLevel_nil h _) fun _ => text_bind_nil rfl fun F => text_bind_nil (atLevel_nil h' _) fun _ => ?_
    split
    · rfl
    refine text_bind_nil (text_lmInnerLog h' ..) fun ⟨dq, FN, t1, it1⟩ => text_bind_nil rfl fun q' => text_bind_nil rfl fun t' => ?_
    split
    · rfl
    exact text_bind_nil (atLevel_nil h' _) fun _ => ih _ _ _

theorem text_newtonLoopLog {l : LogLevel} (h : l.rank < LogLevel.info.rank) (cfg : Config α) (eqs ja : SymMat α) (fuel it : Nat)
    (t : VarsTable α) (q : Mat α) : (newtonLoopLog l cfg eqs ja fuel it t q).text = [] := by
  have h' : l.rank < LogLevel.trace.rank := lt_of_lt_of_le h (by decide)
  induction fuel generalizing t q it with
  | zero => rfl
  | succ fuel ih =>
    unfold newtonLoopLog
    refine text_bind_nil (atLevel_nil h _) fun _ => text_bind_nil rfl fun phi => text_bind_nil (atLevel_nil h _) fun _ => ?_
    split
    · rfl
    split
    · rfl
    exact text_bind_nil rfl fun j => text_bind_nil (text_bind_nil (atLevel_nil h' _) fun _ => rfl) fun dq =>
      text_bind_nil (atLevel_nil h' _) fun _ => text_bind_nil rfl fun q' => text_bind_nil (atLevel_nil h' _) fun _ =>
      text_bind_nil rfl fun t' => ih _ _ _

end Tom
