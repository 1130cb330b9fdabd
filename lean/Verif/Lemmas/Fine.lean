import Verif.Model.Nonlinear
/-
Which outcomes the matrix functions can have: they never loop forever and never terminate the process.
-/
set_option linter.unusedSectionVars false
namespace Tom
variable {α : Type} [Arith α] {β γ : Type}

/-- neither an endless loop nor `std::terminate` -/
def Res.Fine (r : Res β) : Prop := r ≠ .diverge ∧ r ≠ .terminate

theorem fine_ok (b : β) : (Res.ok b).Fine := ⟨by simp, by simp⟩
theorem fine_throw (e : Exc) : (Res.throw e : Res β).Fine := ⟨by simp, by simp⟩
theorem fine_ub : (Res.ub : Res β).Fine := ⟨by simp, by simp⟩
theorem fine_assertFail : (Res.assertFail : Res β).Fine := ⟨by simp, by simp⟩

theorem fine_bind {r : Res β} {f : β → Res γ} (h : r.Fine) (hf : ∀ b, r = .ok b → (f b).Fine) : (r >>= f).Fine := by
  cases r with
  | ok b => exact hf b rfl
  | throw e => exact fine_throw e
  | ub => exact fine_ub
  | assertFail => exact fine_assertFail
  | terminate => exact absurd rfl h.2
  | diverge => exact absurd rfl h.1

theorem fine_ite {c : Prop} [Decidable c] {a b : Res β} (ha : a.Fine) (hb : b.Fine) : (if c then a else b).Fine := by
  split <;> assumption

theorem fine_forRes {σ ι : Type} {f : σ → ι → Res σ} (h : ∀ s i, (f s i).Fine) (l : List ι) (s : σ) : (forRes f l s).Fine := by
  induction l generalizing s with
  | nil => exact fine_ok s
  | cons i l ih => exact fine_bind (h s i) fun s' _ => ih s'

theorem fine_readAt (d : List β) (i : Nat) : (readAt d i).Fine := by
  unfold readAt; cases d[i]? with
  | some v => exact fine_ok v
  | none => exact fine_ub

theorem fine_writeAt (d : List β) (i : Nat) (v : β) : (writeAt d i v).Fine := fine_ite (fine_ok _) fine_ub

theorem fine_readAll (d : List β) (is : List Nat) : (readAll d is).Fine := by
  induction is with
  | nil => exact fine_ok _
  | cons i is ih => exact fine_bind (fine_readAt d i) fun _ _ => fine_bind ih fun _ _ => fine_ok _

theorem fine_writeAll (is : List Nat) : ∀ (d : List β) (vs : List β), (writeAll d is vs).Fine := by
  induction is with
  | nil => intro d vs; cases vs <;> first | exact fine_ok _ | exact fine_ub
  | cons i is ih =>
    intro d vs
    cases vs with
    | nil => exact fine_ub
    | cons v vs => exact fine_bind (fine_writeAt d i v) fun d' _ => ih d' vs

theorem fine_zipV (f : β → β → β) (a b : List β) : (zipV f a b).Fine := fine_ite (fine_ok _) fine_ub

theorem fine_sumV (l : List α) : (sumV l).Fine := by cases l <;> first | exact fine_ok _ | exact fine_ub
theorem fine_maxV (l : List α) : (maxV l).Fine := by cases l <;> first | exact fine_ok _ | exact fine_ub
theorem fine_minV (l : List α) : (minV l).Fine := by cases l <;> first | exact fine_ok _ | exact fine_ub

theorem fine_new (r c : Nat) (v : α) : (Mat.new r c v).Fine := fine_ite (fine_ok _) fine_assertFail

theorem fine_value (m : Mat α) (i j : Nat) : (m.value i j).Fine := fine_readAt _ _
theorem fine_at (m : Mat α) (i : Nat) : (m.at_ i).Fine := fine_readAt _ _
theorem fine_row (m : Mat α) (i o : Nat) : (m.row i o).Fine := fine_readAll _ _
theorem fine_col (m : Mat α) (i o : Nat) : (m.col i o).Fine := fine_readAll _ _
theorem fine_setRow (m : Mat α) (i o : Nat) (vs : List α) : (m.setRow i o vs).Fine :=
  fine_bind (fine_writeAll _ _ _) fun _ _ => fine_ok _
theorem fine_setValue (m : Mat α) (i j : Nat) (v : α) : (m.setValue i j v).Fine :=
  fine_bind (fine_writeAt _ _ _) fun _ _ => fine_ok _
theorem fine_setAt (m : Mat α) (i : Nat) (v : α) : (m.setAt i v).Fine :=
  fine_bind (fine_writeAt _ _ _) fun _ _ => fine_ok _
theorem fine_add (a b : Mat α) : (a.add b).Fine := fine_ite (fine_bind (fine_zipV _ _ _) fun _ _ => fine_ok _) fine_assertFail
theorem fine_mul (a b : Mat α) : (a.mul b).Fine :=
  fine_ite (fine_bind (fine_new _ _ _) fun _ _ => fine_forRes (fun _ _ => fine_forRes (fun _ _ =>
    fine_bind (fine_row _ _ _) fun _ _ => fine_bind (fine_col _ _ _) fun _ _ => fine_bind (fine_zipV _ _ _) fun _ _ =>
    fine_bind (fine_sumV _) fun _ _ => fine_setValue _ _ _ _) _ _) _ _) fine_assertFail
theorem fine_toVec (m : Mat α) : m.toVec.Fine := fine_ite fine_assertFail (fine_ite (fine_throw _) (fine_ok _))
theorem fine_swapRow (m : Mat α) (i j : Nat) : (m.swapRow i j).Fine :=
  fine_ite (fine_ok _) (fine_ite (fine_bind (fine_row _ _ _) fun _ _ => fine_bind (fine_row _ _ _) fun _ _ =>
    fine_bind (fine_setRow _ _ _ _) fun _ _ => fine_setRow _ _ _ _) fine_assertFail)
theorem fine_resize (m : Mat α) (i j : Nat) : (m.resize i j).Fine :=
  fine_ite (fine_bind (fine_readAll _ _) fun _ _ => fine_bind (fine_writeAll _ _ _) fun _ _ => fine_ok _) fine_assertFail
theorem fine_ones (m : Mat α) : m.ones.Fine := fine_ite (fine_bind (fine_writeAll _ _ _) fun _ _ => fine_ok _) fine_assertFail
theorem fine_norm2 (m : Mat α) : m.norm2.Fine := fine_sumV _
theorem fine_normNegInfinity (m : Mat α) : m.normNegInfinity.Fine := fine_minV _
theorem fine_sub (a b : Mat α) : (a.sub b).Fine := fine_ite (fine_bind (fine_zipV _ _ _) fun _ _ => fine_ok _) fine_assertFail
theorem fine_eachDivide (a b : Mat α) : (eachDivide a b).Fine :=
  fine_ite (fine_bind (fine_zipV _ _ _) fun _ _ => fine_ok _) fine_assertFail
theorem fine_allIsLessThan (a b : Mat α) : (allIsLessThan a b).Fine := fine_ite (fine_ok _) fine_assertFail
theorem fine_transpose (m : Mat α) : m.transpose.Fine :=
  fine_bind (fine_new _ _ _) fun _ _ => fine_forRes (fun _ _ => fine_bind (fine_col _ _ _) fun _ _ => fine_setRow _ _ _ _) _ _
theorem fine_getMax (A : Mat α) (s e c : Nat) : (getMaxAbsRowIndex A s e c).Fine :=
  fine_bind (fine_col _ _ _) fun _ _ => fine_bind (fine_readAll _ _) fun _ _ => fine_bind (fine_maxV _) fun _ _ => fine_ok _
theorem fine_bringPivot (A b : Mat α) (y x : Nat) : (bringPivot A b y x).Fine :=
  fine_bind (fine_getMax _ _ _ _) fun _ _ => fine_bind (fine_swapRow _ _ _) fun _ _ => fine_bind (fine_swapRow _ _ _) fun _ _ => fine_ok _

/-- the size of a matrix -/
def Mat.size (m : Mat α) : Nat × Nat := (m.rows, m.cols)

theorem setRow_size {m m' : Mat α} {i o : Nat} {vs : List α} (h : m.setRow i o vs = .ok m') : m'.size = m.size := by
  obtain ⟨d, _, h⟩ := Res.bind_eq_ok.mp h
  rw [Res.ok.injEq] at h; subst h; rfl

theorem setAt_size {m m' : Mat α} {i : Nat} {v : α} (h : m.setAt i v = .ok m') : m'.size = m.size := by
  obtain ⟨d, _, h⟩ := Res.bind_eq_ok.mp h
  rw [Res.ok.injEq] at h; subst h; rfl

theorem swapRow_size {m m' : Mat α} {i j : Nat} (h : m.swapRow i j = .ok m') : m'.size = m.size := by
  unfold Mat.swapRow at h
  split at h
  · rw [Res.ok.injEq] at h; subst h; rfl
  · split at h
    · obtain ⟨_, _, h⟩ := Res.bind_eq_ok.mp h
      obtain ⟨_, _, h⟩ := Res.bind_eq_ok.mp h
      obtain ⟨_, h1, h⟩ := Res.bind_eq_ok.mp h
      rw [setRow_size h, setRow_size h1]
    · cases h

theorem bringPivot_size {A b A' b' : Mat α} {y x : Nat} (h : bringPivot A b y x = .ok (A', b')) :
    A'.size = A.size ∧ b'.size = b.size := by
  obtain ⟨i, _, h⟩ := Res.bind_eq_ok.mp h
  obtain ⟨_, h1, h⟩ := Res.bind_eq_ok.mp h
  obtain ⟨_, h2, h⟩ := Res.bind_eq_ok.mp h
  rw [Res.ok.injEq, Prod.mk.injEq] at h
  obtain ⟨rfl, rfl⟩ := h
  exact ⟨swapRow_size h1, swapRow_size h2⟩

theorem findPivot_fine (eps : α) : ∀ fuel (A b : Mat α) (y x : Nat), x < A.cols → A.cols < fuel + x → (findPivot eps fuel A b y x).Fine := by
  intro fuel
  induction fuel with
  | zero => intro A b y x h1 h2; omega
  | succ fuel ih =>
    intro A b y x h1 h2
    refine fine_bind (fine_value _ _ _) fun v _ => fine_ite ?_ (fine_ok _)
    split
    · exact fine_ok _
    · refine fine_bind (fine_bringPivot _ _ _ _) fun Ab hp => ?_
      obtain ⟨A', b'⟩ := Ab
      have hs := (bringPivot_size hp).1
      have hc : A'.cols = A.cols := congrArg Prod.snd hs
      exact ih A' b' y (x + 1) (by omega) (by omega)

theorem findPivot_size (eps : α) : ∀ fuel (A b : Mat α) (y x : Nat) (A' b' : Mat α) (x' : Nat),
    findPivot eps fuel A b y x = .ok (A', b', x') → A'.size = A.size ∧ b'.size = b.size := by
  intro fuel
  induction fuel with
  | zero => intro A b y x A' b' x' h; cases h
  | succ fuel ih =>
    intro A b y x A' b' x' h
    obtain ⟨v, _, h⟩ := Res.bind_eq_ok.mp h
    split at h
    · split at h
      · simp only [Res.ok.injEq, Prod.mk.injEq] at h
        obtain ⟨rfl, rfl, _⟩ := h
        exact ⟨rfl, rfl⟩
      · obtain ⟨Ab, hp, h⟩ := Res.bind_eq_ok.mp h
        obtain ⟨A1, b1⟩ := Ab
        obtain ⟨h1, h2⟩ := bringPivot_size hp
        obtain ⟨h3, h4⟩ := ih A1 b1 y (x + 1) A' b' x' h
        exact ⟨h3.trans h1, h4.trans h2⟩
    · simp only [Res.ok.injEq, Prod.mk.injEq] at h
      obtain ⟨rfl, rfl, _⟩ := h
      exact ⟨rfl, rfl⟩

theorem fine_eliminate (eps : α) (A b : Mat α) (y x : Nat) : (eliminate eps A b y x).Fine :=
  fine_bind (fine_value _ _ _) fun _ _ => fine_bind (fine_row _ _ _) fun _ _ => fine_bind (fine_setRow _ _ _ _) fun _ _ =>
  fine_bind (fine_at _ _) fun _ _ => fine_bind (fine_setAt _ _ _) fun _ _ => fine_forRes (fun _ _ =>
    fine_bind (fine_value _ _ _) fun _ _ => fine_ite (fine_bind (fine_row _ _ _) fun _ _ => fine_bind (fine_zipV _ _ _) fun _ _ =>
      fine_bind (fine_setRow _ _ _ _) fun _ _ => fine_bind (fine_at _ _) fun _ _ => fine_bind (fine_at _ _) fun _ _ =>
      fine_bind (fine_setAt _ _ _) fun _ _ => fine_ok _) (fine_ok _)) _ _

theorem forRes_pres {σ ι : Type} {f : σ → ι → Res σ} {P : σ → Prop} (h : ∀ s i s', P s → f s i = .ok s' → P s') :
    ∀ (l : List ι) (s s' : σ), P s → forRes f l s = .ok s' → P s' := by
  intro l
  induction l with
  | nil => intro s s' hs h; rw [forRes, Res.ok.injEq] at h; subst h; exact hs
  | cons i l ih =>
    intro s s' hs hr
    obtain ⟨s1, h1, h2⟩ := Res.bind_eq_ok.mp hr
    exact ih s1 s' (h s i s1 hs h1) h2

theorem eliminate_size {eps : α} {A b A' b' : Mat α} {y x : Nat} (h : eliminate eps A b y x = .ok (A', b')) :
    A'.size = A.size ∧ b'.size = b.size := by
  obtain ⟨_, _, h⟩ := Res.bind_eq_ok.mp h
  obtain ⟨_, _, h⟩ := Res.bind_eq_ok.mp h
  obtain ⟨A1, h1, h⟩ := Res.bind_eq_ok.mp h
  obtain ⟨_, _, h⟩ := Res.bind_eq_ok.mp h
  obtain ⟨b1, h2, h⟩ := Res.bind_eq_ok.mp h
  have := forRes_pres (P := fun s : Mat α × Mat α => s.1.size = A.size ∧ s.2.size = b.size) ?_ _ _ _
    ⟨setRow_size h1, setAt_size h2⟩ h
  · exact this
  · intro s i s' hs hr
    obtain ⟨_, _, hr⟩ := Res.bind_eq_ok.mp hr
    split at hr
    · obtain ⟨_, _, hr⟩ := Res.bind_eq_ok.mp hr
      obtain ⟨_, _, hr⟩ := Res.bind_eq_ok.mp hr
      obtain ⟨_, h3, hr⟩ := Res.bind_eq_ok.mp hr
      obtain ⟨_, _, hr⟩ := Res.bind_eq_ok.mp hr
      obtain ⟨_, _, hr⟩ := Res.bind_eq_ok.mp hr
      obtain ⟨_, h4, hr⟩ := Res.bind_eq_ok.mp hr
      rw [Res.ok.injEq] at hr
      subst hr
      exact ⟨(setRow_size h3).trans hs.1, (setAt_size h4).trans hs.2⟩
    · rw [Res.ok.injEq] at hr; subst hr; exact hs

theorem elimLoop_fine (eps : α) : ∀ fuel (s : LinState α) (y x : Nat), s.A.rows < fuel + y → (elimLoop eps fuel s y x).Fine := by
  intro fuel
  induction fuel with
  | zero =>
    intro s y x h
    unfold elimLoop
    rw [if_neg (by omega)]
    exact fine_ok _
  | succ fuel ih =>
    intro s y x h
    unfold elimLoop
    split
    · rename_i hc
      refine fine_bind (fine_bringPivot _ _ _ _) fun Ab h1 => ?_
      obtain ⟨A, b⟩ := Ab
      have hs := (bringPivot_size h1).1
      have hcols : A.cols = s.A.cols := congrArg Prod.snd hs
      refine fine_bind (findPivot_fine eps _ A b y x (by omega) (by omega)) fun Abx h2 => ?_
      obtain ⟨A', b', x'⟩ := Abx
      have hs' := (findPivot_size eps _ _ _ _ _ _ _ _ h2).1
      simp only
      split
      · refine fine_bind (fine_at _ _) fun v _ => fine_ite (fine_throw _) (fine_ok _)
      · refine fine_bind (fine_eliminate _ _ _ _ _) fun Ab3 h3 => ?_
        obtain ⟨A3, b3⟩ := Ab3
        have hs3 := (eliminate_size h3).1
        have hr : A3.rows = s.A.rows := congrArg Prod.fst ((hs3.trans hs').trans hs)
        refine ih _ _ _ ?_
        simp only [hr]
        omega
    · exact fine_ok _

theorem fine_placeRows (trn : List Nat) (A b : Mat α) : (placeRows trn A b).Fine :=
  fine_forRes (fun _ _ => fine_bind (fine_readAt _ _) fun _ _ => fine_ite (fine_bind (fine_swapRow _ _ _) fun _ _ =>
    fine_bind (fine_swapRow _ _ _) fun _ _ => fine_ok _) (fine_ok _)) _ _

theorem fine_backSubst (A b ret : Mat α) : (backSubst A b ret).Fine :=
  fine_forRes (fun _ _ => fine_bind (fine_row _ _ _) fun _ _ => fine_bind (fine_col _ _ _) fun _ _ =>
    fine_bind (fine_zipV _ _ _) fun _ _ => fine_bind (fine_ite (fine_sumV _) (fine_ok _)) fun _ _ =>
    fine_bind (fine_at _ _) fun _ _ => fine_setAt _ _ _) _ _

/-- `SolveLinear` always ends. -/
theorem fine_solveLinear (cfg : Config α) (A b : Mat α) : (solveLinear cfg A b).Fine := by
  unfold solveLinear
  refine fine_ite fine_assertFail (fine_bind (fine_new _ _ _) fun _ _ => fine_ite (fine_throw _)
    (fine_bind (fine_ite (fine_resize _ _ _) (fine_ok _)) fun _ _ => fine_bind (elimLoop_fine _ _ _ _ _ (by simp)) fun _ _ => ?_))
  refine fine_ite (fine_bind (fine_resize _ _ _) fun _ _ => fine_bind (fine_resize _ _ _) fun _ _ =>
    fine_bind (fine_placeRows _ _ _) fun Ab _ => ?_) (fine_bind (fine_backSubst _ _ _) fun _ _ => fine_ite (fine_throw _) (fine_ok _))
  exact fine_bind (fine_backSubst _ _ _) fun _ _ => fine_ite (fine_ite (fine_ok _) (fine_throw _)) (fine_ok _)

end Tom
