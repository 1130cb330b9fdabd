import Verif.Lemmas.Fine
import Verif.Model.SolveMessages
/-
Which functions throw no exception.
-/
set_option linter.unusedSectionVars false
namespace Tom
variable {α : Type} [Arith α] {β γ : Type}

/-- no exception -/
def Res.Still (r : Res β) : Prop := ∀ e, r ≠ .throw e

theorem still_ok (b : β) : (Res.ok b).Still := fun _ => by simp
theorem still_ub : (Res.ub : Res β).Still := fun _ => by simp
theorem still_assertFail : (Res.assertFail : Res β).Still := fun _ => by simp
theorem still_diverge : (Res.diverge : Res β).Still := fun _ => by simp
theorem still_noexcept (r : Res β) : r.noexcept.Still := fun e => by cases r <;> simp [Res.noexcept]

theorem still_bind {r : Res β} {f : β → Res γ} (h : r.Still) (hf : ∀ b, r = .ok b → (f b).Still) : (r >>= f).Still := by
  cases r with
  | ok b => exact hf b rfl
  | throw e => exact absurd rfl (h e)
  | ub => exact still_ub
  | assertFail => exact still_assertFail
  | terminate => exact fun _ h => by cases h
  | diverge => exact still_diverge

theorem still_ite {c : Prop} [Decidable c] {a b : Res β} (ha : a.Still) (hb : b.Still) : (if c then a else b).Still := by
  split <;> assumption
theorem still_forRes {σ ι : Type} {f : σ → ι → Res σ} (h : ∀ s i, (f s i).Still) (l : List ι) (s : σ) : (forRes f l s).Still := by
  induction l generalizing s with
  | nil => exact still_ok s
  | cons i l ih => exact still_bind (h s i) fun s' _ => ih s'
theorem still_readAt (d : List β) (i : Nat) : (readAt d i).Still := by
  unfold readAt; cases d[i]? with
  | some v => exact still_ok v
  | none => exact still_ub
theorem still_writeAt (d : List β) (i : Nat) (v : β) : (writeAt d i v).Still := still_ite (still_ok _) still_ub
theorem still_readAll (d : List β) (is : List Nat) : (readAll d is).Still := by
  induction is with
  | nil => exact still_ok _
  | cons i is ih => exact still_bind (still_readAt d i) fun _ _ => still_bind ih fun _ _ => still_ok _
theorem still_writeAll (is : List Nat) : ∀ (d : List β) (vs : List β), (writeAll d is vs).Still := by
  induction is with
  | nil => intro d vs; cases vs <;> first | exact still_ok _ | exact still_ub
  | cons i is ih =>
    intro d vs
    cases vs with
    | nil => exact still_ub
    | cons v vs => exact still_bind (still_writeAt d i v) fun d' _ => ih d' vs
theorem still_zipV (f : β → β → β) (a b : List β) : (zipV f a b).Still := still_ite (still_ok _) still_ub
theorem still_sumV (l : List α) : (sumV l).Still := by cases l <;> first | exact still_ok _ | exact still_ub
theorem still_maxV (l : List α) : (maxV l).Still := by cases l <;> first | exact still_ok _ | exact still_ub
theorem still_new (r c : Nat) (v : α) : (Mat.new r c v).Still := still_ite (still_ok _) still_assertFail
theorem still_value (m : Mat α) (i j : Nat) : (m.value i j).Still := still_readAt _ _
theorem still_at (m : Mat α) (i : Nat) : (m.at_ i).Still := still_readAt _ _
theorem still_row (m : Mat α) (i o : Nat) : (m.row i o).Still := still_readAll _ _
theorem still_col (m : Mat α) (i o : Nat) : (m.col i o).Still := still_readAll _ _
theorem still_setRow (m : Mat α) (i o : Nat) (vs : List α) : (m.setRow i o vs).Still :=
  still_bind (still_writeAll _ _ _) fun _ _ => still_ok _
theorem still_setValue (m : Mat α) (i j : Nat) (v : α) : (m.setValue i j v).Still :=
  still_bind (still_writeAt _ _ _) fun _ _ => still_ok _
theorem still_setAt (m : Mat α) (i : Nat) (v : α) : (m.setAt i v).Still :=
  still_bind (still_writeAt _ _ _) fun _ _ => still_ok _
theorem still_add (a b : Mat α) : (a.add b).Still := still_ite (still_bind (still_zipV _ _ _) fun _ _ => still_ok _) still_assertFail
theorem still_mul (a b : Mat α) : (a.mul b).Still :=
  still_ite (still_bind (still_new _ _ _) fun _ _ => still_forRes (fun _ _ => still_forRes (fun _ _ =>
    still_bind (still_row _ _ _) fun _ _ => still_bind (still_col _ _ _) fun _ _ => still_bind (still_zipV _ _ _) fun _ _ =>
    still_bind (still_sumV _) fun _ _ => still_setValue _ _ _ _) _ _) _ _) still_assertFail
theorem still_swapRow (m : Mat α) (i j : Nat) : (m.swapRow i j).Still :=
  still_ite (still_ok _) (still_ite (still_bind (still_row _ _ _) fun _ _ => still_bind (still_row _ _ _) fun _ _ =>
    still_bind (still_setRow _ _ _ _) fun _ _ => still_setRow _ _ _ _) still_assertFail)
theorem still_resize (m : Mat α) (i j : Nat) : (m.resize i j).Still :=
  still_ite (still_bind (still_readAll _ _) fun _ _ => still_bind (still_writeAll _ _ _) fun _ _ => still_ok _) still_assertFail
theorem still_ones (m : Mat α) : m.ones.Still := still_ite (still_bind (still_writeAll _ _ _) fun _ _ => still_ok _) still_assertFail
theorem still_norm2 (m : Mat α) : m.norm2.Still := still_sumV _
theorem still_transpose (m : Mat α) : m.transpose.Still :=
  still_bind (still_new _ _ _) fun _ _ => still_forRes (fun _ _ => still_bind (still_col _ _ _) fun _ _ => still_setRow _ _ _ _) _ _
theorem still_getMax (A : Mat α) (s e c : Nat) : (getMaxAbsRowIndex A s e c).Still :=
  still_bind (still_col _ _ _) fun _ _ => still_bind (still_readAll _ _) fun _ _ => still_bind (still_maxV _) fun _ _ => still_ok _
theorem still_bringPivot (A b : Mat α) (y x : Nat) : (bringPivot A b y x).Still :=
  still_bind (still_getMax _ _ _ _) fun _ _ => still_bind (still_swapRow _ _ _) fun _ _ => still_bind (still_swapRow _ _ _) fun _ _ => still_ok _
theorem still_eliminate (eps : α) (A b : Mat α) (y x : Nat) : (eliminate eps A b y x).Still :=
  still_bind (still_value _ _ _) fun _ _ => still_bind (still_row _ _ _) fun _ _ => still_bind (still_setRow _ _ _ _) fun _ _ =>
  still_bind (still_at _ _) fun _ _ => still_bind (still_setAt _ _ _) fun _ _ => still_forRes (fun _ _ =>
    still_bind (still_value _ _ _) fun _ _ => still_ite (still_bind (still_row _ _ _) fun _ _ => still_bind (still_zipV _ _ _) fun _ _ =>
      still_bind (still_setRow _ _ _ _) fun _ _ => still_bind (still_at _ _) fun _ _ => still_bind (still_at _ _) fun _ _ =>
      still_bind (still_setAt _ _ _) fun _ _ => still_ok _) (still_ok _)) _ _
theorem still_placeRows (trn : List Nat) (A b : Mat α) : (placeRows trn A b).Still :=
  still_forRes (fun _ _ => still_bind (still_readAt _ _) fun _ _ => still_ite (still_bind (still_swapRow _ _ _) fun _ _ =>
    still_bind (still_swapRow _ _ _) fun _ _ => still_ok _) (still_ok _)) _ _
theorem still_backSubst (A b ret : Mat α) : (backSubst A b ret).Still :=
  still_forRes (fun _ _ => still_bind (still_row _ _ _) fun _ _ => still_bind (still_col _ _ _) fun _ _ =>
    still_bind (still_zipV _ _ _) fun _ _ => still_bind (still_ite (still_sumV _) (still_ok _)) fun _ _ =>
    still_bind (still_at _ _) fun _ _ => still_setAt _ _ _) _ _

theorem still_findPivot (eps : α) : ∀ fuel (A b : Mat α) (y x : Nat), (findPivot eps fuel A b y x).Still := by
  intro fuel
  induction fuel with
  | zero => intro A b y x; exact still_diverge
  | succ fuel ih =>
    intro A b y x
    refine still_bind (still_value _ _ _) fun v _ => still_ite (still_ite (still_ok _) ?_) (still_ok _)
    exact still_bind (still_bringPivot _ _ _ _) fun Ab _ => ih _ _ _ _

theorem bind_eq_throw {r : Res β} {f : β → Res γ} {e : Exc} (h : (r >>= f) = .throw e) : r = .throw e ∨ ∃ b, r = .ok b ∧ f b = .throw e := by
  cases r with
  | ok b => exact .inr ⟨b, rfl, h⟩
  | throw e' => left; rw [Res.bind_throw] at h; cases h; rfl
  | _ => cases h

theorem still_bind_eq_throw {r : Res β} {f : β → Res γ} {e : Exc} (hr : r.Still) (h : (r >>= f) = .throw e) : ∃ b, r = .ok b ∧ f b = .throw e :=
  (bind_eq_throw h).resolve_left (hr e)

/-- The elimination throws nothing but the exception for contradictory equations. -/
theorem elimLoop_throws (eps : α) : ∀ fuel (s : LinState α) (y x : Nat) (e : Exc), elimLoop eps fuel s y x = .throw e → e = .math .singularMatrix := by
  intro fuel
  induction fuel with
  | zero =>
    intro s y x e h
    unfold elimLoop at h
    split at h <;> cases h
  | succ fuel ih =>
    intro s y x e h
    unfold elimLoop at h
    split at h
    · obtain ⟨Ab, -, h⟩ := still_bind_eq_throw (still_bringPivot _ _ _ _) h
      obtain ⟨Abx, -, h⟩ := still_bind_eq_throw (still_findPivot _ _ _ _ _ _) h
      simp only at h
      split at h
      · obtain ⟨v, -, h⟩ := still_bind_eq_throw (still_at _ _) h
        generalize (if Arith.lt (Arith.abs v) eps = true then y else s.rankAb) = k at h
        split at h
        · cases h; rfl
        · cases h
      · obtain ⟨Ab', -, h⟩ := still_bind_eq_throw (still_eliminate _ _ _ _ _) h
        exact ih _ _ _ _ h
    · cases h

section
variable {α : Type} [Dbl α]

theorem still_mapRes {f : β → Res γ} (h : ∀ b, (f b).Still) (l : List β) : (mapRes f l).Still := by
  induction l with
  | nil => exact still_ok _
  | cons b l ih => exact still_bind (h b) fun _ _ => still_bind ih fun _ _ => still_ok _

theorem still_clone (n : Raw α) : (clone n).Still := by
  have : ∀ fuel (stk : List (Raw α × Path)) root, (cloneLoop fuel stk root).Still := by
    intro fuel
    induction fuel with
    | zero => intro stk root; cases stk <;> first | exact still_ok _ | exact still_diverge
    | succ fuel ih => intro stk root; cases stk <;> first | exact still_ok _ | exact ih _ _
  exact still_ite (this _ _ _) still_ub

theorem still_symClone (m : SymMat α) : m.clone.Still :=
  still_ite (still_bind (still_mapRes still_clone _) fun _ _ => still_ok _) still_assertFail

theorem still_varNames (n : Raw α) : (getAllVarNames n).Still := by
  have : ∀ fuel (stk : List (Raw α)) ret, (varNamesLoop fuel stk ret).Still := by
    intro fuel
    induction fuel with
    | zero => intro stk ret; cases stk <;> first | exact still_ok _ | exact still_diverge
    | succ fuel ih => intro stk ret; cases stk <;> first | exact still_ok _ | exact ih _ _
  exact still_ite (this _ _ _) still_ub

theorem still_symVarNames (m : SymMat α) : m.getAllVarNames.Still :=
  still_forRes (fun _ _ => still_bind (still_varNames _) fun _ _ => still_ok _) _ _

theorem still_setValues (t : VarsTable α) (v : Mat α) : (t.setValues v).Still :=
  still_ite (still_bind (still_forRes (fun _ _ => still_bind (still_readAt _ _) fun _ _ => still_bind (still_at _ _) fun _ _ => still_ok _) _ _)
    fun _ _ => still_ok _) still_assertFail

theorem still_ofVars (vars : List Str) (v : α) : (VarsTable.ofVars vars v).Still :=
  still_bind (still_new _ _ _) fun _ _ => still_ite (still_ok _) still_assertFail

end
end Tom
