import Verif.Model.Tree
/-
Lemmas about paths into trees (references to slots).
-/
set_option linter.unusedSectionVars false
set_option linter.unusedSimpArgs false
namespace Tom
variable {α : Type}

namespace Raw

@[simp] theorem getAt_nilPath (t : Raw α) : t.getAt [] = t := by cases t <;> rfl
@[simp] theorem setAt_nilPath (t s : Raw α) : t.setAt [] s = s := by cases t <;> rfl
@[simp] theorem getAt_nil (p : Path) : (nil : Raw α).getAt p = nil := by cases p <;> rfl

theorem getAt_append (t : Raw α) (p q : Path) : t.getAt (p ++ q) = (t.getAt p).getAt q := by
  induction p generalizing t with
  | nil => simp
  | cons b p ih => cases t <;> cases b <;> simp [getAt, ih]

theorem getAt_false (t : Raw α) (p : Path) : t.getAt (p ++ [false]) = (t.getAt p).left := by
  rw [getAt_append]; cases t.getAt p <;> simp [getAt, left]

theorem getAt_true (t : Raw α) (p : Path) : t.getAt (p ++ [true]) = (t.getAt p).right := by
  rw [getAt_append]; cases t.getAt p <;> simp [getAt, right]

theorem setAt_append (t s u : Raw α) (p q : Path) :
    (t.setAt p s).setAt (p ++ q) u = t.setAt p (s.setAt q u) := by
  induction p generalizing t with
  | nil => simp
  | cons b p ih => cases t <;> cases b <;> simp [setAt, ih]

theorem setAt_setAt (t s u : Raw α) (p : Path) : (t.setAt p s).setAt p u = t.setAt p u := by
  have := setAt_append t s u p []
  simpa using this

theorem setAt_append' (t u : Raw α) (p q : Path) :
    t.setAt (p ++ q) u = t.setAt p ((t.getAt p).setAt q u) := by
  induction p generalizing t with
  | nil => simp
  | cons b p ih => cases t <;> cases b <;> simp [setAt, getAt, ih]

theorem setAt_getAt (t : Raw α) (p : Path) : t.setAt p (t.getAt p) = t := by
  induction p generalizing t with
  | nil => simp
  | cons b p ih => cases t <;> cases b <;> simp [setAt, getAt, ih]

/-- A path is valid when the slot it designates exists (its parent node exists). -/
def Valid : Raw α → Path → Prop
  | _, [] => True
  | nil, _ :: _ => False
  | mk _ _ _ _ l _, false :: p => l.Valid p
  | mk _ _ _ _ _ r, true :: p => r.Valid p

@[simp] theorem valid_nilPath (t : Raw α) : t.Valid [] := by cases t <;> trivial

theorem valid_of_getAt {t : Raw α} {p : Path} (h : (t.getAt p).isSome = true) : t.Valid p := by
  induction p generalizing t with
  | nil => simp
  | cons b p ih =>
    cases t with
    | nil => simp [isSome] at h
    | mk => cases b <;> simp only [Valid, getAt] at h ⊢ <;> exact ih h

theorem getAt_setAt_self {t s : Raw α} {p : Path} (h : t.Valid p) : (t.setAt p s).getAt p = s := by
  induction p generalizing t with
  | nil => simp
  | cons b p ih =>
    cases t with
    | nil => exact h.elim
    | mk => cases b <;> simp only [Valid, setAt, getAt] at h ⊢ <;> exact ih h

theorem getAt_setAt_append {t s : Raw α} {p : Path} (q : Path) (h : t.Valid p) :
    (t.setAt p s).getAt (p ++ q) = s.getAt q := by
  rw [getAt_append, getAt_setAt_self h]

/-- Two paths of which neither is a prefix of the other. -/
inductive Incomp : Path → Path → Prop
  | fork (b : Bool) (p q : Path) : Incomp (b :: p) ((!b) :: q)
  | cons (b : Bool) {p q : Path} : Incomp p q → Incomp (b :: p) (b :: q)

theorem Incomp.symm {p q : Path} (h : Incomp p q) : Incomp q p := by
  induction h with
  | fork b p q => have := Incomp.fork (!b) q p; simpa using this
  | cons b _ ih => exact .cons b ih

theorem Incomp.append_right {p q : Path} (h : Incomp p q) (r : Path) : Incomp p (q ++ r) := by
  induction h with
  | fork b p q => exact .fork b p _
  | cons b _ ih => exact .cons b ih

theorem Incomp.append_left {p q : Path} (h : Incomp p q) (r : Path) : Incomp (p ++ r) q :=
  (h.symm.append_right r).symm

theorem Incomp.prefix {q r : Path} (p : Path) (h : Incomp q r) : Incomp (p ++ q) (p ++ r) := by
  induction p with
  | nil => exact h
  | cons b p ih => exact .cons b ih

theorem getAt_setAt_incomp {p q : Path} (h : Incomp p q) (t s : Raw α) :
    (t.setAt p s).getAt q = t.getAt q := by
  induction h generalizing t with
  | fork b p q => cases t <;> cases b <;> simp [setAt, getAt]
  | cons b _ ih => cases t <;> cases b <;> simp [setAt, getAt, ih]

theorem setAt_comm {p q : Path} (h : Incomp p q) (t s u : Raw α) :
    (t.setAt p s).setAt q u = (t.setAt q u).setAt p s := by
  induction h generalizing t with
  | fork b p q => cases t <;> cases b <;> simp [setAt]
  | cons b _ ih => cases t <;> cases b <;> simp [setAt, ih]

theorem valid_setAt_incomp {p q : Path} (h : Incomp p q) {t : Raw α} (s : Raw α) (hv : t.Valid q) :
    (t.setAt p s).Valid q := by
  induction h generalizing t with
  | fork b p q =>
    cases t with
    | nil => exact hv.elim
    | mk => cases b <;> simpa [setAt, Valid] using hv
  | cons b _ ih =>
    cases t with
    | nil => exact hv.elim
    | mk => cases b <;> simp only [setAt, Valid] at hv ⊢ <;> exact ih hv

theorem incomp_siblings (p : Path) : Incomp (p ++ [false]) (p ++ [true]) :=
  Incomp.prefix p (.fork false [] [])

end Raw
end Tom
