import Verif.Spec.Links
import Verif.Lemmas.Path
/-
References by address and references by path: with distinct objects and right parent pointers they agree.
-/
set_option linter.unusedSectionVars false
set_option linter.unusedSimpArgs false
set_option linter.unusedVariables false
namespace Tom
variable {α : Type}

/-! ### the allocation monad -/

@[simp] theorem LM.pure_run {β : Type} (b : β) (n : Nat) : (pure b : LM β) n = .ok (b, n) := rfl
@[simp] theorem LM.bind_run {β γ : Type} (m : LM β) (f : β → LM γ) (n : Nat) :
    (m >>= f) n = (m n >>= fun p => f p.1 p.2) := rfl
@[simp] theorem LM.fresh_run (n : Nat) : LM.fresh n = .ok (n, n + 1) := rfl
@[simp] theorem LM.ub_run {β : Type} (n : Nat) : (LM.ub : LM β) n = .ub := rfl
@[simp] theorem LM.assertFail_run {β : Type} (n : Nat) : (LM.assertFail : LM β) n = .assertFail := rfl
@[simp] theorem LM.lift_run {β : Type} (r : Res β) (n : Nat) : LM.lift r n = (r >>= fun b => .ok (b, n)) := rfl
@[simp] theorem LM.noexcept_run {β : Type} (m : LM β) (n : Nat) : LM.noexcept m n = Res.noexcept (m n) := rfl

theorem LM.ite_run {β : Type} (c : Prop) [Decidable c] (m m' : LM β) (n : Nat) :
    (if c then m else m') n = if c then m n else m' n := by split <;> rfl

/-- the same outcome, up to what is returned -/
inductive Res.Same {β γ : Type} (R : β → γ → Prop) : Res β → Res γ → Prop
  | ok {b c} : R b c → Same R (.ok b) (.ok c)
  | throw (e) : Same R (.throw e) (.throw e)
  | ub : Same R .ub .ub
  | terminate : Same R .terminate .terminate
  | assertFail : Same R .assertFail .assertFail
  | diverge : Same R .diverge .diverge

theorem Res.Same.bind {β γ β' γ' : Type} {R : β → γ → Prop} {S : β' → γ' → Prop} {x : Res β} {y : Res γ}
    {f : β → Res β'} {g : γ → Res γ'} (h : Res.Same R x y) (hf : ∀ b c, R b c → Res.Same S (f b) (g c)) :
    Res.Same S (x >>= f) (y >>= g) := by
  cases h with
  | ok h => exact hf _ _ h
  | _ => constructor

theorem Res.Same.noexcept {β γ : Type} {R : β → γ → Prop} {x : Res β} {y : Res γ} (h : Res.Same R x y) :
    Res.Same R (Res.noexcept x) (Res.noexcept y) := by
  cases h with
  | ok h => exact .ok h
  | _ => constructor

theorem Res.Same.mono {β γ : Type} {R S : β → γ → Prop} {x : Res β} {y : Res γ} (h : Res.Same R x y)
    (hi : ∀ b c, R b c → S b c) : Res.Same S x y := by
  cases h with
  | ok h => exact .ok (hi _ _ h)
  | _ => constructor

theorem Res.Same.of_ok {β γ : Type} {R : β → γ → Prop} {x : Res β} {c : γ} (h : Res.Same R x (.ok c)) :
    ∃ b, x = .ok b ∧ R b c := by
  cases h with
  | ok h => exact ⟨_, rfl, h⟩

/-! ### erasing -/

namespace Raw

@[simp] theorem left_mk (ty op) (v : α) (x) (l r : Raw α) : (mk ty op v x l r).left = l := rfl
@[simp] theorem right_mk (ty op) (v : α) (x) (l r : Raw α) : (mk ty op v x l r).right = r := rfl
@[simp] theorem isSome_mk (ty op) (v : α) (x) (l r : Raw α) : (mk ty op v x l r).isSome = true := rfl
@[simp] theorem erase_mk (ty op) (o : Obj α) (x) (l r : PTree α) : (mk ty op o x l r).erase = mk ty op o.value x l.erase r.erase := rfl
@[simp] theorem erase_nil : (nil : PTree α).erase = nil := rfl
@[simp] theorem erase_isSome (t : PTree α) : t.erase.isSome = t.isSome := by cases t <;> rfl
@[simp] theorem erase_left (t : PTree α) : t.erase.left = t.left.erase := by cases t <;> rfl
@[simp] theorem erase_right (t : PTree α) : t.erase.right = t.right.erase := by cases t <;> rfl
@[simp] theorem erase_isNumber (t : PTree α) : t.erase.isNumber = t.isNumber := by
  cases t with
  | nil => rfl
  | mk ty => cases ty <;> rfl
@[simp] theorem erase_isVariable (t : PTree α) : t.erase.isVariable = t.isVariable := by
  cases t with
  | nil => rfl
  | mk ty => cases ty <;> rfl
@[simp] theorem erase_isOperator (t : PTree α) : t.erase.isOperator = t.isOperator := by
  cases t with
  | nil => rfl
  | mk ty => cases ty <;> rfl
@[simp] theorem erase_op (t : PTree α) : t.erase.op = t.op := by cases t <;> rfl
@[simp] theorem erase_size (t : PTree α) : t.erase.size = t.size := by
  induction t with
  | nil => rfl
  | mk ty op o x l r ihl ihr => simp [erase, size, ihl, ihr]

theorem erase_getAt (t : PTree α) (p : Path) : (t.getAt p).erase = t.erase.getAt p := by
  induction p generalizing t with
  | nil => simp
  | cons b p ih => cases t <;> cases b <;> simp [getAt, erase, ih]

theorem erase_setAt (t s : PTree α) (p : Path) : (t.setAt p s).erase = t.erase.setAt p s.erase := by
  induction p generalizing t with
  | nil => simp
  | cons b p ih => cases t <;> cases b <;> simp [setAt, erase, ih]

/-! ### addresses -/

theorem occurs_setAt {t : PTree α} {p : Path} (h : t.Valid p) (s : PTree α) (a : Nat) :
    occurs a (t.setAt p s) + occurs a (t.getAt p) = occurs a t + occurs a s := by
  induction p generalizing t with
  | nil => simp; omega
  | cons b p ih =>
    cases t with
    | nil => exact h.elim
    | mk ty op o x l r =>
      cases b <;> simp only [Valid, setAt, getAt, occurs] at h ⊢ <;> have := ih h <;> omega

theorem occurs_getAt_le (t : PTree α) (p : Path) (a : Nat) : occurs a (t.getAt p) ≤ occurs a t := by
  induction p generalizing t with
  | nil => simp
  | cons b p ih =>
    cases t with
    | nil => simp [occurs]
    | mk ty op o x l r =>
      cases b
      · have := ih l; simp only [getAt, occurs]; omega
      · have := ih r; simp only [getAt, occurs]; omega

theorem addr?_some_isSome {t : PTree α} {a : Nat} (h : t.addr? = some a) : t.isSome = true := by
  cases t <;> simp_all [addr?, isSome]

theorem occurs_of_addr {t : PTree α} {a : Nat} (h : t.addr? = some a) : 0 < occurs a t := by
  cases t <;> simp_all [addr?, occurs]; omega

theorem addr?_of_isSome {t : PTree α} (h : t.isSome = true) : ∃ a, t.addr? = some a := by
  cases t <;> simp_all [addr?, isSome]

theorem find_none {t : PTree α} {a : Nat} (h : occurs a t = 0) : t.find a = .nil := by
  induction t with
  | nil => rfl
  | mk ty op o x l r ihl ihr =>
    simp only [occurs] at h
    have h1 : o.addr ≠ a := by intro e; simp [e] at h
    have h2 : occurs a l = 0 := by omega
    have h3 : occurs a r = 0 := by omega
    simp [find, h1, ihl h2, ihr h3, isSome]

theorem find_getAt {t : PTree α} {p : Path} {a : Nat} (hu : ∀ a, occurs a t ≤ 1) (h : (t.getAt p).addr? = some a) :
    t.find a = t.getAt p := by
  induction p generalizing t with
  | nil =>
    cases t with
    | nil => rfl
    | mk ty op o x l r => simp [addr?] at h; simp [find, h]
  | cons b p ih =>
    cases t with
    | nil => simp [addr?] at h
    | mk ty op o x l r =>
      have hua := hu a
      have hul : ∀ a, occurs a l ≤ 1 := fun a => by have := hu a; simp only [occurs] at this; omega
      have hur : ∀ a, occurs a r ≤ 1 := fun a => by have := hu a; simp only [occurs] at this; omega
      simp only [occurs] at hua
      cases b
      · simp only [getAt] at h ⊢
        have h1 := occurs_of_addr h
        have h2 := occurs_getAt_le l p a
        have h3 : o.addr ≠ a := by intro e; simp [e] at hua; omega
        have := ih hul h
        simp [find, h3, this, addr?_some_isSome h]
      · simp only [getAt] at h ⊢
        have h1 := occurs_of_addr h
        have h2 := occurs_getAt_le r p a
        have h3 : o.addr ≠ a := by intro e; simp [e] at hua; omega
        have h4 : occurs a l = 0 := by omega
        have := ih hur h
        simp [find, h3, this, find_none h4, isSome]

theorem modify_none {t : PTree α} {a : Nat} (f : PTree α → PTree α) (h : occurs a t = 0) : t.modify f a = t := by
  induction t with
  | nil => rfl
  | mk ty op o x l r ihl ihr =>
    simp only [occurs] at h
    have h1 : o.addr ≠ a := by intro e; simp [e] at h
    have h2 : occurs a l = 0 := by omega
    have h3 : occurs a r = 0 := by omega
    simp [modify, h1, ihl h2, ihr h3]

theorem modify_getAt {t : PTree α} {p : Path} {a : Nat} (f : PTree α → PTree α) (hu : ∀ a, occurs a t ≤ 1)
    (h : (t.getAt p).addr? = some a) : t.modify f a = t.setAt p (f (t.getAt p)) := by
  induction p generalizing t with
  | nil =>
    cases t with
    | nil => simp [addr?] at h
    | mk ty op o x l r => simp [addr?] at h; simp [modify, h]
  | cons b p ih =>
    cases t with
    | nil => simp [addr?] at h
    | mk ty op o x l r =>
      have hua := hu a
      have hul : ∀ a, occurs a l ≤ 1 := fun a => by have := hu a; simp only [occurs] at this; omega
      have hur : ∀ a, occurs a r ≤ 1 := fun a => by have := hu a; simp only [occurs] at this; omega
      simp only [occurs] at hua
      cases b
      · simp only [getAt] at h
        have h1 := occurs_of_addr h
        have h2 := occurs_getAt_le l p a
        have h3 : o.addr ≠ a := by intro e; simp [e] at hua; omega
        have h4 : occurs a r = 0 := by omega
        simp [modify, h3, ih hul h, setAt, getAt, modify_none f h4]
      · simp only [getAt] at h
        have h1 := occurs_of_addr h
        have h2 := occurs_getAt_le r p a
        have h3 : o.addr ≠ a := by intro e; simp [e] at hua; omega
        have h4 : occurs a l = 0 := by omega
        simp [modify, h3, ih hur h, setAt, getAt, modify_none f h4]

/-- the parent pointer the node at a path has to have -/
def parentAt (t : PTree α) (p : Path) : Option Nat := if p = [] then none else (t.getAt p.dropLast).addr?

theorem parentAt_snoc (t : PTree α) (p : Path) (s : Bool) : t.parentAt (p ++ [s]) = (t.getAt p).addr? := by
  simp [parentAt]

theorem getAt_snoc (t : PTree α) (p : Path) (s : Bool) : t.getAt (p ++ [s]) = (t.getAt p).child s := by
  cases s <;> simp [child, getAt_false, getAt_true]

theorem setAt_snoc (t u : PTree α) (p : Path) (s : Bool) (h : (t.getAt p).isSome = true) :
    t.setAt (p ++ [s]) u = t.setAt p (withChild s u (t.getAt p)) := by
  rw [setAt_append']
  cases hg : t.getAt p with
  | nil => simp [hg, isSome] at h
  | mk => cases s <;> simp [setAt, withChild]

theorem valid_snoc {t : Raw α} {p : Path} (h : (t.getAt p).isSome = true) (s : Bool) : t.Valid (p ++ [s]) := by
  induction p generalizing t with
  | nil => cases t <;> cases s <;> simp_all [Valid, isSome]
  | cons b p ih =>
    cases t with
    | nil => simp [isSome] at h
    | mk => cases b <;> exact ih h

/-- addresses of nodes above and beside a rewritten place do not change -/
theorem addr?_getAt_setAt {p q : Path} (h : ¬ p <+: q) (t s : PTree α) :
    ((t.setAt p s).getAt q).addr? = (t.getAt q).addr? := by
  induction p generalizing t q with
  | nil => simp at h
  | cons b p ih =>
    cases q with
    | nil => cases t <;> cases b <;> simp [setAt, addr?]
    | cons c q =>
      by_cases e : b = c
      · subst e
        have h' : ¬ p <+: q := by simpa [List.cons_prefix_cons] using h
        cases t <;> cases b <;> simp [setAt, getAt, ih h']
      · cases t <;> cases b <;> cases c <;> simp_all [setAt, getAt]

end Raw

open Raw

theorem Linked.getAt' {t : PTree α} {q : Option Nat} (h : Linked q t) (p : Path) :
    Linked (if p = [] then q else (t.getAt p.dropLast).addr?) (t.getAt p) := by
  induction p generalizing t q with
  | nil => simpa using h
  | cons b p ih =>
    cases t with
    | nil => simp [Linked]
    | mk ty op o x l r =>
      obtain ⟨_, h1, h2⟩ := h
      cases b
      · have := ih h1
        cases p with
        | nil => simpa [Raw.getAt, Raw.addr?] using this
        | cons c p => simpa [Raw.getAt] using this
      · have := ih h2
        cases p with
        | nil => simpa [Raw.getAt, Raw.addr?] using this
        | cons c p => simpa [Raw.getAt] using this

theorem Linked.at {t : PTree α} (h : Linked none t) (p : Path) : Linked (t.parentAt p) (t.getAt p) := h.getAt' p

theorem Linked.setAt' {t : PTree α} {q : Option Nat} (h : Linked q t) (p : Path) (s : PTree α)
    (hs : Linked (if p = [] then q else (t.getAt p.dropLast).addr?) s) : Linked q (t.setAt p s) := by
  induction p generalizing t q with
  | nil => simpa using hs
  | cons b p ih =>
    cases t with
    | nil => simp [Linked, Raw.setAt]
    | mk ty op o x l r =>
      obtain ⟨h0, h1, h2⟩ := h
      cases b
      · refine ⟨h0, ih h1 ?_, h2⟩
        cases p with
        | nil => simpa [Raw.getAt, Raw.addr?] using hs
        | cons c p => simpa [Raw.getAt] using hs
      · refine ⟨h0, h1, ih h2 ?_⟩
        cases p with
        | nil => simpa [Raw.getAt, Raw.addr?] using hs
        | cons c p => simpa [Raw.getAt] using hs

theorem Linked.setAt {t : PTree α} (h : Linked none t) (p : Path) (s : PTree α) (hs : Linked (t.parentAt p) s) :
    Linked none (t.setAt p s) := h.setAt' p s hs

theorem Linked.parent? {t : PTree α} {q : Option Nat} (h : Linked q t) (hs : t.isSome = true) : t.parent? = q := by
  cases t with
  | nil => simp [Raw.isSome] at hs
  | mk => exact h.1

/-- what replaces a subtree: built from its objects and from objects allocated in between -/
def From (n n' : Nat) (old new : PTree α) : Prop :=
  n ≤ n' ∧ ∀ a, (a < n → occurs a new ≤ occurs a old) ∧ (n ≤ a → occurs a new ≤ 1) ∧ (n' ≤ a → occurs a new = 0)

theorem Sound.setAt {n n' : Nat} {t s : PTree α} (h : Sound n t) {p : Path} (hv : t.Valid p)
    (hl : Linked (t.parentAt p) s) (hf : From n n' (t.getAt p) s) : Sound n' (t.setAt p s) := by
  refine ⟨h.1.setAt p s hl, fun a => ?_⟩
  have h1 := occurs_setAt hv s a
  have h2 := occurs_getAt_le t p a
  obtain ⟨h3, h4⟩ := h.2 a
  obtain ⟨h5, h6, h7⟩ := hf.2 a
  have := hf.1
  by_cases ha : a < n
  · have := h5 ha
    refine ⟨by omega, fun h => by omega⟩
  · have := h4 (by omega)
    have := h6 (by omega)
    refine ⟨by omega, fun h => ?_⟩
    have := h7 h
    omega

theorem Sound.mono {n n' : Nat} {t : PTree α} (h : Sound n t) (hn : n ≤ n') : Sound n' t :=
  ⟨h.1, fun a => ⟨(h.2 a).1, fun ha => (h.2 a).2 (by omega)⟩⟩

/-- nothing but the objects of `old` and new objects went into `new` -/
def Frame (n n' : Nat) (old new : PTree α) : Prop := n ≤ n' ∧ ∀ a, a < n → occurs a new ≤ occurs a old

theorem Frame.refl (n : Nat) (t : PTree α) : Frame n n t t := ⟨Nat.le_refl _, fun _ _ => Nat.le_refl _⟩

theorem Frame.trans {n n1 n2 : Nat} {t t1 t2 : PTree α} (h : Frame n n1 t t1) (h' : Frame n1 n2 t1 t2) : Frame n n2 t t2 :=
  ⟨Nat.le_trans h.1 h'.1, fun a ha => Nat.le_trans (h'.2 a (Nat.lt_of_lt_of_le ha h.1)) (h.2 a ha)⟩

theorem From.frame {n n' : Nat} {t t' : PTree α} (h : From n n' t t') : Frame n n' t t' := ⟨h.1, fun a ha => (h.2 a).1 ha⟩

theorem Frame.setAt {n n' : Nat} {t s : PTree α} {p : Path} (hv : t.Valid p) (hf : From n n' (t.getAt p) s) :
    Frame n n' t (t.setAt p s) := by
  refine ⟨hf.1, fun a ha => ?_⟩
  have h1 := occurs_setAt hv s a
  have h2 := occurs_getAt_le t p a
  have := (hf.2 a).1 ha
  omega

theorem Slot.get_path {t : PTree α} {p : Path} {s : Bool} {a : Nat} (hu : ∀ a, occurs a t ≤ 1)
    (h : (t.getAt p).addr? = some a) : (Slot.field a s).get t = t.getAt (p ++ [s]) := by
  simp [Slot.get, find_getAt hu h, getAt_snoc]

theorem Slot.set_path {t u : PTree α} {p : Path} {s : Bool} {a : Nat} (hu : ∀ a, occurs a t ≤ 1)
    (h : (t.getAt p).addr? = some a) : (Slot.field a s).set t u = .ok (t.setAt (p ++ [s]) u) := by
  have hs := addr?_some_isSome h
  simp [Slot.set, find_getAt hu h, hs, modify_getAt _ hu h, setAt_snoc _ _ _ _ hs]

end Tom
