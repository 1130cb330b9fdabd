import Verif.Model.Destroy
import Verif.Spec.Links
/-
C67: destroying an expression.
-/
namespace Tom
variable {α : Type}

/-- the addresses of the objects of a tree: the root, then those on the right, then those on the left -/
def objects : PTree α → List Nat
  | .nil => []
  | .mk _ _ o _ l r => o.addr :: (objects r ++ objects l)

theorem count_objects (a : Nat) (t : PTree α) : (objects t).count a = occurs a t := by
  induction t with
  | nil => rfl
  | mk ty op o x l r ihl ihr =>
    simp only [objects, occurs, List.count_cons, List.count_append, ihl, ihr, beq_iff_eq]
    omega

theorem relEmplace_eq (c : PTree α) (stk : List (PTree α)) :
    relEmplace c stk = ((if c.isSome then [c] else []) ++ stk, .nil) := by
  cases c <;> rfl

/-- The objects in the stack. -/
def stackSize (stk : List (PTree α)) : Nat := (stk.map Raw.size).sum

theorem releaseLoop_eq (del : PTree α → Res (List Nat))
    (hdel : ∀ ty op o x, del (.mk ty op o x .nil .nil) = .ok [o.addr]) (fuel : Nat) (stk : List (PTree α))
    (hs : ∀ t ∈ stk, t.isSome = true) (hf : stackSize stk ≤ fuel) :
    releaseLoop del fuel stk = .ok (stk.flatMap objects) := by
  induction fuel generalizing stk with
  | zero =>
    cases stk with
    | nil => rfl
    | cons t stk =>
      cases t with
      | nil => simp [Raw.isSome] at hs
      | mk ty op o x l r => simp [stackSize, Raw.size] at hf
  | succ fuel ih =>
    cases stk with
    | nil => rfl
    | cons t stk =>
      cases t with
      | nil => simp [Raw.isSome] at hs
      | mk ty op o x l r =>
        have hs' : ∀ t ∈ stk, t.isSome = true := fun t ht => hs t (List.mem_cons_of_mem _ ht)
        simp only [stackSize, List.map_cons, List.sum_cons, Raw.size] at hf
        simp only [releaseLoop, relEmplaceChildren, relEmplace_eq, Res.bind_ok, Raw.left, Raw.right, Raw.isSome, Bool.not_false,
          Bool.and_self, Res.assert_true, hdel]
        rw [ih]
        · cases l <;> cases r <;> simp [objects, Raw.isSome]
        · intro t ht
          simp only [List.mem_append] at ht
          rcases ht with ht | ht | ht
          · cases r <;> simp [Raw.isSome] at ht
            subst ht; rfl
          · cases l <;> simp [Raw.isSome] at ht
            subst ht; rfl
          · exact hs' t ht
        · cases l <;> cases r <;> simp [stackSize, Raw.size, Raw.isSome] at hf ⊢ <;> omega

theorem destroy_leaf (n : Nat) (ty : NodeType) (op : MathOp) (o : Obj α) (x : Str) :
    destroy (n + 1) (.mk ty op o x .nil .nil) = .ok [o.addr] := by
  simp [destroy, release, relEmplaceChildren, relEmplace, Raw.isSome, releaseLoop, Raw.left, Raw.right]

/-- **C67.** Destroying any expression, however deep, needs no more than two nested destructor calls, ends, and hands back exactly
its objects: the ones below the root, then the root. -/
theorem C67_destroy (n : Nat) (ty : NodeType) (op : MathOp) (o : Obj α) (x : Str) (l r : PTree α) :
    destroy (n + 2) (.mk ty op o x l r) = .ok (objects r ++ objects l ++ [o.addr]) := by
  have h := releaseLoop_eq (destroy (n + 1)) (destroy_leaf n)
    (Raw.size (.mk ty op o x l r)) ((relEmplace r (relEmplace l []).1).1) (by
      intro t ht
      cases l <;> cases r <;> simp [relEmplace, Raw.isSome] at ht
      · subst ht; rfl
      · subst ht; rfl
      · rcases ht with ht | ht <;> subst ht <;> rfl) (by
      cases l <;> cases r <;> simp [relEmplace, stackSize, Raw.isSome, Raw.size] <;> omega)
  simp only [destroy, release, relEmplaceChildren, Res.bind_ok]
  rw [h]
  cases l <;> cases r <;> simp [relEmplace, Raw.isSome, Raw.left, Raw.right, destroy, objects]

/-- **C67.** Every object of the expression is freed exactly once and nothing else is. -/
theorem C67_once (t : PTree α) : ∃ freed, destroy 2 t = .ok freed ∧ ∀ a, freed.count a = occurs a t := by
  cases t with
  | nil => exact ⟨[], rfl, fun a => rfl⟩
  | mk ty op o x l r =>
    refine ⟨_, C67_destroy 0 ty op o x l r, fun a => ?_⟩
    rw [← count_objects]
    simp only [objects, List.count_cons, List.count_append, List.count_nil]
    omega

/-- **C67.** With distinct objects no address is handed back twice. -/
theorem C67_no_double_free (n : Nat) (t : PTree α) (h : Distinct n t) :
    ∃ freed, destroy 2 t = .ok freed ∧ freed.Nodup := by
  obtain ⟨freed, h1, h2⟩ := C67_once t
  refine ⟨freed, h1, List.nodup_iff_count.mpr fun a => ?_⟩
  rw [h2]
  exact (h a).1

/-- an expression of depth three with five objects -/
example : destroy 2 (.mk .operator .add ⟨(0 : Int), 0, none⟩ [] (.mk .operator .sin ⟨0, 1, some 0⟩ []
    (.mk .variable .null ⟨0, 2, some 1⟩ ['x'] .nil .nil) .nil) (.mk .operator .negative ⟨0, 3, some 0⟩ []
    (.mk .number .null ⟨5, 4, some 3⟩ [] .nil .nil) .nil)) = .ok [3, 4, 1, 2, 0] := by decide

end Tom
