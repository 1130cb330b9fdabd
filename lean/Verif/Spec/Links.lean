import Verif.Model.Links
/-
What it means for the parent pointers of a tree of node objects to be right.
-/
namespace Tom
variable {α : Type}

/-- Every node's stored parent pointer is the address of the node that owns it; `q` is the parent the topmost node has to have. -/
def Linked : Option Nat → PTree α → Prop
  | _, .nil => True
  | q, .mk _ _ o _ l r => o.parent = q ∧ Linked (some o.addr) l ∧ Linked (some o.addr) r

/-- how many objects of the tree have the address `a` -/
def occurs (a : Nat) : PTree α → Nat
  | .nil => 0
  | .mk _ _ o _ l r => (if o.addr = a then 1 else 0) + occurs a l + occurs a r

/-- The objects of the tree are different objects, all allocated before `n`. -/
def Distinct (n : Nat) (t : PTree α) : Prop := ∀ a, occurs a t ≤ 1 ∧ (n ≤ a → occurs a t = 0)

/-- A tree as a user holds it: a root without parent, right parent pointers everywhere, distinct objects. -/
def Sound (n : Nat) (t : PTree α) : Prop := Linked none t ∧ Distinct n t

end Tom
