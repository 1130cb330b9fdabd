import Verif.Model.Links
/-
Destruction of an expression: `~NodeImpl` and `NodeImpl::Release` (node.cpp:87-89, 497-525).  The result is the sequence of
addresses handed back to the allocator.  The nesting of destructor calls is bounded by an explicit budget (the call stack).
-/
namespace Tom
variable {α : Type}

/-- node.cpp:500-504 `emplaceNode(std::move(child))`: what the stack is afterwards, and what is left in the field that was moved
from. -/
def relEmplace (child : PTree α) (stk : List (PTree α)) : List (PTree α) × PTree α :=
  if child.isSome then (child :: stk, .nil) else (stk, .nil)

/-- node.cpp:506-509 `emplaceChildren(node)`: the stack and the object afterwards -/
def relEmplaceChildren (stk : List (PTree α)) : PTree α → Res (List (PTree α) × PTree α)
  | .nil => .ub
  | .mk ty op o x l r =>
    let (stk, l) := relEmplace l stk
    let (stk, r) := relEmplace r stk
    .ok (stk, .mk ty op o x l r)

/-- node.cpp:513-524: the loop of `Release`; `del` is what the end of the scope does to the local `node` -/
def releaseLoop (del : PTree α → Res (List Nat)) : Nat → List (PTree α) → Res (List Nat)
  | _, [] => .ok []
  | 0, _ :: _ => .diverge
  | fuel + 1, node :: stk => do
    let (stk, node) ← relEmplaceChildren stk node
    Res.assert (!node.left.isSome && !node.right.isSome)
    let freed ← del node
    let rest ← releaseLoop del fuel stk
    .ok (freed ++ rest)

/-- node.cpp:497-525 `Release`: what is freed, and the object afterwards -/
def release (del : PTree α → Res (List Nat)) (this : PTree α) : Res (List Nat × PTree α) := do
  let (stk, this') ← relEmplaceChildren [] this
  let freed ← releaseLoop del this.size stk
  .ok (freed, this')

/-- The destructor of a `Node` (`std::unique_ptr`): nothing for a null pointer; otherwise node.cpp:87-89 `~NodeImpl`, the
destructors of the members `right` and `left` (node.h:79-84, in reverse order), and the deallocation.  At most `budget` destructor
calls may be active at once; one more overflows the call stack. -/
def destroy : Nat → PTree α → Res (List Nat)
  | _, .nil => .ok []
  | 0, .mk .. => .ub
  | budget + 1, .mk ty op o x l r => do
    let (freed, this) ← release (destroy budget) (.mk ty op o x l r)
    let right ← destroy budget this.right
    let left ← destroy budget this.left
    .ok (freed ++ right ++ left ++ [o.addr])

end Tom
