import Verif.Model.Node
/-
Models the tree algorithms of src/tomsolver/node.cpp: Vpa, Calc, Equal, Clone, GetAllVarNames, ToString.
The C++ uses explicit stacks; so does the model.
-/
namespace Tom

/-- A path from the root: `false` = left, `true` = right.  Models a reference/pointer to the
`unique_ptr` slot (or to the node in it) at that place of the tree owned by the root. -/
abbrev Path := List Bool

namespace Raw
variable {α : Type}

/-- The node in the slot designated by a path. -/
def getAt : Raw α → Path → Raw α
  | t, [] => t
  | nil, _ :: _ => nil
  | mk _ _ _ _ l _, false :: p => l.getAt p
  | mk _ _ _ _ _ r, true :: p => r.getAt p

/-- Assignment to the slot designated by a path. -/
def setAt : Raw α → Path → Raw α → Raw α
  | _, [], s => s
  | nil, _ :: _, _ => nil
  | mk ty o v x l r, false :: p, s => mk ty o v x (l.setAt p s) r
  | mk ty o v x l r, true :: p, s => mk ty o v x l (r.setAt p s)

end Raw

variable {α : Type} [Dbl α]

/-! ### Vpa and Calc -/

/-- node.cpp:430-451, part I: with an explicit stack, build `revertedPostOrder` by `emplace_front`. -/
def vpaPartI : Nat → List (Raw α) → List (Raw α) → Res (List (Raw α))
  | _, [], out => .ok out
  | 0, _ :: _, _ => .diverge
  | fuel + 1, node :: stk, out =>
    let stk := if node.left.isSome then node.left :: stk else stk
    let stk := if node.right.isSome then node.right :: stk else stk
    vpaPartI fuel stk (node :: out)

/-- node.cpp:458-489, one iteration of part II.  `top()`/`pop()` of an empty `calcStk` is undefined
behaviour. -/
def vpaStep (cfg : Config α) (calcStk : List α) : Raw α → Res (List α)
  | .nil => .ub
  | .mk .number _ v _ _ _ => .ok (v :: calcStk)
  | .mk .operator op _ _ _ _ =>
    match operatorNum op with
    | 1 =>
      match calcStk with
      | [] => .ub
      | l :: st => do
        let v ← calcOp cfg op l Dbl.nan
        .ok (v :: st)
    | 2 =>
      match calcStk with
      | r :: l :: st => do
        let v ← calcOp cfg op l r
        .ok (v :: st)
      | _ => .ub
    | _ => .assertFail
  | .mk .variable _ _ _ _ _ => .throw .runtime

/-- node.cpp:458-489, part II: the range-for over `revertedPostOrder`. -/
def vpaPartII (cfg : Config α) : List (Raw α) → List α → Res (List α)
  | [], st => .ok st
  | n :: ns, st => do
    let st ← vpaStep cfg st n
    vpaPartII cfg ns st

/-- node.cpp:428-494 `VpaNonRecursively` (= `Vpa`, node.cpp:158-160). -/
def vpa (cfg : Config α) (node : Raw α) : Res α :=
  if node.isSome then do
    let order ← vpaPartI node.size [node] []
    let st ← vpaPartII cfg order []
    match st with
    | [v] => .ok v
    | _ => .assertFail
  else .ub

/-- node.cpp:162-168 `NodeImpl::Calc`: returns what happens and the state of the node afterwards.  `*this = {}`
resets every field (type NUMBER, op NULL, no children), then `value = d`. -/
def calcNode (cfg : Config α) (node : Raw α) : Res Unit × Raw α :=
  match vpa cfg node with
  | .ok d => (.ok (), mkNum d)
  | .throw e => (.throw e, node)
  | .ub => (.ub, node)
  | .terminate => (.terminate, node)
  | .assertFail => (.assertFail, node)
  | .diverge => (.diverge, node)

/-! ### Equal -/

/-- node.cpp:99-105 `IsSame`: comparison of (type, op, value, varname); `value` with IEEE `==`. -/
def sameFields : Raw α → Raw α → Bool
  | .mk t1 o1 v1 x1 _ _, .mk t2 o2 v2 x2 _ _ =>
    decide (t1 = t2) && decide (o1 = o2) && Arith.eq v1 v2 && decide (x1 = x2)
  | _, _ => false

/-- node.cpp:107-128 `CheckChildren`: `none` = returned false, otherwise the new stack. -/
def checkChildren (l r : Raw α) (stk : List (Raw α × Raw α)) : Option (List (Raw α × Raw α)) :=
  if l.isSome != r.isSome then none
  else if l.isSome && r.isSome then some ((l, r) :: stk)
  else some stk

/-- node.cpp:130-132 `CheckNode` -/
def checkNode (a b : Raw α) (stk : List (Raw α × Raw α)) : Option (List (Raw α × Raw α)) :=
  if sameFields a b then
    match checkChildren a.left b.left stk with
    | none => none
    | some stk => checkChildren a.right b.right stk
  else none

/-- node.cpp:138-147, the `while` loop of `Equal`. -/
def equalLoop : Nat → List (Raw α × Raw α) → Res Bool
  | _, [] => .ok true
  | 0, _ :: _ => .diverge
  | fuel + 1, (a, b) :: stk =>
    match checkNode a b stk with
    | none => .ok false
    | some stk => equalLoop fuel stk

/-- node.cpp:92-150 `NodeImpl::Equal`.  `samePtr` says whether the two are the same object (line 93). -/
def equal (samePtr : Bool) (a b : Raw α) : Res Bool :=
  if samePtr then .ok true
  else if a.isSome && b.isSome then
    match checkNode a b [] with
    | none => .ok false
    | some stk => equalLoop a.size stk
  else .ub

/-! ### Clone -/

/-- node.cpp:546-550 `MakeNode`: copies the fields, no children. -/
def shallow : Raw α → Raw α
  | .nil => .nil
  | .mk t o v x _ _ => .mk t o v x .nil .nil

/-- node.cpp:552-561 `EmplaceNode`/`EmplaceChildren`: push the non-null children of `src` with the slot they
are to be copied into. -/
def emplaceChildren (src : Raw α) (p : Path) (stk : List (Raw α × Path)) : List (Raw α × Path) :=
  let stk := if src.left.isSome then (src.left, p ++ [false]) :: stk else stk
  if src.right.isSome then (src.right, p ++ [true]) :: stk else stk

/-- node.cpp:566-574, the loop of `CloneNonRecursively`; `root` is the tree owned by `ret`. -/
def cloneLoop : Nat → List (Raw α × Path) → Raw α → Res (Raw α)
  | _, [], root => .ok root
  | 0, _ :: _, _ => .diverge
  | fuel + 1, (src, p) :: stk, root =>
    cloneLoop fuel (emplaceChildren src p stk) (root.setAt p (shallow src))

/-- node.cpp:543-577 `CloneNonRecursively` (= `Clone`, node.cpp:644-646).  Dereferences `*node`. -/
def clone (node : Raw α) : Res (Raw α) :=
  if node.isSome then cloneLoop node.size (emplaceChildren node [] []) (shallow node) else .ub

/-! ### GetAllVarNames -/

/-- `std::string` `operator<` (lexicographic by character code). -/
def strLt : Str → Str → Bool
  | _, [] => false
  | [], _ :: _ => true
  | a :: as, b :: bs => if a < b then true else if b < a then false else strLt as bs

/-- `std::set<std::string>::emplace` on the sorted sequence of elements. -/
def setInsert (x : Str) : List Str → List Str
  | [] => [x]
  | y :: ys => if strLt x y then x :: y :: ys else if strLt y x then y :: setInsert x ys else y :: ys

/-- node.cpp:624-626: a variable node contributes its name. -/
def addVar : Raw α → List Str → List Str
  | .mk .variable _ _ x _ _, ret => setInsert x ret
  | _, ret => ret

/-- node.cpp:612-640 `GetAllVarNames`: `EmplaceChild` on the root and then on each popped node. -/
def varNamesLoop : Nat → List (Raw α) → List Str → Res (List Str)
  | _, [], ret => .ok ret
  | 0, _ :: _, _ => .diverge
  | fuel + 1, node :: stk, ret =>
    let ret := addVar node ret
    let stk := if node.left.isSome then node.left :: stk else stk
    let stk := if node.right.isSome then node.right :: stk else stk
    varNamesLoop fuel stk ret

/-- node.cpp:612-640.  (`EmplaceChild(*this)` before the loop is the same as starting the loop with `*this` on
the stack.) -/
def getAllVarNames (node : Raw α) : Res (List Str) :=
  if node.isSome then varNamesLoop node.size [node] [] else .ub

/-! ### ToString -/

/-- node.cpp:223-234 `NodeToStr` -/
def nodeToStr : Raw α → Str
  | .nil => []
  | .mk .number _ v _ _ _ => Dbl.toStr v
  | .mk .variable _ _ x _ _ => x
  | .mk .operator o _ _ _ _ => o.toStr

/-- What `ToStringNonRecursively` reads through `cur->parent`: whether there is a parent, its operator, and
whether `cur` is its right child. -/
structure Ctx where
  parent : Option MathOp
  isRight : Bool

/-- Elements of the stack of `ToStringNonRecursively`: the shared `rightParenthesis` node or a tree node. -/
inductive PItem (α : Type)
  | rpar
  | node (t : Raw α) (ctx : Ctx)

/-- node.cpp:348-364: does the binary operator `op` get parentheses in this context? -/
def needParen (ctx : Ctx) (op : MathOp) : Bool :=
  match ctx.parent with
  | none => false
  | some pop =>
    operatorNum pop == 2 &&
      (decide (rank pop > rank op) ||
        (rank pop == rank op &&
          ((inAssociativeLaws pop == false && ctx.isRight) ||
           (inAssociativeLaws pop == false && isLeft2Right op == false))))

/-- node.cpp:317-379 `AddLeftLine`: walks down the left spine, pushing and printing. -/
def addLeftLine : Raw α → Ctx → List (PItem α) → Str → Res (List (PItem α) × Str)
  | .nil, _, stk, out => .ok (stk, out)
  | .mk .operator op v x l r, ctx, stk, out =>
    if operatorNum op = 1 then
      match l with
      | .nil => .ub
      | .mk .. =>
        if (op = .positive ∨ op = .negative) ∧ l.isOperator = false then
          addLeftLine l ⟨some op, false⟩ stk (out ++ op.toStr)
        else
          addLeftLine l ⟨some op, false⟩ (.rpar :: stk) (out ++ op.toStr ++ ['('])
    else if operatorNum op = 0 then .assertFail
    else if needParen ctx op then
      addLeftLine l ⟨some op, false⟩ (.node (.mk .operator op v x l r) ctx :: .rpar :: stk) (out ++ ['('])
    else
      addLeftLine l ⟨some op, false⟩ (.node (.mk .operator op v x l r) ctx :: stk) out
  | .mk ty op v x l r, ctx, stk, out =>
    addLeftLine l ⟨some op, false⟩ (.node (.mk ty op v x l r) ctx :: stk) out

/-- node.cpp:389-396: what is printed for a popped node. -/
def printNode (t : Raw α) (ctx : Ctx) : Str :=
  match t with
  | .mk .number _ v _ _ _ =>
    if Arith.lt v (Dbl.ofInt 0) && ctx.isRight && decide (ctx.parent = some .sub) then
      ['('] ++ nodeToStr t ++ [')']
    else nodeToStr t
  | _ => nodeToStr t

/-- node.cpp:383-402, the main loop. -/
def toStringLoop : Nat → List (PItem α) → Str → Res Str
  | _, [], out => .ok out
  | 0, _ :: _, _ => .diverge
  | fuel + 1, .rpar :: stk, out => toStringLoop fuel stk (out ++ [')'])
  | fuel + 1, .node t ctx :: stk, out =>
    let out := out ++ printNode t ctx
    if t.right.isSome then do
      let (stk, out) ← addLeftLine t.right ⟨some t.op, true⟩ stk out
      toStringLoop fuel stk out
    else toStringLoop fuel stk out

/-- node.cpp:312-403 `ToStringNonRecursively` of a root node (= `ToString`, node.cpp:152-156). -/
def toStringNode (node : Raw α) : Res Str :=
  if node.isSome then do
    let (stk, out) ← addLeftLine node ⟨none, false⟩ [] []
    toStringLoop (2 * node.size) stk out
  else .ub

end Tom
