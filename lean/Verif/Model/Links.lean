import Verif.Model.SubsSimplifyDiff
import Verif.Model.Parse
/-
The same operations with object identities and parent pointers.  In the other model files the field `parent` is left out and a
reference to a node is a path from the root.  Here every node object has an address and a stored `parent` pointer (which could be
anything), references are addresses, and every use of `->parent` in the code is a lookup of the stored address.  Ownership
(`std::unique_ptr`) is structural: an object belongs to the one slot that holds it.  Addresses are never reused.
-/
namespace Tom

/-- What a node object has besides type, operator, name and children: the value, its own address and the stored parent pointer
(node.h:79-84). -/
structure Obj (α : Type) where
  value : α
  addr : Nat
  parent : Option Nat
  deriving DecidableEq, Repr

/-- `Node`, with identities: `nil` is the null pointer. -/
abbrev PTree (α : Type) := Raw (Obj α)

/-- A computation that may allocate: the next unused address is passed along. -/
def LM (β : Type) : Type := Nat → Res (β × Nat)

namespace LM

/-- sequencing -/
def bind {β γ : Type} (m : LM β) (f : β → LM γ) : LM γ := fun n => Res.bind (m n) fun p => f p.1 p.2

instance : Monad LM where
  pure b := fun n => .ok (b, n)
  bind := bind

/-- a step that does not allocate -/
def lift {β : Type} (r : Res β) : LM β := fun n => Res.bind r fun b => .ok (b, n)

/-- undefined behaviour -/
def ub {β : Type} : LM β := fun _ => .ub

/-- a violated `assert` -/
def assertFail {β : Type} : LM β := fun _ => .assertFail

/-- a new address -/
def fresh : LM Nat := fun n => .ok (n, n + 1)

/-- the boundary of a `noexcept` function -/
def noexcept {β : Type} (m : LM β) : LM β := fun n => Res.noexcept (m n)

end LM

variable {α : Type}

/-- the tree without addresses and parent pointers -/
def Raw.erase : PTree α → Raw α
  | .nil => .nil
  | .mk ty op o x l r => .mk ty op o.value x l.erase r.erase

/-- `n.get()` -/
def Raw.addr? : PTree α → Option Nat
  | .nil => none
  | .mk _ _ o _ _ _ => some o.addr

/-- `n->parent` -/
def Raw.parent? : PTree α → Option Nat
  | .nil => none
  | .mk _ _ o _ _ _ => o.parent

/-- dereferencing a pointer into the tree `root`: the object with that address (`nil` if there is none) -/
def Raw.find : PTree α → Nat → PTree α
  | .nil, _ => .nil
  | .mk ty op o x l r, a =>
    if o.addr = a then .mk ty op o x l r
    else if (l.find a).isSome then l.find a else r.find a

/-- applying an assignment to the object with that address -/
def Raw.modify (f : PTree α → PTree α) : PTree α → Nat → PTree α
  | .nil, _ => .nil
  | .mk ty op o x l r, a =>
    if o.addr = a then f (.mk ty op o x l r) else .mk ty op o x (l.modify f a) (r.modify f a)

/-- `side ? n->right : n->left` -/
def Raw.child (n : PTree α) (side : Bool) : PTree α := if side then n.right else n.left

/-- assignment to `n->left` or `n->right` -/
def Raw.withChild (side : Bool) (s : PTree α) : PTree α → PTree α
  | .nil => .nil
  | .mk ty op o x l r => if side then .mk ty op o x l s else .mk ty op o x s r

/-- A reference to a `unique_ptr`: the variable that owns the whole tree, or a field of an object. -/
inductive Slot
  | root
  | field (owner : Nat) (side : Bool)

/-- the object in a slot -/
def Slot.get (root : PTree α) : Slot → PTree α
  | .root => root
  | .field a side => (root.find a).child side

/-- assignment to a slot -/
def Slot.set (root : PTree α) (s : PTree α) : Slot → Res (PTree α)
  | .root => .ok s
  | .field a side => if (root.find a).isSome then .ok (root.modify (Raw.withChild side s) a) else .ub

/-- `n->parent = q`; undefined for a null pointer -/
def setParent (q : Option Nat) : PTree α → Res (PTree α)
  | .nil => .ub
  | .mk ty op o x l r => .ok (.mk ty op ⟨o.value, o.addr, q⟩ x l r)

/-- `std::make_unique<NodeImpl>(type, op, value, varname)` (node.cpp:23-38): a new object without parent and children -/
def newNode (ty : NodeType) (op : MathOp) (v : α) (x : Str) : LM (PTree α) := do
  let a ← LM.fresh
  pure (.mk ty op ⟨v, a, none⟩ x .nil .nil)

/-! ### Clone -/

/-- node.cpp:546-550 `MakeNode` -/
def pMakeNode (src : PTree α) (parent : Option Nat) : LM (PTree α) :=
  match src with
  | .nil => LM.ub
  | .mk ty op o x _ _ => do
    let n ← newNode ty op o.value x
    LM.lift (setParent parent n)

/-- node.cpp:552-561 `EmplaceChildren`: `tgt` is the copy of `src` -/
def pEmplaceChildren (src tgt : PTree α) (stk : List (PTree α × Nat × Slot)) : List (PTree α × Nat × Slot) :=
  match tgt with
  | .nil => stk
  | .mk _ _ o _ _ _ =>
    let stk := if src.left.isSome then (src.left, o.addr, .field o.addr false) :: stk else stk
    if src.right.isSome then (src.right, o.addr, .field o.addr true) :: stk else stk

/-- node.cpp:566-574; `root` is what `ret` owns -/
def pCloneLoop : Nat → List (PTree α × Nat × Slot) → PTree α → LM (PTree α)
  | _, [], root => pure root
  | 0, _ :: _, _ => fun _ => .diverge
  | fuel + 1, (src, parent, tgt) :: stk, root => do
    let n ← pMakeNode src (some parent)
    let root ← LM.lift (tgt.set root n)
    pCloneLoop fuel (pEmplaceChildren src n stk) root

/-- node.cpp:543-577 `CloneNonRecursively` (= `Clone`, node.cpp:644-646) -/
def pClone (node : PTree α) : LM (PTree α) := do
  let ret ← pMakeNode node none
  pCloneLoop node.size (pEmplaceChildren node ret []) ret

/-! ### Operator overloads -/

/-- node.cpp:50-55 and 56-61, in the assignment the copy constructor uses: `child = Clone(rhs.child); child->parent = this` -/
def pCopyChild (a : Nat) (s : PTree α) : LM (PTree α) :=
  if s.isSome then do
    let c ← pClone s
    LM.lift (setParent (some a) c)
  else pure .nil

/-- node.cpp:44-62, through node.cpp:40-42: the copy constructor of `NodeImpl`.  The children are cloned; `parent` is copied. -/
def pCopyCtor (rhs : PTree α) : LM (PTree α) :=
  match rhs with
  | .nil => LM.ub
  | .mk ty op o x l r => do
    let a ← LM.fresh
    let l ← pCopyChild a l
    let r ← pCopyChild a r
    pure (.mk ty op ⟨o.value, a, o.parent⟩ x l r)

/-- An operand as it is passed to an overload: a named `Node` variable as lvalue, or `std::move` of one (or a temporary, which is
a variable nobody else uses). -/
inductive Operand
  | lvalue (name : Str)
  | rvalue (name : Str)

/-- named variables holding trees -/
abbrev VEnv (β : Type) := Str → Raw β

/-- the named variables of type `Node` -/
abbrev Env (α : Type) := VEnv (Obj α)

/-- assignment to a variable -/
def VEnv.set {β : Type} (env : VEnv β) (name : Str) (t : Raw β) : VEnv β := fun y => if y = name then t else env y

/-- node.cpp:579-588 `CopyOrMoveTo(parent, child, n1)`, both overloads: the child, and the variables afterwards (a moved-from
`unique_ptr` is null). -/
def copyOrMove (env : Env α) (parent : Nat) : Operand → LM (PTree α × Env α)
  | .rvalue n1 => do
    let c ← LM.lift (setParent (some parent) (env n1))
    pure (c, env.set n1 .nil)
  | .lvalue n1 => do
    let c ← pCopyCtor (env n1)
    let c ← LM.lift (setParent (some parent) c)
    pure (c, env)

/-- node.h:172-177 `UnaryOperator` (unary `+`, `-`: node.h:250-258; functions.h) -/
def unaryOperator [Dbl α] (op : MathOp) (env : Env α) (n : Operand) : LM (PTree α × Env α) := do
  let a ← LM.fresh
  let (l, env) ← copyOrMove env a n
  pure (.mk .operator op ⟨Dbl.ofInt 0, a, none⟩ [] l .nil, env)

/-- node.h:179-185 `BinaryOperator` (`+ - * / ^`: node.h:234-292) -/
def binaryOperator [Dbl α] (op : MathOp) (env : Env α) (n1 n2 : Operand) : LM (PTree α × Env α) := do
  let a ← LM.fresh
  let (l, env) ← copyOrMove env a n1
  let (r, env) ← copyOrMove env a n2
  pure (.mk .operator op ⟨Dbl.ofInt 0, a, none⟩ [] l r, env)

/-- node.h:239-243 `operator+=`, and `-= *= /= ^=` (node.h:260-297) -/
def compoundAssign [Dbl α] (op : MathOp) (env : Env α) (n1 : Str) (n2 : Operand) : LM (Env α) := do
  let (t, env) ← binaryOperator op env (.rvalue n1) n2
  pure (env.set n1 t)

/-- `Num` (node.cpp:652-654) -/
def pNum (v : α) : LM (PTree α) := newNode .number .null v []

/-- `BinaryOperator` with two temporaries (`Move(x) * Move(y)`, node.cpp:648-650 and node.h:179-185) -/
def pBin [Dbl α] (op : MathOp) (l r : PTree α) : LM (PTree α) := do
  let a ← LM.fresh
  let l ← LM.lift (setParent (some a) l)
  let r ← LM.lift (setParent (some a) r)
  pure (.mk .operator op ⟨Dbl.ofInt 0, a, none⟩ [] l r)

/-- `UnaryOperator` with a temporary -/
def pUn [Dbl α] (op : MathOp) (l : PTree α) : LM (PTree α) := do
  let a ← LM.fresh
  let l ← LM.lift (setParent (some a) l)
  pure (.mk .operator op ⟨Dbl.ofInt 0, a, none⟩ [] l .nil)

/-- node.cpp:595-610 `internal::Operator`: null children are allowed -/
def pOperator [Dbl α] (op : MathOp) (l r : PTree α) : LM (PTree α) := do
  let a ← LM.fresh
  let l ← if l.isSome then LM.lift (setParent (some a) l) else pure .nil
  let r ← if r.isSome then LM.lift (setParent (some a) r) else pure .nil
  pure (.mk .operator op ⟨Dbl.ofInt 0, a, none⟩ [] l r)

/-! ### CheckParent -/

/-- node.cpp:205-221 `CheckOperatorNum`, as a condition -/
def checkOperatorNum : PTree α → Bool
  | .nil => true
  | .mk .operator op _ _ l r =>
    l.isSome && (if operatorNum op = 1 then !r.isSome else if operatorNum op = 2 then r.isSome else false)
  | .mk .. => true

/-- node.cpp:171-203 `CheckParent`, the loop over a stack of references; `root` is the tree they refer into -/
def checkParentLoop (root : PTree α) : Nat → List (PTree α) → Res Unit
  | _, [] => .ok ()
  | 0, _ :: _ => .diverge
  | fuel + 1, f :: stk =>
    match f.parent? with
    | none => .assertFail
    | some p =>
      if (root.find p).isSome = false then .ub
      else if (root.find p).left.addr? = f.addr? ∨ (root.find p).right.addr? = f.addr? then
        if checkOperatorNum f then
          let stk := if f.left.isSome then f.left :: stk else stk
          let stk := if f.right.isSome then f.right :: stk else stk
          checkParentLoop root fuel stk
        else .assertFail
      else .assertFail

/-- node.cpp:171-203 `CheckParent` -/
def checkParent (node : PTree α) : Res Unit :=
  if node.isSome = false then .ub
  else if checkOperatorNum node then
    let stk := if node.left.isSome then [node.left] else []
    let stk := if node.right.isSome then node.right :: stk else stk
    checkParentLoop node node.size stk
  else .assertFail

/-! ### Subs -/

/-- subs.cpp:19-34 `Replace` on a slot: the new tree if it was a mapped variable -/
def pReplace (dict : List (Str × PTree α)) (root : PTree α) (cur : Slot) : LM (Option (PTree α)) :=
  match cur.get root with
  | .mk .variable _ o x _ _ =>
    match mapFind x dict with
    | some img => do
      let c ← pClone img
      let c ← LM.lift (setParent o.parent c)
      let root ← LM.lift (cur.set root c)
      pure (some root)
    | none => pure none
  | .nil => LM.ub
  | _ => pure none

/-- subs.cpp:37-41 `TryReplace`; the stack holds addresses -/
def pTry (dict : List (Str × PTree α)) (cur : Slot) (s : PTree α × List Nat) : LM (PTree α × List Nat) :=
  match cur.get s.1 with
  | .nil => pure s
  | .mk _ _ o _ _ _ => do
    match ← pReplace dict s.1 cur with
    | some root => pure (root, s.2)
    | none => pure (s.1, o.addr :: s.2)

/-- subs.cpp:46-51 -/
def pSubsLoop (dict : List (Str × PTree α)) : Nat → PTree α × List Nat → LM (PTree α)
  | _, (root, []) => pure root
  | 0, (_, _ :: _) => fun _ => .diverge
  | fuel + 1, (root, f :: stk) =>
    if (root.find f).isSome then do
      let s ← pTry dict (.field f true) (root, stk)
      let s ← pTry dict (.field f false) s
      pSubsLoop dict fuel s
    else LM.ub

/-- subs.cpp:15-58 `SubsInner` -/
def pSubsInner (node : PTree α) (dict : List (Str × PTree α)) : LM (PTree α) :=
  match node with
  | .nil => LM.ub
  | .mk _ _ o _ _ _ => do
    match ← pReplace dict node .root with
    | some root => pure root
    | none =>
      let s ← pTry dict (.field o.addr true) (node, [])
      let s ← pTry dict (.field o.addr false) s
      pSubsLoop dict node.size s

/-! ### Simplify -/

/-- simplify.cpp:24-81 `SimplifySingleNode`, on the object in the slot: what the slot holds afterwards. -/
def pSimplifySingle [Dbl α] (cfg : Config α) (n : PTree α) : LM (PTree α) :=
  LM.noexcept <|
  match n with
  | .nil => LM.ub
  | .mk ty op o x l r =>
    if operatorNum op = 1 then
      match l with
      | .nil => LM.ub
      | .mk lt _ lo _ _ _ =>
        if lt = .number then do
          let v ← LM.lift (calcOp cfg op lo.value (Dbl.ofInt 0))
          pure (.mk .number .null ⟨v, o.addr, o.parent⟩ x .nil r)
        else pure (.mk ty op o x l r)
    else if operatorNum op = 2 then
      match l with
      | .nil => LM.ub
      | .mk lt _ lo _ _ _ =>
        match r with
        | .nil => if lt = .number then LM.ub else LM.assertFail
        | .mk rt _ ro _ _ _ =>
          if lt = .number ∧ rt = .number then do
            let v ← LM.lift (calcOp cfg op lo.value ro.value)
            pure (.mk .number .null ⟨v, o.addr, o.parent⟩ x .nil .nil)
          else
            let l0 := isNumEq l.erase (Dbl.ofInt 0)
            let r0 := isNumEq r.erase (Dbl.ofInt 0)
            let l1 := isNumEq l.erase (Dbl.ofInt 1)
            let r1 := isNumEq r.erase (Dbl.ofInt 1)
            if (op = .mul ∧ (l0 ∨ r0)) ∨ (op = .div ∧ l0) ∨ (op = .pow ∧ l0) then do
              let z ← pNum (Dbl.ofInt 0)
              LM.lift (setParent o.parent z)
            else if (op = .add ∧ (l0 ∨ r0)) ∨ (op = .sub ∧ r0) ∨ (op = .mul ∧ (l1 ∨ r1)) ∨
                (op = .div ∧ r1) ∨ (op = .pow ∧ r1) then
              if l1 ∨ l0 then LM.lift (setParent o.parent r)
              else if r1 ∨ r0 then LM.lift (setParent o.parent l)
              else pure (.mk ty op o x l r)
            else pure (.mk ty op o x l r)
    else LM.assertFail

/-- simplify.cpp:16-21 `SimplifyNode`: the reference and `!node.parent || node.parent->left.get() == &node` -/
def pSimplifyNode (root n : PTree α) : Res (Nat × Bool) :=
  match n with
  | .nil => .ub
  | .mk _ _ o _ _ _ =>
    match o.parent with
    | none => .ok (o.addr, true)
    | some p => if (root.find p).isSome then .ok (o.addr, (root.find p).left.addr? == some o.addr) else .ub

/-- simplify.cpp:104-116, part I -/
def pSimplifyPartI (root : PTree α) : Nat → List (Nat × Bool) → List (Nat × Bool) → Res (List (Nat × Bool))
  | _, [], out => .ok out
  | 0, _ :: _, _ => .diverge
  | fuel + 1, (a, fl) :: stk, out => do
    let f := root.find a
    let stk ← if f.left.isOperator then do
        let e ← pSimplifyNode root f.left
        .ok (e :: stk)
      else .ok stk
    let stk ← if f.right.isOperator then do
        let e ← pSimplifyNode root f.right
        .ok (e :: stk)
      else .ok stk
    pSimplifyPartI root fuel stk (out ++ [(a, fl)])

/-- simplify.cpp:122-124, part II -/
def pSimplifyPartII [Dbl α] (cfg : Config α) : List (Nat × Bool) → PTree α → LM (PTree α)
  | [], root => pure root
  | (a, fl) :: es, root =>
    match (root.find a).parent? with
    | none => LM.ub
    | some p =>
      if (root.find p).isSome then do
        let n ← pSimplifySingle cfg ((Slot.field p (!fl)).get root)
        let root ← LM.lift ((Slot.field p (!fl)).set root n)
        pSimplifyPartII cfg es root
      else LM.ub

/-- simplify.cpp:84-128 `SimplifyWholeNode`, and 174-177 `Simplify` -/
def pSimplify [Dbl α] (cfg : Config α) (node : PTree α) : LM (PTree α) :=
  LM.noexcept <|
  if node.isSome = false then LM.ub
  else if node.isOperator = false then pure node
  else do
    let e ← LM.lift (pSimplifyNode node node)
    let order ← LM.lift (pSimplifyPartI node node.size [e] [])
    let root ← pSimplifyPartII cfg order.tail.reverse node
    pSimplifySingle cfg root

/-! ### Diff -/

/-- diff.cpp:15-20 `DiffNode`, `q.emplace(*n)`: the reference and `node.parent && node.parent->left.get() == &node`.  `live` is the
tree the parent pointer is followed in. -/
def pDiffNode (live n : PTree α) : Res (Nat × Bool) :=
  match n with
  | .nil => .ub
  | .mk _ _ o _ _ _ =>
    match o.parent with
    | none => .ok (o.addr, false)
    | some p => if (live.find p).isSome then .ok (o.addr, (live.find p).left.addr? == some o.addr) else .ub

/-- diff.cpp:64-92 `CullNumberMember`, `CullNumberMemberBinary` -/
def pCulled [Dbl α] (o : Obj α) (x : Str) (r : PTree α) : PTree α :=
  .mk .number .null ⟨Dbl.ofInt 0, o.addr, o.parent⟩ x .nil r

/-- diff.cpp:58-386 `DiffOnceOperator`: `live` is the whole tree, `n` the object in the slot; result: what the slot holds
afterwards, and the new queue entries. -/
def pDiffOp [Dbl α] (live n : PTree α) : LM (PTree α × List (Nat × Bool)) :=
  let finish (parent : Option Nat) (t : PTree α) (q : List (Nat × Bool)) : LM (PTree α × List (Nat × Bool)) := do
    let t ← LM.lift (setParent parent t)
    pure (t, q)
  match n with
  | .nil => LM.ub
  | .mk ty op o x l r =>
    match op with
    | .positive | .negative => do
      let e ← LM.lift (pDiffNode live l)
      pure (n, [e])
    | .sin =>
      if l.isSome = false then LM.assertFail
      else if l.isNumber then pure (pCulled o x r, [])
      else do
        let u2 ← pClone l
        let e ← LM.lift (pDiffNode live u2)
        let t ← pBin .mul (.mk ty .cos o x l r) u2
        finish o.parent t [e]
    | .cos =>
      if l.isSome = false then LM.assertFail
      else if l.isNumber then pure (pCulled o x r, [])
      else do
        let u2 ← pClone l
        let e ← LM.lift (pDiffNode live u2)
        let m ← pUn .negative (.mk ty .sin o x l r)
        let t ← pBin .mul m u2
        finish o.parent t [e]
    | .tan =>
      if l.isSome = false then LM.assertFail
      else if l.isNumber then pure (pCulled o x r, [])
      else do
        let u2 ← pClone l
        let e ← LM.lift (pDiffNode live u2)
        let n1 ← pNum (Dbl.ofInt 1)
        let n2 ← pNum (Dbl.ofInt 2)
        let p ← pBin .pow (.mk ty .cos o x l r) n2
        let d ← pBin .div n1 p
        let t ← pBin .mul d u2
        finish o.parent t [e]
    | .arcsin =>
      if l.isSome = false then LM.assertFail
      else if l.isNumber then pure (pCulled o x r, [])
      else do
        let u2 ← pClone l
        let e ← LM.lift (pDiffNode live u2)
        let n1 ← pNum (Dbl.ofInt 1)
        let m1 ← pNum (Dbl.ofInt 1)
        let n2 ← pNum (Dbl.ofInt 2)
        let p ← pBin .pow l n2
        let s ← pBin .sub m1 p
        let q ← pUn .sqrt s
        let d ← pBin .div n1 q
        let t ← pBin .mul d u2
        finish o.parent t [e]
    | .arccos =>
      if l.isSome = false then LM.assertFail
      else if l.isNumber then pure (pCulled o x r, [])
      else do
        let u2 ← pClone l
        let e ← LM.lift (pDiffNode live u2)
        let n1 ← pNum (Dbl.ofInt (-1))
        let m1 ← pNum (Dbl.ofInt 1)
        let n2 ← pNum (Dbl.ofInt 2)
        let p ← pBin .pow l n2
        let s ← pBin .sub m1 p
        let q ← pUn .sqrt s
        let d ← pBin .div n1 q
        let t ← pBin .mul d u2
        finish o.parent t [e]
    | .arctan =>
      if l.isSome = false then LM.assertFail
      else if l.isNumber then pure (pCulled o x r, [])
      else do
        let u2 ← pClone l
        let e ← LM.lift (pDiffNode live u2)
        let n1 ← pNum (Dbl.ofInt 1)
        let m1 ← pNum (Dbl.ofInt 1)
        let n2 ← pNum (Dbl.ofInt 2)
        let p ← pBin .pow l n2
        let s ← pBin .add m1 p
        let d ← pBin .div n1 s
        let t ← pBin .mul d u2
        finish o.parent t [e]
    | .sqrt =>
      if l.isSome = false then LM.assertFail
      else if l.isNumber then pure (pCulled o x r, [])
      else do
        let u2 ← pClone l
        let e ← LM.lift (pDiffNode live u2)
        let n1 ← pNum (Dbl.ofInt 1)
        let n2 ← pNum (Dbl.ofInt 2)
        let m ← pBin .mul n2 n
        let d ← pBin .div n1 m
        let t ← pBin .mul d u2
        finish o.parent t [e]
    | .log =>
      if l.isSome = false then LM.assertFail
      else if l.isNumber then pure (pCulled o x r, [])
      else do
        let u2 ← pClone l
        let e ← LM.lift (pDiffNode live u2)
        let n1 ← pNum (Dbl.ofInt 1)
        let d ← pBin .div n1 l
        let t ← pBin .mul d u2
        finish o.parent t [e]
    | .log2 =>
      if l.isSome = false then LM.assertFail
      else if l.isNumber then pure (pCulled o x r, [])
      else do
        let u2 ← pClone l
        let e ← LM.lift (pDiffNode live u2)
        let n1 ← pNum (Dbl.ofInt 1)
        let c ← pNum (Dbl.log (Dbl.ofInt 2))
        let m ← pBin .mul l c
        let d ← pBin .div n1 m
        let t ← pBin .mul d u2
        finish o.parent t [e]
    | .log10 =>
      if l.isSome = false then LM.assertFail
      else if l.isNumber then pure (pCulled o x r, [])
      else do
        let u2 ← pClone l
        let e ← LM.lift (pDiffNode live u2)
        let n1 ← pNum (Dbl.ofInt 1)
        let c ← pNum (Dbl.log (Dbl.ofInt 10))
        let m ← pBin .mul l c
        let d ← pBin .div n1 m
        let t ← pBin .mul d u2
        finish o.parent t [e]
    | .exp =>
      if l.isSome = false then LM.assertFail
      else if l.isNumber then pure (pCulled o x r, [])
      else if l.isVariable then pure (n, [])
      else do
        let u2 ← pClone l
        let e ← LM.lift (pDiffNode live u2)
        let t ← pBin .mul n u2
        finish o.parent t [e]
    | .add | .sub =>
      if l.isSome = false ∨ r.isSome = false then LM.assertFail
      else if l.isNumber ∧ r.isNumber then pure (pCulled o x .nil, [])
      else do
        let e1 ← LM.lift (pDiffNode live l)
        let e2 ← LM.lift (pDiffNode live r)
        pure (n, [e1, e2])
    | .mul =>
      if l.isSome = false ∨ r.isSome = false then LM.ub
      else if l.isNumber then do
        let e ← LM.lift (pDiffNode live r)
        pure (n, [e])
      else if r.isNumber then do
        let e ← LM.lift (pDiffNode live l)
        pure (n, [e])
      else do
        let e1 ← LM.lift (pDiffNode live l)
        let u2 ← pClone l
        let v2 ← pClone r
        let e2 ← LM.lift (pDiffNode live v2)
        let m ← pBin .mul u2 v2
        let t ← pBin .add n m
        finish o.parent t [e1, e2]
    | .div =>
      if l.isSome = false ∨ r.isSome = false then LM.ub
      else if r.isNumber then do
        let e ← LM.lift (pDiffNode live l)
        pure (n, [e])
      else do
        let u2 ← pClone l
        let v2 ← pClone r
        let v3 ← pClone r
        let e1 ← LM.lift (pDiffNode live l)
        let e2 ← LM.lift (pDiffNode live v2)
        let m1 ← pBin .mul l r
        let m2 ← pBin .mul u2 v2
        let s ← pBin .sub m1 m2
        let n2 ← pNum (Dbl.ofInt 2)
        let p ← pBin .pow v3 n2
        let t ← pBin .div s p
        finish o.parent t [e1, e2]
    | .pow =>
      if l.isSome = false ∨ r.isSome = false then LM.assertFail
      else if l.isNumber ∧ r.isNumber then pure (pCulled o x .nil, [])
      else
        match l, r with
        | _, .mk .number _ ao _ _ _ => do
          let u2 ← pClone l
          let e ← LM.lift (pDiffNode live u2)
          let c ← pNum (Arith.sub ao.value (Dbl.ofInt 1))
          let p ← pBin .pow l c
          let m ← pBin .mul r p
          let t ← pBin .mul m u2
          finish o.parent t [e]
        | .mk .number _ ao _ _ _, _ => do
          let u2 ← pClone r
          let e ← LM.lift (pDiffNode live u2)
          let p ← pBin .pow l r
          let c ← pNum ao.value
          let g ← pUn .log c
          let m ← pBin .mul p g
          let t ← pBin .mul m u2
          finish o.parent t [e]
        | _, _ => do
          let cv ← pClone r
          let cu ← pClone l
          let g ← pUn .log cu
          let w ← pBin .mul cv g
          let e ← LM.lift (pDiffNode live w)
          let t ← pBin .mul n w
          finish o.parent t [e]
    | .and | .or | .mod => LM.lift (.throw .runtime)
    | .null | .lparen | .rparen => LM.assertFail

/-- diff.cpp:31-55, the loop over the FIFO queue of references -/
def pDiffLoop [Dbl α] (varname : Str) : Nat → List (Nat × Bool) → PTree α → LM (PTree α)
  | _, [], root => pure root
  | 0, _ :: _, _ => fun _ => .diverge
  | fuel + 1, (a, isLeftChild) :: q, root =>
    match root.find a with
    | .nil => LM.ub
    | .mk .variable _ _ x _ _ =>
      pDiffLoop varname fuel q (root.modify (fun n => match n with
        | .nil => .nil
        | .mk _ op o _ l r =>
          .mk .number op ⟨if x = varname then Dbl.ofInt 1 else Dbl.ofInt 0, o.addr, o.parent⟩ [] l r) a)
    | .mk .number .. =>
      pDiffLoop varname fuel q (root.modify (fun n => match n with
        | .nil => .nil
        | .mk ty op o x l r => .mk ty op ⟨Dbl.ofInt 0, o.addr, o.parent⟩ x l r) a)
    | .mk .operator _ o _ _ _ =>
      match o.parent with
      | none => LM.ub
      | some p =>
        if (root.find p).isSome then do
          let (n, new) ← pDiffOp root ((Slot.field p (!isLeftChild)).get root)
          let root ← LM.lift ((Slot.field p (!isLeftChild)).set root n)
          pDiffLoop varname fuel (q ++ new) root
        else LM.ub

/-- diff.cpp:22-56 `DiffOnce` -/
def pDiffOnce [Dbl α] (varname : Str) (root : PTree α) : LM (PTree α) :=
  match root with
  | .nil => LM.ub
  | .mk .operator .. => do
    let (n, new) ← pDiffOp root root
    pDiffLoop varname (diffFuel root.erase) new n
  | .mk .. => do
    let e ← LM.lift (pDiffNode root root)
    pDiffLoop varname (diffFuel root.erase) [e] root

/-- diff.cpp:399-401 -/
def pDiffTimes [Dbl α] (varname : Str) : Nat → PTree α → LM (PTree α)
  | 0, n => pure n
  | i + 1, n => do
    let n ← pDiffOnce varname n
    pDiffTimes varname i n

/-! ### Parse -/

/-- parse.cpp:314-355 on objects: the postfix sequence of childless nodes with their columns, and the stack. -/
def pBuildLoop : List (PTree α × Nat) → List (PTree α × Nat) → Res (List (PTree α × Nat))
  | [], stk => .ok stk
  | (t, k) :: rest, stk =>
    match t with
    | .nil => .ub
    | .mk .number .. | .mk .variable .. => pBuildLoop rest ((t, k) :: stk)
    | .mk .operator op o x l r =>
      if operatorNum op = 2 then
        match stk with
        | [] => .throw (.math .wrongExpression)
        | [_] => .throw (.math .wrongExpression)
        | (rt, _) :: (lt, _) :: stk => do
          let rt ← setParent (some o.addr) rt
          let lt ← setParent (some o.addr) lt
          pBuildLoop rest ((.mk .operator op o x lt rt, k) :: stk)
      else if operatorNum op = 1 then
        match stk with
        | [] => .throw (.math .wrongExpression)
        | (lt, _) :: stk => do
          let lt ← setParent (some o.addr) lt
          pBuildLoop rest ((.mk .operator op o x lt r, k) :: stk)
      else .assertFail

/-- parse.cpp:303-372 `BuildExpressionTree` -/
def pBuildExpressionTree (postOrder : List (PTree α × Nat)) : Res (PTree α) := do
  let stk ← pBuildLoop postOrder []
  match stk with
  | [] => .ub
  | [t] => .ok t.1
  | _ :: rest => .throw (.multiParse (rest.map Prod.snd))

/-- The objects of the tokens.  (The code allocates them while it scans the text; here they are numbered in the order in which the
tree builder sees them, which matters to nobody.) -/
def pTokens : List (Token α) → LM (List (PTree α × Nat))
  | [] => pure []
  | t :: ts => do
    let n ← match t.node with
      | .nil => pure .nil
      | .mk ty op v x _ _ => newNode ty op v x
    let rest ← pTokens ts
    pure ((n, t.pos) :: rest)

/-- parse.cpp:376-381 `Parse` -/
def pParse [Dbl α] (expression : Str) : LM (PTree α) := do
  let tokens ← LM.lift (parseToTokens expression)
  let postOrder ← LM.lift (inOrderToPostOrder tokens)
  let ts ← pTokens postOrder
  LM.lift (pBuildExpressionTree ts)

/-! ### ToString -/

/-- node.cpp:348-364, following `cur->parent` -/
def pNeedParen (root cur : PTree α) : Res Bool :=
  match cur.parent? with
  | none => .ok false
  | some p =>
    if (root.find p).isSome then
      .ok (needParen ⟨some (root.find p).op, (root.find p).right.addr? == cur.addr?⟩ cur.op)
    else .ub

/-- node.cpp:317-379 `AddLeftLine`; `none` on the stack is the shared right parenthesis -/
def pAddLeftLine [Dbl α] (root : PTree α) : PTree α → List (Option (PTree α)) → Str → Res (List (Option (PTree α)) × Str)
  | .nil, stk, out => .ok (stk, out)
  | .mk .operator op o x l r, stk, out =>
    if operatorNum op = 1 then
      match l with
      | .nil => .ub
      | .mk .. =>
        if (op = .positive ∨ op = .negative) ∧ l.isOperator = false then
          pAddLeftLine root l stk (out ++ op.toStr)
        else pAddLeftLine root l (none :: stk) (out ++ op.toStr ++ ['('])
    else if operatorNum op = 0 then .assertFail
    else do
      let b ← pNeedParen root (.mk .operator op o x l r)
      if b then pAddLeftLine root l (some (.mk .operator op o x l r) :: none :: stk) (out ++ ['('])
      else pAddLeftLine root l (some (.mk .operator op o x l r) :: stk) out
  | .mk ty op o x l r, stk, out => pAddLeftLine root l (some (.mk ty op o x l r) :: stk) out

/-- node.cpp:389-396 -/
def pPrintNode [Dbl α] (root t : PTree α) : Res Str :=
  match t with
  | .mk .number _ o _ _ _ =>
    if Arith.lt o.value (Dbl.ofInt 0) then
      match o.parent with
      | none => .ok (nodeToStr t.erase)
      | some p =>
        if (root.find p).isSome then
          if (root.find p).right.addr? = some o.addr ∧ (root.find p).op = .sub then .ok (['('] ++ nodeToStr t.erase ++ [')'])
          else .ok (nodeToStr t.erase)
        else .ub
    else .ok (nodeToStr t.erase)
  | _ => .ok (nodeToStr t.erase)

/-- node.cpp:383-402 -/
def pToStringLoop [Dbl α] (root : PTree α) : Nat → List (Option (PTree α)) → Str → Res Str
  | _, [], out => .ok out
  | 0, _ :: _, _ => .diverge
  | fuel + 1, none :: stk, out => pToStringLoop root fuel stk (out ++ [')'])
  | fuel + 1, some t :: stk, out => do
    let s ← pPrintNode root t
    if t.right.isSome then do
      let (stk, out) ← pAddLeftLine root t.right stk (out ++ s)
      pToStringLoop root fuel stk out
    else pToStringLoop root fuel stk (out ++ s)

/-- node.cpp:312-403 `ToStringNonRecursively` -/
def pToString [Dbl α] (node : PTree α) : Res Str :=
  if node.isSome then do
    let (stk, out) ← pAddLeftLine node node [] []
    pToStringLoop node (2 * node.size) stk out
  else .ub

/-! ### Diff, debug build -/

/-- diff.cpp:396-411 `Diff(Node&&, varname, i)` with what a debug build does besides: `ToString` and
`CheckParent` (diff.cpp:402-409) -/
def pDiff [Dbl α] (cfg : Config α) (node : PTree α) (varname : Str) (i : Int) : LM (PTree α) :=
  if i > 0 then do
    let n ← pDiffTimes varname i.toNat node
    let _ ← LM.lift (pToString n)
    LM.lift (checkParent n)
    let n ← pSimplify cfg n
    LM.lift (checkParent n)
    pure n
  else LM.assertFail

end Tom
