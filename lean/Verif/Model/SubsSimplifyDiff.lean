import Verif.Model.Tree
/-
Models src/tomsolver/subs.cpp, simplify.cpp and diff.cpp.
-/
namespace Tom

variable {α : Type} [Dbl α]

/-! ### std::map -/

/-- `std::map<std::string, β>::insert`: no effect when the key is present.  The map is the key-sorted list
of its entries. -/
def mapInsert {β : Type} (k : Str) (b : β) : List (Str × β) → List (Str × β)
  | [] => [(k, b)]
  | (k', b') :: m =>
    if strLt k k' then (k, b) :: (k', b') :: m
    else if strLt k' k then (k', b') :: mapInsert k b m
    else (k', b') :: m

/-- `map[k] = b` -/
def mapAssign {β : Type} (k : Str) (b : β) : List (Str × β) → List (Str × β)
  | [] => [(k, b)]
  | (k', b') :: m =>
    if strLt k k' then (k, b) :: (k', b') :: m
    else if strLt k' k then (k', b') :: mapAssign k b m
    else (k', b) :: m

/-- `map.find(k)` -/
def mapFind {β : Type} (k : Str) : List (Str × β) → Option β
  | [] => none
  | (k', b') :: m => if k = k' then some b' else mapFind k m

/-! ### Subs -/

/-- subs.cpp:19-34 `Replace` on the slot at `p`: `some root'` when it was a mapped variable.  The image is
cloned (`Clone(itor->second)`; cloning is the identity on values, property C10). -/
def subsReplace (dict : List (Str × Raw α)) (root : Raw α) (p : Path) : Option (Raw α) :=
  match root.getAt p with
  | .mk .variable _ _ x _ _ =>
    match mapFind x dict with
    | some img => some (root.setAt p img)
    | none => none
  | _ => none

/-- subs.cpp:37-41 `TryReplace` -/
def subsTry (dict : List (Str × Raw α)) (p : Path) (s : Raw α × List Path) : Raw α × List Path :=
  if (s.1.getAt p).isSome then
    match subsReplace dict s.1 p with
    | some root => (root, s.2)
    | none => (s.1, p :: s.2)
  else s

/-- subs.cpp:46-51, the loop: the stack holds references to nodes of the tree being rewritten. -/
def subsLoop (dict : List (Str × Raw α)) : Nat → Raw α × List Path → Res (Raw α)
  | _, (root, []) => .ok root
  | 0, (_, _ :: _) => .diverge
  | fuel + 1, (root, p :: stk) =>
    subsLoop dict fuel (subsTry dict (p ++ [false]) (subsTry dict (p ++ [true]) (root, stk)))

/-- subs.cpp:15-58 `SubsInner` -/
def subsInner (node : Raw α) (dict : List (Str × Raw α)) : Res (Raw α) :=
  if node.isSome then
    match subsReplace dict node [] with
    | some root => .ok root
    | none => subsLoop dict node.size (subsTry dict [false] (subsTry dict [true] (node, [])))
  else .ub

/-- subs.cpp:67-71 `Subs(Node&&, const string&, const Node&)` -/
def subs1 (node : Raw α) (oldVar : Str) (newNode : Raw α) : Res (Raw α) := do
  let c ← clone newNode
  subsInner node (mapInsert oldVar c [])

/-- subs.cpp:80-82: the dictionary built by `dict.insert` in order (the first binding of a name wins). -/
def dictOfLists : List Str → List (Raw α) → Res (List (Str × Raw α)) → Res (List (Str × Raw α))
  | v :: vs, n :: ns, acc => dictOfLists vs ns (do
      let m ← acc
      let c ← clone n
      .ok (mapInsert v c m))
  | _, _, acc => acc

/-- subs.cpp:77-84 `Subs(Node&&, const vector<string>&, const SymVec&)` -/
def subsVec (node : Raw α) (oldVars : List Str) (newNodes : List (Raw α)) : Res (Raw α) := do
  Res.assert (oldVars.length == newNodes.length)
  let dict ← dictOfLists oldVars newNodes (.ok [])
  subsInner node dict

/-- subs.cpp:98-104 and 110-116 `Subs(Node&&, map<string,double> / VarsTable)`: the table iterated in key order. -/
def subsValues (node : Raw α) (values : List (Str × α)) : Res (Raw α) :=
  subsInner node (values.foldl (fun m kv => mapInsert kv.1 (mkNum kv.2) m) [])

/-- subs.cpp:90-92 `Subs(Node&&, const map<string,Node>&)`: the map as its key-sorted entries. -/
def subsDict (node : Raw α) (dict : List (Str × Raw α)) : Res (Raw α) := subsInner node dict

/-- subs.cpp:63-65 `Subs(const Node&, const string&, const Node&)` -/
def subs1Const (node : Raw α) (oldVar : Str) (newNode : Raw α) : Res (Raw α) := do
  let c ← clone node
  subs1 c oldVar newNode

/-- subs.cpp:73-75 `Subs(const Node&, const vector<string>&, const SymVec&)` -/
def subsVecConst (node : Raw α) (oldVars : List Str) (newNodes : List (Raw α)) : Res (Raw α) := do
  let c ← clone node
  subsVec c oldVars newNodes

/-- subs.cpp:94-96, 106-108 `Subs(const Node&, map<string,double> / VarsTable)` -/
def subsValuesConst (node : Raw α) (values : List (Str × α)) : Res (Raw α) := do
  let c ← clone node
  subsValues c values

/-! ### Simplify -/

/-- `n->left->type == NUMBER && n->left->value == c` (simplify.cpp:50-53) -/
def isNumEq (t : Raw α) (c : α) : Bool :=
  match t with
  | .mk .number _ v _ _ _ => Arith.eq v c
  | _ => false

/-- simplify.cpp:38-79, case 2 of `SimplifySingleNode` (`n` is the node, `l`, `r` its children; a null child is
dereferenced by the first test, or caught by the `assert`). -/
def simplifyBinary (cfg : Config α) (op : MathOp) (x : Str) (n l r : Raw α) : Res (Raw α) :=
  match l with
  | .nil => .ub
  | .mk lt _ lv _ _ _ =>
    match r with
    | .nil => if lt = .number then .ub else .assertFail
    | .mk rt _ rv _ _ _ =>
      if lt = .number ∧ rt = .number then do
        let v ← calcOp cfg op lv rv
        .ok (.mk .number .null v x .nil .nil)
      else
        let l0 := isNumEq l (Dbl.ofInt 0)
        let r0 := isNumEq r (Dbl.ofInt 0)
        let l1 := isNumEq l (Dbl.ofInt 1)
        let r1 := isNumEq r (Dbl.ofInt 1)
        if (op = .mul ∧ (l0 ∨ r0)) ∨ (op = .div ∧ l0) ∨ (op = .pow ∧ l0) then
          .ok (mkNum (Dbl.ofInt 0))
        else if (op = .add ∧ (l0 ∨ r0)) ∨ (op = .sub ∧ r0) ∨ (op = .mul ∧ (l1 ∨ r1)) ∨
            (op = .div ∧ r1) ∨ (op = .pow ∧ r1) then
          if l1 ∨ l0 then .ok r
          else if r1 ∨ r0 then .ok l
          else .ok n
        else .ok n

/-- simplify.cpp:29-36, case 1 of `SimplifySingleNode`. -/
def simplifyUnary (cfg : Config α) (op : MathOp) (x : Str) (n l r : Raw α) : Res (Raw α) :=
  match l with
  | .nil => .ub
  | .mk lt _ lv _ _ _ =>
    if lt = .number then do
      let v ← calcOp cfg op lv (Dbl.ofInt 0)
      .ok (.mk .number .null v x .nil r)
    else .ok n

/-- simplify.cpp:24-81 `SimplifySingleNode` (`noexcept`). -/
def simplifySingle (cfg : Config α) (n : Raw α) : Res (Raw α) :=
  Res.noexcept <|
  match n with
  | .nil => .ub
  | .mk _ op _ x l r =>
    if operatorNum op = 1 then simplifyUnary cfg op x n l r
    else if operatorNum op = 2 then simplifyBinary cfg op x n l r
    else .assertFail

/-- simplify.cpp:104-116, part I: the operator nodes, by paths; `emplace_back` appends. -/
def simplifyPartI (root : Raw α) : Nat → List Path → List Path → Res (List Path)
  | _, [], out => .ok out
  | 0, _ :: _, _ => .diverge
  | fuel + 1, p :: stk, out =>
    let f := root.getAt p
    let stk := if f.left.isOperator then (p ++ [false]) :: stk else stk
    let stk := if f.right.isOperator then (p ++ [true]) :: stk else stk
    simplifyPartI root fuel stk (out ++ [p])

/-- simplify.cpp:122-124, part II: simplify the slots in the given order. -/
def simplifyPartII (cfg : Config α) : List Path → Raw α → Res (Raw α)
  | [], root => .ok root
  | p :: ps, root => do
    let n ← simplifySingle cfg (root.getAt p)
    simplifyPartII cfg ps (root.setAt p n)

/-- simplify.cpp:84-169 `SimplifyWholeNode` -/
def simplifyWhole (cfg : Config α) (node : Raw α) : Res (Raw α) :=
  if node.isSome = false then .ub
  else if node.isOperator = false then .ok node
  else do
    let order ← simplifyPartI node node.size [[]] []
    let root ← simplifyPartII cfg order.tail.reverse node
    simplifySingle cfg root

/-- simplify.cpp:174-177 `Simplify` (`noexcept`) -/
def simplify (cfg : Config α) (node : Raw α) : Res (Raw α) := Res.noexcept (simplifyWhole cfg node)

/-! ### Diff -/

/-- diff.cpp:64-75 / 80-92: the node turned into the number 0 (`CullNumberMember*`). -/
def culled (x : Str) (r : Raw α) : Raw α := .mk .number .null (Dbl.ofInt 0) x .nil r

/-- diff.cpp:14-20 `DiffNode`: a reference to a node and the flag `isLeftChild` computed when it is put into
the queue.  A node keeps its identity when its owner is moved into a larger tree, so the reference is the
path the node has in the rewritten tree; the flag is what `node.parent && node.parent->left.get() == &node`
gave at the time of `q.emplace` (a fresh clone has no parent, so the flag is `false`). -/
abbrev DiffNode := Path × Bool

/-- diff.cpp:58-386 `DiffOnceOperator`: the rewritten node and, in order of `q.emplace`, the queue entries,
with paths relative to the rewritten node. -/
def diffOp (n : Raw α) : Res (Raw α × List DiffNode) :=
  let num (i : Int) : Raw α := mkNum (Dbl.ofInt i)
  match n with
  | .nil => .ub
  | .mk ty op v x l r =>
    match op with
    | .positive | .negative => if l.isSome then .ok (n, [([false], true)]) else .ub
    | .sin =>
      if l.isSome = false then .assertFail
      else if l.isNumber then .ok (culled x r, [])
      else .ok (binaryNode .mul (.mk ty .cos v x l r) l, [([true], false)])
    | .cos =>
      if l.isSome = false then .assertFail
      else if l.isNumber then .ok (culled x r, [])
      else .ok (binaryNode .mul (unaryNode .negative (.mk ty .sin v x l r)) l, [([true], false)])
    | .tan =>
      if l.isSome = false then .assertFail
      else if l.isNumber then .ok (culled x r, [])
      else .ok (binaryNode .mul (binaryNode .div (num 1) (binaryNode .pow (.mk ty .cos v x l r) (num 2))) l,
        [([true], false)])
    | .arcsin =>
      if l.isSome = false then .assertFail
      else if l.isNumber then .ok (culled x r, [])
      else .ok (binaryNode .mul
        (binaryNode .div (num 1) (unaryNode .sqrt (binaryNode .sub (num 1) (binaryNode .pow l (num 2))))) l,
        [([true], false)])
    | .arccos =>
      if l.isSome = false then .assertFail
      else if l.isNumber then .ok (culled x r, [])
      else .ok (binaryNode .mul
        (binaryNode .div (num (-1)) (unaryNode .sqrt (binaryNode .sub (num 1) (binaryNode .pow l (num 2))))) l,
        [([true], false)])
    | .arctan =>
      if l.isSome = false then .assertFail
      else if l.isNumber then .ok (culled x r, [])
      else .ok (binaryNode .mul
        (binaryNode .div (num 1) (binaryNode .add (num 1) (binaryNode .pow l (num 2)))) l, [([true], false)])
    | .sqrt =>
      if l.isSome = false then .assertFail
      else if l.isNumber then .ok (culled x r, [])
      else .ok (binaryNode .mul (binaryNode .div (num 1) (binaryNode .mul (num 2) n)) l, [([true], false)])
    | .log =>
      if l.isSome = false then .assertFail
      else if l.isNumber then .ok (culled x r, [])
      else .ok (binaryNode .mul (binaryNode .div (num 1) l) l, [([true], false)])
    | .log2 =>
      if l.isSome = false then .assertFail
      else if l.isNumber then .ok (culled x r, [])
      else .ok (binaryNode .mul
        (binaryNode .div (num 1) (binaryNode .mul l (mkNum (Dbl.log (Dbl.ofInt 2))))) l, [([true], false)])
    | .log10 =>
      if l.isSome = false then .assertFail
      else if l.isNumber then .ok (culled x r, [])
      else .ok (binaryNode .mul
        (binaryNode .div (num 1) (binaryNode .mul l (mkNum (Dbl.log (Dbl.ofInt 10))))) l, [([true], false)])
    | .exp =>
      if l.isSome = false then .assertFail
      else if l.isNumber then .ok (culled x r, [])
      else if l.isVariable then .ok (n, [])
      else .ok (binaryNode .mul n l, [([true], false)])
    | .add | .sub =>
      if l.isSome = false ∨ r.isSome = false then .assertFail
      else if l.isNumber ∧ r.isNumber then .ok (culled x .nil, [])
      else .ok (n, [([false], true), ([true], false)])
    | .mul =>
      if l.isSome = false ∨ r.isSome = false then .ub
      else if l.isNumber then .ok (n, [([true], false)])
      else if r.isNumber then .ok (n, [([false], true)])
      else .ok (binaryNode .add n (binaryNode .mul l r), [([false, false], true), ([true, true], false)])
    | .div =>
      if l.isSome = false ∨ r.isSome = false then .ub
      else if r.isNumber then .ok (n, [([false], true)])
      else .ok (binaryNode .div (binaryNode .sub (binaryNode .mul l r) (binaryNode .mul l r))
        (binaryNode .pow r (num 2)), [([false, false, false], true), ([false, true, true], false)])
    | .pow =>
      if l.isSome = false ∨ r.isSome = false then .assertFail
      else if l.isNumber ∧ r.isNumber then .ok (culled x .nil, [])
      else
        match l, r with
        | _, .mk .number _ a _ _ _ =>
          .ok (binaryNode .mul
            (binaryNode .mul r (binaryNode .pow l (mkNum (Arith.sub a (Dbl.ofInt 1))))) l, [([true], false)])
        | .mk .number _ a _ _ _, _ =>
          .ok (binaryNode .mul
            (binaryNode .mul (binaryNode .pow l r) (unaryNode .log (mkNum a))) r, [([true], false)])
        | _, _ =>
          .ok (binaryNode .mul n (binaryNode .mul r (unaryNode .log l)), [([true], false)])
    | .and | .or | .mod => .throw .runtime
    | .null | .lparen | .rparen => .assertFail

/-- diff.cpp:36-55, what is done to one queued node. -/
def diffStep (varname : Str) (n : Raw α) : Res (Raw α × List DiffNode) :=
  match n with
  | .nil => .ub
  | .mk .variable op _ x l r =>
    .ok (.mk .number op (if x = varname then Dbl.ofInt 1 else Dbl.ofInt 0) [] l r, [])
  | .mk .number op _ x l r => .ok (.mk .number op (Dbl.ofInt 0) x l r, [])
  | .mk .operator .. => diffOp n

/-- diff.cpp:49: the slot an operator node is rewritten in, `isLeftChild ? node.parent->left : node.parent->right`. -/
def diffSlot (p : Path) (isLeftChild : Bool) : Path := p.dropLast ++ [!isLeftChild]

/-- diff.cpp:31-55, the loop over the FIFO queue. -/
def diffLoop (varname : Str) : Nat → List DiffNode → Raw α → Res (Raw α)
  | _, [], root => .ok root
  | 0, _ :: _, _ => .diverge
  | fuel + 1, (p, isLeftChild) :: q, root => do
    let slot := if (root.getAt p).isOperator then diffSlot p isLeftChild else p
    let (n, new) ← diffStep varname (root.getAt slot)
    diffLoop varname fuel (q ++ new.map fun d => (slot ++ d.1, d.2)) (root.setAt slot n)

/-- Fuel that suffices for `diffLoop` (proved): one unit per node, three more for a power. -/
def diffFuel : Raw α → Nat
  | .nil => 0
  | .mk _ op _ _ l r => diffFuel l + diffFuel r + if op = .pow then 4 else 1

/-- diff.cpp:22-56 `DiffOnce`: an operator root is rewritten directly, anything else goes through the queue. -/
def diffOnce (varname : Str) (root : Raw α) : Res (Raw α) :=
  match root with
  | .nil => .ub
  | .mk .operator .. => do
    let (n, new) ← diffOp root
    diffLoop varname (diffFuel root) new n
  | .mk .. => diffLoop varname (diffFuel root) [([], false)] root

/-- diff.cpp:399-401, `while (i--) DiffOnce(n, varname)`. -/
def diffTimes (varname : Str) : Nat → Raw α → Res (Raw α)
  | 0, n => .ok n
  | i + 1, n => do
    let n ← diffOnce varname n
    diffTimes varname i n

/-- diff.cpp:396-411 `Diff(Node&&, varname, i)`.  `CheckParent` (debug builds only) is property C52. -/
def diff (cfg : Config α) (node : Raw α) (varname : Str) (i : Int) : Res (Raw α) :=
  if i > 0 then do
    let n ← diffTimes varname i.toNat node
    simplify cfg n
  else .assertFail

/-- diff.cpp:391-394 `Diff(const Node&, varname, i)` -/
def diffConst (cfg : Config α) (node : Raw α) (varname : Str) (i : Int) : Res (Raw α) := do
  let node2 ← clone node
  diff cfg node2 varname i

end Tom
