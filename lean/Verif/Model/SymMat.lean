import Verif.Model.VarsTable
/-
Models src/tomsolver/symmat.h and symmat.cpp: matrices of expressions.  Null entries (`Raw.nil`) are what
`SymMat(rows, cols)` leaves behind.
-/
namespace Tom
variable {α : Type} [Dbl α]

/-- a loop `for (auto &x : container)` / `std::generate` producing one element per element of the input -/
def mapRes {β γ : Type} (f : β → Res γ) : List β → Res (List γ)
  | [] => .ok []
  | b :: bs => do
    let c ← f b
    let cs ← mapRes f bs
    .ok (c :: cs)

/-- symmat.h:96-98 the members of `SymMat`; `SymVec` is a `SymMat` with one column -/
structure SymMat (α : Type) where
  rows : Nat
  cols : Nat
  data : List (Raw α)
  deriving DecidableEq, Repr

namespace SymMat

/-- symmat.cpp:18-21 `SymMat(rows, cols)` -/
def new (rows cols : Nat) : Res (SymMat α) :=
  if 0 < rows ∧ 0 < cols then .ok ⟨rows, cols, List.replicate (rows * cols) .nil⟩ else .assertFail

/-- symmat.cpp:23-38 `SymMat(initializer_list)`; short rows leave null entries.  (`std::max` of an empty list is undefined
behaviour.) -/
def ofInit (init : List (List (Raw α))) : Res (SymMat α) :=
  if init = [] then .ub
  else
    let cols := init.foldl (fun r l => max r l.length) 0
    .ok ⟨init.length, cols, init.flatMap fun l => l ++ List.replicate (cols - l.length) .nil⟩

/-- symmat.cpp:188-193 `SymVec(initializer_list)` -/
def ofList (init : List (Raw α)) : Res (SymMat α) :=
  if init = [] then .assertFail else .ok ⟨init.length, 1, init⟩

/-- symmat.cpp:40-44 `SymMat(const Mat &)` -/
def ofMat (m : Mat α) : Res (SymMat α) :=
  if 0 < m.rows ∧ 0 < m.cols then .ok ⟨m.rows, m.cols, m.data.map mkNum⟩ else .assertFail

/-- symmat.cpp:46-52 `Clone` -/
def clone (m : SymMat α) : Res (SymMat α) :=
  if 0 < m.rows ∧ 0 < m.cols then do
    let d ← mapRes Tom.clone m.data
    .ok { m with data := d }
  else .assertFail

/-- symmat.cpp:74-80 `ToSymVecOneByOne` -/
def toSymVecOneByOne (m : SymMat α) : Res (SymMat α) :=
  if 0 < m.rows * m.cols then do
    let d ← mapRes Tom.clone m.data
    .ok ⟨m.rows * m.cols, 1, d⟩
  else .assertFail

/-- symmat.cpp:66-72 `ToSymVec` -/
def toSymVec (m : SymMat α) : Res (SymMat α) :=
  if m.rows = 0 then .assertFail
  else if m.cols ≠ 1 then .throw .runtime
  else m.toSymVecOneByOne

/-- symmat.cpp:84-89: the value of a number node -/
def numberOf : Raw α → Res α
  | .nil => .ub
  | .mk .number _ v _ _ _ => .ok v
  | .mk .. => .throw .runtime

/-- symmat.cpp:82-91 `ToMat` -/
def toMat (m : SymMat α) : Res (Mat α) := do
  let d ← mapRes numberOf m.data
  .ok ⟨m.rows, m.cols, d⟩

/-- symmat.cpp:94-96: `node->Calc()` on the entries in order; entries before a failure stay calculated -/
def calcList (cfg : Config α) : List (Raw α) → Res Unit × List (Raw α)
  | [] => (.ok (), [])
  | n :: ns =>
    match calcNode cfg n with
    | (.ok (), n') => ((calcList cfg ns).1, n' :: (calcList cfg ns).2)
    | (r, n') => (r, n' :: ns)

/-- symmat.cpp:93-98 `Calc`: outcome and the matrix afterwards -/
def calcAll (cfg : Config α) (m : SymMat α) : Res Unit × SymMat α :=
  ((calcList cfg m.data).1, { m with data := (calcList cfg m.data).2 })

/-- `Calc()` in a chain of calls: on failure the (temporary) matrix is gone -/
def calcChain (cfg : Config α) (m : SymMat α) : Res (SymMat α) := do
  let _ ← (m.calcAll cfg).1
  .ok (m.calcAll cfg).2

/-- symmat.cpp:100-112 `Subs(map<string,double>)`, `Subs(VarsTable)` (`noexcept`) -/
def subs (m : SymMat α) (values : List (Str × α)) : Res (SymMat α) :=
  Res.noexcept (do
    let d ← mapRes (fun n => subsValues n values) m.data
    .ok { m with data := d })

/-- symmat.cpp:114-121 `GetAllVarNames` -/
def getAllVarNames (m : SymMat α) : Res (List Str) :=
  forRes (fun (ret : List Str) n => do
    let names ← Tom.getAllVarNames n
    .ok (names.foldl (fun s x => setInsert x s) ret)) m.data []

/-- symmat.cpp:126-129 `*lhsIter++ - *rhsIter++`: both operands are lvalues, so both are cloned (node.h:246-248, 180-185) -/
def subEntries : List (Raw α) → List (Raw α) → Res (List (Raw α))
  | [], _ => .ok []
  | _ :: _, [] => .ub
  | a :: as, b :: bs => do
    let a' ← Tom.clone a
    let b' ← Tom.clone b
    let cs ← subEntries as bs
    .ok (binaryNode .sub a' b' :: cs)

/-- symmat.cpp:123-131 `operator-` -/
def sub (a b : SymMat α) : Res (SymMat α) :=
  if b.rows = a.rows ∧ b.cols = a.cols then
    if 0 < a.rows ∧ 0 < a.cols then do
      let d ← subEntries a.data b.data
      .ok ⟨a.rows, a.cols, d⟩
    else .assertFail
  else .assertFail

/-- symmat.cpp:160-166 `Value(i, j)` -/
def value (m : SymMat α) (i j : Nat) : Res (Raw α) := readAt m.data (i * m.cols + j)

/-- symmat.cpp:160-162 `Value(i, j) = n` -/
def setValue (m : SymMat α) (i j : Nat) (n : Raw α) : Res (SymMat α) := do
  let d ← writeAt m.data (i * m.cols + j) n
  .ok { m with data := d }

/-- symmat.cpp:141, 143: the product of clones of `a(i,k)` and `b(k,j)` -/
def prodEntry (a b : SymMat α) (i j k : Nat) : Res (Raw α) := do
  let x ← a.value i k
  let y ← b.value k j
  let x ← Tom.clone x
  let y ← Tom.clone y
  .ok (binaryNode .mul x y)

/-- symmat.cpp:133-149 `operator*` -/
def mul (a b : SymMat α) : Res (SymMat α) :=
  if a.cols ≠ b.rows then .throw (.math .sizeNotMatch)
  else do
    let ans ← new a.rows b.cols
    forRes (fun ans i => forRes (fun ans j => do
        let s ← prodEntry a b i j 0
        let s ← forRes (fun s k => do
            let p ← prodEntry a b i j k
            .ok (binaryNode .add s p))
          ((List.range (a.cols - 1)).map (· + 1)) s
        ans.setValue i j s)
      (List.range b.cols) ans) (List.range a.rows) ans

/-- symmat.cpp:155-157, `std::equal` with `node1->Equal(node2)`; `same` says that both are the same object -/
def eqEntries (same : Bool) : List (Raw α) → List (Raw α) → Res Bool
  | [], _ => .ok true
  | _ :: _, [] => .ub
  | a :: as, b :: bs => do
    let r ← equal same a b
    if r then eqEntries same as bs else .ok false

/-- symmat.cpp:151-158 `operator==` -/
def eq (same : Bool) (a b : SymMat α) : Res Bool :=
  if b.rows ≠ a.rows ∨ b.cols ≠ a.cols then .ok false else eqEntries same a.data b.data

/-- symmat.cpp:211-218, the generator of `Jacobian`: `n` elements are still to be produced -/
def jacLoop (cfg : Config α) (eqs : List (Raw α)) (vars : List Str) : Nat → Nat → Nat → Res (List (Raw α))
  | 0, _, _ => .ok []
  | n + 1, iter, i => do
    let iter' := if i = vars.length then iter + 1 else iter
    let i' := if i = vars.length then 0 else i
    let e ← readAt eqs iter'
    let x ← readAt vars i'
    let d ← diffConst cfg e x 1
    let ds ← jacLoop cfg eqs vars n iter' (i' + 1)
    .ok (d :: ds)

/-- symmat.cpp:207-220 `Jacobian` (`noexcept`) -/
def jacobian (cfg : Config α) (eqs : SymMat α) (vars : List Str) : Res (SymMat α) :=
  Res.noexcept (
    if 0 < eqs.rows ∧ 0 < vars.length then do
      let d ← jacLoop cfg eqs.data vars (eqs.rows * vars.length) 0 0
      .ok ⟨eqs.rows, vars.length, d⟩
    else .assertFail)

end SymMat

/-- mat.cpp:176-180 and symmat.cpp:177-181, the loop of `ToString`: `i` entries of `n` are written -/
def layoutLoop (cols n : Nat) : List Str → Nat → Str
  | [], _ => []
  | t :: ts, i =>
    (if i = 0 then [] else [' ']) ++ t ++
      (if (i + 1) % cols = 0 then (if i + 1 = n then [']', '\n'] else ['\n']) else [',', ' ']) ++ layoutLoop cols n ts (i + 1)

/-- mat.cpp:167-183 and symmat.cpp:168-184 `ToString`, given the texts of the entries -/
def layout (cols : Nat) (texts : List Str) : Str :=
  if texts = [] then ['[', ']', '\n'] else ['['] ++ layoutLoop cols texts.length texts 0

/-- mat.cpp:167-183 `Mat::ToString` -/
def Mat.toString (m : Mat α) : Str := layout m.cols (m.data.map Dbl.toStr)

/-- symmat.cpp:168-184 `SymMat::ToString` -/
def SymMat.toString (m : SymMat α) : Res Str := do
  let ts ← mapRes toStringNode m.data
  .ok (layout m.cols ts)

end Tom
