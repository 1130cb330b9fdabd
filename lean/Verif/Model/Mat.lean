import Verif.Model.Ops
/-
Models src/tomsolver/mat.h, mat.cpp and linear.cpp: dense matrices over `std::valarray<double>`, determinant, inverse,
linear solver.  `int` sizes and indices are natural numbers (the code asserts that sizes are positive; negative indices are
not modelled).  A subscript outside the valarray is the outcome `ub`, a violated `assert` is `assertFail`.
-/
namespace Tom
variable {α : Type} [Arith α]

/-! ### valarray -/

/-- `data[i]` for reading -/
def readAt {β : Type} (d : List β) (i : Nat) : Res β :=
  match d[i]? with
  | some v => .ok v
  | none => .ub

/-- `data[i] = v` -/
def writeAt {β : Type} (d : List β) (i : Nat) (v : β) : Res (List β) :=
  if i < d.length then .ok (d.set i v) else .ub

/-- read a list of subscripts -/
def readAll {β : Type} (d : List β) : List Nat → Res (List β)
  | [] => .ok []
  | i :: is => do
    let v ← readAt d i
    let vs ← readAll d is
    .ok (v :: vs)

/-- write a list of values to a list of subscripts; `slice_array::operator=` and `gslice_array::operator=` with a
right-hand side of another size are undefined behaviour -/
def writeAll {β : Type} (d : List β) : List Nat → List β → Res (List β)
  | [], [] => .ok d
  | i :: is, v :: vs => do
    let d ← writeAt d i v
    writeAll d is vs
  | _, _ => .ub

/-- the subscripts of `std::slice(start, size, stride)` -/
def sliceIdx (start size stride : Nat) : List Nat := (List.range size).map fun k => start + k * stride

/-- the subscripts of `std::gslice(start, {s0, s1}, {t0, t1})` -/
def gsliceIdx (start s0 s1 t0 t1 : Nat) : List Nat :=
  (List.range s0).flatMap fun i => (List.range s1).map fun j => start + i * t0 + j * t1

/-- elementwise binary operation of two valarrays; undefined behaviour if the sizes differ -/
def zipV {β : Type} (f : β → β → β) (a b : List β) : Res (List β) :=
  if a.length = b.length then .ok (List.zipWith f a b) else .ub

/-- Adding up the numbers `x :: l`, `n` at the beginning, in the order given by `Arith.sumOrder`: two of them are taken out and their sum
is put in front, until one is left.  Every order and grouping of a sum is of this form. -/
def addUp (n : Nat) : Nat → α → List α → α
  | _, x, [] => x
  | 0, x, _ :: _ => x
  | fuel + 1, x, y :: l =>
    let xs := x :: y :: l
    let p := Arith.sumOrder α n xs.length
    let i := p.1 % xs.length
    let r := xs.eraseIdx i
    let j := p.2 % r.length
    addUp n fuel (Arith.add (xs.getD i x) (r.getD j x)) (r.eraseIdx j)

/-- `valarray::sum()`; undefined behaviour on an empty valarray.  The C++ standard leaves the order of summation open; it is a parameter
of the arithmetic (`Arith.sumOrder`), so the theorems hold for every implementation.  All the sums of the library are sums of
expressions such as `a * b`, for which libstdc++, libc++ and MSVC do not add an initial zero. -/
def sumV : List α → Res α
  | [] => .ub
  | v :: vs => .ok (addUp (vs.length + 1) vs.length v vs)

/-- `valarray::max()`: undefined behaviour on an empty valarray -/
def maxV : List α → Res α
  | [] => .ub
  | v :: vs => .ok (vs.foldl (fun r w => if Arith.lt r w then w else r) v)

/-- `valarray::min()`: undefined behaviour on an empty valarray -/
def minV : List α → Res α
  | [] => .ub
  | v :: vs => .ok (vs.foldl (fun r w => if Arith.lt w r then w else r) v)

/-- a `for` loop over a list of indices -/
def forRes {σ ι : Type} (f : σ → ι → Res σ) : List ι → σ → Res σ
  | [], s => .ok s
  | i :: is, s => do
    let s ← f s i
    forRes f is s

/-! ### Mat -/

/-- mat.h:113-116 the members of `Mat`; `Vec` (mat.h:152) is a `Mat` with one column. -/
structure Mat (α : Type) where
  rows : Nat
  cols : Nat
  data : List α
  deriving DecidableEq, Repr

namespace Mat

/-- mat.cpp:17-20 `Mat(int, int, double)` -/
def new (rows cols : Nat) (v : α) : Res (Mat α) :=
  if 0 < rows ∧ 0 < cols then .ok ⟨rows, cols, List.replicate (rows * cols) v⟩ else .assertFail

/-- mat.cpp:39-53 subscripts of `Row(i, offset)` -/
def rowIdx (m : Mat α) (i offset : Nat) : List Nat := sliceIdx (m.cols * i + offset) (m.cols - offset) 1

/-- mat.cpp:39-53 subscripts of `Col(j, offset)` -/
def colIdx (m : Mat α) (j offset : Nat) : List Nat := sliceIdx (j + offset * m.cols) (m.rows - offset) m.cols

/-- mat.cpp:47-49 reading `Row(i, offset)` -/
def row (m : Mat α) (i offset : Nat) : Res (List α) := readAll m.data (m.rowIdx i offset)

/-- mat.cpp:51-53 reading `Col(j, offset)` -/
def col (m : Mat α) (j offset : Nat) : Res (List α) := readAll m.data (m.colIdx j offset)

/-- mat.cpp:39-41 `Row(i, offset) = vs` -/
def setRow (m : Mat α) (i offset : Nat) (vs : List α) : Res (Mat α) := do
  let d ← writeAll m.data (m.rowIdx i offset) vs
  .ok { m with data := d }

/-- mat.cpp:43-45 `Col(j, offset) = vs` -/
def setCol (m : Mat α) (j offset : Nat) (vs : List α) : Res (Mat α) := do
  let d ← writeAll m.data (m.colIdx j offset) vs
  .ok { m with data := d }

/-- mat.cpp:55-57 `Value(i, j)` -/
def value (m : Mat α) (i j : Nat) : Res α := readAt m.data (i * m.cols + j)

/-- mat.cpp:59-61 `Value(i, j) = v` -/
def setValue (m : Mat α) (i j : Nat) (v : α) : Res (Mat α) := do
  let d ← writeAt m.data (i * m.cols + j) v
  .ok { m with data := d }

/-- mat.cpp:424-430 `Vec::operator[]` -/
def at_ (m : Mat α) (i : Nat) : Res α := readAt m.data i

/-- mat.cpp:424-426 `v[i] = x` -/
def setAt (m : Mat α) (i : Nat) (x : α) : Res (Mat α) := do
  let d ← writeAt m.data i x
  .ok { m with data := d }

/-- mat.cpp:22-35 `Mat(initializer_list)`: a row whose length differs from the longest is assigned to a slice of another
size (undefined behaviour). -/
def ofInit (init : List (List α)) : Res (Mat α) :=
  if init = [] then .assertFail
  else
    let cols := init.foldl (fun r l => max r l.length) 0
    if cols = 0 then .assertFail
    else forRes (fun m p => m.setRow p.2 0 p.1) init.zipIdx ⟨init.length, cols, List.replicate (init.length * cols) Arith.zero⟩

/-- mat.cpp:63-67 `operator==(double)` -/
def eqNum (eps : α) (m : Mat α) (v : α) : Bool := m.data.all fun x => Arith.lt (Arith.abs (Arith.sub x v)) eps

/-- mat.cpp:69-75 `operator==(const Mat &)` -/
def eqMat (eps : α) (a b : Mat α) : Res Bool :=
  if a.rows = b.rows ∧ a.cols = b.cols then
    .ok ((a.data.zip b.data).all fun p => Arith.lt (Arith.abs (Arith.sub p.1 p.2)) eps)
  else .assertFail

/-- mat.cpp:78-80 unary minus (and mat.cpp:438-440 for `Vec`) -/
def neg (m : Mat α) : Mat α := ⟨m.rows, m.cols, m.data.map Arith.neg⟩

/-- mat.cpp:82-86, 88-93 `+` and `+=`; mat.cpp:432-436 for `Vec` -/
def add (a b : Mat α) : Res (Mat α) :=
  if a.rows = b.rows ∧ a.cols = b.cols then do
    let d ← zipV Arith.add a.data b.data
    .ok ⟨a.rows, a.cols, d⟩
  else .assertFail

/-- mat.cpp:95-99 binary `-`; mat.cpp:442-445 for `Vec` -/
def sub (a b : Mat α) : Res (Mat α) :=
  if a.rows = b.rows ∧ a.cols = b.cols then do
    let d ← zipV Arith.sub a.data b.data
    .ok ⟨a.rows, a.cols, d⟩
  else .assertFail

/-- mat.cpp:101-103 `m * k`, 447-449 and 468-470 for `Vec` -/
def scale (m : Mat α) (k : α) : Mat α := ⟨m.rows, m.cols, m.data.map fun x => Arith.mul x k⟩

/-- mat.cpp:264-268 `k * m` (`ans.data *= k`) -/
def scaleLeft (k : α) (m : Mat α) : Mat α := ⟨m.rows, m.cols, m.data.map fun x => Arith.mul x k⟩

/-- mat.cpp:105-114 matrix product -/
def mul (a b : Mat α) : Res (Mat α) :=
  if a.cols = b.rows then do
    let ans ← new a.rows b.cols Arith.zero
    forRes (fun ans i => forRes (fun ans j => do
      let r ← a.row i 0
      let c ← b.col j 0
      let p ← zipV Arith.mul r c
      let s ← sumV p
      ans.setValue i j s) (List.range b.cols) ans) (List.range a.rows) ans
  else .assertFail

/-- mat.cpp:124-133 `ToVec` -/
def toVec (m : Mat α) : Res (Mat α) :=
  if m.rows = 0 then .assertFail
  else if m.cols ≠ 1 then .throw .runtime
  else .ok ⟨m.rows, 1, m.data⟩

/-- mat.cpp:135-149 `SwapRow` -/
def swapRow (m : Mat α) (i j : Nat) : Res (Mat α) :=
  if i = j then .ok m
  else if i < m.rows ∧ j < m.rows then do
    let temp ← m.row i 0
    let rj ← m.row j 0
    let m ← m.setRow i 0 rj
    m.setRow j 0 temp
  else .assertFail

/-- mat.cpp:151-165 `SwapCol` -/
def swapCol (m : Mat α) (i j : Nat) : Res (Mat α) :=
  if i = j then .ok m
  else if i < m.cols ∧ j < m.cols then do
    let temp ← m.col i 0
    let cj ← m.col j 0
    let m ← m.setCol i 0 cj
    m.setCol j 0 temp
  else .assertFail

/-- mat.cpp:185-195 `Resize` (mat.cpp:419-422 for `Vec`) -/
def resize (m : Mat α) (newRows newCols : Nat) : Res (Mat α) :=
  if 0 < newRows ∧ 0 < newCols then do
    let minRows := min m.rows newRows
    let minCols := min m.cols newCols
    let vs ← readAll m.data (gsliceIdx 0 minRows minCols m.cols 1)
    let d ← writeAll (List.replicate (newRows * newCols) Arith.zero) (gsliceIdx 0 minRows minCols newCols 1) vs
    .ok ⟨newRows, newCols, d⟩
  else .assertFail

/-- mat.cpp:197-200 `Zero` -/
def zero (m : Mat α) : Mat α := { m with data := m.data.map fun _ => Arith.zero }

/-- mat.cpp:225-227 `SetValue` -/
def fill (m : Mat α) (v : α) : Mat α := { m with data := m.data.map fun _ => v }

/-- mat.cpp:202-207 `Ones`: the identity matrix -/
def ones (m : Mat α) : Res (Mat α) :=
  if m.rows = m.cols then do
    let z := m.zero
    let d ← writeAll z.data (sliceIdx 0 m.rows (m.cols + 1)) (List.replicate m.rows Arith.one)
    .ok { z with data := d }
  else .assertFail

/-- mat.cpp:209-211 `Norm2` (the sum of squares) -/
def norm2 (m : Mat α) : Res α := sumV (List.zipWith Arith.mul m.data m.data)

/-- mat.cpp:213-215 `NormInfinity` -/
def normInfinity (m : Mat α) : Res α := maxV (m.data.map Arith.abs)

/-- mat.cpp:217-219 `NormNegInfinity` -/
def normNegInfinity (m : Mat α) : Res α := minV (m.data.map Arith.abs)

/-- mat.cpp:221-223 `Min` -/
def min_ (m : Mat α) : Res α := minV m.data

/-- mat.cpp:239-245 `Transpose` -/
def transpose (m : Mat α) : Res (Mat α) := do
  let ans ← new m.cols m.rows Arith.zero
  forRes (fun ans i => do
    let c ← m.col i 0
    ans.setRow i 0 c) (List.range m.cols) ans

end Mat

/-- mat.cpp:270-274 `EachDivide` (divides `b` by `b`) -/
def eachDivide (a b : Mat α) : Res (Mat α) :=
  if a.rows = b.rows ∧ a.cols = b.cols then do
    let d ← zipV Arith.div b.data b.data
    .ok ⟨a.rows, b.cols, d⟩
  else .assertFail

/-- mat.cpp:276-280 `IsZero` -/
def isZero (eps : α) (m : Mat α) : Bool := m.data.all fun x => Arith.le (Arith.abs x) eps

/-- mat.cpp:282-287 `AllIsLessThan`, and 461-466 `Vec::operator<` -/
def allIsLessThan (a b : Mat α) : Res Bool :=
  if a.rows = b.rows ∧ a.cols = b.cols then .ok ((a.data.zip b.data).all fun p => Arith.lt p.1 p.2) else .assertFail

/-- mat.cpp:451-454 `Vec * Vec`, 456-459 `Vec / Vec`: elementwise -/
def vecZip (f : α → α → α) (a b : Mat α) : Res (Mat α) :=
  if a.rows = b.rows then do
    let d ← zipV f a.data b.data
    .ok ⟨d.length, 1, d⟩
  else .assertFail

/-- mat.cpp:472-475 `Dot` -/
def dot (a b : Mat α) : Res α :=
  if a.rows = b.rows then do
    let d ← zipV Arith.mul a.data b.data
    sumV d
  else .assertFail

/-- mat.cpp:289-294 `GetMaxAbsRowIndex`: the first row in `rowStart..rowEnd` whose entry in the column has the largest
absolute value; past the end if the largest is a NaN (`std::find` finds nothing) -/
def getMaxAbsRowIndex (A : Mat α) (rowStart rowEnd col : Nat) : Res Nat := do
  let c ← A.col col 0
  let s ← readAll c (sliceIdx rowStart (rowEnd + 1 - rowStart) 1)
  let temp := s.map Arith.abs
  let m ← maxV temp
  .ok (temp.findIdx (fun v => Arith.eq v m) + rowStart)

/-- mat.cpp:363-371: copy one region, given as (size, first subscript in `cofactor`, first subscript in `A`) -/
def copyRegion (A : Mat α) (n : Nat) (d : List α) (conf : (Nat × Nat) × Nat × Nat) : Res (List α) :=
  if conf.2.1 < d.length then do
    let vs ← readAll A.data (gsliceIdx conf.2.2 conf.1.1 conf.1.2 A.cols 1)
    writeAll d (gsliceIdx conf.2.1 conf.1.1 conf.1.2 (n - 1) 1) vs
  else .ok d

/-- mat.cpp:322-372 `GetCofactor(A, cofactor, p, q, n)`: the four regions around row `p` and column `q`; returns the updated
`cofactor`. -/
def getCofactor (A cof : Mat α) (p q n : Nat) : Res (Mat α) := do
  let d ← forRes (copyRegion A n)
    [((p, q), 0, 0),
     ((p, n - 1 - q), 0 * (n - 1) + q, 0 * A.cols + (q + 1)),
     ((n - 1 - p, q), p * (n - 1) + 0, (p + 1) * A.cols + 0),
     ((n - 1 - p, n - 1 - q), p * (n - 1) + q, (p + 1) * A.cols + (q + 1))]
    cof.data
  .ok { cof with data := d }

/-- mat.cpp:374-405 `Det(A, n)`; `sign` is the `int` 1 or -1 converted to `double` -/
def det : Nat → Mat α → Res α
  | 0, _ => .ok Arith.zero
  | 1, A => A.value 0 0
  | 2, A => do
    let a ← A.value 0 0
    let d ← A.value 1 1
    let c ← A.value 1 0
    let b ← A.value 0 1
    .ok (Arith.sub (Arith.mul a d) (Arith.mul c b))
  | n + 3, A => do
    let cof ← Mat.new (n + 2) (n + 2) Arith.zero
    let s ← forRes (fun (s : Mat α × α × α) f => do
        let cof ← getCofactor A s.1 0 f (n + 3)
        let dt ← det (n + 2) cof
        let v ← A.value 0 f
        .ok (cof, Arith.add s.2.1 (Arith.mul (Arith.mul s.2.2 v) dt), Arith.neg s.2.2))
      (List.range (n + 3)) (cof, Arith.zero, Arith.one)
    .ok s.2.1

/-- mat.cpp:296-320 `Adjoint(A, adj)`; returns the updated `adj` -/
def adjoint (A adj : Mat α) : Res (Mat α) :=
  if A.rows = 1 then adj.setValue 0 0 Arith.one
  else do
    let cof ← Mat.new (A.rows - 1) (A.cols - 1) Arith.zero
    let s ← forRes (fun (s : Mat α × Mat α) i =>
        forRes (fun (s : Mat α × Mat α) j => do
            let cof ← getCofactor A s.1 i j A.rows
            let dt ← det (A.rows - 1) cof
            let dt := if (i + j) % 2 ≠ 0 then Arith.neg dt else dt
            let adj ← s.2.setValue j i dt
            .ok (cof, adj))
          (List.range A.cols) s)
      (List.range A.rows) (cof, adj)
    .ok s.2

/-- mat.cpp:247-262 `Inverse` -/
def Mat.inverse (eps : α) (A : Mat α) : Res (Mat α) :=
  if A.rows = A.cols then do
    let dt ← det A.rows A
    if Arith.le (Arith.abs dt) eps then .throw (.math .singularMatrix)
    else do
      let adj ← Mat.new A.rows A.rows Arith.zero
      let adj ← adjoint A adj
      .ok ⟨A.rows, A.rows, adj.data.map fun x => Arith.div x dt⟩
  else .assertFail

/-- mat.cpp:229-237, the loop of `PositiveDetermine` -/
def positiveLoop (A : Mat α) : List Nat → Res Bool
  | [] => .ok true
  | i :: is => do
    let dt ← det i A
    if Arith.le dt Arith.zero then .ok false else positiveLoop A is

/-- mat.cpp:229-237 `PositiveDetermine` -/
def Mat.positiveDetermine (A : Mat α) : Res Bool :=
  if A.rows = A.cols then positiveLoop A ((List.range A.rows).map (· + 1)) else .assertFail

/-! ### SolveLinear -/

/-- linear.cpp:54-57, 66-69: bring the row with the largest entry of column `x` to row `y` -/
def bringPivot (A b : Mat α) (y x : Nat) : Res (Mat α × Mat α) := do
  let i ← getMaxAbsRowIndex A y (A.rows - 1) x
  let A ← A.swapRow y i
  let b ← b.swapRow y i
  .ok (A, b)

/-- linear.cpp:59-70: `while (abs(A(y,x)) < epsilon)` -/
def findPivot (eps : α) : Nat → Mat α → Mat α → Nat → Nat → Res (Mat α × Mat α × Nat)
  | 0, _, _, _, _ => .diverge
  | fuel + 1, A, b, y, x => do
    let v ← A.value y x
    if Arith.lt (Arith.abs v) eps then
      if x + 1 = A.cols then .ok (A, b, x + 1)
      else do
        let (A, b) ← bringPivot A b y (x + 1)
        findPivot eps fuel A b y (x + 1)
    else .ok (A, b, x)

/-- linear.cpp:92-109: divide row `y` by its pivot, then clear column `x` in the rows below -/
def eliminate (eps : α) (A b : Mat α) (y x : Nat) : Res (Mat α × Mat α) := do
  let ratioY ← A.value y x
  let r ← A.row y x
  let rowY := r.map fun v => Arith.div v ratioY
  let A ← A.setRow y x rowY
  let by_ ← b.at_ y
  let b ← b.setAt y (Arith.div by_ ratioY)
  forRes (fun (s : Mat α × Mat α) row => do
      let ratioRow ← s.1.value row x
      if Arith.le eps (Arith.abs ratioRow) then do
        let r ← s.1.row row x
        let r ← zipV Arith.sub r (rowY.map fun v => Arith.mul v ratioRow)
        let A ← s.1.setRow row x r
        let br ← s.2.at_ row
        let by_ ← s.2.at_ y
        let b ← s.2.setAt row (Arith.sub br (Arith.mul by_ ratioRow))
        .ok (A, b)
      else .ok s)
    ((List.range (A.rows - (y + 1))).map (· + (y + 1))) (A, b)

/-- the variables of `SolveLinear` that survive the elimination loop -/
structure LinState (α : Type) where
  A : Mat α
  b : Mat α
  trn : List Nat
  rankA : Nat
  rankAb : Nat

/-- linear.cpp:51-110, the elimination loop; `fuel` bounds the number of iterations -/
def elimLoop (eps : α) : Nat → LinState α → Nat → Nat → Res (LinState α)
  | 0, s, y, x => if y < s.A.rows ∧ x < s.A.cols then .diverge else .ok s
  | fuel + 1, s, y, x =>
    if y < s.A.rows ∧ x < s.A.cols then do
      let (A, b) ← bringPivot s.A s.b y x
      let (A, b, x) ← findPivot eps (s.A.cols + 1) A b y x
      if x = A.cols then do
        let v ← b.at_ y
        let rankAb := if Arith.lt (Arith.abs v) eps then y else s.rankAb
        if y ≠ rankAb then .throw (.math .singularMatrix)
        else .ok ⟨A, b, s.trn, y, rankAb⟩
      else do
        let trn := if x > y then s.trn.set y x else s.trn
        let (A, b) ← eliminate eps A b y x
        elimLoop eps fuel ⟨A, b, trn, s.rankA, s.rankAb⟩ (y + 1) (x + 1)
    else .ok s

/-- linear.cpp:119-125: bring the rows of an underdetermined system into place -/
def placeRows (trn : List Nat) (A b : Mat α) : Res (Mat α × Mat α) :=
  forRes (fun (s : Mat α × Mat α) i => do
      let t ← readAt trn i
      if t ≠ 0 then do
        let A ← s.1.swapRow i t
        let b ← s.2.swapRow i t
        .ok (A, b)
      else .ok s)
    (List.range A.rows).reverse (A, b)

/-- linear.cpp:128-133: back substitution -/
def backSubst (A b ret : Mat α) : Res (Mat α) :=
  forRes (fun (ret : Mat α) i => do
      let r ← A.row i (i + 1)
      let c ← ret.col 0 (i + 1)
      let v ← zipV Arith.mul r c
      let s ← (if v.length ≠ 0 then sumV v else .ok Arith.zero)
      let bi ← b.at_ i
      ret.setAt i (Arith.sub bi s))
    (List.range A.rows).reverse ret

/-- linear.cpp:18-148 `SolveLinear` (logging omitted) -/
def solveLinear (cfg : Config α) (A b : Mat α) : Res (Mat α) :=
  if A.rows ≠ b.rows then .assertFail
  else do
    let ret ← Mat.new A.rows 1 Arith.zero
    if A.rows > A.cols then .throw (.math .overDeterminedEquations)
    else do
      let ret ← (if A.cols ≠ A.rows then ret.resize A.cols 1 else .ok ret)
      let s ← elimLoop cfg.epsilon (A.rows + 1) ⟨A, b, List.replicate A.cols 0, A.rows, A.rows⟩ 0 0
      if A.rows ≠ A.cols then do
        let A' ← s.A.resize A.cols A.cols
        let b' ← s.b.resize A.cols 1
        let (A', b') ← placeRows s.trn A' b'
        let ret ← backSubst A' b' ret
        if s.rankA < A.cols ∧ s.rankA = s.rankAb then
          if cfg.allowIndeterminateEquation then .ok ret else .throw (.math .indeterminateEquation)
        else .ok ret
      else do
        let ret ← backSubst s.A s.b ret
        if s.rankA < A.cols ∧ s.rankA = s.rankAb then .throw (.math .infinitySolutions) else .ok ret

end Tom
