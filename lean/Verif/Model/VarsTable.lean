import Verif.Model.Mat
import Verif.Model.SubsSimplifyDiff
/-
Models src/tomsolver/vars_table.h and vars_table.cpp.  `std::map<std::string, double>` is the key-sorted list of its
entries (as in Model/SubsSimplifyDiff).
-/
namespace Tom
variable {α : Type} [Dbl α]

/-- vars_table.h:81-84 the members of `VarsTable` -/
structure VarsTable (α : Type) where
  vars : List Str
  values : Mat α
  table : List (Str × α)
  deriving DecidableEq, Repr

namespace VarsTable

/-- vars_table.cpp:10-16 `VarsTable(vars, initValue)`: `Vec(0)` violates the assertion of `Mat`; repeated names violate
the assertion on line 15. -/
def ofVars (vars : List Str) (init : α) : Res (VarsTable α) := do
  let values ← Mat.new vars.length 1 init
  let table := vars.foldl (fun m x => mapInsert x init m) []
  if vars.length = table.length then .ok ⟨vars, values, table⟩ else .assertFail

/-- vars_table.cpp:23-31 `VarsTable(const std::map &)`; the loop fills `vars` and `values` in key order -/
def ofMap (table : List (Str × α)) : Res (VarsTable α) := do
  let values ← Mat.new table.length 1 Arith.zero
  let s ← forRes (fun (s : List Str × Mat α) (p : (Str × α) × Nat) => do
      let vs ← writeAt s.1 p.2 p.1.1
      let m ← s.2.setAt p.2 p.1.2
      .ok (vs, m))
    table.zipIdx (List.replicate table.length [], values)
  .ok ⟨s.1, s.2, table⟩

/-- vars_table.cpp:18-21 `VarsTable(initializer_list)`: builds a map (the first of several entries for a name is kept), then
the constructor above -/
def ofList (init : List (Str × α)) : Res (VarsTable α) := do
  let t ← ofMap (init.foldl (fun m kv => mapInsert kv.1 kv.2 m) [])
  if t.vars.length = t.table.length then .ok t else .assertFail

/-- vars_table.cpp:33-35 `VarNums` -/
def varNums (t : VarsTable α) : Nat := t.table.length

/-- vars_table.cpp:45-51 `SetValues` (`vars[i]` out of range is undefined behaviour) -/
def setValues (t : VarsTable α) (v : Mat α) : Res (VarsTable α) :=
  if v.rows = t.values.rows then do
    let table ← forRes (fun (m : List (Str × α)) i => do
        let x ← readAt t.vars i
        let a ← v.at_ i
        .ok (mapAssign x a m))
      (List.range v.rows) t.table
    .ok ⟨t.vars, v, table⟩
  else .assertFail

/-- vars_table.cpp:53-55 `Has` -/
def has (t : VarsTable α) (x : Str) : Bool := (mapFind x t.table).isSome

/-- vars_table.cpp:92-98 `operator[]` -/
def get (t : VarsTable α) (x : Str) : Res α :=
  match mapFind x t.table with
  | some v => .ok v
  | none => .throw .outOfRange

/-- vars_table.cpp:57-63 `ToString` -/
def toString (t : VarsTable α) : Str :=
  t.table.foldl (fun ret kv => ret ++ (kv.1 ++ [' ', '=', ' '] ++ Dbl.toStr kv.2 ++ ['\n'])) []

/-- vars_table.cpp:81-89, `std::equal` over the entries of the left map (reading past the end of the right one is undefined
behaviour) -/
def eqEntries (eps : α) : List (Str × α) → List (Str × α) → Res Bool
  | [], _ => .ok true
  | _ :: _, [] => .ub
  | (x, a) :: l, (y, b) :: r =>
    if x = y ∧ Arith.le (Arith.abs (Arith.sub a b)) eps then eqEntries eps l r else .ok false

/-- vars_table.cpp:81-90 `operator==` -/
def eq (eps : α) (a b : VarsTable α) : Res Bool :=
  if a.values.rows = b.values.rows then eqEntries eps a.table b.table else .ok false

end VarsTable
end Tom
