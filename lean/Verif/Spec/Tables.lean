import Verif.Model.VarsTable
/-
Specification side of variable tables: the tables a program can hold.
-/
namespace Tom
variable {α : Type} [Dbl α]

/-- A `std::map` iterates its entries with strictly increasing keys. -/
def IsMap {β : Type} (m : List (Str × β)) : Prop := m.Pairwise fun a b => strLt a.1 b.1 = true

/-- A column vector: one column and as many numbers as rows. -/
def IsVec (v : Mat α) : Prop := v.cols = 1 ∧ v.data.length = v.rows

/-- The tables a program can construct: by one of the constructors, and by any sequence of `SetValues`. -/
inductive VarsTable.Reachable : VarsTable α → Prop
  | ofVars {vars : List Str} {init : α} {t : VarsTable α} (h : VarsTable.ofVars vars init = .ok t) : Reachable t
  | ofMap {m : List (Str × α)} {t : VarsTable α} (hm : IsMap m) (h : VarsTable.ofMap m = .ok t) : Reachable t
  | ofList {l : List (Str × α)} {t : VarsTable α} (h : VarsTable.ofList l = .ok t) : Reachable t
  | setValues {t t' : VarsTable α} {v : Mat α} (ht : Reachable t) (hv : IsVec v) (h : t.setValues v = .ok t') : Reachable t'

end Tom
