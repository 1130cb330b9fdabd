import Verif.Model.VarsTable
/-
Models src/tomsolver/vars_table.cpp:65-79: `begin`, `end`, `cbegin`, `cend` and the range-based `for` over a `VarsTable` they make
possible.
-/
namespace Tom
variable {α : Type} [Dbl α]

/-- vars_table.cpp:65-79: the sequence of entries between `begin()` and `end()`, that of the map -/
def VarsTable.entries (t : VarsTable α) : List (Str × α) := t.table

/-- `for (auto &item : table) s = body(s, item.first, item.second)` -/
def VarsTable.forEach {σ : Type} (body : σ → Str → α → Res σ) (t : VarsTable α) (s : σ) : Res σ :=
  forRes (fun s (p : Str × α) => body s p.1 p.2) t.entries s

end Tom
