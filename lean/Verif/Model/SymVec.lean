import Verif.Model.SymMat
/-
The members of `SymVec`, symmat.cpp:186-206.
-/
namespace Tom
variable {α : Type} [Dbl α]
namespace SymMat

/-- symmat.cpp:186 `SymVec(int rows)` -/
def newVec (rows : Nat) : Res (SymMat α) := new rows 1

/-- symmat.cpp:195-197 `SymVec::operator-`; it is `noexcept` -/
def vecSub (a b : SymMat α) : Res (SymMat α) := Res.noexcept (do
  let d ← a.sub b
  d.toSymVec)

/-- symmat.cpp:199-205 `SymVec::operator[]` -/
def vecAt (m : SymMat α) (i : Nat) : Res (Raw α) := readAt m.data i

end SymMat
end Tom
