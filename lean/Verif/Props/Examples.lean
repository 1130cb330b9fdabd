import Verif.Model.Examples
import Verif.Model.Num
/-
The program examples/set_initial_values: a witness for C73_false with the equations and initial values of the example.
-/
namespace Tom

/-- distance at most `1e-9` -/
def near9 (v : XNum Rat) (q : Rat) : Bool :=
  match v with
  | .fin p => decide (p - q ≤ 1 / 10 ^ 9 ∧ q - p ≤ 1 / 10 ^ 9)
  | .bad => false

/-- C73 fails for the example that explains initial values: the program starts at (5, -5), next to the solution (4, -3) of its equations
`x^2+y^2-25 = 0`, `x^2-y^2-7 = 0`, and prints the solution (-4, 3), the farthest of the four.  (Exact rational arithmetic, default configuration.) -/
theorem C73_false_example : ∃ t m x y, exampleSetInitialValues defaultConfig 100 100 = .ok (t, m) ∧
    t.get ['x'] = .ok x ∧ t.get ['y'] = .ok y ∧ near9 x (-4) = true ∧ near9 y 3 = true ∧
    m.data.all (fun v => near9 v 0) = true := by
  have h : (match exampleSetInitialValues defaultConfig 100 100 with
    | .ok (t, m) => (match t.get ['x'], t.get ['y'] with
      | .ok x, .ok y => near9 x (-4) && near9 y 3 && m.data.all (fun v => near9 v 0)
      | _, _ => false)
    | _ => false) = true := by decide +kernel
  split at h
  · rename_i t m hm
    split at h
    · rename_i x y hx hy
      simp only [Bool.and_eq_true] at h
      exact ⟨t, m, x, y, hm, hx, hy, h.1.1, h.1.2, h.2⟩
    · cases h
  · cases h

end Tom
