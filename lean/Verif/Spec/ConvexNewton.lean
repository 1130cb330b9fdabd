import Verif.Spec.RealSystem
import Mathlib.Analysis.Convex.Function
/-
Specification for property C118: one equation in one unknown, convex (or concave) and strictly monotone on an interval without end.
-/
namespace Tom

/-- The equation `e = 0` in the unknown `x` on the set `I` of real numbers: `e` has the value `f u` at `x = u` and can be differentiated
there, with derivative `f' u`; `s f` is convex and `s r f` has positive slope, where `s` and `r` are `1` or `-1` (so: `f` is convex or
concave, and increasing or decreasing); with a point of `I` all points beyond it (in direction `r`) belong to `I`. -/
structure ConvexEquation (x : Str) (e : Expr (XNum ℝ)) (I : Set ℝ) (f f' : ℝ → ℝ) (s r : ℝ) : Prop where
  smooth : ∀ u ∈ I, SmoothAt (fun _ _ => e : Matrix (Fin [x].length) (Fin 1) (Expr (XNum ℝ))) [x] (fun _ => u)
  value : ∀ u ∈ I, realVal (assign [x] fun _ => u) e = some (f u)
  slope : ∀ u ∈ I, HasDerivAt f (f' u) u
  isOpen : IsOpen I
  signs : (s = 1 ∨ s = -1) ∧ (r = 1 ∨ r = -1)
  monotone : ∀ u ∈ I, 0 < s * (r * f' u)
  convex : ConvexOn ℝ I fun u => s * f u
  endless : ∀ u ∈ I, ∀ v, r * u ≤ r * v → v ∈ I

/-- The points Newton's method visits from `u`, as the library runs it (the first correction is not added to the initial value, C44). -/
noncomputable def newtonFrom (f f' : ℝ → ℝ) (u : ℝ) : ℕ → ℝ
  | 0 => u
  | 1 => -(f u / f' u)
  | k + 2 => newtonFrom f f' u (k + 1) - f (newtonFrom f f' u (k + 1)) / f' (newtonFrom f f' u (k + 1))

end Tom
