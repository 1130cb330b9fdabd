import Verif.Spec.Solve
/-
The steps of the Levenberg-Marquardt method as the library performs them.
-/
namespace Tom
variable {α : Type} [Dbl α]

/-- The step lengths of the line search: 1, halved `m` times. -/
def halvings (m : ℕ) : α := (fun a => Arith.mul a (lit 5 (-1)))^[m] (Dbl.ofInt 1)

/-- From `t`, in the direction made with the Jacobian at `s` and the damping after `k` rejected steps, some step length leads to `t'`. -/
def LMMove (cfg : Config α) (eqs ja : SymMat α) (t : VarsTable α) (k : ℕ) (s t' : VarsTable α) : Prop :=
  ∃ F d m, evalVec cfg eqs t = .ok F ∧ lmDirection cfg ja F (lmDamping k) s = .ok d ∧
    t.values.add (Mat.scaleLeft (halvings m) d) = .ok t'.values ∧ t'.vars = t.vars

/-- Where the Jacobian is evaluated after `k` rejected steps from `t`: at `t` itself, and then at the last rejected point. -/
inductive LMTrial (cfg : Config α) (eqs ja : SymMat α) (t : VarsTable α) : ℕ → VarsTable α → Prop
  | start : LMTrial cfg eqs ja t 0 t
  | reject {k : ℕ} {s s' : VarsTable α} (h : LMTrial cfg eqs ja t k s) (hm : LMMove cfg eqs ja t k s s') (hd : ¬ Descends cfg eqs t s') :
      LMTrial cfg eqs ja t (k + 1) s'

/-- A step of the method: after some number `k` of rejected steps, a move that makes the sum of squares smaller. -/
def LMStep (cfg : Config α) (eqs ja : SymMat α) (t t' : VarsTable α) : Prop :=
  ∃ k s, LMTrial cfg eqs ja t k s ∧ LMMove cfg eqs ja t k s t' ∧ Descends cfg eqs t t'

end Tom
