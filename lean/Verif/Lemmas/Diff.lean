import Verif.Lemmas.Simplify
import Verif.Spec.Tree
import Verif.Spec.Derivative
import Mathlib.Logic.Function.Iterate
/-
The work-list differentiator equals a recursive one.
-/
set_option linter.unusedSectionVars false
set_option linter.unusedSimpArgs false
set_option linter.unusedVariables false
namespace Tom
variable {α : Type} [Dbl α]

theorem diffFuel_pos (e : Expr α) : 0 < diffFuel (embed e) := by
  cases e <;> simp only [embed, diffFuel] <;> split <;> omega

/-- a queue entry together with the expression it stands for -/
structure QE (α : Type) where
  path : Path
  flag : Bool
  e : Expr α

/-- the queue entry -/
def QE.node (d : QE α) : DiffNode := (d.path, d.flag)

/-- replace the nodes at the listed slots by their derivatives -/
def dFold (x : Str) (root : Raw α) (q : List (QE α)) : Raw α :=
  q.foldl (fun t d => t.setAt d.path (embed (dE x d.e))) root

/-- What one step of the work list achieves. -/
structure StepOk (x : Str) (e : Expr α) (n : Raw α) (new : List (QE α)) : Prop where
  step : diffStep x (embed e) = .ok (n, new.map QE.node)
  get : ∀ d ∈ new, n.getAt d.path = embed d.e
  inc : new.Pairwise fun a b => Raw.Incomp a.path b.path
  flag : ∀ d ∈ new, ∃ p0, d.path = p0 ++ [!d.flag]
  fold : dFold x n new = embed (dE x e)
  fuel : (new.map fun d => diffFuel (embed d.e)).sum < diffFuel (embed e)
  diffable : e.hasIntOp = false ↔ ∀ d ∈ new, d.e.hasIntOp = false

theorem fl1 : ∃ p0 : Path, [false] = p0 ++ [!true] := ⟨[], rfl⟩
theorem fl2 : ∃ p0 : Path, [true] = p0 ++ [!false] := ⟨[], rfl⟩
theorem fl3 : ∃ p0 : Path, [false, false] = p0 ++ [!true] := ⟨[false], rfl⟩
theorem fl4 : ∃ p0 : Path, [true, true] = p0 ++ [!false] := ⟨[true], rfl⟩
theorem fl5 : ∃ p0 : Path, [false, false, false] = p0 ++ [!true] := ⟨[false, false], rfl⟩
theorem fl6 : ∃ p0 : Path, [false, true, true] = p0 ++ [!false] := ⟨[false, true], rfl⟩

theorem isNum_hasIntOp {e : Expr α} (h : e.isNum = true) : e.hasIntOp = false := by
  cases e <;> simp_all [Expr.isNum, Expr.hasIntOp]

theorem isVar_hasIntOp {e : Expr α} (h : e.isVar = true) : e.hasIntOp = false := by
  cases e <;> simp_all [Expr.isVar, Expr.hasIntOp]

macro "flag_tac" : tactic => `(tactic|
  (first
    | (simp; done)
    | (simpa using fl1) | (simpa using fl2) | (simpa using And.intro fl1 fl2) | (simpa using And.intro fl3 fl4)
    | (simpa using And.intro fl5 fl6)))

macro "step_tac" : tactic => `(tactic|
  (constructor
   case flag => flag_tac
   all_goals
    simp_all [diffStep, diffOp, embed, embed_isSome, isNumber_embed, isVariable_embed, UnOp.toMathOp, BinOp.toMathOp,
      binaryNode, unaryNode, mkNum, culled, dFold, dE, Raw.getAt, Raw.setAt, diffFuel, Expr.hasIntOp,
      isNum_hasIntOp, isVar_hasIntOp, Bool.or_eq_false_iff, QE.node] <;> omega))

/-- the outer derivative of a function application -/
def outerD (o : UnOp) (e : Expr α) : Expr α :=
  match o with
  | .sin => .un .cos e
  | .cos => .un .neg (.un .sin e)
  | .tan => .bin .div (.num (Dbl.ofInt 1)) (.bin .pow (.un .cos e) (.num (Dbl.ofInt 2)))
  | .asin => .bin .div (.num (Dbl.ofInt 1))
        (.un .sqrt (.bin .sub (.num (Dbl.ofInt 1)) (.bin .pow e (.num (Dbl.ofInt 2)))))
  | .acos => .bin .div (.num (Dbl.ofInt (-1)))
        (.un .sqrt (.bin .sub (.num (Dbl.ofInt 1)) (.bin .pow e (.num (Dbl.ofInt 2)))))
  | .atan => .bin .div (.num (Dbl.ofInt 1))
        (.bin .add (.num (Dbl.ofInt 1)) (.bin .pow e (.num (Dbl.ofInt 2))))
  | .sqrt => .bin .div (.num (Dbl.ofInt 1)) (.bin .mul (.num (Dbl.ofInt 2)) (.un .sqrt e))
  | .log => .bin .div (.num (Dbl.ofInt 1)) e
  | .log2 => .bin .div (.num (Dbl.ofInt 1)) (.bin .mul e (.num (Dbl.log (Dbl.ofInt 2))))
  | .log10 => .bin .div (.num (Dbl.ofInt 1)) (.bin .mul e (.num (Dbl.log (Dbl.ofInt 10))))
  | .exp => .un .exp e
  | .pos | .neg => e

theorem stepUn (x : Str) (o : UnOp) (e : Expr α) :
    ∃ n new, StepOk x (.un o e) n new := by
  have hf := diffFuel_pos e
  by_cases hs : o = .pos ∨ o = .neg
  · refine ⟨embed (.un o e), [⟨[false], true, e⟩], ?_⟩
    rcases hs with rfl | rfl <;> step_tac
  · by_cases hn : e.isNum = true
    · refine ⟨mkNum (Dbl.ofInt 0), [], ?_⟩
      cases o <;> simp at hs <;> step_tac
    · by_cases hv : o = .exp ∧ e.isVar = true
      · refine ⟨embed (.un o e), [], ?_⟩
        obtain ⟨rfl, hv⟩ := hv
        step_tac
      · refine ⟨binaryNode .mul (embed (outerD o e)) (embed e), [⟨[true], false, e⟩], ?_⟩
        cases o <;> simp at hs hv <;> simp only [outerD] <;> step_tac

theorem stepLeaf (x : Str) (e : Expr α) (h : e.isNum = true ∨ e.isVar = true) :
    ∃ n new, StepOk x e n new := by
  cases e with
  | num v => refine ⟨mkNum (Dbl.ofInt 0), [], ?_⟩; step_tac
  | var y => refine ⟨mkNum (if y = x then Dbl.ofInt 1 else Dbl.ofInt 0), [], ?_⟩; step_tac
  | un => simp [Expr.isNum, Expr.isVar] at h
  | bin => simp [Expr.isNum, Expr.isVar] at h

theorem inc_ft : Raw.Incomp [false] [true] := Raw.Incomp.fork false [] []
theorem inc_fftt : Raw.Incomp [false, false] [true, true] := Raw.Incomp.fork false [false] [true]
theorem inc_div : Raw.Incomp [false, false, false] [false, true, true] :=
  Raw.Incomp.cons false (Raw.Incomp.fork false [false] [true])

theorem stepAddSub (x : Str) (o : BinOp) (a b : Expr α) (ho : o = .add ∨ o = .sub) :
    ∃ n new, StepOk x (.bin o a b) n new := by
  have hf := diffFuel_pos a
  have hg := diffFuel_pos b
  have hi := inc_ft
  by_cases h : a.isNum = true ∧ b.isNum = true
  · refine ⟨mkNum (Dbl.ofInt 0), [], ?_⟩
    obtain ⟨h1, h2⟩ := h
    rcases ho with rfl | rfl <;> step_tac
  · refine ⟨embed (.bin o a b), [⟨[false], true, a⟩, ⟨[true], false, b⟩], ?_⟩
    have h1 : diffStep x (embed (.bin o a b)) = .ok (embed (.bin o a b), [([false], true), ([true], false)]) := by
      rcases ho with rfl | rfl <;>
        simp [diffStep, diffOp, embed, embed_isSome, isNumber_embed, BinOp.toMathOp, h]
    have h2 : dE x (.bin o a b) = .bin o (dE x a) (dE x b) := by
      rcases ho with rfl | rfl <;> simp only [dE, if_neg h]
    constructor
    · exact h1
    · simp [embed, Raw.getAt]
    · simpa using hi
    · flag_tac
    · simp [h2, dFold, embed, Raw.setAt]
    · rcases ho with rfl | rfl <;> simp [embed, diffFuel, BinOp.toMathOp]
    · rcases ho with rfl | rfl <;> simp [Expr.hasIntOp, Bool.or_eq_false_iff]

theorem stepMul (x : Str) (a b : Expr α) : ∃ n new, StepOk x (.bin .mul a b) n new := by
  have hf := diffFuel_pos a
  have hg := diffFuel_pos b
  have hi := inc_fftt
  by_cases h1 : a.isNum = true
  · refine ⟨embed (.bin .mul a b), [⟨[true], false, b⟩], ?_⟩
    step_tac
  · by_cases h2 : b.isNum = true
    · refine ⟨embed (.bin .mul a b), [⟨[false], true, a⟩], ?_⟩
      step_tac
    · refine ⟨embed (.bin .add (.bin .mul a b) (.bin .mul a b)), [⟨[false, false], true, a⟩, ⟨[true, true], false, b⟩], ?_⟩
      step_tac

theorem stepDiv (x : Str) (a b : Expr α) : ∃ n new, StepOk x (.bin .div a b) n new := by
  have hf := diffFuel_pos a
  have hg := diffFuel_pos b
  have hi := inc_div
  by_cases h2 : b.isNum = true
  · refine ⟨embed (.bin .div a b), [⟨[false], true, a⟩], ?_⟩
    step_tac
  · refine ⟨embed (.bin .div (.bin .sub (.bin .mul a b) (.bin .mul a b)) (.bin .pow b (.num (Dbl.ofInt 2)))),
      [⟨[false, false, false], true, a⟩, ⟨[false, true, true], false, b⟩], ?_⟩
    step_tac

theorem dE_mulLog (x : Str) (a b : Expr α) (ha : a.isNum = false) (hb : b.isNum = false) :
    dE x (.bin .mul b (.un .log a)) =
      .bin .add (.bin .mul (dE x b) (.un .log a))
          (.bin .mul b (.bin .mul (.bin .div (.num (Dbl.ofInt 1)) a) (dE x a))) := by
  have h : (Expr.un .log a).isNum = false := rfl
  simp [dE, ha, hb, h]

theorem dE_pow (x : Str) (a b : Expr α) (ha : a.isNum = false) (hb : b.isNum = false) :
    dE x (.bin .pow a b) = .bin .mul (.bin .pow a b) (dE x (.bin .mul b (.un .log a))) := by
  rw [dE_mulLog x a b ha hb]
  cases a <;> cases b <;> simp_all [dE, Expr.isNum]

theorem diffStep_pow (x : Str) (a b : Expr α) (ha : a.isNum = false) (hb : b.isNum = false) :
    diffStep x (embed (.bin .pow a b)) =
      .ok (embed (.bin .mul (.bin .pow a b) (.bin .mul b (.un .log a))), [([true], false)]) := by
  cases a <;> cases b <;> simp_all [diffStep, diffOp, embed, Expr.isNum, BinOp.toMathOp, UnOp.toMathOp, Raw.isSome,
    Raw.isNumber, binaryNode, unaryNode]

theorem diffStep_powNum (x : Str) (a : Expr α) (c : α) (ha : a.isNum = false) :
    diffStep x (embed (.bin .pow a (.num c))) =
      .ok (embed (.bin .mul (.bin .mul (.num c) (.bin .pow a (.num (Arith.sub c (Dbl.ofInt 1))))) a), [([true], false)]) := by
  cases a <;> simp_all [diffStep, diffOp, embed, Expr.isNum, BinOp.toMathOp, UnOp.toMathOp, Raw.isSome,
    Raw.isNumber, binaryNode, unaryNode, mkNum]

theorem dE_powNum (x : Str) (a : Expr α) (c : α) (ha : a.isNum = false) :
    dE x (.bin .pow a (.num c)) =
      .bin .mul (.bin .mul (.num c) (.bin .pow a (.num (Arith.sub c (Dbl.ofInt 1))))) (dE x a) := by
  cases a <;> simp_all [dE, Expr.isNum]

theorem diffStep_numPow (x : Str) (b : Expr α) (c : α) (hb : b.isNum = false) :
    diffStep x (embed (.bin .pow (.num c) b)) =
      .ok (embed (.bin .mul (.bin .mul (.bin .pow (.num c) b) (.un .log (.num c))) b), [([true], false)]) := by
  cases b <;> simp_all [diffStep, diffOp, embed, Expr.isNum, BinOp.toMathOp, UnOp.toMathOp, Raw.isSome,
    Raw.isNumber, binaryNode, unaryNode, mkNum]

theorem dE_numPow (x : Str) (b : Expr α) (c : α) (hb : b.isNum = false) :
    dE x (.bin .pow (.num c) b) =
      .bin .mul (.bin .mul (.bin .pow (.num c) b) (.un .log (.num c))) (dE x b) := by
  cases b <;> simp_all [dE, Expr.isNum]

theorem stepPow (x : Str) (a b : Expr α) : ∃ n new, StepOk x (.bin .pow a b) n new := by
  have hf := diffFuel_pos a
  have hg := diffFuel_pos b
  by_cases h1 : a.isNum = true
  · by_cases h2 : b.isNum = true
    · cases a <;> simp [Expr.isNum] at h1
      cases b <;> simp [Expr.isNum] at h2
      refine ⟨mkNum (Dbl.ofInt 0), [], ?_⟩
      constructor <;> simp [diffStep, diffOp, embed, mkNum, culled, dFold, dE, diffFuel, Expr.hasIntOp, QE.node,
        Raw.isSome, Raw.isNumber, BinOp.toMathOp]
    · cases a <;> simp [Expr.isNum] at h1
      rename_i c
      simp only [Bool.not_eq_true] at h2
      refine ⟨embed (.bin .mul (.bin .mul (.bin .pow (.num c) b) (.un .log (.num c))) b), [⟨[true], false, b⟩], ?_⟩
      constructor
      · exact diffStep_numPow x b c h2
      · simp [embed, Raw.getAt]
      · simp
      · flag_tac
      · rw [dE_numPow x b c h2]; simp [dFold, embed, Raw.setAt]
      · simp [embed, diffFuel, BinOp.toMathOp, UnOp.toMathOp]; omega
      · simp [Expr.hasIntOp, Bool.or_eq_false_iff, And.comm]
  · simp only [Bool.not_eq_true] at h1
    by_cases h2 : b.isNum = true
    · cases b <;> simp [Expr.isNum] at h2
      rename_i c
      refine ⟨embed (.bin .mul (.bin .mul (.num c) (.bin .pow a (.num (Arith.sub c (Dbl.ofInt 1))))) a), [⟨[true], false, a⟩], ?_⟩
      constructor
      · exact diffStep_powNum x a c h1
      · simp [embed, Raw.getAt]
      · simp
      · flag_tac
      · rw [dE_powNum x a c h1]; simp [dFold, embed, Raw.setAt]
      · simp [embed, diffFuel, BinOp.toMathOp, UnOp.toMathOp]; omega
      · simp [Expr.hasIntOp, Bool.or_eq_false_iff, And.comm]
    · simp only [Bool.not_eq_true] at h2
      refine ⟨embed (.bin .mul (.bin .pow a b) (.bin .mul b (.un .log a))), [⟨[true], false, .bin .mul b (.un .log a)⟩], ?_⟩
      constructor
      · exact diffStep_pow x a b h1 h2
      · simp [embed, Raw.getAt]
      · simp
      · flag_tac
      · rw [dE_pow x a b h1 h2]; simp [dFold, embed, Raw.setAt]
      · simp [embed, diffFuel, BinOp.toMathOp, UnOp.toMathOp]; omega
      · simp [Expr.hasIntOp, Bool.or_eq_false_iff, And.comm]

theorem step_cases (x : Str) (e : Expr α) :
    (e.hasIntOp = true ∧ diffStep x (embed e) = .throw .runtime) ∨ ∃ n new, StepOk x e n new := by
  cases e with
  | num v => exact .inr (stepLeaf x _ (by simp [Expr.isNum]))
  | var y => exact .inr (stepLeaf x _ (by simp [Expr.isVar]))
  | un o e => exact .inr (stepUn x o e)
  | bin o a b =>
    cases o with
    | add => exact .inr (stepAddSub x _ a b (by simp))
    | sub => exact .inr (stepAddSub x _ a b (by simp))
    | mul => exact .inr (stepMul x a b)
    | div => exact .inr (stepDiv x a b)
    | pow => exact .inr (stepPow x a b)
    | and => left; simp [Expr.hasIntOp, embed, diffStep, diffOp, BinOp.toMathOp]
    | or => left; simp [Expr.hasIntOp, embed, diffStep, diffOp, BinOp.toMathOp]
    | mod => left; simp [Expr.hasIntOp, embed, diffStep, diffOp, BinOp.toMathOp]

theorem dFold_setAt (x : Str) (q : List (QE α)) (p : Path) (t s : Raw α)
    (h : ∀ d ∈ q, Raw.Incomp p d.path) : dFold x (t.setAt p s) q = (dFold x t q).setAt p s := by
  induction q generalizing t with
  | nil => rfl
  | cons pe q ih =>
    simp only [dFold, List.foldl_cons] at ih ⊢
    rw [Raw.setAt_comm (h pe (by simp)), ih _ fun pe hp => h pe (by simp [hp])]

/-- a queue entry seen from the root of the whole tree -/
def QE.under (p : Path) (d : QE α) : QE α := ⟨p ++ d.path, d.flag, d.e⟩

theorem dFold_prefix (x : Str) (new : List (QE α)) (p : Path) (t s : Raw α) :
    dFold x (t.setAt p s) (new.map (QE.under p)) = t.setAt p (dFold x s new) := by
  induction new generalizing s with
  | nil => rfl
  | cons pe q ih =>
    simp only [dFold, List.foldl_cons, List.map_cons, QE.under] at ih ⊢
    rw [Raw.setAt_append, ih]

theorem dFold_append (x : Str) (q q' : List (QE α)) (t : Raw α) :
    dFold x t (q ++ q') = dFold x (dFold x t q) q' := by simp [dFold]

theorem isOperator_embed_false {e : Expr α} (h : (embed e).isOperator = false) : e.isNum = true ∨ e.isVar = true := by
  cases e <;> simp_all [embed, Raw.isOperator, Expr.isNum, Expr.isVar]

theorem diffLoop_eq (x : Str) (fuel : Nat) (q : List (QE α)) (root : Raw α)
    (hget : ∀ d ∈ q, root.getAt d.path = embed d.e)
    (hinc : q.Pairwise fun a b => Raw.Incomp a.path b.path)
    (hflag : ∀ d ∈ q, (embed d.e).isOperator = true → ∃ p0, d.path = p0 ++ [!d.flag])
    (hfuel : (q.map fun d => diffFuel (embed d.e)).sum ≤ fuel) :
    ((∀ d ∈ q, d.e.hasIntOp = false) → diffLoop x fuel (q.map QE.node) root = .ok (dFold x root q)) ∧
    ((∃ d ∈ q, d.e.hasIntOp = true) → diffLoop x fuel (q.map QE.node) root = .throw .runtime) := by
  induction fuel generalizing q root with
  | zero =>
    cases q with
    | nil => simp [diffLoop, dFold]
    | cons d q =>
      have := diffFuel_pos d.e
      simp at hfuel; omega
  | succ fuel ih =>
    cases q with
    | nil => simp [diffLoop, dFold]
    | cons d q =>
      obtain ⟨p, fl, e⟩ := d
      have hp : root.getAt p = embed e := hget ⟨p, fl, e⟩ (by simp)
      have hv : root.Valid p := Raw.valid_of_getAt (by rw [hp]; exact embed_isSome e)
      have hslot : (if (root.getAt p).isOperator = true then diffSlot p fl else p) = p := by
        split
        · rename_i ho
          obtain ⟨p0, h0⟩ := hflag ⟨p, fl, e⟩ (by simp) (by rw [← hp]; exact ho)
          simp only at h0
          rw [h0]; simp [diffSlot]
        · rfl
      obtain ⟨hincp, hincq⟩ := List.pairwise_cons.mp hinc
      simp only at hincp
      simp only [List.map_cons, List.sum_cons] at hfuel
      rcases step_cases x e with ⟨hbad, hthrow⟩ | ⟨n, new, hs⟩
      · constructor
        · intro h; have := h ⟨p, fl, e⟩ (by simp); simp_all
        · intro _
          simp only [List.map_cons, QE.node, diffLoop]
          rw [hslot, hp, hthrow]; rfl
      · have hstep : diffLoop x (fuel + 1) ((⟨p, fl, e⟩ :: q).map QE.node) root
            = diffLoop x fuel ((q ++ new.map (QE.under p)).map QE.node) (root.setAt p n) := by
          simp only [List.map_cons, diffLoop, QE.node]
          rw [hslot, hp, hs.step]
          simp only [Res.bind_ok, List.map_append, List.map_map]
          rfl
        rw [hstep]
        have key := ih (q ++ new.map (QE.under p)) (root.setAt p n) ?_ ?_ ?_ ?_
        · constructor
          · intro h
            rw [key.1, dFold_append, dFold_setAt x q p root n (fun pe hpe => hincp pe hpe), dFold_prefix, hs.fold,
              ← dFold_setAt x q p root _ (fun pe hpe => hincp pe hpe)]
            · rfl
            · intro pe hpe
              simp only [List.mem_append, List.mem_map] at hpe
              rcases hpe with hpe | ⟨pe', hpe', rfl⟩
              · exact h pe (by simp [hpe])
              · exact hs.diffable.mp (h ⟨p, fl, e⟩ (by simp)) pe' hpe'
          · rintro ⟨pe, hpe, hbad⟩
            apply key.2
            simp only [List.mem_cons] at hpe
            rcases hpe with rfl | hpe
            · have : ¬ ∀ pe ∈ new, pe.e.hasIntOp = false := by
                intro h; have := hs.diffable.mpr h; simp_all
              simp only [not_forall] at this
              obtain ⟨pe', h', hb'⟩ := this
              refine ⟨pe'.under p, ?_, by simpa [QE.under] using hb'⟩
              simp only [List.mem_append, List.mem_map]
              exact .inr ⟨pe', h', rfl⟩
            · exact ⟨pe, by simp [hpe], hbad⟩
        · intro pe hpe
          simp only [List.mem_append, List.mem_map] at hpe
          rcases hpe with hpe | ⟨pe', hpe', rfl⟩
          · rw [Raw.getAt_setAt_incomp (hincp pe hpe)]
            exact hget pe (by simp [hpe])
          · simp only [QE.under]
            rw [Raw.getAt_setAt_append _ hv]
            exact hs.get pe' hpe'
        · rw [List.pairwise_append]
          refine ⟨hincq, ?_, ?_⟩
          · rw [List.pairwise_map]
            exact hs.inc.imp fun h => Raw.Incomp.prefix p h
          · intro a ha b hb
            simp only [List.mem_map] at hb
            obtain ⟨pe', hpe', rfl⟩ := hb
            exact (hincp a ha).symm.append_right _
        · intro pe hpe hop
          simp only [List.mem_append, List.mem_map] at hpe
          rcases hpe with hpe | ⟨pe', hpe', rfl⟩
          · exact hflag pe (by simp [hpe]) hop
          · obtain ⟨p0, h0⟩ := hs.flag pe' hpe'
            exact ⟨p ++ p0, by simp [QE.under, h0]⟩
        · have := hs.fuel
          simp only [List.map_append, List.map_map, List.sum_append]
          have e1 : (List.map ((fun d : QE α => diffFuel (embed d.e)) ∘ (QE.under p)) new)
              = new.map fun d => diffFuel (embed d.e) := rfl
          rw [e1]; omega

theorem diffOnce_cases (x : Str) (e : Expr α) :
    (e.hasIntOp = false → diffOnce x (embed e) = .ok (embed (dE x e))) ∧
    (e.hasIntOp = true → diffOnce x (embed e) = .throw .runtime) := by
  by_cases ho : (embed e).isOperator = true
  · have h1 : diffOnce x (embed e) = (diffStep x (embed e) >>= fun nn =>
        diffLoop x (diffFuel (embed e)) nn.2 nn.1) := by
      cases e <;> simp_all [embed, Raw.isOperator] <;> rfl
    rw [h1]
    rcases step_cases x e with ⟨hbad, hthrow⟩ | ⟨n, new, hs⟩
    · simp [hthrow, hbad]
    · rw [hs.step, Res.bind_ok]
      have key := diffLoop_eq x (diffFuel (embed e)) new n hs.get hs.inc (fun d hd _ => hs.flag d hd)
        (Nat.le_of_lt hs.fuel)
      constructor
      · intro h; rw [key.1 (hs.diffable.mp h), hs.fold]
      · intro h
        apply key.2
        have : ¬ ∀ pe ∈ new, pe.e.hasIntOp = false := by
          intro h; have := hs.diffable.mpr h; simp_all
        simp only [not_forall] at this
        obtain ⟨pe', h', hb'⟩ := this
        exact ⟨pe', h', by simpa using hb'⟩
  · have h1 : diffOnce x (embed e) = diffLoop x (diffFuel (embed e)) [([], false)] (embed e) := by
      cases e <;> simp_all [embed, Raw.isOperator] <;> rfl
    have key := diffLoop_eq x (diffFuel (embed e)) [⟨[], false, e⟩] (embed e) (by simp) (by simp)
      (by simpa using ho) (by simp)
    rw [h1]
    simpa [QE.node, dFold] using key

theorem diffOnce_ok (x : Str) (e : Expr α) (h : e.hasIntOp = false) :
    diffOnce x (embed e) = .ok (embed (dE x e)) := (diffOnce_cases x e).1 h

theorem diffOnce_throw (x : Str) (e : Expr α) (h : e.hasIntOp = true) :
    diffOnce x (embed e) = .throw .runtime := (diffOnce_cases x e).2 h

/-- Differentiation introduces no `& | %`. -/
theorem dE_hasIntOp (x : Str) (e : Expr α) (h : e.hasIntOp = false) : (dE x e).hasIntOp = false := by
  fun_induction dE x e <;> simp_all [Expr.hasIntOp, Bool.or_eq_false_iff]

theorem diffTimes_ok (x : Str) (i : Nat) (e : Expr α) (h : e.hasIntOp = false) :
    diffTimes x i (embed e) = .ok (embed ((dE x)^[i] e)) := by
  induction i generalizing e with
  | zero => rfl
  | succ i ih => simp [diffTimes, diffOnce_ok x e h, ih _ (dE_hasIntOp x e h)]

theorem diff_ok (cfg : Config α) (x : Str) (i : Int) (hi : 0 < i) (e : Expr α) (h : e.hasIntOp = false) :
    diff cfg (embed e) x i = simplify cfg (embed ((dE x)^[i.toNat] e)) := by
  have : i > 0 := hi
  simp [diff, this, diffTimes_ok x _ e h]

theorem diff_throw (cfg : Config α) (x : Str) (i : Int) (hi : 0 < i) (e : Expr α) (h : e.hasIntOp = true) :
    diff cfg (embed e) x i = .throw .runtime := by
  have h1 : i > 0 := hi
  obtain ⟨n, hn⟩ : ∃ n, i.toNat = n + 1 := ⟨i.toNat - 1, by omega⟩
  simp [diff, h1, hn, diffTimes, diffOnce_throw x e h]

end Tom
