import Verif.Lemmas.LinksSimplify
import Verif.Lemmas.Diff
/-
Differentiation with addresses.
-/
set_option linter.unusedSectionVars false
set_option linter.unusedSimpArgs false
set_option linter.unusedVariables false
set_option linter.unreachableTactic false
set_option linter.unusedTactic false
namespace Tom
variable {α : Type} [Dbl α]
open Raw

/-- 1 if the addresses are the same -/
def ind (k a : Nat) : Nat := if k = a then 1 else 0

theorem ind_cases (k a : Nat) : (ind k a = 0 ∧ k ≠ a) ∨ (ind k a = 1 ∧ k = a) := by
  unfold ind; split <;> simp_all

theorem occurs_mk (a : Nat) (ty op) (o : Obj α) (x) (l r : PTree α) :
    occurs a (.mk ty op o x l r) = ind o.addr a + occurs a l + occurs a r := rfl

theorem occurs_nil (a : Nat) : occurs a (.nil : PTree α) = 0 := rfl

theorem pClone_mk (ty op) (o : Obj α) (x) (l r : PTree α) (n : Nat) :
    ∃ o' l' r' n', pClone (.mk ty op o x l r) n = .ok (.mk ty op o' x l' r', n') ∧ o'.value = o.value ∧
      l'.erase = l.erase ∧ r'.erase = r.erase ∧ o'.parent = none ∧ Linked (some o'.addr) l' ∧ Linked (some o'.addr) r' ∧
      n ≤ n' ∧ ∀ a, ind o'.addr a + occurs a l' + occurs a r' ≤ 1 ∧
        (a < n → ind o'.addr a + occurs a l' + occurs a r' = 0) ∧ (n' ≤ a → ind o'.addr a + occurs a l' + occurs a r' = 0) := by
  obtain ⟨t, n', h1, h2, h3, h4⟩ := pClone_spec (.mk ty op o x l r) rfl n
  cases t with
  | nil => simp [erase] at h2
  | mk ty' op' o' x' l' r' =>
    simp only [erase_mk, Raw.mk.injEq] at h2
    obtain ⟨rfl, rfl, e1, rfl, e2, e3⟩ := h2
    exact ⟨o', l', r', n', h1, e1, e2, e3, h3.1, h3.2.1, h3.2.2, h4.1, h4.2⟩

/-- a queue entry and its path below the rewritten node -/
def NewAt (t : PTree α) (e : Nat × Bool) (d : DiffNode) : Prop := (t.getAt d.1).addr? = some e.1 ∧ e.2 = d.2

/-- what `DiffOnceOperator` leaves in the slot, and the entries it queues -/
def DiffTo (q : Option Nat) (n : Nat) (old : PTree α) (p : (PTree α × List (Nat × Bool)) × Nat) (c : Raw α × List DiffNode) :
    Prop :=
  p.1.1.erase = c.1 ∧ Linked q p.1.1 ∧ From n p.2 old p.1.1 ∧ List.Forall₂ (NewAt p.1.1) p.1.2 c.2

/-- running the builders -/
macro "run" : tactic => `(tactic|
  simp only [pBin, pUn, pNum, newNode, LM.bind_run, LM.fresh_run, LM.pure_run, Res.bind_ok, LM.lift_run, setParent,
    pDiffNode, isSome_mk, if_true, if_false, Bool.true_eq_false, Bool.false_eq_true, reduceCtorEq])

/-- address arithmetic -/
macro "addr_tac" hb:ident c1:term:arg c2:term:arg c3:term:arg n1:term:arg : tactic => `(tactic|
  (refine ⟨by omega, fun a => ?_⟩
   have h0 := $hb a
   have := $c1 a
   have := $c2 a
   have := $c3 a
   have := ind_cases $n1 a
   have := ind_cases ($n1 + 1) a
   have := ind_cases ($n1 + 1 + 1) a
   have := ind_cases ($n1 + 1 + 1 + 1) a
   have := ind_cases ($n1 + 1 + 1 + 1 + 1) a
   have := ind_cases ($n1 + 1 + 1 + 1 + 1 + 1) a
   have := ind_cases ($n1 + 1 + 1 + 1 + 1 + 1 + 1) a
   have := ind_cases ($n1 + 1 + 1 + 1 + 1 + 1 + 1 + 1) a
   simp only [occurs_mk, occurs_nil] at *
   refine ⟨fun h => ?_, fun h => ?_, fun h => ?_⟩ <;> omega))

/-- the context of one step: the operator node is found where the parent pointers of its children point to -/
structure DiffCtx (live : PTree α) (q : Option Nat) (n : Nat) (ty : NodeType) (op : MathOp) (o : Obj α) (x : Str)
    (l r : PTree α) : Prop where
  find : live.find o.addr = .mk ty op o x l r
  linked : Linked q (.mk ty op o x l r)
  uniq : ∀ a, occurs a (.mk ty op o x l r) ≤ 1
  below : ∀ a, n ≤ a → occurs a (.mk ty op o x l r) = 0

set_option maxHeartbeats 2000000 in
/-- the functions handled by one clone of the argument -/
theorem pDiffOp_fn {live : PTree α} {q : Option Nat} {n : Nat} {ty op o x} {l r : PTree α}
    (h : DiffCtx live q n ty op o x l r) (hop : op ∈ [MathOp.sin, .cos, .tan, .arcsin, .arccos, .arctan, .sqrt, .log, .log2, .log10]) :
    Res.Same (DiffTo q n (.mk ty op o x l r)) (pDiffOp live (.mk ty op o x l r) n) (diffOp (Raw.mk ty op o x l r).erase) := by
  obtain ⟨hf, ⟨hq, hl, hr⟩, hu, hb⟩ := h
  simp only [List.mem_cons, List.not_mem_nil, or_false] at hop
  cases l with
  | nil => rcases hop with rfl | rfl | rfl | rfl | rfl | rfl | rfl | rfl | rfl | rfl <;> exact .assertFail
  | mk lt lop lo lx ll lr =>
    cases hn : (Raw.mk lt lop lo lx ll lr).isNumber with
    | true =>
      have hn' : (Raw.mk lt lop lo.value lx ll.erase lr.erase).isNumber = true := by rw [← hn]; cases lt <;> rfl
      have e1 : Res.Same (DiffTo q n (.mk ty op o x (.mk lt lop lo lx ll lr) r)) (.ok ((pCulled o x r, []), n))
          (.ok (culled x r.erase, [])) := by
        refine .ok ⟨rfl, ⟨hq, trivial, hr⟩, ⟨Nat.le_refl _, fun a => ?_⟩, .nil⟩
        have := hb a
        simp only [pCulled, occurs_mk, occurs_nil] at this ⊢
        refine ⟨fun h => ?_, fun h => ?_, fun h => ?_⟩ <;> omega
      rcases hop with rfl | rfl | rfl | rfl | rfl | rfl | rfl | rfl | rfl | rfl <;>
        simpa only [pDiffOp, diffOp, erase_mk, hn, hn', isSome_mk, if_false, if_true, Bool.true_eq_false, LM.pure_run] using e1
    | false =>
      obtain ⟨uo, ul, ur, n1, h1, h2, h3, h4, h5, h6, h7, h8, h9⟩ := pClone_mk lt lop lo lx ll lr n
      obtain ⟨k1, k2, k3⟩ := hl
      have hn' : (Raw.mk lt lop lo.value lx ll.erase lr.erase).isNumber = false := by rw [← hn]; cases lt <;> rfl
      rcases hop with rfl | rfl | rfl | rfl | rfl | rfl | rfl | rfl | rfl | rfl <;>
      · simp only [pDiffOp, diffOp, erase_mk, hn, hn', LM.bind_run, h1, Res.bind_ok, isSome_mk, if_false, Bool.true_eq_false,
          Bool.false_eq_true]
        run
        simp only [h5, Res.bind_ok]
        refine .ok ⟨?_, ?_, ?_, ?_⟩
        · simp [binaryNode, unaryNode, mkNum, *]
        · simp [Linked, *]
        · addr_tac hb h9 h9 h9 n1
        · exact .cons ⟨rfl, rfl⟩ .nil

/-- nothing happens to the node itself -/
theorem diffTo_same {q : Option Nat} {n : Nat} {t : PTree α} (hl : Linked q t) (hb : ∀ a, n ≤ a → occurs a t = 0)
    {es : List (Nat × Bool)} {ds : List DiffNode} (h : List.Forall₂ (NewAt t) es ds) :
    DiffTo q n t ((t, es), n) (t.erase, ds) :=
  ⟨rfl, hl, ⟨Nat.le_refl _, fun a => ⟨fun _ => Nat.le_refl _, fun h => by rw [hb a h]; omega, fun h => hb a h⟩⟩, h⟩

/-- the left child's entry -/
theorem DiffCtx.leftEntry {live : PTree α} {q : Option Nat} {n : Nat} {ty op o x} {lt lop lo lx} {ll lr r : PTree α}
    (h : DiffCtx live q n ty op o x (.mk lt lop lo lx ll lr) r) :
    pDiffNode live (.mk lt lop lo lx ll lr) = .ok (lo.addr, true) := by
  simp [pDiffNode, h.linked.2.1.1, h.find, addr?]

/-- the right child's entry -/
theorem DiffCtx.rightEntry {live : PTree α} {q : Option Nat} {n : Nat} {ty op o x} {rt rop ro rx} {l rl rr : PTree α}
    (h : DiffCtx live q n ty op o x l (.mk rt rop ro rx rl rr)) :
    pDiffNode live (.mk rt rop ro rx rl rr) = .ok (ro.addr, false) := by
  have hne : (l.addr? == some ro.addr) = false := by
    have := h.uniq ro.addr
    cases l with
    | nil => rfl
    | mk lt lop lo lx ll lr =>
      simp only [occurs_mk, ind, if_true] at this
      have : lo.addr ≠ ro.addr := by intro e; simp [e] at this; omega
      simpa [addr?] using this
  simp [pDiffNode, h.linked.2.2.1, h.find, hne]

theorem isNumber_erase_mk (ty op) (o : Obj α) (x) (l r : PTree α) :
    (Raw.mk ty op o.value x l.erase r.erase).isNumber = (Raw.mk ty op o x l r).isNumber := by cases ty <;> rfl
theorem isVariable_erase_mk (ty op) (o : Obj α) (x) (l r : PTree α) :
    (Raw.mk ty op o.value x l.erase r.erase).isVariable = (Raw.mk ty op o x l r).isVariable := by cases ty <;> rfl

theorem pDiffOp_sign {live : PTree α} {q : Option Nat} {n : Nat} {ty op o x} {l r : PTree α}
    (h : DiffCtx live q n ty op o x l r) (hop : op = .positive ∨ op = .negative) :
    Res.Same (DiffTo q n (.mk ty op o x l r)) (pDiffOp live (.mk ty op o x l r) n) (diffOp (Raw.mk ty op o x l r).erase) := by
  cases l with
  | nil => rcases hop with rfl | rfl <;> exact .ub
  | mk lt lop lo lx ll lr =>
    have hE := h.leftEntry
    rcases hop with rfl | rfl <;>
    · simp only [pDiffOp, diffOp, erase_mk, hE, LM.bind_run, LM.lift_run, LM.pure_run, Res.bind_ok, isSome_mk, if_true]
      exact .ok (diffTo_same h.linked h.below (.cons ⟨rfl, rfl⟩ .nil))

theorem pDiffOp_exp {live : PTree α} {q : Option Nat} {n : Nat} {ty o x} {l r : PTree α}
    (h : DiffCtx live q n ty .exp o x l r) :
    Res.Same (DiffTo q n (.mk ty .exp o x l r)) (pDiffOp live (.mk ty .exp o x l r) n) (diffOp (Raw.mk ty .exp o x l r).erase) := by
  have hctx := h
  obtain ⟨hf, ⟨hq, hl, hr⟩, hu, hb⟩ := h
  cases l with
  | nil => exact .assertFail
  | mk lt lop lo lx ll lr =>
    simp only [pDiffOp, diffOp, erase_mk, isNumber_erase_mk, isVariable_erase_mk, isSome_mk, Bool.true_eq_false, if_false]
    by_cases hn : (Raw.mk lt lop lo lx ll lr).isNumber = true
    · simp only [hn, if_true, LM.pure_run]
      refine .ok ⟨rfl, ⟨hq, trivial, hr⟩, ⟨Nat.le_refl _, fun a => ?_⟩, .nil⟩
      have := hb a
      simp only [pCulled, occurs_mk, occurs_nil] at this ⊢
      refine ⟨fun h => ?_, fun h => ?_, fun h => ?_⟩ <;> omega
    · by_cases hv : (Raw.mk lt lop lo lx ll lr).isVariable = true
      · simp only [hn, hv, if_true, if_false, Bool.false_eq_true, LM.pure_run]
        exact .ok (diffTo_same hctx.linked hb .nil)
      · obtain ⟨uo, ul, ur, n1, h1, h2, h3, h4, h5, h6, h7, h8, h9⟩ := pClone_mk lt lop lo lx ll lr n
        obtain ⟨k1, k2, k3⟩ := hl
        simp only [hn, hv, LM.bind_run, h1, Res.bind_ok, isSome_mk, if_false, Bool.true_eq_false,
          Bool.false_eq_true]
        run
        simp only [h5, Res.bind_ok]
        refine .ok ⟨?_, ?_, ?_, ?_⟩
        · simp [binaryNode, unaryNode, mkNum, *]
        · simp [Linked, *]
        · addr_tac hb h9 h9 h9 n1
        · exact .cons ⟨rfl, rfl⟩ .nil

theorem pDiffOp_addSub {live : PTree α} {q : Option Nat} {n : Nat} {ty op o x} {l r : PTree α}
    (h : DiffCtx live q n ty op o x l r) (hop : op = .add ∨ op = .sub) :
    Res.Same (DiffTo q n (.mk ty op o x l r)) (pDiffOp live (.mk ty op o x l r) n) (diffOp (Raw.mk ty op o x l r).erase) := by
  have hctx := h
  obtain ⟨hf, ⟨hq, hl, hr⟩, hu, hb⟩ := h
  cases l with
  | nil => rcases hop with rfl | rfl <;> simp only [pDiffOp, diffOp, erase_mk, erase_nil, isSome, true_or, if_true] <;> exact .assertFail
  | mk lt lop lo lx ll lr =>
    cases r with
    | nil => rcases hop with rfl | rfl <;> simp only [pDiffOp, diffOp, erase_mk, erase_nil, isSome, or_true, if_true] <;> exact .assertFail
    | mk rt rop ro rx rl rr =>
      have hE1 := hctx.leftEntry
      have hE2 := hctx.rightEntry
      rcases hop with rfl | rfl <;>
      · simp only [pDiffOp, diffOp, erase_mk, isNumber_erase_mk, isSome_mk, Bool.true_eq_false, or_self, if_false]
        by_cases hn : (Raw.mk lt lop lo lx ll lr).isNumber = true ∧ (Raw.mk rt rop ro rx rl rr).isNumber = true
        · simp only [if_pos hn, LM.pure_run]
          refine .ok ⟨rfl, ⟨hq, trivial, trivial⟩, ⟨Nat.le_refl _, fun a => ?_⟩, .nil⟩
          have := hb a
          simp only [pCulled, occurs_mk, occurs_nil] at this ⊢
          refine ⟨fun h => ?_, fun h => ?_, fun h => ?_⟩ <;> omega
        · simp only [if_neg hn, hE1, hE2, LM.bind_run, LM.lift_run, LM.pure_run, Res.bind_ok]
          exact .ok (diffTo_same hctx.linked hb (.cons ⟨rfl, rfl⟩ (.cons ⟨rfl, rfl⟩ .nil)))

theorem pDiffOp_mul {live : PTree α} {q : Option Nat} {n : Nat} {ty o x} {l r : PTree α}
    (h : DiffCtx live q n ty .mul o x l r) :
    Res.Same (DiffTo q n (.mk ty .mul o x l r)) (pDiffOp live (.mk ty .mul o x l r) n) (diffOp (Raw.mk ty .mul o x l r).erase) := by
  have hctx := h
  obtain ⟨hf, ⟨hq, hl, hr⟩, hu, hb⟩ := h
  cases l with
  | nil => simp only [pDiffOp, diffOp, erase_mk, erase_nil, isSome, true_or, if_true]; exact .ub
  | mk lt lop lo lx ll lr =>
    cases r with
    | nil => simp only [pDiffOp, diffOp, erase_mk, erase_nil, isSome, or_true, if_true]; exact .ub
    | mk rt rop ro rx rl rr =>
      have hE1 := hctx.leftEntry
      have hE2 := hctx.rightEntry
      simp only [pDiffOp, diffOp, erase_mk, isNumber_erase_mk, isSome_mk, Bool.true_eq_false, or_self, if_false]
      by_cases hn : (Raw.mk lt lop lo lx ll lr).isNumber = true
      · simp only [hn, if_true, hE2, LM.bind_run, LM.lift_run, LM.pure_run, Res.bind_ok]
        exact .ok (diffTo_same hctx.linked hb (.cons ⟨rfl, rfl⟩ .nil))
      · by_cases hn2 : (Raw.mk rt rop ro rx rl rr).isNumber = true
        · simp only [hn, hn2, if_true, if_false, Bool.false_eq_true, hE1, LM.bind_run, LM.lift_run, LM.pure_run, Res.bind_ok]
          exact .ok (diffTo_same hctx.linked hb (.cons ⟨rfl, rfl⟩ .nil))
        · obtain ⟨uo, ul, ur, n1, h1, h2, h3, h4, h5, h6, h7, h8, h9⟩ := pClone_mk lt lop lo lx ll lr n
          obtain ⟨vo, vl, vr, n2, g1, g2, g3, g4, g5, g6, g7, g8, g9⟩ := pClone_mk rt rop ro rx rl rr n1
          simp only [hn, hn2, if_false, Bool.false_eq_true, hE1, LM.bind_run, LM.lift_run, LM.pure_run, Res.bind_ok, h1, g1]
          obtain ⟨k1, k2, k3⟩ := hl
          obtain ⟨j1, j2, j3⟩ := hr
          run
          simp only [g5, Res.bind_ok]
          refine .ok ⟨?_, ?_, ?_, ?_⟩
          · simp [binaryNode, unaryNode, mkNum, *]
          · simp [Linked, *]
          · addr_tac hb h9 g9 g9 n2
          · exact .cons ⟨rfl, rfl⟩ (.cons ⟨rfl, rfl⟩ .nil)

theorem pDiffOp_div {live : PTree α} {q : Option Nat} {n : Nat} {ty o x} {l r : PTree α}
    (h : DiffCtx live q n ty .div o x l r) :
    Res.Same (DiffTo q n (.mk ty .div o x l r)) (pDiffOp live (.mk ty .div o x l r) n) (diffOp (Raw.mk ty .div o x l r).erase) := by
  have hctx := h
  obtain ⟨hf, ⟨hq, hl, hr⟩, hu, hb⟩ := h
  cases l with
  | nil => simp only [pDiffOp, diffOp, erase_mk, erase_nil, isSome, true_or, if_true]; exact .ub
  | mk lt lop lo lx ll lr =>
    cases r with
    | nil => simp only [pDiffOp, diffOp, erase_mk, erase_nil, isSome, or_true, if_true]; exact .ub
    | mk rt rop ro rx rl rr =>
      have hE1 := hctx.leftEntry
      simp only [pDiffOp, diffOp, erase_mk, isNumber_erase_mk, isSome_mk, Bool.true_eq_false, or_self, if_false]
      by_cases hn2 : (Raw.mk rt rop ro rx rl rr).isNumber = true
      · simp only [hn2, if_true, if_false, Bool.false_eq_true, hE1, LM.bind_run, LM.lift_run, LM.pure_run, Res.bind_ok]
        exact .ok (diffTo_same hctx.linked hb (.cons ⟨rfl, rfl⟩ .nil))
      · obtain ⟨uo, ul, ur, n1, h1, h2, h3, h4, h5, h6, h7, h8, h9⟩ := pClone_mk lt lop lo lx ll lr n
        obtain ⟨vo, vl, vr, n2, g1, g2, g3, g4, g5, g6, g7, g8, g9⟩ := pClone_mk rt rop ro rx rl rr n1
        obtain ⟨wo, wl, wr, n3, f1, f2, f3, f4, f5, f6, f7, f8, f9⟩ := pClone_mk rt rop ro rx rl rr n2
        simp only [hn2, if_false, Bool.false_eq_true, hE1, LM.bind_run, LM.lift_run, LM.pure_run, Res.bind_ok, h1, g1, f1]
        obtain ⟨k1, k2, k3⟩ := hl
        obtain ⟨j1, j2, j3⟩ := hr
        run
        simp only [g5, Res.bind_ok]
        refine .ok ⟨?_, ?_, ?_, ?_⟩
        · simp [binaryNode, unaryNode, mkNum, *]
        · simp [Linked, *]
        · addr_tac hb h9 g9 f9 n3
        · exact .cons ⟨rfl, rfl⟩ (.cons ⟨rfl, rfl⟩ .nil)

set_option maxHeartbeats 2000000 in
theorem pDiffOp_pow {live : PTree α} {q : Option Nat} {n : Nat} {ty o x} {l r : PTree α}
    (h : DiffCtx live q n ty .pow o x l r) :
    Res.Same (DiffTo q n (.mk ty .pow o x l r)) (pDiffOp live (.mk ty .pow o x l r) n) (diffOp (Raw.mk ty .pow o x l r).erase) := by
  have hctx := h
  obtain ⟨hf, ⟨hq, hl, hr⟩, hu, hb⟩ := h
  cases l with
  | nil => simp only [pDiffOp, diffOp, erase_mk, erase_nil, isSome, true_or, if_true]; exact .assertFail
  | mk lt lop lo lx ll lr =>
    cases r with
    | nil => simp only [pDiffOp, diffOp, erase_mk, erase_nil, isSome, or_true, if_true]; exact .assertFail
    | mk rt rop ro rx rl rr =>
      obtain ⟨k1, k2, k3⟩ := hl
      obtain ⟨j1, j2, j3⟩ := hr
      by_cases hr' : rt = .number
      · subst hr'
        by_cases hl' : lt = .number
        · subst hl'
          simp only [pDiffOp, diffOp, erase_mk, isNumber, isSome_mk, Bool.true_eq_false, or_self, if_false, and_self, if_true,
            LM.pure_run]
          refine .ok ⟨rfl, ⟨hq, trivial, trivial⟩, ⟨Nat.le_refl _, fun a => ?_⟩, .nil⟩
          have := hb a
          simp only [pCulled, occurs_mk, occurs_nil] at this ⊢
          refine ⟨fun h => ?_, fun h => ?_, fun h => ?_⟩ <;> omega
        · obtain ⟨uo, ul, ur, n1, h1, h2, h3, h4, h5, h6, h7, h8, h9⟩ := pClone_mk lt lop lo lx ll lr n
          have hn : (Raw.mk lt lop lo lx ll lr).isNumber = false := by cases lt <;> simp_all [isNumber]
          simp only [pDiffOp, diffOp, erase_mk, isNumber_erase_mk, hn, isSome_mk, Bool.true_eq_false, Bool.false_eq_true, or_self,
            false_and, if_false, LM.bind_run, h1, Res.bind_ok]
          run
          simp only [h5, Res.bind_ok]
          refine .ok ⟨?_, ?_, ?_, ?_⟩
          · simp [binaryNode, unaryNode, mkNum, *]
          · simp [Linked, *]
          · addr_tac hb h9 h9 h9 n1
          · exact .cons ⟨rfl, rfl⟩ .nil
      · have hnr : (Raw.mk rt rop ro rx rl rr).isNumber = false := by cases rt <;> simp_all [isNumber]
        by_cases hl' : lt = .number
        · subst hl'
          obtain ⟨uo, ul, ur, n1, h1, h2, h3, h4, h5, h6, h7, h8, h9⟩ := pClone_mk rt rop ro rx rl rr n
          cases rt with
          | number => exact absurd rfl hr'
          | _ =>
          simp only [pDiffOp, diffOp, erase_mk, isNumber_erase_mk, hnr, isSome_mk, Bool.true_eq_false, Bool.false_eq_true, or_self,
            and_false, if_false, LM.bind_run, h1, Res.bind_ok]
          run
          simp only [h5, Res.bind_ok]
          refine .ok ⟨?_, ?_, ?_, ?_⟩
          · simp [binaryNode, unaryNode, mkNum, *]
          · simp [Linked, *]
          · addr_tac hb h9 h9 h9 n1
          · exact .cons ⟨rfl, rfl⟩ .nil
        · obtain ⟨vo, vl, vr, n1, h1, h2, h3, h4, h5, h6, h7, h8, h9⟩ := pClone_mk rt rop ro rx rl rr n
          obtain ⟨uo, ul, ur, n2, g1, g2, g3, g4, g5, g6, g7, g8, g9⟩ := pClone_mk lt lop lo lx ll lr n1
          cases rt with
          | number => exact absurd rfl hr'
          | _ =>
          cases lt with
          | number => exact absurd rfl hl'
          | _ =>
          simp only [pDiffOp, diffOp, erase_mk, isNumber_erase_mk, hnr, isSome_mk, Bool.true_eq_false, Bool.false_eq_true, or_self,
            and_false, if_false, LM.bind_run, h1, g1, Res.bind_ok]
          run
          refine .ok ⟨?_, ?_, ?_, ?_⟩
          · simp [binaryNode, unaryNode, mkNum, *]
          · simp [Linked, *]
          · addr_tac hb h9 g9 g9 n2
          · exact .cons ⟨rfl, rfl⟩ .nil

/-- `DiffOnceOperator` with addresses -/
theorem pDiffOp_sim {live : PTree α} {q : Option Nat} {n : Nat} {ty op o x} {l r : PTree α}
    (h : DiffCtx live q n ty op o x l r) :
    Res.Same (DiffTo q n (.mk ty op o x l r)) (pDiffOp live (.mk ty op o x l r) n) (diffOp (Raw.mk ty op o x l r).erase) := by
  cases op
  case null => exact .assertFail
  case lparen => exact .assertFail
  case rparen => exact .assertFail
  case and => exact .throw _
  case or => exact .throw _
  case mod => exact .throw _
  case positive => exact pDiffOp_sign h (.inl rfl)
  case negative => exact pDiffOp_sign h (.inr rfl)
  case exp => exact pDiffOp_exp h
  case add => exact pDiffOp_addSub h (.inl rfl)
  case sub => exact pDiffOp_addSub h (.inr rfl)
  case mul => exact pDiffOp_mul h
  case div => exact pDiffOp_div h
  case pow => exact pDiffOp_pow h
  all_goals exact pDiffOp_fn h (by simp)

end Tom
