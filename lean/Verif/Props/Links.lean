import Verif.Lemmas.LinksCheck
import Verif.Lemmas.LinksSession3
import Verif.Model.Num
/-
Properties C20 and C52: programs over `Node` variables, on objects with addresses and parent pointers (Model/Links,
Model/Session).  The specification is in Spec/Links (`Linked`, `Distinct`, `Sound`) and Spec/Session (`EnvSound`, `meaning`).
-/
set_option linter.unusedSectionVars false
set_option linter.unusedSimpArgs false
namespace Tom
variable {α : Type} [Dbl α]
open Raw

/-! ### C20 -/

/-- how a program writes a unary operator or function -/
def UnOp.cppName : UnOp → String
  | pos => "+" | neg => "-" | sin => "sin" | cos => "cos" | tan => "tan" | asin => "asin" | acos => "acos" | atan => "atan"
  | sqrt => "sqrt" | log => "log" | log2 => "log2" | log10 => "log10" | exp => "exp"

/-- The binary operators a program can write; `&`, `|`, `%` have no overload. -/
inductive CppOp
  | add | sub | mul | div | pow

/-- how a program writes it -/
def CppOp.cppName : CppOp → String
  | add => "+" | sub => "-" | mul => "*" | div => "/" | pow => "^"

/-- how a program writes the compound assignment -/
def CppOp.assignName : CppOp → String
  | add => "+=" | sub => "-=" | mul => "*=" | div => "/=" | pow => "^="

/-- what it means -/
def CppOp.toBinOp : CppOp → BinOp
  | add => .add | sub => .sub | mul => .mul | div => .div | pow => .pow

private theorem erase_some {t : PTree α} {e : Expr α} (h : t.erase = embed e) : t.isSome = true := by
  rw [← erase_isSome, h]; exact embed_isSome e

private theorem two_names (y : Str) : ∃ x : Str, y ≠ x := ⟨'a' :: y, by intro h; have := congrArg List.length h; simp at this⟩

/-- a tree that can be stored under any name shares nothing with any variable -/
private theorem apart_of_set {n : Nat} {env : Env α} {t : PTree α} (h : ∀ x, EnvSound n (env.set x t)) :
    Sound n t ∧ ∀ y a, occurs a t = 0 ∨ occurs a (env y) = 0 := by
  refine ⟨by simpa using (h []).sound [], fun y a => ?_⟩
  obtain ⟨x, hx⟩ := two_names y
  have := (h x).apart x y (Ne.symm hx) a
  rwa [VEnv.set_self, VEnv.set_ne _ _ hx] at this

private theorem unary_ok {n : Nat} {env : Env α} (h : EnvSound n env) (f : UnOp) (o : Operand) (e : Expr α)
    (he : (env o.name).erase = embed e) :
    ∃ t n', unaryOperator f.toMathOp env o n = .ok ((t, o.after env), n') ∧ n ≤ n' ∧ t.erase = embed (.un f e) ∧ Sound n' t ∧
      ∀ y a, occurs a t = 0 ∨ occurs a (o.after env y) = 0 := by
  have hs := erase_some he
  obtain ⟨c, n', h1, h2, h3⟩ := copyOrMove_spec (h.mono (Nat.le_succ n)) n o hs
  have hrun : unaryOperator f.toMathOp env o n =
      .ok ((.mk .operator f.toMathOp ⟨Dbl.ofInt 0, n, none⟩ [] c .nil, o.after env), n') := by
    simp only [unaryOperator, LM.bind_run, LM.fresh_run, Res.bind_ok, h1, LM.pure_run]
  refine ⟨_, _, hrun, by have := h3.le; omega, ?_, ?_⟩
  · simp [h3.erase, eraseEnv, he, embed]
  · apply apart_of_set
    intro x
    have := unary_sim h f.toMathOp x o
    rw [if_pos (by rw [eraseEnv_isSome]; exact hs)] at this
    simp only [LM.bind_run, hrun, Res.bind_ok, LM.pure_run] at this
    cases this with
    | ok hr => exact hr.2.1

private theorem binary_ok {n : Nat} {env : Env α} (h : EnvSound n env) (f : BinOp) (o1 o2 : Operand) (e1 e2 : Expr α)
    (h1 : (env o1.name).erase = embed e1) (h2 : (o1.after env o2.name).erase = embed e2) :
    ∃ t n', binaryOperator f.toMathOp env o1 o2 n = .ok ((t, o2.after (o1.after env)), n') ∧ n ≤ n' ∧
      t.erase = embed (.bin f e1 e2) ∧ Sound n' t ∧ ∀ y a, occurs a t = 0 ∨ occurs a (o2.after (o1.after env) y) = 0 := by
  have hs := erase_some h1
  have hs2 := erase_some h2
  obtain ⟨c, n1, g1, g2, g3⟩ := copyOrMove_spec (h.mono (Nat.le_succ n)) n o1 hs
  have hle := g3.le
  have hE1 : EnvSound n1 (o1.after env) := (h.after o1).mono (by omega)
  obtain ⟨d, n2, k1, k2, k3⟩ := copyOrMove_spec hE1 n o2 hs2
  have hle2 := k3.le
  have hrun : binaryOperator f.toMathOp env o1 o2 n =
      .ok ((.mk .operator f.toMathOp ⟨Dbl.ofInt 0, n, none⟩ [] c d, o2.after (o1.after env)), n2) := by
    simp only [binaryOperator, LM.bind_run, LM.fresh_run, Res.bind_ok, g1, k1, LM.pure_run]
  refine ⟨_, _, hrun, by omega, ?_, ?_⟩
  · have e2' := k3.erase
    simp only [eraseEnv, h2] at e2'
    simp [g3.erase, e2', eraseEnv, h1, embed]
  · apply apart_of_set
    intro x
    have := binary_sim h f.toMathOp x o1 o2
    rw [if_pos ⟨by rw [eraseEnv_isSome]; exact hs, by rw [← eraseEnv_after, eraseEnv_isSome]; exact hs2⟩] at this
    simp only [LM.bind_run, hrun, Res.bind_ok, LM.pure_run] at this
    cases this with
    | ok hr => exact hr.2.1

/-- C20, functions and signs: `f(o)` is the operator `f` over the operand's expression.  Afterwards every variable holds the very
objects it held before, except that a moved-from operand is null; the result shares no object with any variable and its parent
pointers are right. -/
theorem C20_unary_partial {n : Nat} {env : Env α} (h : EnvSound n env) (f : UnOp) (o : Operand) (e : Expr α)
    (he : (env o.name).erase = embed e) :
    ∃ t n', callUnary f.cppName env o n = .ok ((t, o.after env), n') ∧ t.erase = embed (.un f e) ∧ Sound n' t ∧
      ∀ y a, occurs a t = 0 ∨ occurs a (o.after env y) = 0 := by
  obtain ⟨t, n', h1, _, h3⟩ := unary_ok h f o e he
  refine ⟨t, n', ?_, h3⟩
  cases f <;> exact h1

/-- C20, binary operators, for all four combinations of lvalues and rvalues; the two operands may be the same variable unless the
first one is moved from. -/
theorem C20_binary_partial {n : Nat} {env : Env α} (h : EnvSound n env) (f : CppOp) (o1 o2 : Operand) (e1 e2 : Expr α)
    (h1 : (env o1.name).erase = embed e1) (h2 : (env o2.name).erase = embed e2)
    (hne : (∃ x, o1 = .lvalue x) ∨ o1.name ≠ o2.name) :
    ∃ t n', callBinary f.cppName env o1 o2 n = .ok ((t, o2.after (o1.after env)), n') ∧
      t.erase = embed (.bin f.toBinOp e1 e2) ∧ Sound n' t ∧
      ∀ y a, occurs a t = 0 ∨ occurs a (o2.after (o1.after env) y) = 0 := by
  have h2' : (o1.after env o2.name).erase = embed e2 := by
    cases o1 with
    | lvalue x => exact h2
    | rvalue x =>
      rcases hne with ⟨y, hy⟩ | hne
      · cases hy
      · have hne' : o2.name ≠ x := fun h => hne h.symm
        rw [Operand.after, VEnv.set_ne _ _ hne']; exact h2
  obtain ⟨t, n', k1, _, k3⟩ := binary_ok h f.toBinOp o1 o2 e1 e2 h1 h2'
  refine ⟨t, n', ?_, k3⟩
  cases f <;> exact k1

/-- C20, compound assignment with another variable: `x op= o` gives `x` the expression `x op o`; the other variables hold what they
held, except that a moved-from operand is null. -/
theorem C20_compound_partial {n : Nat} {env : Env α} (h : EnvSound n env) (f : CppOp) (x : Str) (o : Operand) (e1 e2 : Expr α)
    (h1 : (env x).erase = embed e1) (h2 : (env o.name).erase = embed e2) (hne : o.name ≠ x) :
    ∃ env' n', callCompound f.assignName env x o n = .ok (env', n') ∧ (env' x).erase = embed (.bin f.toBinOp e1 e2) ∧
      (∀ y, y ≠ x → env' y = o.after env y) ∧ EnvSound n' env' := by
  have h2' : ((Operand.rvalue x).after env o.name).erase = embed e2 := by
    rw [Operand.after, VEnv.set_ne _ _ hne]; exact h2
  obtain ⟨t, n', k1, k2, k3, k4, k5⟩ := binary_ok h f.toBinOp (.rvalue x) o e1 e2 h1 h2'
  refine ⟨(o.after ((Operand.rvalue x).after env)).set x t, n', ?_, by simpa using k3, fun y hy => ?_, ?_⟩
  · have : compoundAssign f.toBinOp.toMathOp env x o n = .ok ((o.after ((Operand.rvalue x).after env)).set x t, n') := by
      simp only [compoundAssign, LM.bind_run, k1, Res.bind_ok, LM.pure_run]
    cases f <;> exact this
  · rw [VEnv.set_ne _ _ hy]
    cases o with
    | lvalue z => simp [Operand.after, VEnv.set_ne _ _ hy]
    | rvalue z =>
      by_cases hz : y = z
      · subst hz; simp [Operand.after]
      · simp [Operand.after, VEnv.set_ne _ _ hy, VEnv.set_ne _ _ hz]
  · exact (((h.after _).after _).mono k2).set k4 k5

/-- C20 is false of the code where an operand is used after it has been moved from: `n += n` (and `-=`, `*=`, `/=`, `^=`) is
undefined behaviour for every `n`, instead of `n = n + n`. -/
theorem C20_false_self (n : Nat) (env : Env α) (f : CppOp) (x : Str) :
    callCompound f.assignName env x (.lvalue x) n = .ub := by
  have : compoundAssign f.toBinOp.toMathOp env x (.lvalue x) n = .ub := by
    simp only [compoundAssign, binaryOperator, copyOrMove, LM.bind_run, LM.fresh_run, Res.bind_ok, LM.lift_run]
    cases env x with
    | nil => rfl
    | mk => simp [setParent, LM.bind_run, pCopyCtor, LM.ub]
  cases f <;> exact this

/-- ... and so is `std::move(a) + a`, while `a + std::move(a)` is covered by `C20_binary_partial`. -/
theorem C20_false_moved (n : Nat) (env : Env α) (f : CppOp) (x : Str) :
    callBinary f.cppName env (.rvalue x) (.lvalue x) n = .ub := by
  have : binaryOperator f.toBinOp.toMathOp env (.rvalue x) (.lvalue x) n = .ub := by
    simp only [binaryOperator, copyOrMove, LM.bind_run, LM.fresh_run, Res.bind_ok, LM.lift_run]
    cases env x with
    | nil => rfl
    | mk => simp [setParent, LM.bind_run, pCopyCtor, LM.ub]
  cases f <;> exact this

/-- the hypotheses: `x = a*b`, `y = a^2` as two separate trees of objects -/
private def twoTrees : Env (XNum Rat) := fun z =>
  if z = ['x'] then
    .mk .operator .mul ⟨.fin 0, 0, none⟩ [] (.mk .variable .null ⟨.fin 0, 1, some 0⟩ ['a'] .nil .nil)
      (.mk .variable .null ⟨.fin 0, 2, some 0⟩ ['b'] .nil .nil)
  else if z = ['y'] then
    .mk .operator .pow ⟨.fin 0, 3, none⟩ [] (.mk .variable .null ⟨.fin 0, 4, some 3⟩ ['a'] .nil .nil)
      (.mk .number .null ⟨.fin 2, 5, some 3⟩ [] .nil .nil)
  else .nil

private theorem twoTrees_sound : EnvSound 6 twoTrees := by
  have hx : twoTrees ['x'] = .mk .operator .mul ⟨.fin 0, 0, none⟩ [] (.mk .variable .null ⟨.fin 0, 1, some 0⟩ ['a'] .nil .nil)
      (.mk .variable .null ⟨.fin 0, 2, some 0⟩ ['b'] .nil .nil) := by simp [twoTrees]
  have hy : twoTrees ['y'] = .mk .operator .pow ⟨.fin 0, 3, none⟩ [] (.mk .variable .null ⟨.fin 0, 4, some 3⟩ ['a'] .nil .nil)
      (.mk .number .null ⟨.fin 2, 5, some 3⟩ [] .nil .nil) := by simp [twoTrees]
  have hz : ∀ z, z ≠ ['x'] → z ≠ ['y'] → twoTrees z = .nil := by intro z h1 h2; simp [twoTrees, h1, h2]
  have occ : ∀ z a, (z = ['x'] ∧ occurs a (twoTrees z) = if a < 3 then 1 else 0) ∨
      (z = ['y'] ∧ occurs a (twoTrees z) = if 3 ≤ a ∧ a < 6 then 1 else 0) ∨ occurs a (twoTrees z) = 0 := by
    intro z a
    by_cases h1 : z = ['x']
    · left
      refine ⟨h1, ?_⟩
      rw [h1, hx]; simp only [occurs]
      repeat' split
      all_goals omega
    · by_cases h2 : z = ['y']
      · right; left
        refine ⟨h2, ?_⟩
        rw [h2, hy]; simp only [occurs]
        repeat' split
        all_goals omega
      · right; right; rw [hz z h1 h2]; rfl
  refine ⟨fun z => ⟨?_, fun a => ?_⟩, fun y z hyz a => ?_⟩
  · by_cases h1 : z = ['x']
    · rw [h1, hx]; simp [Linked]
    · by_cases h2 : z = ['y']
      · rw [h2, hy]; simp [Linked]
      · rw [hz z h1 h2]; trivial
  · rcases occ z a with ⟨_, h⟩ | ⟨_, h⟩ | h <;> rw [h]
    · split <;> omega
    · split <;> omega
    · omega
  · rcases occ y a with ⟨h1, h⟩ | ⟨h1, h⟩ | h <;> rcases occ z a with ⟨k1, k⟩ | ⟨k1, k⟩ | k <;> rw [h, k]
    all_goals first
      | (exfalso; exact hyz (h1.trans k1.symm))
      | (split <;> first | omega | (split <;> omega))
      | simp

example : ∃ t n', callBinary "-" twoTrees (.lvalue ['x']) (.rvalue ['x']) 6 = .ok ((t, twoTrees.set ['x'] .nil), n') ∧
    t.erase = embed (.bin .sub (.bin .mul (.var ['a']) (.var ['b'])) (.bin .mul (.var ['a']) (.var ['b']))) ∧ Sound n' t ∧
    ∀ y a, occurs a t = 0 ∨ occurs a (twoTrees.set ['x'] .nil y) = 0 :=
  C20_binary_partial twoTrees_sound .sub (.lvalue ['x']) (.rvalue ['x']) _ _ rfl rfl (.inl ⟨_, rfl⟩)

example : ∃ t n', callUnary "sin" twoTrees (.lvalue ['y']) 6 = .ok ((t, twoTrees), n') ∧
    t.erase = embed (.un .sin (.bin .pow (.var ['a']) (.num (.fin 2)))) ∧ Sound n' t ∧
    ∀ y a, occurs a t = 0 ∨ occurs a (twoTrees y) = 0 :=
  C20_unary_partial twoTrees_sound .sin (.lvalue ['y']) _ rfl

example : ∃ env' n', callCompound "*=" twoTrees ['x'] (.lvalue ['y']) 6 = .ok (env', n') ∧
    (env' ['x']).erase = embed (.bin .mul (.bin .mul (.var ['a']) (.var ['b'])) (.bin .pow (.var ['a']) (.num (.fin 2)))) ∧
    (∀ y, y ≠ ['x'] → env' y = twoTrees y) ∧ EnvSound n' env' :=
  C20_compound_partial twoTrees_sound .mul ['x'] (.lvalue ['y']) _ _ rfl rfl (by decide)

/-! ### C52 -/

/-- The states a program can reach: variables (and the number of objects made so far) after some statements, starting with no
variables.  Exceptions are caught around statements. -/
def Reachable (cfg : Config α) (n : Nat) (env : Env α) : Prop :=
  ∃ ss : List (Stmt α), (∀ s ∈ ss, s.Proper) ∧ execute cfg ss (fun _ => .nil) 0 = .ok (env, n)

private theorem empty_sound : EnvSound 0 (fun _ => .nil : Env α) := ⟨fun _ => sound_nil 0, fun _ _ _ _ => .inl rfl⟩

private theorem empty_holds : Holds (eraseEnv (fun _ => .nil : Env α)) := fun _ => .inl rfl

private theorem reachable_inv {cfg : Config α} {n : Nat} {env : Env α} (h : Reachable cfg n env) :
    EnvSound n env ∧ Holds (eraseEnv env) := by
  obtain ⟨ss, hp, hr⟩ := h
  have := execute_sim cfg ss 0 _ empty_sound empty_holds hp
  rw [hr] at this
  generalize meaning cfg ss _ = m at this
  cases this with
  | ok h => obtain ⟨h1, h2, h3⟩ := h; subst h1; exact ⟨h2, h3⟩

/-- C52: in every reachable state every variable is null or holds a root without parent in which every child's parent pointer is
its owner, and `CheckParent` accepts it; and no object belongs to two variables or occurs twice. -/
theorem C52_reachable {cfg : Config α} {n : Nat} {env : Env α} (h : Reachable cfg n env) (x : Str) :
    (env x = .nil ∨ Linked none (env x) ∧ checkParent (env x) = .ok ()) ∧
    (∀ a, occurs a (env x) ≤ 1) ∧ ∀ y, y ≠ x → ∀ a, occurs a (env x) = 0 ∨ occurs a (env y) = 0 := by
  obtain ⟨hs, hH⟩ := reachable_inv h
  refine ⟨?_, fun a => ((hs.sound x).2 a).1, fun y hy a => hs.apart x y (Ne.symm hy) a⟩
  rcases hH x with h0 | ⟨e, he⟩
  · left
    have : (env x).erase = .nil := h0
    cases hx : env x with
    | nil => rfl
    | mk => rw [hx] at this; simp at this
  · exact .inr ⟨(hs.sound x).1, checkParent_ok (hs.sound x) he⟩

/-- C52: what a program does with objects and pointers is what it means for expressions: same outcome, same values. -/
theorem C52_meaning (cfg : Config α) (ss : List (Stmt α)) (hp : ∀ s ∈ ss, s.Proper) :
    match execute cfg ss (fun _ => .nil) 0, meaning cfg ss (fun _ => .nil) with
    | .ok (env, _), .ok venv => ∀ x, (env x).erase = venv x
    | .throw e, .throw e' => e = e'
    | .ub, .ub => True
    | .terminate, .terminate => True
    | .assertFail, .assertFail => True
    | .diverge, .diverge => True
    | _, _ => False := by
  have h := execute_sim cfg ss 0 _ empty_sound empty_holds hp
  have e0 : eraseEnv (fun _ => .nil : Env α) = fun _ => .nil := rfl
  rw [e0] at h
  revert h
  generalize execute cfg ss (fun _ => .nil) 0 = w
  generalize meaning cfg ss (fun _ => .nil) = v
  intro h
  cases h with
  | @ok p c h => obtain ⟨h1, _, _⟩ := h; exact fun x => congrFun h1 x
  | throw e => rfl
  | _ => trivial

/-- C52: `ToString` follows the stored parent pointers; in a reachable state it prints the expression. -/
theorem C52_toString {cfg : Config α} {n : Nat} {env : Env α} (h : Reachable cfg n env) (x : Str) :
    pToString (env x) = toStringNode (env x).erase :=
  pToString_eq ((reachable_inv h).1.sound x)

/-- C52: `CheckParent` is the right check: it accepts a tree of different objects that has a root without parent only if every
child's parent pointer is its owner. -/
theorem C52_checkParent {root : PTree α} (hu : ∀ a, occurs a root ≤ 1) (hr : root.parent? = none)
    (h : checkParent root = .ok ()) : Linked none root := hr ▸ checkParent_sound hu h

/-- C52, one operation: `Clone`, from any tree of objects whatever its pointers are: a copy out of new objects, right pointers. -/
theorem C52_clone (t : PTree α) (h : t.isSome = true) (n : Nat) :
    ∃ c n', pClone t n = .ok (c, n') ∧ c.erase = t.erase ∧ Linked none c ∧
      ∀ a, occurs a c ≤ 1 ∧ (a < n → occurs a c = 0) := by
  obtain ⟨c, n', h1, h2, h3, h4⟩ := pClone_spec t h n
  exact ⟨c, n', h1, h2, h3, fun a => ⟨(h4.2 a).1, (h4.2 a).2.1⟩⟩

/-- C52, one operation: `internal::Operator` on two trees of different objects, either of which may be missing: a new object with the
given operator, the given trees below it, and right pointers. -/
theorem C52_operator (op : MathOp) {l r : PTree α} {n : Nat} (hl : Sound n l) (hr : Sound n r)
    (hd : ∀ a, occurs a l = 0 ∨ occurs a r = 0) :
    ∃ t, pOperator op l r n = .ok (t, n + 1) ∧ t.erase = .mk .operator op (Dbl.ofInt 0) [] l.erase r.erase ∧ Sound (n + 1) t := by
  have key : ∀ c : PTree α, Sound n c → ∃ c', (∀ (f : PTree α → LM (PTree α)),
        (if c.isSome then LM.bind (LM.lift (setParent (some n) c)) f else LM.bind (pure .nil) f) (n + 1) = f c' (n + 1)) ∧
      c'.erase = c.erase ∧ Linked (some n) c' ∧ ∀ a, occurs a c' = occurs a c := by
    intro c hc
    cases c with
    | nil => exact ⟨.nil, fun _ => rfl, rfl, trivial, fun _ => rfl⟩
    | mk ty o ob x l r => exact ⟨.mk ty o ⟨ob.value, ob.addr, some n⟩ x l r, fun _ => rfl, rfl, ⟨rfl, hc.1.2.1, hc.1.2.2⟩, fun _ => rfl⟩
  obtain ⟨l', hl1, hl2, hl3, hl4⟩ := key l hl
  obtain ⟨r', hr1, hr2, hr3, hr4⟩ := key r hr
  refine ⟨.mk .operator op ⟨Dbl.ofInt 0, n, none⟩ [] l' r', ?_, by simp [Raw.erase, hl2, hr2], ⟨rfl, hl3, hr3⟩, ?_⟩
  · exact (hl1 _).trans (hr1 _)
  · intro a
    have h1 := hl.2 a
    have h2 := hr.2 a
    have h3 := hd a
    have h4 := hl.2 n
    have h5 := hr.2 n
    simp only [occurs, hl4, hr4]
    constructor
    · split
      · next h => have h : n = a := h; subst h; omega
      · omega
    · intro h
      rw [if_neg (show ¬ n = a by omega)]
      omega

/-- C52, one operation: `Parse`. -/
theorem C52_parse (s : Str) (n : Nat) (t : PTree α) (n' : Nat) (h : pParse s n = .ok (t, n')) :
    Linked none t ∧ parse s = .ok t.erase ∧ ∀ a, occurs a t ≤ 1 ∧ (a < n → occurs a t = 0) := by
  have := pParse_sim (α := α) s n
  rw [h] at this
  generalize (parse s : Res (Raw α)) = m at this
  cases this with
  | ok hr => obtain ⟨h1, h2, h3⟩ := hr; subst h1; exact ⟨h2, rfl, fun a => ⟨(h3.2 a).1, (h3.2 a).2.1⟩⟩

/-- C52, one operation: `Subs`. -/
theorem C52_subs {dict : List (Str × PTree α)} (hd : ∀ kv ∈ dict, kv.2.isSome = true) {root : PTree α} {n : Nat}
    (hs : Sound n root) (h0 : root.isSome = true) (t : PTree α) (n' : Nat) (h : pSubsInner root dict n = .ok (t, n')) :
    Sound n' t ∧ subsInner root.erase (dict.map fun kv => (kv.1, kv.2.erase)) = .ok t.erase := by
  have := pSubsInner_sim hd hs h0
  rw [h] at this
  generalize hm : subsInner root.erase (eraseDict dict) = m at this
  cases this with
  | ok hr => obtain ⟨h1, h2, h3⟩ := hr; subst h1; exact ⟨h2, hm⟩

/-- C52, one operation: `Simplify`. -/
theorem C52_simplify (cfg : Config α) {root : PTree α} {n : Nat}
    (hs : Sound n root) (t : PTree α) (n' : Nat) (h : pSimplify cfg root n = .ok (t, n')) :
    Sound n' t ∧ simplify cfg root.erase = .ok t.erase := by
  have := pSimplify_sim cfg hs
  rw [h] at this
  generalize simplify cfg root.erase = m at this
  cases this with
  | ok hr => obtain ⟨h1, h2, h3⟩ := hr; subst h1; exact ⟨h2, rfl⟩

/-- C52, one operation: `Diff`; in particular the `CheckParent` calls of a debug build never fail. -/
theorem C52_diff (cfg : Config α) {root : PTree α} {n : Nat} (hs : Sound n root) (e : Expr α) (he : root.erase = embed e)
    (x : Str) (i : Int) (hi : 0 < i) :
    pDiff cfg root x i n ≠ .assertFail ∧
    ∀ t n', pDiff cfg root x i n = .ok (t, n') → Sound n' t ∧ diff cfg root.erase x i = .ok t.erase := by
  have hsim := pDiff_sim cfg hs (.inr ⟨e, he⟩) x i
  refine ⟨fun h => ?_, fun t n' h => ?_⟩
  · rw [h, he] at hsim
    generalize hm : diff cfg (embed e) x i = m at hsim
    cases hsim
    by_cases hio : e.hasIntOp = true
    · rw [diff_throw cfg x i hi e hio] at hm; cases hm
    · rw [diff_ok cfg x i hi e (by simpa using hio)] at hm
      rw [simplify_embed] at hm
      rcases simpE_cases cfg _ with ⟨e', h⟩ | h | h <;> rw [h] at hm <;> cases hm
  · rw [h] at hsim
    generalize diff cfg root.erase x i = m at hsim
    cases hsim with
    | ok hr => obtain ⟨h1, h2, h3⟩ := hr; subst h1; exact ⟨h2, rfl⟩

/-- a program: `x = Parse("a*b+0"); y = x + x; Simplify(y); z = Diff(y, "a"); y *= std::move(x); w = Clone(y)` -/
private def program : List (Stmt (XNum Rat)) :=
  [.parse ['x'] "a*b+0".toList, .binary ['y'] .add (.lvalue ['x']) (.lvalue ['x']), .simplify ['y'],
   .diff ['z'] (.lvalue ['y']) ['a'] 1, .compound .mul ['y'] (.rvalue ['x']), .clone ['w'] ['y']]

/-- the printed values of its variables -/
private def shown (xs : List Str) : Res (Env (XNum Rat) × Nat) → List (Res Str)
  | .ok p => xs.map fun x => pToString (p.1 x)
  | _ => []

example : shown [['x'], ['y'], ['z'], ['w']] (execute defaultConfig program (fun _ => .nil) 0) =
    [.ub, .ok "(a*b+a*b)*(a*b+0)".toList, .ok "b+b".toList, .ok "(a*b+a*b)*(a*b+0)".toList] := by
  decide +kernel

end Tom
