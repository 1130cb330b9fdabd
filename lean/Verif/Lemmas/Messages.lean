import Verif.Model.Messages
/-
The model of Parse with texts does what the model without texts does, and the tokens in it are pieces of the input.
-/
namespace Tom
variable {α : Type} [Dbl α]

namespace DRes
@[simp] theorem bind_ok {β γ : Type} (b : β) (f : β → DRes γ) : ((DRes.plain (.ok b)) >>= f) = f b := rfl
@[simp] theorem bind_throw {β γ : Type} (e : Exc) (f : β → DRes γ) : ((DRes.plain (.throw e)) >>= f) = .plain (.throw e) := rfl
@[simp] theorem bind_ub {β γ : Type} (f : β → DRes γ) : ((DRes.plain .ub) >>= f) = .plain .ub := rfl
@[simp] theorem bind_terminate {β γ : Type} (f : β → DRes γ) : ((DRes.plain .terminate) >>= f) = .plain .terminate := rfl
@[simp] theorem bind_assertFail {β γ : Type} (f : β → DRes γ) : ((DRes.plain .assertFail) >>= f) = .plain .assertFail := rfl
@[simp] theorem bind_diverge {β γ : Type} (f : β → DRes γ) : ((DRes.plain .diverge) >>= f) = .plain .diverge := rfl
@[simp] theorem bind_parseError {β γ : Type} (e : PErr) (f : β → DRes γ) :
    ((DRes.parseError e) >>= f) = .parseError e := rfl
end DRes

/-- the exception without its texts -/
def PErr.exc : PErr → Exc
  | .single e => .singleParse e.pos
  | .multi es => .multiParse (es.map SingleErr.pos)

/-- the outcome without the texts of parse errors -/
def DRes.flat {β : Type} : DRes β → Res β
  | .plain r => r
  | .parseError e => .throw e.exc

theorem flat_bind {β γ : Type} (d : DRes β) (f : β → DRes γ) : (d >>= f).flat = (d.flat >>= fun b => (f b).flat) := by
  rcases d with (_ | _ | _ | _ | _ | _) | _ <;> rfl

/-- the token without its texts -/
def DTok.plain (t : DTok α) : Token α := ⟨t.node, t.pos⟩

theorem flat_map_ok {β γ : Type} (d : DRes β) (f : β → γ) (r : Res γ) (h : (d >>= fun b => .plain (.ok (f b))).flat = r) :
    (d.flat >>= fun b => .ok (f b)) = r := by rw [← h, flat_bind]; rfl

/-- map over a normal result -/
def mapOk {β γ : Type} (f : β → γ) (r : Res β) : Res γ := r >>= fun b => .ok (f b)

omit [Dbl α] in
theorem bind_mapOk {β γ δ : Type} (f : β → γ) (r : Res β) (g : γ → Res δ) : (mapOk f r >>= g) = (r >>= fun b => g (f b)) := by
  cases r <;> rfl

theorem dConfirm_flat (content word : Str) (start : Nat) (ret : List (DTok α)) :
    mapOk (List.map DTok.plain) (dConfirm content word start ret).flat = tryConfirmToken word start (ret.map DTok.plain) := by
  unfold dConfirm tryConfirmToken
  by_cases hw : word = []
  · simp [hw, DRes.flat, mapOk]
  · simp only [if_neg hw]
    cases (stodFull word : Option α) with
    | some d => simp [DRes.flat, mapOk, DTok.plain]
    | none =>
      simp only
      split
      · rcases (mkOp (str2Function word) : Res (Raw α)) with _ | _ | _ | _ | _ | _ <;> simp [DRes.flat, mapOk, DTok.plain]
      · split
        · simp [DRes.flat, mapOk, PErr.exc]
        · rcases (mkVar word : Res (Raw α)) with _ | _ | _ | _ | _ | _ <;> simp [DRes.flat, mapOk, DTok.plain]

theorem dUnary_eq (ret : List (DTok α)) : dUnaryPosition ret = unaryPosition (ret.map DTok.plain) := by
  unfold dUnaryPosition unaryPosition
  rw [List.getLast?_map]
  cases ret.getLast? <;> rfl

theorem dLexLoop_flat (content cs : Str) (pos : Nat) (word : Str) (start : Nat) (ret : List (DTok α)) :
    mapOk (List.map DTok.plain) (dLexLoop content cs pos word start ret).flat =
      lexLoop cs pos word start (ret.map DTok.plain) := by
  induction cs generalizing pos word start ret with
  | nil => exact dConfirm_flat content word start ret
  | cons c cs ih =>
    unfold dLexLoop lexLoop
    split
    · rw [← dConfirm_flat content word start ret]
      rcases dConfirm content word start ret with (ret' | _ | _ | _ | _ | _) | _ <;> simp only [DRes.flat, mapOk, Res.bind_ok,
        Res.bind_throw, Res.bind_ub, Res.bind_terminate, Res.bind_assertFail, Res.bind_diverge, DRes.bind_ok,
        DRes.bind_throw, DRes.bind_ub, DRes.bind_terminate, DRes.bind_assertFail, DRes.bind_diverge, DRes.bind_parseError]
      rw [dUnary_eq]
      rcases (mkOp (baseOperatorCharToEnum c (unaryPosition (ret'.map DTok.plain))) : Res (Raw α)) with _ | _ | _ | _ | _ | _ <;>
        simp [DRes.flat]
      rename_i n
      have := ih (pos + 1) [] (pos + 1) (ret' ++ [⟨n, [c], 0, pos, content⟩])
      simpa [mapOk, DRes.flat, DTok.plain] using this
    · split
      · rw [← dConfirm_flat content word start ret]
        rcases dConfirm content word start ret with (ret' | _ | _ | _ | _ | _) | _ <;> simp only [DRes.flat, mapOk, Res.bind_ok,
          Res.bind_throw, Res.bind_ub, Res.bind_terminate, Res.bind_assertFail, Res.bind_diverge, DRes.bind_ok,
          DRes.bind_throw, DRes.bind_ub, DRes.bind_terminate, DRes.bind_assertFail, DRes.bind_diverge, DRes.bind_parseError]
        have := ih (pos + 1) [] (pos + 1) ret'
        simpa [mapOk, DRes.flat] using this
      · exact ih (pos + 1) (word ++ [c]) start ret

/-- both stacks without texts -/
def plainPair (p : List (DTok α) × List (DTok α)) : List (Token α) × List (Token α) :=
  (p.1.map DTok.plain, p.2.map DTok.plain)

theorem dPopToParen_flat (stk out : List (DTok α)) :
    mapOk plainPair (dPopToParen stk out).flat = popToParen (stk.map DTok.plain) (out.map DTok.plain) := by
  induction stk generalizing out with
  | nil => rfl
  | cons t stk ih =>
    simp only [dPopToParen, List.map_cons, popToParen]
    by_cases h : t.node.op = .lparen
    · rw [if_pos h, if_pos (show t.plain.node.op = _ from h)]
      rfl
    · rw [if_neg h, if_neg (show ¬ t.plain.node.op = _ from h), ih]
      simp

theorem dPopFunction_plain (stk out : List (DTok α)) :
    plainPair (dPopFunction stk out) = popFunction (stk.map DTok.plain) (out.map DTok.plain) := by
  cases stk with
  | nil => rfl
  | cons t stk =>
    simp only [dPopFunction, List.map_cons, popFunction]
    by_cases h : isFunction t.node.op = true
    · rw [if_pos h, if_pos (show isFunction t.plain.node.op = _ from h)]
      simp [plainPair]
    · rw [if_neg h, if_neg (show ¬ isFunction t.plain.node.op = _ from h)]
      rfl

theorem dPopSigns_plain (stk out : List (DTok α)) :
    plainPair (dPopSigns stk out) = popSigns (stk.map DTok.plain) (out.map DTok.plain) := by
  induction stk generalizing out with
  | nil => rfl
  | cons t stk ih =>
    simp only [dPopSigns, List.map_cons, popSigns]
    by_cases h : t.node.op = .positive ∨ t.node.op = .negative
    · rw [if_pos h, if_pos (show t.plain.node.op = _ ∨ t.plain.node.op = _ from h), ih]
      simp
    · rw [if_neg h, if_neg (show ¬ (t.plain.node.op = _ ∨ t.plain.node.op = _) from h)]
      rfl

theorem dPopRank_plain (f : MathOp) (stk out : List (DTok α)) :
    plainPair (dPopRank f stk out) = popRank f (stk.map DTok.plain) (out.map DTok.plain) := by
  induction stk generalizing out with
  | nil => rfl
  | cons t stk ih =>
    simp only [dPopRank, List.map_cons, popRank]
    by_cases h : (if isLeft2Right f = true then rank f ≤ rank t.node.op else rank f < rank t.node.op)
    · rw [if_pos h, if_pos (show (if isLeft2Right f = true then rank f ≤ rank t.plain.node.op else rank f < rank t.plain.node.op) from h), ih]
      simp
    · rw [if_neg h, if_neg (show ¬ (if isLeft2Right f = true then rank f ≤ rank t.plain.node.op else rank f < rank t.plain.node.op) from h)]
      rfl

theorem dFlush_flat (stk out : List (DTok α)) :
    mapOk (List.map DTok.plain) (dFlushStack stk out).flat = flushStack (stk.map DTok.plain) (out.map DTok.plain) := by
  induction stk generalizing out with
  | nil => rfl
  | cons t stk ih =>
    simp only [dFlushStack, List.map_cons, flushStack]
    by_cases h : t.node.op = .lparen
    · rw [if_pos h, if_pos (show t.plain.node.op = _ from h)]
      rfl
    · rw [if_neg h, if_neg (show ¬ t.plain.node.op = _ from h), ih]
      simp

theorem dShunt_flat (ts : List (DTok α)) (bal : Nat) (stk out : List (DTok α)) :
    mapOk (List.map DTok.plain) (dShunt ts bal stk out).flat =
      shunt (ts.map DTok.plain) bal (stk.map DTok.plain) (out.map DTok.plain) := by
  induction ts generalizing bal stk out with
  | nil => exact dFlush_flat stk out
  | cons f rest ih =>
    obtain ⟨node, s, line, pos, content⟩ := f
    simp only [dShunt, List.map_cons, shunt, DTok.plain]
    cases node with
    | nil => rfl
    | mk ty op v x l r =>
      cases ty with
      | number => 
        have := ih bal stk (out ++ [⟨.mk .number op v x l r, s, line, pos, content⟩])
        rw [List.map_append] at this
        exact this
      | «variable» => 
        have := ih bal stk (out ++ [⟨.mk .variable op v x l r, s, line, pos, content⟩])
        rw [List.map_append] at this
        exact this
      | operator =>
        have hrank : ∀ op', mapOk (List.map DTok.plain) (dShunt rest bal
            (⟨.mk .operator op v x l r, s, line, pos, content⟩ :: (dPopRank op' stk out).1) (dPopRank op' stk out).2).flat =
            shunt (rest.map DTok.plain) bal (⟨.mk .operator op v x l r, pos⟩ :: (popRank op' (stk.map DTok.plain)
              (out.map DTok.plain)).1) (popRank op' (stk.map DTok.plain) (out.map DTok.plain)).2 := by
          intro op'
          rw [ih, ← dPopRank_plain]
          rfl
        cases op <;> simp only []
        case lparen => exact ih (bal + 1) (_ :: stk) out
        case positive => exact ih bal (_ :: stk) out
        case negative => exact ih bal (_ :: stk) out
        case rparen =>
          by_cases hb : bal = 0
          · simp [hb, DRes.flat, mapOk, parenErr, PErr.exc]
          · rw [if_neg hb, if_neg hb, flat_bind]
            rw [← dPopToParen_flat, bind_mapOk]
            rcases (dPopToParen stk out).flat with ⟨stk', out'⟩ | _ | _ | _ | _ | _ <;> simp only [Res.bind_ok,
              Res.bind_throw, Res.bind_ub, Res.bind_terminate, Res.bind_assertFail, Res.bind_diverge, mapOk]
            have h1 := dPopFunction_plain stk' out'
            have h2 := dPopSigns_plain (dPopFunction stk' out').1 (dPopFunction stk' out').2
            rw [show popFunction (plainPair (stk', out')).1 (plainPair (stk', out')).2 = plainPair (dPopFunction stk' out') from
              h1.symm]
            rw [show popSigns (plainPair (dPopFunction stk' out')).1 (plainPair (dPopFunction stk' out')).2 = _ from h2.symm]
            exact ih bal _ _
        all_goals exact hrank _

theorem dBuild_flat (ts stk : List (DTok α)) :
    mapOk (List.map DTok.plain) (dBuildLoop ts stk).flat = buildLoop (ts.map DTok.plain) (stk.map DTok.plain) := by
  induction ts generalizing stk with
  | nil => rfl
  | cons t rest ih =>
    obtain ⟨node, s, line, pos, content⟩ := t
    simp only [dBuildLoop, List.map_cons, buildLoop, DTok.plain]
    cases node with
    | nil => rfl
    | mk ty op v x l r =>
      cases ty with
      | number => exact ih (_ :: stk)
      | «variable» => exact ih (_ :: stk)
      | operator =>
        simp only
        by_cases h2 : operatorNum op = 2
        · rw [if_pos h2, if_pos h2]
          rcases stk with _ | ⟨r', _ | ⟨l', stk⟩⟩
          · rfl
          · rfl
          · exact ih (_ :: stk)
        · rw [if_neg h2, if_neg h2]
          by_cases h1 : operatorNum op = 1
          · rw [if_pos h1, if_pos h1]
            rcases stk with _ | ⟨l', stk⟩
            · rfl
            · exact ih (_ :: stk)
          · rw [if_neg h1, if_neg h1]
            rfl

/-- Without the texts, `parseD` is `parse`. -/
theorem parseD_flat (s : Str) : (parseD s : DRes (Raw α)).flat = parse s := by
  unfold parseD parse
  rw [flat_bind]
  have h1 : mapOk (List.map DTok.plain) (dParseToTokens s : DRes (List (DTok α))).flat = parseToTokens s := by
    unfold dParseToTokens parseToTokens
    by_cases hs : s = []
    · simp [hs, DRes.flat, mapOk, PErr.exc]
    · rw [if_neg hs, if_neg hs]
      exact dLexLoop_flat s s 0 [] 0 []
  rw [← h1, bind_mapOk]
  congr 1
  funext toks
  rw [flat_bind]
  have h2 := dShunt_flat toks 0 [] []
  simp only [List.map_nil] at h2
  unfold inOrderToPostOrder
  rw [← h2, bind_mapOk]
  congr 1
  funext post
  unfold dBuildExpressionTree buildExpressionTree
  rw [flat_bind]
  have h3 := dBuild_flat post []
  simp only [List.map_nil] at h3
  rw [← h3, bind_mapOk]
  congr 1
  funext stk
  rcases stk with _ | ⟨t, _ | ⟨t', rest⟩⟩
  · rfl
  · rfl
  · simp [DRes.flat, PErr.exc, DTok.plain, leftoverErr]

/-! ### The texts -/

/-- The token's text is what stands in `s` at its column, and parentheses are parentheses. -/
def DTok.Of (s : Str) (t : DTok α) : Prop :=
  t.line = 0 ∧ t.content = s ∧ t.s ≠ [] ∧ t.s <+: s.drop t.pos ∧ (t.node.op = .lparen → t.s = ['(']) ∧
    (t.node.op = .rparen → t.s = [')'])

/-- What a `SingleParseError` for an unreadable word carries. -/
def NameErr (s : Str) (e : SingleErr) : Prop :=
  e.line = 0 ∧ e.content ≠ [] ∧ e.content <+: s.drop e.pos ∧
    e.info = "Invalid variable name: \"".toList ++ e.content ++ "\"".toList

theorem str2Function_noParen (w : Str) : str2Function w ≠ .lparen ∧ str2Function w ≠ .rparen := by
  unfold str2Function
  cases h : functionTable.find? (fun p => fnv1a p.1 == fnv1a w) with
  | none => simp
  | some p =>
    have := List.mem_of_find?_eq_some h
    simp only [functionTable, List.mem_cons, List.not_mem_nil, or_false] at this
    rcases this with h | h | h | h | h | h | h | h | h | h | h <;> subst h <;> simp

theorem dConfirm_of {s word : Str} {start : Nat} {ret : List (DTok α)} (hw : word <+: s.drop start)
    (hr : ∀ t ∈ ret, t.Of s) :
    (∀ ret', dConfirm s word start ret = .plain (.ok ret') → ∀ t ∈ ret', t.Of s) ∧
    (∀ e, dConfirm s word start ret = .parseError e → ∃ e', e = .single e' ∧ NameErr s e') := by
  unfold dConfirm
  by_cases hne : word = []
  · simp only [if_pos hne]
    refine ⟨fun ret' h => ?_, fun e h => by cases h⟩
    cases h
    exact hr
  · simp only [if_neg hne]
    have hadd : ∀ n : Raw α, n.op ≠ .lparen → n.op ≠ .rparen → ∀ t ∈ ret ++ [⟨n, word, 0, start, s⟩], t.Of s := by
      intro n h1 h2 t ht
      rcases List.mem_append.mp ht with ht | ht
      · exact hr t ht
      · simp only [List.mem_singleton] at ht
        subst ht
        exact ⟨rfl, rfl, hne, hw, fun h => absurd h h1, fun h => absurd h h2⟩
    cases hst : (stodFull word : Option α) with
    | some d =>
      refine ⟨fun ret' h => ?_, fun e h => by cases h⟩
      cases h
      exact hadd _ (by simp [mkNum, Raw.op]) (by simp [mkNum, Raw.op])
    | none =>
      simp only
      split
      · rename_i hop
        have : (mkOp (str2Function word) : Res (Raw α)) = .ok (.mk .operator (str2Function word) (Dbl.ofInt 0) [] .nil .nil) := by
          unfold mkOp; rw [if_neg hop]
        rw [this]
        refine ⟨fun ret' h => ?_, fun e h => by cases h⟩
        simp only [DRes.bind_ok, DRes.plain.injEq, Res.ok.injEq] at h
        subst h
        exact hadd _ (str2Function_noParen word).1 (str2Function_noParen word).2
      · split
        · refine ⟨fun ret' h => (by cases h), fun e h => ?_⟩
          cases h
          exact ⟨_, rfl, rfl, hne, hw, rfl⟩
        · rename_i hleg
          have : (mkVar word : Res (Raw α)) = .ok (varNode word) := by
            unfold mkVar; rw [if_pos (by simpa using hleg)]
          rw [this]
          refine ⟨fun ret' h => ?_, fun e h => by cases h⟩
          simp only [DRes.bind_ok, DRes.plain.injEq, Res.ok.injEq] at h
          subst h
          exact hadd _ (by simp [varNode, Raw.op]) (by simp [varNode, Raw.op])

theorem baseOpD_lparen {c : Char} {u : Bool} (h : baseOperatorCharToEnum c u = .lparen) : c = '(' := by
  unfold baseOperatorCharToEnum at h
  by_cases hc : c = '('
  · exact hc
  · rw [if_neg hc] at h
    repeat' (first | contradiction | split at h)

theorem baseOpD_rparen {c : Char} {u : Bool} (h : baseOperatorCharToEnum c u = .rparen) : c = ')' := by
  unfold baseOperatorCharToEnum at h
  by_cases hc : c = ')'
  · exact hc
  · by_cases hc' : c = '('
    · rw [if_pos hc'] at h; cases h
    · rw [if_neg hc', if_neg hc] at h
      repeat' (first | contradiction | split at h)

theorem dLexLoop_of {s : Str} (cs : Str) {pos : Nat} {word : Str} {start : Nat} {ret : List (DTok α)}
    (hs : s.drop start = word ++ cs) (hp : pos = start + word.length) (hr : ∀ t ∈ ret, t.Of s) :
    (∀ ret', dLexLoop s cs pos word start ret = .plain (.ok ret') → ∀ t ∈ ret', t.Of s) ∧
    (∀ e, dLexLoop s cs pos word start ret = .parseError e → ∃ e', e = .single e' ∧ NameErr s e') := by
  induction cs generalizing pos word start ret with
  | nil =>
    unfold dLexLoop
    exact dConfirm_of ⟨[], by rw [hs]⟩ hr
  | cons c cs ih =>
    have hdrop : s.drop pos = c :: cs := by
      rw [hp, ← List.drop_drop, hs]; simp
    have hdrop' : s.drop (pos + 1) = cs := by
      rw [← List.drop_drop, hdrop]; rfl
    have hconf := dConfirm_of (α := α) (s := s) (word := word) (start := start) (ret := ret) ⟨c :: cs, hs.symm⟩ hr
    unfold dLexLoop
    split
    · rcases hc : dConfirm s word start ret with (ret' | _ | _ | _ | _ | _) | e
      · rw [hc] at hconf
        simp only [DRes.bind_ok]
        have hr' := hconf.1 ret' rfl
        cases hm : (mkOp (baseOperatorCharToEnum c (dUnaryPosition ret')) : Res (Raw α)) with
        | ok n =>
          simp only [DRes.bind_ok]
          refine ih (by simpa using hdrop') (by simp) fun t ht => ?_
          rcases List.mem_append.mp ht with ht | ht
          · exact hr' t ht
          · simp only [List.mem_singleton] at ht
            subst ht
            unfold mkOp at hm
            split at hm
            · cases hm
            · cases hm
              exact ⟨rfl, rfl, by simp, ⟨cs, by simp [hdrop]⟩, fun h => by rw [baseOpD_lparen h], fun h => by rw [baseOpD_rparen h]⟩
        | throw _ => simp
        | ub => simp
        | terminate => simp
        | assertFail => simp
        | diverge => simp
      all_goals simp only [DRes.bind_throw, DRes.bind_ub, DRes.bind_terminate, DRes.bind_assertFail, DRes.bind_diverge,
        DRes.bind_parseError]
      · exact ⟨fun _ h => (by cases h), fun _ h => (by cases h)⟩
      · exact ⟨fun _ h => (by cases h), fun _ h => (by cases h)⟩
      · exact ⟨fun _ h => (by cases h), fun _ h => (by cases h)⟩
      · exact ⟨fun _ h => (by cases h), fun _ h => (by cases h)⟩
      · exact ⟨fun _ h => (by cases h), fun _ h => (by cases h)⟩
      · rw [hc] at hconf
        exact ⟨fun _ h => (by cases h), fun e' h => hconf.2 e' (by cases h; rfl)⟩
    · split
      · rcases hc : dConfirm s word start ret with (ret' | _ | _ | _ | _ | _) | e
        · rw [hc] at hconf
          simp only [DRes.bind_ok]
          exact ih (by simpa using hdrop') (by simp) (hconf.1 ret' rfl)
        all_goals simp only [DRes.bind_throw, DRes.bind_ub, DRes.bind_terminate, DRes.bind_assertFail, DRes.bind_diverge,
          DRes.bind_parseError]
        · exact ⟨fun _ h => (by cases h), fun _ h => (by cases h)⟩
        · exact ⟨fun _ h => (by cases h), fun _ h => (by cases h)⟩
        · exact ⟨fun _ h => (by cases h), fun _ h => (by cases h)⟩
        · exact ⟨fun _ h => (by cases h), fun _ h => (by cases h)⟩
        · exact ⟨fun _ h => (by cases h), fun _ h => (by cases h)⟩
        · rw [hc] at hconf
          exact ⟨fun _ h => (by cases h), fun e' h => hconf.2 e' (by cases h; rfl)⟩
      · exact ih (by simp [hs]) (by simp; omega) hr

/-- What a parse error after the lexer carries: an unmatched parenthesis, or tokens left over. -/
def LateErr (s : Str) : PErr → Prop
  | .single e => e.line = 0 ∧ e.content = s ∧ ∃ c, (c = '(' ∨ c = ')') ∧ s[e.pos]? = some c ∧
      e.info = "Parenthesis not match: \"".toList ++ [c] ++ "\"".toList
  | .multi es => es ≠ [] ∧ ∀ e ∈ es, e.line = 0 ∧ e.content = s ∧ ∃ u, u ≠ [] ∧ u <+: s.drop e.pos ∧
      e.info = "Parse Error at: \"".toList ++ u ++ "\"".toList

theorem parenErr_late {s : Str} {t : DTok α} (ht : t.Of s) (hp : t.node.op = .lparen ∨ t.node.op = .rparen) :
    LateErr s (parenErr t) := by
  obtain ⟨h1, h2, h3, h4, h5, h6⟩ := ht
  have key : ∀ c : Char, t.s = [c] → s[t.pos]? = some c := by
    intro c hc
    rw [hc] at h4
    obtain ⟨suf, hs⟩ := h4
    have : (s.drop t.pos)[0]? = some c := by rw [← hs]; rfl
    simpa using this
  refine ⟨h1, h2, ?_⟩
  rcases hp with hp | hp
  · exact ⟨'(', .inl rfl, key _ (h5 hp), by rw [h5 hp]⟩
  · exact ⟨')', .inr rfl, key _ (h6 hp), by rw [h6 hp]⟩

theorem dPopToParen_mem {P : DTok α → Prop} (stk out : List (DTok α)) (h : ∀ t ∈ stk, P t) (h' : ∀ t ∈ out, P t) :
    (∀ p, dPopToParen stk out = .plain (.ok p) → (∀ t ∈ p.1, P t) ∧ ∀ t ∈ p.2, P t) ∧
    ∀ e, dPopToParen stk out ≠ .parseError e := by
  induction stk generalizing out with
  | nil => exact ⟨fun p hp => (by cases hp), fun e hp => by cases hp⟩
  | cons t stk ih =>
    unfold dPopToParen
    split
    · refine ⟨fun p hp => ?_, fun e hp => by cases hp⟩
      cases hp
      exact ⟨fun t ht => h t (List.mem_cons_of_mem _ ht), h'⟩
    · exact ih _ (fun t ht => h t (List.mem_cons_of_mem _ ht)) fun u hu => by
        rcases List.mem_append.mp hu with hu | hu
        · exact h' u hu
        · simp only [List.mem_singleton] at hu
          subst hu
          exact h u (List.mem_cons_self ..)

theorem dPopFunction_mem {P : DTok α → Prop} (stk out : List (DTok α)) (h : ∀ t ∈ stk, P t) (h' : ∀ t ∈ out, P t) :
    (∀ t ∈ (dPopFunction stk out).1, P t) ∧ ∀ t ∈ (dPopFunction stk out).2, P t := by
  cases stk with
  | nil => exact ⟨h, h'⟩
  | cons t stk =>
    simp only [dPopFunction]
    split
    · refine ⟨fun t ht => h t (List.mem_cons_of_mem _ ht), fun u hu => ?_⟩
      rcases List.mem_append.mp hu with hu | hu
      · exact h' u hu
      · simp only [List.mem_singleton] at hu
        subst hu
        exact h u (List.mem_cons_self ..)
    · exact ⟨h, h'⟩

theorem dPopSigns_mem {P : DTok α → Prop} (stk out : List (DTok α)) (h : ∀ t ∈ stk, P t) (h' : ∀ t ∈ out, P t) :
    (∀ t ∈ (dPopSigns stk out).1, P t) ∧ ∀ t ∈ (dPopSigns stk out).2, P t := by
  induction stk generalizing out with
  | nil => exact ⟨h, h'⟩
  | cons t stk ih =>
    simp only [dPopSigns]
    split
    · refine ih _ (fun t ht => h t (List.mem_cons_of_mem _ ht)) fun u hu => ?_
      rcases List.mem_append.mp hu with hu | hu
      · exact h' u hu
      · simp only [List.mem_singleton] at hu
        subst hu
        exact h u (List.mem_cons_self ..)
    · exact ⟨h, h'⟩

theorem dPopRank_mem {P : DTok α → Prop} (f : MathOp) (stk out : List (DTok α)) (h : ∀ t ∈ stk, P t) (h' : ∀ t ∈ out, P t) :
    (∀ t ∈ (dPopRank f stk out).1, P t) ∧ ∀ t ∈ (dPopRank f stk out).2, P t := by
  induction stk generalizing out with
  | nil => exact ⟨h, h'⟩
  | cons t stk ih =>
    unfold dPopRank
    by_cases hc : (if isLeft2Right f = true then rank f ≤ rank t.node.op else rank f < rank t.node.op)
    · rw [if_pos hc]
      refine ih _ (fun t ht => h t (List.mem_cons_of_mem _ ht)) fun u hu => ?_
      rcases List.mem_append.mp hu with hu | hu
      · exact h' u hu
      · simp only [List.mem_singleton] at hu
        subst hu
        exact h u (List.mem_cons_self ..)
    · rw [if_neg hc]; exact ⟨h, h'⟩

theorem dFlush_of {s : Str} (stk out : List (DTok α)) (h : ∀ t ∈ stk, t.Of s) (h' : ∀ t ∈ out, t.Of s) :
    (∀ r, dFlushStack stk out = .plain (.ok r) → ∀ t ∈ r, t.Of s) ∧
    ∀ e, dFlushStack stk out = .parseError e → LateErr s e := by
  induction stk generalizing out with
  | nil => exact ⟨fun p hp => (by cases hp; exact h'), fun e hp => by cases hp⟩
  | cons t stk ih =>
    unfold dFlushStack
    split
    · rename_i hl
      refine ⟨fun p hp => (by cases hp), fun e hp => ?_⟩
      cases hp
      exact parenErr_late (h t (List.mem_cons_self ..)) (.inl hl)
    · exact ih _ (fun t ht => h t (List.mem_cons_of_mem _ ht)) fun u hu => by
        rcases List.mem_append.mp hu with hu | hu
        · exact h' u hu
        · simp only [List.mem_singleton] at hu
          subst hu
          exact h u (List.mem_cons_self ..)

theorem dShunt_of {s : Str} (ts : List (DTok α)) (bal : Nat) (stk out : List (DTok α)) (ht : ∀ t ∈ ts, t.Of s)
    (h : ∀ t ∈ stk, t.Of s) (h' : ∀ t ∈ out, t.Of s) :
    (∀ r, dShunt ts bal stk out = .plain (.ok r) → ∀ t ∈ r, t.Of s) ∧
    ∀ e, dShunt ts bal stk out = .parseError e → LateErr s e := by
  induction ts generalizing bal stk out with
  | nil => exact dFlush_of stk out h h'
  | cons f rest ih =>
    have hf := ht f (List.mem_cons_self ..)
    have hrest : ∀ t ∈ rest, t.Of s := fun t h => ht t (List.mem_cons_of_mem _ h)
    have hpush : ∀ l : List (DTok α), (∀ t ∈ l, t.Of s) → ∀ t ∈ f :: l, t.Of s := by
      intro l hl t h
      rcases List.mem_cons.mp h with h | h
      · subst h; exact hf
      · exact hl t h
    have hout : ∀ t ∈ out ++ [f], t.Of s := by
      intro t h
      rcases List.mem_append.mp h with h | h
      · exact h' t h
      · simp only [List.mem_singleton] at h
        subst h; exact hf
    obtain ⟨node, s', line, pos, content⟩ := f
    simp only [dShunt]
    cases node with
    | nil => exact ⟨fun _ h => (by cases h), fun _ h => by cases h⟩
    | mk ty op v x l r =>
      cases ty with
      | number => exact ih bal stk _ hrest h hout
      | «variable» => exact ih bal stk _ hrest h hout
      | operator =>
        have hrank : ∀ op', (∀ r', dShunt rest bal
            (⟨.mk .operator op v x l r, s', line, pos, content⟩ :: (dPopRank op' stk out).1) (dPopRank op' stk out).2 =
              .plain (.ok r') → ∀ t ∈ r', t.Of s) ∧
            ∀ e, dShunt rest bal (⟨.mk .operator op v x l r, s', line, pos, content⟩ :: (dPopRank op' stk out).1)
              (dPopRank op' stk out).2 = .parseError e → LateErr s e := fun op' =>
          ih bal _ _ hrest (hpush _ (dPopRank_mem op' stk out h h').1) (dPopRank_mem op' stk out h h').2
        cases op <;> simp only []
        case lparen => exact ih (bal + 1) (_ :: stk) out hrest (hpush _ h) h'
        case positive => exact ih bal (_ :: stk) out hrest (hpush _ h) h'
        case negative => exact ih bal (_ :: stk) out hrest (hpush _ h) h'
        case rparen =>
          by_cases hb : bal = 0
          · rw [if_pos hb]
            refine ⟨fun _ h => (by cases h), fun e he => ?_⟩
            cases he
            exact parenErr_late hf (.inr rfl)
          · rw [if_neg hb]
            have hpop := dPopToParen_mem stk out h h'
            rcases hq : dPopToParen stk out with (⟨stk', out'⟩ | _ | _ | _ | _ | _) | e
            · rw [hq] at hpop
              simp only [DRes.bind_ok]
              have h1 := hpop.1 _ rfl
              have h2 := dPopFunction_mem stk' out' h1.1 h1.2
              have h3 := dPopSigns_mem _ _ h2.1 h2.2
              exact ih bal _ _ hrest h3.1 h3.2
            all_goals simp only [DRes.bind_throw, DRes.bind_ub, DRes.bind_terminate, DRes.bind_assertFail, DRes.bind_diverge,
              DRes.bind_parseError]
            · exact ⟨fun _ h => (by cases h), fun _ h => (by cases h)⟩
            · exact ⟨fun _ h => (by cases h), fun _ h => (by cases h)⟩
            · exact ⟨fun _ h => (by cases h), fun _ h => (by cases h)⟩
            · exact ⟨fun _ h => (by cases h), fun _ h => (by cases h)⟩
            · exact ⟨fun _ h => (by cases h), fun _ h => (by cases h)⟩
            · exact absurd hq (hpop.2 e)
        all_goals exact hrank _

/-- Text, column and line of a token in the tree builder (whose nodes have got children). -/
def DTok.At (s : Str) (t : DTok α) : Prop := t.line = 0 ∧ t.content = s ∧ t.s ≠ [] ∧ t.s <+: s.drop t.pos

theorem dBuild_of {s : Str} (ts stk : List (DTok α)) (ht : ∀ t ∈ ts, t.At s) (h : ∀ t ∈ stk, t.At s) :
    (∀ r, dBuildLoop ts stk = .plain (.ok r) → ∀ t ∈ r, t.At s) ∧ ∀ e, dBuildLoop ts stk ≠ .parseError e := by
  induction ts generalizing stk with
  | nil => exact ⟨fun r hr => (by cases hr; exact h), fun e hr => by cases hr⟩
  | cons f rest ih =>
    have hf := ht f (List.mem_cons_self ..)
    have hrest : ∀ t ∈ rest, t.At s := fun t h => ht t (List.mem_cons_of_mem _ h)
    have hpush : ∀ (g : DTok α) (l : List (DTok α)), g.At s → (∀ t ∈ l, t.At s) → ∀ t ∈ g :: l, t.At s := by
      intro g l hg hl t h
      rcases List.mem_cons.mp h with h | h
      · subst h; exact hg
      · exact hl t h
    obtain ⟨node, s', line, pos, content⟩ := f
    simp only [dBuildLoop]
    cases node with
    | nil => exact ⟨fun _ h => (by cases h), fun _ h => by cases h⟩
    | mk ty op v x l r =>
      cases ty with
      | number => exact ih (_ :: stk) hrest (hpush _ _ hf h)
      | «variable» => exact ih (_ :: stk) hrest (hpush _ _ hf h)
      | operator =>
        simp only
        by_cases h2 : operatorNum op = 2
        · rw [if_pos h2]
          rcases stk with _ | ⟨r', _ | ⟨l', stk⟩⟩
          · exact ⟨fun _ h => (by cases h), fun _ h => by cases h⟩
          · exact ⟨fun _ h => (by cases h), fun _ h => by cases h⟩
          · exact ih (_ :: stk) hrest (hpush _ _ hf fun t ht => h t (by simp [ht]))
        · rw [if_neg h2]
          by_cases h1 : operatorNum op = 1
          · rw [if_pos h1]
            rcases stk with _ | ⟨l', stk⟩
            · exact ⟨fun _ h => (by cases h), fun _ h => by cases h⟩
            · exact ih (_ :: stk) hrest (hpush _ _ hf fun t ht => h t (by simp [ht]))
          · rw [if_neg h1]
            exact ⟨fun _ h => (by cases h), fun _ h => by cases h⟩

/-- All parse errors and what they carry. -/
theorem parseD_error {s : Str} {e : PErr} (hs : s ≠ []) (h : parseD s = (.parseError e : DRes (Raw α))) :
    (∃ e', e = .single e' ∧ NameErr s e') ∨ LateErr s e := by
  unfold parseD dParseToTokens at h
  rw [if_neg hs] at h
  have hlex := dLexLoop_of (α := α) (s := s) s (pos := 0) (word := []) (start := 0) (ret := []) (by simp) (by simp) (by simp)
  rcases hl : (dLexLoop s s 0 [] 0 [] : DRes (List (DTok α))) with (toks | _ | _ | _ | _ | _) | e1 <;> rw [hl] at h hlex <;>
    simp only [DRes.bind_ok, DRes.bind_throw, DRes.bind_ub, DRes.bind_terminate, DRes.bind_assertFail, DRes.bind_diverge,
      DRes.bind_parseError, reduceCtorEq] at h
  · have ht := hlex.1 toks rfl
    have hsh := dShunt_of toks 0 [] [] ht (by simp) (by simp)
    rcases hq : dShunt toks 0 [] [] with (post | _ | _ | _ | _ | _) | e2 <;> rw [hq] at h hsh <;>
      simp only [DRes.bind_ok, DRes.bind_throw, DRes.bind_ub, DRes.bind_terminate, DRes.bind_assertFail, DRes.bind_diverge,
        DRes.bind_parseError, reduceCtorEq] at h
    · have hb := dBuild_of (s := s) post [] (fun t ht => (hsh.1 post rfl t ht).elim fun h1 h2 => ⟨h1, h2.1, h2.2.1, h2.2.2.1⟩)
        (by simp)
      unfold dBuildExpressionTree at h
      rcases hr : dBuildLoop post [] with (stk | _ | _ | _ | _ | _) | e3 <;> rw [hr] at h hb <;>
        simp only [DRes.bind_ok, DRes.bind_throw, DRes.bind_ub, DRes.bind_terminate, DRes.bind_assertFail, DRes.bind_diverge,
          DRes.bind_parseError, reduceCtorEq] at h
      · rcases stk with _ | ⟨t, _ | ⟨t', rest⟩⟩
        · cases h
        · cases h
        · cases h
          right
          refine ⟨by simp, fun e he => ?_⟩
          obtain ⟨t1, ht1, rfl⟩ := List.mem_map.mp he
          have := hb.1 _ rfl t1 (List.mem_cons_of_mem _ ht1)
          exact ⟨this.1, this.2.1, t1.s, this.2.2.1, this.2.2.2, rfl⟩
      · exact absurd rfl (hb.2 e3)
    · cases h
      exact .inr (hsh.2 _ rfl)
  · cases h
    exact .inl (hlex.2 _ rfl)

end Tom
