import Verif.Lemmas.LinksSession
/-
Programs over `Node` variables: every statement, every program.
-/
set_option linter.unusedSectionVars false
set_option linter.unusedSimpArgs false
set_option linter.unusedVariables false
namespace Tom
variable {α : Type} [Dbl α]
open Raw

/-! ### Parse -/

def Childless (t : Token α) : Prop := t.node.left = .nil ∧ t.node.right = .nil

theorem mkOp_childless {op : MathOp} {n : Raw α} (h : mkOp op = .ok n) (p : Nat) : Childless (⟨n, p⟩ : Token α) := by
  unfold mkOp at h
  split at h
  · cases h
  · cases h; exact ⟨rfl, rfl⟩

theorem tryConfirm_childless {w : Str} {k : Nat} {ret out : List (Token α)} (h : tryConfirmToken w k ret = .ok out)
    (hr : ∀ t ∈ ret, Childless t) : ∀ t ∈ out, Childless t := by
  unfold tryConfirmToken at h
  have app : ∀ (n : Raw α), Childless (⟨n, k⟩ : Token α) → ret ++ [⟨n, k⟩] = out → ∀ t ∈ out, Childless t := by
    intro n hn he t ht
    rw [← he] at ht
    simp only [List.mem_append, List.mem_singleton] at ht
    rcases ht with ht | rfl
    · exact hr t ht
    · exact hn
  split at h
  · cases h; exact hr
  · split at h
    · cases h; exact app _ ⟨rfl, rfl⟩ rfl
    · dsimp only at h
      split at h
      · cases hm : (mkOp (str2Function w) : Res (Raw α)) with
        | ok n => rw [hm] at h; cases h; exact app _ (mkOp_childless hm k) rfl
        | _ => rw [hm] at h; cases h
      · split at h
        · cases h
        · cases hm : (mkVar w : Res (Raw α)) with
          | ok n =>
            rw [hm] at h; cases h
            refine app _ ?_ rfl
            unfold mkVar at hm
            split at hm
            · cases hm; exact ⟨rfl, rfl⟩
            · cases hm
          | _ => rw [hm] at h; cases h

theorem lexLoop_childless (s : Str) : ∀ (pos : Nat) (w : Str) (k : Nat) (ret out : List (Token α)),
    lexLoop s pos w k ret = .ok out → (∀ t ∈ ret, Childless t) → ∀ t ∈ out, Childless t := by
  induction s with
  | nil => intro pos w k ret out h hr; exact tryConfirm_childless h hr
  | cons c s ih =>
    intro pos w k ret out h hr
    unfold lexLoop at h
    split at h
    · cases h1 : tryConfirmToken w k ret with
      | ok ret1 =>
        rw [h1] at h
        simp only [Res.bind_ok] at h
        cases h2 : (mkOp (baseOperatorCharToEnum c (unaryPosition ret1)) : Res (Raw α)) with
        | ok n =>
          rw [h2] at h
          simp only [Res.bind_ok] at h
          refine ih _ _ _ _ _ h ?_
          intro t ht
          simp only [List.mem_append, List.mem_singleton] at ht
          rcases ht with ht | rfl
          · exact tryConfirm_childless h1 hr t ht
          · exact mkOp_childless h2 _
        | _ => rw [h2] at h; cases h
      | _ => rw [h1] at h; cases h
    · split at h
      · cases h1 : tryConfirmToken w k ret with
        | ok ret1 =>
          rw [h1] at h
          simp only [Res.bind_ok] at h
          exact ih _ _ _ _ _ h (tryConfirm_childless h1 hr)
        | _ => rw [h1] at h; cases h
      · exact ih _ _ _ _ _ h hr

section
variable (P : Token α → Prop)

theorem popToParen_all (S : List (Token α)) : ∀ (O : List (Token α)) {r}, popToParen S O = .ok r → (∀ t ∈ S, P t) → (∀ t ∈ O, P t) →
    (∀ t ∈ r.1, P t) ∧ ∀ t ∈ r.2, P t := by
  induction S with
  | nil => intro O r h; cases h
  | cons u S ih =>
    intro O r h hS hO
    unfold popToParen at h
    split at h
    · cases h; exact ⟨fun t ht => hS t (by simp [ht]), hO⟩
    · refine ih _ h (fun t ht => hS t (by simp [ht])) ?_
      intro t ht
      simp only [List.mem_append, List.mem_singleton] at ht
      rcases ht with ht | rfl
      · exact hO t ht
      · exact hS _ (by simp)

theorem popFunction_all (S O : List (Token α)) (hS : ∀ t ∈ S, P t) (hO : ∀ t ∈ O, P t) :
    (∀ t ∈ (popFunction S O).1, P t) ∧ ∀ t ∈ (popFunction S O).2, P t := by
  unfold popFunction
  cases S with
  | nil => exact ⟨hS, hO⟩
  | cons u S =>
    dsimp only
    split
    · refine ⟨fun t ht => hS t (by simp [show t ∈ S from ht]), fun t ht => ?_⟩
      simp only [List.mem_append, List.mem_singleton] at ht
      rcases ht with ht | rfl
      · exact hO t ht
      · exact hS _ (by simp)
    · exact ⟨hS, hO⟩

theorem popSigns_all (S : List (Token α)) : ∀ (O : List (Token α)), (∀ t ∈ S, P t) → (∀ t ∈ O, P t) →
    (∀ t ∈ (popSigns S O).1, P t) ∧ ∀ t ∈ (popSigns S O).2, P t := by
  induction S with
  | nil => intro O hS hO; exact ⟨hS, hO⟩
  | cons u S ih =>
    intro O hS hO
    unfold popSigns
    split
    · refine ih _ (fun t ht => hS t (by simp [ht])) (fun t ht => ?_)
      simp only [List.mem_append, List.mem_singleton] at ht
      rcases ht with ht | rfl
      · exact hO t ht
      · exact hS _ (by simp)
    · exact ⟨hS, hO⟩

theorem popRank_all (f : MathOp) (S : List (Token α)) : ∀ (O : List (Token α)), (∀ t ∈ S, P t) → (∀ t ∈ O, P t) →
    (∀ t ∈ (popRank f S O).1, P t) ∧ ∀ t ∈ (popRank f S O).2, P t := by
  induction S with
  | nil => intro O hS hO; exact ⟨hS, hO⟩
  | cons u S ih =>
    intro O hS hO
    rw [popRank]
    by_cases hc : (if isLeft2Right f then rank f ≤ rank u.node.op else rank f < rank u.node.op)
    · rw [if_pos hc]
      refine ih _ (fun t ht => hS t (by simp [ht])) (fun t ht => ?_)
      simp only [List.mem_append, List.mem_singleton] at ht
      rcases ht with ht | rfl
      · exact hO t ht
      · exact hS _ (by simp)
    · rw [if_neg hc]; exact ⟨hS, hO⟩

theorem flushStack_all (S : List (Token α)) : ∀ (O : List (Token α)) {r}, flushStack S O = .ok r → (∀ t ∈ S, P t) → (∀ t ∈ O, P t) →
    ∀ t ∈ r, P t := by
  induction S with
  | nil => intro O r h hS hO; cases h; exact hO
  | cons u S ih =>
    intro O r h hS hO
    unfold flushStack at h
    split at h
    · cases h
    · refine ih _ h (fun t ht => hS t (by simp [ht])) (fun t ht => ?_)
      simp only [List.mem_append, List.mem_singleton] at ht
      rcases ht with ht | rfl
      · exact hO t ht
      · exact hS _ (by simp)

theorem shunt_all (ts : List (Token α)) : ∀ (B : Nat) (S O : List (Token α)) {r}, shunt ts B S O = .ok r → (∀ t ∈ ts, P t) →
    (∀ t ∈ S, P t) → (∀ t ∈ O, P t) → ∀ t ∈ r, P t := by
  induction ts with
  | nil => intro B S O r h _ hS hO; exact flushStack_all P S O h hS hO
  | cons f ts ih =>
    intro B S O r h ht hS hO
    have htl : ∀ t ∈ ts, P t := fun t h => ht t (by simp [h])
    have hf : P f := ht f (by simp)
    have cons : ∀ S' : List (Token α), (∀ t ∈ S', P t) → ∀ t ∈ f :: S', P t := by
      intro S' hS' t h
      rcases List.mem_cons.mp h with rfl | h
      · exact hf
      · exact hS' t h
    have snoc : ∀ t ∈ O ++ [f], P t := by
      intro t h
      simp only [List.mem_append, List.mem_singleton] at h
      rcases h with h | rfl
      · exact hO t h
      · exact hf
    cases hn : f.node with
    | nil => simp only [shunt, hn] at h; cases h
    | mk ty op v x l r' =>
      cases ty with
      | number => simp only [shunt, hn] at h; exact ih _ _ _ h htl hS snoc
      | «variable» => simp only [shunt, hn] at h; exact ih _ _ _ h htl hS snoc
      | operator =>
        cases op
        case lparen => simp only [shunt, hn] at h; exact ih _ _ _ h htl (cons S hS) hO
        case positive => simp only [shunt, hn] at h; exact ih _ _ _ h htl (cons S hS) hO
        case negative => simp only [shunt, hn] at h; exact ih _ _ _ h htl (cons S hS) hO
        case rparen =>
          simp only [shunt, hn] at h
          split at h
          · cases h
          · cases h1 : popToParen S O with
            | ok p =>
              rw [h1] at h
              simp only [Res.bind_ok] at h
              obtain ⟨a1, a2⟩ := popToParen_all P S O h1 hS hO
              obtain ⟨b1, b2⟩ := popFunction_all P p.1 p.2 a1 a2
              obtain ⟨c1, c2⟩ := popSigns_all P _ _ b1 b2
              exact ih _ _ _ h htl c1 c2
            | _ => rw [h1] at h; cases h
        all_goals
          simp only [shunt, hn] at h
          exact ih _ _ _ h htl (cons _ (popRank_all P _ S O hS hO).1) (popRank_all P _ S O hS hO).2
end

theorem pTokens_spec (ts : List (Token α)) : ∀ (n : Nat), (∀ t ∈ ts, Childless t) →
    ∃ ps n', pTokens ts n = .ok (ps, n') ∧ eraseTokens ps = ts ∧ n ≤ n' ∧
      (∀ t ∈ ps, Linked none t.1 ∧ (t.1.isOperator = true → t.1.left = .nil ∧ t.1.right = .nil)) ∧
      ∀ a, occursIn a ps ≤ 1 ∧ (n' ≤ a → occursIn a ps = 0) ∧ (a < n → occursIn a ps = 0) := by
  induction ts with
  | nil => intro n _; exact ⟨[], n, rfl, rfl, Nat.le_refl _, by simp, by simp [occursIn]⟩
  | cons t ts ih =>
    intro n h
    have hts : ∀ t ∈ ts, Childless t := fun u hu => h u (by simp [hu])
    have ht := h t (by simp)
    cases hn : t.node with
    | nil =>
      obtain ⟨ps, n', h1, h2, h3, h4, h5⟩ := ih n hts
      refine ⟨(.nil, t.pos) :: ps, n', ?_, ?_, h3, ?_, ?_⟩
      · simp only [pTokens, hn, LM.bind_run, LM.pure_run, Res.bind_ok, h1]
      · simp only [eraseTokens, List.map_cons, erase_nil] at h2 ⊢
        rw [h2, ← hn]
      · intro u hu
        rcases List.mem_cons.mp hu with rfl | hu
        · exact ⟨trivial, by simp [isOperator]⟩
        · exact h4 u hu
      · intro a; simpa [occursIn, occurs] using h5 a
    | mk ty op v x l r =>
      obtain ⟨ps, n', h1, h2, h3, h4, h5⟩ := ih (n + 1) hts
      refine ⟨(.mk ty op ⟨v, n, none⟩ x .nil .nil, t.pos) :: ps, n', ?_, ?_, by omega, ?_, ?_⟩
      · simp only [pTokens, hn, newNode, LM.bind_run, LM.pure_run, LM.fresh_run, Res.bind_ok, h1]
      · simp only [eraseTokens, List.map_cons, erase_mk, erase_nil] at h2 ⊢
        rw [h2]
        have : t = ⟨t.node, t.pos⟩ := rfl
        rw [Childless, hn] at ht
        obtain ⟨rfl, rfl⟩ : l = .nil ∧ r = .nil := ht
        rw [this, hn]
      · intro u hu
        rcases List.mem_cons.mp hu with rfl | hu
        · exact ⟨⟨rfl, trivial, trivial⟩, fun _ => ⟨rfl, rfl⟩⟩
        · exact h4 u hu
      · intro a
        obtain ⟨k1, k2, k3⟩ := h5 a
        simp only [occursIn, List.map_cons, List.sum_cons, occurs] at k1 k2 k3 ⊢
        by_cases ha : n = a
        · subst ha
          have := k3 (by omega)
          simp only [if_true]
          exact ⟨by omega, fun h => by omega, fun h => by omega⟩
        · simp only [if_neg ha]
          exact ⟨by omega, fun h => by have := k2 h; omega, fun h => by have := k3 (by omega); omega⟩

theorem pParse_sim (s : Str) (n : Nat) :
    Res.Same (fun p c => p.1.erase = c ∧ Linked none p.1 ∧ New n p.2 p.1) ((pParse s : LM (PTree α)) n) (parse s : Res (Raw α)) := by
  unfold pParse parse
  simp only [LM.bind_run, LM.lift_run]
  cases h1 : (parseToTokens s : Res (List (Token α))) with
  | ok toks =>
    simp only [Res.bind_ok]
    have hc1 : ∀ t ∈ toks, Childless t := by
      unfold parseToTokens at h1
      split at h1
      · cases h1
      · exact lexLoop_childless _ _ _ _ _ _ h1 (by simp)
    cases h2 : inOrderToPostOrder toks with
    | ok post =>
      simp only [Res.bind_ok]
      have hc2 : ∀ t ∈ post, Childless t := shunt_all Childless toks 0 [] [] h2 hc1 (by simp) (by simp)
      obtain ⟨ps, n', g1, g2, g3, g4, g5⟩ := pTokens_spec post n hc2
      simp only [g1, Res.bind_ok]
      have hb := pBuild_sim ps n' g4 (fun a => ⟨(g5 a).1, (g5 a).2.1⟩)
      rw [g2] at hb
      have := Res.Same.bind (S := fun (p : PTree α × Nat) c => p.1.erase = c ∧ Linked none p.1 ∧ New n p.2 p.1)
        (f := fun b => Res.ok (b, n')) (g := Res.ok) hb ?_
      · rw [show (buildExpressionTree post >>= Res.ok) = buildExpressionTree post from by cases buildExpressionTree post <;> rfl] at this
        exact this
      · rintro t c ⟨k1, k2, k3⟩
        exact .ok ⟨k1, k2.1, g3, fun a => ⟨(k2.2 a).1, fun ha => by have := k3 a; have := (g5 a).2.2 ha; simp only; omega, (k2.2 a).2⟩⟩
    | _ => constructor
  | _ => constructor

end Tom
