import Verif.Model.RandomTree
import Verif.Props.Tree
import Verif.Props.IeeeUnderflow
/-
C99: an expression built with the operator overloads and functions, evaluated with Vpa, gives the very value the same C++ expression
gives on `double`s, for every sequence of choices the test helper can draw; with invalid values rejected, exactly when one of the
intermediate values is inf or nan.
-/
namespace Tom
variable {α : Type} [Dbl α]

/-- one counted round, on an expression whose value is known -/
theorem helperRound_spec {e : Expr α} {v : α} {c : HelperChoice α} {s : Raw α × α} (h : helperRound (embed e, v) c = some s) :
    ∃ e', s.1 = embed e' ∧ e'.vars = e.vars ∧
      (∀ strict, e.eval strict noEnv = .ok v → e'.eval strict noEnv = checked strict s.2) ∧
      (∀ strict x, e.eval strict noEnv = .throw x → e'.eval strict noEnv = .throw x) := by
  have un : ∀ o : UnOp, s = (unaryNode o.toMathOp (embed e), o.apply v) → ∃ e', s.1 = embed e' ∧ e'.vars = e.vars ∧
      (∀ strict, e.eval strict noEnv = .ok v → e'.eval strict noEnv = checked strict s.2) ∧
      (∀ strict x, e.eval strict noEnv = .throw x → e'.eval strict noEnv = .throw x) := by
    intro o hs
    refine ⟨.un o e, by simp [hs, unaryNode, embed], rfl, ?_, ?_⟩
    · intro strict h; simp [Expr.eval, h, hs]
    · intro strict x h; simp [Expr.eval, h]
  have binL : ∀ (o : BinOp) (r : α), o.apply v c.num = some r → s = (binaryNode o.toMathOp (embed e) (mkNum c.num), r) →
      ∃ e', s.1 = embed e' ∧ e'.vars = e.vars ∧
      (∀ strict, e.eval strict noEnv = .ok v → e'.eval strict noEnv = checked strict s.2) ∧
      (∀ strict x, e.eval strict noEnv = .throw x → e'.eval strict noEnv = .throw x) := by
    intro o r hr hs
    refine ⟨.bin o e (.num c.num), by simp [hs, binaryNode, embed, mkNum], by simp [Expr.vars], ?_, ?_⟩
    · intro strict h; simp [Expr.eval, h, hs, hr]
    · intro strict x h; simp [Expr.eval, h]
  have binR : ∀ (o : BinOp) (r : α), o.apply c.num v = some r → s = (binaryNode o.toMathOp (mkNum c.num) (embed e), r) →
      ∃ e', s.1 = embed e' ∧ e'.vars = e.vars ∧
      (∀ strict, e.eval strict noEnv = .ok v → e'.eval strict noEnv = checked strict s.2) ∧
      (∀ strict x, e.eval strict noEnv = .throw x → e'.eval strict noEnv = .throw x) := by
    intro o r hr hs
    refine ⟨.bin o (.num c.num) e, by simp [hs, binaryNode, embed, mkNum], by simp [Expr.vars], ?_, ?_⟩
    · intro strict h; simp [Expr.eval, h, hs, hr]
    · intro strict x h; simp [Expr.eval, h]
  unfold helperRound at h
  cases ho : c.op <;> simp only [ho] at h
  case positive => exact un .pos (Option.some.inj h).symm
  case negative => exact un .neg (Option.some.inj h).symm
  case sin => exact un .sin (Option.some.inj h).symm
  case cos => exact un .cos (Option.some.inj h).symm
  case tan => exact un .tan (Option.some.inj h).symm
  case arctan => exact un .atan (Option.some.inj h).symm
  case arcsin =>
    split at h
    · simp at h
    · exact un .asin (Option.some.inj h).symm
  case arccos =>
    split at h
    · simp at h
    · exact un .acos (Option.some.inj h).symm
  case add =>
    split at h
    · exact binR .add _ rfl (Option.some.inj h).symm
    · exact binL .add _ rfl (Option.some.inj h).symm
  case sub =>
    split at h
    · exact binR .sub _ rfl (Option.some.inj h).symm
    · exact binL .sub _ rfl (Option.some.inj h).symm
  case multiply =>
    split at h
    · exact binR .mul _ rfl (Option.some.inj h).symm
    · exact binL .mul _ rfl (Option.some.inj h).symm
  case divide =>
    split at h
    · split at h
      · simp at h
      · exact binR .div _ rfl (Option.some.inj h).symm
    · split at h
      · simp at h
      · exact binL .div _ rfl (Option.some.inj h).symm

theorem helperLoop_next (n : Nat) (cs : List (HelperChoice α)) (s : Raw α × α) :
    helperLoop (n + 1) cs s = helperLoop n cs s ∨ ∃ c ∈ cs, helperRound (helperLoop n cs s) c = some (helperLoop (n + 1) cs s) := by
  induction cs generalizing n s with
  | nil => left; cases n <;> rfl
  | cons c cs ih =>
    cases hr : helperRound s c with
    | none =>
      have h1 : ∀ m, helperLoop (m + 1) (c :: cs) s = helperLoop (m + 1) cs s := fun m => by simp [helperLoop, hr]
      have h0 : helperLoop n (c :: cs) s = helperLoop n cs s := by
        cases n with
        | zero => cases cs <;> rfl
        | succ m => exact h1 m
      rw [h1, h0]
      rcases ih n s with h | ⟨c', hc', h⟩
      · exact .inl h
      · exact .inr ⟨c', List.mem_cons_of_mem _ hc', h⟩
    | some s' =>
      have h1 : ∀ m, helperLoop (m + 1) (c :: cs) s = helperLoop m cs s' := fun m => by simp [helperLoop, hr]
      cases n with
      | zero =>
        right
        refine ⟨c, List.mem_cons_self, ?_⟩
        have h0 : helperLoop 0 cs s' = s' := by cases cs <;> rfl
        rw [h1, h0]
        exact hr
      | succ m =>
        rw [h1, h1]
        rcases ih m s' with h | ⟨c', hc', h⟩
        · exact .inl h
        · exact .inr ⟨c', List.mem_cons_of_mem _ hc', h⟩

theorem createRandomTree_spec (v : α) (hv : Dbl.isInvalid v = false) (cs : List (HelperChoice α)) (n : Nat) :
    ∃ e, (createRandomTree n v cs).1 = embed e ∧ e.vars = [] ∧
      (∀ strict, (strict = true → ∀ k ≤ n, Dbl.isInvalid (createRandomTree k v cs).2 = false) →
        e.eval strict noEnv = .ok (createRandomTree n v cs).2) ∧
      ((∃ k ≤ n, Dbl.isInvalid (createRandomTree k v cs).2 = true) → e.eval true noEnv = .throw (.math .invalidNumber)) := by
  have h0 : createRandomTree 0 v cs = (mkNum v, v) := by cases cs <;> rfl
  induction n with
  | zero =>
    refine ⟨.num v, by rw [h0]; rfl, rfl, ?_, ?_⟩
    · intro strict _; rw [h0]; rfl
    · rintro ⟨k, hk, h⟩
      obtain rfl : k = 0 := by omega
      rw [h0] at h
      simp [hv] at h
  | succ n ih =>
    obtain ⟨e, he, hvars, hok, hbad⟩ := ih
    rcases helperLoop_next n cs (mkNum v, v) with h | ⟨c, -, h⟩
    · have h : createRandomTree (n + 1) v cs = createRandomTree n v cs := h
      refine ⟨e, by rw [h]; exact he, hvars, ?_, ?_⟩
      · intro strict hs
        rw [h]
        exact hok strict (fun ht k hk => hs ht k (by omega))
      · rintro ⟨k, hk, hi⟩
        rcases Nat.lt_or_ge n k with hk' | hk'
        · obtain rfl : k = n + 1 := by omega
          rw [h] at hi
          exact hbad ⟨n, le_refl _, hi⟩
        · exact hbad ⟨k, hk', hi⟩
    · have h : helperRound (createRandomTree n v cs) c = some (createRandomTree (n + 1) v cs) := h
      have hpair : createRandomTree n v cs = (embed e, (createRandomTree n v cs).2) := Prod.ext he rfl
      rw [hpair] at h
      obtain ⟨e', he', hv', hok', hbad'⟩ := helperRound_spec h
      refine ⟨e', he', hv'.trans hvars, ?_, ?_⟩
      · intro strict hs
        rw [hok' strict (hok strict (fun ht k hk => hs ht k (by omega)))]
        unfold checked
        cases strict with
        | false => rfl
        | true => rw [hs rfl (n + 1) (le_refl _)]; rfl
      · rintro ⟨k, hk, hi⟩
        by_cases hall : ∃ k ≤ n, Dbl.isInvalid (createRandomTree k v cs).2 = true
        · exact hbad' true _ (hbad hall)
        · have hall' : ∀ k ≤ n, Dbl.isInvalid (createRandomTree k v cs).2 = false := by
            intro k hk
            by_contra hc
            exact hall ⟨k, hk, by simpa using hc⟩
          have : k = n + 1 := by
            by_contra hne
            rw [hall' k (by omega)] at hi
            simp at hi
          subst this
          rw [hok' true (hok true (fun _ => hall'))]
          unfold checked
          rw [hi]; rfl

/-- C99.  Inf and nan allowed: building the tree and evaluating it is computing with doubles — for every number of rounds, every first
number, every draw, and every floating-point arithmetic. -/
theorem C99_permissive (cfg : Config α) (h : cfg.throwOnInvalidValue = false) (len : Nat) (v : α) (hv : Dbl.isInvalid v = false)
    (cs : List (HelperChoice α)) : vpa cfg (createRandomTree len v cs).1 = .ok (createRandomTree len v cs).2 := by
  obtain ⟨e, he, -, hok, -⟩ := createRandomTree_spec v hv cs len
  rw [he, C12_vpa, h]
  exact hok false (by simp)

/-- C99.  The default configuration: the value if none of the intermediate values is inf or nan, INVALID_NUMBER otherwise. -/
theorem C99_strict (cfg : Config α) (h : cfg.throwOnInvalidValue = true) (len : Nat) (v : α) (hv : Dbl.isInvalid v = false)
    (cs : List (HelperChoice α)) :
    vpa cfg (createRandomTree len v cs).1 =
      if ∀ k ≤ len, Dbl.isInvalid (createRandomTree k v cs).2 = false then .ok (createRandomTree len v cs).2
      else .throw (.math .invalidNumber) := by
  obtain ⟨e, he, -, hok, hbad⟩ := createRandomTree_spec v hv cs len
  rw [he, C12_vpa, h]
  split
  case isTrue h => exact hok true (fun _ => h)
  case isFalse h =>
    apply hbad
    by_contra hc
    apply h
    intro k hk
    by_contra hi
    exact hc ⟨k, hk, by simpa using hi⟩

/-- C99.  The tree has no variables and is a well-formed expression. -/
theorem C99_closed (len : Nat) (v : α) (hv : Dbl.isInvalid v = false) (cs : List (HelperChoice α)) :
    ∃ e, (createRandomTree len v cs).1 = embed e ∧ e.vars = [] := by
  obtain ⟨e, he, hvars, -⟩ := createRandomTree_spec v hv cs len
  exact ⟨e, he, hvars⟩

/-- one counted round of finite numbers gives a finite number -/
theorem helperRound_finite {n : Raw (XNum ℝ)} {v : ℝ} {c : HelperChoice (XNum ℝ)} (hc : ∃ x, c.num = .fin x) (ht : c.op ≠ .tan)
    {s : Raw (XNum ℝ) × XNum ℝ}
    (h : helperRound (n, .fin v) c = some s) : ∃ w, s.2 = .fin w := by
  obtain ⟨x, hx⟩ := hc
  unfold helperRound at h
  simp only [hx] at h
  cases ho : c.op <;> simp only [ho] at h
  case positive => cases h; exact ⟨_, rfl⟩
  case negative => cases h; exact ⟨_, rfl⟩
  case add => split at h <;> cases h <;> exact ⟨_, rfl⟩
  case sub => split at h <;> cases h <;> exact ⟨_, rfl⟩
  case multiply => split at h <;> cases h <;> exact ⟨_, rfl⟩
  case divide =>
    have key : ∀ a b : ℝ, ¬ Arith.eq (XNum.fin b) (Dbl.ofInt 0) = true → ∃ w, Arith.div (XNum.fin a) (XNum.fin b) = XNum.fin w := by
      intro a b hb
      have : b ≠ 0 := by
        rintro rfl
        exact hb (by simp [Arith.eq, Dbl.ofInt, XNum.cmp])
      exact ⟨a / b, by simp [Arith.div, XNum.map2O, this]⟩
    split at h <;> split at h
    · cases h
    · next hb => cases h; exact key _ _ hb
    · cases h
    · next hb => cases h; exact key _ _ hb
  case sin => cases h; exact ⟨_, rfl⟩
  case cos => cases h; exact ⟨_, rfl⟩
  case tan => exact absurd ho ht
  case arctan => cases h; exact ⟨_, rfl⟩
  case arcsin =>
    split at h
    · cases h
    · next hb =>
      have hb' : -1 ≤ v ∧ v ≤ 1 := by simpa [Arith.lt, Dbl.ofInt, XNum.cmp] using hb
      cases h
      exact ⟨_, by simp [Dbl.asin, Dbl.acos, XNum.mapO, UnOp.real, hb'.1, hb'.2]; rfl⟩
  case arccos =>
    split at h
    · cases h
    · next hb =>
      have hb' : -1 ≤ v ∧ v ≤ 1 := by simpa [Arith.lt, Dbl.ofInt, XNum.cmp] using hb
      cases h
      exact ⟨_, by simp [Dbl.asin, Dbl.acos, XNum.mapO, UnOp.real, hb'.1, hb'.2]; rfl⟩

/-- C99.  The guards of the helper do their work: over exact reals, with finite draws, no intermediate value is invalid, so the evaluation
never fails, in whatever configuration.  (Without the tangent, which has no guard: its poles are not doubles.) -/
theorem C99_guarded (cfg : Config (XNum ℝ)) (len : Nat) (v : ℝ) (cs : List (HelperChoice (XNum ℝ))) (hcs : ∀ c ∈ cs, ∃ x, c.num = .fin x)
    (htan : ∀ c ∈ cs, c.op ≠ .tan) :
    ∃ w, (createRandomTree len (.fin v) cs).2 = .fin w ∧ vpa cfg (createRandomTree len (.fin v) cs).1 = .ok (.fin w) := by
  have hfin : ∀ n, ∃ w, (createRandomTree n (.fin v) cs).2 = .fin w := by
    intro n
    induction n with
    | zero => exact ⟨v, by cases cs <;> rfl⟩
    | succ n ih =>
      obtain ⟨w, hw⟩ := ih
      rcases helperLoop_next n cs (mkNum (.fin v), .fin v) with h | ⟨c, hc, h⟩
      · exact ⟨w, by rw [← hw]; exact congrArg Prod.snd h⟩
      · have h : helperRound (createRandomTree n (.fin v) cs) c = some (createRandomTree (n + 1) (.fin v) cs) := h
        rw [show createRandomTree n (.fin v) cs = ((createRandomTree n (.fin v) cs).1, .fin w) from Prod.ext rfl hw] at h
        exact helperRound_finite (hcs c hc) (htan c hc) h
  obtain ⟨w, hw⟩ := hfin len
  refine ⟨w, hw, ?_⟩
  cases hthrow : cfg.throwOnInvalidValue with
  | false => rw [C99_permissive cfg hthrow len (.fin v) rfl cs, hw]
  | true =>
    rw [C99_strict cfg hthrow len (.fin v) rfl cs, if_pos, hw]
    intro k _
    obtain ⟨w, hw⟩ := hfin k
    rw [hw]; rfl

/-- A draw with a division by zero, which does not count. -/
example : (createRandomTree (α := XNum ℚ) 3 (.fin 2) [⟨.add, .fin 3, true⟩, ⟨.divide, .fin 0, false⟩, ⟨.multiply, .fin 4, false⟩,
      ⟨.sub, .fin 1, true⟩]).2 = .fin (-19) ∧
    createRandomTree (α := XNum ℚ) 3 (.fin 2) [⟨.add, .fin 3, true⟩, ⟨.divide, .fin 0, false⟩, ⟨.multiply, .fin 4, false⟩,
      ⟨.sub, .fin 1, true⟩] =
      (embed (.bin .sub (.num (.fin 1)) (.bin .mul (.bin .add (.num (.fin 3)) (.num (.fin 2))) (.num (.fin 4)))), .fin (-19)) := by
  decide +kernel

end Tom
