import Verif.Lemmas.LinksSession2
/-
Programs over `Node` variables: `Subs`, `Diff`, every statement, every program.
-/
set_option linter.unusedSectionVars false
set_option linter.unusedSimpArgs false
set_option linter.unusedVariables false
namespace Tom
variable {α : Type} [Dbl α]
open Raw

/-! ### dictionaries -/

theorem eraseDict_mapInsert (k : Str) (c : PTree α) (m : List (Str × PTree α)) :
    eraseDict (mapInsert k c m) = mapInsert k c.erase (eraseDict m) := by
  induction m with
  | nil => rfl
  | cons kv m ih =>
    obtain ⟨k', c'⟩ := kv
    simp only [eraseDict, List.map_cons] at ih ⊢
    rw [mapInsert, mapInsert]
    split
    · rfl
    · split
      · simp only [List.map_cons]; rw [ih]
      · rfl

theorem mapInsert_some (k : Str) (c : PTree α) (m : List (Str × PTree α)) (hc : c.isSome = true)
    (hm : ∀ kv ∈ m, kv.2.isSome = true) : ∀ kv ∈ mapInsert k c m, kv.2.isSome = true := by
  induction m with
  | nil => intro kv h; simp only [mapInsert, List.mem_singleton] at h; subst h; exact hc
  | cons kv m ih =>
    obtain ⟨k', c'⟩ := kv
    rw [mapInsert]
    intro kv h
    split at h
    · rcases List.mem_cons.mp h with rfl | h
      · exact hc
      · exact hm _ h
    · split at h
      · rcases List.mem_cons.mp h with rfl | h
        · exact hm _ (by simp)
        · exact ih (fun kv h => hm kv (by simp [h])) _ h
      · exact hm _ h

theorem dictOfLists_ub (vs : List Str) : ∀ ns : List (Raw α), dictOfLists vs ns .ub = .ub := by
  induction vs with
  | nil => intro ns; cases ns <;> rfl
  | cons v vs ih =>
    intro ns
    cases ns with
    | nil => rfl
    | cons n ns => rw [dictOfLists]; exact ih ns

theorem pDictOfLists_sim (vs : List Str) : ∀ (ts : List (PTree α)) (m : List (Str × PTree α)) (n : Nat),
    (∀ kv ∈ m, kv.2.isSome = true) →
    Res.Same (fun p c => eraseDict p.1 = c ∧ n ≤ p.2 ∧ ∀ kv ∈ p.1, kv.2.isSome = true) (pDictOfLists vs ts m n)
      (dictOfLists vs (ts.map erase) (.ok (eraseDict m))) := by
  induction vs with
  | nil =>
    intro ts m n hm
    have e1 : pDictOfLists ([] : List Str) ts m n = .ok (m, n) := by cases ts <;> rfl
    have e2 : dictOfLists ([] : List Str) (ts.map erase) (.ok (eraseDict m)) = .ok (eraseDict m) := by cases ts <;> rfl
    rw [e1, e2]; exact .ok ⟨rfl, Nat.le_refl _, hm⟩
  | cons v vs ih =>
    intro ts m n hm
    cases ts with
    | nil => exact .ok ⟨rfl, Nat.le_refl _, hm⟩
    | cons t ts =>
      simp only [pDictOfLists, List.map_cons, dictOfLists, LM.bind_run, Res.bind_ok]
      by_cases ht : t.isSome = true
      · obtain ⟨c, n', h1, h2, h3, h4⟩ := pClone_spec t ht n
        have hc : c.isSome = true := by
          have := congrArg Raw.isSome h2
          rw [erase_isSome, erase_isSome] at this
          rw [this]; exact ht
        rw [clone_eq t.erase (by rw [erase_isSome]; exact ht)]
        simp only [h1, Res.bind_ok]
        rw [← h2, ← eraseDict_mapInsert]
        exact (ih ts _ n' (mapInsert_some _ _ _ hc hm)).mono fun p c h => ⟨h.1, by have := h4.1; omega, h.2.2⟩
      · have : t = .nil := by cases t with
          | nil => rfl
          | mk => simp at ht
        subst this
        have e1 : pClone (.nil : PTree α) n = .ub := rfl
        have e2 : clone (Raw.nil : PTree α).erase = .ub := rfl
        rw [e1, e2]
        show Res.Same _ Res.ub (dictOfLists vs _ .ub)
        rw [dictOfLists_ub]; exact .ub

theorem pDictOfValues_sim (kvs : List (Str × α)) : ∀ (m : List (Str × PTree α)) (n : Nat),
    (∀ kv ∈ m, kv.2.isSome = true) →
    ∃ m' n', pDictOfValues kvs m n = .ok (m', n') ∧ n ≤ n' ∧
      eraseDict m' = kvs.foldl (fun m kv => mapInsert kv.1 (mkNum kv.2) m) (eraseDict m) ∧ ∀ kv ∈ m', kv.2.isSome = true := by
  induction kvs with
  | nil => intro m n hm; exact ⟨m, n, rfl, Nat.le_refl _, rfl, hm⟩
  | cons kv kvs ih =>
    intro m n hm
    obtain ⟨m', n', h1, h2, h3, h4⟩ := ih (mapInsert kv.1 (.mk .number .null ⟨kv.2, n, none⟩ [] .nil .nil) m) (n + 1)
      (mapInsert_some _ _ _ rfl hm)
    refine ⟨m', n', ?_, by omega, ?_, h4⟩
    · simp only [pDictOfValues, pNum, newNode, LM.bind_run, LM.fresh_run, LM.pure_run, Res.bind_ok, h1]
    · rw [h3, eraseDict_mapInsert]; rfl

/-! ### Diff with its checks -/

theorem pDiff_sim (cfg : Config α) {root : PTree α} {n : Nat} (hs : Sound n root) (he : root = .nil ∨ ∃ e, root.erase = embed e)
    (x : Str) (i : Int) :
    Res.Same (fun p c => p.1.erase = c ∧ Sound p.2 p.1 ∧ Frame n p.2 root p.1) (pDiff cfg root x i n) (diff cfg root.erase x i) := by
  unfold pDiff diff
  by_cases hi : i > 0
  · simp only [hi, if_true, LM.bind_run]
    have hsim := pDiffTimes_sim x i.toNat hs
    rcases he with rfl | ⟨e, he⟩
    · obtain ⟨k, hk⟩ : ∃ k, i.toNat = k + 1 := ⟨i.toNat - 1, by omega⟩
      rw [hk]
      exact .ub
    · by_cases hio : e.hasIntOp = true
      · have : diffTimes x i.toNat root.erase = .throw .runtime := by
          have := diff_throw cfg x i hi e hio
          rw [he]
          obtain ⟨k, hk⟩ : ∃ k, i.toNat = k + 1 := ⟨i.toNat - 1, by omega⟩
          unfold diff at this
          simp only [hi, if_true] at this
          cases hd : diffTimes x i.toNat (embed e) with
          | ok t =>
            exfalso
            rw [hk, diffTimes, diffOnce_throw x e hio] at hd
            cases hd
          | throw ex => rw [hd] at this; exact this
          | ub => rw [hd] at this; cases this
          | terminate => rw [hd] at this; cases this
          | assertFail => rw [hd] at this; cases this
          | diverge => rw [hd] at this; cases this
        rw [this] at hsim ⊢
        revert hsim
        generalize pDiffTimes x i.toNat root n = w
        intro hsim
        cases hsim
        exact .throw _
      · have hok := diffTimes_ok x i.toNat e (by simpa using hio)
        rw [he, hok] at hsim
        rw [he, hok]
        obtain ⟨⟨t, n1⟩, h1, h2, h3, h4⟩ := hsim.of_ok
        simp only at h2 h3 h4
        obtain ⟨str, hstr⟩ : ∃ s, pToString t = .ok s := by
          rw [pToString_eq h3, h2]; exact ⟨_, toString_embed _⟩
        simp only [h1, Res.bind_ok, LM.lift_run, hstr, checkParent_ok h3 h2]
        have hsim2 := pSimplify_sim cfg h3
        rw [h2] at hsim2
        cases hsi : simplify cfg (embed ((dE x)^[i.toNat] e)) with
        | ok c =>
          rw [hsi] at hsim2
          obtain ⟨⟨t2, n2⟩, g1, g2, g3, g4⟩ := hsim2.of_ok
          simp only at g2 g3 g4
          rw [simplify_embed] at hsi
          obtain ⟨e', he'⟩ : ∃ e', t2.erase = embed e' := by
            rcases simpE_cases cfg ((dE x)^[i.toNat] e) with ⟨e', h⟩ | h | h
            · rw [h] at hsi; cases hsi; exact ⟨e', g2⟩
            · rw [h] at hsi; cases hsi
            · rw [h] at hsi; cases hsi
          simp only [g1, Res.bind_ok, checkParent_ok g3 he', LM.pure_run]
          exact .ok ⟨g2, g3, h4.trans g4⟩
        | _ =>
          rw [hsi] at hsim2
          revert hsim2
          generalize pSimplify cfg t n1 = w
          intro hsim2
          cases hsim2 <;> constructor
  · simp only [hi, if_false]; exact .assertFail

/-! ### statements -/

theorem new_single (ty : NodeType) (op : MathOp) (v : α) (x : Str) (n : Nat) :
    New n (n + 1) (.mk ty op ⟨v, n, none⟩ x .nil .nil : PTree α) := by
  refine ⟨by omega, fun a => ?_⟩
  simp only [occurs]
  by_cases ha : n = a
  · simp only [if_pos ha]; exact ⟨by omega, fun h => by omega, fun h => by omega⟩
  · simp only [if_neg ha]; exact ⟨by omega, fun h => trivial, fun h => trivial⟩

theorem take_lvalue_ub {env : Env α} {y : Str} {n : Nat} (h : ¬ (env y).isSome = true) :
    (Operand.lvalue y).take env n = .ub ∧ clone (eraseEnv env y) = .ub := by
  have : env y = .nil := by
    cases he : env y with
    | nil => rfl
    | mk => rw [he] at h; simp at h
  simp only [Operand.take, eraseEnv, this]
  exact ⟨rfl, rfl⟩

/-- what is done with a taken operand -/
theorem taken_sim {n n1 : Nat} {env : Env α} (h : EnvSound n env) {o : Operand} {t : PTree α}
    (ht : Taken n n1 env o t) (x : Str) {f : LM (PTree α)} {r : Res (Raw α)} {m : Nat} (hm : n1 ≤ m)
    (hsim : Res.Same (fun p c => p.1.erase = c ∧ Sound p.2 p.1 ∧ Frame m p.2 t p.1) (f m) r) :
    Res.Same (EnvRel n) ((do let t ← f; pure ((o.after env).set x t) : LM (Env α)) m)
      (r >>= fun t => .ok ((o.after (eraseEnv env)).set x t)) := by
  simp only [LM.bind_run]
  refine Res.Same.bind hsim ?_
  rintro ⟨t', n2⟩ c ⟨g1, g2, g3⟩
  simp only at g1 g2 g3
  refine .ok ⟨by simp [g1], ?_, ?_⟩
  · exact ht.store h g2 ⟨Nat.le_trans hm g3.1, fun a ha => g3.2 a (by omega)⟩ x
  · have := ht.le; have := g3.1; simp only; omega

/-- every statement does to the objects what it means for the expressions -/
theorem Operand.leaves_eq {α : Type} (o : Operand) (env : VEnv α) : o.leaves env = o.after env := by
  cases o <;> rfl

theorem Operand.source_eq (o : Operand) : o.source = o.name := by
  cases o <;> rfl

theorem Stmt.leaves_eq {α : Type} (s : Stmt α) (env : VEnv α) : s.leaves env = s.thrown env := by
  cases s with
  | diff x o name i => cases o <;> rfl
  | _ => rfl

theorem step_sim (cfg : Config α) {n : Nat} {env : Env α} (h : EnvSound n env) (hH : Holds (eraseEnv env)) (s : Stmt α) :
    Res.Same (EnvRel n) (s.step cfg env n) (s.value cfg (eraseEnv env)) := by
  cases s with
  | num x v =>
    simp only [Stmt.step, Stmt.value, Operand.leaves_eq, Operand.source_eq, pNum, newNode, LM.bind_run, LM.fresh_run, LM.pure_run, Res.bind_ok]
    exact .ok ⟨by simp [mkNum], h.set_new ⟨rfl, trivial, trivial⟩ (new_single _ _ _ _ _), by simp⟩
  | var x name =>
    simp only [Stmt.step, Stmt.value, Operand.leaves_eq, Operand.source_eq, mkVar, newNode, LM.bind_run, LM.fresh_run, LM.pure_run, LM.lift_run]
    by_cases hv : varNameIsLegal name = true
    · simp only [hv, if_true, Res.bind_ok]
      exact .ok ⟨by simp [varNode], h.set_new ⟨rfl, trivial, trivial⟩ (new_single _ _ _ _ _), by simp⟩
    · simp only [hv, if_false, Bool.false_eq_true]
      exact .throw _
  | parse x text =>
    simp only [Stmt.step, Stmt.value, Operand.leaves_eq, Operand.source_eq, LM.bind_run]
    refine Res.Same.bind (pParse_sim text n) ?_
    rintro ⟨t, n'⟩ c ⟨h1, h2, h3⟩
    exact .ok ⟨by simp only at h1; simp [h1], h.set_new h2 h3, h3.1⟩
  | clone x y =>
    simp only [Stmt.step, Stmt.value, Operand.leaves_eq, Operand.source_eq, LM.bind_run, eraseEnv_isSome]
    by_cases hs : (env y).isSome = true
    · obtain ⟨t, n', h1, h2, h3, h4⟩ := pClone_spec (env y) hs n
      simp only [hs, if_true, h1, Res.bind_ok, LM.pure_run]
      refine .ok ⟨by simp [h2, eraseEnv], h.set_new h3 h4, h4.1⟩
    · simp only [hs, if_false, Bool.false_eq_true]
      have := (take_lvalue_ub (n := n) hs).1
      simp only [Operand.take] at this
      rw [this]; exact .ub
  | move x y =>
    simp only [Stmt.step, Stmt.value, Operand.leaves_eq, Operand.source_eq, LM.pure_run]
    refine .ok ⟨by simp; rfl, ?_, Nat.le_refl _⟩
    refine (h.null y).set (h.sound y) (fun z a => ?_)
    by_cases hz : z = y
    · subst hz; right; simp [occurs]
    · rw [VEnv.set_ne _ _ hz]; exact h.apart y z (Ne.symm hz) a
  | unary x op o => exact unary_sim h op x o
  | binary x op o1 o2 => exact binary_sim h op x o1 o2
  | compound op x o => exact binary_sim h op x (.rvalue x) o
  | subs x o names images =>
    have key : ∀ t n1, Linked none t → Taken n n1 env o t →
        Res.Same (EnvRel n) ((do
            LM.lift (Res.assert (names.length == images.length))
            let dict ← pDictOfLists names (images.map env) []
            let t ← pSubsInner t dict
            pure ((o.after env).set x t) : LM (Env α)) n1)
          (subsVec t.erase names (images.map (eraseEnv env)) >>= fun t => .ok ((o.after (eraseEnv env)).set x t)) := by
      intro t n1 hl ht
      have hS : Sound n1 t := ⟨hl, ht.distinct⟩
      simp only [subsVec, LM.bind_run, LM.lift_run, List.length_map]
      cases hc : (names.length == images.length) with
      | false => exact .assertFail
      | true =>
        have hA : (Res.assert true : Res Unit) = .ok () := rfl
        simp only [hA, Res.bind_ok]
        have himg : (images.map (eraseEnv env)) = ((images.map env).map erase) := by simp [eraseEnv, Function.comp_def]
        rw [himg]
        have hd := pDictOfLists_sim names (images.map env) [] n1 (by simp)
        simp only [eraseDict, List.map_nil] at hd
        cases hv : dictOfLists names ((images.map env).map erase) (.ok []) with
        | ok m =>
          rw [hv] at hd
          obtain ⟨⟨m', n2⟩, g1, g2, g3, g4⟩ := hd.of_ok
          simp only at g2 g3 g4
          simp only [g1, Res.bind_ok]
          by_cases hts : t.isSome = true
          · have hsim := pSubsInner_sim g4 (hS.mono g3) hts
            have := taken_sim h ht x g3 hsim
            simp only [eraseDict] at this
            rw [g2] at this
            exact this
          · have : t = .nil := by cases t with
              | nil => rfl
              | mk => simp at hts
            subst this
            exact .ub
        | _ =>
          rw [hv] at hd
          revert hd
          generalize pDictOfLists names (images.map env) [] n1 = w
          intro hd
          cases hd <;> constructor
    cases o with
    | lvalue y =>
      simp only [Stmt.step, Stmt.value, Operand.leaves_eq, Operand.source_eq, subsVecConst, LM.bind_run]
      by_cases hs : (env y).isSome = true
      · obtain ⟨t, n1, h1, h2, h3⟩ := take_spec h (.lvalue y) (.inl hs)
        have := key t n1 h2 h3
        rw [clone_eq _ (by rw [eraseEnv_isSome]; exact hs), h1]
        simp only [Res.bind_ok]
        rw [← show t.erase = eraseEnv env y from h3.erase]
        exact this
      · obtain ⟨e1, e2⟩ := take_lvalue_ub (n := n) hs
        rw [e1, e2]; exact .ub
    | rvalue y =>
      obtain ⟨t, n1, h1, h2, h3⟩ := take_spec h (.rvalue y) (.inr ⟨y, rfl⟩)
      have := key t n1 h2 h3
      simp only [Stmt.step, Stmt.value, Operand.leaves_eq, Operand.source_eq, LM.bind_run]
      rw [h1]
      simp only [Res.bind_ok]
      rw [← show t.erase = eraseEnv env y from h3.erase]
      exact this
  | subsValues x o values =>
    have key : ∀ t n1, Linked none t → Taken n n1 env o t →
        Res.Same (EnvRel n) ((do
            let dict ← pDictOfValues values []
            let t ← pSubsInner t dict
            pure ((o.after env).set x t) : LM (Env α)) n1)
          (subsValues t.erase values >>= fun t => .ok ((o.after (eraseEnv env)).set x t)) := by
      intro t n1 hl ht
      have hS : Sound n1 t := ⟨hl, ht.distinct⟩
      obtain ⟨m', n2, g1, g2, g3, g4⟩ := pDictOfValues_sim values [] n1 (by simp)
      simp only [LM.bind_run, g1, Res.bind_ok]
      by_cases hts : t.isSome = true
      · have hsim := pSubsInner_sim g4 (hS.mono g2) hts
        have := taken_sim h ht x g2 hsim
        rw [g3] at this
        exact this
      · have : t = .nil := by cases t with
          | nil => rfl
          | mk => simp at hts
        subst this
        exact .ub
    cases o with
    | lvalue y =>
      simp only [Stmt.step, Stmt.value, Operand.leaves_eq, Operand.source_eq, subsValuesConst, LM.bind_run]
      by_cases hs : (env y).isSome = true
      · obtain ⟨t, n1, h1, h2, h3⟩ := take_spec h (.lvalue y) (.inl hs)
        have := key t n1 h2 h3
        rw [clone_eq _ (by rw [eraseEnv_isSome]; exact hs), h1]
        simp only [Res.bind_ok]
        rw [← show t.erase = eraseEnv env y from h3.erase]
        exact this
      · obtain ⟨e1, e2⟩ := take_lvalue_ub (n := n) hs
        rw [e1, e2]; exact .ub
    | rvalue y =>
      obtain ⟨t, n1, h1, h2, h3⟩ := take_spec h (.rvalue y) (.inr ⟨y, rfl⟩)
      have := key t n1 h2 h3
      simp only [Stmt.step, Stmt.value, Operand.leaves_eq, Operand.source_eq, LM.bind_run]
      rw [h1]
      simp only [Res.bind_ok]
      rw [← show t.erase = eraseEnv env y from h3.erase]
      exact this
  | simplify x =>
    simp only [Stmt.step, Stmt.value, Operand.leaves_eq, Operand.source_eq, LM.bind_run]
    have hT : Taken n n env (.rvalue x) (env x) := taken_move h (fun _ => rfl) rfl
    refine Res.Same.bind (pSimplify_sim cfg (h.sound x)) ?_
    rintro ⟨t, n'⟩ c ⟨g1, g2, g3⟩
    simp only at g1 g2 g3
    have hst := hT.store h g2 g3 x
    have he : ((Operand.rvalue x).after env).set x t = env.set x t := by
      funext y
      by_cases hy : y = x
      · subst hy; simp
      · simp [Operand.after, VEnv.set_ne _ _ hy]
    rw [he] at hst
    exact .ok ⟨by simp [g1], hst, g3.1⟩
  | diff x o name i =>
    have hemb : ∀ t : PTree α, t.erase = eraseEnv env o.name → t = .nil ∨ ∃ e, t.erase = embed e := by
      intro t ht
      rcases hH o.name with h1 | ⟨e, h1⟩
      · left
        rw [h1] at ht
        cases t with
        | nil => rfl
        | mk => simp at ht
      · exact .inr ⟨e, by rw [ht, h1]⟩
    have key : ∀ t n1, Linked none t → Taken n n1 env o t →
        Res.Same (EnvRel n) ((do
            let t ← pDiff cfg t name i
            pure ((o.after env).set x t) : LM (Env α)) n1)
          (diff cfg t.erase name i >>= fun t => .ok ((o.after (eraseEnv env)).set x t)) := by
      intro t n1 hl ht
      exact taken_sim h ht x (Nat.le_refl _) (pDiff_sim cfg ⟨hl, ht.distinct⟩ (hemb t ht.erase) name i)
    cases o with
    | lvalue y =>
      simp only [Stmt.step, Stmt.value, Operand.leaves_eq, Operand.source_eq, diffConst, LM.bind_run]
      by_cases hs : (env y).isSome = true
      · obtain ⟨t, n1, h1, h2, h3⟩ := take_spec h (.lvalue y) (.inl hs)
        have := key t n1 h2 h3
        rw [clone_eq _ (by rw [eraseEnv_isSome]; exact hs), h1]
        simp only [Res.bind_ok]
        rw [← show t.erase = eraseEnv env y from h3.erase]
        exact this
      · obtain ⟨e1, e2⟩ := take_lvalue_ub (n := n) hs
        rw [e1, e2]; exact .ub
    | rvalue y =>
      obtain ⟨t, n1, h1, h2, h3⟩ := take_spec h (.rvalue y) (.inr ⟨y, rfl⟩)
      have := key t n1 h2 h3
      simp only [Stmt.step, Stmt.value, Operand.leaves_eq, Operand.source_eq, LM.bind_run]
      rw [h1]
      simp only [Res.bind_ok]
      rw [← show t.erase = eraseEnv env y from h3.erase]
      exact this

/-! ### programs -/

theorem holds_set {env : VEnv α} (h : Holds env) (x : Str) {t : Raw α} (ht : t = .nil ∨ ∃ e, t = embed e) : Holds (env.set x t) := by
  intro y
  by_cases hy : y = x
  · subst hy; simpa using ht
  · rw [VEnv.set_ne _ _ hy]; exact h y

theorem holds_after {env : VEnv α} (h : Holds env) (o : Operand) : Holds (o.after env) := by
  cases o with
  | lvalue => exact h
  | rvalue y => exact holds_set h y (.inl rfl)

theorem holds_isSome {env : VEnv α} (h : Holds env) {x : Str} (hs : (env x).isSome = true) : ∃ e, env x = embed e := by
  rcases h x with h | h
  · rw [h] at hs; simp [isSome] at hs
  · exact h

theorem subsInner_holds {t : Raw α} (ht : t = .nil ∨ ∃ e, t = embed e) {dict : List (Str × Raw α)}
    (hd : ∃ m : List (Str × Expr α), dict = m.map fun kv => (kv.1, embed kv.2)) {r : Raw α}
    (h : subsInner t dict = .ok r) : ∃ e, r = embed e := by
  rcases ht with rfl | ⟨e, rfl⟩
  · simp [subsInner, isSome] at h
  · obtain ⟨m, rfl⟩ := hd
    rw [subsInner_embed] at h
    cases h
    exact ⟨_, rfl⟩

theorem mapInsert_embed (k : Str) (e : Expr α) (m : List (Str × Expr α)) :
    mapInsert k (embed e) (m.map fun kv => (kv.1, embed kv.2)) = (mapInsert k e m).map fun kv => (kv.1, embed kv.2) := by
  induction m with
  | nil => rfl
  | cons kv m ih =>
    obtain ⟨k', e'⟩ := kv
    simp only [List.map_cons]
    rw [mapInsert, mapInsert]
    split
    · rfl
    · split
      · simp only [List.map_cons]; rw [ih]
      · rfl

theorem dictOfLists_holds (vs : List Str) : ∀ (ns : List (Raw α)) (m : List (Str × Expr α)) {r : List (Str × Raw α)},
    (∀ t ∈ ns, t = .nil ∨ ∃ e, t = embed e) →
    dictOfLists vs ns (.ok (m.map fun kv => (kv.1, embed kv.2))) = .ok r →
    ∃ m' : List (Str × Expr α), r = m'.map fun kv => (kv.1, embed kv.2) := by
  induction vs with
  | nil =>
    intro ns m r _ h
    have : dictOfLists ([] : List Str) ns (.ok (m.map fun kv => (kv.1, embed kv.2))) = .ok (m.map fun kv => (kv.1, embed kv.2)) := by
      cases ns <;> rfl
    rw [this] at h; cases h; exact ⟨m, rfl⟩
  | cons v vs ih =>
    intro ns m r hns h
    cases ns with
    | nil => simp only [dictOfLists] at h; cases h; exact ⟨m, rfl⟩
    | cons t ns =>
      simp only [dictOfLists, Res.bind_ok] at h
      rcases hns t (by simp) with rfl | ⟨e, rfl⟩
      · have : (do let c ← clone (Raw.nil : Raw α); Res.ok (mapInsert v c (m.map fun (kv : Str × Expr α) => (kv.1, embed kv.2)))) = .ub := rfl
        rw [this, dictOfLists_ub] at h; cases h
      · rw [clone_eq _ (embed_isSome e)] at h
        simp only [Res.bind_ok] at h
        rw [mapInsert_embed] at h
        exact ih ns _ (fun t ht => hns t (by simp [ht])) h

theorem dictOfValues_holds (kvs : List (Str × α)) : ∀ (m : List (Str × Expr α)), ∃ m' : List (Str × Expr α),
    kvs.foldl (fun m kv => mapInsert kv.1 (mkNum kv.2) m) (m.map fun kv => (kv.1, embed kv.2)) = m'.map fun kv => (kv.1, embed kv.2) := by
  induction kvs with
  | nil => intro m; exact ⟨m, rfl⟩
  | cons kv kvs ih =>
    intro m
    simp only [List.foldl_cons]
    rw [show (mkNum kv.2 : Raw α) = embed (.num kv.2) from rfl, mapInsert_embed]
    exact ih _

theorem simplify_holds (cfg : Config α) {t r : Raw α} (ht : t = .nil ∨ ∃ e, t = embed e) (h : simplify cfg t = .ok r) :
    ∃ e, r = embed e := by
  rcases ht with rfl | ⟨e, rfl⟩
  · cases h
  · rw [simplify_embed] at h
    rcases simpE_cases cfg e with ⟨e', h'⟩ | h' | h' <;> rw [h'] at h <;> cases h
    exact ⟨e', rfl⟩

theorem diff_holds (cfg : Config α) {t r : Raw α} (ht : t = .nil ∨ ∃ e, t = embed e) {x : Str} {i : Int} (h : diff cfg t x i = .ok r) :
    ∃ e, r = embed e := by
  by_cases hi : 0 < i
  · rcases ht with rfl | ⟨e, rfl⟩
    · unfold diff at h
      obtain ⟨k, hk⟩ : ∃ k, i.toNat = k + 1 := ⟨i.toNat - 1, by omega⟩
      rw [if_pos (show i > 0 from hi), hk] at h
      cases h
    · by_cases hio : e.hasIntOp = true
      · rw [diff_throw cfg x i hi e hio] at h; cases h
      · rw [diff_ok cfg x i hi e (by simpa using hio)] at h
        exact simplify_holds cfg (.inr ⟨_, rfl⟩) h
  · unfold diff at h
    rw [if_neg (show ¬ i > 0 from hi)] at h
    cases h

theorem clone_holds {t r : Raw α} (ht : t = .nil ∨ ∃ e, t = embed e) (h : clone t = .ok r) : ∃ e, r = embed e := by
  rcases ht with rfl | ⟨e, rfl⟩
  · cases h
  · rw [clone_eq _ (embed_isSome e)] at h; cases h; exact ⟨e, rfl⟩

theorem bind_ok_inv {β γ : Type} {x : Res β} {f : β → Res γ} {c : γ} (h : (x >>= f) = .ok c) : ∃ b, x = .ok b ∧ f b = .ok c := by
  cases x with
  | ok b => exact ⟨b, rfl, h⟩
  | _ => cases h

theorem subsVec_holds {t r : Raw α} (ht : t = .nil ∨ ∃ e, t = embed e) {vs : List Str} {ns : List (Raw α)}
    (hns : ∀ t ∈ ns, t = .nil ∨ ∃ e, t = embed e) (h : subsVec t vs ns = .ok r) : ∃ e, r = embed e := by
  unfold subsVec at h
  obtain ⟨_, _, h⟩ := bind_ok_inv h
  obtain ⟨d, hd, h⟩ := bind_ok_inv h
  exact subsInner_holds ht (dictOfLists_holds vs ns [] hns hd) h

theorem subsValues_holds {t r : Raw α} (ht : t = .nil ∨ ∃ e, t = embed e) {kvs : List (Str × α)}
    (h : subsValues t kvs = .ok r) : ∃ e, r = embed e :=
  subsInner_holds ht (dictOfValues_holds kvs []) h

theorem value_holds (cfg : Config α) {env env' : VEnv α} (h : Holds env) (s : Stmt α) (hp : s.Proper)
    (hv : s.value cfg env = .ok env') : Holds env' := by
  cases s with
  | num x v => simp only [Stmt.value, Operand.leaves_eq, Operand.source_eq] at hv; cases hv; exact holds_set h x (.inr ⟨.num v, rfl⟩)
  | var x name =>
    simp only [Stmt.value, Operand.leaves_eq, Operand.source_eq] at hv
    obtain ⟨t, h1, h2⟩ := bind_ok_inv hv
    cases h2
    refine holds_set h x (.inr ⟨.var name, ?_⟩)
    unfold mkVar at h1
    split at h1
    · cases h1; rfl
    · cases h1
  | parse x text =>
    simp only [Stmt.value, Operand.leaves_eq, Operand.source_eq] at hv
    obtain ⟨t, h1, h2⟩ := bind_ok_inv hv
    cases h2
    exact holds_set h x (.inr (C09_complete _ _ h1))
  | clone x y =>
    simp only [Stmt.value, Operand.leaves_eq, Operand.source_eq] at hv
    split at hv
    · cases hv; exact holds_set h x (h y)
    · cases hv
  | move x y => simp only [Stmt.value, Operand.leaves_eq, Operand.source_eq] at hv; cases hv; exact holds_set (holds_set h y (.inl rfl)) x (h y)
  | unary x op o =>
    obtain ⟨f, rfl⟩ := hp
    simp only [Stmt.value, Operand.leaves_eq, Operand.source_eq] at hv
    split at hv
    · rename_i hs
      cases hv
      obtain ⟨e, he⟩ := holds_isSome h hs
      exact holds_set (holds_after h o) x (.inr ⟨.un f e, by rw [he]; rfl⟩)
    · cases hv
  | binary x op o1 o2 =>
    obtain ⟨f, rfl⟩ := hp
    simp only [Stmt.value, Operand.leaves_eq, Operand.source_eq] at hv
    split at hv
    · rename_i hs
      cases hv
      obtain ⟨e1, he1⟩ := holds_isSome h hs.1
      obtain ⟨e2, he2⟩ := holds_isSome (holds_after h o1) hs.2
      exact holds_set (holds_after (holds_after h o1) o2) x (.inr ⟨.bin f e1 e2, by rw [he1, he2]; rfl⟩)
    · cases hv
  | compound op x o =>
    obtain ⟨f, rfl⟩ := hp
    simp only [Stmt.value, Operand.leaves_eq, Operand.source_eq] at hv
    split at hv
    · rename_i hs
      cases hv
      obtain ⟨e1, he1⟩ := holds_isSome h hs.1
      have h' := holds_set h x (t := .nil) (.inl rfl)
      obtain ⟨e2, he2⟩ := holds_isSome h' hs.2
      exact holds_set (holds_after h' o) x (.inr ⟨.bin f e1 e2, by rw [he1, he2]; rfl⟩)
    · cases hv
  | subs x o names images =>
    have hns : ∀ t ∈ images.map env, t = .nil ∨ ∃ e, t = embed e := by
      intro t ht
      simp only [List.mem_map] at ht
      obtain ⟨y, _, rfl⟩ := ht
      exact h y
    cases o with
    | lvalue y =>
      simp only [Stmt.value, Operand.leaves_eq, Operand.source_eq] at hv
      obtain ⟨t, h1, h2⟩ := bind_ok_inv hv
      cases h2
      unfold subsVecConst at h1
      obtain ⟨c, h3, h4⟩ := bind_ok_inv h1
      exact holds_set h x (.inr (subsVec_holds (.inr (clone_holds (h y) h3)) hns h4))
    | rvalue y =>
      simp only [Stmt.value, Operand.leaves_eq, Operand.source_eq] at hv
      obtain ⟨t, h1, h2⟩ := bind_ok_inv hv
      cases h2
      exact holds_set (holds_set h y (.inl rfl)) x (.inr (subsVec_holds (h y) hns h1))
  | subsValues x o values =>
    cases o with
    | lvalue y =>
      simp only [Stmt.value, Operand.leaves_eq, Operand.source_eq] at hv
      obtain ⟨t, h1, h2⟩ := bind_ok_inv hv
      cases h2
      unfold subsValuesConst at h1
      obtain ⟨c, h3, h4⟩ := bind_ok_inv h1
      exact holds_set h x (.inr (subsValues_holds (.inr (clone_holds (h y) h3)) h4))
    | rvalue y =>
      simp only [Stmt.value, Operand.leaves_eq, Operand.source_eq] at hv
      obtain ⟨t, h1, h2⟩ := bind_ok_inv hv
      cases h2
      exact holds_set (holds_set h y (.inl rfl)) x (.inr (subsValues_holds (h y) h1))
  | simplify x =>
    simp only [Stmt.value, Operand.leaves_eq, Operand.source_eq] at hv
    obtain ⟨t, h1, h2⟩ := bind_ok_inv hv
    cases h2
    exact holds_set h x (.inr (simplify_holds cfg (h x) h1))
  | diff x o name i =>
    cases o with
    | lvalue y =>
      simp only [Stmt.value, Operand.leaves_eq, Operand.source_eq] at hv
      obtain ⟨t, h1, h2⟩ := bind_ok_inv hv
      cases h2
      unfold diffConst at h1
      obtain ⟨c, h3, h4⟩ := bind_ok_inv h1
      exact holds_set h x (.inr (diff_holds cfg (.inr (clone_holds (h y) h3)) h4))
    | rvalue y =>
      simp only [Stmt.value, Operand.leaves_eq, Operand.source_eq] at hv
      obtain ⟨t, h1, h2⟩ := bind_ok_inv hv
      cases h2
      exact holds_set (holds_set h y (.inl rfl)) x (.inr (diff_holds cfg (h y) h1))

theorem thrown_sim {n : Nat} {env : Env α} (h : EnvSound n env) (s : Stmt α) :
    EnvSound n (s.thrown env) ∧ eraseEnv (s.thrown env) = s.thrown (eraseEnv env) := by
  cases s <;> first | exact ⟨h, rfl⟩ | exact ⟨h.after _, eraseEnv_after _ _⟩

theorem thrown_holds {env : VEnv α} (h : Holds env) (s : Stmt α) : Holds (s.thrown env) := by
  cases s <;> first | exact h | exact holds_after h _

theorem execute_sim (cfg : Config α) (ss : List (Stmt α)) : ∀ (n : Nat) (env : Env α), EnvSound n env → Holds (eraseEnv env) →
    (∀ s ∈ ss, s.Proper) →
    Res.Same (fun p c => eraseEnv p.1 = c ∧ EnvSound p.2 p.1 ∧ Holds c) (execute cfg ss env n) (meaning cfg ss (eraseEnv env)) := by
  induction ss with
  | nil => intro n env h hH _; exact .ok ⟨rfl, h, hH⟩
  | cons s ss ih =>
    intro n env h hH hp
    have hs := step_sim cfg h hH s
    have hps : ∀ s ∈ ss, s.Proper := fun t ht => hp t (by simp [ht])
    simp only [execute, meaning]
    revert hs
    generalize hv : s.value cfg (eraseEnv env) = v
    generalize s.step cfg env n = w
    intro hs
    cases hs with
    | @ok p c hr =>
      obtain ⟨h1, h2, h3⟩ := hr
      subst h1
      exact ih _ _ h2 (value_holds cfg hH s (hp s (by simp)) hv) hps
    | throw e =>
      obtain ⟨k1, k2⟩ := thrown_sim h s
      show Res.Same _ (execute cfg ss (s.thrown env) n) (meaning cfg ss (s.leaves (eraseEnv env)))
      rw [Stmt.leaves_eq, ← k2]
      exact ih _ _ k1 (by rw [k2]; exact thrown_holds hH s) hps
    | ub => exact .ub
    | terminate => exact .terminate
    | assertFail => exact .assertFail
    | diverge => exact .diverge

end Tom
