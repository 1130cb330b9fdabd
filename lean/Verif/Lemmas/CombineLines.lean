import Verif.Lemmas.Combine
import Mathlib.Tactic.IntervalCases
/-
Lemmas for C109: the lines of the source files.
-/
namespace Tom

theorem afterPrefix_eq : ∀ (p s r : Str), afterPrefix p s = some r ↔ s = p ++ r
  | [], s, r => by simp [afterPrefix]
  | _ :: _, [], r => by simp [afterPrefix]
  | c :: p, d :: s, r => by
    unfold afterPrefix
    by_cases h : c = d
    · simp [h, afterPrefix_eq p s r]
    · simp [h, Ne.symm h]

theorem dropWhile_split {p : Char → Bool} (s : Str) : ∃ a, s = a ++ s.dropWhile p ∧ (∀ c ∈ a, p c) ∧ ∀ c, (s.dropWhile p).head? = some c → p c = false := by
  refine ⟨s.takeWhile p, (List.takeWhile_append_dropWhile).symm, fun c hc => List.mem_takeWhile_imp hc, fun c hc => ?_⟩
  have := List.head?_dropWhile_not p s
  rw [hc] at this
  simpa using this

theorem dropWhile_unique {p : Char → Bool} {a t : Str} (ha : ∀ c ∈ a, p c) (ht : ∀ c, t.head? = some c → p c = false) : (a ++ t).dropWhile p = t := by
  induction a with
  | nil =>
    cases t with
    | nil => rfl
    | cons c t => simp [ht c rfl]
  | cons c a ih => simp [ha c (by simp), ih fun d hd => ha d (by simp [hd])]

theorem pyRstrip_spec (s : Str) : TrimmedEnd s (pyRstrip s) := by
  obtain ⟨a, h1, h2, h3⟩ := dropWhile_split (p := pySpace) s.reverse
  refine ⟨a.reverse, ?_, fun c hc => h2 c (List.mem_reverse.mp hc), fun c hc => ?_⟩
  · have := congrArg List.reverse h1
    rw [List.reverse_reverse, List.reverse_append] at this
    exact this
  · refine h3 c ?_
    rw [pyRstrip, List.getLast?_reverse] at hc
    exact hc

theorem pyStrip_spec (s : Str) : Trimmed s (pyStrip s) := by
  obtain ⟨a, h1, h2, h3⟩ := dropWhile_split (p := pySpace) s
  obtain ⟨b, k1, k2, k3⟩ := pyRstrip_spec (s.dropWhile pySpace)
  refine ⟨a, b, ?_, h2, k2, fun c hc => ?_, k3⟩
  · conv_lhs => rw [h1, k1]
    rw [List.append_assoc]
    rfl
  · refine h3 c ?_
    rw [k1]
    change (pyRstrip (s.dropWhile pySpace)).head? = some c at hc
    rw [List.head?_append, hc]
    rfl

theorem TrimmedEnd.unique {s t u : Str} (h : TrimmedEnd s t) (h' : TrimmedEnd s u) : t = u := by
  have key : ∀ {t}, TrimmedEnd s t → (s.reverse.dropWhile pySpace) = t.reverse := by
    rintro t ⟨b, rfl, h2, h3⟩
    rw [List.reverse_append]
    exact dropWhile_unique (fun c hc => h2 c (List.mem_reverse.mp hc)) (fun c hc => h3 c (by rwa [List.head?_reverse] at hc))
  have := (key h).symm.trans (key h')
  exact List.reverse_injective this

theorem Trimmed.unique {s t u : Str} (h : Trimmed s t) (h' : Trimmed s u) : t = u := by
  have key : ∀ {t}, Trimmed s t → TrimmedEnd (s.dropWhile pySpace) t := by
    rintro t ⟨a, b, rfl, h2, h3, h4, h5⟩
    rw [List.append_assoc]
    cases t with
    | nil =>
      rw [List.nil_append]
      refine ⟨(a ++ b).dropWhile pySpace, by simp, fun c hc => ?_, by simp⟩
      have := (List.dropWhile_sublist pySpace).subset hc
      rcases List.mem_append.mp this with h | h
      · exact h2 c h
      · exact h3 c h
    | cons d t =>
      rw [dropWhile_unique h2 (fun c hc => h4 c (by simpa using hc))]
      exact ⟨b, rfl, h3, h5⟩
  exact (key h).unique (key h')

theorem headerChar_iff (c : Char) : headerChar c = true ↔ c ∈ "abcdefghijklmnopqrstuvwxyz_./\\".toList := by
  constructor
  · intro h
    simp only [headerChar, Bool.or_eq_true, Bool.and_eq_true, decide_eq_true_eq] at h
    rcases h with (((⟨h1, h2⟩ | h) | h) | h) | h
    · have h1 : 97 ≤ c.toNat := h1
      have h2 : c.toNat ≤ 122 := h2
      have hc : c = Char.ofNat c.toNat := (Char.ofNat_toNat c).symm
      rw [hc]
      generalize c.toNat = n at *
      interval_cases n <;> decide +kernel
    all_goals subst h; decide +kernel
  · intro h
    have : ∀ c ∈ "abcdefghijklmnopqrstuvwxyz_./\\".toList, headerChar c = true := by decide +kernel
    exact this c h

theorem matchInclude_iff (opn cls : Char) (ho : pySpace opn = false) (hcl : headerChar cls = false) (s name : Str) :
    matchInclude opn cls s = some name ↔ IncludeLine opn cls s name := by
  constructor
  · intro h
    unfold matchInclude at h
    cases h1 : afterPrefix "#include".toList s with
    | none => rw [h1] at h; simp at h
    | some r =>
      rw [h1] at h
      rw [afterPrefix_eq] at h1
      cases r with
      | nil => simp at h
      | cons c r =>
        simp only at h
        by_cases hc : pySpace c = false
        · simp [hc] at h
        · simp only [hc] at h
          obtain ⟨a, k1, k2, -⟩ := dropWhile_split (p := pySpace) (c :: r)
          cases h2 : (c :: r).dropWhile pySpace with
          | nil => rw [h2] at h; simp at h
          | cons d t =>
            rw [h2] at h k1
            by_cases hd : d = opn
            · subst hd
              cases h3 : t.dropWhile headerChar with
              | nil => simp [h3] at h
              | cons e u =>
                simp [h3] at h
                obtain ⟨⟨rfl, h4⟩, rfl⟩ := h
                have hsp : t = t.takeWhile headerChar ++ e :: u := by rw [← h3, List.takeWhile_append_dropWhile]
                refine ⟨a, u, ?_, ?_, k2, by simpa [List.takeWhile_eq_nil_iff] using h4, fun c hc => (headerChar_iff c).mp (List.mem_takeWhile_imp hc)⟩
                · rw [h1, k1]
                  conv_lhs => rw [hsp]
                  simp
                · rintro rfl
                  simp at k1
                  obtain ⟨rfl, -⟩ := k1
                  exact hc ho
            · simp [hd] at h
  · rintro ⟨ws, rest, rfl, h1, h2, h3, h4⟩
    unfold matchInclude
    have e : afterPrefix "#include".toList ("#include".toList ++ ws ++ opn :: name ++ cls :: rest) = some (ws ++ opn :: (name ++ cls :: rest)) := by
      rw [afterPrefix_eq]; simp
    rw [e]
    cases ws with
    | nil => exact absurd rfl h1
    | cons c ws =>
      have hd : ((c :: ws) ++ opn :: (name ++ cls :: rest)).dropWhile pySpace = opn :: (name ++ cls :: rest) :=
        dropWhile_unique h2 (by simp [ho])
      have ht : (name ++ cls :: rest).dropWhile headerChar = cls :: rest :=
        dropWhile_unique (fun c hc => (headerChar_iff c).mpr (h4 c hc)) (by simp [hcl])
      have htk : (name ++ cls :: rest).takeWhile headerChar = name := by
        have := List.takeWhile_append_dropWhile (p := headerChar) (l := name ++ cls :: rest)
        rw [ht] at this
        exact List.append_cancel_right this
      simp only [List.cons_append] at hd ⊢
      simp [h2 c (by simp), hd, ht, htk, h3]

theorem looksLikeFunction_iff (line : Str) : looksLikeFunction line = true ↔ FunctionLine line := by
  cases line with
  | nil => simp [looksLikeFunction, FunctionLine]
  | cons c s =>
    simp only [looksLikeFunction, Bool.and_eq_true, Bool.or_eq_true, decide_eq_true_eq, List.contains_iff_mem]
    constructor
    · rintro ⟨h1, h2⟩
      cases s with
      | nil => simp at h2
      | cons d s =>
        simp only [List.drop_succ_cons, List.drop_zero] at h2
        obtain ⟨r, t, rfl⟩ := List.append_of_mem h2
        exact ⟨c, d, r, t, rfl, h1⟩
    · rintro ⟨c', d, r, t, h1, h2⟩
      obtain ⟨rfl, rfl⟩ := List.cons.inj h1
      exact ⟨h2, by simp⟩

/-- adding the collected part of a line -/
def SrcFile.push (f : SrcFile) (e : Entry) : SrcFile :=
  { f with depsInner := f.depsInner ++ e.inner?.toList, depsLib := f.depsLib ++ e.lib?.toList, defines := f.defines ++ e.define?.toList,
           contents := f.contents ++ e.text?.toList }

theorem analyseLine_spec (resolve : Str → Option Str) (f : SrcFile) (line : Str) :
    (∃ e, Entry.Of resolve line e ∧ analyseLine resolve f line = .ok (f.push e)) ∨
    (analyseLine resolve f line = .runtimeError ∧ ∃ s name, Trimmed line s ∧ IncludeLine '"' '"' s name ∧ resolve name = none) := by
  have hs := pyStrip_spec line
  unfold analyseLine
  generalize pyStrip line = s at hs
  have hq := matchInclude_iff '"' '"' (by decide) (by decide) s
  have ha := matchInclude_iff '<' '>' (by decide) (by decide) s
  simp only
  by_cases h1 : s = "#pragma once".toList
  · refine .inl ⟨.dropped, ⟨s, hs, h1⟩, ?_⟩
    rw [if_pos h1]
    simp [SrcFile.push, Entry.inner?, Entry.lib?, Entry.define?, Entry.text?]
  rw [if_neg h1]
  cases h2 : matchInclude '"' '"' s with
  | some name =>
    cases h3 : resolve name with
    | none => exact .inr ⟨by simp [h3], s, name, hs, (hq name).mp h2, h3⟩
    | some p =>
      exact .inl ⟨.inner p, ⟨s, hs, name, (hq name).mp h2, h3⟩, by simp [h3, SrcFile.push, Entry.inner?, Entry.lib?, Entry.define?, Entry.text?]⟩
  | none =>
    cases h3 : matchInclude '<' '>' s with
    | some name =>
      exact .inl ⟨.lib name, ⟨s, hs, (ha name).mp h3⟩, by simp [SrcFile.push, Entry.inner?, Entry.lib?, Entry.define?, Entry.text?]⟩
    | none =>
      simp only
      cases h4 : afterPrefix "#define".toList s with
      | some r =>
        exact .inl ⟨.define s, ⟨s, hs, rfl, r, (afterPrefix_eq _ _ _).mp h4⟩,
          by simp [SrcFile.push, Entry.inner?, Entry.lib?, Entry.define?, Entry.text?]⟩
      | none =>
        have base : s ≠ "#pragma once".toList ∧ (∀ n, ¬ IncludeLine '"' '"' s n) ∧ (∀ n, ¬ IncludeLine '<' '>' s n) ∧
            ¬ ∃ r, s = "#define".toList ++ r := by
          refine ⟨h1, fun n hn => ?_, fun n hn => ?_, fun ⟨r, hr⟩ => ?_⟩
          · rw [(hq n).mpr hn] at h2; simp at h2
          · rw [(ha n).mpr hn] at h3; simp at h3
          · rw [(afterPrefix_eq _ _ _).mpr hr] at h4; simp at h4
        by_cases h5 : looksLikeFunction line = true
        · exact .inl ⟨.text ("inline ".toList ++ pyRstrip line), ⟨s, hs, base.1, base.2.1, base.2.2.1, base.2.2.2, pyRstrip line,
            pyRstrip_spec line, .inl ⟨(looksLikeFunction_iff line).mp h5, rfl⟩⟩,
            by simp [h5, SrcFile.push, Entry.inner?, Entry.lib?, Entry.define?, Entry.text?]⟩
        · exact .inl ⟨.text (pyRstrip line), ⟨s, hs, base.1, base.2.1, base.2.2.1, base.2.2.2, pyRstrip line,
            pyRstrip_spec line, .inr ⟨fun h => h5 ((looksLikeFunction_iff line).mpr h), rfl⟩⟩,
            by simp [h5, SrcFile.push, Entry.inner?, Entry.lib?, Entry.define?, Entry.text?]⟩

theorem analyseLines_spec (resolve : Str → Option Str) : ∀ (lines : List Str) (f : SrcFile),
    (∃ es, List.Forall₂ (Entry.Of resolve) lines es ∧
      analyseLines resolve lines f = .ok ⟨f.filename, f.depsInner ++ es.filterMap Entry.inner?, f.depsLib ++ es.filterMap Entry.lib?,
        f.defines ++ es.filterMap Entry.define?, f.contents ++ es.filterMap Entry.text?⟩) ∨
    (analyseLines resolve lines f = .runtimeError ∧
      ∃ line ∈ lines, ∃ s name, Trimmed line s ∧ IncludeLine '"' '"' s name ∧ resolve name = none)
  | [], f => .inl ⟨[], .nil, by simp [analyseLines]⟩
  | line :: lines, f => by
    rcases analyseLine_spec resolve f line with ⟨e, h1, h2⟩ | ⟨h1, s, name, h2, h3, h4⟩
    · rcases analyseLines_spec resolve lines (f.push e) with ⟨es, k1, k2⟩ | ⟨k1, l, k2, k3⟩
      · refine .inl ⟨e :: es, .cons h1 k1, ?_⟩
        unfold analyseLines
        rw [h2, PyRes.bind_ok, k2]
        cases e <;> simp [SrcFile.push, List.filterMap_cons, Entry.inner?, Entry.lib?, Entry.define?, Entry.text?]
      · refine .inr ⟨?_, l, by simp [k2], k3⟩
        unfold analyseLines
        rw [h2, PyRes.bind_ok, k1]
    · refine .inr ⟨?_, line, by simp, s, name, h2, h3, h4⟩
      unfold analyseLines
      rw [h1]; rfl

/-- each line is of one kind only -/
theorem Entry.Of.unique {resolve : Str → Option Str} {line : Str} {e e' : Entry} (h : e.Of resolve line) (h' : e'.Of resolve line) : e = e' := by
  obtain ⟨s, hs, h⟩ := h
  obtain ⟨s', hs', h'⟩ := h'
  obtain rfl := hs.unique hs'
  have incl : ∀ {o c n o' c' n'}, pySpace o = false → pySpace o' = false → headerChar c = false → headerChar c' = false →
      IncludeLine o c s n → IncludeLine o' c' s n' → o = o' ∧ n = n' := by
    rintro o c n o' c' n' ho ho' hc hc' ⟨ws, rest, e1, h1, h2, h3, h4⟩ ⟨ws', rest', e2, k1, k2, k3, k4⟩
    rw [e1] at e2
    have e3 : ws ++ o :: (n ++ c :: rest) = ws' ++ o' :: (n' ++ c' :: rest') := by
      have : "#include".toList ++ (ws ++ o :: (n ++ c :: rest)) = "#include".toList ++ (ws' ++ o' :: (n' ++ c' :: rest')) := by simpa using e2
      exact List.append_cancel_left this
    have e4 := congrArg (List.dropWhile pySpace) e3
    rw [dropWhile_unique h2 (by simp [ho]), dropWhile_unique k2 (by simp [ho'])] at e4
    obtain ⟨rfl, e5⟩ := List.cons.inj e4
    have e6 := congrArg (List.takeWhile headerChar) e5
    have htk : ∀ {n : Str} {c rest}, headerChar c = false → (∀ c ∈ n, c ∈ "abcdefghijklmnopqrstuvwxyz_./\\".toList) → (n ++ c :: rest).takeWhile headerChar = n := by
      intro n c rest hc hn
      have ht : (n ++ c :: rest).dropWhile headerChar = c :: rest := dropWhile_unique (fun c hc => (headerChar_iff c).mpr (hn c hc)) (by simp [hc])
      have := List.takeWhile_append_dropWhile (p := headerChar) (l := n ++ c :: rest)
      rw [ht] at this
      exact List.append_cancel_right this
    rw [htk hc h4, htk hc' k4] at e6
    exact ⟨rfl, e6⟩
  have hp : ∀ {o c n}, ¬ IncludeLine o c "#pragma once".toList n := by
    rintro o c n ⟨ws, rest, e, -⟩
    have := congrArg (fun l => l[1]?) e
    simp at this
  have hpd : ¬ ∃ r, "#pragma once".toList = "#define".toList ++ r := by
    rintro ⟨r, e⟩
    have := congrArg (fun l => l[1]?) e
    simp at this
  have hd : ∀ {o c n}, IncludeLine o c s n → ¬ ∃ r, s = "#define".toList ++ r := by
    rintro o c n ⟨ws, rest, rfl, -⟩ ⟨r, e⟩
    have := congrArg (fun l => l[1]?) e
    simp at this
  cases e <;> cases e' <;> simp only at h h'
  case dropped.dropped => rfl
  case dropped.inner => obtain ⟨n, h', -⟩ := h'; subst h; exact absurd h' hp
  case dropped.lib => subst h; exact absurd h' hp
  case dropped.define => subst h; exact absurd h'.2 hpd
  case dropped.text => exact absurd h h'.1
  case inner.dropped => obtain ⟨n, h, -⟩ := h; subst h'; exact absurd h hp
  case inner.inner =>
    obtain ⟨n, h1, h2⟩ := h
    obtain ⟨n', h3, h4⟩ := h'
    obtain ⟨-, rfl⟩ := incl (by decide) (by decide) (by decide) (by decide) h1 h3
    rw [h2] at h4; cases h4; rfl
  case inner.lib =>
    obtain ⟨n, h1, h2⟩ := h
    exact absurd (incl (by decide) (by decide) (by decide) (by decide) h1 h').1 (by decide)
  case inner.define => obtain ⟨n, h, -⟩ := h; exact absurd h'.2 (hd h)
  case inner.text => obtain ⟨n, h, -⟩ := h; exact absurd h (h'.2.1 n)
  case lib.dropped => subst h'; exact absurd h hp
  case lib.inner =>
    obtain ⟨n, h1, h2⟩ := h'
    exact absurd (incl (by decide) (by decide) (by decide) (by decide) h1 h).1 (by decide)
  case lib.lib => rw [(incl (by decide) (by decide) (by decide) (by decide) h h').2]
  case lib.define => exact absurd h'.2 (hd h)
  case lib.text => exact absurd h (h'.2.2.1 _)
  case define.dropped => subst h'; exact absurd h.2 hpd
  case define.inner => obtain ⟨n, h', -⟩ := h'; exact absurd h.2 (hd h')
  case define.lib => exact absurd h.2 (hd h')
  case define.define => rw [h.1, h'.1]
  case define.text => exact absurd h.2 h'.2.2.2.1
  case text.dropped => exact absurd h' h.1
  case text.inner => obtain ⟨n, h', -⟩ := h'; exact absurd h' (h.2.1 n)
  case text.lib => exact absurd h' (h.2.2.1 _)
  case text.define => exact absurd h'.2 h.2.2.2.1
  case text.text =>
    obtain ⟨u, h1, h2⟩ := h.2.2.2.2
    obtain ⟨u', h3, h4⟩ := h'.2.2.2.2
    obtain rfl := h1.unique h3
    rcases h2 with ⟨a, rfl⟩ | ⟨a, rfl⟩ <;> rcases h4 with ⟨b, rfl⟩ | ⟨b, rfl⟩
    · rfl
    · exact absurd a b
    · exact absurd b a
    · rfl

end Tom
