import Verif.Lemmas.PrintStable
import Verif.Props.TextValue
/-
Property C112: printing is stable.
-/
namespace Tom
variable {L : Libm}

/-- C112, the part that holds: take an expression over the doubles whose literals read back (C74), with readable variable names, without
arcsin, arccos, arctan, in which no negative literal is the operand of a sign or the right operand of `-`.  Its text is parsed, and the
tree read has the very same text.  Missing: negative literals there, for which the claim is false (`C112_false`). -/
theorem C112_stable_partial (e : Expr (Double L)) (hn : ∀ v ∈ e.nums, ReadsBack v) (hv : ∀ x ∈ e.vars, ReadableName (Double L) x)
    (ha : e.NoArc) (hs : e.SignsApart) :
    ∃ (s : Str) (t : Raw (Double L)), toStringNode (embed e) = .ok s ∧ parse s = .ok t ∧ toStringNode t = .ok s := by
  obtain ⟨s, e', h1, h2, h3⟩ := C06_partial e hn hv ha
  refine ⟨s, embed e', h1, h2, ?_⟩
  rw [toString_embed] at h1 ⊢
  rw [(regroups_text Double.negText h3 hs).2.2.2 none (by intro h; cases h)]
  exact h1

/-- C112: whatever its negative literals, the text is settled after one reading: print, read, print gives a text that is read
and printed unchanged from then on, however often. -/
theorem C112_settles (e : Expr (Double L)) (hn : ∀ v ∈ e.nums, ReadsBack v) (hv : ∀ x ∈ e.vars, ReadableName (Double L) x)
    (ha : e.NoArc) :
    ∃ (s : Str) (t : Raw (Double L)) (s' : Str), toStringNode (embed e) = .ok s ∧ parse s = .ok t ∧ toStringNode t = .ok s' ∧
      ∃ t' : Raw (Double L), parse s' = .ok t' ∧ toStringNode t' = .ok s' := by
  obtain ⟨s, e', h1, h2, h3⟩ := C06_partial e hn hv ha
  have hn' : ∀ v ∈ e'.nums, ReadsBack v := by
    intro w hw
    rcases regroups_nums h3 Double.negText w hw with h | ⟨h, h'⟩
    · exact hn w h
    · exact Double.readsBack_neg (hn _ h) h'
  obtain ⟨s', t', g1, g2, g3⟩ := C112_stable_partial e' hn' (fun x hx => hv x ((regroups_vars h3 x).mp hx)) (regroups_noArc h3 ha)
    (.of_nonneg (parse_nonneg h2))
  exact ⟨s, embed e', s', h1, h2, g1, t', g2, g3⟩

/-- C112: every tree that `Parse` has returned is printed stably: if all its literals read back, its names are readable and it
contains no arcsin, arccos, arctan, its text is read as a tree with the same text. -/
theorem C112_parsed (s : Str) (e : Expr (Double L)) (hp : parse s = .ok (embed e)) (hn : ∀ v ∈ e.nums, ReadsBack v)
    (hv : ∀ x ∈ e.vars, ReadableName (Double L) x) (ha : e.NoArc) :
    ∃ (s' : Str) (t : Raw (Double L)), toStringNode (embed e) = .ok s' ∧ parse s' = .ok t ∧ toStringNode t = .ok s' :=
  C112_stable_partial e hn hv ha (.of_nonneg (parse_nonneg hp))

/-- the double of the literal, as a real number or invalid -/
noncomputable def Double.toRealNum (x : Double L) : XNum ℝ :=
  if x.raw.isInvalid = true then .bad else .fin ((x.raw.toRat : ℚ) : ℝ)

theorem Double.toRealNum_neg (w : Double L) : Double.toRealNum (Arith.neg w) = (Double.toRealNum w).map fun x => -x := by
  have hr : (Arith.neg w : Double L).raw = F64.neg w.raw := rfl
  unfold Double.toRealNum
  rw [hr]
  cases hx : w.raw <;> simp [F64.neg, F64.isInvalid, F64.toRat, XNum.map]

/-- C112: the text determines the meaning: two expressions of this kind with the same text denote the same function of the real numbers,
with the same domain. -/
theorem C112_meaning (e f : Expr (Double L)) (hen : ∀ v ∈ e.nums, ReadsBack v) (hev : ∀ x ∈ e.vars, ReadableName (Double L) x)
    (hea : e.NoArc) (hfn : ∀ v ∈ f.nums, ReadsBack v) (hfv : ∀ x ∈ f.vars, ReadableName (Double L) x) (hfa : f.NoArc)
    (h : toStringNode (embed e) = toStringNode (embed f)) (ρ : Str → ℝ) :
    realVal ρ (e.mapNum Double.toRealNum) = realVal ρ (f.mapNum Double.toRealNum) := by
  obtain ⟨s, e', h1, h2, h3⟩ := C06_partial e hen hev hea
  obtain ⟨t, f', g1, g2, g3⟩ := C06_partial f hfn hfv hfa
  rw [h, g1] at h1
  cases h1
  rw [h2] at g2
  have := embed_injective (Res.ok.inj g2)
  subst this
  rw [← regroups_real Double.toRealNum Double.toRealNum_neg h3 ρ, ← regroups_real Double.toRealNum Double.toRealNum_neg g3 ρ]

/-- C112: and, if both are grouped to the left and have no negative literals, the text determines the tree. -/
theorem C112_tree (e f : Expr (Double L)) (hen : ∀ v ∈ e.nums, ReadsBack v) (hev : ∀ x ∈ e.vars, ReadableName (Double L) x)
    (hea : e.NoArc) (hel : e.LeftGrouped) (hfn : ∀ v ∈ f.nums, ReadsBack v) (hfv : ∀ x ∈ f.vars, ReadableName (Double L) x) (hfa : f.NoArc)
    (hfl : f.LeftGrouped) (h : toStringNode (embed e) = toStringNode (embed f)) : e = f := by
  obtain ⟨s, h1, h2⟩ := C06_same_partial e hen hev hea hel
  obtain ⟨t, g1, g2⟩ := C06_same_partial f hfn hfv hfa hfl
  rw [h, g1] at h1
  cases h1
  rw [h2] at g2
  exact embed_injective (Res.ok.inj g2)

/-- the name `x` is readable over the doubles -/
theorem readable_x_double : ReadableName (Double L) ['x'] := by
  refine ⟨.var ?_ ?_ ?_, ?_⟩
  · refine ⟨?_, 'x', [], rfl, by decide⟩
    intro c hc
    simp at hc
    subst hc
    exact .inl (by decide)
  · rintro ⟨v, hv⟩
    obtain ⟨w, hw⟩ := Double.numeral_real hv
    exact (stodFull_none_iff (α := XNum ℝ) ['x']).mp rfl ⟨w, hw⟩
  · rintro ⟨f, hf⟩; cases hf
  · intro s f h he
    cases h <;> exact absurd he (by decide +kernel)

/-- concrete cases: `-3*x` with the literal `-3` is stable; `x-(-3)` settles -/
example (v : Double L) (hv : v.raw = .num (-3)) :
    (∃ (s : Str) (t : Raw (Double L)), toStringNode (embed (.bin .mul (.num v) (.var ['x']))) = .ok s ∧ parse s = .ok t ∧ toStringNode t = .ok s) ∧
    (∃ (s : Str) (t : Raw (Double L)) (s' : Str), toStringNode (embed (.bin .sub (.var ['x']) (.num v))) = .ok s ∧ parse s = .ok t ∧ toStringNode t = .ok s' ∧
      ∃ t' : Raw (Double L), parse s' = .ok t' ∧ toStringNode t' = .ok s') := by
  have hr : ReadsBack v := Double.C74_reads_back v (-3) (Double.is_num hv) (by norm_num) (by norm_num)
  constructor
  · refine C112_stable_partial _ ?_ ?_ (by simp [Expr.NoArc]) ?_
    · intro w hw; simp [Expr.nums] at hw; subst hw; exact hr
    · intro w hw; simp [Expr.vars] at hw; subst hw; exact readable_x_double
    · exact ⟨trivial, trivial, by intro h; cases h⟩
  · refine C112_settles _ ?_ ?_ (by simp [Expr.NoArc])
    · intro w hw; simp [Expr.nums] at hw; subst hw; exact hr
    · intro w hw; simp [Expr.vars] at hw; subst hw; exact readable_x_double

/-- C112 fails where a negative literal follows a minus sign: `x` minus the literal `-3` has the text `x-(-3)`; what is read
has the text `x--3`.  And the literal `-3` under a sign has the text `--3`, what is read has the text `-(-3)`. -/
theorem C112_false : ∃ t u : Raw (XNum Rat),
    toStringNode (embed (.bin .sub (.var ['x']) (.num (.fin (-3))) : Expr (XNum Rat))) = .ok "x-(-3)".toList ∧
    parse "x-(-3)".toList = .ok t ∧ toStringNode t = .ok "x--3".toList ∧
    toStringNode (embed (.un .neg (.num (.fin (-3))) : Expr (XNum Rat))) = .ok "--3".toList ∧
    parse "--3".toList = .ok u ∧ toStringNode u = .ok "-(-3)".toList := by
  refine ⟨embed (.bin .sub (.var ['x']) (.un .neg (.num (.fin 3)))), embed (.un .neg (.un .neg (.num (.fin 3)))), ?_⟩
  decide +kernel

end Tom
