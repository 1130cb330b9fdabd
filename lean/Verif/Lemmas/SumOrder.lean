import Verif.Model.Mat
import Mathlib.Tactic.Ring
import Mathlib.Tactic.Tauto
/-
`valarray::sum` in whatever order: the result is obtained by adding up the numbers in some order and grouping.
-/
namespace Tom
variable {α : Type} [Arith α]

/-- `AddsUp xs s`: `s` is obtained by adding up the numbers `xs` in some order and grouping -/
inductive AddsUp : List α → α → Prop
  | one (x : α) : AddsUp [x] x
  | add {xs ys zs : List α} {x y : α} (hx : AddsUp xs x) (hy : AddsUp ys y) (h : zs.Perm (xs ++ ys)) : AddsUp zs (Arith.add x y)

theorem perm_getD_eraseIdx {β : Type} (l : List β) (i : Nat) (h : i < l.length) (d : β) : l.Perm (l.getD i d :: l.eraseIdx i) := by
  induction l generalizing i with
  | nil => simp at h
  | cons a l ih =>
    cases i with
    | zero => simp
    | succ i =>
      have h := ih i (by simpa using h)
      simp only [List.getD_cons_succ, List.eraseIdx_cons_succ]
      exact (h.cons a).trans (List.Perm.swap _ _ _)

/-- the tree of sums: each number left stands for a part of the original ones -/
theorem addUp_addsUp_aux (n : Nat) : ∀ (fuel : Nat) (x : α) (l : List α) (parts : List (List α × α)), l.length ≤ fuel →
    (∀ p ∈ parts, AddsUp p.1 p.2) → (parts.map (·.2)).Perm (x :: l) → ∃ zs, zs.Perm (parts.flatMap (·.1)) ∧ AddsUp zs (addUp n fuel x l) := by
  intro fuel
  induction fuel with
  | zero =>
    intro x l parts hl hp hm
    have : l = [] := List.length_eq_zero_iff.mp (by omega)
    subst this
    have h1 : parts.length = 1 := by simpa using hm.length_eq
    obtain ⟨p, rfl⟩ := List.length_eq_one_iff.mp h1
    have h2 : p.2 = x := by simpa using hm
    refine ⟨p.1, by simp, ?_⟩
    have := hp p (by simp)
    rw [h2] at this
    simpa [addUp] using this
  | succ fuel ih =>
    intro x l parts hl hp hm
    cases l with
    | nil =>
      have h1 : parts.length = 1 := by simpa using hm.length_eq
      obtain ⟨p, rfl⟩ := List.length_eq_one_iff.mp h1
      have h2 : p.2 = x := by simpa using hm
      refine ⟨p.1, by simp, ?_⟩
      have := hp p (by simp)
      rw [h2] at this
      simpa [addUp] using this
    | cons y l =>
      simp only [addUp]
      generalize hi : (Arith.sumOrder α n (x :: y :: l).length).1 % (x :: y :: l).length = i
      have hi' : i < (x :: y :: l).length := by rw [← hi]; exact Nat.mod_lt _ (by simp)
      have e1 := perm_getD_eraseIdx (x :: y :: l) i hi' x
      generalize hr : (x :: y :: l).eraseIdx i = r at *
      have hrl : r.length = l.length + 1 := by
        have := e1.length_eq
        simp only [List.length_cons] at this
        omega
      generalize hj : (Arith.sumOrder α n (x :: y :: l).length).2 % r.length = j
      have hj' : j < r.length := by rw [← hj]; exact Nat.mod_lt _ (by omega)
      have e2 := perm_getD_eraseIdx r j hj' x
      generalize hs : r.eraseIdx j = s at *
      have hsl : s.length = l.length := by
        have := e2.length_eq
        simp only [List.length_cons] at this
        omega
      generalize (x :: y :: l).getD i x = a at *
      generalize r.getD j x = b at *
      have e3 : (parts.map (·.2)).Perm (a :: b :: s) := hm.trans (e1.trans (e2.cons a))
      obtain ⟨pa, ha1, ha2⟩ : ∃ p ∈ parts, p.2 = a := by
        have : a ∈ parts.map (·.2) := e3.mem_iff.mpr (by simp)
        obtain ⟨p, h1, h2⟩ := List.mem_map.mp this
        exact ⟨p, h1, h2⟩
      obtain ⟨q1, q2, rfl⟩ := List.append_of_mem ha1
      have e4 : ((q1 ++ q2).map (·.2)).Perm (b :: s) := by
        have : ((q1 ++ pa :: q2).map (·.2)).Perm (a :: (q1 ++ q2).map (·.2)) := by
          rw [← ha2]
          simpa using (List.perm_middle (a := pa.2) (l₁ := q1.map (·.2)) (l₂ := q2.map (·.2)))
        exact (List.perm_cons a).mp (this.symm.trans e3)
      obtain ⟨pb, hb1, hb2⟩ : ∃ p ∈ q1 ++ q2, p.2 = b := by
        have : b ∈ (q1 ++ q2).map (·.2) := e4.mem_iff.mpr (by simp)
        obtain ⟨p, h1, h2⟩ := List.mem_map.mp this
        exact ⟨p, h1, h2⟩
      obtain ⟨q3, q4, hq⟩ := List.append_of_mem hb1
      have e5 : ((q3 ++ q4).map (·.2)).Perm s := by
        have h5 : ((q1 ++ q2).map (·.2)).Perm (b :: (q3 ++ q4).map (·.2)) := by
          rw [hq, ← hb2]
          simpa using (List.perm_middle (a := pb.2) (l₁ := q3.map (·.2)) (l₂ := q4.map (·.2)))
        exact (List.perm_cons b).mp (h5.symm.trans e4)
      have hpa := hp pa (by simp)
      have hpb := hp pb (by
        have : pb ∈ q1 ++ q2 := hb1
        rcases List.mem_append.mp this with h | h
        · exact List.mem_append_left _ h
        · exact List.mem_append_right _ (List.mem_cons_of_mem _ h))
      rw [ha2] at hpa
      rw [hb2] at hpb
      obtain ⟨zs, h1, h2⟩ := ih (Arith.add a b) s ((pa.1 ++ pb.1, Arith.add a b) :: (q3 ++ q4)) (by simp only [List.length_cons] at hl; omega) (by
        intro p h
        rcases List.mem_cons.mp h with rfl | h
        · exact .add hpa hpb (List.Perm.refl _)
        · have : p ∈ q1 ++ q2 := by rw [hq]; simp only [List.mem_append, List.mem_cons] at h ⊢; tauto
          exact hp p (by simp only [List.mem_append, List.mem_cons] at this ⊢; tauto)) (by simpa using e5)
      refine ⟨zs, h1.trans ?_, h2⟩
      have f1 : ((q1 ++ pa :: q2).flatMap (·.1)).Perm (pa.1 ++ (q1 ++ q2).flatMap (·.1)) := by
        have := (List.perm_middle (a := pa) (l₁ := q1) (l₂ := q2)).flatMap_right (f := (·.1))
        simpa using this
      have f2 : ((q1 ++ q2).flatMap (·.1)).Perm (pb.1 ++ (q3 ++ q4).flatMap (·.1)) := by
        rw [hq]
        have := (List.perm_middle (a := pb) (l₁ := q3) (l₂ := q4)).flatMap_right (f := (·.1))
        simpa using this
      have f3 := f1.trans (f2.append_left pa.1)
      simpa [List.append_assoc] using f3.symm

theorem AddsUp.perm {xs ys : List α} {s : α} (h : AddsUp xs s) (hp : xs.Perm ys) : AddsUp ys s := by
  cases h with
  | one => rw [List.perm_singleton.mp hp.symm]; exact .one s
  | add hx hy hz => exact .add hx hy (hp.symm.trans hz)

/-- `valarray::sum` adds up in some order, whatever the implementation -/
theorem sumV_addsUp {l : List α} {s : α} (h : sumV l = .ok s) : AddsUp l s := by
  cases l with
  | nil => cases h
  | cons v vs =>
    simp only [sumV, Res.ok.injEq] at h
    subst h
    obtain ⟨zs, h1, h2⟩ := addUp_addsUp_aux (vs.length + 1) vs.length v vs ((v :: vs).map fun x => ([x], x)) (Nat.le_refl _) (by
      intro p hp
      obtain ⟨x, -, rfl⟩ := List.mem_map.mp hp
      exact .one x) (by simp [List.map_map, Function.comp_def])
    refine h2.perm (h1.trans ?_)
    simp [List.flatMap_map, List.flatMap_singleton']

/-- the default order (libc++, MSVC): from the first to the last -/
theorem sumV_forward (h : Arith.sumOrder α = fun _ _ => (0, 0)) (v : α) (vs : List α) : sumV (v :: vs) = .ok (vs.foldl Arith.add v) := by
  have key : ∀ (n fuel : Nat) (l : List α) (x : α), l.length ≤ fuel → addUp n fuel x l = l.foldl Arith.add x := by
    intro n fuel
    induction fuel with
    | zero => intro l x hl; cases l with
      | nil => rfl
      | cons y l => simp at hl
    | succ fuel ih =>
      intro l x hl
      cases l with
      | nil => rfl
      | cons y l =>
        unfold addUp
        rw [h]
        simp only [Nat.zero_mod, List.eraseIdx_zero, List.tail_cons, List.getD_cons_zero, List.foldl_cons]
        exact ih _ _ (by simpa using hl)
  simp only [sumV]
  rw [key _ _ _ _ (Nat.le_refl _)]

theorem addUp_step (n fuel : Nat) (x : α) (m : List α) (hm : m ≠ []) {i j : Nat} (hi : (Arith.sumOrder α n (m.length + 1)).1 % (m.length + 1) = i)
    (hj : (Arith.sumOrder α n (m.length + 1)).2 % m.length = j) :
    addUp n (fuel + 1) x m =
      addUp n fuel (Arith.add ((x :: m).getD i x) (((x :: m).eraseIdx i).getD j x)) (((x :: m).eraseIdx i).eraseIdx j) := by
  cases m with
  | nil => exact absurd rfl hm
  | cons y m =>
    have hl : ((x :: y :: m).eraseIdx i).length = (y :: m).length := by
      rw [List.length_eraseIdx_of_lt]
      · simp
      · rw [← hi]; exact Nat.mod_lt _ (by simp)
    have e : addUp n (fuel + 1) x (y :: m) =
      (fun i r j => addUp n fuel (Arith.add ((x :: y :: m).getD i x) ((r).getD j x)) (r.eraseIdx j))
        ((Arith.sumOrder α n ((y :: m).length + 1)).1 % ((y :: m).length + 1))
        ((x :: y :: m).eraseIdx ((Arith.sumOrder α n ((y :: m).length + 1)).1 % ((y :: m).length + 1)))
        ((Arith.sumOrder α n ((y :: m).length + 1)).2 %
          ((x :: y :: m).eraseIdx ((Arith.sumOrder α n ((y :: m).length + 1)).1 % ((y :: m).length + 1))).length) := rfl
    rw [e, hi, hl, hj]

/-- libstdc++: from the last to the first -/
theorem sumV_backward (h : Arith.sumOrder α = libstdcxxOrder) (l : List α) (v : α) :
    sumV (l ++ [v]) = .ok (l.reverse.foldl Arith.add v) := by
  have key : ∀ (n fuel : Nat) (l : List α) (x : α), l.length ≤ fuel → l.length + 1 < n →
      addUp n fuel x l.reverse = l.foldl Arith.add x := by
    intro n fuel
    induction fuel with
    | zero => intro l x hl hn; cases l with
      | nil => rfl
      | cons y l => simp at hl
    | succ fuel ih =>
      intro l x hl hn
      cases l with
      | nil => rfl
      | cons y l =>
        have hn' : l.length + 2 < n := by simpa using hn
        rw [addUp_step n fuel x _ (by simp) (i := 0) (j := l.length)
          (by rw [h]; simp [libstdcxxOrder, if_neg (by omega : ¬ l.length + 1 + 1 = n)])
          (by rw [h]; simp [libstdcxxOrder, if_neg (by omega : ¬ l.length + 1 + 1 = n), Nat.mod_eq_of_lt (Nat.lt_succ_self l.length)])]
        simp only [List.eraseIdx_zero, List.tail_cons, List.getD_cons_zero, List.reverse_cons, List.foldl_cons]
        have e3 : (l.reverse ++ [y]).getD l.length x = y := by simp [List.getD]
        have e4 : (l.reverse ++ [y]).eraseIdx l.length = l.reverse := by
          rw [List.eraseIdx_append_of_length_le (by simp)]
          simp
        rw [e3, e4]
        exact ih l _ (by simpa using hl) (by omega)
  rcases List.eq_nil_or_concat l with rfl | ⟨l, b, rfl⟩
  · rfl
  · have h0 : ∀ (x : α) (m : List α), x :: m = l.concat b ++ [v] → addUp (m.length + 1) m.length x m = addUp (l.length + 2) l.length (Arith.add v b) l := by
      intro x m he
      have hm : m.length = l.length + 1 := by
        have := congrArg List.length he
        simpa using this
      rw [hm, addUp_step _ _ x m (by rintro rfl; simp at hm) (i := l.length + 1) (j := l.length)
        (by rw [h, hm]; simp [libstdcxxOrder, Nat.mod_eq_of_lt (Nat.lt_succ_self (l.length + 1))])
        (by rw [h, hm]; simp [libstdcxxOrder, Nat.mod_eq_of_lt (Nat.lt_succ_self l.length)]), he]
      have e1 : (l.concat b ++ [v]).eraseIdx (l.length + 1) = l ++ [b] := by
        rw [List.eraseIdx_append_of_length_le (by simp)]
        simp
      have e2 : (l.concat b ++ [v]).getD (l.length + 1) x = v := by simp [List.getD]
      have e3 : (l ++ [b]).getD l.length x = b := by simp [List.getD]
      have e4 : (l ++ [b]).eraseIdx l.length = l := by
        rw [List.eraseIdx_append_of_length_le (by simp)]
        simp
      rw [e1, e2, e3, e4]
    have h1 : sumV (l.concat b ++ [v]) = .ok (addUp (l.length + 2) l.length (Arith.add v b) l) := by
      cases hc : l.concat b ++ [v] with
      | nil => simp at hc
      | cons x m => simp only [sumV]; rw [h0 x m hc.symm]
    have := key (l.length + 2) l.length l.reverse (Arith.add v b) (by simp) (by simp)
    rw [List.reverse_reverse] at this
    rw [h1, this]
    simp

theorem sumV_ok {l : List α} (h : l ≠ []) : ∃ s, sumV l = .ok s := by
  cases l with
  | nil => exact absurd rfl h
  | cons v vs => exact ⟨_, rfl⟩

end Tom
