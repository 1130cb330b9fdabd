import Verif.Lemmas.MatExact
/-
Matrix products of arbitrary (not necessarily exact) numbers.
-/
namespace Tom

theorem mul_mk' {α : Type} [Arith α] {r m c : ℕ} (hr : 0 < r) (hc : 0 < c) (f g s : ℕ → ℕ → α)
    (hs : ∀ i j, i < r → j < c → sumV ((List.range m).map fun k => Arith.mul (f i k) (g k j)) = .ok (s i j)) :
    (Mat.mk' r m f).mul (Mat.mk' m c g) = .ok (Mat.mk' r c s) := by
  unfold Mat.mul
  have e0 : (Mat.mk' r m f).rows = r := rfl
  have e1 : (Mat.mk' r m f).cols = m := rfl
  have e2 : (Mat.mk' m c g).rows = m := rfl
  have e3 : (Mat.mk' m c g).cols = c := rfl
  rw [e0, e1, e2, e3, if_pos rfl, new_mk' hr hc]
  simp only [Res.bind_ok]
  have key := fill_loop (τ := Unit) (r := r) (c := c) (α := α)
    (fun s i j => do
      let x ← (do
        let r ← (Mat.mk' r m f).row i 0
        let c ← (Mat.mk' m c g).col j 0
        let p ← zipV Arith.mul r c
        let s' ← sumV p
        s.2.setValue i j s')
      .ok ((), x)) (fun _ => True) s (by
      intro i j t F hi hj _
      refine ⟨(), trivial, ?_⟩
      rw [row_mk' f hi, col_mk' g hj]
      simp only [Res.bind_ok, zipV_range, Nat.zero_add, Nat.sub_zero]
      rw [hs i j hi hj]
      simp only [Res.bind_ok]
      rw [setValue_mk' _ _ hi hj]
      rfl) () trivial
  obtain ⟨_, _, h⟩ := key (fun _ _ => Arith.zero)
  have drop : ∀ (l : List ℕ) (F : Mat α → ℕ → Res (Mat α)) (m0 m1 : Mat α) (u u' : Unit),
      forRes (fun (s : Unit × Mat α) i => do let x ← F s.2 i; .ok ((), x)) l (u, m0) = .ok (u', m1) → forRes F l m0 = .ok m1 := by
    intro l F
    induction l with
    | nil => intro m0 m1 u u' h; simp only [forRes, Res.ok.injEq, Prod.mk.injEq] at h; simp [forRes, h.2]
    | cons i l ih =>
      intro m0 m1 u u' h
      simp only [forRes] at h ⊢
      cases hF : F m0 i with
      | ok x => rw [hF] at h; simp only [Res.bind_ok] at h ⊢; exact ih _ _ _ _ h
      | _ => rw [hF] at h; simp at h
  have pull : ∀ (l : List ℕ) (F : Mat α → ℕ → Res (Mat α)) (s : Unit × Mat α),
      forRes (fun (s : Unit × Mat α) i => do let x ← F s.2 i; .ok ((), x)) l s = (do let x ← forRes F l s.2; .ok ((), x)) := by
    intro l F
    induction l with
    | nil => intro s; rfl
    | cons i l ih =>
      intro s
      simp only [forRes]
      cases hF : F s.2 i with
      | ok x => simp only [Res.bind_ok, ih]
      | _ => simp
  have pull' := fun (i : ℕ) (s : Unit × Mat α) => pull (List.range c) (fun ans j => do
        let r ← (Mat.mk' r m f).row i 0
        let c ← (Mat.mk' m c g).col j 0
        let p ← zipV Arith.mul r c
        let s' ← sumV p
        ans.setValue i j s') s
  simp only [pull'] at h
  exact drop _ _ _ _ _ _ h

end Tom
