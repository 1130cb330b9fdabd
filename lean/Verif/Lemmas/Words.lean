import Verif.Lemmas.Lex
import Verif.Props.Tree
/-
`std::stod` on a whole word accepts exactly the numerals of the specification, and the eleven names are functions.
-/
namespace Tom

theorem decDigits_iff (ds : Str) : DecDigits ds ↔ ∀ c ∈ ds, isDigitChar c = true := by
  simp only [DecDigits, isDigitChar_iff]

theorem hexDigit_some_iff (c : Char) : (hexDigit? c).isSome = true ↔
    (48 ≤ c.toNat ∧ c.toNat ≤ 57) ∨ (97 ≤ c.toNat ∧ c.toNat ≤ 102) ∨ (65 ≤ c.toNat ∧ c.toNat ≤ 70) := by
  have h1 : ('0' ≤ c ∧ c ≤ '9') ↔ (48 ≤ c.toNat ∧ c.toNat ≤ 57) := Iff.rfl
  have h2 : ('a' ≤ c ∧ c ≤ 'f') ↔ (97 ≤ c.toNat ∧ c.toNat ≤ 102) := Iff.rfl
  have h3 : ('A' ≤ c ∧ c ≤ 'F') ↔ (65 ≤ c.toNat ∧ c.toNat ≤ 70) := Iff.rfl
  unfold hexDigit?
  simp only [h1, h2, h3]
  split
  · simp [*]
  · split
    · simp [*]
    · split <;> simp [*]

theorem hexDigit_val (c : Char) (h : (hexDigit? c).isSome = true) : (hexDigit? c).getD 0 = digitVal c := by
  have hi := (hexDigit_some_iff c).mp h
  have h1 : ('0' ≤ c ∧ c ≤ '9') ↔ (48 ≤ c.toNat ∧ c.toNat ≤ 57) := Iff.rfl
  have h2 : ('a' ≤ c ∧ c ≤ 'f') ↔ (97 ≤ c.toNat ∧ c.toNat ≤ 102) := Iff.rfl
  have h3 : ('A' ≤ c ∧ c ≤ 'F') ↔ (65 ≤ c.toNat ∧ c.toNat ≤ 70) := Iff.rfl
  unfold hexDigit? digitVal
  simp only [h1, h2, h3]
  split
  · rw [if_pos (by omega)]; rfl
  · split
    · rw [if_neg (by omega), if_neg (by omega)]; rfl
    · split
      · rw [if_neg (by omega), if_pos (by omega)]; rfl
      · omega

theorem foldl_digits (b : Nat) (f : Char → Nat) (ds : Str) (h : ∀ c ∈ ds, f c = digitVal c) (n : Nat) :
    ds.foldl (fun n c => b * n + f c) n = n * b ^ ds.length + digitsVal b ds := by
  induction ds generalizing n with
  | nil => simp [digitsVal]
  | cons c cs ih =>
    rw [List.foldl_cons, ih (fun c hc => h c (by simp [hc])), h c (by simp), digitsVal, List.length_cons, Nat.pow_succ]
    rw [Nat.add_mul, Nat.mul_comm b n, Nat.mul_assoc, Nat.mul_comm b, Nat.add_assoc]

theorem decVal_eq (ds : Str) (h : DecDigits ds) : decVal ds = digitsVal 10 ds := by
  unfold decVal
  rw [foldl_digits 10 (fun c => c.toNat - 48) ds]
  · simp
  · intro c hc
    have := h c hc
    simp only [digitVal]
    rw [if_pos (by omega)]

theorem hexDigits_iff (ds : Str) : HexDigits ds ↔ ∀ c ∈ ds, (hexDigit? c).isSome = true := by
  simp only [HexDigits, hexDigit_some_iff]

theorem hexVal_eq (ds : Str) (h : HexDigits ds) : hexVal ds = digitsVal 16 ds := by
  unfold hexVal
  rw [foldl_digits 16 (fun c => (hexDigit? c).getD 0) ds]
  · simp
  · intro c hc
    exact hexDigit_val c ((hexDigits_iff ds).mp h c hc)

theorem expPart_iff (lo up : Char) (s : Str) (n : Nat) : expPart lo up s = some n ↔ Exponent lo up s n := by
  constructor
  · intro h
    cases s with
    | nil => simp only [expPart, Option.some.injEq] at h; subst h; exact .none
    | cons c ds =>
      simp only [expPart] at h
      split at h
      · rename_i hc
        simp only [Option.some.injEq] at h
        subst h
        have hd : DecDigits ds := by
          rw [decDigits_iff]; exact List.all_eq_true.mp hc.2.2
        rw [decVal_eq ds hd]
        exact .some hc.1 hc.2.1 hd
      · simp at h
  · intro h
    cases h with
    | none => rfl
    | @some c ds hc hne hd =>
      have hall : ds.all isDigitChar = true := List.all_eq_true.mpr ((decDigits_iff ds).mp hd)
      simp only [expPart]
      rw [if_pos ⟨hc, hne, hall⟩, decVal_eq ds hd]

theorem takeWhile_prefix (p : Char → Bool) (a b : Str) (ha : ∀ c ∈ a, p c = true) (hb : ∀ c ∈ b.head?, p c = false) :
    (a ++ b).takeWhile p = a ∧ (a ++ b).dropWhile p = b := by
  induction a with
  | nil =>
    cases b with
    | nil => simp
    | cons c b => have := hb c (by simp); simp [this]
  | cons c a ih =>
    have hc := ha c (by simp)
    have := ih (fun c h => ha c (by simp [h]))
    simp [hc, this.1, this.2]

theorem mantissa_complete {isDig : Char → Bool} (hdot : isDig '.' = false) {m ip fp ex : Str}
    (h : Mantissa (fun ds => ∀ c ∈ ds, isDig c = true) m ip fp)
    (hex : ∀ c ∈ ex.head?, isDig c = false ∧ c ≠ '.') : mantissa isDig (m ++ ex) = some (ip, fp, ex) := by
  cases h with
  | int hd hne =>
    obtain ⟨h1, h2⟩ := takeWhile_prefix isDig m ex hd (fun c hc => (hex c hc).1)
    unfold mantissa
    simp only [h1, h2]
    split
    · rename_i r'
      exact absurd rfl (hex '.' (by simp)).2
    · simp [hne]
  | point hi hf hne =>
    obtain ⟨h1, h2⟩ := takeWhile_prefix isDig ip (['.'] ++ (fp ++ ex)) hi (by simp [hdot])
    obtain ⟨h3, h4⟩ := takeWhile_prefix isDig fp ex hf (fun c hc => (hex c hc).1)
    unfold mantissa
    rw [List.append_assoc, List.append_assoc]
    simp only [h1, h2]
    simp only [List.singleton_append, h3, h4]
    rw [if_neg]
    rintro ⟨rfl, rfl⟩
    exact hne rfl

theorem mantissa_sound {isDig : Char → Bool} {s ip fp ex : Str} (h : mantissa isDig s = some (ip, fp, ex)) :
    ∃ m, s = m ++ ex ∧ Mantissa (fun ds => ∀ c ∈ ds, isDig c = true) m ip fp := by
  unfold mantissa at h
  have hs : s = s.takeWhile isDig ++ s.dropWhile isDig := List.takeWhile_append_dropWhile.symm
  have hip : ∀ c ∈ s.takeWhile isDig, isDig c = true := fun c hc => mem_takeWhile_imp' hc
  simp only at h
  split at h
  · rename_i r' hr
    split at h
    · simp at h
    · rename_i hne
      simp only [Option.some.injEq, Prod.mk.injEq] at h
      obtain ⟨rfl, rfl, rfl⟩ := h
      refine ⟨s.takeWhile isDig ++ ['.'] ++ r'.takeWhile isDig, ?_, .point hip (fun c hc => mem_takeWhile_imp' hc) ?_⟩
      · rw [List.append_assoc, List.takeWhile_append_dropWhile, List.append_assoc, List.singleton_append, ← hr]
        exact hs
      · intro h0
        exact hne (List.append_eq_nil_iff.mp h0)
  · split at h
    · simp at h
    · rename_i hne
      simp only [Option.some.injEq, Prod.mk.injEq] at h
      obtain ⟨rfl, rfl, rfl⟩ := h
      exact ⟨_, hs, .int hip hne⟩

theorem Mantissa.imp {P Q : Str → Prop} (hPQ : ∀ ds, P ds → Q ds) {m ip fp : Str} (h : Mantissa P m ip fp) :
    Mantissa Q m ip fp := by
  cases h with
  | int h hne => exact .int (hPQ _ h) hne
  | point h1 h2 hne => exact .point (hPQ _ h1) (hPQ _ h2) hne

/-- both parts of a mantissa have the property -/
theorem Mantissa.parts {P : Str → Prop} (h0 : P []) {m ip fp : Str} (h : Mantissa P m ip fp) : P ip ∧ P fp := by
  cases h with
  | int h hne => exact ⟨h, h0⟩
  | point h1 h2 hne => exact ⟨h1, h2⟩

variable {α : Type} [Dbl α]

theorem exponent_head {lo up : Char} {ex : Str} {n : Nat} (h : Exponent lo up ex n) : ∀ c ∈ ex.head?, c = lo ∨ c = up := by
  cases h with
  | none => simp
  | some hc _ _ => simpa using hc

theorem stodDec_iff (w : Str) (v : α) : stodDec w = some v ↔
    ∃ m ip fp ex n, w = m ++ ex ∧ Mantissa DecDigits m ip fp ∧ Exponent 'e' 'E' ex n ∧
      Dbl.ofDec (digitsVal 10 (ip ++ fp)) ((n : Int) - fp.length) = some v := by
  constructor
  · intro h
    unfold stodDec at h
    split at h
    · simp at h
    · rename_i ip fp r hm
      split at h
      · simp at h
      · rename_i n he
        obtain ⟨m, hw, hM⟩ := mantissa_sound hm
        have hM' : Mantissa DecDigits m ip fp := hM.imp (fun ds h => (decDigits_iff ds).mpr h)
        have hd : DecDigits (ip ++ fp) := by
          have := hM'.parts (by intro c hc; simp at hc)
          intro c hc
          rcases List.mem_append.mp hc with hc | hc
          · exact this.1 c hc
          · exact this.2 c hc
        rw [decVal_eq _ hd] at h
        exact ⟨m, ip, fp, r, n, hw, hM', (expPart_iff _ _ _ _).mp he, h⟩
  · rintro ⟨m, ip, fp, ex, n, rfl, hM, hE, hv⟩
    have hm : mantissa isDigitChar (m ++ ex) = some (ip, fp, ex) := by
      refine mantissa_complete (by decide) (hM.imp (fun ds h => (decDigits_iff ds).mp h)) ?_
      intro c hc
      rcases exponent_head hE c hc with rfl | rfl <;> decide
    have hd : DecDigits (ip ++ fp) := by
      have := hM.parts (by intro c hc; simp at hc)
      intro c hc
      rcases List.mem_append.mp hc with hc | hc
      · exact this.1 c hc
      · exact this.2 c hc
    unfold stodDec
    simp only [hm, (expPart_iff _ _ _ _).mpr hE, decVal_eq _ hd, hv]

theorem stodHex_iff (w : Str) (v : α) : stodHex w = some v ↔
    ∃ m ip fp ex n, w = m ++ ex ∧ Mantissa HexDigits m ip fp ∧ Exponent 'p' 'P' ex n ∧
      Dbl.ofHex (digitsVal 16 (ip ++ fp)) ((n : Int) - 4 * fp.length) = some v := by
  constructor
  · intro h
    unfold stodHex at h
    split at h
    · simp at h
    · rename_i ip fp r hm
      split at h
      · simp at h
      · rename_i n he
        obtain ⟨m, hw, hM⟩ := mantissa_sound hm
        have hM' : Mantissa HexDigits m ip fp := hM.imp (fun ds h => (hexDigits_iff ds).mpr h)
        have hd : HexDigits (ip ++ fp) := by
          have := hM'.parts (by intro c hc; simp at hc)
          intro c hc
          rcases List.mem_append.mp hc with hc | hc
          · exact this.1 c hc
          · exact this.2 c hc
        rw [hexVal_eq _ hd] at h
        exact ⟨m, ip, fp, r, n, hw, hM', (expPart_iff _ _ _ _).mp he, h⟩
  · rintro ⟨m, ip, fp, ex, n, rfl, hM, hE, hv⟩
    have hm : mantissa (fun c => (hexDigit? c).isSome) (m ++ ex) = some (ip, fp, ex) := by
      refine mantissa_complete (by decide) (hM.imp (fun ds h => (hexDigits_iff ds).mp h)) ?_
      intro c hc
      rcases exponent_head hE c hc with rfl | rfl <;> decide
    have hd : HexDigits (ip ++ fp) := by
      have := hM.parts (by intro c hc; simp at hc)
      intro c hc
      rcases List.mem_append.mp hc with hc | hc
      · exact this.1 c hc
      · exact this.2 c hc
    unfold stodHex
    simp only [hm, (expPart_iff _ _ _ _).mpr hE, hexVal_eq _ hd, hv]

theorem lowerChar_eq_iff (c : Char) (n : Nat) (hn : 97 ≤ n ∧ n ≤ 122) :
    lowerChar c = Char.ofNat n ↔ c = Char.ofNat n ∨ c = Char.ofNat (n - 32) := by
  have hA : ('A' ≤ c ∧ c ≤ 'Z') ↔ (65 ≤ c.toNat ∧ c.toNat ≤ 90) := Iff.rfl
  have ht : ∀ k, k ≤ 200 → (Char.ofNat k).toNat = k := by
    intro k hk
    have : ∀ k < 201, (Char.ofNat k).toNat = k := by decide +kernel
    exact this k (by omega)
  have hc : ∀ k, k ≤ 200 → (c = Char.ofNat k ↔ c.toNat = k) := by
    intro k hk
    constructor
    · rintro rfl; exact ht k hk
    · intro h; rw [← h, Char.ofNat_toNat]
  rw [hc n (by omega), hc (n - 32) (by omega)]
  unfold lowerChar
  simp only [hA]
  split
  · constructor
    · intro h
      have := congrArg Char.toNat h
      rw [ht _ (by omega), ht _ (by omega)] at this
      omega
    · rintro (h | h)
      · omega
      · rw [h]; congr 1; omega
  · rw [hc n (by omega)]
    omega

theorem lower_i (c : Char) : lowerChar c = 'i' ↔ c = 'i' ∨ c = 'I' := lowerChar_eq_iff c 105 (by omega)
theorem lower_n (c : Char) : lowerChar c = 'n' ↔ c = 'n' ∨ c = 'N' := lowerChar_eq_iff c 110 (by omega)
theorem lower_f (c : Char) : lowerChar c = 'f' ↔ c = 'f' ∨ c = 'F' := lowerChar_eq_iff c 102 (by omega)
theorem lower_t (c : Char) : lowerChar c = 't' ↔ c = 't' ∨ c = 'T' := lowerChar_eq_iff c 116 (by omega)
theorem lower_y (c : Char) : lowerChar c = 'y' ↔ c = 'y' ∨ c = 'Y' := lowerChar_eq_iff c 121 (by omega)
theorem lower_a (c : Char) : lowerChar c = 'a' ↔ c = 'a' ∨ c = 'A' := lowerChar_eq_iff c 97 (by omega)

/-- the first character of a numeral body is a digit or a point -/
theorem mantissa_head {m ip fp ex : Str} (h : Mantissa DecDigits m ip fp) :
    ∃ c cs, m ++ ex = c :: cs ∧ (isDigitChar c = true ∨ c = '.') := by
  cases h with
  | int hd hne =>
    cases m with
    | nil => exact absurd rfl hne
    | cons c cs => exact ⟨c, cs ++ ex, rfl, .inl ((decDigits_iff _).mp hd c (by simp))⟩
  | point hi hf hne =>
    cases ip with
    | nil => exact ⟨'.', fp ++ ex, by simp, .inr rfl⟩
    | cons c cs => exact ⟨c, _, by simp; rfl, .inl ((decDigits_iff _).mp hi c (by simp))⟩

/-- the second character of a decimal numeral is not `x` -/
theorem dec_second {m ip fp ex : Str} {n : Nat} (h : Mantissa DecDigits m ip fp) (he : Exponent 'e' 'E' ex n) :
    ∀ a c r, m ++ ex = a :: c :: r → c ≠ 'x' ∧ c ≠ 'X' := by
  have hm : ∀ c ∈ m, isDigitChar c = true ∨ c = '.' := by
    cases h with
    | int hd hne => exact fun c hc => .inl ((decDigits_iff _).mp hd c hc)
    | point hi hf hne =>
      intro c hc
      simp only [List.append_assoc, List.mem_append, List.mem_singleton] at hc
      rcases hc with hc | hc | hc
      · exact .inl ((decDigits_iff _).mp hi c hc)
      · exact .inr hc
      · exact .inl ((decDigits_iff _).mp hf c hc)
  intro a c r hs
  have hc : c ∈ m ∨ c ∈ ex := by rw [← List.mem_append, hs]; simp
  have : isDigitChar c = true ∨ c = '.' ∨ c = 'e' ∨ c = 'E' := by
    rcases hc with hc | hc
    · rcases hm c hc with h | h <;> simp [h]
    · cases he with
      | none => simp at hc
      | some hc' _ hd =>
        rcases List.mem_cons.mp hc with rfl | hc
        · rcases hc' with h | h <;> simp [h]
        · exact .inl ((decDigits_iff _).mp hd c hc)
  constructor <;> rintro rfl <;> revert this <;> decide

/-- `std::stod` consumes the whole word and returns `v` exactly when the word is a numeral with value `v`. -/
theorem stodFull_iff (w : Str) (v : α) : stodFull w = some v ↔ Numeral w v := by
  unfold stodFull
  constructor
  · intro h
    simp only at h
    split at h
    · rename_i hi
      simp only [Option.some.injEq] at h
      subst h
      rcases hi with hi | hi
      · simp only [List.map_eq_cons_iff, List.map_eq_nil_iff, lower_i, lower_n, lower_f] at hi
        obtain ⟨_, _, rfl, h1, _, _, rfl, h2, _, _, rfl, h3, rfl⟩ := hi
        exact .inf h1 h2 h3
      · simp only [List.map_eq_cons_iff, List.map_eq_nil_iff, lower_i, lower_n, lower_f, lower_t, lower_y] at hi
        obtain ⟨_, _, rfl, h1, _, _, rfl, h2, _, _, rfl, h3, _, _, rfl, h4, _, _, rfl, h5, _, _, rfl, h6, _, _, rfl, h7,
          _, _, rfl, h8, rfl⟩ := hi
        exact .infinity h1 h2 h3 h4 h5 h6 h7 h8
    · split at h
      · rename_i hi
        simp only [Option.some.injEq] at h
        subst h
        simp only [List.map_eq_cons_iff, List.map_eq_nil_iff, lower_a, lower_n] at hi
        obtain ⟨_, _, rfl, h1, _, _, rfl, h2, _, _, rfl, h3, rfl⟩ := hi
        exact .nan h1 h2 h3
      · have hdec : ∀ w : Str, stodDec w = some v → Numeral w v := by
          intro w h
          obtain ⟨m, ip, fp, ex, n, rfl, h1, h2, h3⟩ := (stodDec_iff w v).mp h
          exact .dec h1 h2 h3
        split at h
        · split at h
          · rename_i hx
            obtain ⟨m, ip, fp, ex, n, rfl, h1, h2, h3⟩ := (stodHex_iff _ v).mp h
            have := Numeral.hex hx h1 h2 h3
            simpa using this
          · exact hdec _ h
        · exact hdec _ h
  · intro h
    simp only
    cases h with
    | @dec m ip fp ex n _ hM hE hv =>
      obtain ⟨c, cs, hs, hc⟩ := mantissa_head (ex := ex) hM
      have hlow : lowerChar c ≠ 'i' ∧ lowerChar c ≠ 'n' := by
        rw [Ne, Ne, lower_i, lower_n]
        constructor <;> rintro (rfl | rfl) <;> revert hc <;> decide
      have hd := (stodDec_iff (m ++ ex) v).mpr ⟨m, ip, fp, ex, n, rfl, hM, hE, hv⟩
      rw [if_neg, if_neg]
      · split
        · rename_i c' r hs'
          have := dec_second hM hE _ _ _ hs'
          rw [if_neg (by simp [this.1, this.2])]
          exact hd
        · exact hd
      · rw [hs]; simp [hlow.2]
      · rw [hs]; simp [hlow.1]
    | @hex c m ip fp ex n _ hc hM hE hv =>
      have hd := (stodHex_iff (m ++ ex) v).mpr ⟨m, ip, fp, ex, n, rfl, hM, hE, hv⟩
      have h0 : lowerChar '0' = '0' := by decide
      rw [if_neg (by simp [h0]), if_neg (by simp [h0])]
      simp only [List.cons_append, List.nil_append]
      rw [if_pos hc]
      exact hd
    | inf h1 h2 h3 =>
      rw [if_pos]; left
      simp only [List.map_cons, List.map_nil, List.cons.injEq, and_true, lower_i, lower_n, lower_f]
      exact ⟨h1, h2, h3⟩
    | infinity h1 h2 h3 h4 h5 h6 h7 h8 =>
      rw [if_pos]; right
      simp only [List.map_cons, List.map_nil, List.cons.injEq, and_true, lower_i, lower_n, lower_f, lower_t, lower_y]
      exact ⟨h1, h2, h3, h4, h5, h6, h7, h8⟩
    | nan h1 h2 h3 =>
      have hl := (lower_n _).mpr h1
      rw [if_neg (by simp [hl]), if_pos]
      simp only [List.map_cons, List.map_nil, List.cons.injEq, and_true, lower_a, lower_n]
      exact ⟨h1, h2, h3⟩

theorem stodFull_none_iff (w : Str) : (stodFull w : Option α) = none ↔ ¬ ∃ v : α, Numeral w v := by
  rw [Option.eq_none_iff_forall_ne_some]
  simp only [ne_eq, stodFull_iff, not_exists]

theorem str2Function_name {u : Str} {f : UnOp} (h : FnName u f) : str2Function u = f.toMathOp := by
  cases h <;> decide +kernel

theorem mem_functionTable {p : Str × MathOp} (h : p ∈ functionTable) : ∃ f, FnName p.1 f ∧ p.2 = f.toMathOp := by
  simp only [functionTable, List.mem_cons, List.not_mem_nil, or_false] at h
  rcases h with h | h | h | h | h | h | h | h | h | h | h <;> subst h
  · exact ⟨_, .sin, rfl⟩
  · exact ⟨_, .cos, rfl⟩
  · exact ⟨_, .tan, rfl⟩
  · exact ⟨_, .arcsin, rfl⟩
  · exact ⟨_, .arccos, rfl⟩
  · exact ⟨_, .arctan, rfl⟩
  · exact ⟨_, .sqrt, rfl⟩
  · exact ⟨_, .log, rfl⟩
  · exact ⟨_, .log2, rfl⟩
  · exact ⟨_, .log10, rfl⟩
  · exact ⟨_, .exp, rfl⟩

/-- whatever the word, the result is no function, or a function whose name has the same hash -/
theorem str2Function_cases (u : Str) :
    (str2Function u = .null ∧ ∀ s f, FnName s f → fnv1a s ≠ fnv1a u) ∨
    ∃ s f, FnName s f ∧ fnv1a s = fnv1a u ∧ str2Function u = f.toMathOp := by
  unfold str2Function
  split
  · rename_i p hp
    have h1 := List.find?_some hp
    have h2 := List.mem_of_find?_eq_some hp
    obtain ⟨f, hf, he⟩ := mem_functionTable h2
    exact .inr ⟨p.1, f, hf, by simpa using h1, he⟩
  · rename_i hn
    left
    refine ⟨rfl, ?_⟩
    intro s f hf heq
    rw [List.find?_eq_none] at hn
    have hmem : (s, f.toMathOp) ∈ functionTable := by cases hf <;> simp [functionTable, UnOp.toMathOp]
    exact hn _ hmem (by simpa using heq)

theorem fnName_not_numeral {u : Str} {f : UnOp} (h : FnName u f) : ¬ ∃ v : α, Numeral u v := by
  rw [← stodFull_none_iff]
  cases h <;> rfl

/-- The node of a token without children; `unary` says whether a `+`/`-` is a sign here. -/
def tokNode (t : Tok α) (unary : Bool) : Raw α :=
  match t with
  | .num v => mkNum v
  | .var x => varNode x
  | .fn f => .mk .operator f.toMathOp (Dbl.ofInt 0) [] .nil .nil
  | .sym c => .mk .operator (baseOperatorCharToEnum c unary) (Dbl.ofInt 0) [] .nil .nil

theorem toMathOp_ne_null (f : UnOp) : f.toMathOp ≠ .null := by cases f <;> decide

theorem str2Function_hash {u : Str} {s : Str} {f : UnOp} (h : FnName s f) (hh : fnv1a s = fnv1a u) :
    str2Function u = f.toMathOp := by
  rw [← str2Function_name h]
  unfold str2Function
  rw [hh]

theorem hashMeans_of_wordMeans {u : Str} {t : Tok α} (h : WordMeans u t) (hcol : t = .var u → NoCollision u) : HashMeans u t := by
  cases h with
  | num hv => exact .num hv
  | fn hf => exact .fn (fnName_not_numeral hf) hf rfl
  | var hl hn hf =>
    refine .var hl hn ?_
    rintro ⟨s, f, hs, hh⟩
    exact hf ⟨f, (hcol rfl s f hs hh) ▸ hs⟩

theorem tryConfirm_means {u : Str} {t : Tok α} (hne : u ≠ []) (h : HashMeans u t) (k : Nat)
    (ret : List (Token α)) (b : Bool) : tryConfirmToken u k ret = .ok (ret ++ [⟨tokNode t b, k⟩]) := by
  unfold tryConfirmToken
  rw [if_neg hne]
  cases h with
  | num hv => rw [(stodFull_iff _ _).mpr hv]; rfl
  | fn hn hf hh =>
    rw [(stodFull_none_iff u).mpr hn]
    simp only [str2Function_hash hf hh, ne_eq, toMathOp_ne_null, not_false_eq_true, if_true, mkOp, if_false, Res.bind_ok]
    rfl
  | var hl hn hf =>
    rw [(stodFull_none_iff u).mpr hn]
    have h0 : str2Function u = .null := by
      rcases str2Function_cases u with h | ⟨s, f, hs, hh, _⟩
      · exact h.1
      · exact absurd ⟨s, f, hs, hh⟩ hf
    have hleg := (C08_varNameIsLegal u).mpr hl
    simp only [h0, hleg, ne_eq, not_true_eq_false, if_false, mkVar, if_true, Res.bind_ok, tokNode]
    simp

/-- a word is a token or unreadable, and then the lexer throws at its column -/
theorem tryConfirm_cases {u : Str} (hne : u ≠ []) (k : Nat) (ret : List (Token α)) :
    (∃ t : Tok α, HashMeans u t) ∨ (Unreadable α u ∧ tryConfirmToken u k ret = .throw (.singleParse k)) := by
  by_cases hn : ∃ v : α, Numeral u v
  · obtain ⟨v, hv⟩ := hn
    exact .inl ⟨_, .num hv⟩
  · by_cases hf : ∃ s f, FnName s f ∧ fnv1a s = fnv1a u
    · obtain ⟨s, f, hs, hh⟩ := hf
      exact .inl ⟨_, .fn hn hs hh⟩
    · by_cases hl : LegalName u
      · exact .inl ⟨_, .var hl hn hf⟩
      · right
        refine ⟨⟨hn, hl, hf⟩, ?_⟩
        unfold tryConfirmToken
        rw [if_neg hne, (stodFull_none_iff u).mpr hn]
        have h0 : str2Function u = .null := by
          rcases str2Function_cases u with h | ⟨s, f, hs, hh, _⟩
          · exact h.1
          · exact absurd ⟨s, f, hs, hh⟩ hf
        have hleg : varNameIsLegal u = false := by
          rw [← C08_varNameIsLegal] at hl; simpa using hl
        simp [h0, hleg]

/-- Is a `+`/`-` after this token a sign? -/
def signAfter : Tok α → Bool
  | .num _ => false
  | .var _ => false
  | .fn _ => true
  | .sym c => c != ')'

/-- The token list the lexer builds; the flag says whether a `+`/`-` at the front is a sign. -/
def markToks : Bool → List (Tok α × Nat) → List (Token α)
  | _, [] => []
  | u, (t, k) :: ts => ⟨tokNode t u, k⟩ :: markToks (signAfter t) ts

/-- single characters of a token list are operator characters -/
def SymOk (t : Tok α) : Prop := ∀ c, t = .sym c → OpChar c

theorem baseOp_ne_null {c : Char} (h : OpChar c) (u : Bool) : baseOperatorCharToEnum c u ≠ .null := by
  simp only [OpChar, List.mem_cons, List.not_mem_nil, or_false] at h
  rcases h with h | h | h | h | h | h | h | h | h | h <;> subst h <;> cases u <;> decide

theorem baseOp_rparen {c : Char} (h : OpChar c) (u : Bool) : (baseOperatorCharToEnum c u != .rparen) = (c != ')') := by
  simp only [OpChar, List.mem_cons, List.not_mem_nil, or_false] at h
  rcases h with h | h | h | h | h | h | h | h | h | h <;> subst h <;> cases u <;> decide

theorem unaryPosition_append (ret : List (Token α)) (t : Tok α) (h : SymOk t) (u : Bool) (k : Nat) :
    unaryPosition (ret ++ [⟨tokNode t u, k⟩]) = signAfter t := by
  unfold unaryPosition
  rw [List.getLast?_concat]
  cases t with
  | num v => rfl
  | var x => rfl
  | fn f => cases f <;> rfl
  | sym c => exact baseOp_rparen (h c rfl) u

theorem hashMeans_symOk {u : Str} {t : Tok α} (h : HashMeans u t) : SymOk t := by
  cases h <;> intro c hc <;> cases hc

/-- The lexer finds exactly the tokens of the specification. -/
theorem lexLoop_lexed {k : Nat} {s : Str} {ts : List (Tok α × Nat)} (h : Lexed HashMeans k s ts) (ret : List (Token α)) :
    lexLoop s k [] k ret = .ok (ret ++ markToks (unaryPosition ret) ts) := by
  induction h generalizing ret with
  | @blank k w hw =>
    have := lexLoop_blanks w [] hw k ret
    rw [List.append_nil] at this
    rw [this]
    simp [lexLoop, tryConfirmToken, markToks]
  | @sym k w rest c ts hw hc _ ih =>
    rw [List.append_assoc, lexLoop_blanks w _ hw, List.singleton_append, lexLoop, (isBasicOperator_iff c).mpr hc]
    simp only [if_true, tryConfirmToken, Res.bind_ok, mkOp, baseOp_ne_null hc, if_false]
    have hu := unaryPosition_append ret (.sym c) (fun c' h' => by cases h'; exact hc) (unaryPosition ret) (k + w.length)
    simp only [tokNode] at hu
    rw [ih, hu]
    simp [markToks, tokNode]
  | @word k w u rest t ts hw hne hu hrest hm _ ih =>
    rw [List.append_assoc, lexLoop_blanks w _ hw, lexLoop_word u rest hu, lexLoop_stop rest hrest]
    rw [List.nil_append, tryConfirm_means hne hm _ _ (unaryPosition ret)]
    simp only [Res.bind_ok]
    rw [ih, unaryPosition_append _ _ (hashMeans_symOk hm)]
    simp [markToks]

/-- Either every word is readable, or the lexer throws at the column of an unreadable word. -/
theorem lexLoop_cases {k : Nat} {s : Str} {ts : List (Tok α × Nat)} (h : Lexed Spelled k s ts) (ret : List (Token α)) :
    (∃ us : List (Tok α × Nat), Lexed HashMeans k s us) ∨
      ∃ u c, (Tok.var u, c) ∈ ts ∧ Unreadable α u ∧ lexLoop s k [] k ret = .throw (.singleParse c) := by
  induction h generalizing ret with
  | @blank k w hw => exact .inl ⟨[], .blank hw⟩
  | @sym k w rest c ts hw hc _ ih =>
    rw [List.append_assoc, lexLoop_blanks w _ hw, List.singleton_append, lexLoop, (isBasicOperator_iff c).mpr hc]
    simp only [if_true, tryConfirmToken, Res.bind_ok, mkOp, baseOp_ne_null hc, if_false]
    rcases ih (ret ++ [⟨.mk .operator (baseOperatorCharToEnum c (unaryPosition ret)) (Dbl.ofInt 0) [] .nil .nil, k + w.length⟩]) with
      ⟨us, hus⟩ | ⟨u, c', h1, h2, h3⟩
    · left
      have := Lexed.sym hw hc hus
      rw [List.append_assoc, List.singleton_append] at this
      exact ⟨_, this⟩
    · exact .inr ⟨u, c', by simp [h1], h2, h3⟩
  | @word k w u rest t ts hw hne hu hrest hm _ ih =>
    rw [List.append_assoc, lexLoop_blanks w _ hw, lexLoop_word u rest hu, lexLoop_stop rest hrest, List.nil_append]
    simp only [Spelled] at hm
    subst hm
    rcases tryConfirm_cases (α := α) hne (k + w.length) ret with ⟨t, ht⟩ | ⟨h1, h2⟩
    · rw [tryConfirm_means hne ht _ _ true]
      simp only [Res.bind_ok]
      rcases ih (ret ++ [⟨tokNode t true, k + w.length⟩]) with ⟨us, hus⟩ | ⟨u', c', h1, h2, h3⟩
      · left
        have := Lexed.word hw hne hu hrest ht hus
        rw [List.append_assoc] at this
        exact ⟨_, this⟩
      · exact .inr ⟨u', c', by simp [h1], h2, h3⟩
    · right
      rw [h2]
      exact ⟨u, k + w.length, by simp, h1, rfl⟩

theorem lexed_mono {m1 m2 : Str → Tok α → Prop} {k : Nat} {s : Str} {ts : List (Tok α × Nat)} (h : Lexed m1 k s ts)
    (hm : ∀ u t, t ∈ ts.map Prod.fst → m1 u t → m2 u t) : Lexed m2 k s ts := by
  induction h with
  | blank hw => exact .blank hw
  | sym hw hc _ ih => exact .sym hw hc (ih (fun u t ht => hm u t (by simp only [List.map_cons, List.mem_cons]; exact .inr ht)))
  | word hw hne hu hd h1 _ ih =>
    exact .word hw hne hu hd (hm _ _ (by simp) h1)
      (ih (fun u t ht => hm u t (by simp only [List.map_cons, List.mem_cons]; exact .inr ht)))

theorem lexed_symOk {k : Nat} {s : Str} {ts : List (Tok α × Nat)} (h : Lexed HashMeans k s ts) :
    ∀ t ∈ ts.map Prod.fst, SymOk t := by
  induction h with
  | blank hw => simp
  | sym hw hc _ ih =>
    intro t ht
    simp only [List.map_cons, List.mem_cons] at ht
    rcases ht with rfl | ht
    · intro c' h'; cases h'; exact hc
    · exact ih t ht
  | word hw hne hu hd h1 _ ih =>
    intro t ht
    simp only [List.map_cons, List.mem_cons] at ht
    rcases ht with rfl | ht
    · exact hashMeans_symOk h1
    · exact ih t ht

end Tom
