import Verif.Lemmas.CombineLines
import Verif.Props.Combine
/-
C109: the contents of the header-only library.
-/
namespace Tom

/-- **C109** (one file): each line of a file becomes exactly one thing; the parts are collected in the order of the lines.  The analysis
fails only on an `#include "..."` of a file that is not there. -/
theorem C109_file (resolve : Str → Option Str) (filename : Str) (lines : List Str) :
    (∃ es, List.Forall₂ (Entry.Of resolve) lines es ∧ analyse resolve filename lines =
      .ok ⟨filename, es.filterMap Entry.inner?, es.filterMap Entry.lib?, es.filterMap Entry.define?, es.filterMap Entry.text?⟩) ∨
    (analyse resolve filename lines = .runtimeError ∧
      ∃ line ∈ lines, ∃ s name, Trimmed line s ∧ IncludeLine '"' '"' s name ∧ resolve name = none) := by
  simpa [analyse] using analyseLines_spec resolve lines ⟨filename, [], [], [], []⟩

/-- What a line becomes is determined by the rules. -/
theorem C109_unique (resolve : Str → Option Str) (line : Str) (e e' : Entry) (h : e.Of resolve line) (h' : e'.Of resolve line) : e = e' :=
  h.unique h'

theorem analyseAll_ok (resolve : Str → Option Str) : ∀ (files : List (Str × List Str)) (fs : List SrcFile), analyseAll resolve files = .ok fs →
    ∃ parts : List (List Entry), List.Forall₂ (fun p es => List.Forall₂ (Entry.Of resolve) p.2 es) files parts ∧
      fs = (files.zip parts).map fun q => ⟨q.1.1, q.2.filterMap Entry.inner?, q.2.filterMap Entry.lib?, q.2.filterMap Entry.define?,
        q.2.filterMap Entry.text?⟩
  | [], fs, h => by
    simp [analyseAll] at h
    exact ⟨[], .nil, by simp [← h]⟩
  | p :: ps, fs, h => by
    rcases C109_file resolve p.1 p.2 with ⟨es, h1, h2⟩ | ⟨h2, -⟩
    · unfold analyseAll at h
      rw [h2, PyRes.bind_ok] at h
      cases h3 : analyseAll resolve ps with
      | ok gs =>
        rw [h3] at h
        obtain ⟨parts, k1, k2⟩ := analyseAll_ok resolve ps gs h3
        refine ⟨es :: parts, .cons h1 k1, ?_⟩
        cases h
        simp [k2]
      | indexError => rw [h3] at h; cases h
      | runtimeError => rw [h3] at h; cases h
      | diverge => rw [h3] at h; cases h
    · unfold analyseAll at h
      rw [h2] at h; cases h

theorem mem_pySortedSet (l : List Str) (x : Str) : x ∈ pySortedSet l ↔ x ∈ l := by simp [pySortedSet]

theorem nodup_pySortedSet (l : List Str) : (pySortedSet l).Nodup :=
  (List.perm_insertionSort _ _).nodup_iff.mpr (List.nodup_dedup l)

theorem sorted_pySortedSet (l : List Str) : (pySortedSet l).Pairwise (· ≤ ·) := List.pairwise_insertionSort _ _

theorem unlines_append (a b : List Str) : unlines (a ++ b) = unlines a ++ unlines b := List.flatMap_append ..

theorem intercalate_unlines : ∀ (ls : List Str), List.intercalate ['\n'] ls ++ ['\n'] = unlines (if ls = [] then [[]] else ls)
  | [] => rfl
  | [a] => by simp [unlines, List.intercalate]
  | a :: b :: ls => by
    have h := intercalate_unlines (b :: ls)
    have e : List.intercalate ['\n'] (a :: b :: ls) = a ++ '\n' :: List.intercalate ['\n'] (b :: ls) := by
      simp [List.intercalate, List.intersperse]
    rw [e]
    simp only [reduceCtorEq, if_false] at h ⊢
    rw [List.append_assoc, List.cons_append, h]
    simp [unlines]

theorem perm_of_map {β γ : Type} (f : β → γ) {m l : List γ} (h : m.Perm l) : ∀ {k : List β}, m = k.map f → ∃ os : List β, os.Perm k ∧ os.map f = l := by
  induction h with
  | nil => intro k hk; exact ⟨[], by rw [List.map_eq_nil_iff.mp hk.symm], rfl⟩
  | cons x _ ih =>
    intro k hk
    cases k with
    | nil => simp at hk
    | cons b k =>
      simp only [List.map_cons, List.cons.injEq] at hk
      obtain ⟨os, h1, h2⟩ := ih hk.2
      exact ⟨b :: os, h1.cons b, by simp [h2, hk.1]⟩
  | swap x y l =>
    intro k hk
    match k, hk with
    | b :: c :: k, hk =>
      simp only [List.map_cons, List.cons.injEq] at hk
      exact ⟨c :: b :: k, List.Perm.swap b c k, by simp [hk.1, hk.2.1, hk.2.2]⟩
  | trans _ _ ih1 ih2 =>
    intro k hk
    obtain ⟨os, h1, h2⟩ := ih1 hk
    obtain ⟨os', h3, h4⟩ := ih2 h2.symm
    exact ⟨os', h3.trans h1, h4⟩

/-- A source file of the header: its name and what its lines became. -/
abbrev Part := Str × List Entry

/-- the file made of the parts of a source file -/
def Part.file (q : Part) : SrcFile :=
  ⟨q.1, q.2.filterMap Entry.inner?, q.2.filterMap Entry.lib?, q.2.filterMap Entry.define?, q.2.filterMap Entry.text?⟩

theorem unlines_include (w : Str) (l : List Str) : l.flatMap (fun h => w ++ h ++ ['>', '\n']) = unlines (l.map fun i => w ++ i ++ ['>']) := by
  unfold unlines
  rw [List.flatMap_map]
  simp

theorem header_layout (w w' A B' : Str) (D I B : List Str) (hA : A = unlines [w, []]) (hB : B' = unlines B) :
    A ++ D.flatMap (fun d => d ++ ['\n']) ++ I.flatMap (fun h => w' ++ h ++ ['>', '\n']) ++ B' =
      unlines ([w, []] ++ D ++ I.map (fun i => w' ++ i ++ ['>']) ++ B) := by
  rw [unlines_append, unlines_append, unlines_append, hA, hB, unlines_include]
  rfl

theorem combineText_parts (os : List Part) :
    combineText (os.map Part.file) = unlines (["#pragma once".toList, []] ++ pySortedSet ((os.map Part.file).flatMap SrcFile.defines) ++
      (pySortedSet ((os.map Part.file).flatMap SrcFile.depsLib)).map (fun i => "#include <".toList ++ i ++ ['>']) ++
      os.flatMap fun q => if q.2.filterMap Entry.text? = [] then [[]] else q.2.filterMap Entry.text?) := by
  have e1 : "#pragma once\n\n".toList = unlines ["#pragma once".toList, []] := by decide +kernel
  have e3 : (os.map Part.file).flatMap (fun e => List.intercalate ['\n'] e.contents ++ ['\n']) =
      unlines (os.flatMap fun q => if q.2.filterMap Entry.text? = [] then [[]] else q.2.filterMap Entry.text?) := by
    rw [List.flatMap_map]
    simp only [intercalate_unlines, Part.file]
    unfold unlines
    rw [List.flatMap_assoc]
  exact header_layout _ _ _ _ _ _ _ e1 e3

/-- **C109** (the header): when the script succeeds, then the header consists of `#pragma once`, all `#define`s of all files, all
`#include <...>` of all files, both sorted and each once, and then, file by file, the lines of text.  All files are there, each once, after the
files they include. -/
theorem C109_header (resolve : Str → Option Str) (files : List (Str × List Str)) (text : Str) (h : combineCodeFile resolve files = .ok text) :
    ∃ (parts os : List Part) (D I : List Str),
      List.Forall₂ (fun p (q : Part) => q.1 = p.1 ∧ List.Forall₂ (Entry.Of resolve) p.2 q.2) files parts ∧
      os.Perm parts ∧
      (∀ pre q post, os = pre ++ q :: post → ∀ path ∈ q.2.filterMap Entry.inner?, ∃ g ∈ pre, g.1 = path) ∧
      D.Nodup ∧ D.Pairwise (· ≤ ·) ∧ (∀ d, d ∈ D ↔ ∃ q ∈ parts, d ∈ q.2.filterMap Entry.define?) ∧
      I.Nodup ∧ I.Pairwise (· ≤ ·) ∧ (∀ i, i ∈ I ↔ ∃ q ∈ parts, i ∈ q.2.filterMap Entry.lib?) ∧
      text = unlines (["#pragma once".toList, []] ++ D ++ I.map (fun i => "#include <".toList ++ i ++ ['>']) ++
        os.flatMap fun q => if q.2.filterMap Entry.text? = [] then [[]] else q.2.filterMap Entry.text?) := by
  unfold combineCodeFile at h
  cases h1 : analyseAll resolve files with
  | ok fs =>
    rw [h1, PyRes.bind_ok] at h
    obtain ⟨es, k1, k2⟩ := analyseAll_ok resolve files fs h1
    obtain ⟨os', p1, p2, p3⟩ := C108_order fs text h
    let parts : List Part := (files.zip es).map fun q => (q.1.1, q.2)
    have hfs : fs = parts.map Part.file := by rw [k2, List.map_map]; rfl
    have hos : ∃ os : List Part, os.Perm parts ∧ os.map Part.file = os' := by
      rw [hfs] at p1
      exact perm_of_map Part.file p1.symm rfl
    obtain ⟨os, q1, rfl⟩ := hos
    refine ⟨parts, os, pySortedSet ((os.map Part.file).flatMap SrcFile.defines), pySortedSet ((os.map Part.file).flatMap SrcFile.depsLib), ?_, q1, ?_,
      nodup_pySortedSet _, sorted_pySortedSet _, ?_, nodup_pySortedSet _, sorted_pySortedSet _, ?_, ?_⟩
    · clear k2 hfs q1 p1 p2 p3 h h1
      simp only [parts]
      clear parts
      induction k1 with
      | nil => exact .nil
      | cons a b ih => exact .cons ⟨rfl, a⟩ ih
    · rintro pre q post rfl path hp
      obtain ⟨g, hg, hgp⟩ := p2 (pre.map Part.file) (Part.file q) (post.map Part.file) (by simp) path hp
      obtain ⟨r, hr, rfl⟩ := List.mem_map.mp hg
      exact ⟨r, hr, hgp⟩
    · intro d
      rw [mem_pySortedSet]
      simp [Part.file, q1.mem_iff]
    · intro d
      rw [mem_pySortedSet]
      simp [Part.file, q1.mem_iff]
    · rw [p3]
      exact combineText_parts os
  | indexError => rw [h1] at h; cases h
  | runtimeError => rw [h1] at h; cases h
  | diverge => rw [h1] at h; cases h

/-- **C109, already inline**: a function that is `inline` in the source becomes `inline inline`, which is not C++ (the look-behind
`(?<!inline)` at the beginning of a line can never fail). -/
theorem C109_false_inline :
    combineCodeFile (fun _ => none) [("a.h".toList, ["inline int f();".toList])] = .ok "#pragma once\n\ninline inline int f();\n".toList := by
  decide +kernel

/-- **C109, macros of several lines**: the first line of a macro is moved to the front, its continuation is not; here the definition
swallows the `#include`, and the replacement text becomes a declaration. -/
theorem C109_false_macro :
    combineCodeFile (fun _ => none) [("a.h".toList, ["#include <map>".toList, "#define F(x) \\".toList, "    (x + 1)".toList])] =
      .ok "#pragma once\n\n#define F(x) \\\n#include <map>\n    (x + 1)\n".toList := by
  decide +kernel

/-- **C109, conditional macros**: a `#define` between `#ifdef` and `#endif` is moved out and becomes unconditional. -/
theorem C109_false_conditional :
    combineCodeFile (fun _ => none) [("a.h".toList, ["#ifdef _WIN32".toList, "#define SEP 1".toList, "#endif".toList])] =
      .ok "#pragma once\n\n#define SEP 1\n#ifdef _WIN32\n#endif\n".toList := by
  decide +kernel

/-- Two files, as in the repository: a header and its implementation. -/
example : combineCodeFile (fun n => some ("/src/".toList ++ n))
    [("/src/diff.cpp".toList, ["#include \"diff.h\"".toList, "#include <queue>".toList, "Node Diff(int i) {".toList, "    return i;  ".toList, "}".toList]),
     ("/src/diff.h".toList, ["#pragma once".toList, "#include <string> // text".toList, "Node Diff(int i);".toList])] =
    .ok "#pragma once\n\n#include <queue>\n#include <string>\ninline Node Diff(int i);\ninline Node Diff(int i) {\n    return i;\n}\n".toList := by
  decide +kernel

theorem pyRstrip_append {c : Char} (h : pySpace c = true) (s : Str) : pyRstrip (s ++ [c]) = pyRstrip s := by
  simp [pyRstrip, h]

theorem pyStrip_append {c : Char} (h : pySpace c = true) (s : Str) : pyStrip (s ++ [c]) = pyStrip s := by
  unfold pyStrip
  induction s with
  | nil => simp [h]
  | cons d s ih =>
    by_cases hd : pySpace d = true
    · simpa [List.dropWhile, hd] using ih
    · have hd' : pySpace d = false := by simpa using hd
      simp only [List.cons_append, List.dropWhile, hd']
      exact pyRstrip_append h (d :: s)

theorem looksLikeFunction_append {c : Char} (h : c ∈ [' ', '\t', '\n', '\r', '\x0b', '\x0c']) (s : Str) :
    looksLikeFunction (s ++ [c]) = looksLikeFunction s := by
  have hc : c ≠ '(' := by rintro rfl; revert h; decide
  cases s with
  | nil =>
    simp only [List.mem_cons, List.not_mem_nil, or_false] at h
    rcases h with rfl | rfl | rfl | rfl | rfl | rfl <;> rfl
  | cons d s =>
    cases s with
    | nil => rfl
    | cons a s =>
      simp only [looksLikeFunction, List.cons_append, List.drop_succ_cons, List.drop_zero]
      congr 1
      simp [hc.symm]

/-- C109: blanks, tabs and line ends of any kind (also the carriage returns of Windows files) after a line make no difference. -/
theorem C109_line_ends (resolve : Str → Option Str) (f : SrcFile) (line tail : Str) (h : ∀ c ∈ tail, c ∈ [' ', '\t', '\n', '\r', '\x0b', '\x0c']) :
    analyseLine resolve f (line ++ tail) = analyseLine resolve f line := by
  induction tail generalizing line with
  | nil => simp
  | cons c tail ih =>
    have hc := h c (by simp)
    have hs : pySpace c = true := by
      simp only [List.mem_cons, List.not_mem_nil, or_false] at hc
      rcases hc with rfl | rfl | rfl | rfl | rfl | rfl <;> decide
    have := ih (line ++ [c]) fun d hd => h d (by simp [hd])
    rw [List.append_assoc, List.singleton_append] at this
    rw [this]
    unfold analyseLine
    rw [pyStrip_append hs, pyRstrip_append hs, looksLikeFunction_append hc]

example : analyseLine (fun _ => some "/a.h".toList) ⟨[], [], [], [], []⟩ "#include \"a.h\"\r\n".toList =
    .ok ⟨[], ["/a.h".toList], [], [], []⟩ := by decide +kernel

end Tom
