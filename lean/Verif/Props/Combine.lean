import Verif.Lemmas.Combine
/-
C108: the order of the files in the header-only library.
-/
namespace Tom

/-- **C108** (order): when the script succeeds, the header is made of all files, each once, and every file comes after all it includes. -/
theorem C108_order (fs : List SrcFile) (text : Str) (h : combineClasses fs = .ok text) :
    ∃ os, os.Perm fs ∧ DepsFirst os ∧ text = combineText os := by
  rcases sort_inv fs fs.length fs [] le_rfl ⟨by simp, served_nil⟩ with ⟨os, h1, h2⟩ | ⟨h1, -⟩
  · rw [after_nil, List.map_nil] at h1
    simp only [combineClasses, h1, PyRes.bind_ok, PyRes.ok.injEq] at h
    exact ⟨os, by simpa using h2.perm, served_depsFirst h2.served, by rw [← h, combineText_bare]⟩
  · rw [after_nil, List.map_nil] at h1
    simp [combineClasses, h1] at h

/-- **C108** (it ends): the script never runs forever and never reads past the end of its list: it succeeds or raises `RuntimeError`. -/
theorem C108_ends (fs : List SrcFile) : (∃ text, combineClasses fs = .ok text) ∨ combineClasses fs = .runtimeError := by
  rcases sort_inv fs fs.length fs [] le_rfl ⟨by simp, served_nil⟩ with ⟨os, h1, h2⟩ | ⟨h1, -⟩
  · rw [after_nil, List.map_nil] at h1
    exact .inl ⟨combineText (os.map SrcFile.bare), by simp [combineClasses, h1]⟩
  · rw [after_nil, List.map_nil] at h1
    exact .inr (by simp [combineClasses, h1])

/-- **C108** (when): the script succeeds exactly if no file includes itself through others, every included file is among the files, and
no file includes another twice.  (File names are paths, so they differ.) -/
theorem C108_iff (fs : List SrcFile) (hn : (fs.map SrcFile.filename).Nodup) :
    (∃ text, combineClasses fs = .ok text) ↔
      NoCycle fs ∧ (∀ f ∈ fs, ∀ d ∈ f.depsInner, ∃ g ∈ fs, g.filename = d) ∧ ∀ f ∈ fs, f.depsInner.Nodup := by
  rcases sort_inv fs fs.length fs [] le_rfl ⟨by simp, served_nil⟩ with ⟨os, h1, h2⟩ | ⟨h1, rs, os, h2, h3, h4⟩
  · rw [after_nil, List.map_nil] at h1
    have hp : os.Perm fs := by simpa using h2.perm
    have hn' : (os.map SrcFile.filename).Nodup := (hp.map _).nodup_iff.mpr hn
    refine ⟨fun _ => ⟨?_, ?_, ?_⟩, fun _ => ⟨combineText (os.map SrcFile.bare), by simp [combineClasses, h1]⟩⟩
    · have := depsFirst_noCycle (served_depsFirst h2.served) hn'
      intro x
      rw [← includes_perm hp]
      exact this x
    · intro f hf d hd
      obtain ⟨pre, post, e⟩ := List.append_of_mem (hp.mem_iff.mpr hf)
      obtain ⟨g, hg, hgd⟩ := served_depsFirst h2.served pre f post e d hd
      exact ⟨g, hp.mem_iff.mp (by rw [e]; simp [hg]), hgd⟩
    · intro f hf
      obtain ⟨pre, post, e⟩ := List.append_of_mem (hp.mem_iff.mpr hf)
      refine diff_nil_nodup (h2.served pre f post e) ?_
      rw [e, List.map_append] at hn'
      exact (List.nodup_append.mp hn').1
  · rw [after_nil, List.map_nil] at h1
    refine ⟨fun ⟨text, h⟩ => by simp [combineClasses, h1] at h, fun ⟨k1, k2, k3⟩ => ?_⟩
    exfalso
    have hmem : ∀ f ∈ rs, f ∈ fs := fun f hf => h3.perm.mem_iff.mp (by simp [hf])
    refine stuck_cycle h2 hmem (fun f hf => ?_) k1
    by_contra hc
    push Not at hc
    refine h4 f hf (diff_nil_of (k3 f (hmem f hf)) fun d hd => ?_)
    obtain ⟨g, hg, rfl⟩ := k2 f (hmem f hf) d hd
    rcases List.mem_append.mp (h3.perm.mem_iff.mpr hg) with h | h
    · exact absurd hd (hc g h)
    · exact List.mem_map_of_mem h

/-- **C108, twice the same `#include`**: a file that includes another twice, which C++ allows, makes the script fail. -/
theorem C108_false :
    combineClasses [⟨['a'], [], [], [], []⟩, ⟨['b'], [['a'], ['a']], [], [], []⟩] = .runtimeError := by
  decide +kernel

/-- a.h, b.h including a.h, c.h including both: C108_iff applies, and the order is as it has to be -/
example : combineClasses [⟨['c'], [['b'], ['a']], [], [], [['C']]⟩, ⟨['b'], [['a']], [['m']], [], [['B']]⟩, ⟨['a'], [], [], [], [['A']]⟩] =
    .ok "#pragma once\n\n#include <m>\nA\nB\nC\n".toList := by decide +kernel

/-- the files of src/tomsolver and the files of the repository each includes -/
def repoIncludes : List (Str × List Str) :=
    [("config.cpp".toList, ["config.h".toList]),
     ("config.h".toList, []),
     ("diff.cpp".toList, ["diff.h".toList, "functions.h".toList, "simplify.h".toList]),
     ("diff.h".toList, ["node.h".toList]),
     ("error_type.cpp".toList, ["error_type.h".toList]),
     ("error_type.h".toList, []),
     ("functions.h".toList, ["node.h".toList]),
     ("linear.cpp".toList, ["linear.h".toList, "config.h".toList, "error_type.h".toList]),
     ("linear.h".toList, ["mat.h".toList]),
     ("mat.cpp".toList, ["mat.h".toList, "config.h".toList, "error_type.h".toList]),
     ("mat.h".toList, []),
     ("math_operator.cpp".toList, ["math_operator.h".toList, "config.h".toList, "error_type.h".toList]),
     ("math_operator.h".toList, []),
     ("node.cpp".toList, ["node.h".toList, "config.h".toList, "math_operator.h".toList]),
     ("node.h".toList, ["math_operator.h".toList]),
     ("nonlinear.cpp".toList, ["nonlinear.h".toList, "config.h".toList, "error_type.h".toList, "linear.h".toList]),
     ("nonlinear.h".toList, ["mat.h".toList, "symmat.h".toList, "vars_table.h".toList]),
     ("parse.cpp".toList, ["parse.h".toList, "error_type.h".toList, "math_operator.h".toList, "node.h".toList]),
     ("parse.h".toList, ["node.h".toList]),
     ("simplify.cpp".toList, ["simplify.h".toList, "math_operator.h".toList, "node.h".toList]),
     ("simplify.h".toList, ["node.h".toList]),
     ("subs.cpp".toList, ["subs.h".toList, "node.h".toList]),
     ("subs.h".toList, ["node.h".toList, "symmat.h".toList, "vars_table.h".toList]),
     ("symmat.cpp".toList, ["symmat.h".toList, "diff.h".toList, "error_type.h".toList, "mat.h".toList, "node.h".toList, "subs.h".toList]),
     ("symmat.h".toList, ["mat.h".toList, "node.h".toList, "vars_table.h".toList]),
     ("tomsolver.h".toList, ["config.h".toList, "node.h".toList, "functions.h".toList, "simplify.h".toList, "diff.h".toList, "subs.h".toList, "symmat.h".toList, "parse.h".toList, "linear.h".toList, "nonlinear.h".toList]),
     ("vars_table.cpp".toList, ["vars_table.h".toList, "config.h".toList]),
     ("vars_table.h".toList, ["mat.h".toList])]

/-- The files of the repository can be combined; the order (each file stands for its name) is that of single/include/tomsolver/tomsolver.h. -/
theorem C108_repo : combineClasses (repoIncludes.map fun p => ⟨p.1, p.2, [], [], [p.1]⟩) =
    .ok ("#pragma once\n\nmath_operator.h\nmat.h\nlinear.h\nerror_type.h\nerror_type.cpp\nconfig.h\nconfig.cpp\nvars_table.h\nvars_table.cpp\nnode.h\nnode.cpp\nmath_operator.cpp\nmat.cpp\nlinear.cpp\nfunctions.h\ndiff.h\nsymmat.h\nsubs.h\nsubs.cpp\nsimplify.h\nsimplify.cpp\nparse.h\nparse.cpp\nnonlinear.h\nnonlinear.cpp\ndiff.cpp\ntomsolver.h\nsymmat.cpp\n").toList := by decide +kernel

end Tom
