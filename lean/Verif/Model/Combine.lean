import Verif.Model.Basic
import Mathlib.Data.List.Sort
import Mathlib.Data.List.Lex
/-
Models scripts/util.py and scripts/combine_src_to_header_only.py, which make the header-only library
`single/include/tomsolver/tomsolver.h` out of the files of src/.  Simplified: a file is the list of its lines without line ends; the file
system is a function from the name in an `#include` to a path; the messages printed, the byte order mark and the final call of
`clang-format` are left out.
-/
namespace Tom

/-- How a Python function ends: a result, `IndexError`, `RuntimeError`, or never. -/
inductive PyRes (β : Type) : Type
  | ok (b : β)
  | indexError
  | runtimeError
  | diverge
  deriving DecidableEq, Repr

namespace PyRes
/-- sequencing -/
def bind {β γ : Type} (m : PyRes β) (f : β → PyRes γ) : PyRes γ :=
  match m with
  | ok b => f b
  | indexError => indexError
  | runtimeError => runtimeError
  | diverge => diverge

instance : Monad PyRes where
  pure := ok
  bind := bind
end PyRes

/-- `str.isspace`, which `strip`, `rstrip` and `\s` use -/
def pySpace (c : Char) : Bool :=
  (9 ≤ c.toNat && c.toNat ≤ 13) || (28 ≤ c.toNat && c.toNat ≤ 32) || c.toNat = 0x85 || c.toNat = 0xa0 || c.toNat = 0x1680 ||
  (0x2000 ≤ c.toNat && c.toNat ≤ 0x200a) || c.toNat = 0x2028 || c.toNat = 0x2029 || c.toNat = 0x202f || c.toNat = 0x205f || c.toNat = 0x3000

/-- `line.rstrip()` -/
def pyRstrip (s : Str) : Str := (s.reverse.dropWhile pySpace).reverse

/-- `line.strip()` -/
def pyStrip (s : Str) : Str := pyRstrip (s.dropWhile pySpace)

/-- `[a-z_./\\]` of util.py:57, 66 -/
def headerChar (c : Char) : Bool := ('a' ≤ c && c ≤ 'z') || c = '_' || c = '.' || c = '/' || c = '\\'

/-- `s` without the prefix `p` -/
def afterPrefix : Str → Str → Option Str
  | [], s => some s
  | _ :: _, [] => none
  | c :: p, d :: s => if c = d then afterPrefix p s else none

/-- util.py:57 and 66: `re.match(r"#include\s+OPEN([a-z_./\\]+)CLOSE", s)`, and the group -/
def matchInclude (opn cls : Char) (s : Str) : Option Str :=
  match afterPrefix "#include".toList s with
  | none => none
  | some r =>
    match r with
    | [] => none
    | c :: _ =>
      if pySpace c = false then none
      else
        match r.dropWhile pySpace with
        | [] => none
        | d :: t =>
          if d ≠ opn then none
          else
            let name := t.takeWhile headerChar
            match t.dropWhile headerChar with
            | [] => none
            | e :: _ => if e = cls ∧ name ≠ [] then some name else none

/-- util.py:76: `re.match(r"^(?<!inline)[a-zA-Z].+\(", line)`; at the beginning of the line the look-behind always holds -/
def looksLikeFunction : Str → Bool
  | [] => false
  | c :: s => (('a' ≤ c && c ≤ 'z') || ('A' ≤ c && c ≤ 'Z')) && (s.drop 1).contains '('

/-- util.py:36-88 the members of `MyClass`; `filename` is a full path -/
structure SrcFile where
  filename : Str
  depsInner : List Str
  depsLib : List Str
  defines : List Str
  contents : List Str
  deriving DecidableEq, Repr

/-- util.py:50-80 one line -/
def analyseLine (resolve : Str → Option Str) (f : SrcFile) (line : Str) : PyRes SrcFile :=
  let s := pyStrip line
  if s = "#pragma once".toList then .ok f
  else
    match matchInclude '"' '"' s with
    | some basename =>
      match resolve basename with
      | none => .runtimeError
      | some fullname => .ok { f with depsInner := f.depsInner ++ [fullname] }
    | none =>
      match matchInclude '<' '>' s with
      | some basename => .ok { f with depsLib := f.depsLib ++ [basename] }
      | none =>
        if (afterPrefix "#define".toList s).isSome then .ok { f with defines := f.defines ++ [s] }
        else if looksLikeFunction line then .ok { f with contents := f.contents ++ ["inline ".toList ++ pyRstrip line] }
        else .ok { f with contents := f.contents ++ [pyRstrip line] }

/-- util.py:50-80 the loop over the lines -/
def analyseLines (resolve : Str → Option Str) : List Str → SrcFile → PyRes SrcFile
  | [], f => .ok f
  | l :: ls, f => do
    let f ← analyseLine resolve f l
    analyseLines resolve ls f

/-- util.py:36-84 `MyClass(filename, include_dirs)` -/
def analyse (resolve : Str → Option Str) (filename : Str) (lines : List Str) : PyRes SrcFile :=
  analyseLines resolve lines ⟨filename, [], [], [], []⟩

/-- util.py:97-114: `for i in range(len(elements) - 1, -1, -1)`.  `elements.remove(cls)` compares objects, so it removes the element at `i`;
`t.depsInner.remove(obj)` removes the first occurrence. -/
def combinePass : Nat → List SrcFile → List SrcFile → PyRes (List SrcFile × List SrcFile)
  | 0, elements, temp => .ok (elements, temp)
  | i + 1, elements, temp =>
    match elements[i]? with
    | none => .indexError
    | some cls =>
      if cls.depsInner.length > 0 then combinePass i elements temp
      else
        combinePass i ((elements.eraseIdx i).map fun t => { t with depsInner := t.depsInner.erase cls.filename }) (temp ++ [cls])

/-- util.py:92-121: the topological sort -/
def combineSort : Nat → List SrcFile → List SrcFile → PyRes (List SrcFile)
  | _, [], sorted => .ok sorted
  | 0, _ :: _, _ => .diverge
  | fuel + 1, e :: es, sorted => do
    let (elements, temp) ← combinePass (e :: es).length (e :: es) []
    if temp = [] then .runtimeError else combineSort fuel elements (sorted ++ temp)

/-- `l = list(set(l)); l.sort()` -/
def pySortedSet (l : List Str) : List Str := l.dedup.insertionSort (· ≤ ·)

/-- util.py:134-150: what is written for the files in their order -/
def combineText (sorted : List SrcFile) : Str :=
  "#pragma once\n\n".toList ++
  (pySortedSet (sorted.flatMap SrcFile.defines)).flatMap (fun d => d ++ ['\n']) ++
  (pySortedSet (sorted.flatMap SrcFile.depsLib)).flatMap (fun h => "#include <".toList ++ h ++ ['>', '\n']) ++
  sorted.flatMap (fun e => List.intercalate ['\n'] e.contents ++ ['\n'])

/-- util.py:91-159 `combineClasses` -/
def combineClasses (elements : List SrcFile) : PyRes Str := do
  let sorted ← combineSort elements.length elements []
  .ok (combineText sorted)

/-- the analysis of all files, in their order (util.py:167-169) -/
def analyseAll (resolve : Str → Option Str) : List (Str × List Str) → PyRes (List SrcFile)
  | [] => .ok []
  | p :: ps => do
    let f ← analyse resolve p.1 p.2
    let fs ← analyseAll resolve ps
    .ok (f :: fs)

/-- util.py:162-171 `combineCodeFile`: from the files of src/ to the text of the header -/
def combineCodeFile (resolve : Str → Option Str) (files : List (Str × List Str)) : PyRes Str := do
  let elements ← analyseAll resolve files
  combineClasses elements

end Tom
