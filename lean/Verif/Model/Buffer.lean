import Verif.Model.Ieee
/-
`tomsolver::ToString(double)` (src/tomsolver/config.cpp:12-38) with the buffer it prints into: `char buf[64]` and
`snprintf(buf, sizeof(buf), fmt, value)`, which cuts the text off after 63 characters.  Model/Format.lean and Model/Ieee.lean have
the same function without the buffer.
-/
namespace Tom

/-- config.cpp:25 `char buf[64]`: the number of characters besides the terminating 0 -/
def bufferSize : Nat := 63

/-- config.cpp:36 `snprintf(buf, sizeof(buf), ...)` of a text -/
def intoBuffer (s : Str) : Str := s.take bufferSize

/-- config.cpp:21-38 as `formatDouble`, through the buffer -/
def formatDoubleBuf (v : Rat) : Str :=
  if v = 0 then ['0']
  else
    let a : Rat := if v < 0 then -v else v
    if a ≥ 10 ^ 16 ∨ a * 10 ^ 16 ≤ 1 then stripE (intoBuffer (fmtSci16 v))
    else stripEnd (intoBuffer (fmtFixed16 v))

/-- config.cpp:21-38 for every double: infinities take the first strategy, NaN the second (all comparisons with it are false) -/
def F64.toStrBuf : F64 → Str
  | .nan => stripEnd (intoBuffer ['n', 'a', 'n'])
  | .inf s => stripE (intoBuffer ((if s then ['-'] else []) ++ ['i', 'n', 'f']))
  | .zero _ => ['0']
  | .num q => formatDoubleBuf q

end Tom
