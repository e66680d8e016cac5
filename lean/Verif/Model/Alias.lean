import Verif.Model.Osc

/-!
# `process` on spans of one memory

`Model/Osc.lean` treats the two spans as separate lists. Here both lie in one memory, possibly
overlapping, as C++ allows: `Span<const float> phases` does not promise that the phases stay the same.
-/

namespace Adwt
namespace Sys
variable {K C : Type} [Field K] [LinearOrder K] [FloorRing K]
variable [Zero C] [Add C] [Sub C] [Mul C] [Div C]

/-- The loops of `processFwd` and `processBi`, `adwt/adwt.cpp:376-384, 392-406`, with the phases at
address `pa` and the output at address `oa` of a memory. `phase` is a reference into the memory; it is
read for the difference, then passed by value to `processSampleFwd/Bwd` (`adwt/adwt.cpp:409-411,
503-505`), whose write to the output (`adwt/adwt.cpp:491-493, 597-599`) can no longer change it; so one
read and then one write per iteration. Iterating `iter::zip`
moves both addresses forward. -/
def memLoop (S : Sys K C) (dir : Direction) (o : Osc K C) (mem : ℕ → K) (pa oa : ℕ) :
    ℕ → R (Osc K C × (ℕ → K))
  | 0 => .ok (o, mem)
  | n + 1 => do
    let (o1, y) ← S.stepDir dir o (mem pa)
    memLoop S dir o1 (Function.update mem oa y) (pa + 1) (oa + 1) n

/-- `process<Dir>(phases, output)`, `adwt/adwt.hpp:149-156`, with the spans `[pa, pa + pn)` and
`[oa, oa + on)`. -/
def processMem (S : Sys K C) (dir : Direction) (o : Osc K C) (mem : ℕ → K) (pa pn oa on : ℕ) :
    R (Osc K C × (ℕ → K)) := do
  if o.wt.isNone then chk S.env.dbg False
  chk S.env.dbg (pn = on)
  S.memLoop dir o mem pa oa (min pn on)

end Sys
end Adwt
