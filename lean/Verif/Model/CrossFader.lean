import Verif.Model.Maths

/-!
# `adwt/crossfading.hpp`
-/

namespace Adwt
variable {K : Type} [Field K] [LinearOrder K] [FloorRing K]

/-- `MipMapIndices`, `adwt/crossfading.hpp:19`: the tuple (lower index, its weight, upper index,
its weight). -/
structure MipMapIndices (K : Type) where
  idx : Int
  weight : K
  idxUp : Int
  weightUp : K
deriving DecidableEq, Repr

/-- The members of `CrossFader`, `adwt/crossfading.hpp:126-130`. -/
structure CrossFader (K : Type) where
  numSamples : Int
  scale : List K
  samplesLeft : Int
  prevIdx : Int
  nextIdx : Int
deriving DecidableEq, Repr

namespace CrossFader

/-- The `while` loop of `findMipMapIndex`, `adwt/crossfading.hpp:88-94`: walks over all entries
but the last one and stops at the first entry above `d`. The loop index is the number of entries
skipped. -/
def findLoop (d : K) : List K → Nat
  | [] => 0
  | [_] => 0
  | s :: s' :: rest => if d < s then 0 else findLoop d (s' :: rest) + 1

/-- `findMipMapIndex`, `adwt/crossfading.hpp:85-97`. -/
def findMipMapIndex (dbg : Bool) (scale : List K) (d : K) : R Int := do
  chk dbg (d > 0)
  return (findLoop d scale : Int)

/-- `computeFading`, `adwt/crossfading.hpp:81-83`. -/
def computeFading (E : Env K) (c : CrossFader K) : R K :=
  fdiv E.fl (E.fl (c.samplesLeft : K)) (E.fl (c.numSamples : K))

/-- `updateIndices`, `adwt/crossfading.hpp:99-106`. -/
def updateIndices (c : CrossFader K) (newIdx : Int) : CrossFader K :=
  if newIdx > c.prevIdx then { c with prevIdx := newIdx - 1, nextIdx := newIdx }
  else { c with prevIdx := newIdx + 1, nextIdx := newIdx }

/-- The common tail of `newIndices`, `adwt/crossfading.hpp:69-73`. -/
def fadeTuple (E : Env K) (c : CrossFader K) : R (CrossFader K × MipMapIndices K) := do
  let fading ← computeFading E c
  if c.nextIdx > c.prevIdx then
    return (c, ⟨c.prevIdx, fading, c.nextIdx, E.fl (1 - fading)⟩)
  else
    return (c, ⟨c.nextIdx, E.fl (1 - fading), c.prevIdx, fading⟩)

/-- The "already crossfading" branch, `adwt/crossfading.hpp:40-55`: state update only. -/
def continueFade (c : CrossFader K) (newIdx : Int) : CrossFader K :=
  let c1 := if newIdx ≠ c.nextIdx ∧ newIdx ≠ c.prevIdx then c.updateIndices newIdx else c
  let c2 := { c1 with samplesLeft := c1.samplesLeft - 1 }
  if c2.samplesLeft = 0 then { c2 with prevIdx := c2.nextIdx } else c2

/-- `newIndices`, `adwt/crossfading.hpp:37-74`. -/
def newIndices (E : Env K) (c : CrossFader K) (d : K) :
    R (CrossFader K × MipMapIndices K) := do
  let newIdx ← findMipMapIndex E.dbg c.scale d
  if c.samplesLeft ≠ 0 then
    chk E.dbg (c.prevIdx ≠ c.nextIdx)
    fadeTuple E (c.continueFade newIdx)
  else if newIdx = c.nextIdx then
    chk E.dbg (c.prevIdx = c.nextIdx)
    return (c, ⟨newIdx, 1, newIdx + 1, 0⟩)
  else
    fadeTuple E ({ c with samplesLeft := c.numSamples }.updateIndices newIdx)

/-- `resetPhaseDiff`, `adwt/crossfading.hpp:30-33` (dead code: called from nowhere). -/
def resetPhaseDiff (dbg : Bool) (c : CrossFader K) (d : K) : R (CrossFader K) := do
  let i ← findMipMapIndex dbg c.scale d
  return { c with prevIdx := i, nextIdx := i }

/-- `numMipMapTables`, `adwt/crossfading.hpp:76-78`. -/
def numMipMapTables (c : CrossFader K) : Int := c.scale.length

/-- `computeNumMipMapTables`, `adwt/crossfading.hpp:122-124`. -/
def computeNumMipMapTables (E : Env K) (len : Int) : R Int := do
  let q ← fdiv E.fl (E.fl (len : K)) 4
  let f ← Maths.floor E.fl (E.log2f q)
  return f + 1

/-- One entry of the mipmap scale, `adwt/crossfading.hpp:116`. `std::pow(2.F, i)` is exact. -/
def scaleEntry (E : Env K) (start sr : K) (i : Nat) : R K :=
  fdiv E.fl (E.fl (start * 2 ^ i)) sr

/-- `computeMipMapScale`, `adwt/crossfading.hpp:108-120`. A negative `num` is converted to a
huge `size_t` and the vector constructor throws `std::length_error`. -/
def computeMipMapScale (E : Env K) (len : Int) (sr : K) : R (List K) := do
  let q ← fdiv E.fl sr (E.fl (len : K))
  let start := E.fl (q * 2)
  let num ← computeNumMipMapTables E len
  if num < 0 then .error .lengthError
  else (List.range num.toNat).mapM (scaleEntry E start sr)

/-- The constructor, `adwt/crossfading.hpp:23-28`; `initPhaseDiff` has the default `0.1F`, which
`WavetableData` never overrides (`wavetable_data.cpp:55`). -/
def make (E : Env K) (numSamples len : Int) (sr : K) : R (CrossFader K) := do
  let scale ← computeMipMapScale E len sr
  let i ← findMipMapIndex E.dbg scale (E.fl (1 / 10))
  return ⟨numSamples, scale, 0, i, i⟩

end CrossFader
end Adwt
