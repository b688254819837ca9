/-!
# Slice helpers

Models slice.go.  A Go slice is a list; the built-in `copy` is modelled with its memmove
semantics, and the shifting code is kept as written.
-/
namespace Readline

/-- `copy(slice[dst:], slice[src:])` on one slice: `min` of the two lengths, memmove. -/
def goCopyWithin (l : List α) (dst src : Nat) : List α :=
  let n := min (l.length - dst) (l.length - src)
  l.take dst ++ (l.drop src).take n ++ l.drop (dst + n)

/-- `copy(slice[dst:dst+k], elems)`. -/
def goCopyInto (l : List α) (dst k : Nat) (elems : List α) : List α :=
  let n := min k elems.length
  l.take dst ++ elems.take n ++ l.drop (dst + n)

/-- `sliceInsert`, slice.go:3-14, for `0 ≤ at ≤ len(slice)` (`insertBounds`). -/
def sliceInsert (slice : List α) (pos : Nat) (elements : List α) : List α :=
  let s1 := slice ++ elements
  let s2 := goCopyWithin s1 (pos + elements.length) pos
  goCopyInto s2 pos elements.length elements

/-- `sliceDelete`, slice.go:16-19, for `0 ≤ at`, `at+n ≤ len(slice)`. -/
def sliceDelete (slice : List α) (pos n : Nat) : List α :=
  (goCopyWithin slice pos (pos + n)).take (slice.length - n)

end Readline
