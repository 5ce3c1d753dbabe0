import Mathlib.Algebra.Order.Ring.Int

/-!
# Specification of sizes fitted into a tile

What a user is told about block sizes: 0 (or less) asks for the size of the enclosing tile, a size is rounded up to whole
vectors, and no size exceeds the enclosing one.
-/

namespace Yask.Spec

/-- `res` is the least whole number of vectors of at least `req` points if that fits in `outer`, otherwise `outer`;
`outer` itself if nothing is requested. -/
structure Fits (req outer fold res : Int) : Prop where
  pos : 0 < res
  le : res ≤ outer
  unset : req ≤ 0 → res = outer
  whole : fold ∣ res ∨ res = outer
  atLeast : req ≤ res ∨ res = outer
  least : ∀ m, fold ∣ m → 0 < req → req ≤ m → m ≤ outer → res ≤ m

end Yask.Spec
