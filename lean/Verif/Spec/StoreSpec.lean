/-!
# Specification: storage areas

An area is a number of bytes at an offset in a chunk of memory. Chunks of different names are different memory.
-/

namespace Yask.Spec

/-- An area of memory: `len` bytes from offset `ofs` of chunk `chunk`. -/
structure Area (K : Type) where
  chunk : K
  ofs : Nat
  len : Nat
deriving DecidableEq

/-- A byte of an area. -/
def Area.Has {K : Type} (a : Area K) (k : K) (b : Nat) : Prop := k = a.chunk ∧ a.ofs ≤ b ∧ b < a.ofs + a.len

/-- No byte belongs to both areas. -/
def Area.Apart {K : Type} (a b : Area K) : Prop := ∀ k i, ¬(a.Has k i ∧ b.Has k i)

/-- All bytes of the area have been allocated: chunk `k` has `size k` bytes. -/
def Area.Inside {K : Type} (size : K → Nat) (a : Area K) : Prop := ∀ k i, a.Has k i → i < size k

end Yask.Spec
