import Verif.Compiler.VecLemmas
import Verif.Compiler.VecElemLemmas

/-!
# Properties of vectorized reads (C52)
-/

namespace Yask
open Comp Spec

/-- For a vectorized read at arbitrary constant offsets, the compiler finds for each element `k` an aligned block
and an element in it whose position is the offset plus the k-th fold point, in every dimension. -/
theorem C52_elements (fold : Tup) (ofs : Loc) (h : VecRead fold ofs) :
    (vecElems fold ofs).length = (numPoints fold.vals).toNat ∧
    ∀ k : Nat, (k : Int) < numPoints fold.vals → ∃ ve, (vecElems fold ofs)[k]? = some ve ∧
      (ve.offset : Int) < numPoints fold.vals ∧ ve.vec.map Prod.fst = ofs.map Prod.fst ∧
      (∀ dim len, fold.lookup dim = some len → len ∣ ve.vec.at dim) ∧
      ∀ dim, ve.vec.at dim + (foldPoint fold ve.offset).at dim = ofs.at dim + (foldPoint fold k).at dim := by
  rw [vecElems_eq ofs h.pos]
  refine ⟨by simp, fun k hk => ?_⟩
  refine ⟨elemAt fold ofs (unlayoutVals fold.firstInner fold.vals k), ?_, elemAt_spec h k _ rfl _ rfl⟩
  rw [List.getElem?_map, List.getElem?_range (by omega)]
  rfl

/-- `isa`: the printer used; `vecs`: the aligned blocks in the order in which they are tried; `defined`: the control
variables already defined; `v0`: the contents of the vector before. `selBit` is `ctrl_sel_bit`, a power of two that
is not less than the vector length.

After the code that assembles an unaligned vector, each element `k` of the vector is the value of the var at the
offset plus the k-th fold point, if the aligned vectors hold the values of their blocks. -/
theorem C52_assembled {α : Type} (isa : Isa) (fold : Tup) (ofs : Loc) (h : VecRead fold ofs)
    (A : (String → Int) → α) (vecs : List Loc) (defined : List (List Tok)) (v0 : Nat → α)
    (selBit b : Nat) (hb : selBit = 2 ^ b) (hsel : numPoints fold.vals ≤ selBit) (k : Nat)
    (hk : (k : Int) < numPoints fold.vals) :
    execAll (numPoints fold.vals).toNat selBit (blockElem fold A)
      (unalignedCtor isa (vecElems fold ofs) vecs defined).1 v0 k = readElem fold A ofs k := by
  obtain ⟨hlen, hel⟩ := C52_elements fold ofs h
  have hofs : ∀ ve ∈ vecElems fold ofs, ve.offset < selBit := by
    intro ve hve
    obtain ⟨j, hj⟩ := List.mem_iff_getElem?.1 hve
    have hjl := (List.getElem?_eq_some_iff.1 hj).1
    obtain ⟨ve', hve', hlt, _⟩ := hel j (by omega)
    rw [hj] at hve'
    cases hve'
    omega
  obtain ⟨ve, hve, he⟩ := unalignedCtor_ok b hb (vecElems fold ofs) hofs isa vecs defined (blockElem fold A) v0 k (by omega)
  rw [hlen] at he
  rw [he]
  obtain ⟨ve', hve', _, _, _, hpos⟩ := hel k hk
  rw [hve] at hve'
  cases hve'
  unfold blockElem readElem
  congr 1
  funext dim
  exact hpos dim

/-- The assembling code reads no block except those in the list, if the blocks of all elements are in it: these are
the aligned vectors that were read before (`Vec.cpp:114-118`). -/
theorem C52_blocks (isa : Isa) (elems : List VecElem) (vecs : List Loc) (hv : ∀ ve ∈ elems, ve.vec ∈ vecs)
    (defined : List (List Tok)) :
    ∀ c ∈ (unalignedCtor isa elems vecs defined).1, ∀ m ∈ c.inputs, m ∈ vecs :=
  unalignedCtor_reads isa elems vecs hv defined

/-- The implementations of `real_vec_align` for AVX2 and for AVX do the same as the one without intrinsics, for every
even vector length and each count that is used. -/
theorem C52_align_avx {α : Type} (vlen count : Nat) (he : 2 ∣ vlen) (h0 : 0 < count) (hc : count < vlen)
    (a b : Nat → α) (i : Nat) (hi : i < vlen) :
    realVecAlignAvx2 vlen count a b i = realVecAlign vlen count a b i ∧
    realVecAlignAvx vlen count a b i = realVecAlign vlen count a b i := by
  obtain ⟨half, rfl⟩ := he
  have hh : 2 * half / 2 = half := by omega
  constructor
  · unfold realVecAlignAvx2 realVecAlign
    simp only [hh]
    by_cases h1 : count = half
    · rw [if_pos h1]
      unfold permute2x128
      by_cases h2 : i < half
      · rw [if_pos h2, if_pos (by omega), h1]
      · rw [if_neg h2, if_neg (by omega)]
        congr 1; omega
    rw [if_neg h1]
    by_cases h2 : count < half
    · rw [if_pos h2]
      unfold alignrLanes permute2x128
      by_cases h3 : i < half
      · simp only [if_pos h3, Nat.sub_zero, Nat.zero_add]
        by_cases h4 : i + count < half
        · rw [if_pos h4, if_pos (by omega)]
        · rw [if_neg h4, if_pos (by omega), if_pos (by omega)]
          congr 1; omega
      · simp only [if_neg h3]
        by_cases h4 : i - half + count < half
        · rw [if_pos h4, if_pos (by omega)]
          congr 1; omega
        · rw [if_neg h4, if_neg (by omega), if_neg (by omega)]
          congr 1; omega
    · rw [if_neg h2]
      unfold alignrLanes permute2x128
      by_cases h3 : i < half
      · simp only [if_pos h3, Nat.sub_zero, Nat.zero_add]
        by_cases h4 : i + (count - half) < half
        · rw [if_pos h4, if_pos (by omega), if_pos (by omega)]
          congr 1; omega
        · rw [if_neg h4, if_neg (by omega)]
          congr 1; omega
      · simp only [if_neg h3]
        by_cases h4 : i - half + (count - half) < half
        · rw [if_pos h4, if_neg (by omega), if_neg (by omega)]
          congr 1; omega
        · rw [if_neg h4, if_neg (by omega)]
          congr 1; omega
  · unfold realVecAlignAvx realVecAlign
    by_cases h1 : i < 2 * half - count
    · simp only [if_pos h1, if_pos (show count + i < 2 * half by omega)]
      congr 1; omega
    · simp only [if_neg h1, if_neg (show ¬ count + i < 2 * half by omega)]
      congr 1; omega

/-- A 4x2 fold in x and y, read at x-3, y+1 and also at z+5, which is not folded. -/
def exFold : Tup := { q := [("x", 4), ("y", 2), ("z", 1)] }
/-- The offsets. -/
def exOfs : Loc := [("x", -3), ("y", 1), ("z", 5)]

example : VecRead exFold exOfs := ⟨by decide, by decide, by decide⟩
example : numPoints exFold.vals = 8 ∧ numPoints exFold.vals ≤ ((8 : Nat) : Int) ∧ 8 = 2 ^ 3 := by decide

/-- Element 5, i.e. x+1, y+1, is at x-2, y+2, z+5: element 2 of the block at x-4, y+2, z+5. -/
example : (vecElems exFold exOfs)[5]? = some ⟨[("x", -4), ("y", 2), ("z", 5)], 2⟩ := by decide +kernel

/-- With AVX-512 this read takes two statements, with AVX2 three. -/
example : (unalignedCtor .avx512 (vecElems exFold exOfs) ((vecElems exFold exOfs).map (·.vec)).dedup []).1.length = 2 ∧
    (unalignedCtor .avx2 (vecElems exFold exOfs) ((vecElems exFold exOfs).map (·.vec)).dedup []).1.length = 3 := by
  decide +kernel

end Yask
