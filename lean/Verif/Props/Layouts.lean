import Verif.Loops.LayoutLemmas

/-!
# C13: generated layouts
-/

namespace Yask
open Spec

/-- C13: for every permutation of any number of dimensions, `layout` is the row-major linear index of
the point with the dimensions taken in the permuted order (so the last dimension of the permutation has
unit stride), and it is below the number of elements. -/
theorem C13_layout_value (p : List Nat) (sizes j : List Int)
    (hp : p.Perm (List.range sizes.length)) (h : InSpace sizes j) :
    layoutPerm p sizes j = lin false (p.map fun k => sizes.getD k 0) (p.map fun k => j.getD k 0) ∧
      0 ≤ layoutPerm p sizes j ∧ layoutPerm p sizes j < numPoints sizes := by
  have hk : ∀ k ∈ p, k < sizes.length := fun k hk => List.mem_range.1 (hp.mem_iff.1 hk)
  have hg := gather_inSpace p sizes j hk h
  have hr := layoutSum_range _ _ hg
  rw [prodVals_gather p sizes hp, prodVals_eq] at hr
  refine ⟨?_, hr⟩
  unfold layoutPerm lin
  simp only [Bool.false_eq_true, if_false]
  exact layoutSum_eq_linLast _ _ (by simp [gather])

/-- C13: `unlayout` inverts `layout` on every point of the space. -/
theorem C13_unlayout_layout (p : List Nat) (sizes j : List Int)
    (hp : p.Perm (List.range sizes.length)) (h : InSpace sizes j) :
    unlayoutPerm p sizes (layoutPerm p sizes j) = j := by
  have hk : ∀ k ∈ p, k < sizes.length := fun k hk => List.mem_range.1 (hp.mem_iff.1 hk)
  have hg := gather_inSpace p sizes j hk h
  have hlen := (inSpace_nonneg h).2.2
  have hnd : p.Nodup := hp.symm.nodup List.nodup_range
  unfold unlayoutPerm layoutPerm
  rw [flatIndices_layoutSum _ _ hg]
  apply gather_injective p sizes.length hp _ _ (scatter_length _ _ _) hlen
  exact gather_scatter p hnd _ _ (by simp [gather]) hk

/-- C13: `layout` inverts `unlayout` on every offset, and `unlayout` gives a point of the space. -/
theorem C13_layout_unlayout (p : List Nat) (sizes : List Int)
    (hp : p.Perm (List.range sizes.length)) (hpos : ∀ d ∈ sizes, 0 < d) (ai : Int) (h0 : 0 ≤ ai)
    (h1 : ai < numPoints sizes) :
    InSpace sizes (unlayoutPerm p sizes ai) ∧ layoutPerm p sizes (unlayoutPerm p sizes ai) = ai := by
  have hk : ∀ k ∈ p, k < sizes.length := fun k hk => List.mem_range.1 (hp.mem_iff.1 hk)
  have hnd : p.Nodup := hp.symm.nodup List.nodup_range
  have hgp := gather_pos p sizes hk hpos
  have h1' : ai < prodVals (gather p sizes) := by
    rw [prodVals_gather p sizes hp, prodVals_eq]; exact h1
  have hin := flatIndices_inSpace _ hgp ai h0 h1'
  have hgs : gather p (unlayoutPerm p sizes ai) = flatIndices true (gather p sizes) ai := by
    unfold unlayoutPerm
    exact gather_scatter p hnd _ _ (by
      rw [(inSpace_nonneg hin).2.2]; simp [gather]) hk
  refine ⟨?_, ?_⟩
  · apply inSpace_of_gather p sizes _ hp (scatter_length _ _ _)
    exact hgs.symm ▸ hin
  · unfold layoutPerm
    rw [hgs]
    exact layoutSum_flatIndices _ hgp ai h0 h1'

/-- C13: the last dimension of the permutation is stored with unit stride: moving one step in it moves
the offset by exactly one. -/
theorem C13_unit_stride (p : List Nat) (k : Nat) (sizes j j' : List Int)
    (hp : (p ++ [k]).Perm (List.range sizes.length))
    (hsame : ∀ i, i ≠ k → j.getD i 0 = j'.getD i 0) (hk : j'.getD k 0 = j.getD k 0 + 1) :
    layoutPerm (p ++ [k]) sizes j' = layoutPerm (p ++ [k]) sizes j + 1 := by
  have hnd : (p ++ [k]).Nodup := hp.symm.nodup List.nodup_range
  have hkp : k ∉ p := by
    intro hm
    have := (List.nodup_append.1 hnd).2.2 k hm k (by simp)
    exact this rfl
  unfold layoutPerm gather
  rw [layoutSum_eq_linLast _ _ (by simp), layoutSum_eq_linLast _ _ (by simp)]
  unfold linLast
  simp only [List.map_append, List.map_cons, List.map_nil, List.reverse_append, List.reverse_cons,
    List.reverse_nil, List.nil_append, List.cons_append, linFirst]
  have e : (p.map fun i => j.getD i 0) = p.map fun i => j'.getD i 0 := by
    apply List.map_congr_left
    intro i hi
    exact hsame i (fun hik => hkp (hik ▸ hi))
  rw [e, hk]
  omega

example : [2, 0, 1].Perm (List.range [4, 3, 5].length) ∧ InSpace [4, 3, 5] [3, 1, 2] ∧
    layoutPerm [2, 0, 1] [4, 3, 5] [3, 1, 2] = 34 ∧ unlayoutPerm [2, 0, 1] [4, 3, 5] 34 = [3, 1, 2] := by
  refine ⟨by decide, ?_, by decide +kernel, by decide +kernel⟩
  unfold InSpace; simp

end Yask
