import Mathlib.Algebra.BigOperators.Group.List.Basic
import Mathlib.Tactic.Ring
import Mathlib.Tactic.Linarith
import Verif.Compiler.PtrModel

/-! Helper lemmas: the pointers of the generated inner loop. -/

namespace Yask.Comp
open Var

/-! ### The layout is linear -/

/-- Distance of neighbours along dim `k`. -/
def wt (p : List Nat) (sizes : List Int) (k : Nat) : Int := prodVals (gather (p.dropWhile (· ≠ k)).tail sizes)

theorem layoutPerm_linear {p : List Nat} (hp : p.Nodup) (sizes j : List Int) :
    layoutPerm p sizes j = (p.map fun k => j.getD k 0 * wt p sizes k).sum := by
  induction p with
  | nil => rfl
  | cons k ks ih =>
    have hn := List.nodup_cons.1 hp
    have e : layoutPerm (k :: ks) sizes j = j.getD k 0 * prodVals (gather ks sizes) + layoutPerm ks sizes j := rfl
    rw [e, ih hn.2, List.map_cons, List.sum_cons]
    congr 1
    · simp [wt]
    · apply congrArg
      apply List.map_congr_left
      intro i hi
      have : k ≠ i := fun h => hn.1 (h ▸ hi)
      simp [wt, this]

theorem sum_single {p : List Nat} (hp : p.Nodup) {k : Nat} (hk : k ∈ p) (f : Nat → Int) :
    (p.map fun i => if i = k then f i else 0).sum = f k := by
  induction p with
  | nil => simp at hk
  | cons a as ih =>
    have hn := List.nodup_cons.1 hp
    rw [List.map_cons, List.sum_cons]
    by_cases h : a = k
    · subst h
      have : (as.map fun i => if i = a then f i else 0) = as.map fun _ => 0 := by
        apply List.map_congr_left
        intro i hi
        rw [if_neg]
        intro e; exact hn.1 (e ▸ hi)
      rw [this]; simp
    · rw [if_neg h, zero_add]
      exact ih hn.2 (by simpa [Ne.symm h] using hk)

theorem vecStride_eq {g : Geom} (hl : g.layout.Perm (List.range g.dims.length)) {k : Nat} (hk : k < g.dims.length) :
    g.vecStride k = wt g.layout g.vecAllocs k := by
  have hnd : g.layout.Nodup := hl.nodup_iff.2 List.nodup_range
  have hm : k ∈ g.layout := hl.mem_iff.2 (List.mem_range.2 hk)
  unfold Geom.vecStride
  simp only
  rw [layoutPerm_linear hnd, layoutPerm_linear hnd]
  have h0 : ∀ i, (g.dims.map fun _ => (0 : Int)).getD i 0 = 0 := by
    intro i
    by_cases h : i < g.dims.length
    · simp [List.getD, h]
    · simp [List.getD]
  have h1 : ∀ i, ((g.dims.map fun _ => (0 : Int)).set k 1).getD i 0 = if i = k then 1 else 0 := by
    intro i
    by_cases h : i = k
    · subst h; simp [List.getD, hk]
    · have h2 := h0 i
      rw [if_neg h]
      simp only [List.getD] at h2 ⊢
      rw [List.getElem?_set_ne (Ne.symm h)]
      exact h2
  simp only [h0, h1, ite_mul, one_mul, zero_mul]
  rw [sum_single hnd hm]
  simp

/-! ### The var in the compiler and in the kernel -/

/-- Dim of a var in the kernel. -/
def dimAt (g : Geom) (k : Nat) : DimG := g.dims.getD k { kind := .step }

/-- The kernel's var is what the compiler has assumed. -/
structure CVar.Of (v : CVar) (o : PtrOpts) (g : Geom) : Prop where
  len : v.dims.length = g.dims.length
  layout : v.layout = g.layout
  kind : ∀ k < g.dims.length, (v.dim k).kind = (dimAt g k).kind
  fold : ∀ k < g.dims.length, (dimAt g k).kind = .domain → (v.dim k).fold = (dimAt g k).varVL
  miscFirst : ∀ k < g.dims.length, (dimAt g k).kind = .misc → (v.dim k).minIdx = (dimAt g k).vecLocalOfs
  miscSize : o.innerMisc = true → ∀ k < g.dims.length, (dimAt g k).kind = .misc →
    (dimAt g k).vecAlloc = (v.dim k).maxIdx - (v.dim k).minIdx + 1
  loop : v.loopPosn < g.dims.length ∧ (dimAt g v.loopPosn).kind = .domain

section
variable {v : CVar} {o : PtrOpts} {g : Geom} (hv : v.Of o g) (hl : g.layout.Perm (List.range g.dims.length))
include hv hl

theorem stride_eq {k : Nat} (hk : k < g.dims.length) : v.stride o g k = wt g.layout g.vecAllocs k := by
  unfold CVar.stride CVar.fixedStride
  by_cases h : ((v.after k).all fun j => (v.dim j).kind == .misc && o.innerMisc) = true
  · rw [if_pos h]
    simp only
    unfold wt gather CVar.after
    rw [hv.layout]
    congr 1
    apply List.map_congr_left
    intro j hj
    have hjl : j ∈ g.layout := (List.dropWhile_sublist _).subset (List.mem_of_mem_tail hj)
    have hjn : j < g.dims.length := List.mem_range.1 (hl.mem_iff.1 hjl)
    have h1 := List.all_eq_true.1 h j (by unfold CVar.after; rw [hv.layout]; exact hj)
    simp only [Bool.and_eq_true, beq_iff_eq] at h1
    have h2 := hv.miscSize h1.2 j hjn (by rw [← hv.kind j hjn]; exact h1.1)
    rw [← h2]
    unfold dimAt Geom.vecAllocs
    simp [List.getD, hjn]
  · rw [if_neg h]
    exact vecStride_eq hl hk

/-- Sum over the dims that are not the step dim. -/
theorem vecPtrNorm_diff {a b : List Int} (ha : a.length = g.dims.length) (hb : b.length = g.dims.length) (ti : Int) :
    g.vecPtrNorm a ti = g.vecPtrNorm b ti + (g.layout.map fun k =>
      if (v.dim k).kind = .step then 0 else (a.getD k 0 - b.getD k 0) * v.stride o g k).sum := by
  have hnd : g.layout.Nodup := hl.nodup_iff.2 List.nodup_range
  unfold Geom.vecPtrNorm
  rw [layoutPerm_linear hnd, layoutPerm_linear hnd, ← List.sum_map_add]
  congr 1
  apply List.map_congr_left
  intro k hk
  have hkn : k < g.dims.length := List.mem_range.1 (hl.mem_iff.1 hk)
  have hg : ∀ c : List Int, c.length = g.dims.length →
      (List.zipWith (adjNorm ti) g.dims c).getD k 0 = adjNorm ti (dimAt g k) (c.getD k 0) := by
    intro c hc
    unfold dimAt
    simp [List.getD, hkn, hc]
  rw [hg a ha, hg b hb, stride_eq hv hl hkn, hv.kind k hkn]
  unfold adjNorm
  by_cases h : (dimAt g k).kind = .step
  · rw [if_pos h, if_pos h, if_pos h]; ring
  · rw [if_neg h, if_neg h, if_neg h]; ring

theorem sum_layout (f : Nat → Int) : ((List.range v.dims.length).map f).sum = (v.layout.map f).sum := by
  rw [hv.len, hv.layout]
  exact ((hl.map f).sum_eq).symm

omit hl in
theorem normArgs_length (idx : List Int) (p : PtArgs) : ((List.range v.dims.length).map (v.normArg idx p)).length = g.dims.length := by
  simp [hv.len]

theorem getD_range {f : Nat → Int} {k : Nat} (hk : k ∈ g.layout) : ((List.range v.dims.length).map f).getD k 0 = f k := by
  have hkn : k < v.dims.length := by rw [hv.len]; exact List.mem_range.1 (hl.mem_iff.1 hk)
  simp [List.getD, hkn]

/-- The inner-loop pointer of a point. -/
theorem innerPtr_eq (slot : Int → Int) (idx : List Int) (b : PtArgs) :
    v.varBase o g (v.slotOf slot b) + v.baseOfs o g idx b = v.callAddr g slot idx b := by
  unfold CVar.callAddr CVar.varBase CVar.baseOfs CVar.ptrOfs
  rw [sum_layout hv hl, hv.layout,
    vecPtrNorm_diff hv hl (normArgs_length hv idx b) (b := (List.range v.dims.length).map (v.ofs o g)) (by simp [hv.len]),
    ← List.sum_map_add]
  congr 2
  apply List.map_congr_left
  intro k hk
  rw [getD_range hv hl hk, getD_range hv hl hk]
  by_cases h : (v.dim k).kind = .step
  · simp only [if_pos h]; rfl
  · simp only [if_neg h]; ring

omit hl in
theorem basePt_slot (slot : Int → Int) (p : PtArgs) : v.slotOf slot (v.basePt o p) = v.slotOf slot p := by
  unfold CVar.slotOf
  by_cases h : (v.dim 0).kind = .step
  · rw [if_pos h, if_pos h]
    have h0 : 0 < v.dims.length := by rw [hv.len]; exact lt_of_le_of_lt (Nat.zero_le _) hv.loop.1
    congr 1
    unfold CVar.basePt
    have : v.useDomain o 0 = false := by unfold CVar.useDomain; rw [h]; rfl
    simp [List.getD, h0, this, h]
  · rw [if_neg h, if_neg h]

/-- From the pointer of the base point to the point. -/
theorem basePt_addr (slot : Int → Int) (idx : List Int) (p : PtArgs) :
    v.callAddr g slot idx (v.basePt o p) + v.innerOfs o g p = v.callAddr g slot idx p := by
  have hslot := basePt_slot hv slot p
  unfold CVar.callAddr CVar.innerOfs
  rw [hslot, vecPtrNorm_diff hv hl (normArgs_length hv idx p) (normArgs_length hv idx (v.basePt o p)), hv.layout]
  congr 2
  apply List.map_congr_left
  intro k hk
  rw [getD_range hv hl hk, getD_range hv hl hk]
  have hb : (v.basePt o p).getD k 0 = if v.useDomain o k then 0 else if (v.dim k).kind = .misc then (v.dim k).minIdx else p.getD k 0 :=
    getD_range hv hl hk
  unfold CVar.normArg
  rw [hb]
  cases hkk : (v.dim k).kind with
  | step =>
    have : v.useDomain o k = false := by unfold CVar.useDomain; rw [hkk]; rfl
    simp [this]
  | domain =>
    by_cases hu : v.useDomain o k = true
    · simp [hu]
    · simp [hu]
  | misc =>
    have : v.useDomain o k = false := by unfold CVar.useDomain; rw [hkk]; rfl
    simp [this]

/-- A step of the loop index. -/
theorem callAddr_step (slot : Int → Int) (idx : List Int) (hi : idx.length = g.dims.length) (p : PtArgs) :
    v.callAddr g slot (idx.set v.loopPosn (idx.getD v.loopPosn 0 + 1)) p = v.callAddr g slot idx p + v.stride o g v.loopPosn := by
  unfold CVar.callAddr
  rw [vecPtrNorm_diff hv hl (normArgs_length hv _ p) (normArgs_length hv idx p)]
  congr 1
  have hnd : g.layout.Nodup := hl.nodup_iff.2 List.nodup_range
  rw [← sum_single hnd (hl.mem_iff.2 (List.mem_range.2 hv.loop.1)) (v.stride o g)]
  congr 1
  apply List.map_congr_left
  intro k hk
  rw [getD_range hv hl hk, getD_range hv hl hk]
  by_cases h : k = v.loopPosn
  · subst h
    have hd : (v.dim v.loopPosn).kind = .domain := by rw [hv.kind _ hv.loop.1]; exact hv.loop.2
    unfold CVar.normArg
    simp [hd, List.getD, hi, hv.loop.1]
  · rw [if_neg h]
    have : (idx.set v.loopPosn (idx.getD v.loopPosn 0 + 1)).getD k 0 = idx.getD k 0 := by
      simp only [List.getD]; rw [List.getElem?_set_ne (Ne.symm h)]
    unfold CVar.normArg
    rw [this]
    simp

/-- One vector more in the loop dim is the next iteration. -/
theorem callAddr_shift (slot : Int → Int) (idx : List Int) (hi : idx.length = g.dims.length) {p : PtArgs}
    (hp : p.length = g.dims.length) (hf : (v.dim v.loopPosn).fold ≠ 0) (x : Int) :
    v.callAddr g slot (idx.set v.loopPosn (idx.getD v.loopPosn 0 + 1)) (p.set v.loopPosn (x * (v.dim v.loopPosn).fold)) =
      v.callAddr g slot idx (p.set v.loopPosn ((x + 1) * (v.dim v.loopPosn).fold)) := by
  have hd : (v.dim v.loopPosn).kind = .domain := by rw [hv.kind _ hv.loop.1]; exact hv.loop.2
  unfold CVar.callAddr
  have hsl : ∀ y, v.slotOf slot (p.set v.loopPosn y) = v.slotOf slot p := by
    intro y
    unfold CVar.slotOf
    by_cases h : (v.dim 0).kind = .step
    · rw [if_pos h, if_pos h]
      have : v.loopPosn ≠ 0 := by intro e; rw [e, h] at hd; cases hd
      simp only [List.getD]; rw [List.getElem?_set_ne this]
    · rw [if_neg h, if_neg h]
  rw [hsl, hsl]
  congr 1
  apply List.map_congr_left
  intro k hk
  unfold CVar.normArg
  by_cases h : k = v.loopPosn
  · subst h
    simp only [hd]
    simp [List.getD, hi, hp, hv.loop.1, Int.mul_tdiv_cancel _ hf]
    ring
  · have e1 : ∀ (l : List Int) y, (l.set v.loopPosn y).getD k 0 = l.getD k 0 := by
      intro l y; simp only [List.getD]; rw [List.getElem?_set_ne (Ne.symm h)]
    simp only [e1]

end

end Yask.Comp
