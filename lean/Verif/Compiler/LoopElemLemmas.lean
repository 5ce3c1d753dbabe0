import Verif.Compiler.InnerLoopLemmas

/-! Helper lemmas: reads of single elements in the generated inner loop. -/

namespace Yask.Comp
open Var Spec Spec.Cpp

/-- The slot that the generated code computes. -/
theorem stepSlot_wrap {g : Geom} {dyn : Bool} {alloc t s : Int} (ha : dyn = true ∨ alloc = g.stepSize) (hs : g.hasStep = true)
    (h1 : stepSlot g dyn alloc t = .ok s) (hz : g.stepSize ≠ 0) : g.wrapStep t = .ok s := by
  unfold stepSlot at h1
  rw [if_pos hs] at h1
  cases hd : dyn with
  | true => rw [hd] at h1; exact h1
  | false =>
    rw [hd] at h1
    have ha : alloc = g.stepSize := by
      rcases ha with h2 | h2
      · rw [hd] at h2; cases h2
      · exact h2
    simp only [Bool.false_eq_true, if_false] at h1
    unfold Geom.wrapStep
    rw [if_neg hz]
    by_cases h2 : alloc = 1
    · rw [if_pos h2] at h1
      rw [← ha, h2, imodFlr_eq _ _ (by decide), Int.emod_one]
      exact h1
    · rw [if_neg h2] at h1
      rw [← ha]
      exact h1

theorem foldUntil_upd {V : Type} (f : Nat → V) : ∀ (l : List Nat) (w : Nat → V),
    (foldUntil (fun w k => (upd w k (f k), true)) l w).1 = fun k => if k ∈ l then f k else w k
  | [], w => by simp [foldUntil]
  | a :: l, w => by
    rw [foldUntil]
    simp only [if_true]
    rw [foldUntil_upd f l]
    funext k
    unfold upd
    by_cases h1 : k ∈ l
    · simp [h1]
    · by_cases h2 : k = a
      · subst h2; simp [h1]
      · simp [h1, h2]

section
variable {V : Type} {c : PartLoop} {inner : String} {ix : String → Int}

theorem foldPoint_at (hpos : ∀ d ∈ c.fold.vals, 0 < d) (k : Nat) (n : String) (h : ∀ l, c.fold.q.lookup n = some l → l = 1) :
    (foldPoint c.fold k).at n = 0 := by
  have hs := unlayout_inSpace c.fold.firstInner c.fold.vals hpos k
  unfold Loc.at foldPoint Tup.unlayout
  simp only
  rcases zip_lookup c.fold.q _ hs n with ⟨_, h2⟩ | ⟨len, v, h1, h2, h3, h4, _⟩
  · rw [show (c.fold.names.zip (unlayoutVals c.fold.firstInner c.fold.vals k)).lookup n = none from h2]; rfl
  · rw [show (c.fold.names.zip (unlayoutVals c.fold.firstInner c.fold.vals k)).lookup n = some v from h2]
    have := h len h1
    simp only [Option.getD_some]
    omega

theorem LoopVar.vecType_full {x : LoopVar} {fold : Tup} (h : x.foldable fold = true) : x.vecType fold = .full := by
  unfold LoopVar.vecType
  by_cases h1 : (fold.q.filter fun s => decide (s.2 ≠ 1)).length = 0
  · rw [if_pos ⟨h1, h⟩]
  · have h2 : x.foldDims fold = (fold.q.filter fun s => decide (s.2 ≠ 1)).length := by
      unfold LoopVar.foldable at h
      simp only [Bool.and_eq_true] at h
      exact eq_of_beq h.2
    rw [if_neg (fun h3 => h1 h3.1), if_neg (by omega), if_pos h2]

theorem LoopVar.vecType_elem {x : LoopVar} {fold : Tup} (h : x.foldable fold = false) :
    (x.vecType fold = .none ∧ x.foldDims fold = 0) ∨ x.vecType fold = .part := by
  unfold LoopVar.vecType
  rw [if_neg (by rw [h]; simp)]
  by_cases h1 : x.foldDims fold = 0
  · rw [if_pos h1]; exact .inl ⟨rfl, h1⟩
  · rw [if_neg h1]
    right
    rw [if_neg]
    intro h2
    apply h1
    unfold LoopVar.foldable at h
    rw [Bool.and_eq_false_iff] at h
    rcases h with h | h
    · unfold LoopVar.foldDims
      rw [List.length_eq_zero_iff, List.filter_eq_nil_iff]
      intro d hd
      have h3 := (List.any_eq_false.1 h) d.2 (List.of_mem_zip hd).2
      simp only [Bool.and_eq_true, not_and]
      intro h4
      exact absurd h4 h3
    · rw [h2] at h
      simp at h

/-- The element of a point of a var that is not folded. -/
theorem PartLoop.ElemOk.elem_addr {i : Nat} (h : c.ElemOk V inner ix i) {p : PtArgs} (hp : p.length = (c.vars i).g.dims.length) {j k : Nat}
    {el : String → Int}
    (hel : ∀ n ∈ (((c.vars i).names.zip (c.vars i).g.dims).filter fun x => x.2.kind == .domain).map Prod.fst,
      el n = iterIndex inner ix j n * c.foldLen n + (foldPoint c.fold k).at n) {a : Int}
    (ha : (c.vars i).g.addrOf (c.elem inner ix (i, p) j k) = .ok a) :
    elemAddrLocal (c.vars i).g ((c.vars i).elemArgs el p) ((c.vars i).v.slotOf (c.vars i).slot p) = a := by
  have hok : (c.vars i).g.Ok := PartLoop.AnyOk.ok (V := V) (inner := inner) (ix := ix) (.inr h)
  have hlen := h.len
  have hvl : (c.vars i).v.dims.length = (c.vars i).g.dims.length := by simpa using congrArg List.length h.kinds
  have hkind : ∀ t (h1 : t < (c.vars i).v.dims.length) (h2 : t < (c.vars i).g.dims.length),
      (c.vars i).v.dims[t].kind = (c.vars i).g.dims[t].kind := by
    intro t h1 h2
    have := congrArg (fun l => l[t]?) h.kinds
    simpa [h1, h2] using this
  unfold Geom.addrOf at ha
  obtain ⟨ti, h1, h2⟩ := ok_of_bind ha
  unfold Geom.elemAddr at h2
  rw [h.isElem] at h2
  simp only [Bool.false_eq_true, if_false] at h2
  unfold Geom.elemAddrScalar at h2
  injection h2 with h2
  rw [← h2]
  unfold elemAddrLocal
  congr 1
  unfold PartLoop.elem loopElem pointElem LoopVar.elemArgs
  simp only
  apply List.ext_getElem
  · simp; omega
  intro t h3 h4
  have ht : t < (c.vars i).g.dims.length := by simp at h3; omega
  simp only [List.getElem_zipWith, List.getElem_map, List.getElem_zip]
  unfold adjElemLocal adjElem
  have hd := hok.dims _ (List.getElem_mem ht)
  have hm : ((c.vars i).names[t]'(by omega), (c.vars i).g.dims[t]) ∈ (c.vars i).names.zip (c.vars i).g.dims :=
    List.mem_iff_getElem.2 ⟨t, by simp; omega, by simp⟩
  rw [hkind t (by omega) ht]
  cases hk : (c.vars i).g.dims[t].kind with
  | step =>
    simp only [if_true]
    have ht0 : t = 0 := by
      by_contra hne
      obtain ⟨t', rfl⟩ := Nat.exists_eq_succ_of_ne_zero hne
      apply hok.stepFirst (c.vars i).g.dims[t' + 1] _ hk
      rw [List.mem_iff_getElem]
      exact ⟨t', by simp; omega, by simp⟩
    subst ht0
    have hs : (c.vars i).g.hasStep = true := by
      unfold Geom.hasStep
      cases hD : (c.vars i).g.dims with
      | nil => rw [hD] at ht; simp at ht
      | cons d D =>
        simp only [hD, List.getElem_cons_zero] at hk
        simp [hk]
    obtain ⟨dyn, alloc, h5, h6⟩ := h.slots
    unfold Geom.allocStepIndex at h1
    rw [if_pos hs] at h1
    have hz : (c.vars i).g.stepSize ≠ 0 := by
      intro hz
      unfold Geom.wrapStep at h1
      rw [if_pos hz] at h1; cases h1
    have h7 := stepSlot_wrap h5 hs (h6 (p.getD 0 0)) hz
    have hni : (c.vars i).names[0]'(by omega) ≠ inner := by
      intro e
      have := h.inner _ hm e
      rw [hk] at this; cases this
    have h8 : (c.elem inner ix (i, p) j k).getD 0 0 = ix ((c.vars i).names.getD 0 "") + p.getD 0 0 := by
      unfold PartLoop.elem loopElem pointElem
      have hn0 : 0 < (c.vars i).names.length := by omega
      have hp0 : 0 < p.length := by omega
      simp [List.getD, ht, hn0, hp0, loopDim, hk, AccessDim.elem, iterIndex, hni]
    rw [h8] at h1
    rw [h7] at h1
    injection h1 with h1
    rw [← h1]
    unfold CVar.slotOf
    have hv0 : ((c.vars i).v.dim 0).kind = .step := by
      have := hkind 0 (by omega) ht
      rw [hk] at this
      rw [← this]
      simp [CVar.dim, List.getD, show 0 < (c.vars i).v.dims.length by omega]
    rw [if_pos hv0]
  | domain =>
    have h5 := hel ((c.vars i).names[t]'(by omega)) (by
      apply List.mem_map.2
      exact ⟨_, List.mem_filter.2 ⟨hm, by simp [hk]⟩, rfl⟩)
    simp only [reduceCtorEq, if_false, loopDim, hk, AccessDim.elem]
    rw [h5]
    unfold PartLoop.foldLen
    omega
  | misc =>
    have h5 := (hd.nd_halo (by rw [hk]; decide)).2.2.2.2
    simp only [reduceCtorEq, if_false, loopDim, hk, AccessDim.elem]
    omega

/-- In dims that are not folded, lanes have the same index. -/
theorem PartLoop.ElemOk.lane_zero {i : Nat} (h : c.ElemOk V inner ix i) (hz : (c.vars i).foldDims c.fold = 0) (k : Nat) {n : String}
    (hn : n ∈ (((c.vars i).names.zip (c.vars i).g.dims).filter fun x => x.2.kind == .domain).map Prod.fst) :
    (foldPoint c.fold k).at n = 0 := by
  apply foldPoint_at h.pos
  intro l hl
  obtain ⟨x, hx, rfl⟩ := List.mem_map.1 hn
  obtain ⟨hx1, hx2⟩ := List.mem_filter.1 hx
  obtain ⟨t, ht, rfl⟩ := List.mem_iff_getElem.1 hx1
  have hvl : (c.vars i).v.dims.length = (c.vars i).g.dims.length := by simpa using congrArg List.length h.kinds
  have hlen := h.len
  have ht2 : t < (c.vars i).g.dims.length := by simp at ht; omega
  simp only [List.getElem_zip] at hl hx2
  have hkind : (c.vars i).v.dims[t].kind = (c.vars i).g.dims[t].kind := by
    have := congrArg (fun l => l[t]?) h.kinds
    simpa [ht2, show t < (c.vars i).v.dims.length by omega] using this
  unfold LoopVar.foldDims at hz
  rw [List.length_eq_zero_iff, List.filter_eq_nil_iff] at hz
  have := hz ((c.vars i).names[t]'(by omega), (c.vars i).v.dims[t]) (List.mem_iff_getElem.2 ⟨t, by simp; omega, by simp⟩)
  simp only [hkind, hl, Bool.and_eq_true, not_and, decide_eq_true_eq, ne_eq, not_not] at this
  exact this hx2

end
end Yask.Comp
