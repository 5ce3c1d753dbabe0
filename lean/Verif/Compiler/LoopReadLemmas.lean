import Verif.Compiler.LoopElemLemmas

/-! Helper lemmas: what the generated inner loop reads from points. -/

namespace Yask.Comp
open Var Spec Spec.Cpp

/-- The vector for an address has the initial values of the elements that are not written. -/
def VecOf {V : Type} (wr : Int → Prop) (m0 : Int → V) (er : Int) (a : Int) (w : Int → V) : Prop :=
  ∀ k : Nat, (k : Int) < er → ¬ wr (a * er + k) → w k = m0 (a * er + k)

section
variable {V : Type} {c : PartLoop} {inner : String} {ix : String → Int}

theorem vecOf_mem {wr : Int → Prop} {m m0 : Int → V} (g : Geom) (h : ∀ b, ¬ wr b → m b = m0 b) (a : Int) :
    VecOf wr m0 g.elemReals a (vecAt g m a) := fun _ _ hw => h _ hw

/-- The state of the loop in iteration `j`. -/
structure PartLoop.StOk (c : PartLoop) (ix : String → Int) (wr : Nat → Int → Prop) (mem0 : Nat → Int → V) (j : Nat) (st : LoopSt V) : Prop where
  mem : ∀ i b, ¬ wr i b → st.mem i b = mem0 i b
  elems : ∀ n, st.elems n = iterIndex c.inner ix j n * c.foldLen n
  sts : ∀ i, StRel (VecOf (wr i) (mem0 i) (c.vars i).g.elemReals) (st.sts i)
    (ideal (c.vars i).v c.opts (c.vars i).g (c.vars i).slot (c.aligned i) (c.writes i) ((c.vars i).names.map ix) j)

theorem PartLoop.Ok.whole (hc : c.Ok V inner ix) {i : Nat} {p : PtArgs} (hp : p ∈ c.aligned i ++ c.writes i) :
    WholeVecs ((c.vars i).g.dims.map accessDim) p := by
  rcases List.mem_append.1 hp with h | h
  · obtain ⟨q, hq, rfl, hf, ve, hve, rfl⟩ := (hc.aligned i p).1 h
    obtain ⟨hv, hl⟩ := hc.var q (.inr hq)
    replace hv := hv.varOk hf
    obtain ⟨k, hk, hke⟩ := List.mem_iff_getElem.1 hve
    obtain ⟨h1, h2⟩ := C52_elements c.fold _ (hv.vecRead hl)
    obtain ⟨ve', h3, _, h4, h5, _⟩ := h2 k (by omega)
    rw [List.getElem?_eq_getElem hk, hke] at h3
    cases h3
    exact hv.block_whole hl h4 h5
  · unfold PartLoop.writes at h
    obtain ⟨e, he, hee⟩ := List.mem_filterMap.1 h
    by_cases hi : e.1.1 = i
    · rw [if_pos hi] at hee
      injection hee with hee
      rw [← hi, ← hee]; exact (hc.lhs e he).2
    · rw [if_neg hi] at hee; cases hee

/-- A read of an aligned vector. -/
theorem PartLoop.Ok.alignedRead (hc : c.Ok V inner ix) {wr : Nat → Int → Prop} {mem0 : Nat → Int → V} {j : Nat} {st : LoopSt V}
    (hs : c.StOk ix wr mem0 j st) {i : Nat} (hv : c.VarOk V inner ix i) {p : PtArgs} (hp : p ∈ c.aligned i) :
    ∃ w, c.alignedRead st i p = .ok w ∧ VecOf (wr i) (mem0 i) (c.vars i).g.elemReals
      ((c.vars i).v.callAddr (c.vars i).g (c.vars i).slot (Yask.moved (c.vars i).v ((c.vars i).names.map ix) j) p) w := by
  obtain ⟨yv, dyn, alloc, hg, hlo⟩ := hv.loopOk (c.aligned i ++ c.writes i) fun p hp => hc.whole hp
  have hr := hlo.reads
  rw [hg] at hr
  exact read_ideal (c.vars i).slot (c.aligned i) (c.writes i) (vecOf_mem (c.vars i).g (hs.mem i)) (hs.sts i) hv.var hv.ok.layoutPerm
    (by simp [hv.fold.len]) hr hlo.fold hp

/-- The address that is used for a point. -/
theorem PartLoop.Ok.addr (hc : c.Ok V inner ix) {wr : Nat → Int → Prop} {mem0 : Nat → Int → V} {j : Nat} {st : LoopSt V}
    (hs : c.StOk ix wr mem0 j st) {i : Nat} (hv : c.VarOk V inner ix i) (p : PtArgs) :
    (c.vars i).v.addr c.opts (c.vars i).g (c.vars i).slot (st.sts i) p =
      (c.vars i).v.callAddr (c.vars i).g (c.vars i).slot (Yask.moved (c.vars i).v ((c.vars i).names.map ix) j) p := by
  obtain ⟨yv, dyn, alloc, hg, hlo⟩ := hv.loopOk (c.aligned i ++ c.writes i) fun p hp => hc.whole hp
  have hr := hlo.reads
  rw [hg] at hr
  exact addr_ideal (c.vars i).slot (c.aligned i) (c.writes i) (hs.sts i) hv.var hv.ok.layoutPerm (by simp [hv.fold.len]) hr hlo.fold p

theorem PartLoop.blocks_ok {st : LoopSt V} {q : LPt} {P : Loc → (Int → V) → Prop} : ∀ ls : List Loc,
    (∀ l ∈ ls, ∃ w, c.alignedRead st q.1 ((c.vars q.1).setOffsets q.2 l) = .ok w ∧ P l w) →
    ∃ bs, c.blocks st q ls = .ok bs ∧ ∀ l ∈ ls, ∃ w, bs.lookup l = some (fun k : Nat => w (k : Int)) ∧ P l w
  | [], _ => ⟨[], rfl, by simp⟩
  | l :: ls, h => by
    obtain ⟨w, h1, h2⟩ := h l (by simp)
    obtain ⟨bs, h3, h4⟩ := PartLoop.blocks_ok ls fun l' hl' => h l' (by simp [hl'])
    refine ⟨(l, fun k => w (k : Nat)) :: bs, ?_, ?_⟩
    · unfold PartLoop.blocks
      rw [h1, h3]; rfl
    · intro l' hl'
      rw [List.lookup_cons]
      by_cases he : l' = l
      · subst he
        exact ⟨w, by simp, h2⟩
      · have hb : (l' == l) = false := by simpa using he
        rw [hb]
        exact h4 l' ((List.mem_cons.1 hl').resolve_left he)

/-- A read of a point of a var that is not folded. -/
theorem PartLoop.Ok.readElem (hc : c.Ok V inner ix) {wr : Nat → Int → Prop} {mem0 : Nat → Int → V} {j : Nat} {st : LoopSt V}
    (hs : c.StOk ix wr mem0 j st) {q : LPt} (hf : (c.vars q.1).foldable c.fold = false) (hv : c.ElemOk V inner ix q.1)
    (hl : q.2.length = (c.vars q.1).g.dims.length) (u : V) :
    ∃ w, c.readPt u st q = .ok w ∧ ∀ k < c.vlen, InRangeButStep (c.vars q.1).g.api (c.elem inner ix q j k) → ∀ a,
      (c.vars q.1).g.addrOf (c.elem inner ix q j k) = .ok a → ¬ wr q.1 a → w k = mem0 q.1 a := by
  have hel := hs.elems
  rw [hc.inner] at hel
  unfold PartLoop.readPt
  rcases LoopVar.vecType_elem hf with ⟨h1, h2⟩ | h1
  · rw [if_pos h1]
    refine ⟨_, rfl, ?_⟩
    intro k hk hr a ha hw
    unfold PartLoop.elemRead
    rw [hv.elem_addr hl (el := st.elems) (fun n hn => by rw [hel, hv.lane_zero h2 k hn]; omega) ha]
    exact hs.mem _ _ hw
  · rw [if_neg (by rw [h1]; decide), if_pos h1]
    refine ⟨_, rfl, ?_⟩
    intro k hk hr a ha hw
    have hnp : numPoints c.fold.vals = c.vlen := by
      have := prodVals_pos _ hv.pos
      unfold PartLoop.vlen
      rw [show numPoints c.fold.vals = prodVals c.fold.vals from (prodVals_eq _).symm]
      omega
    unfold PartLoop.partRead
    rw [C38_visit_tuple_partial _ _ hv.pos, foldUntil_upd (fun k => c.elemRead st (fun n => st.elems n +
      ((c.fold.names.zip (unlayoutVals c.fold.firstInner c.fold.vals k)).lookup n).getD 0) q)]
    simp only
    rw [if_pos (by rw [hnp]; simpa using hk)]
    unfold PartLoop.elemRead
    rw [hv.elem_addr hl (j := j) (k := k) (fun n _ => by rw [hel]; rfl) ha]
    exact hs.mem _ _ hw

/-- A read of a point: each lane has the initial value of the element that the point means, if the element is not written. -/
theorem PartLoop.Ok.readPt (hc : c.Ok V inner ix) {wr : Nat → Int → Prop} {mem0 : Nat → Int → V} {j : Nat} {st : LoopSt V}
    (hs : c.StOk ix wr mem0 j st) {q : LPt} (hq : c.IsRead q) (u : V) :
    ∃ w, c.readPt u st q = .ok w ∧ ∀ k < c.vlen, InRangeButStep (c.vars q.1).g.api (c.elem inner ix q j k) → ∀ a,
      (c.vars q.1).g.addrOf (c.elem inner ix q j k) = .ok a → ¬ wr q.1 a → w k = mem0 q.1 a := by
  obtain ⟨hv, hl⟩ := hc.var q (.inr hq)
  cases hf : (c.vars q.1).foldable c.fold with
  | false => exact hc.readElem hs hf (hv.resolve_left fun h => absurd h.foldable (by rw [hf]; decide)) hl u
  | true =>
  replace hv := hv.varOk hf
  have her := hv.vlen
  unfold PartLoop.readPt
  rw [LoopVar.vecType_full hf, if_neg (by decide), if_neg (by decide)]
  by_cases ha : q.2 ∈ c.aligned q.1
  · rw [if_pos ha]
    obtain ⟨w, h1, h2⟩ := hc.alignedRead hs hv ha
    refine ⟨fun k => w (k : Nat), by rw [h1]; rfl, ?_⟩
    intro k hk hr a hae hw
    have h3 := hv.elem_addr (hc.whole (List.mem_append_left _ ha)) hk hr
    rw [show c.elem inner ix (q.1, q.2) j k = c.elem inner ix q j k from rfl, hae] at h3
    injection h3 with h3
    have := h2 k (by rw [her]; exact_mod_cast hk) (by rw [← h3]; exact hw)
    rw [← h3] at this
    exact this
  · rw [if_neg ha]
    obtain ⟨hlen, hel⟩ := C52_elements c.fold _ (hv.vecRead hl)
    have hnp : numPoints c.fold.vals = c.vlen := by
      have := prodVals_pos _ hv.fold.pos
      unfold PartLoop.vlen
      rw [show numPoints c.fold.vals = prodVals c.fold.vals from (prodVals_eq _).symm]
      omega
    obtain ⟨bs, hb1, hb2⟩ := PartLoop.blocks_ok (c := c) (st := st) (q := q)
      (P := fun l w => VecOf (wr q.1) (mem0 q.1) (c.vars q.1).g.elemReals
        ((c.vars q.1).v.callAddr (c.vars q.1).g (c.vars q.1).slot (Yask.moved (c.vars q.1).v ((c.vars q.1).names.map ix) j)
          ((c.vars q.1).setOffsets q.2 l)) w) (c.order q) (by
      intro l hlo
      obtain ⟨ve, hve, rfl⟩ := (hc.order q hq hf l).1 hlo
      exact hc.alignedRead hs hv ((hc.aligned q.1 _).2 ⟨q, hq, rfl, hf, ve, hve, rfl⟩))
    rw [hb1]
    refine ⟨_, rfl, ?_⟩
    intro k hk hr a hae hw
    obtain ⟨b, hb⟩ := hc.selBit.1
    have hofs : ∀ ve ∈ vecElems c.fold ((c.vars q.1).offsets q.2), ve.offset < c.selBit := by
      intro ve hve
      obtain ⟨j', hj'⟩ := List.mem_iff_getElem?.1 hve
      have hjl := (List.getElem?_eq_some_iff.1 hj').1
      obtain ⟨ve', hve', hlt, _⟩ := hel j' (by omega)
      rw [hj'] at hve'
      cases hve'
      have := hc.selBit.2
      omega
    have hvl : (vecElems c.fold ((c.vars q.1).offsets q.2)).length = c.vlen := by rw [hlen, hnp]; simp
    obtain ⟨ve, hve, he⟩ := unalignedCtor_ok b hb (vecElems c.fold ((c.vars q.1).offsets q.2)) hofs c.isa (c.order q) (c.defined q)
      (fun l => (bs.lookup l).getD fun _ => u) (fun _ => u) k (by omega)
    rw [hvl] at he
    obtain ⟨ve', hve', h1, h2, h3, h4⟩ := hel k (by rw [hnp]; exact_mod_cast hk)
    rw [hve] at hve'
    cases hve'
    rw [he]
    have hmem : ve ∈ vecElems c.fold ((c.vars q.1).offsets q.2) := List.mem_of_getElem? hve
    obtain ⟨w, hw1, hw2⟩ := hb2 ve.vec ((hc.order q hq hf _).2 ⟨ve, hmem, rfl⟩)
    show ((bs.lookup ve.vec).getD fun _ => u) ve.offset = _
    rw [hw1]
    simp only [Option.getD_some]
    have hbe := hv.block_elem hl h2 h4 j
    have hov : ve.offset < c.vlen := by omega
    have h5 := hv.elem_addr (hv.block_whole hl h2 h3) (j := j) hov (by rw [hbe]; exact hr)
    rw [hbe, show c.elem inner ix (q.1, q.2) j k = c.elem inner ix q j k from rfl, hae] at h5
    injection h5 with h5
    have := hw2 ve.offset (by rw [her]; exact_mod_cast hov) (by rw [← h5]; exact hw)
    rw [← h5] at this
    exact this

end
end Yask.Comp
