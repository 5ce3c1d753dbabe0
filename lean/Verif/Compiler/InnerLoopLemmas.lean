import Verif.Compiler.BufRel
import Verif.Compiler.FoldLane
import Verif.Compiler.VecLemmas
import Verif.Props.Ptr
import Verif.Props.Vec

/-! Helper lemmas: the generated inner loop as a whole. -/

namespace Yask.Comp
open Var Spec Spec.Cpp

/-- A point that an equation of the part reads. -/
def PartLoop.IsRead (c : PartLoop) (q : LPt) : Prop := ∃ e ∈ c.eqs, q ∈ e.2.points

/-- A dim of a var as the user sees it: the vectors of the solution have the lengths of the fold. -/
def loopDim (fold : Tup) (n : String) (d : DimG) : AccessDim :=
  match d.kind with
  | .step => .step
  | .domain => .domain ((fold.q.lookup n).getD 1) d.rankOfs
  | .misc => .misc

/-- The element that a point means in lane `k` in iteration `j`. -/
def PartLoop.elem (c : PartLoop) (inner : String) (ix : String → Int) (q : LPt) (j k : Nat) : List Int :=
  loopElem c.fold (c.vars q.1).names (List.zipWith (loopDim c.fold) (c.vars q.1).names (c.vars q.1).g.dims) (iterIndex inner ix j) q.2 k

/-- A var of the loop is what the compiler has assumed, its dims are those of the solution, and the step slots are those computed by the
generated code. -/
structure PartLoop.VarOk (V : Type) (c : PartLoop) (inner : String) (ix : String → Int) (i : Nat) : Prop where
  reach : ∃ yv : YVar V, Reachable yv ∧ yv.g = (c.vars i).g
  steps : StepsAlloc (c.vars i).g.api
  misc : NoMiscOffset (c.vars i).g
  var : (c.vars i).v.Of c.opts (c.vars i).g
  /-- a fixed step allocation is the one of the var -/
  slots : ∃ dyn alloc, (dyn = true ∨ alloc = (c.vars i).g.stepSize) ∧
    ∀ s, stepSlot (c.vars i).g dyn alloc (ix ((c.vars i).names.getD 0 "") + s) = .ok ((c.vars i).slot s)
  fold : FoldOf c.fold (c.vars i).names (c.vars i).g
  inner : (c.vars i).names.getD (c.vars i).v.loopPosn "" = inner
  foldable : (c.vars i).foldable c.fold = true

/-- The same for a var that is not folded. -/
structure PartLoop.ElemOk (V : Type) (c : PartLoop) (inner : String) (ix : String → Int) (i : Nat) : Prop where
  reach : ∃ yv : YVar V, Reachable yv ∧ yv.g = (c.vars i).g
  steps : StepsAlloc (c.vars i).g.api
  slots : ∃ dyn alloc, (dyn = true ∨ alloc = (c.vars i).g.stepSize) ∧
    ∀ s, stepSlot (c.vars i).g dyn alloc (ix ((c.vars i).names.getD 0 "") + s) = .ok ((c.vars i).slot s)
  kinds : (c.vars i).v.dims.map CDim.kind = (c.vars i).g.dims.map DimG.kind
  len : (c.vars i).names.length = (c.vars i).g.dims.length
  pos : ∀ d ∈ c.fold.vals, 0 < d
  /-- the inner-loop dim is a domain dim -/
  inner : ∀ x ∈ (c.vars i).names.zip (c.vars i).g.dims, x.1 = inner → x.2.kind = .domain
  foldable : (c.vars i).foldable c.fold = false
  isElem : (c.vars i).g.isVec = false

/-- A var of either sort. -/
def PartLoop.AnyOk (V : Type) (c : PartLoop) (inner : String) (ix : String → Int) (i : Nat) : Prop :=
  c.VarOk V inner ix i ∨ c.ElemOk V inner ix i

/-- The setting of the inner loop of a part. -/
structure PartLoop.Ok (V : Type) (c : PartLoop) (inner : String) (ix : String → Int) : Prop where
  var : ∀ q, q ∈ c.eqs.map (·.1) ∨ c.IsRead q → c.AnyOk V inner ix q.1 ∧ q.2.length = (c.vars q.1).g.dims.length
  /-- equations set whole vectors -/
  lhs : ∀ e ∈ c.eqs, c.VarOk V inner ix e.1.1 ∧ WholeVecs ((c.vars e.1.1).g.dims.map accessDim) e.1.2
  /-- the aligned vectors of a var are those needed for the reads -/
  aligned : ∀ i p, p ∈ c.aligned i ↔ ∃ q, c.IsRead q ∧ q.1 = i ∧ (c.vars i).foldable c.fold = true ∧
    ∃ ve ∈ vecElems c.fold ((c.vars i).offsets q.2), p = (c.vars i).setOffsets q.2 ve.vec
  /-- the same for each read -/
  order : ∀ q, c.IsRead q → (c.vars q.1).foldable c.fold = true → ∀ l, l ∈ c.order q ↔ ∃ ve ∈ vecElems c.fold ((c.vars q.1).offsets q.2), ve.vec = l
  inner : c.inner = inner
  selBit : (∃ b, c.selBit = 2 ^ b) ∧ c.vlen ≤ c.selBit
  /-- the mask is empty, or has a bit within the fold -/
  mask : c.mask ≠ 0 → ∃ k < c.vlen, c.mask.testBit k = true

section
variable {V : Type} {c : PartLoop} {inner : String} {ix : String → Int}

theorem PartLoop.VarOk.ok {i : Nat} (h : c.VarOk V inner ix i) : (c.vars i).g.Ok := by
  obtain ⟨yv, h1, h2⟩ := h.reach
  rw [← h2]; exact h1.ok

theorem PartLoop.AnyOk.reach {i : Nat} (h : c.AnyOk V inner ix i) : ∃ yv : YVar V, Reachable yv ∧ yv.g = (c.vars i).g :=
  h.elim (·.reach) (·.reach)

theorem PartLoop.AnyOk.ok {i : Nat} (h : c.AnyOk V inner ix i) : (c.vars i).g.Ok := by
  obtain ⟨yv, h1, h2⟩ := h.reach
  rw [← h2]; exact h1.ok

theorem PartLoop.AnyOk.steps {i : Nat} (h : c.AnyOk V inner ix i) : StepsAlloc (c.vars i).g.api := h.elim (·.steps) (·.steps)

theorem PartLoop.AnyOk.len {i : Nat} (h : c.AnyOk V inner ix i) : (c.vars i).names.length = (c.vars i).g.dims.length :=
  h.elim (·.fold.len) (·.len)

theorem PartLoop.AnyOk.pos {i : Nat} (h : c.AnyOk V inner ix i) : ∀ d ∈ c.fold.vals, 0 < d := h.elim (·.fold.pos) (·.pos)

theorem PartLoop.AnyOk.varOk {i : Nat} (h : c.AnyOk V inner ix i) (hf : (c.vars i).foldable c.fold = true) : c.VarOk V inner ix i :=
  h.elim id fun h => absurd h.foldable (by rw [hf]; decide)

/-- The dims of a folded var. -/
theorem PartLoop.VarOk.dims_eq {i : Nat} (h : c.VarOk V inner ix i) :
    List.zipWith (loopDim c.fold) (c.vars i).names (c.vars i).g.dims = (c.vars i).g.dims.map accessDim := by
  have hl := h.fold.len
  apply List.ext_getElem (by simp [hl])
  intro t h1 h2
  have ht : t < (c.vars i).g.dims.length := by simpa using h2
  have hm : ((c.vars i).names[t], (c.vars i).g.dims[t]) ∈ (c.vars i).names.zip (c.vars i).g.dims :=
    List.mem_iff_getElem.2 ⟨t, by simp; omega, by simp⟩
  have hv := h.fold.vl _ hm
  simp only at hv
  simp only [List.getElem_zipWith, List.getElem_map]
  unfold loopDim accessDim
  cases hk : (c.vars i).g.dims[t].kind with
  | step => rfl
  | misc => rfl
  | domain => simp only [hv hk]

theorem PartLoop.VarOk.vlen {i : Nat} (h : c.VarOk V inner ix i) : (c.vars i).g.elemReals = c.vlen := by
  rw [h.fold.elemReals h.ok]
  unfold PartLoop.vlen
  have := prodVals_pos _ h.fold.pos
  omega

theorem PartLoop.VarOk.moved {i : Nat} (h : c.VarOk V inner ix i) (j : Nat) :
    (c.vars i).names.map (iterIndex inner ix j) = moved (c.vars i).v ((c.vars i).names.map ix) j := by
  have hl := h.var.loop.1
  rw [← h.fold.len] at hl
  have hin : (c.vars i).names[(c.vars i).v.loopPosn] = inner := by
    have := h.inner
    simpa [List.getD, hl] using this
  unfold Yask.moved
  apply List.ext_getElem (by simp)
  intro k h1 h2
  have hk : k < (c.vars i).names.length := by simpa using h1
  rw [List.getElem_set]
  simp only [List.getElem_map]
  by_cases hkl : (c.vars i).v.loopPosn = k
  · subst hkl
    rw [if_pos rfl, hin]
    simp [iterIndex, List.getD, hl, hin]
  · rw [if_neg hkl]
    unfold iterIndex
    rw [if_neg]
    intro he
    exact hkl ((List.Nodup.getElem_inj_iff h.fold.nodup).1 (hin.trans he.symm))

theorem PartLoop.VarOk.loopOk {i : Nat} (h : c.VarOk V inner ix i) (pts : List PtArgs)
    (hw : ∀ p ∈ pts, WholeVecs ((c.vars i).g.dims.map accessDim) p) :
    ∃ (yv : YVar V) (dyn : Bool) (alloc : Int), yv.g = (c.vars i).g ∧
      LoopOk yv (c.vars i).v c.opts dyn alloc (c.vars i).slot ((c.vars i).names.map ix) pts := by
  obtain ⟨yv, h1, h2⟩ := h.reach
  obtain ⟨dyn, alloc, h3, h4⟩ := h.slots
  have hl := h.var.loop.1
  have hl2 : 0 < (c.vars i).names.length := by rw [h.fold.len]; omega
  refine ⟨yv, dyn, alloc, h2, h1, ?_, ?_, ?_, ?_, ?_, ?_, ?_⟩
  · rw [h2]; exact h.steps
  · rw [h2]; exact h.misc
  · rw [h2]; exact h.var
  · rw [h2]; simp [h.fold.len]
  · rw [h2]; exact h3
  · intro s
    have := h4 s
    rw [h2]
    simpa [List.getD, hl2] using this
  · rw [h2]; exact hw

/-- Address of the element that a point means, if its offsets are whole vectors. -/
theorem PartLoop.VarOk.elem_addr {i : Nat} (h : c.VarOk V inner ix i) {p : PtArgs}
    (hw : WholeVecs ((c.vars i).g.dims.map accessDim) p) {j k : Nat} (hk : k < c.vlen)
    (hr : InRangeButStep (c.vars i).g.api (c.elem inner ix (i, p) j k)) :
    (c.vars i).g.addrOf (c.elem inner ix (i, p) j k) =
      .ok ((c.vars i).v.callAddr (c.vars i).g (c.vars i).slot (Yask.moved (c.vars i).v ((c.vars i).names.map ix) j) p *
        (c.vars i).g.elemReals + k) := by
  obtain ⟨yv, dyn, alloc, hg, hlo⟩ := h.loopOk [p] (by simpa using hw)
  have hk' : (k : Int) < prodVals c.fold.vals := by
    have := prodVals_pos _ h.fold.pos
    unfold PartLoop.vlen at hk; omega
  have h1 := hlo.elem (p := p) (by simp) j (l := (c.vars i).names.map (foldPoint c.fold k).at) (by rw [hg]; exact h.fold.isLane k)
  rw [hg, h.fold.laneNo h.ok hk'] at h1
  unfold PartLoop.elem loopElem at hr ⊢
  simp only at hr ⊢
  rw [h.dims_eq, h.moved] at hr ⊢
  exact h1 hr

/-! ### Aligned vectors of a read -/

theorem offsets_names {x : LoopVar} {p : PtArgs} (n : String) (h : n ∈ (x.offsets p).map Prod.fst) : n ∈ x.names := by
  obtain ⟨s, hs, rfl⟩ := List.mem_map.1 h
  unfold LoopVar.offsets at hs
  obtain ⟨d, hd, hde⟩ := List.mem_filterMap.1 hs
  by_cases hm : d.1.2.kind = .misc
  · rw [if_pos hm] at hde; cases hde
  · rw [if_neg hm] at hde
    injection hde with hde
    rw [← hde]
    exact (List.of_mem_zip (List.of_mem_zip hd).1).1

theorem offsets_lookup : ∀ {names : List String} {ds : List CDim} {p : PtArgs}, names.Nodup → ∀ t (h1 : t < names.length) (h2 : t < ds.length)
    (h3 : t < p.length), ds[t].kind ≠ .misc →
    (((names.zip ds).zip p).filterMap fun d => if d.1.2.kind = .misc then none else some (d.1.1, d.2)).lookup names[t] = some p[t]
  | n :: ns, d :: ds, a :: p, hn, 0, _, _, _, hk => by
    simp only [List.getElem_cons_zero] at hk
    simp [hk]
  | n :: ns, d :: ds, a :: p, hn, t + 1, h1, h2, h3, hk => by
    simp only [List.getElem_cons_succ] at hk ⊢
    simp only [List.length_cons, Nat.add_lt_add_iff_right] at h1 h2 h3
    have ih := offsets_lookup (List.nodup_cons.1 hn).2 t h1 h2 h3 hk
    have hne : (ns[t] == n) = false := by
      simp only [beq_eq_false_iff_ne]
      intro e
      exact (List.nodup_cons.1 hn).1 (e ▸ List.getElem_mem h1)
    simp only [List.zip_cons_cons, List.filterMap_cons]
    by_cases hd : d.kind = .misc
    · simp only [hd, if_true]; exact ih
    · simp only [hd, if_false, List.lookup_cons, hne]; exact ih
  | [], _, _, _, t, h1, _, _, _ => by simp at h1
  | _ :: _, [], _, _, t, _, h2, _, _ => by simp at h2
  | _ :: _, _ :: _, [], _, t, _, _, h3, _ => by simp at h3

theorem setOffsets_length {x : LoopVar} {p : PtArgs} (l : Loc) (h1 : x.names.length = p.length) (h2 : x.v.dims.length = p.length) :
    (x.setOffsets p l).length = p.length := by
  simp [LoopVar.setOffsets, h1, h2]

theorem PartLoop.VarOk.kind {i : Nat} (h : c.VarOk V inner ix i) {t : Nat} (h1 : t < (c.vars i).v.dims.length)
    (h2 : t < (c.vars i).g.dims.length) : (c.vars i).v.dims[t].kind = (c.vars i).g.dims[t].kind := by
  have := h.var.kind t h2
  rw [dimAt_eq h2] at this
  rw [← this]
  simp [CVar.dim, List.getD, h1]

theorem PartLoop.VarOk.vecRead {i : Nat} (h : c.VarOk V inner ix i) {p : PtArgs} (hp : p.length = (c.vars i).g.dims.length) :
    VecRead c.fold ((c.vars i).offsets p) where
  pos := h.fold.pos
  nodup := h.fold.foldNodup
  full := by
    intro s hs h1
    have hm : s.1 ∈ (c.vars i).g.foldPosns.map ((c.vars i).names.getD · "") := by
      rw [h.fold.posns]
      exact List.mem_map_of_mem (List.mem_filter.2 ⟨hs, by simpa using h1⟩)
    obtain ⟨t, ht, hte⟩ := List.mem_map.1 hm
    have h2 := foldPosn_lt h.ok ht
    have h3 : t < (c.vars i).names.length := by rw [h.fold.len]; exact h2
    have h4 : t < (c.vars i).v.dims.length := by rw [h.var.len]; exact h2
    have hn : (c.vars i).names[t] = s.1 := by simpa [List.getD, h3] using hte
    have hd : (c.vars i).g.dims[t].kind = .domain := by
      by_contra hc
      have := h.fold.other ((c.vars i).names[t], (c.vars i).g.dims[t])
        (List.mem_iff_getElem.2 ⟨t, by simp; omega, by simp⟩) hc
      simp only [hn] at this
      rw [mem_lookup h.fold.foldNodup hs] at this
      cases this
    have hk : (c.vars i).v.dims[t].kind ≠ .misc := by rw [h.kind h4 h2, hd]; decide
    have hlk := offsets_lookup h.fold.nodup t h3 h4 (by omega : t < p.length) hk
    rw [← hn]
    by_contra hc
    have : ((c.vars i).offsets p).lookup (c.vars i).names[t] = none := by
      rw [List.lookup_eq_none_iff]
      intro x hx
      simp only [bne_iff_ne, ne_eq]
      intro e
      exact hc (e ▸ List.mem_map_of_mem hx)
    rw [show ((c.vars i).offsets p).lookup (c.vars i).names[t] = some p[t] from hlk] at this
    cases this

theorem lookup_of_mem_fst {l : Loc} {n : String} (h : n ∈ l.map Prod.fst) : ∃ v, l.lookup n = some v := by
  cases hl : l.lookup n with
  | some v => exact ⟨v, rfl⟩
  | none => exact absurd h (not_mem_lookup hl)

/-- An arg of an aligned vector of a read. -/
theorem PartLoop.VarOk.block_arg {i : Nat} (h : c.VarOk V inner ix i) {p : PtArgs} (hp : p.length = (c.vars i).g.dims.length)
    {l : Loc} (hl : l.map Prod.fst = ((c.vars i).offsets p).map Prod.fst) {t : Nat} (h2 : t < (c.vars i).g.dims.length)
    (h1 : t < (c.vars i).names.length) (h3 : t < ((c.vars i).setOffsets p l).length) :
    ((c.vars i).setOffsets p l)[t] = if (c.vars i).g.dims[t].kind = .misc then p[t] else l.at (c.vars i).names[t] := by
  have h4 : t < (c.vars i).v.dims.length := by rw [h.var.len]; exact h2
  have e : ((c.vars i).setOffsets p l)[t] =
      if (c.vars i).v.dims[t].kind = .misc then p[t] else (l.lookup (c.vars i).names[t]).getD p[t] := by
    simp [LoopVar.setOffsets]
  rw [e, h.kind h4 h2]
  by_cases hm : (c.vars i).g.dims[t].kind = .misc
  · rw [if_pos hm, if_pos hm]
  · rw [if_neg hm, if_neg hm]
    have hlk := offsets_lookup h.fold.nodup t h1 h4 (by omega : t < p.length) (by rw [h.kind h4 h2]; exact hm)
    have hmem : (c.vars i).names[t] ∈ ((c.vars i).offsets p).map Prod.fst :=
      List.mem_map_of_mem (f := Prod.fst) (ptr_lookup_mem hlk)
    obtain ⟨v, hv⟩ := lookup_of_mem_fst (hl ▸ hmem)
    unfold Loc.at
    rw [hv]; rfl

theorem PartLoop.VarOk.offsets_at {i : Nat} (h : c.VarOk V inner ix i) {p : PtArgs} (hp : p.length = (c.vars i).g.dims.length)
    {t : Nat} (h2 : t < (c.vars i).g.dims.length) (h1 : t < (c.vars i).names.length) (hm : (c.vars i).g.dims[t].kind ≠ .misc) :
    ((c.vars i).offsets p).at (c.vars i).names[t] = p[t] := by
  have h4 : t < (c.vars i).v.dims.length := by rw [h.var.len]; exact h2
  have hlk := offsets_lookup h.fold.nodup t h1 h4 (by omega : t < p.length) (by rw [h.kind h4 h2]; exact hm)
  unfold Loc.at
  rw [show ((c.vars i).offsets p).lookup (c.vars i).names[t] = some p[t] from hlk]; rfl

/-- Element `ve.offset` of the aligned vector is lane `k` of the read. -/
theorem PartLoop.VarOk.block_elem {i : Nat} (h : c.VarOk V inner ix i) {p : PtArgs} (hp : p.length = (c.vars i).g.dims.length)
    {ve : VecElem} {k : Nat} (hn : ve.vec.map Prod.fst = ((c.vars i).offsets p).map Prod.fst)
    (hpos : ∀ dim, ve.vec.at dim + (foldPoint c.fold ve.offset).at dim = ((c.vars i).offsets p).at dim + (foldPoint c.fold k).at dim) (j : Nat) :
    c.elem inner ix (i, (c.vars i).setOffsets p ve.vec) j ve.offset = c.elem inner ix (i, p) j k := by
  have hlen := h.fold.len
  have hlv := h.var.len
  have hsl : ((c.vars i).setOffsets p ve.vec).length = p.length := setOffsets_length _ (by omega) (by omega)
  unfold PartLoop.elem loopElem pointElem
  simp only
  rw [h.dims_eq]
  apply List.ext_getElem
  · simp [hsl]
  intro t h1 h2
  have ht : t < (c.vars i).g.dims.length := by simp at h1; omega
  have ht2 : t < (c.vars i).names.length := by omega
  simp only [List.getElem_map, List.getElem_zip]
  rw [h.block_arg hp hn ht ht2 (by omega)]
  have hm : ((c.vars i).names[t], (c.vars i).g.dims[t]) ∈ (c.vars i).names.zip (c.vars i).g.dims :=
    List.mem_iff_getElem.2 ⟨t, by simp; omega, by simp⟩
  unfold AccessDim.elem accessDim
  cases hk : (c.vars i).g.dims[t].kind with
  | misc => simp
  | step =>
    have e := hpos (c.vars i).names[t]
    rw [h.offsets_at hp ht ht2 (by rw [hk]; decide)] at e
    have h0 := h.fold.other _ hm (by rw [hk]; decide)
    simp only at h0
    have z : ∀ k, (foldPoint c.fold k).at (c.vars i).names[t] = 0 := by
      intro k
      rcases h.fold.point_lookup k (c.vars i).names[t] with ⟨_, h3⟩ | ⟨len, h3, _⟩
      · exact h3
      · rw [h0] at h3; cases h3
    rw [z, z] at e
    simp only [reduceCtorEq, if_false]
    omega
  | domain =>
    have e := hpos (c.vars i).names[t]
    rw [h.offsets_at hp ht ht2 (by rw [hk]; decide)] at e
    simp only [reduceCtorEq, if_false]
    omega

/-- The aligned vectors of a read are whole vectors. -/
theorem PartLoop.VarOk.block_whole {i : Nat} (h : c.VarOk V inner ix i) {p : PtArgs} (hp : p.length = (c.vars i).g.dims.length)
    {ve : VecElem} (hn : ve.vec.map Prod.fst = ((c.vars i).offsets p).map Prod.fst)
    (hdvd : ∀ dim len, c.fold.lookup dim = some len → len ∣ ve.vec.at dim) :
    WholeVecs ((c.vars i).g.dims.map accessDim) ((c.vars i).setOffsets p ve.vec) := by
  have hlen := h.fold.len
  have hlv := h.var.len
  have hsl : ((c.vars i).setOffsets p ve.vec).length = p.length := setOffsets_length _ (by omega) (by omega)
  refine ⟨by simp [hsl, hp], ?_⟩
  intro x hx
  obtain ⟨t, h1, rfl⟩ := List.mem_iff_getElem.1 hx
  have ht : t < (c.vars i).g.dims.length := by simp at h1; omega
  have ht2 : t < (c.vars i).names.length := by omega
  simp only [List.getElem_map, List.getElem_zip]
  rw [h.block_arg hp hn ht ht2 (by omega)]
  have hm : ((c.vars i).names[t], (c.vars i).g.dims[t]) ∈ (c.vars i).names.zip (c.vars i).g.dims :=
    List.mem_iff_getElem.2 ⟨t, by simp; omega, by simp⟩
  unfold accessDim
  cases hk : (c.vars i).g.dims[t].kind with
  | misc => simp
  | step => simp
  | domain =>
    simp only [reduceCtorEq, if_false]
    have hv := h.fold.vl _ hm hk
    simp only at hv
    rw [hv]
    cases hl : c.fold.q.lookup (c.vars i).names[t] with
    | none => simp
    | some len => exact hdvd _ _ (by rw [tup_lookup]; exact hl)

end
end Yask.Comp
