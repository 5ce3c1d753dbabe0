import Verif.Kernel.NanoRunLemmas
import Verif.Spec.NanoRunSpec
import Verif.Props.InnerLoop
import Verif.Props.Nano

/-! Helper lemmas: memory after runs of the inner loop. -/

namespace Yask.Nano
open Spec Var Comp Spec.Cpp

/-- How a part fits the domain: its fold and its vars have the dims, folds and rank offsets given. -/
structure PartAt.Fits (p : PartAt) (inner : String) (fi : Bool) (folds rofs : List Int) : Prop where
  fold : p.c.fold = ⟨p.dims.zip folds, fi⟩
  foldLen : folds.length = p.dims.length
  rofsLen : rofs.length = p.dims.length
  nodup : p.dims.Nodup
  step : p.step ∉ p.dims
  inner : p.dims.getLast? = some inner
  vars : ∀ q, q ∈ p.c.eqs.map (·.1) ∨ p.c.IsRead q → ∀ x ∈ (p.c.vars q.1).names.zip (p.c.vars q.1).g.dims, match x.2.kind with
    | .step => x.1 = p.step
    | .domain => (p.dims.zip rofs).lookup x.1 = some x.2.rankOfs
    | .misc => True

/-- The element that a point of an equation means at a point of the domain. -/
def PartAt.elemAt (p : PartAt) (q : LPt) (x : List Int) : List Int :=
  gridElem (gridIndex p.step p.t p.dims x) (p.c.vars q.1).names ((p.c.vars q.1).g.dims.map accessDim) q.2

/-- What the equations of a part access at the given points of the domain: elements of the vars; different elements for different
equations and points; and an element that is set at some point is read at no other point, and there by no later equation. -/
structure PartAt.Indep (p : PartAt) (P : List Int → Prop) : Prop where
  range : ∀ q, q ∈ p.c.eqs.map (·.1) ∨ p.c.IsRead q → ∀ x, P x → InRangeButStep (p.c.vars q.1).g.api (p.elemAt q x)
  writes : ∀ q ∈ p.c.eqs.map (·.1), ∀ q' ∈ p.c.eqs.map (·.1), q.1 = q'.1 → ∀ x y, P x → P y →
    SameElem (p.c.vars q.1).g.api (p.elemAt q x) (p.elemAt q' y) → q = q' ∧ x = y
  reads : ∀ (r : Nat) (hr : r < p.c.eqs.length) (r' : Nat) (hr' : r' < p.c.eqs.length), ∀ q ∈ (p.c.eqs[r]).2.points,
    q.1 = (p.c.eqs[r']).1.1 → ∀ x y, P x → P y →
    SameElem (p.c.vars q.1).g.api (p.elemAt q x) (p.elemAt (p.c.eqs[r']).1 y) → x = y ∧ r ≤ r'

section
variable {V : Type}

/-- The value that a point of an equation has at a point of the domain. -/
def PartAt.valAt (p : PartAt) (u : V) (mem : Nat → Int → V) (x : List Int) (q : LPt) : V :=
  match (p.c.vars q.1).g.addrOf (p.elemAt q x) with
  | .ok a => mem q.1 a
  | _ => u

/-- The equations have been evaluated at the given points. -/
def PartAt.Evals (p : PartAt) (u : V) (A : Arith V) (P : List Int → Prop) (mem mem' : Nat → Int → V) : Prop :=
  (∀ e ∈ p.c.eqs, ∀ x, P x → ∃ a, (p.c.vars e.1.1).g.addrOf (p.elemAt e.1 x) = .ok a ∧ mem' e.1.1 a = e.2.value A (p.valAt u mem x)) ∧
  ∀ i b, (∀ e ∈ p.c.eqs, e.1.1 = i → ∀ x, P x → (p.c.vars i).g.addrOf (p.elemAt e.1 x) ≠ .ok b) → mem' i b = mem i b

theorem PartAt.Indep.mono {p : PartAt} {P Q : List Int → Prop} (h : p.Indep Q) (hs : ∀ x, P x → Q x) : p.Indep P where
  range q hq x hx := h.range q hq x (hs x hx)
  writes q hq q' hq' hqq x y hx hy := h.writes q hq q' hq' hqq x y (hs x hx) (hs y hy)
  reads r hr r' hr' q hq hqq x y hx hy := h.reads r hr r' hr' q hq hqq x y (hs x hx) (hs y hy)

/-! ### Elements -/

theorem lookup_zip : ∀ (ns : List String) (l : List Int), l.length = ns.length → ∀ n, (ns.zip l).lookup n = l[ns.idxOf n]?
  | [], [], _, n => rfl
  | m :: ns, a :: l, h, n => by
    rw [List.zip_cons_cons, List.lookup_cons]
    by_cases hm : n = m
    · subst hm; simp
    · rw [beq_false_of_ne hm, List.idxOf_cons_ne _ (Ne.symm hm)]
      simpa using lookup_zip ns l (by simpa using h) n
  | [], _ :: _, h, _ => by simp at h
  | _ :: _, [], h, _ => by simp at h

theorem advance_length {v : List Int} (j : Nat) : (advance v j).length = v.length := by
  rcases List.eq_nil_or_concat v with h2 | ⟨v, a, h2⟩ <;> rw [h2]
  · rfl
  · simp

theorem iterIndex_advance {p : PartAt} {inner : String} {fi : Bool} {folds rofs : List Int} (h : p.Fits inner fi folds rofs) {v : List Int}
    (hv : v.length = p.dims.length) (j : Nat) : iterIndex inner (p.index v) j = p.index (advance v j) := by
  have hi := h.inner
  have hn := h.nodup
  have hs := h.step
  unfold PartAt.index iterIndex
  generalize p.dims = D at *
  rcases List.eq_nil_or_concat D with rfl | ⟨D, a, rfl⟩
  · simp at hi
  · simp only [List.concat_eq_append] at *
    simp only [List.getLast?_append, List.getLast?_singleton, Option.some_or, Option.some.injEq] at hi
    subst hi
    rcases List.eq_nil_or_concat v with rfl | ⟨v, b, rfl⟩
    · simp at hv
    · simp only [List.concat_eq_append, List.length_append, List.length_singleton, Nat.add_right_cancel_iff, advance_concat] at *
      funext d
      have haD : a ∉ D := by
        rw [List.nodup_append] at hn
        intro ha
        exact hn.2.2 a ha a (by simp) rfl
      have hlook : ∀ c : Int, ((D ++ [a]).zip (v ++ [c])).lookup d = ((D.zip v).lookup d).or (if d = a then some c else none) := by
        intro c
        rw [List.zip_append hv.symm, List.lookup_append]
        congr 1
        by_cases hd : d = a
        · subst hd; simp
        · rw [List.zip_cons_cons, List.lookup_cons, beq_false_of_ne hd, if_neg hd]
          rfl
      by_cases hda : d = a
      · subst hda
        have hds : d ≠ p.step := by
          rintro rfl
          exact hs (by simp)
        have : (D.zip v).lookup d = none := by
          rw [lookup_zip D v hv, List.idxOf_eq_length haD, ← hv]
          simp
        simp [hlook, hds, this]
      · simp only [if_neg hda, hlook]

theorem elem_eq {p : PartAt} {inner : String} {fi : Bool} {ds : List NanoDim} (h : p.Fits inner fi (ds.map NanoDim.fold) (ds.map NanoDim.rofs))
    {q : LPt} (hq : q ∈ p.c.eqs.map (·.1) ∨ p.c.IsRead q) {V : Type} {ix : String → Int} (hv0 : p.c.AnyOk V inner ix q.1)
    {v : List Int} (hv : v.length = ds.length) (j k : Nat) :
    p.c.elem inner (p.index v) q j k =
      p.elemAt q (vecPoint ds (advance v j) (unlayoutVals fi (ds.map NanoDim.fold) k)) := by
  have hl : ds.length = p.dims.length := by simpa using h.foldLen
  unfold PartLoop.elem loopElem pointElem PartAt.elemAt gridElem
  rw [iterIndex_advance h (by omega)]
  have hvl : (advance v j).length = ds.length := by rw [advance_length, hv]
  generalize hw : advance v j = w at hvl
  have hol : (unlayoutVals fi (ds.map NanoDim.fold) k).length = ds.length := by
    have := (unlayout_inSpace fi (ds.map NanoDim.fold) (by
      intro d hd
      have := hv0.pos d
      rw [h.fold] at this
      apply this
      unfold Tup.vals
      rw [show (Tup.mk (p.dims.zip (ds.map NanoDim.fold)) fi).q = p.dims.zip (ds.map NanoDim.fold) from rfl, List.map_snd_zip (by simp; omega)]
      exact hd) k).length_eq
    simpa using this
  have hat : (foldPoint p.c.fold k).at = fun n => ((p.dims.zip (unlayoutVals fi (ds.map NanoDim.fold) k)).lookup n).getD 0 := by
    funext n
    unfold foldPoint Loc.at Tup.unlayout Tup.names Tup.vals
    rw [h.fold]
    simp only
    rw [List.map_fst_zip (by simp; omega), List.map_snd_zip (by simp; omega)]
  generalize unlayoutVals fi (ds.map NanoDim.fold) k = o at hol hat
  rw [hat]
  have hpl : (vecPoint ds w o).length = ds.length := by
    unfold vecPoint
    simp [hvl, hol]
  apply List.ext_getElem
  · simp [hv0.len, min_comm]
  · intro i h1 h2
    simp only [List.length_map, List.length_zip, List.length_zipWith] at h1
    simp only [List.getElem_map, List.getElem_zip, List.getElem_zipWith]
    have hmem : ((p.c.vars q.1).names[i], (p.c.vars q.1).g.dims[i]) ∈ (p.c.vars q.1).names.zip (p.c.vars q.1).g.dims := by
      rw [List.mem_iff_getElem]
      exact ⟨i, by simp; omega, by simp⟩
    have hx := h.vars q hq _ hmem
    have hlv := hv0.len
    simp only at hx
    generalize (p.c.vars q.1).names[i] = n at *
    generalize (p.c.vars q.1).g.dims[i] = d at *
    generalize q.2[i]'(by omega) = a
    cases hk : d.kind with
    | step =>
      rw [hk] at hx
      simp only at hx
      simp [accessDim, loopDim, hk, AccessDim.elem, PartAt.index, gridIndex, hx]
    | domain =>
      rw [hk] at hx
      simp only at hx
      obtain ⟨vl, hvl⟩ : ∃ vl, vl = (p.c.fold.q.lookup n).getD 1 := ⟨_, rfl⟩
      have hns : n ≠ p.step := by
        rintro rfl
        rw [lookup_zip _ _ h.rofsLen, List.idxOf_eq_length h.step, ← h.rofsLen] at hx
        simp at hx
      rw [lookup_zip _ _ h.rofsLen] at hx
      simp only [accessDim, loopDim, hk, AccessDim.elem, PartAt.index, gridIndex, if_neg hns, ← hvl]
      rw [h.fold] at hvl
      simp only at hvl
      rw [lookup_zip _ _ h.foldLen] at hvl
      rw [lookup_zip _ _ (by omega), lookup_zip _ _ (by omega), lookup_zip _ _ (by omega)]
      generalize p.dims.idxOf n = m at *
      have hm : m < ds.length := by
        by_contra hge
        rw [List.getElem?_eq_none (by simp; omega)] at hx
        cases hx
      rw [List.getElem?_eq_getElem (by simpa using hm)] at hx hvl
      simp only [List.getElem_map, Option.some.injEq, Option.getD_some] at hx hvl
      rw [List.getElem?_eq_getElem (by omega), List.getElem?_eq_getElem (by omega), List.getElem?_eq_getElem (by omega)]
      simp only [Option.getD_some]
      have : (vecPoint ds w o)[m]'(by omega) = w[m] * ds[m].fold + o[m] + ds[m].rofs := by
        unfold vecPoint
        simp
      rw [this, hvl, ← hx]
      ring
    | misc => simp [accessDim, loopDim, hk, AccessDim.elem]

/-! ### One run -/

theorem step_name {N : List String} {g : Geom} {step : String} {R : List (String × Int)} (hx : ∀ x ∈ N.zip g.dims, match x.2.kind with
    | .step => x.1 = step
    | .domain => R.lookup x.1 = some x.2.rankOfs
    | .misc => True) (hlen : N.length = g.dims.length) (hs : g.hasStep = true) : N.getD 0 "" = step := by
  unfold Geom.hasStep at hs
  cases hD : g.dims with
  | nil => rw [hD] at hs; simp at hs
  | cons d D =>
    rw [hD] at hs hlen hx
    cases N with
    | nil => simp at hlen
    | cons n N =>
      have h3 := hx (n, d) (by simp)
      simp only at hs h3
      rw [eq_of_beq hs] at h3
      simpa using h3

theorem slots_run {p : PartAt} {inner : String} {fi : Bool} {folds rofs : List Int} (h : p.Fits inner fi folds rofs)
    {q : LPt} (hq : q ∈ p.c.eqs.map (·.1) ∨ p.c.IsRead q) (hlen : (p.c.vars q.1).names.length = (p.c.vars q.1).g.dims.length)
    (hs : ∃ dyn alloc, (dyn = true ∨ alloc = (p.c.vars q.1).g.stepSize) ∧
      ∀ s, stepSlot (p.c.vars q.1).g dyn alloc (p.t + s) = .ok ((p.c.vars q.1).slot s)) (v : List Int) :
    ∃ dyn alloc, (dyn = true ∨ alloc = (p.c.vars q.1).g.stepSize) ∧
      ∀ s, stepSlot (p.c.vars q.1).g dyn alloc (p.index v ((p.c.vars q.1).names.getD 0 "") + s) = .ok ((p.c.vars q.1).slot s) := by
  obtain ⟨dyn, alloc, h1, h2⟩ := hs
  refine ⟨dyn, alloc, h1, fun s => ?_⟩
  rw [← h2 s]
  cases hs : (p.c.vars q.1).g.hasStep with
  | false => simp [stepSlot, hs]
  | true =>
    have hn := step_name (h.vars q hq) hlen hs
    rw [hn]
    unfold PartAt.index
    rw [if_pos rfl]

theorem varOk_run {p : PartAt} {inner : String} {fi : Bool} {folds rofs : List Int} (h : p.Fits inner fi folds rofs)
    {q : LPt} (hq : q ∈ p.c.eqs.map (·.1) ∨ p.c.IsRead q) (hv : p.c.VarOk V inner (fun _ => p.t) q.1) (v : List Int) (m : Nat) :
    PartLoop.VarOk V { p.c with mask := m } inner (p.index v) q.1 :=
  ⟨hv.reach, hv.steps, hv.misc, hv.var, slots_run h hq hv.fold.len hv.slots v, hv.fold, hv.inner, hv.foldable⟩

/-- The code of a part with another mask, at other vectors. -/
theorem ok_run {p : PartAt} {inner : String} {fi : Bool} {folds rofs : List Int} (h : p.Fits inner fi folds rofs)
    (hc : p.c.Ok V inner fun _ => p.t) (v : List Int) (m : Nat) (hm : m ≠ 0 → ∃ k < p.c.vlen, m.testBit k = true) :
    PartLoop.Ok V { p.c with mask := m } inner (p.index v) where
  var q hq := by
    obtain ⟨hv, hl⟩ := hc.var q hq
    rcases hv with hv | hv
    · exact ⟨.inl (varOk_run h hq hv v m), hl⟩
    · exact ⟨.inr ⟨hv.reach, hv.steps, slots_run h hq hv.len hv.slots v, hv.kinds, hv.len, hv.pos, hv.inner, hv.foldable, hv.isElem⟩, hl⟩
  lhs e he := ⟨varOk_run h (.inl (List.mem_map_of_mem he)) (hc.lhs e he).1 v m, (hc.lhs e he).2⟩
  aligned := hc.aligned
  order := hc.order
  inner := hc.inner
  selBit := hc.selBit
  mask := hm

/-- Membership in the points of a run. -/
theorem mem_runPoints {fi : Bool} {ds : List NanoDim} {r : InnerRun} {x : List Int} : x ∈ runPoints fi ds r ↔
    ∃ j < r.n, ∃ k < foldPts (ds.map NanoDim.fold), r.mask.getLsbD k = true ∧
      x = vecPoint ds (advance r.first j) (unlayoutVals fi (ds.map NanoDim.fold) k) := by
  unfold runPoints
  simp only [List.mem_flatMap, List.mem_filterMap, List.mem_range]
  constructor
  · rintro ⟨j, hj, k, hk, h⟩
    split_ifs at h with hb
    injection h with h
    exact ⟨j, hj, k, hk, hb, h.symm⟩
  · rintro ⟨j, hj, k, hk, hb, rfl⟩
    exact ⟨j, hj, k, hk, by rw [if_pos hb]⟩

variable {p : PartAt} {inner : String} {fi : Bool} {ds : List NanoDim}

theorem vlen_eq (h : p.Fits inner fi (ds.map NanoDim.fold) (ds.map NanoDim.rofs)) : p.c.vlen = foldPts (ds.map NanoDim.fold) := by
  have hl : ds.length = p.dims.length := by simpa using h.foldLen
  unfold PartLoop.vlen Tup.vals
  rw [h.fold]
  simp only
  rw [List.map_snd_zip (by simp; omega)]

/-- One run of the inner loop evaluates the equations at its points. -/
theorem runInner_evals (h : p.Fits inner fi (ds.map NanoDim.fold) (ds.map NanoDim.rofs)) (hc : p.c.Ok V inner fun _ => p.t)
    (hf : ∀ d ∈ ds, 0 < d.fold) (u : V) (A : Arith V) (node : Nat → Ex LPt) (hd : (p.c.eqs.map (·.1)).Nodup)
    (hn : ∀ m, ∀ e ∈ p.c.eqs, e.2.All (Ex.NodeOk A m node (p.c.eqs.map (·.1)))) (hp : ∀ e ∈ p.c.eqs, e.2.Plain A)
    (r : InnerRun) (hm : MaskOk (foldPts (ds.map NanoDim.fold)) r.mask) (hl : 0 < r.n → r.first.length = ds.length)
    (hi : p.Indep (· ∈ runPoints fi ds r)) (mem : Nat → Int → V) :
    ∃ mem', p.runInner u A r mem = .ok mem' ∧ p.Evals u A (· ∈ runPoints fi ds r) mem mem' := by
  have hvl := vlen_eq h
  have hpos : ∀ d ∈ ds.map NanoDim.fold, 0 < d := by
    intro d hd
    obtain ⟨n, hn, rfl⟩ := List.mem_map.1 hd
    exact hf n hn
  set c' : PartLoop := { p.c with mask := r.mask.toNat } with hc'
  have hok : c'.Ok V inner (p.index r.first) := by
    apply ok_run h hc
    intro h0
    obtain ⟨k, hk, hb⟩ := hm (by rintro hz; rw [hz] at h0; simp at h0)
    exact ⟨k, by omega, hb⟩
  -- the point of a lane
  let pt : Nat → Nat → List Int := fun j k => vecPoint ds (advance r.first j) (unlayoutVals fi (ds.map NanoDim.fold) k)
  have hmem : ∀ j < r.n, ∀ k, c'.Active k → pt j k ∈ runPoints fi ds r := by
    intro j hj k hk
    have h1 : k < p.c.vlen := hk.1
    exact mem_runPoints.2 ⟨j, hj, k, by omega, hk.2, rfl⟩
  have hel : ∀ q, q ∈ p.c.eqs.map (·.1) ∨ p.c.IsRead q → ∀ j < r.n, ∀ k, c'.elem inner (p.index r.first) q j k = p.elemAt q (pt j k) := by
    intro q hq j hj k
    exact elem_eq h hq (hc.var q hq).1 (hl (by omega)) j k
  have hinj : ∀ j < r.n, ∀ j' < r.n, ∀ k k', pt j k = pt j' k' → j = j' := by
    intro j hj j' hj' k k' he
    have hlen := hl (by omega)
    have h1 := (vecPoint_eq_iff ds hf _ _ _ (by rw [advance_length, hlen]) (unlayout_inSpace fi _ hpos k)).1 he
    have h2 := (vecPoint_eq_iff ds hf (advance r.first j') _ _ (by rw [advance_length, hlen]) (unlayout_inSpace fi _ hpos k')).1 rfl
    have h3 := h1.2.1.trans h2.2.1.symm
    rcases List.eq_nil_or_concat r.first with h4 | ⟨v, a, h4⟩
    · have h5 : p.dims.length = 0 := by
        have := h.foldLen
        rw [h4] at hlen
        simp at hlen this
        omega
      have := h.inner
      rw [List.length_eq_zero_iff.1 h5] at this
      simp at this
    · rw [h4, List.concat_eq_append, advance_concat, advance_concat] at h3
      simpa using h3
  have ha : c'.Apart inner (p.index r.first) r.n := by
    refine ⟨?_, ?_, ?_⟩
    · intro q hq j hj k hk
      rw [hel q hq j hj k]
      exact hi.range q hq _ (hmem j hj k hk)
    · intro q hq q' hq' hqq j hj j' hj' k k' hk hk' hs
      rw [hel q (.inl hq) j hj k, hel q' (.inl hq') j' hj' k'] at hs
      exact (hi.writes q hq q' hq' hqq _ _ (hmem j hj k hk) (hmem j' hj' k' hk') hs).1
    · intro i hir i' hir' q hq hqq j hj j' hj' k k' hk hk' hs
      rw [hel q (.inr ⟨_, List.getElem_mem hir, hq⟩) j hj k,
        hel _ (.inl (List.mem_map_of_mem (List.getElem_mem hir'))) j' hj' k'] at hs
      obtain ⟨h1, h2⟩ := hi.reads i hir i' hir' q hq hqq _ _ (hmem j hj k hk) (hmem j' hj' k' hk') hs
      exact .inr ⟨hinj j hj j' hj' k k' h1, h2⟩
  obtain ⟨mem', m1, m2, m3⟩ := C80_lanes_partial c' inner (p.index r.first) hok r.n ha u A node hd hn hp mem
  refine ⟨mem', m1, ?_, ?_⟩
  · intro e he x hx
    obtain ⟨j, hj, k, hk, hb, rfl⟩ := mem_runPoints.1 hx
    obtain ⟨a, a1, a2⟩ := m2 e he j hj k (by show k < p.c.vlen; omega) hb
    rw [hel e.1 (.inl (List.mem_map_of_mem he)) j hj k] at a1
    refine ⟨a, a1, a2.trans (value_congr A _ _ e.2 fun q hq => ?_)⟩
    rw [hel q (.inr ⟨e, he, hq⟩) j hj k]
    rfl
  · intro i b hb
    apply m3
    intro e he hei j hj k hk hbk
    have := hb e he hei (pt j k) (hmem j hj k ⟨hk, hbk⟩)
    rw [← hel e.1 (.inl (List.mem_map_of_mem he)) j hj k] at this
    exact this

/-! ### Sequences of runs -/

theorem same_of_addr (hc : p.c.Ok V inner fun _ => p.t) {q q' : LPt} (hq : q ∈ p.c.eqs.map (·.1) ∨ p.c.IsRead q) (hqq : q.1 = q'.1)
    {x y a b} (hx : InRangeButStep (p.c.vars q.1).g.api (p.elemAt q x)) (hy : InRangeButStep (p.c.vars q'.1).g.api (p.elemAt q' y))
    (h1 : (p.c.vars q.1).g.addrOf (p.elemAt q x) = .ok a) (h2 : (p.c.vars q'.1).g.addrOf (p.elemAt q' y) = .ok b) (hab : a = b) :
    SameElem (p.c.vars q.1).g.api (p.elemAt q x) (p.elemAt q' y) := by
  obtain ⟨hv, _⟩ := hc.var q hq
  subst hab
  rw [← hqq] at h2 hy
  rw [addrOf_eq hv.ok hx hv.steps] at h1
  rw [addrOf_eq hv.ok hy hv.steps] at h2
  injection h1 with h1
  injection h2 with h2
  exact (addr_eq_iff hv.ok hx hy hv.steps).1 (h1.trans h2.symm)

theorem Evals.comp (hc : p.c.Ok V inner fun _ => p.t) {u : V} {A : Arith V} {P Q : List Int → Prop} (hi : p.Indep fun x => P x ∨ Q x)
    (hdis : ∀ x, P x → ¬ Q x) {m m1 m2 : Nat → Int → V} (h1 : p.Evals u A P m m1) (h2 : p.Evals u A Q m1 m2) :
    p.Evals u A (fun x => P x ∨ Q x) m m2 := by
  refine ⟨?_, ?_⟩
  · rintro e he x (hx | hx)
    · obtain ⟨a, a1, a2⟩ := h1.1 e he x hx
      refine ⟨a, a1, ?_⟩
      rw [← a2]
      apply h2.2
      intro e' he' hee y hy hy2
      have hr := hi.range e.1 (.inl (List.mem_map_of_mem he)) x (.inl hx)
      have hr' := hi.range e'.1 (.inl (List.mem_map_of_mem he')) y (.inr hy)
      rw [← hee] at hy2
      have hs := same_of_addr hc (.inl (List.mem_map_of_mem he)) hee.symm hr hr' a1 hy2 rfl
      have := (hi.writes e.1 (List.mem_map_of_mem he) e'.1 (List.mem_map_of_mem he') hee.symm x y (.inl hx) (.inr hy) hs).2
      subst this
      exact hdis x hx hy
    · obtain ⟨a, a1, a2⟩ := h2.1 e he x hx
      refine ⟨a, a1, a2.trans (value_congr A _ _ e.2 fun q hq => ?_)⟩
      have hrd : p.c.IsRead q := ⟨e, he, hq⟩
      have hr := hi.range q (.inr hrd) x (.inr hx)
      unfold PartAt.valAt
      obtain ⟨hv, _⟩ := hc.var q (.inr hrd)
      have ha := addrOf_eq hv.ok hr hv.steps
      rw [ha]
      simp only
      apply h1.2
      intro e' he' hee y hy hy2
      have hr' := hi.range e'.1 (.inl (List.mem_map_of_mem he')) y (.inl hy)
      rw [← hee] at hy2
      have hs := same_of_addr hc (.inr hrd) hee.symm hr hr' ha hy2 (by rw [hee])
      obtain ⟨r, hr1, rfl⟩ := List.mem_iff_getElem.1 he
      obtain ⟨r', hr2, rfl⟩ := List.mem_iff_getElem.1 he'
      have := (hi.reads r hr1 r' hr2 q hq hee.symm x y (.inr hx) (.inl hy) hs).1
      subst this
      exact hdis x hy hx
  · intro i b hb
    rw [h2.2 i b fun e he hei x hx => hb e he hei x (.inr hx), h1.2 i b fun e he hei x hx => hb e he hei x (.inl hx)]

theorem Evals.nil (u : V) (A : Arith V) {P : List Int → Prop} (hP : ∀ x, ¬ P x) (m : Nat → Int → V) : p.Evals u A P m m :=
  ⟨fun _ _ x hx => absurd hx (hP x), fun _ _ _ => rfl⟩

theorem Evals.congr {u : V} {A : Arith V} {P Q : List Int → Prop} (h : ∀ x, P x ↔ Q x) {m m' : Nat → Int → V} (he : p.Evals u A P m m') :
    p.Evals u A Q m m' := by
  have : P = Q := funext fun x => propext (h x)
  exact this ▸ he

theorem runInners_evals (h : p.Fits inner fi (ds.map NanoDim.fold) (ds.map NanoDim.rofs)) (hc : p.c.Ok V inner fun _ => p.t)
    (hf : ∀ d ∈ ds, 0 < d.fold) (u : V) (A : Arith V) (node : Nat → Ex LPt) (hd : (p.c.eqs.map (·.1)).Nodup)
    (hn : ∀ m, ∀ e ∈ p.c.eqs, e.2.All (Ex.NodeOk A m node (p.c.eqs.map (·.1)))) (hp : ∀ e ∈ p.c.eqs, e.2.Plain A) :
    ∀ (rs : List InnerRun), (∀ r ∈ rs, MaskOk (foldPts (ds.map NanoDim.fold)) r.mask ∧ (0 < r.n → r.first.length = ds.length)) →
      (rs.flatMap (runPoints fi ds)).Nodup → p.Indep (· ∈ rs.flatMap (runPoints fi ds)) → ∀ mem : Nat → Int → V,
      ∃ mem', p.runInners u A rs mem = .ok mem' ∧ p.Evals u A (· ∈ rs.flatMap (runPoints fi ds)) mem mem'
  | [], _, _, _, mem => ⟨mem, rfl, Evals.nil u A (by simp) mem⟩
  | r :: rs, hrs, hnd, hi, mem => by
    rw [List.flatMap_cons, List.nodup_append] at hnd
    have hsub : ∀ x, x ∈ runPoints fi ds r ∨ x ∈ rs.flatMap (runPoints fi ds) ↔ x ∈ (r :: rs).flatMap (runPoints fi ds) := by
      intro x; rw [List.flatMap_cons, List.mem_append]
    obtain ⟨m1, e1, e2⟩ := runInner_evals h hc hf u A node hd hn hp r (hrs r (by simp)).1 (hrs r (by simp)).2
      (hi.mono fun x hx => (hsub x).1 (.inl hx)) mem
    obtain ⟨m2, e3, e4⟩ := runInners_evals h hc hf u A node hd hn hp rs (fun r hr => hrs r (List.mem_cons_of_mem _ hr)) hnd.2.1
      (hi.mono fun x hx => (hsub x).1 (.inr hx)) m1
    refine ⟨m2, ?_, Evals.congr hsub (Evals.comp hc (hi.mono fun x hx => (hsub x).1 hx) ?_ e2 e4)⟩
    · unfold PartAt.runInners
      rw [e1]
      exact e3
    · intro x hx hx'
      exact hnd.2.2 x hx x hx' rfl

end
end Yask.Nano
