import Verif.Compiler.LoopBodyLemmas
import Verif.Props.Print

/-! Helper lemmas: the generated inner loop, iteration by iteration. -/

namespace Yask.Comp
open Var Spec Spec.Cpp

/-- What the equations of a part access in `n` iterations: elements of the vars; different elements for different points that are
written; and no element that has been written before, that is, in an earlier iteration, or in the same one by an earlier equation. -/
structure PartLoop.Apart (c : PartLoop) (inner : String) (ix : String → Int) (n : Nat) : Prop where
  range : ∀ q, q ∈ c.eqs.map (·.1) ∨ c.IsRead q → ∀ j < n, ∀ k, c.Active k → InRangeButStep (c.vars q.1).g.api (c.elem inner ix q j k)
  writes : ∀ q ∈ c.eqs.map (·.1), ∀ q' ∈ c.eqs.map (·.1), q.1 = q'.1 → ∀ j < n, ∀ j' < n, ∀ k k', c.Active k → c.Active k' →
    SameElem (c.vars q.1).g.api (c.elem inner ix q j k) (c.elem inner ix q' j' k') → q = q'
  reads : ∀ (r : Nat) (hr : r < c.eqs.length) (r' : Nat) (hr' : r' < c.eqs.length), ∀ q ∈ (c.eqs[r]).2.points, q.1 = (c.eqs[r']).1.1 →
    ∀ j < n, ∀ j' < n, ∀ k k', c.Active k → c.Active k' →
    SameElem (c.vars q.1).g.api (c.elem inner ix q j k) (c.elem inner ix (c.eqs[r']).1 j' k') → j < j' ∨ j = j' ∧ r ≤ r'

/-- The value of an element in the given storage. -/
def PartLoop.valAt {V : Type} (c : PartLoop) (inner : String) (ix : String → Int) (u : V) (mem : Nat → Int → V) (j k : Nat) (q : LPt) : V :=
  match (c.vars q.1).g.addrOf (c.elem inner ix q j k) with
  | .ok a => mem q.1 a
  | _ => u

section
variable {V : Type} {c : PartLoop} {inner : String} {ix : String → Int}

theorem sameElem_comp : ∀ {ds : List ApiDim} {a b : List Int}, SameElem ds a b → ∀ t (h1 : t < ds.length) (h2 : t < a.length) (h3 : t < b.length),
    ds[t].isStep = false → a[t] = b[t]
  | d :: ds, i :: is, j :: js, h, 0, _, _, _, hs => by
    have h1 := h.1
    simp only [List.getElem_cons_zero] at hs
    rw [if_neg (by simp [hs])] at h1
    exact h1
  | d :: ds, i :: is, j :: js, h, t + 1, h1, h2, h3, hs => by
    simp only [List.getElem_cons_succ] at hs ⊢
    exact sameElem_comp h.2 t _ _ _ hs
  | [], _, _, _, t, h1, _, _, _ => by simp at h1
  | _ :: _, [], _, _, t, _, h1, _, _ => by simp at h1
  | _ :: _, _ :: _, [], _, t, _, _, h1, _ => by simp at h1

/-- The elements of a point in different iterations are different. -/
theorem PartLoop.VarOk.iter_ne {i : Nat} (h : c.VarOk V inner ix i) {p : PtArgs} (hp : p.length = (c.vars i).g.dims.length) {j j' k k' : Nat}
    (hs : SameElem (c.vars i).g.api (c.elem inner ix (i, p) j k) (c.elem inner ix (i, p) j' k')) : j = j' := by
  obtain ⟨hl, hkind⟩ := h.var.loop
  set t := (c.vars i).v.loopPosn with ht
  have htn : t < (c.vars i).names.length := by rw [h.fold.len]; exact hl
  have hin : (c.vars i).names[t] = inner := by
    have := h.inner
    rw [← ht] at this
    simpa [List.getD, htn] using this
  have hlen : ∀ j k, t < (c.elem inner ix (i, p) j k).length := by
    intro j k
    unfold PartLoop.elem loopElem pointElem
    simp [hp]
    omega
  have hta : t < (c.vars i).g.api.length := by simpa [Geom.api] using hl
  have hstep : (c.vars i).g.api[t].isStep = false := by
    rw [dimAt_eq hl] at hkind
    simp [Geom.api, hkind]
  have heq := sameElem_comp hs t hta (hlen j k) (hlen j' k') hstep
  rw [dimAt_eq hl] at hkind
  have hdims : ∀ j k, c.elem inner ix (i, p) j k =
      loopElem c.fold (c.vars i).names ((c.vars i).g.dims.map accessDim) (iterIndex inner ix j) p k := by
    intro j k
    unfold PartLoop.elem
    rw [h.dims_eq]
  have hval : ∀ j k, (c.elem inner ix (i, p) j k)[t]'(hlen j k) =
      (c.vars i).g.dims[t].rankOfs + (ix inner + j) * (c.vars i).g.dims[t].varVL + (foldPoint c.fold k).at inner + p[t]'(by omega) := by
    intro j k
    have hx : accessDim (c.vars i).g.dims[t] = .domain (c.vars i).g.dims[t].varVL (c.vars i).g.dims[t].rankOfs := by
      unfold accessDim; rw [hkind]
    have hl2 := hlen j k
    rw [hdims] at hl2
    simp only [hdims]
    refine (pointElem_getElem (g := (c.vars i).g) hl2).trans ?_
    rw [hx]
    simp only [AccessDim.elem, List.getElem_map, hin, iterIndex, if_true]
  have hlane : ∀ k, 0 ≤ (foldPoint c.fold k).at inner ∧ (foldPoint c.fold k).at inner < (c.vars i).g.dims[t].varVL := by
    intro k
    have h1 := (h.fold.isLane k).2 (accessDim (c.vars i).g.dims[t], (foldPoint c.fold k).at inner) (by
      rw [List.mem_iff_getElem]
      refine ⟨t, by simp; omega, ?_⟩
      simp [hin])
    unfold accessDim at h1
    rw [hkind] at h1
    exact h1
  rw [hval, hval] at heq
  have h1 := hlane k
  have h2 := hlane k'
  by_contra hne
  rcases Nat.lt_or_gt_of_ne hne with h3 | h3
  · have : ((j' : Int) - j) * (c.vars i).g.dims[t].varVL ≥ 1 * (c.vars i).g.dims[t].varVL :=
      Int.mul_le_mul_of_nonneg_right (by omega) (by omega)
    nlinarith
  · have : ((j : Int) - j') * (c.vars i).g.dims[t].varVL ≥ 1 * (c.vars i).g.dims[t].varVL :=
      Int.mul_le_mul_of_nonneg_right (by omega) (by omega)
    nlinarith

/-- Address of an element that is written. -/
theorem PartLoop.Ok.lhs_addr (hc : c.Ok V inner ix) {n : Nat} (ha : c.Apart inner ix n) {q : LPt} (hq : q ∈ c.eqs.map (·.1)) {j : Nat} (hj : j < n)
    {k : Nat} (hk : c.Active k) : (c.vars q.1).g.addrOf (c.elem inner ix q j k) = .ok (c.adr ix j q k) := by
  obtain ⟨e, he, rfl⟩ := List.mem_map.1 hq
  obtain ⟨hv, hw⟩ := hc.lhs e he
  have := hv.elem_addr hw (j := j) hk.1 (ha.range e.1 (.inl hq) j hj k hk)
  rw [hv.vlen] at this
  exact this

/-- Equal addresses mean the same element. -/
theorem PartLoop.Ok.same (hc : c.Ok V inner ix) {n : Nat} (ha : c.Apart inner ix n) {q q' : LPt} (hq : q ∈ c.eqs.map (·.1) ∨ c.IsRead q)
    (hq' : q' ∈ c.eqs.map (·.1)) (hqq : q.1 = q'.1) {j j' : Nat} (hj : j < n) (hj' : j' < n) {k k' : Nat} (hk : c.Active k) (hk' : c.Active k')
    (h : (c.vars q.1).g.addrOf (c.elem inner ix q j k) = .ok (c.adr ix j' q' k')) :
    SameElem (c.vars q.1).g.api (c.elem inner ix q j k) (c.elem inner ix q' j' k') := by
  obtain ⟨hv, _⟩ := hc.var q hq
  have h1 := hc.lhs_addr ha hq' hj' hk'
  have h3 := ha.range q hq j hj k hk
  have h4 := ha.range q' (.inl hq') j' hj' k' hk'
  rw [← hqq] at h1 h4
  rw [addrOf_eq hv.ok h3 hv.steps] at h
  rw [addrOf_eq hv.ok h4 hv.steps] at h1
  injection h with h
  injection h1 with h1
  exact (addr_eq_iff hv.ok h3 h4 hv.steps).1 (h.trans h1.symm)

/-- The addresses that are written before iteration `j`. -/
def PartLoop.Wr (c : PartLoop) (ix : String → Int) (j : Nat) (i : Nat) (b : Int) : Prop :=
  ∃ e ∈ c.eqs, e.1.1 = i ∧ ∃ j' < j, ∃ k, c.Active k ∧ c.adr ix j' e.1 k = b

mutual
theorem all_points {P : Ex LPt → Prop} {ws : List LPt} (hP : ∀ i p, P (.read i p) → p ∉ ws) : ∀ e : Ex LPt, e.All P → ∀ q ∈ e.points, q ∉ ws
  | .const _ _, _, q, hq => by simp [Ex.points] at hq
  | .read i p, h, q, hq => by
    simp only [Ex.points, List.mem_singleton] at hq
    exact hq ▸ hP i p h
  | .neg _ a, h, q, hq => all_points hP a h.2 q hq
  | .bin _ _ l r, h, q, hq => by
    rcases List.mem_append.1 hq with h1 | h1
    · exact all_points hP l h.2.1 q h1
    · exact all_points hP r h.2.2 q h1
  | .comm _ _ as, h, q, hq => alls_points hP as h.2 q hq
  | .func _ _ _ as, h, q, hq => alls_points hP as h.2 q hq
theorem alls_points {P : Ex LPt → Prop} {ws : List LPt} (hP : ∀ i p, P (.read i p) → p ∉ ws) :
    ∀ es : List (Ex LPt), Ex.Alls P es → ∀ q ∈ Ex.pointsAll es, q ∉ ws
  | [], _, q, hq => by simp [Ex.pointsAll] at hq
  | a :: as, h, q, hq => by
    rcases List.mem_append.1 hq with h1 | h1
    · exact all_points hP a h.1 q h1
    · exact alls_points hP as h.2 q h1
end

theorem PartLoop.Ok.sep (hc : c.Ok V inner ix) {n : Nat} (ha : c.Apart inner ix n) (hne : ∀ q, c.IsRead q → q ∉ c.eqs.map (·.1)) {j : Nat}
    (hj : j < n) : c.Sep V inner ix (c.Wr ix j) j where
  range q hq k hk := ha.range q (.inr hq) j hj k hk
  readNe := hne
  apart q hq q' hq' hqq k k' hk hk' he := by
    have h1 := hc.lhs_addr ha hq hj hk
    rw [he] at h1
    exact ha.writes q hq q' hq' hqq j hj j hj k k' hk hk' (hc.same ha (.inl hq) hq' hqq hj hj hk hk' h1)
  reads pre e post heq q hq k hk a hadr := by
    have hrd : c.IsRead q := ⟨e, by rw [heq]; simp, hq⟩
    have hr : pre.length < c.eqs.length := by rw [heq]; simp
    have her : c.eqs[pre.length] = e := by simp [heq]
    rintro (⟨e', he', hi, j', hj', k', hk', hb⟩ | ⟨e', he', hi, k', hk', hb⟩)
    · obtain ⟨r', hr', rfl⟩ := List.mem_iff_getElem.1 he'
      have hm : (c.eqs[r']).1 ∈ c.eqs.map (·.1) := List.mem_map_of_mem he'
      have hs := hc.same ha (.inr hrd) hm hi.symm hj (by omega : j' < n) hk hk' (by rw [hadr, hb])
      have := ha.reads pre.length hr r' hr' q (by rw [her]; exact hq) hi.symm j hj j' (by omega) k k' hk hk' hs
      omega
    · obtain ⟨r', hr', rfl⟩ := List.mem_iff_getElem.1 he'
      have hr2 : r' < c.eqs.length := by rw [heq]; simp; omega
      have her2 : c.eqs[r'] = pre[r'] := by
        simp only [heq]
        rw [List.getElem_append_left hr']
      have hm : (pre[r']).1 ∈ c.eqs.map (·.1) := by rw [← her2]; exact List.mem_map_of_mem (List.getElem_mem hr2)
      have hs := hc.same ha (.inr hrd) hm hi.symm hj hj hk hk' (by rw [hadr, hb])
      have := ha.reads pre.length hr r' hr2 q (by rw [her]; exact hq) (by rw [her2]; exact hi.symm) j hj j hj k k' hk hk' (by rw [her2]; exact hs)
      omega

/-- One iteration. -/
theorem PartLoop.Ok.body (hc : c.Ok V inner ix) {n : Nat} (ha : c.Apart inner ix n) (u : V) (A : Arith V) (node : Nat → Ex LPt)
    (hd : (c.eqs.map (·.1)).Nodup) (hn : ∀ m, ∀ e ∈ c.eqs, e.2.All (Ex.NodeOk A m node (c.eqs.map (·.1)))) (hp : ∀ e ∈ c.eqs, e.2.Plain A)
    {k0 : Nat} (hk0 : c.Active k0) {mem0 : Nat → Int → V} {j : Nat} (hj : j < n) {st : LoopSt V} (hs : c.StOk ix (c.Wr ix j) mem0 j st) :
    ∃ st', c.body u A.lanes st = .ok st' ∧ c.StOk ix (c.Wr ix (j + 1)) mem0 (j + 1) (c.endIter st') ∧
      (∀ e ∈ c.eqs, ∀ k, c.Active k → st'.mem e.1.1 (c.adr ix j e.1 k) = e.2.value A (c.valAt inner ix u mem0 j k)) ∧
      ∀ i b, (∀ q ∈ c.eqs.map (·.1), q.1 = i → ∀ k, c.Active k → c.adr ix j q k ≠ b) → st'.mem i b = st.mem i b := by
  classical
  have hne : ∀ q, c.IsRead q → q ∉ c.eqs.map (·.1) := by
    rintro q ⟨e, he, hq⟩
    exact all_points (fun i p h => h.2) e.2 (hn (fun _ => u) e he) q hq
  have hsep := hc.sep ha hne hj
  let ms : Nat → LPt → V := fun k q => if q ∈ c.eqs.map (·.1) then st.mem q.1 (c.adr ix j q k) else c.valAt inner ix u mem0 j k q
  have hb : c.BodyOk inner ix (c.After ix j (c.Wr ix j) []) mem0 j st ms := by
    refine ⟨hs.mono fun i b h => .inl h, ?_, ?_⟩
    · intro k hk q hq
      show _ = if _ then _ else _
      rw [if_pos hq]
    · intro k hk q hq a hqa
      show (if _ then _ else _) = _
      rw [if_neg (hne q hq)]
      unfold PartLoop.valAt
      rw [hqa]
  obtain ⟨code, h1, _⟩ := C61_partial A c.prt node (ms k0) c.eqs hd (hn _) hp
  have hrun : ∀ k, ∃ env m', Cpp.execAll A code (fun _ => none, ms k) = .ok (env, m') ∧
      (∀ e ∈ c.eqs, m' e.1 = e.2.value A (ms k)) ∧ ∀ p ∉ c.eqs.map (·.1), m' p = ms k p := by
    intro k
    obtain ⟨code', h2, h3⟩ := C61_partial A c.prt node (ms k) c.eqs hd (hn _) hp
    rw [h1] at h2
    injection h2 with h2
    rw [h2]; exact h3
  have hsegs := printPart_code c.prt c.eqs code h1
  have hnone : ∀ k, laneEnv k (fun _ => none : Name → Option (Nat → V)) = fun _ => none := fun k => rfl
  obtain ⟨env0, m0', hr0, _⟩ := hrun k0
  obtain ⟨env1, st1, ms1, h4, h5, h6, h7⟩ := hc.stmts hsep u A hk0 hsegs [] rfl (fun _ => none) st ms hb (env0, m0') hr0
  refine ⟨st1, ?_, ?_, ?_, h7⟩
  · unfold PartLoop.body
    rw [h1, Outcome.bind_ok, h4]; rfl
  · have hst : c.StOk ix (c.Wr ix (j + 1)) mem0 j st1 := by
      refine h6.stOk.mono ?_
      rintro i b (⟨e, he, hi, j', hj', hk⟩ | ⟨e, he, hi, hk⟩)
      · exact ⟨e, he, hi, j', by omega, hk⟩
      · exact ⟨e, he, hi, j, by omega, hk⟩
    refine ⟨hst.mem, fun n => ?_, fun i => ?_⟩
    · show (if n = c.inner then st1.elems n + c.foldLen n else st1.elems n) = _
      rw [hst.elems n]
      unfold iterIndex
      by_cases hn : n = c.inner
      · rw [if_pos hn, if_pos hn, if_pos hn]; push_cast; ring
      · rw [if_neg hn, if_neg hn, if_neg hn]
    exact next_rel (c.vars i).slot (c.aligned i) (vecOf_mem (c.vars i).g (hst.mem i)) (hst.sts i)
  · intro e he k hk
    rw [h6.lhs k hk e.1 (List.mem_map_of_mem he)]
    obtain ⟨env, m', h8, h9, _⟩ := hrun k
    have h10 := h5 k hk
    rw [hnone k, h8] at h10
    injection h10 with h10
    have h11 : m' = ms1 k := congrArg Prod.snd h10
    rw [← h11, h9 e he]
    apply value_congr
    intro q hq
    show (if _ then _ else _) = _
    rw [if_neg (hne q ⟨e, he, hq⟩)]

/-- Several iterations. -/
theorem PartLoop.Ok.iters (hc : c.Ok V inner ix) {n : Nat} (ha : c.Apart inner ix n) (u : V) (A : Arith V) (node : Nat → Ex LPt)
    (hd : (c.eqs.map (·.1)).Nodup) (hn : ∀ m, ∀ e ∈ c.eqs, e.2.All (Ex.NodeOk A m node (c.eqs.map (·.1)))) (hp : ∀ e ∈ c.eqs, e.2.Plain A)
    {k0 : Nat} (hk0 : c.Active k0) {mem0 : Nat → Int → V} : ∀ (l j : Nat) (_ : j + l = n) (st : LoopSt V) (_ : c.StOk ix (c.Wr ix j) mem0 j st)
    (_ : ∀ e ∈ c.eqs, ∀ j' < j, ∀ k, c.Active k → st.mem e.1.1 (c.adr ix j' e.1 k) = e.2.value A (c.valAt inner ix u mem0 j' k)),
    ∃ st', c.iters u A.lanes l st = .ok st' ∧ (∀ i b, ¬ c.Wr ix n i b → st'.mem i b = mem0 i b) ∧
      ∀ e ∈ c.eqs, ∀ j' < n, ∀ k, c.Active k → st'.mem e.1.1 (c.adr ix j' e.1 k) = e.2.value A (c.valAt inner ix u mem0 j' k)
  | 0, j, hjl, st, hs, hv => by
    have : j = n := by omega
    subst this
    exact ⟨st, rfl, hs.mem, hv⟩
  | l + 1, j, hjl, st, hs, hv => by
    have hj : j < n := by omega
    obtain ⟨st', h1, h2, h3, h4⟩ := hc.body ha u A node hd hn hp hk0 hj hs
    have h5 : ∀ e ∈ c.eqs, ∀ j' < j + 1, ∀ k, c.Active k →
        (c.endIter st').mem e.1.1 (c.adr ix j' e.1 k) = e.2.value A (c.valAt inner ix u mem0 j' k) := by
      intro e he j' hj' k hk
      show st'.mem e.1.1 _ = _
      by_cases hjj : j' = j
      · subst hjj; exact h3 e he k hk
      · rw [h4]
        · exact hv e he j' (by omega) k hk
        · intro q hq hqi k' hk' hadr
          have hm : e.1 ∈ c.eqs.map (·.1) := List.mem_map_of_mem he
          have h6 := hc.lhs_addr ha hm (j := j') (by omega) hk
          rw [← hadr] at h6
          have h7 := hc.same ha (.inl hm) hq hqi.symm (by omega : j' < n) hj hk hk' h6
          have h8 := ha.writes e.1 hm q hq hqi.symm j' (by omega) j hj k k' hk hk' h7
          rw [← h8] at h7
          exact hjj ((hc.lhs e he).1.iter_ne (hc.var e.1 (.inl hm)).2 h7)
    obtain ⟨st2, h6, h7⟩ := PartLoop.Ok.iters hc ha u A node hd hn hp hk0 l (j + 1) (by omega) _ h2 h5
    refine ⟨st2, ?_, h7⟩
    unfold PartLoop.iters
    rw [h1]; exact h6

theorem PartLoop.start_ok (c : PartLoop) (ix : String → Int) (mem0 : Nat → Int → V) : c.StOk ix (c.Wr ix 0) mem0 0 (c.start ix mem0) where
  mem i b _ := rfl
  elems n := by
    show ix n * c.foldLen n = _
    unfold iterIndex
    by_cases hn : n = c.inner
    · rw [if_pos hn]; simp
    · rw [if_neg hn]
  sts i := init_rel (c.vars i).slot (c.aligned i) (c.writes i) _ (vecOf_mem (c.vars i).g (fun _ _ => rfl)) _

end
end Yask.Comp
