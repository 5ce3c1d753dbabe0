import Verif.Mpi.CodeNetLemmas

/-! Helper lemmas: a halo exchange on the storage of the vars does what it does in the model of the ranks. -/

namespace Yask
open Spec Mpi Var Nano Comp Spec.Cpp RunCfg

section
variable {V : Type} {X : CodeNet} {U : USoln V} {L : List (List (List (Fin U.eqs.length)))} {S : Slices} {sz : Nat → Nat}
  {shape : Nat → VarShape} {A : Arith V} {G : RunCfg} {opts : List Setup.ROpts} {minSize : Nat → Nat → Nat}

/-- What is used of the ranks. -/
structure NetCtx (X : CodeNet) (U : USoln V) (L : List (List (List (Fin U.eqs.length)))) (S : Slices) (sz : Nat → Nat)
    (shape : Nat → VarShape) (A : Arith V) (G : RunCfg) (opts : List Setup.ROpts) (minSize : Nat → Nat → Nat) : Prop where
  prep : Prepared G X.P opts minSize shape
  fits : X.Fits U L S sz shape
  code : ∀ r < X.P.n, CodeOf (X.code r) U L (X.slices S r) sz A
  pos : ∀ v, 0 < sz v
  slots : ∀ v < S.nv, (X.P.var (S.var v)).slots = sz v
  nd : X.P.nd = U.dims.length
  nodup : U.dims.Nodup

/-- The storage of a var holds the memory of the model. -/
def RepK (X : CodeNet) (U : USoln V) (S : Slices) (sz : Nat → Nat) (r k : Nat) (m : Int → V) (g : (Nat × Nat) × List Int → V) : Prop :=
  ∀ v < S.nv, S.var v = k → ∀ s : Int, (U.hasStep v = false → s = 0) → ∀ x, x.length = U.dims.length →
    InRangeButStep (X.geo r k).api ((X.slices S r).elem U.dims v s x) → ∀ a, (X.geo r k).addrOf ((X.slices S r).elem U.dims v s x) = .ok a →
    m a = g (stepSlot U sz v s, x)

theorem rep_iff {r : Nat} {mem : Nat → Int → V} {g : (Nat × Nat) × List Int → V} :
    Rep U (X.slices S r) sz mem g ↔ ∀ k, RepK X U S sz r k (mem k) g := by
  constructor
  · rintro h k v hv rfl
    exact h v hv
  · intro h v hv
    exact h (S.var v) v hv rfl

variable (C : NetCtx X U L S sz shape A G opts minSize)
include C

theorem net_geo {r k : Nat} (hr : r < X.P.n) (hk : k < X.P.nvars) : (X.geo r k).Ok ∧ StepsAlloc (X.geo r k).api := by
  obtain ⟨v, hv, rfl⟩ := C.fits.onto k hk
  exact ⟨geo_ok (C.code r hr) hv, geo_steps (C.code r hr) C.pos hv⟩

/-- A domain dim of a var of the kernel. -/
theorem net_dom {r k : Nat} (hr : r < X.P.n) (hk : k < X.P.nvars) {p : Nat} {d : DimG} (hd : (X.geo r k).dims[p]? = some d)
    (hkd : d.kind = .domain) : U.dims.idxOf ((X.names k).getD p "") < X.P.nd ∧
      (shape k).used (U.dims.idxOf ((X.names k).getD p "")) = true ∧
      d = ((X.P.var k).rank r).dim (U.dims.idxOf ((X.names k).getD p "")) := by
  have h0 : 0 < X.P.n := by omega
  have hdd := C.fits.dom r hr k hk p d hd hkd
  obtain ⟨v, hv, rfl⟩ := C.fits.onto k hk
  have hkind : (X.slices S r).kind v p = some .domain := by
    unfold Slices.kind
    show Option.map _ ((X.geo r (S.var v)).dims[p]?) = _
    rw [hd, ← hkd]; rfl
  have hm := (C.code r hr).domName v hv p hkind
  have hm : (X.names (S.var v)).getD p "" ∈ U.dims := hm
  have hj := List.idxOf_lt_length_of_mem hm
  refine ⟨C.nd ▸ hj, ?_, hdd⟩
  refine (C.fits.used _ hk _ hj).2 ?_
  have hks := C.fits.kinds r hr _ hk
  have h1 : ((X.geo 0 (S.var v)).dims.map DimG.kind)[p]? = some .domain := by
    rw [← hks, List.getElem?_map, hd, ← hkd]; rfl
  rw [List.getElem?_map, Option.map_eq_some_iff] at h1
  obtain ⟨d', h2, h3⟩ := h1
  refine ⟨p, d', h2, h3, ?_⟩
  rw [List.getD_eq_getElem?_getD (l := U.dims), List.getElem?_eq_getElem hj, List.getElem_idxOf hj]
  rfl

/-- A used dim is a dim of the var of the kernel. -/
theorem net_used {r k : Nat} (hr : r < X.P.n) (hk : k < X.P.nvars) {j : Nat} (hj : j < X.P.nd) (hu : (shape k).used j = true) :
    ∃ (p : Nat) (d : DimG), (X.geo r k).dims[p]? = some d ∧ d.kind = .domain ∧ U.dims.idxOf ((X.names k).getD p "") = j := by
  have hj' : j < U.dims.length := C.nd ▸ hj
  obtain ⟨p, d', h1, h2, h3⟩ := (C.fits.used k hk j hj').1 hu
  have hks := C.fits.kinds r hr k hk
  have h4 : ((X.geo r k).dims.map DimG.kind)[p]? = some .domain := by
    rw [hks, List.getElem?_map, h1, ← h2]; rfl
  rw [List.getElem?_map, Option.map_eq_some_iff] at h4
  obtain ⟨d, h5, h6⟩ := h4
  refine ⟨p, d, h5, h6, ?_⟩
  rw [h3, List.getD_eq_getElem?_getD, List.getElem?_eq_getElem hj', Option.getD_some, List.Nodup.idxOf_getElem C.nodup j hj']

theorem mem_slice {r k : Nat} (hr : r < X.P.n) (b : XBuf) (t : Nat) (i : List Int) :
    i ∈ boxPoints (X.slice r k b t) ↔ i.length = (X.geo r k).dims.length ∧ ∀ (p : Nat) (d : DimG), (X.geo r k).dims[p]? = some d →
      match d.kind with
      | .step => i.getD p 0 = t
      | .domain => b.beg (U.dims.idxOf ((X.names k).getD p "")) ≤ i.getD p 0 ∧ i.getD p 0 < b.fin (U.dims.idxOf ((X.names k).getD p ""))
      | .misc => d.firstLocal ≤ i.getD p 0 ∧ i.getD p 0 ≤ d.lastLocal := by
  unfold CodeNet.slice
  rw [mem_boxPoints_range]
  refine and_congr_right fun _ => ⟨fun h p d hd => ?_, fun h p hp => ?_⟩
  · have := h p (List.getElem?_eq_some_iff.1 hd).1
    simp only [hd, (C.code r hr).dims] at this
    unfold InIvl at this
    cases hk : d.kind <;> simp only [hk] at this ⊢ <;> unfold at_ at this <;> omega
  · have hd : (X.geo r k).dims[p]? = some (X.geo r k).dims[p] := List.getElem?_eq_getElem hp
    have := h p _ hd
    simp only [hd, (C.code r hr).dims]
    unfold InIvl
    cases hk : (X.geo r k).dims[p].kind <;> simp only [hk] at this ⊢ <;> unfold at_ <;> omega

theorem slice_same {r r' k : Nat} (hr : r < X.P.n) (hr' : r' < X.P.n) (hk : k < X.P.nvars) (b : XBuf) (t : Nat) :
    X.slice r k b t = X.slice r' k b t := by
  have h0 : 0 < X.P.n := by omega
  have hks : (X.geo r k).dims.map DimG.kind = (X.geo r' k).dims.map DimG.kind := (C.fits.kinds r hr k hk).trans (C.fits.kinds r' hr' k hk).symm
  have hlen : (X.geo r k).dims.length = (X.geo r' k).dims.length := by simpa using congrArg List.length hks
  unfold CodeNet.slice
  rw [← hlen]
  refine List.map_congr_left fun p hp => ?_
  rw [List.mem_range] at hp
  have e1 : (X.geo r k).dims[p]? = some (X.geo r k).dims[p] := List.getElem?_eq_getElem hp
  have e2 : (X.geo r' k).dims[p]? = some ((X.geo r' k).dims[p]'(hlen ▸ hp)) := List.getElem?_eq_getElem _
  have hl0 : (X.geo r k).dims.length = (X.geo 0 k).dims.length := by simpa using congrArg List.length (C.fits.kinds r hr k hk)
  have e3 : (X.geo 0 k).dims[p]? = some ((X.geo 0 k).dims[p]'(hl0 ▸ hp)) := List.getElem?_eq_getElem _
  have e4 : (X.geo r k).dims[p].kind = ((X.geo r' k).dims[p]'(hlen ▸ hp)).kind := by
    have := congrArg (fun l : List DimKind => l[p]?) hks
    simp only [List.getElem?_map, e1, e2, Option.map_some, Option.some.injEq] at this
    exact this
  rw [e1, e2]
  simp only [(C.code r hr).dims, (C.code r' hr').dims]
  rw [← e4]
  cases hkd : (X.geo r k).dims[p].kind with
  | step => rfl
  | domain => rfl
  | misc =>
    have m1 := C.fits.misc r hr k hk p _ _ e1 e3 hkd
    have m2 := C.fits.misc r' hr' k hk p _ _ e2 e3 (e4 ▸ hkd)
    simp only
    rw [m1.1, m1.2, m2.1, m2.2]

/-- All elements of the slice of a buffer exist. -/
theorem slice_in {r nb k : Nat} (hr : r < X.P.n) (hnb : nb ∈ X.P.nbrs r) (hk : k < X.P.nvars) {send : Bool} {b : XBuf}
    (hb : X.P.buf r nb k send = some b) {t : Nat} {i : List Int} (hi : i ∈ boxPoints (X.slice r k b t)) :
    InRangeButStep (X.geo r k).api i := by
  obtain ⟨h1, h2, _⟩ := (prep_nbrs C.prep hr nb).1 hnb
  obtain ⟨hlen, hi⟩ := (mem_slice C hr b t i).1 hi
  have hon := C.prep.vars k hk
  have hr' := hr
  rw [prep_buf C.prep hr h1] at hb
  rw [C.prep.n] at hon hr' h1
  have hal := C29_allocated C.prep.some_rank C.prep.placed hon _ _ _ r nb hr' h1 h2 send b hb
  rw [inRange_iff_getD]
  refine ⟨by rw [hlen]; simp [Geom.api], fun p ad had => ?_⟩
  unfold Geom.api at had
  rw [List.getElem?_map, Option.map_eq_some_iff] at had
  obtain ⟨d, hd, rfl⟩ := had
  have := hi p d hd
  cases hkd : d.kind with
  | step => exact Or.inl (by simp [hkd])
  | misc => rw [hkd] at this; exact Or.inr this
  | domain =>
    right
    rw [hkd] at this
    simp only at this ⊢
    obtain ⟨a1, a2, a3⟩ := net_dom C hr hk hd hkd
    -- a point of the region with this index
    have hpt := hal (fun j => if j = U.dims.idxOf ((X.names k).getD p "") then i.getD p 0 else b.beg j)
    have hreg : InRegion X.P.nd (shape k).used b.beg b.fin
        (fun j => if j = U.dims.idxOf ((X.names k).getD p "") then i.getD p 0 else b.beg j) := by
      intro j hj hu
      simp only
      split_ifs with hjj
      · subst hjj; exact this
      · obtain ⟨p', d', b1, b2, b3⟩ := net_used C hr hk hj hu
        have := hi p' d' b1
        rw [b2] at this
        simp only [b3] at this
        omega
    have := hpt hreg _ a1 a2
    simp only [if_true] at this
    rw [a3]
    exact this

/-- The elements of a slice of a buffer in storage: which of them holds a var at a point. -/
theorem elem_in_slice {r v : Nat} (hr : r < X.P.n) (hv : v < S.nv) {b : XBuf} {x : List Int} {s : Int} {t : Nat} (hts : t < sz v)
    (hin : InRangeButStep (X.geo r (S.var v)).api ((X.slices S r).elem U.dims v s x)) :
    (∃ i ∈ boxPoints (X.slice r (S.var v) b t), InRangeButStep (X.geo r (S.var v)).api i ∧
      SameElem (X.geo r (S.var v)).api ((X.slices S r).elem U.dims v s x) i) ↔
    (stepSlot U sz v s).2 = t ∧ inBuf X.P.nd (shape (S.var v)).used b x = true := by
  have hk := C.fits.var v hv
  have hp := C.pos v
  rw [inBuf_iff]
  constructor
  · rintro ⟨i, hi, hir, hsame⟩
    obtain ⟨hlen, hi⟩ := (mem_slice C hr b t i).1 hi
    rw [sameElem_iff_getD] at hsame
    obtain ⟨_, _, hsame⟩ := hsame
    have hap : ∀ (p : Nat) (d : DimG), (X.geo r (S.var v)).dims[p]? = some d →
        (X.geo r (S.var v)).api[p]? = some ⟨d.kind == .step, d.firstLocal, d.lastLocal, d.alloc⟩ := by
      intro p d hd
      unfold Geom.api
      rw [List.getElem?_map, hd]; rfl
    have hkn : ∀ (p : Nat) (d : DimG), (X.geo r (S.var v)).dims[p]? = some d → (X.slices S r).kind v p = some d.kind := by
      intro p d hd
      unfold Slices.kind
      show Option.map _ ((X.geo r (S.var v)).dims[p]?) = _
      rw [hd]; rfl
    refine ⟨?_, fun j hj hu => ?_⟩
    · unfold Spec.stepSlot
      by_cases hst : U.hasStep v = true
      · simp only [hst, if_true]
        obtain ⟨p, hkp⟩ := ((C.code r hr).hasStep v hv).1 hst
        have hkp' := hkp
        unfold Slices.kind at hkp
        rw [Option.map_eq_some_iff] at hkp
        obtain ⟨d, hd, hdk⟩ := hkp
        have hd : (X.geo r (S.var v)).dims[p]? = some d := hd
        have h1 := hsame p _ (hap p d hd)
        have h2 := hi p d hd
        rw [hdk] at h2
        simp only at h2
        rw [if_pos (by simp [hdk]), elem_getD _ _ _ _ _ (List.getElem?_eq_some_iff.1 hd).1, hkp', h2] at h1
        have h3 := (C.code r hr).alloc v hv ⟨d.kind == .step, d.firstLocal, d.lastLocal, d.alloc⟩ (List.mem_of_getElem? (hap p d hd)) (by simp [hdk])
        simp only at h1 h3
        rw [h3] at h1
        rw [h1, Int.emod_eq_of_lt (by omega) (by omega)]
        simp
      · have hst : U.hasStep v = false := by simpa using hst
        have := C.fits.oneSlot v hv hst
        simp only [hst, Bool.false_eq_true, if_false]
        omega
    · obtain ⟨p, d, h1, h2, h3⟩ := net_used C hr hk hj hu
      have h4 := hsame p _ (hap p d h1)
      rw [if_neg (by simp [h2]), elem_getD _ _ _ _ _ (List.getElem?_eq_some_iff.1 h1).1, hkn p d h1, h2] at h4
      simp only at h4
      have h5 := hi p d h1
      rw [h2] at h5
      simp only [h3] at h5
      have h6 : U.dims.idxOf ((X.slices S r).name v p) = j := h3
      rw [h6] at h4
      show b.beg j ≤ x.getD j 0 ∧ x.getD j 0 < b.fin j
      omega
  · rintro ⟨hts', hreg⟩
    have hs : U.hasStep v = false → t = 0 := fun hst => by have := C.fits.oneSlot v hv hst; omega
    refine ⟨(X.slices S r).elem U.dims v t x, ?_, ?_⟩
    · rw [mem_slice C hr]
      refine ⟨by rw [elem_length]; simp [Geom.api, Mpi.CodeNet.slices], fun p d hd => ?_⟩
      have hkn : (X.slices S r).kind v p = some d.kind := by
        unfold Slices.kind
        show Option.map _ ((X.geo r (S.var v)).dims[p]?) = _
        rw [hd]; rfl
      rw [elem_getD _ _ _ _ _ (List.getElem?_eq_some_iff.1 hd).1, hkn]
      cases hkd : d.kind with
      | step => rfl
      | domain =>
        simp only
        obtain ⟨a1, a2, _⟩ := net_dom C hr hk hd hkd
        exact hreg _ a1 a2
      | misc =>
        simp only
        rw [inRange_iff_getD] at hin
        have := hin.2 p ⟨d.kind == .step, d.firstLocal, d.lastLocal, d.alloc⟩ (by
          unfold Geom.api
          rw [List.getElem?_map, hd]; rfl)
        rw [elem_getD _ _ _ _ _ (List.getElem?_eq_some_iff.1 hd).1, hkn, hkd] at this
        simpa using this
    · have hsm : SameElem (X.geo r (S.var v)).api ((X.slices S r).elem U.dims v s x) ((X.slices S r).elem U.dims v t x) := by
        refine same_step (C.code r hr) hv fun hst => ?_
        unfold Spec.stepSlot at hts'
        simp only [hst, if_true] at hts'
        have h1 := Int.emod_nonneg s (b := (sz v : Int)) (by omega)
        have h2 : ((s % (sz v : Int)).toNat : Int) = s % (sz v : Int) := Int.toNat_of_nonneg h1
        rw [← hts', h2, Int.emod_emod_of_dvd _ (dvd_refl _)]
      exact ⟨inRange_same hsm hin, hsm⟩

/-- One step slot of a message. -/
theorem copy_sim {r nb k : Nat} (hr : r < X.P.n) (hnb : nb ∈ X.P.nbrs r) (hk : k < X.P.nvars) {b : XBuf}
    (hb : X.P.buf r nb k false = some b) {t : Nat} (ht : t < (X.P.var k).slots) {src m : Int → V} {gs g : (Nat × Nat) × List Int → V}
    (hsrc : RepK X U S sz nb k src gs) (hm : RepK X U S sz r k m g) :
    ∃ m', X.copySlot r nb k b b src m t = .ok m' ∧
      RepK X U S sz r k m' fun l => if l.1.2 = t ∧ inBuf X.P.nd (shape k).used b l.2 = true then gs l else g l := by
  obtain ⟨hnl, _, _⟩ := (prep_nbrs C.prep hr nb).1 hnb
  have hnb' := prep_symm C.prep hr hnb
  have hb' : X.P.buf nb r k true = some b := by rw [prep_match C.prep hr hnb hk]; exact hb
  obtain ⟨ok1, st1⟩ := net_geo C hr hk
  obtain ⟨ok2, st2⟩ := net_geo C hnl hk
  have hin1 : ∀ i ∈ boxPoints (X.slice r k b t), InRangeButStep (X.geo r k).api i := fun i hi => slice_in C hr hnb hk hb hi
  have hin2 : ∀ i ∈ boxPoints (X.slice r k b t), InRangeButStep (X.geo nb k).api i := fun i hi =>
    slice_in C hnl hnb' hk hb' (by rw [slice_same C hnl hr hk]; exact hi)
  have hinj : ∀ i ∈ boxPoints (X.slice r k b t), ∀ j ∈ boxPoints (X.slice r k b t),
      (X.geo r k).addrOfSlots (slots (X.geo r k).dims i) = (X.geo r k).addrOfSlots (slots (X.geo r k).dims j) → i = j := by
    intro i hi j hj he
    have hsame := (addr_eq_iff ok1 (hin1 i hi) (hin1 j hj) st1).1 he
    obtain ⟨l1, i1⟩ := (mem_slice C hr b t i).1 hi
    obtain ⟨l2, j1⟩ := (mem_slice C hr b t j).1 hj
    rw [sameElem_iff_getD] at hsame
    apply List.ext_getElem (by omega)
    intro p h1 h2
    have hd : (X.geo r k).dims[p]? = some ((X.geo r k).dims[p]'(by omega)) := List.getElem?_eq_getElem _
    have e1 := i1 p _ hd
    have e2 := j1 p _ hd
    have e3 := hsame.2.2 p _ (by unfold Geom.api; rw [List.getElem?_map, hd]; rfl)
    have g1 : i.getD p 0 = i[p] := by simp [h1]
    have g2 : j.getD p 0 = j[p] := by simp [h2]
    rw [← g1, ← g2]
    cases hkd : ((X.geo r k).dims[p]'(by omega)).kind with
    | step =>
      rw [hkd] at e1 e2
      rw [e1, e2]
    | domain => rw [if_neg (by simp [hkd])] at e3; exact e3
    | misc => rw [if_neg (by simp [hkd])] at e3; exact e3
  obtain ⟨m', w1, w2, w3⟩ := writeAll_eq ok1 st1 (fun i => src ((X.geo nb k).addrOfSlots (slots (X.geo nb k).dims i)))
    (boxPoints (X.slice r k b t)) hin1 hinj m
  refine ⟨m', ?_, ?_⟩
  · unfold CodeNet.copySlot
    rw [slice_same C hnl hr hk, readAll_eq ok2 st2 src _ hin2]
    simp only [Outcome.bind_ok]
    exact w1
  · rintro v hv rfl s hs x hx hin a ha
    have hts : t < sz v := by rw [← C.slots v hv]; exact ht
    rw [addrOf_eq ok1 hin st1] at ha
    injection ha with ha
    have hiff := elem_in_slice C hr hv (b := b) (x := x) (s := s) hts hin
    simp only
    split_ifs with hcond
    · obtain ⟨i, i1, i2, i3⟩ := hiff.2 hcond
      have hadr := (addr_eq_iff ok1 hin i2 st1).2 i3
      rw [← ha, hadr, w2 i i1]
      -- the same element on the other rank
      have hk2 := hin2 i i1
      have hes : SameElem (X.geo nb (S.var v)).api ((X.slices S nb).elem U.dims v s x) i := by
        rw [sameElem_iff_getD] at i3 ⊢
        have hks : (X.geo r (S.var v)).dims.map DimG.kind = (X.geo nb (S.var v)).dims.map DimG.kind :=
          (C.fits.kinds r hr _ hk).trans (C.fits.kinds nb hnl _ hk).symm
        have hlen : (X.geo r (S.var v)).dims.length = (X.geo nb (S.var v)).dims.length := by simpa using congrArg List.length hks
        refine ⟨elem_length .., (inRangeButStep_length hk2).trans (by simp [Geom.api]), fun p d hd => ?_⟩
        obtain ⟨kd, q1, q2, q3⟩ := api_kind (S := X.slices S nb) hd
        have q3 : p < (X.geo nb (S.var v)).dims.length := q3
        have hkk : (X.slices S r).kind v p = (X.slices S nb).kind v p := by
          have := congrArg (fun l : List DimKind => l[p]?) hks
          simp only [List.getElem?_map] at this
          exact this
        obtain ⟨d1, f1, f2, f3⟩ := kind_api (hkk.trans q1)
        have := i3.2.2 p d1 f1
        rw [elem_getD _ _ _ _ _ f3, hkk, q1] at this
        rw [elem_getD _ _ _ _ _ q3, q1]
        cases kd with
        | step =>
          rw [if_pos (f2.2 rfl), (C.code r hr).alloc v hv d1 (List.mem_of_getElem? f1) (f2.2 rfl)] at this
          rw [if_pos (q2.2 rfl), (C.code nb hnl).alloc v hv d (List.mem_of_getElem? hd) (q2.2 rfl)]
          exact this
        | domain =>
          rw [if_neg (by rw [f2]; simp)] at this
          rw [if_neg (by rw [q2]; simp)]
          exact this
        | misc =>
          rw [if_neg (by rw [f2]; simp)] at this
          rw [if_neg (by rw [q2]; simp)]
          exact this
      have hin' : InRangeButStep (X.geo nb (S.var v)).api ((X.slices S nb).elem U.dims v s x) := by
        refine inRange_same (a := i) ?_ hk2
        rw [sameElem_iff_getD] at hes ⊢
        refine ⟨hes.2.1, hes.1, fun p d hd => ?_⟩
        have := hes.2.2 p d hd
        split_ifs at this ⊢
        · exact this.symm
        · exact this.symm
      refine hsrc v hv rfl s hs x hx hin' _ ?_
      rw [addrOf_eq ok2 hin' st2, (addr_eq_iff ok2 hin' hk2 st2).2 hes]
    · rw [w3 a]
      · exact hm v hv rfl s hs x hx hin a (by rw [addrOf_eq ok1 hin st1, ha])
      · intro i hi he
        refine hcond (hiff.1 ⟨i, hi, hin1 i hi, ?_⟩)
        exact (addr_eq_iff ok1 hin (hin1 i hi) st1).1 (ha.trans he.symm)

/-- Several step slots. -/
theorem copies_sim {r nb k : Nat} (hr : r < X.P.n) (hnb : nb ∈ X.P.nbrs r) (hk : k < X.P.nvars) {b : XBuf}
    (hb : X.P.buf r nb k false = some b) {src : Int → V} {gs : (Nat × Nat) × List Int → V} (hsrc : RepK X U S sz nb k src gs) :
    ∀ (ts : List Nat), (∀ t ∈ ts, t < (X.P.var k).slots) → ∀ {m : Int → V} {g : (Nat × Nat) × List Int → V}, RepK X U S sz r k m g →
      ∃ m', ts.foldlM (X.copySlot r nb k b b src) m = .ok m' ∧
        RepK X U S sz r k m' fun l => if l.1.2 ∈ ts ∧ inBuf X.P.nd (shape k).used b l.2 = true then gs l else g l
  | [], _, m, g, hm => ⟨m, rfl, by simpa using hm⟩
  | t :: ts, ht, m, g, hm => by
    obtain ⟨m1, e1, h1⟩ := copy_sim C hr hnb hk hb (ht t (by simp)) hsrc hm
    obtain ⟨m2, e2, h2⟩ := copies_sim hr hnb hk hb hsrc ts (fun t' ht' => ht t' (List.mem_cons_of_mem _ ht')) h1
    refine ⟨m2, by rw [List.foldlM_cons, e1]; exact e2, ?_⟩
    intro v hv hvk s hs x hx hin a ha
    rw [h2 v hv hvk s hs x hx hin a ha]
    simp only [List.mem_cons]
    by_cases c1 : (stepSlot U sz v s).2 ∈ ts <;> by_cases c2 : (stepSlot U sz v s).2 = t <;>
      by_cases c3 : inBuf X.P.nd (shape k).used b x = true <;> simp [c1, c2, c3]

omit C

/-- The ranks, with the vars of the equations. -/
def Mpi.CodeNet.netIn (X : CodeNet) (S : Slices) : Net := (X.P.sliced S).net fun st t β => X.stageOuts st t (S.var β.1, β.2)

/-- The storage and flags of the ranks are those of the model of the ranks. -/
structure NetRel (X : CodeNet) (U : USoln V) (S : Slices) (sz : Nat → Nat) (c : CState V) (s : NState V) : Prop where
  copy : ∀ r < X.P.n, Rep U (X.slices S r) sz (c.mem r) (s.copy r)
  self : ∀ r, ∀ v < S.nv, ∀ t, s.self r (v, t) = c.self r (S.var v, t)
  others : ∀ r, ∀ v < S.nv, ∀ t, s.others r (v, t) = c.others r (S.var v, t)

theorem toSwap_rel {c : CState V} {s : NState V} (h : NetRel X U S sz c s) (r : Nat) {v : Nat} (hv : v < S.nv) :
    (X.netIn S).toSwap s r v = X.net.toSwap c.flags r (S.var v) := by
  unfold Net.toSwap
  have : (fun t => s.others r (v, t)) = fun t => c.flags.others r (S.var v, t) := by
    funext t
    exact h.others r v hv t
  rw [this]
  rfl

theorem mineDirty_rel {c : CState V} {s : NState V} (h : NetRel X U S sz c s) (r : Nat) {v : Nat} (hv : v < S.nv) :
    (X.netIn S).mineDirty s r v = X.net.mineDirty c.flags r (S.var v) := by
  unfold Net.mineDirty
  rw [toSwap_rel h r hv]
  have : (fun t => s.self r (v, t)) = fun t => c.flags.self r (S.var v, t) := by
    funext t
    exact h.self r v hv t
  rw [this]

include C

/-- The message of a neighbour. -/
theorem recv_sim {c : CState V} {s : NState V} (h : NetRel X U S sz c s) {r nb k : Nat} (hr : r < X.P.n) (hnb : nb ∈ X.P.nbrs r)
    (hk : k < X.P.nvars) {m : Int → V} {g : (Nat × Nat) × List Int → V} (hm : RepK X U S sz r k m g) :
    ∃ m', X.recv c r k m nb = .ok m' ∧ RepK X U S sz r k m' ((X.netIn S).unpack s r g nb) := by
  obtain ⟨hnl, _, _⟩ := (prep_nbrs C.prep hr nb).1 hnb
  have hused : ((X.P.var k).rank r).used = (shape k).used := (C.prep.vars k hk).used_eq r hr
  have hun : ∀ v < S.nv, S.var v = k → ∀ (t : Nat) (x : List Int), (X.netIn S).unpack s r g nb ((v, t), x) =
      if t ∈ X.net.toSwap c.flags r k ∧ X.net.box r nb k x = true ∧ X.net.mineDirty c.flags nb k = true then s.copy nb ((v, t), x)
      else g ((v, t), x) := by
    rintro v hv rfl t x
    unfold Net.unpack
    simp only [toSwap_rel h r hv, mineDirty_rel h nb hv]
    have e1 : v < (X.netIn S).nvars := hv
    have e2 : (X.netIn S).box r nb v x = X.net.box r nb (S.var v) x := rfl
    simp only [e1, e2, true_and]
  have hkeep : (∀ v < S.nv, S.var v = k → ∀ (t : Nat) (x : List Int), (X.netIn S).unpack s r g nb ((v, t), x) = g ((v, t), x)) →
      RepK X U S sz r k m ((X.netIn S).unpack s r g nb) := by
    intro he v hv hvk st hst x hx hin a ha
    rw [show (stepSlot U sz v st, x) = ((v, (stepSlot U sz v st).2), x) from rfl, he v hv hvk]
    exact hm v hv hvk st hst x hx hin a ha
  have hbox : ∀ x, X.net.box r nb k x = match X.P.buf r nb k false with
    | some y => inBuf X.P.nd ((X.P.var k).rank r).used y x
    | none => false := fun x => rfl
  unfold CodeNet.recv
  rw [prep_match C.prep hr hnb hk]
  by_cases hsw : X.net.toSwap c.flags r k = []
  · rw [if_pos hsw]
    refine ⟨m, rfl, hkeep fun v hv hvk t x => ?_⟩
    rw [hun v hv hvk, hsw]
    simp
  · rw [if_neg hsw]
    cases hb : X.P.buf r nb k false with
    | none =>
      refine ⟨m, rfl, hkeep fun v hv hvk t x => ?_⟩
      rw [hun v hv hvk, hbox x, hb]
      simp
    | some b =>
      simp only
      by_cases hd : X.net.mineDirty c.flags nb k = true
      · rw [if_pos hd]
        obtain ⟨m', e1, e2⟩ := copies_sim C hr hnb hk hb (src := c.mem nb k) (gs := s.copy nb) (rep_iff.1 (h.copy nb hnl) k)
          (X.net.toSwap c.flags r k) (fun t ht => by
            unfold Net.toSwap at ht
            split_ifs at ht
            · exact List.mem_range.1 (List.mem_filter.1 ht).1
            · simp at ht) hm
        refine ⟨m', e1, ?_⟩
        intro v hv hvk st hst x hx hin a ha
        rw [e2 v hv hvk st hst x hx hin a ha, show (stepSlot U sz v st, x) = ((v, (stepSlot U sz v st).2), x) from rfl, hun v hv hvk,
          hbox x, hb]
        simp only [hused, hd, and_true]
      · rw [if_neg hd]
        refine ⟨m, rfl, hkeep fun v hv hvk t x => ?_⟩
        rw [hun v hv hvk]
        simp [hd]

/-- The messages of several neighbours. -/
theorem recvs_sim {c : CState V} {s : NState V} (h : NetRel X U S sz c s) {r k : Nat} (hr : r < X.P.n) (hk : k < X.P.nvars) :
    ∀ (l : List Nat), (∀ nb ∈ l, nb ∈ X.P.nbrs r) → ∀ {m : Int → V} {g : (Nat × Nat) × List Int → V}, RepK X U S sz r k m g →
      ∃ m', l.foldlM (X.recv c r k) m = .ok m' ∧ RepK X U S sz r k m' (l.foldl ((X.netIn S).unpack s r) g)
  | [], _, m, g, hm => ⟨m, rfl, hm⟩
  | nb :: l, hl, m, g, hm => by
    obtain ⟨m1, e1, h1⟩ := recv_sim C h hr (hl nb (by simp)) hk hm
    obtain ⟨m2, e2, h2⟩ := recvs_sim h hr hk l (fun nb' hn => hl nb' (List.mem_cons_of_mem _ hn)) h1
    exact ⟨m2, by rw [List.foldlM_cons, e1]; exact e2, h2⟩

theorem swapList_rel {c : CState V} {s : NState V} (h : NetRel X U S sz c s) {r nb : Nat}
    (he : (X.netIn S).swapList s r = (X.netIn S).swapList s nb) : X.net.swapList c.flags r = X.net.swapList c.flags nb := by
  have hts : ∀ v < S.nv, (X.netIn S).toSwap s r v = (X.netIn S).toSwap s nb v := by
    intro v hv
    have hmem : ∀ (r' : Nat) (w : List Nat), w ≠ [] → ((v, w) ∈ (X.netIn S).swapList s r' ↔ (X.netIn S).toSwap s r' v = w) := by
      intro r' w hw
      unfold Net.swapList
      simp only [List.mem_filterMap, List.mem_range]
      constructor
      · rintro ⟨v', _, h1⟩
        split_ifs at h1
        injection h1 with h1
        injection h1 with h2 h3
        subst h2
        exact h3
      · intro h1
        exact ⟨v, hv, by rw [if_neg (by rw [h1]; exact hw), h1]⟩
    by_cases h1 : (X.netIn S).toSwap s r v = []
    · by_contra h2
      have h3 : (X.netIn S).toSwap s nb v ≠ [] := fun h3 => h2 (h1.trans h3.symm)
      have h4 := (hmem nb _ h3).2 rfl
      rw [← he, hmem r _ h3] at h4
      exact h2 h4
    · have h4 := (hmem r _ h1).2 rfl
      rw [he, hmem nb _ h1] at h4
      exact h4.symm
  unfold Net.swapList
  refine List.filterMap_congr fun k hk => ?_
  rw [List.mem_range] at hk
  obtain ⟨v, hv, rfl⟩ := C.fits.onto k hk
  have := hts v hv
  rw [toSwap_rel h r hv, toSwap_rel h nb hv] at this
  rw [this]

/-- A halo exchange. -/
theorem exchange_sim {c c2 : CState V} {s s2 : NState V} (h : NetRel X U S sz c s) (h2 : NetRel X U S sz c2 s2) {s' : NState V}
    (ho : (X.netIn S).exchangeFrom s s2 = .ok s') : ∃ c', X.exchangeFrom c c2 = .ok c' ∧ NetRel X U S sz c' s' := by
  unfold Net.exchangeFrom at ho
  split_ifs at ho with hsw
  injection ho with ho
  have hall : ∀ r < X.P.n, ∀ k < X.P.nvars, ∃ m', X.recvAll c r k (c2.mem r k) = .ok m' ∧
      RepK X U S sz r k m' ((X.P.nbrs r).foldl ((X.netIn S).unpack s r) (s2.copy r)) := fun r hr k hk =>
    recvs_sim C h hr hk (X.P.nbrs r) (fun _ hn => hn) (rep_iff.1 (h2.copy r hr) k)
  have hc1 : (∀ r < X.P.n, ∀ nb ∈ X.P.nbrs r, X.net.swapList c.flags r = X.net.swapList c.flags nb) ∧
      ∀ r < X.P.n, ∀ k < X.P.nvars, (X.recvAll c r k (c2.mem r k)).isOk = true :=
    ⟨fun r hr nb hn => swapList_rel C h (hsw r hr nb hn), fun r hr k hk => by
      obtain ⟨m', e, _⟩ := hall r hr k hk
      rw [e]; rfl⟩
  refine ⟨_, by unfold CodeNet.exchangeFrom; rw [if_pos hc1], ?_⟩
  subst ho
  refine ⟨fun r hr v hv => ?_, fun r v hv t => ?_, fun r v hv t => ?_⟩
  · have hk := C.fits.var v hv
    obtain ⟨m', e, hm'⟩ := hall r hr _ hk
    have e2 : (X.slices S r).var v = S.var v := rfl
    simp only [e2, hr, hk, and_self, if_true, e]
    exact hm' v hv rfl
  · have hk := C.fits.var v hv
    have e1 : v < (X.netIn S).nvars := hv
    simp only [e1, hk, true_and, toSwap_rel h r hv, h2.self r v hv t]
  · have hk := C.fits.var v hv
    have e1 : v < (X.netIn S).nvars := hv
    simp only [e1, hk, true_and, toSwap_rel h r hv, h2.others r v hv t]

end
end Yask
