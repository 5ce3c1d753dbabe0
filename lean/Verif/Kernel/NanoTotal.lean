import Verif.Kernel.NanoCount
import Mathlib.Data.List.Nodup

/-!
# The writes of a whole nano-block
-/

namespace Yask.Nano
open Spec

/-- What the theorems assume about a nano-block. -/
structure NanoOk (f : LoopFeat) (ds : List NanoDim) : Prop where
  dims : ∀ d ∈ ds, d.Ok
  nd : ds.length ≤ 8
  pts : prodVals (ds.map NanoDim.fold) ≤ 63
  feat : ∃ f', adjFeatures f ds.length = some f'

section
variable {f : LoopFeat} {ds : List NanoDim}

theorem NanoOk.pos (h : NanoOk f ds) : ∀ x ∈ ds.map NanoDim.fold, 0 < x := by
  intro x hx
  obtain ⟨d, hd, rfl⟩ := List.mem_map.1 hx
  exact (h.dims d hd).1

theorem vecOf_length {p : List Int} (hp : p.length = ds.length) : (vecOf ds p).length = ds.length := by
  simp [vecOf, hp]

theorem ofsOf_length {p : List Int} (hp : p.length = ds.length) : (ofsOf ds p).length = ds.length := by
  simp [ofsOf, hp]

theorem partWrites_spec (h : NanoOk f ds) (fi : Bool) (cdims lr : Nat) :
    ∃ l, partWrites f fi ds cdims lr = some l ∧ ∀ p,
      (p.length = ds.length ∧ MatchP cdims lr 0 0 ds (vecOf ds p) (ofsOf ds p) → l.count p = 1) ∧
      (¬ (p.length = ds.length ∧ MatchP cdims lr 0 0 ds (vecOf ds p) (ofsOf ds p)) → l.count p = 0) := by
  obtain ⟨g1, g2⟩ := partGo_ok fi (ds.map NanoDim.fold) cdims lr ds h.dims 0 0
  obtain ⟨l, hl, hc⟩ := calcVectors_spec f fi ds (partGo fi (ds.map NanoDim.fold) cdims lr 0 0 ds).1
    (partGo fi (ds.map NanoDim.fold) cdims lr 0 0 ds).2.1 g1 (fun d hd => (h.dims d hd).1) h.feat g2
  have key : ∀ p : List Int, p.length = ds.length →
      (((partGo fi (ds.map NanoDim.fold) cdims lr 0 0 ds).2.2 = true ∧
        InBox (vecOf ds p) (partGo fi (ds.map NanoDim.fold) cdims lr 0 0 ds).1 ∧
        (partGo fi (ds.map NanoDim.fold) cdims lr 0 0 ds).2.1.getLsbD
          (layoutVals fi (ds.map NanoDim.fold) (ofsOf ds p)) = true) ↔
      MatchP cdims lr 0 0 ds (vecOf ds p) (ofsOf ds p)) := by
    intro p hp
    exact partGo_match fi _ h.pos h.pts cdims lr (ofsOf ds p)
      (ofsOf_inSpace ds (fun d hd => (h.dims d hd).1) p hp) ds _ _ (vecOf_length hp) (ofsOf_length hp) 0 0
      (fun i _ => by rw [Nat.zero_add])
  unfold partWrites
  simp only
  by_cases hn : (partGo fi (ds.map NanoDim.fold) cdims lr 0 0 ds).2.2 = true
  · rw [if_pos hn]
    refine ⟨l, hl, fun p => ⟨?_, ?_⟩⟩
    · rintro ⟨hp, hm⟩
      have := (key p hp).2 hm
      rw [hc p, if_pos ⟨hp, this.2⟩]
    · intro hnm
      rw [hc p, if_neg]
      rintro ⟨hp, hm⟩
      exact hnm ⟨hp, (key p hp).1 ⟨hn, hm⟩⟩
  · rw [if_neg hn]
    refine ⟨[], rfl, fun p => ⟨?_, ?_⟩⟩
    · rintro ⟨hp, hm⟩
      exact absurd ((key p hp).2 hm).1 hn
    · simp

/-- All parts, as (number of selected dimensions - 1, number of the combination, left-right sequence). -/
def partList (n : Nat) : List (Nat × Nat × Nat) :=
  (List.range n).flatMap fun (k0 : Nat) => (List.range (n.choose (k0 + 1))).flatMap fun (r : Nat) =>
    (List.range (2 ^ (k0 + 1))).map fun (lr : Nat) => (k0, r, lr)

theorem partList_nodup (n : Nat) : (partList n).Nodup := by
  unfold partList
  rw [List.nodup_flatMap]
  constructor
  · intro k _
    rw [List.nodup_flatMap]
    constructor
    · intro r _
      exact List.nodup_range.map (fun a b h => by simpa using h)
    · refine List.nodup_range.imp ?_
      intro a b hab
      simp only [Function.onFun, List.disjoint_left, List.mem_map, List.mem_range]
      rintro x ⟨c, _, rfl⟩ ⟨d, _, h2⟩
      simp only [Prod.mk.injEq] at h2
      exact hab h2.2.1.symm
  · refine List.nodup_range.imp ?_
    intro a b hab
    simp only [Function.onFun, List.disjoint_left, List.mem_flatMap, List.mem_map, List.mem_range]
    rintro x ⟨_, _, c, _, rfl⟩ ⟨_, _, d, _, h2⟩
    simp only [Prod.mk.injEq] at h2
    exact hab h2.1.symm

theorem mem_partList {n k0 r lr : Nat} : (k0, r, lr) ∈ partList n ↔
    k0 < n ∧ r < n.choose (k0 + 1) ∧ lr < 2 ^ (k0 + 1) := by
  unfold partList
  simp only [List.mem_flatMap, List.mem_map, List.mem_range, Prod.mk.injEq]
  constructor
  · rintro ⟨_, h1, _, h2, _, h3, rfl, rfl, rfl⟩; exact ⟨h1, h2, h3⟩
  · rintro ⟨h1, h2, h3⟩; exact ⟨_, h1, _, h2, _, h3, rfl, rfl, rfl⟩

/-- The set of dimensions of a part. -/
def cdimsOf (n : Nat) (x : Nat × Nat × Nat) : Nat := (nChooseKSet n ((x.1 : Int) + 1) x.2.1).getD 0

theorem flatMap_flatten_map {α β : Type} (l : List α) (g : α → List (List β)) :
    (l.map fun a => (g a).flatten).flatten = (l.flatMap g).flatten := by
  induction l with
  | nil => rfl
  | cons a l ih => simp [ih]

theorem allParts_eq (h : NanoOk f ds) (fi : Bool) :
    allParts f fi ds = some ((partList ds.length).flatMap fun x =>
      (partWrites f fi ds (cdimsOf ds.length x) x.2.2).getD []) := by
  have hn := h.nd
  unfold allParts
  rw [mapM_some _ _ (fun (k0 : Nat) => ((List.range (ds.length.choose (k0 + 1))).map fun (r : Nat) =>
      ((List.range (2 ^ (k0 + 1))).map fun (lr : Nat) =>
        (partWrites f fi ds (cdimsOf ds.length (k0, r, lr)) lr).getD []).flatten).flatten)]
  · simp only [Option.bind_eq_bind, Option.bind_some, Option.pure_def, Option.some.injEq]
    unfold partList
    rw [List.flatMap_assoc, ← List.flatMap_def]
    congr 1
    funext k0
    rw [List.flatMap_assoc, ← List.flatMap_def]
    congr 1
    funext r
    rw [List.flatMap_map, ← List.flatMap_def]
  · intro k0 hk0
    rw [List.mem_range] at hk0
    have hnc := nChooseK_eq ds.length (k0 + 1) (by omega)
    rw [show ((k0 + 1 : Nat) : Int) = (k0 : Int) + 1 by push_cast; rfl] at hnc
    rw [hnc]
    simp only [Option.bind_eq_bind, Option.bind_some, Int.toNat_natCast]
    rw [mapM_some _ _ (fun (r : Nat) => ((List.range (2 ^ (k0 + 1))).map fun (lr : Nat) =>
        (partWrites f fi ds (cdimsOf ds.length (k0, r, lr)) lr).getD []).flatten)]
    · simp
    · intro r hr
      rw [List.mem_range] at hr
      obtain ⟨l, m, _, hm, _⟩ := nChooseKSet_spec ds.length (k0 + 1) r (by omega) (by omega) hr
      rw [show ((k0 + 1 : Nat) : Int) = (k0 : Int) + 1 by push_cast; rfl] at hm
      rw [hm]
      simp only [Option.bind_some]
      rw [mapM_some _ _ (fun (lr : Nat) =>
        (partWrites f fi ds (cdimsOf ds.length (k0, r, lr)) lr).getD [])]
      · simp
      · intro lr _
        have e : cdimsOf ds.length (k0, r, lr) = m := by
          unfold cdimsOf; rw [hm]; rfl
        rw [e]
        obtain ⟨l, hl, _⟩ := partWrites_spec h fi m lr
        rw [hl]; rfl

theorem inBox_cons {x : Int} {p : List Int} {r : Ivl} {bx : Box} :
    InBox (x :: p) (r :: bx) ↔ InIvl x r ∧ InBox p bx := List.forall₂_cons

/-- Classification of a whole point. -/
theorem point_class (h : ∀ d ∈ ds, d.Ok) (p : List Int) (hp : p.length = ds.length) :
    (InBox p (ds.map fun d => (d.b, d.e)) ↔ AllIn ds (vecOf ds p) (ofsOf ds p)) ∧
      Excl ds (vecOf ds p) (ofsOf ds p) ∧
      (InBox (vecOf ds p) (ds.map fun d => (d.norm d.fvbgn, d.norm d.fvend)) ↔
        ∀ i, i < ds.length → (selList ds (vecOf ds p)).getD i false = false) ∧
      (InBox (vecOf ds p) (ds.map fun d => (d.norm d.fvbgn, d.norm d.fvend)) →
        AllIn ds (vecOf ds p) (ofsOf ds p)) := by
  induction ds generalizing p with
  | nil =>
    have : p = [] := by simpa using hp
    subst this
    simp [vecOf, ofsOf, AllIn, Excl]
  | cons d ds ih =>
    match p, hp with
    | x :: p, hp =>
      obtain ⟨c1, c2, c3⟩ := dim_class d (h d List.mem_cons_self) x
      obtain ⟨i1, i2, i3, i4⟩ := ih (fun d hd => h d (List.mem_cons_of_mem _ hd)) p (by simpa using hp)
      have ev : vecOf (d :: ds) (x :: p) = ((x - d.rofs) / d.fold) :: vecOf ds p := rfl
      have eo : ofsOf (d :: ds) (x :: p) = ((x - d.rofs) % d.fold) :: ofsOf ds p := rfl
      rw [ev, eo]
      refine ⟨?_, ⟨⟨c2, c3⟩, i2⟩, ?_, ?_⟩
      · rw [List.map_cons, inBox_cons, c1, i1]; rfl
      · rw [List.map_cons, inBox_cons, i3]
        simp only [selList, List.length_cons]
        constructor
        · rintro ⟨h1, h2⟩ i hi
          cases i with
          | zero => rw [List.getD_cons_zero, decide_eq_true h1]; rfl
          | succ i => rw [List.getD_cons_succ]; exact h2 i (by omega)
        · intro hh
          refine ⟨?_, fun i hi => ?_⟩
          · have := hh 0 (by omega)
            rw [List.getD_cons_zero] at this
            simpa using this
          · have := hh (i + 1) (by omega)
            rwa [List.getD_cons_succ] at this
      · rw [List.map_cons, inBox_cons]
        rintro ⟨h1, h2⟩
        exact ⟨Or.inl h1, i4 h2⟩

/-- Every point of the nano-block is written exactly once and no other point is written. -/
theorem calcNanoBlock_count (h : NanoOk f ds) (fi : Bool) :
    ∃ l, calcNanoBlock f fi ds = some l ∧
      ∀ p, l.count p = if InBox p (ds.map fun d => (d.b, d.e)) then 1 else 0 := by
  have hn := h.nd
  -- full vectors
  have hfull : ∃ l, fullWrites f fi ds = some l ∧ ∀ p, l.count p = if p.length = ds.length ∧
          InBox (vecOf ds p) (ds.map fun d => (d.norm d.fvbgn, d.norm d.fvend)) then 1 else 0 := by
    unfold fullWrites
    by_cases hno : ds.any NanoDim.noFull = true
    · rw [if_pos hno]
      refine ⟨[], rfl, fun p => ?_⟩
      rw [if_neg]
      · rfl
      · rintro ⟨hp, hb⟩
        rw [List.any_eq_true] at hno
        obtain ⟨d, hd, hnf⟩ := hno
        obtain ⟨_, _, _, _, _, _, _, _, _, _, _, _, _, _, _, _, _, _, hnf'⟩ := dim_bounds d (h.dims d hd)
        rw [hnf', decide_eq_true_eq] at hnf
        have : ∀ (v : List Int) (bx : Box), InBox v bx → ∀ r ∈ bx, r.1 < r.2 := by
          intro v bx hv
          induction hv with
          | nil => simp
          | cons h1 h2 ih =>
            intro r hr
            rcases List.mem_cons.1 hr with rfl | hr
            · omega
            · exact ih r hr
        have := this _ _ hb _ (List.mem_map.2 ⟨d, hd, rfl⟩)
        simp only at this
        omega
    · rw [if_neg hno]
      obtain ⟨l, hl, hc⟩ := calcVectors_spec f fi ds (ds.map fun d => (d.norm d.fvbgn, d.norm d.fvend))
        (BitVec.allOnes 64) (by simp) (fun d hd => (h.dims d hd).1) h.feat (by
          intro x hx
          have : x.2 = (x.1.norm x.1.fvbgn, x.1.norm x.1.fvend) := by
            rw [List.zip_map_right, List.mem_map] at hx
            obtain ⟨y, hy, rfl⟩ := hx
            have : y.1 = y.2 := by
              obtain ⟨i, hi, rfl⟩ := List.mem_iff_getElem.1 hy
              simp
            simp [this]
          rw [this]
          exact (dim_loopOk x.1 (h.dims x.1 (List.of_mem_zip hx).1)).1)
      refine ⟨l, hl, fun p => ?_⟩
      rw [hc p]
      by_cases hp : p.length = ds.length
      · have hin := ofsOf_inSpace ds (fun d hd => (h.dims d hd).1) p hp
        have hlt := layout_lt fi _ _ hin
        have hpts := h.pts
        have : (BitVec.allOnes 64).getLsbD (layoutVals fi (ds.map NanoDim.fold) (ofsOf ds p)) = true := by
          rw [BitVec.getLsbD_allOnes, decide_eq_true_eq]
          omega
        simp only [this, and_true]
      · simp only [hp, false_and]
  obtain ⟨full, hfull, hfc⟩ := hfull
  -- the condition under which parts match
  have hmatch : ∀ p : List Int, p.length = ds.length → ∀ k0 r lr, (k0, r, lr) ∈ partList ds.length →
      (MatchP (cdimsOf ds.length (k0, r, lr)) lr 0 0 ds (vecOf ds p) (ofsOf ds p) ↔
        AllIn ds (vecOf ds p) (ofsOf ds p) ∧
        (k0 + 1 = (trueSet (selList ds (vecOf ds p))).card ∧
          ∀ b, isBitSet (cdimsOf ds.length (k0, r, lr)) b = true ↔ b ∈ trueSet (selList ds (vecOf ds p))) ∧
        ∀ t, t < (sideList ds (vecOf ds p) (ofsOf ds p)).length →
          isBitSet lr t = (sideList ds (vecOf ds p) (ofsOf ds p)).getD t false) := by
    intro p hp k0 r lr hm
    obtain ⟨m1, m2, m3⟩ := mem_partList.1 hm
    obtain ⟨_, hex, _, _⟩ := point_class h.dims p hp
    rw [match_iff _ _ ds _ _ (vecOf_length hp) (ofsOf_length hp) hex]
    simp only [Nat.zero_add]
    obtain ⟨m, hm, S, s1, s2, s3⟩ := C41_set_members ds.length (k0 + 1) r (by omega) (by omega) m2
    rw [show ((k0 + 1 : Nat) : Int) = (k0 : Int) + 1 by push_cast; rfl] at hm
    have e : cdimsOf ds.length (k0, r, lr) = m := by unfold cdimsOf; rw [hm]; rfl
    rw [e]
    have hts : ∀ b, b ∈ trueSet (selList ds (vecOf ds p)) ↔
        b < ds.length ∧ (selList ds (vecOf ds p)).getD b false = true := by
      intro b
      simp only [trueSet, Finset.mem_filter, Finset.mem_range, selList_length ds _ (vecOf_length hp)]
    have : (∀ i, i < ds.length → isBitSet m i = (selList ds (vecOf ds p)).getD i false) ↔
        (k0 + 1 = (trueSet (selList ds (vecOf ds p))).card ∧
          ∀ b, isBitSet m b = true ↔ b ∈ trueSet (selList ds (vecOf ds p))) := by
      constructor
      · intro hh
        have hS : ∀ b, isBitSet m b = true ↔ b ∈ trueSet (selList ds (vecOf ds p)) := by
          intro b
          rw [hts]
          constructor
          · intro hb
            have hlt := s2 b ((s3 b).1 hb)
            exact ⟨hlt, by rw [← hh b hlt]; exact hb⟩
          · rintro ⟨h1, h2⟩; rw [hh b h1]; exact h2
        refine ⟨?_, hS⟩
        rw [← s1]
        congr 1
        ext b
        rw [← s3, hS]
      · rintro ⟨_, hS⟩ i hi
        have := hS i
        rw [hts] at this
        by_cases hb : isBitSet m i = true
        · rw [hb, (this.1 hb).2]
        · have h2 : ¬ (selList ds (vecOf ds p)).getD i false = true := fun h' => hb (this.2 ⟨hi, h'⟩)
          simp only [Bool.not_eq_true] at hb h2
          rw [hb, h2]
    rw [this]
  -- parts
  classical
  have hparts : ∃ l, borderWrites f fi ds = some l ∧
      ∀ p, l.count p = if p.length = ds.length ∧ AllIn ds (vecOf ds p) (ofsOf ds p) ∧
        (trueSet (selList ds (vecOf ds p))).Nonempty then 1 else 0 := by
    unfold borderWrites
    by_cases hany : ds.any (fun d => d.left || d.right) = true
    · rw [if_pos hany]
      refine ⟨_, allParts_eq h fi, fun p => ?_⟩
      rw [List.count, countP_flatMap_eq (partList ds.length) _ (· == p) (fun x => decide (p.length = ds.length ∧
        MatchP (cdimsOf ds.length x) x.2.2 0 0 ds (vecOf ds p) (ofsOf ds p)))]
      · refine Eq.trans (countP_unique _ (partList_nodup _) _ (p.length = ds.length ∧
          AllIn ds (vecOf ds p) (ofsOf ds p) ∧ (trueSet (selList ds (vecOf ds p))).Nonempty) ?_ ?_ ?_) ?_
        · rintro ⟨hp, hin, hne⟩
          have hcard := Finset.card_pos.2 hne
          have hsub : ∀ b ∈ trueSet (selList ds (vecOf ds p)), b < ds.length := by
            intro b hb
            simp only [trueSet, Finset.mem_filter, Finset.mem_range,
              selList_length ds _ (vecOf_length hp)] at hb
            exact hb.1
          have hle : (trueSet (selList ds (vecOf ds p))).card ≤ ds.length := by
            have := Finset.card_le_card (show trueSet (selList ds (vecOf ds p)) ⊆ Finset.range ds.length from
              fun b hb => Finset.mem_range.2 (hsub b hb))
            simpa using this
          obtain ⟨r, ⟨hr, m, hm, hmb⟩, _⟩ := C41_set_bijection ds.length _ (by omega) (by omega)
            (trueSet (selList ds (vecOf ds p))) rfl hsub
          obtain ⟨lr, hlr, hbits⟩ := exists_bits (sideList ds (vecOf ds p) (ofsOf ds p))
          have hlen : (sideList ds (vecOf ds p) (ofsOf ds p)).length =
              (trueSet (selList ds (vecOf ds p))).card := by
            rw [sideList_length _ _ _ (vecOf_length hp) (ofsOf_length hp), trueSet_card]
          obtain ⟨k0, hk0⟩ : ∃ k0, (trueSet (selList ds (vecOf ds p))).card = k0 + 1 :=
            ⟨_, (Nat.sub_add_cancel hcard).symm⟩
          rw [hk0] at hr hm hlen hle
          have hmem : (k0, r, lr) ∈ partList ds.length :=
            mem_partList.2 ⟨by omega, hr, by rw [← hlen]; exact hlr⟩
          refine ⟨(k0, r, lr), hmem, ?_⟩
          rw [decide_eq_true_eq]
          refine ⟨hp, (hmatch p hp k0 r lr hmem).2 ⟨hin, ⟨hk0.symm, ?_⟩, hbits⟩⟩
          rw [show ((k0 + 1 : Nat) : Int) = (k0 : Int) + 1 by push_cast; rfl] at hm
          have e : cdimsOf ds.length (k0, r, lr) = m := by unfold cdimsOf; rw [hm]; rfl
          rw [e]; exact hmb
        · rintro ⟨k0, r, lr⟩ ha ⟨k0', r', lr'⟩ hb ha' hb'
          rw [decide_eq_true_eq] at ha' hb'
          have hp := ha'.1
          obtain ⟨a1, ⟨a2, a3⟩, a4⟩ := (hmatch p hp k0 r lr ha).1 ha'.2
          obtain ⟨b1, ⟨b2, b3⟩, b4⟩ := (hmatch p hp k0' r' lr' hb).1 hb'.2
          have hk : k0 = k0' := by omega
          subst hk
          obtain ⟨m1, m2, m3⟩ := mem_partList.1 ha
          obtain ⟨n1, n2, n3⟩ := mem_partList.1 hb
          have hsub : ∀ b ∈ trueSet (selList ds (vecOf ds p)), b < ds.length := by
            intro b hb
            simp only [trueSet, Finset.mem_filter, Finset.mem_range,
              selList_length ds _ (vecOf_length hp)] at hb
            exact hb.1
          have hu := C41_set_bijection ds.length (k0 + 1) (by omega) (by omega)
            (trueSet (selList ds (vecOf ds p))) a2.symm hsub
          have aux : ∀ r lr, r < ds.length.choose (k0 + 1) →
              (∀ b, isBitSet (cdimsOf ds.length (k0, r, lr)) b = true ↔
                b ∈ trueSet (selList ds (vecOf ds p))) →
              r < ds.length.choose (k0 + 1) ∧ ∃ m, nChooseKSet ds.length ((k0 + 1 : Nat) : Int) r = some m ∧
                ∀ b, isBitSet m b = true ↔ b ∈ trueSet (selList ds (vecOf ds p)) := by
            intro r lr hr hb
            obtain ⟨l, m, _, hm, _⟩ := nChooseKSet_spec ds.length (k0 + 1) r (by omega) (by omega) hr
            refine ⟨hr, m, hm, ?_⟩
            rw [show ((k0 + 1 : Nat) : Int) = (k0 : Int) + 1 by push_cast; rfl] at hm
            have e : cdimsOf ds.length (k0, r, lr) = m := by unfold cdimsOf; rw [hm]; rfl
            rwa [e] at hb
          have hr : r = r' := hu.unique (aux r lr m2 a3) (aux r' lr' n2 b3)
          subst hr
          have hlen : (sideList ds (vecOf ds p) (ofsOf ds p)).length = k0 + 1 := by
            rw [sideList_length _ _ _ (vecOf_length hp) (ofsOf_length hp), ← trueSet_card, ← a2]
          rw [bits_unique m3 n3 (fun t ht => by rw [a4 t (by omega), b4 t (by omega)])]
        · rintro ⟨k0, r, lr⟩ ha ha'
          rw [decide_eq_true_eq] at ha'
          obtain ⟨a1, ⟨a2, a3⟩, a4⟩ := (hmatch p ha'.1 k0 r lr ha).1 ha'.2
          exact ⟨ha'.1, a1, Finset.card_pos.1 (by omega)⟩
        · rfl
      · rintro ⟨k0, r, lr⟩ _
        obtain ⟨l, hl, hc⟩ := partWrites_spec h fi (cdimsOf ds.length (k0, r, lr)) lr
        rw [hl]
        obtain ⟨c1, c2⟩ := hc p
        rw [List.count] at c1 c2
        simp only [Option.getD_some, decide_eq_true_eq]
        by_cases hq : p.length = ds.length ∧
            MatchP (cdimsOf ds.length (k0, r, lr)) lr 0 0 ds (vecOf ds p) (ofsOf ds p)
        · rw [if_pos hq, c1 hq]
        · rw [if_neg hq, c2 hq]
    · rw [if_neg hany]
      refine ⟨[], rfl, fun p => ?_⟩
      rw [if_neg]
      · rfl
      · rintro ⟨hp, hin, hne⟩
        have : ∀ (ds : List NanoDim) (vs os : List Int), AllIn ds vs os →
            ds.any (fun d => d.left || d.right) = false → ∀ i, (selList ds vs).getD i false = false := by
          intro ds
          induction ds with
          | nil => intro vs os _ _ i; simp [selList]
          | cons d ds ih =>
            intro vs os hin hno i
            match vs, os, hin with
            | v :: vs, o :: os, hin =>
              simp only [List.any_cons, Bool.or_eq_false_iff] at hno
              obtain ⟨h1, h2⟩ := hin
              have hF : isF d v := by
                rcases h1 with h1 | h1 | h1
                · exact h1
                · exact absurd h1.1 (by simp [hno.1.1])
                · exact absurd h1.1 (by simp [hno.1.2])
              simp only [selList]
              cases i with
              | zero => rw [List.getD_cons_zero, decide_eq_true hF]; rfl
              | succ i => rw [List.getD_cons_succ]; exact ih vs os h2 hno.2 i
        obtain ⟨b, hb⟩ := hne
        simp only [trueSet, Finset.mem_filter, Finset.mem_range] at hb
        have := this ds _ _ hin (by simpa using hany) b
        rw [hb.2] at this
        exact absurd this (by simp)
  obtain ⟨parts, hparts, hpc⟩ := hparts
  unfold calcNanoBlock
  rw [hfull, hparts]
  refine ⟨full ++ parts, rfl, fun p => ?_⟩
  rw [List.count_append, hfc p, hpc p]
  by_cases hp : p.length = ds.length
  · obtain ⟨q1, _, q3, q4⟩ := point_class h.dims p hp
    simp only [hp, true_and]
    have hne : (trueSet (selList ds (vecOf ds p))).Nonempty ↔
        ¬ ∀ i, i < ds.length → (selList ds (vecOf ds p)).getD i false = false := by
      constructor
      · rintro ⟨b, hb⟩ hall
        simp only [trueSet, Finset.mem_filter, Finset.mem_range,
          selList_length ds _ (vecOf_length hp)] at hb
        rw [hall b hb.1] at hb
        exact absurd hb.2 (by simp)
      · intro hall
        push Not at hall
        obtain ⟨b, hb, hb2⟩ := hall
        refine ⟨b, ?_⟩
        simp only [trueSet, Finset.mem_filter, Finset.mem_range,
          selList_length ds _ (vecOf_length hp)]
        exact ⟨hb, by simpa using hb2⟩
    by_cases hF : InBox (vecOf ds p) (ds.map fun d => (d.norm d.fvbgn, d.norm d.fvend))
    · rw [if_pos hF, if_neg (by rw [hne]; exact fun h' => h'.2 (q3.1 hF)), if_pos (q1.2 (q4 hF))]
    · rw [if_neg hF]
      by_cases hin : InBox p (ds.map fun d => (d.b, d.e))
      · rw [if_pos hin, if_pos ⟨q1.1 hin, hne.2 (fun h' => hF (q3.2 h'))⟩]
      · rw [if_neg hin, if_neg (fun h' => hin (q1.2 h'.1))]
  · have : ¬ InBox p (ds.map fun d => (d.b, d.e)) := by
      intro hin
      have := hin.length_eq
      simp at this
      exact hp this
    simp only [hp, false_and, if_false, this]

end
end Yask.Nano
