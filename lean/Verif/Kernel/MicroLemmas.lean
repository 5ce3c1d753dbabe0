import Verif.Kernel.NanoTotal
import Mathlib.Algebra.BigOperators.Group.List.Basic

/-!
# Micro-blocks: trimming to bounding boxes, nano-block loops and thread binding
-/

namespace Yask.Nano
open Spec

theorem sum_map_ite_eq (n k : Nat) (h : k < n) (c : Nat) :
    ((List.range n).map fun (t : Nat) => if k = t then c else 0).sum = c := by
  induction n with
  | zero => omega
  | succ n ih =>
    rw [List.range_succ, List.map_append, List.sum_append]
    by_cases hk : k = n
    · subst hk
      have : ((List.range k).map fun (t : Nat) => if k = t then c else 0).sum = 0 := by
        apply List.sum_eq_zero
        intro x hx
        obtain ⟨t, ht, rfl⟩ := List.mem_map.1 hx
        rw [List.mem_range] at ht
        rw [if_neg (by omega)]
      rw [this]; simp
    · rw [ih (by omega)]; simp [hk]

/-- Distributing a list over `n` buckets by a key below `n` keeps every count. -/
theorem countP_buckets {α : Type} (l : List α) (key : α → Nat) (n : Nat) (hk : ∀ a ∈ l, key a < n)
    (p : α → Bool) :
    ((List.range n).flatMap fun (t : Nat) => l.filter fun a => decide (key a = t)).countP p = l.countP p := by
  rw [List.countP_flatMap]
  induction l with
  | nil =>
    simp only [List.filter_nil, List.countP_nil]
    apply List.sum_eq_zero
    intro x hx
    obtain ⟨t, _, rfl⟩ := List.mem_map.1 hx
    rfl
  | cons a l ih =>
    rw [List.countP_cons, ← ih (fun a ha => hk a (List.mem_cons_of_mem _ ha))]
    have e : ∀ t : Nat, (List.countP p ∘ fun (t : Nat) => (a :: l).filter fun a => decide (key a = t)) t =
        (List.countP p ∘ fun (t : Nat) => l.filter fun a => decide (key a = t)) t +
          (if key a = t then (if p a then 1 else 0) else 0) := by
      intro t
      simp only [Function.comp]
      by_cases h : key a = t
      · rw [List.filter_cons_of_pos (by simp [h]), List.countP_cons, if_pos h]
      · rw [List.filter_cons_of_neg (by simp [h]), if_neg h]; rfl
    rw [List.map_congr_left (fun t _ => e t), List.sum_map_add,
      sum_map_ite_eq n (key a) (hk a List.mem_cons_self)]

/-- Conditions on the settings of one dimension. -/
structure MicroDim.Ok (m : MicroDim) : Prop where
  fold : 0 < m.fold
  nano : 0 < m.nano
  align : 0 < m.align
  tile : 0 < m.tile
  pico : 0 < m.pico
  nanoTile : m.fold ≤ m.nanoTile

theorem trim_spec (mb bb : Box) (hl : bb.length = mb.length) :
    (∀ bx, trim mb bb = some bx → bx.length = mb.length ∧ (∀ r ∈ bx, r.1 < r.2) ∧
      ∀ p, InBox p bx ↔ InBox p mb ∧ InBox p bb) ∧
    (trim mb bb = none → ∀ p, ¬ (InBox p mb ∧ InBox p bb)) := by
  have key : ∀ p, InBox p (List.zipWith (fun (m b : Ivl) => ((max m.1 b.1, min m.2 b.2) : Ivl)) mb bb) ↔
      InBox p mb ∧ InBox p bb := by
    intro p
    induction mb generalizing bb p with
    | nil =>
      have : bb = [] := by simpa using hl
      subst this
      simp
    | cons m mb ih =>
      match bb, hl with
      | b :: bb, hl =>
        cases p with
        | nil => simp
        | cons x p =>
          rw [List.zipWith_cons_cons, inBox_cons, inBox_cons, inBox_cons, ih bb (by simpa using hl)]
          simp only [InIvl]
          constructor
          · rintro ⟨h1, h2, h3⟩; exact ⟨⟨by omega, h2⟩, by omega, h3⟩
          · rintro ⟨⟨h1, h2⟩, h3, h4⟩; exact ⟨by omega, h2, h4⟩
  unfold trim
  simp only
  constructor
  · intro bx hbx
    split at hbx
    · simp at hbx
    · next hany =>
      simp only [Option.some.injEq] at hbx
      subst hbx
      refine ⟨by simp [hl], ?_, key⟩
      intro r hr
      simp only [Bool.not_eq_true, List.any_eq_false, decide_eq_true_eq] at hany
      have := hany r hr
      omega
  · intro hnone p hp
    split at hnone
    · next hany =>
      rw [List.any_eq_true] at hany
      obtain ⟨r, hr, hle⟩ := hany
      rw [decide_eq_true_eq] at hle
      have := (key p).2 hp
      have aux : ∀ (v : List Int) (bx : Box), InBox v bx → ∀ r ∈ bx, r.1 < r.2 := by
        intro v bx hv
        induction hv with
        | nil => simp
        | cons h1 h2 ih =>
          intro r hr
          rcases List.mem_cons.1 hr with rfl | hr
          · omega
          · exact ih r hr
      have := aux p _ this r hr
      omega
    · simp at hnone

theorem genLoops_cover (a : Bool) (f : LoopFeat) (ds : List LoopDim) (bx : Box) (hok : ∀ d ∈ ds, d.Ok)
    (hbx : ds.map (fun d => (d.begin_, d.end_)) = bx) (hne : ∀ r ∈ bx, r.1 < r.2)
    (hf : ∃ f', adjFeatures f ds.length = some f') :
    ∃ l, genLoops a [(f, ds)] = some l ∧ ExactBoxCover (l.map Prod.snd) bx ∧
      ∀ b ∈ l, b.2.length = bx.length ∧ ∀ r ∈ b.2, r.1 < r.2 := by
  obtain ⟨f', hf⟩ := hf
  have hgen := genLoops_single a f ds f' hf
  have hok' : ∀ g ∈ [(f, ds)], ∀ d ∈ g.2, d.Ok := by
    intro g hg; rw [List.mem_singleton] at hg; subst hg; exact hok
  have hcov := C12_loops_cover a [(f, ds)] hok' _ hgen
  have hidx := C12_indices_once a [(f, ds)] hok' _ hgen
  simp only [List.flatMap_cons, List.flatMap_nil, List.append_nil] at hcov hidx
  rw [hbx] at hcov
  refine ⟨_, hgen, hcov, ?_⟩
  intro b hb
  have h1 := (hidx.2 b.1).1 (List.mem_map.2 ⟨b, hb, rfl⟩)
  have h2 : b.2 = bodyBox a ds b.1 := by
    unfold loopBodies at hb
    rw [List.mem_map] at hb
    obtain ⟨idx, _, rfl⟩ := hb
    simp
  unfold InSpace at h1
  rw [List.forall₂_map_right_iff] at h1
  rw [h2]
  have hne' : ∀ d ∈ ds, d.begin_ < d.end_ := by
    intro d hd
    exact hne (d.begin_, d.end_) (by rw [← hbx]; exact List.mem_map.2 ⟨d, hd, rfl⟩)
  have hlen : bx.length = ds.length := by rw [← hbx]; simp
  rw [hlen]
  generalize b.1 = is at h1
  clear * - h1 hok hne'
  unfold bodyBox
  induction h1 with
  | nil => simp
  | @cons i d is ds h1 h2 ih =>
    obtain ⟨i1, i2⟩ := ih (fun d hd => hok d (List.mem_cons_of_mem _ hd))
      (fun d hd => hne' d (List.mem_cons_of_mem _ hd))
    rw [List.zipWith_cons_cons]
    refine ⟨by simp only [List.length_cons, i1], ?_⟩
    intro r hr
    rcases List.mem_cons.1 hr with rfl | hr
    · exact (C12_piece_bounds a d (hok d List.mem_cons_self) i h1.1 h1.2).2.2.2.1
        (hne' d List.mem_cons_self)
    · exact i2 r hr

theorem freeNanoBlocks_spec (f : LoopFeat) (ms : List MicroDim) (mb bx : Box)
    (hm : ∀ m ∈ ms, m.Ok) (hl : mb.length = ms.length) (hl2 : bx.length = ms.length)
    (hne : ∀ r ∈ bx, r.1 < r.2) (hf : ∃ f', adjFeatures f ms.length = some f') :
    ∃ l, freeNanoBlocks f ms mb bx = some l ∧ ExactBoxCover l bx ∧
      ∀ b ∈ l, b.length = bx.length ∧ ∀ r ∈ b, r.1 < r.2 := by
  unfold freeNanoBlocks
  set ds := List.zipWith (fun (m : MicroDim) (x : Ivl × Ivl) => m.freeLoop x.1 x.2) ms (mb.zip bx) with hds
  have hlen : ds.length = ms.length := by simp [hds, hl, hl2]
  have hbx : ds.map (fun d => (d.begin_, d.end_)) = bx := by
    rw [hds]
    clear * - hl hl2
    induction ms generalizing mb bx with
    | nil =>
      have : bx = [] := by simpa using hl2
      subst this; simp
    | cons m ms ih =>
      match mb, hl, bx, hl2 with
      | a :: mb, hl, b :: bx, hl2 =>
        simp only [List.zip_cons_cons, List.zipWith_cons_cons, List.map_cons]
        rw [ih mb bx (by simpa using hl) (by simpa using hl2)]
        rfl
  have hok : ∀ d ∈ ds, d.Ok := by
    intro d hd
    rw [hds, ← List.map_uncurry_zip_eq_zipWith, List.mem_map] at hd
    obtain ⟨⟨m, x⟩, hx, rfl⟩ := hd
    have h1 := hm m (List.of_mem_zip hx).1
    have h2 := hne x.2 (List.of_mem_zip (List.of_mem_zip hx).2).2
    have h3 := roundUp_spec (a := m.nano) (by have := h1.nano; omega) h1.fold
    have := h1.nano
    refine ⟨?_, h1.align, h1.tile, ?_⟩
    · simp only [Function.uncurry, MicroDim.freeLoop]
      split <;> omega
    · simp only [Function.uncurry, MicroDim.freeLoop]
      omega
  obtain ⟨l, h1, h2, h3⟩ := genLoops_cover true f ds bx hok hbx hne (by rw [hlen]; exact hf)
  rw [h1]
  refine ⟨_, rfl, h2, ?_⟩
  intro b hb
  obtain ⟨c, hc, rfl⟩ := List.mem_map.1 hb
  exact h3 c hc

theorem boundNanoBlocks_spec (f : LoopFeat) (ms : List MicroDim) (posn : Nat) (bx : Box)
    (hm : ∀ m ∈ ms, m.Ok) (hl2 : bx.length = ms.length)
    (hne : ∀ r ∈ bx, r.1 < r.2) (hf : ∃ f', adjFeatures f ms.length = some f') :
    ∃ l, boundNanoBlocks f ms posn bx = some l ∧ ExactBoxCover l bx ∧
      ∀ b ∈ l, b.length = bx.length ∧ ∀ r ∈ b, r.1 < r.2 := by
  unfold boundNanoBlocks
  set ds := List.zipWith (fun (m : MicroDim × Nat) (r : Ivl) =>
      m.1.boundLoop (m.2 == posn) r) ms.zipIdx bx with hds
  have hlen : ds.length = ms.length := by simp [hds, hl2]
  have hbx : ds.map (fun d => (d.begin_, d.end_)) = bx := by
    rw [hds]
    have : ∀ (k : Nat) (ms : List MicroDim) (bx : Box), bx.length = ms.length →
        (List.zipWith (fun (m : MicroDim × Nat) (r : Ivl) => m.1.boundLoop (m.2 == posn) r)
          (ms.zipIdx k) bx).map (fun d => (d.begin_, d.end_)) = bx := by
      intro k ms
      induction ms generalizing k with
      | nil =>
        intro bx h
        have : bx = [] := by simpa using h
        subst this; simp
      | cons m ms ih =>
        intro bx h
        match bx, h with
        | b :: bx, h =>
          simp only [List.zipIdx_cons, List.zipWith_cons_cons, List.map_cons]
          rw [ih (k + 1) bx (by simpa using h)]
          simp only [MicroDim.boundLoop]
          split <;> rfl
    exact this 0 ms bx hl2
  have hok : ∀ d ∈ ds, d.Ok := by
    intro d hd
    rw [hds, ← List.map_uncurry_zip_eq_zipWith, List.mem_map] at hd
    obtain ⟨⟨m, r⟩, hx, rfl⟩ := hd
    have hm1 := (List.of_mem_zip hx).1
    have h1 := hm m.1 (List.fst_mem_of_mem_zipIdx hm1)
    have h2 := hne r (List.of_mem_zip hx).2
    have h3 := roundUp_spec (a := r.2 - r.1) (by omega) h1.fold
    simp only [Function.uncurry, MicroDim.boundLoop]
    split
    · exact ⟨h1.nano, h1.nano, h1.tile, by simp only; omega⟩
    · exact ⟨by simp only; omega, h1.align, h1.tile, by simp only; omega⟩
  obtain ⟨l, h1, h2, h3⟩ := genLoops_cover true f ds bx hok hbx hne (by rw [hlen]; exact hf)
  rw [h1]
  refine ⟨_, rfl, h2, ?_⟩
  intro b hb
  obtain ⟨c, hc, rfl⟩ := List.mem_map.1 hb
  exact h3 c hc

/-- The bound threads together evaluate every nano-block exactly once. -/
theorem threads_cover (f : LoopFeat) (ms : List MicroDim) (posn : Nat) (slab : Int) (nbt : Nat) (bx : Box)
    (hm : ∀ m ∈ ms, m.Ok) (hl2 : bx.length = ms.length) (hn : 0 < nbt)
    (hne : ∀ r ∈ bx, r.1 < r.2) (hf : ∃ f', adjFeatures f ms.length = some f') :
    ∃ parts : Nat → List Box,
      (∀ thr, threadNanoBlocks f ms posn slab nbt bx thr = some (parts thr)) ∧
      ExactBoxCover ((List.range nbt).flatMap parts) bx ∧
      ∀ thr, ∀ b ∈ parts thr, b.length = bx.length ∧ ∀ r ∈ b, r.1 < r.2 := by
  obtain ⟨l, h1, h2, h3⟩ := boundNanoBlocks_spec f ms posn bx hm hl2 hne hf
  have hk : ∀ nb : Box, 0 ≤ bindThread slab nbt (nb.getD posn (0, 0)).1 ∧
      bindThread slab nbt (nb.getD posn (0, 0)).1 < nbt := by
    intro nb
    unfold bindThread
    exact ⟨imodFlr_nonneg _ (by omega), imodFlr_lt _ (by omega)⟩
  refine ⟨fun thr => l.filter fun nb =>
      decide ((bindThread slab nbt (nb.getD posn (0, 0)).1).toNat = thr), ?_, ?_, ?_⟩
  · intro thr
    unfold threadNanoBlocks
    rw [h1, Option.map_some, Option.some.injEq]
    apply List.filter_congr
    intro nb _
    rw [decide_eq_decide]
    have := hk nb
    omega
  · intro p
    unfold boxVisits
    rw [countP_buckets l (fun nb => (bindThread slab nbt (nb.getD posn (0, 0)).1).toNat) nbt
      (fun nb _ => by have := hk nb; omega)]
    exact h2 p
  · intro thr b hb
    exact h3 b (List.mem_of_mem_filter hb)

theorem nanoDims_box (ms : List MicroDim) (nb : Box) (h : nb.length = ms.length) :
    (nanoDims ms nb).map (fun d => (d.b, d.e)) = nb := by
  unfold nanoDims
  induction ms generalizing nb with
  | nil =>
    have : nb = [] := by simpa using h
    subst this; rfl
  | cons m ms ih =>
    match nb, h with
    | r :: nb, h =>
      simp only [List.zipWith_cons_cons, List.map_cons]
      rw [ih nb (by simpa using h)]

theorem nanoDims_fold (ms : List MicroDim) (nb : Box) (h : nb.length = ms.length) :
    (nanoDims ms nb).map NanoDim.fold = ms.map MicroDim.fold := by
  unfold nanoDims
  induction ms generalizing nb with
  | nil => rfl
  | cons m ms ih =>
    match nb, h with
    | r :: nb, h =>
      simp only [List.zipWith_cons_cons, List.map_cons]
      rw [ih nb (by simpa using h)]

/-- Everything the theorems assume about the settings of a micro-block evaluation. -/
structure MicroOk (f g : LoopFeat) (ms : List MicroDim) (bind : Option Binding) : Prop where
  dims : ∀ m ∈ ms, m.Ok
  nd : ms.length ≤ 8
  pts : prodVals (ms.map MicroDim.fold) ≤ 63
  featF : ∃ f', adjFeatures f ms.length = some f'
  featG : ∃ g', adjFeatures g ms.length = some g'
  bind : ∀ b, bind = some b → 0 < b.nbt

theorem nanoBlocks_spec {f g : LoopFeat} {ms : List MicroDim} {bind : Option Binding}
    (h : MicroOk f g ms bind) (mb bx : Box) (hl : mb.length = ms.length) (hl2 : bx.length = ms.length)
    (hne : ∀ r ∈ bx, r.1 < r.2) :
    ∃ l, nanoBlocks f ms bind mb bx = some l ∧ ExactBoxCover l bx ∧
      ∀ b ∈ l, b.length = bx.length ∧ ∀ r ∈ b, r.1 < r.2 := by
  unfold nanoBlocks
  cases hb : bind with
  | none => exact freeNanoBlocks_spec f ms mb bx h.dims hl hl2 hne h.featF
  | some b =>
    obtain ⟨parts, h1, h2, h3⟩ := threads_cover f ms b.posn b.slab b.nbt bx h.dims hl2 (h.bind b hb) hne h.featF
    simp only
    rw [mapM_some _ _ parts (fun t _ => h1 t)]
    refine ⟨_, rfl, by rw [← List.flatMap_def]; exact h2, ?_⟩
    intro x hx
    rw [← List.flatMap_def, List.mem_flatMap] at hx
    obtain ⟨t, _, hx⟩ := hx
    exact h3 t x hx

theorem microWrites_count {f g : LoopFeat} {ms : List MicroDim} {bind : Option Binding}
    (h : MicroOk f g ms bind) (fi : Bool) (mb : Box) (hl : mb.length = ms.length)
    (bbs : List Box) (hbbs : ∀ bb ∈ bbs, bb.length = ms.length) :
    ∃ l, microWrites f g fi ms bind bbs mb = some l ∧
      ∀ p, l.count p = if InBox p mb then boxVisits bbs p else 0 := by
  have one : ∀ bx : Box, bx.length = ms.length → (∀ r ∈ bx, r.1 < r.2) →
      ∃ l, (do
        let nbs ← nanoBlocks f ms bind mb bx
        let ws ← nbs.mapM fun nb => calcNanoBlock g fi (nanoDims ms nb)
        pure ws.flatten) = some l ∧ ∀ p, l.count p = if InBox p bx then 1 else 0 := by
    intro bx hbl hne
    obtain ⟨nbs, h1, h2, h3⟩ := nanoBlocks_spec h mb bx hl hbl hne
    have hnano : ∀ nb ∈ nbs, ∃ l, calcNanoBlock g fi (nanoDims ms nb) = some l ∧
        ∀ p, l.count p = if InBox p nb then 1 else 0 := by
      intro nb hnb
      obtain ⟨hlen, hlt⟩ := h3 nb hnb
      have hok : NanoOk g (nanoDims ms nb) := by
        have hlen' : (nanoDims ms nb).length = ms.length := by simp [nanoDims, hlen, hbl]
        refine ⟨?_, by rw [hlen']; exact h.nd, ?_, by rw [hlen']; exact h.featG⟩
        · intro d hd
          unfold nanoDims at hd
          rw [← List.map_uncurry_zip_eq_zipWith, List.mem_map] at hd
          obtain ⟨⟨m, r⟩, hx, rfl⟩ := hd
          have h1 := h.dims m (List.of_mem_zip hx).1
          have h2 := hlt r (List.of_mem_zip hx).2
          exact ⟨h1.fold, h1.pico, h1.nanoTile, h2⟩
        · rw [nanoDims_fold ms nb (by rw [hlen, hbl])]; exact h.pts
      obtain ⟨l, hl, hc⟩ := calcNanoBlock_count hok fi
      rw [nanoDims_box ms nb (by rw [hlen, hbl])] at hc
      exact ⟨l, hl, hc⟩
    rw [h1]
    simp only [Option.bind_eq_bind, Option.bind_some]
    rw [mapM_some _ _ (fun nb => (calcNanoBlock g fi (nanoDims ms nb)).getD []) (by
      intro nb hnb
      obtain ⟨l, hl, _⟩ := hnano nb hnb
      rw [hl]; rfl)]
    refine ⟨_, rfl, fun p => ?_⟩
    rw [← List.flatMap_def, List.count, countP_flatMap_eq nbs _ (· == p) (fun nb => decide (InBox p nb))]
    · exact h2 p
    · intro nb hnb
      obtain ⟨l, hl, hc⟩ := hnano nb hnb
      rw [hl]
      have := hc p
      rw [List.count] at this
      simp only [Option.getD_some, decide_eq_true_eq]
      exact this
  have hmem : ∀ bx ∈ bbs.filterMap (trim mb), bx.length = ms.length ∧ ∀ r ∈ bx, r.1 < r.2 := by
    intro bx hbx
    obtain ⟨bb, hbb, ht⟩ := List.mem_filterMap.1 hbx
    obtain ⟨h1, h2, _⟩ := (trim_spec mb bb (by rw [hbbs bb hbb, hl])).1 bx ht
    exact ⟨by rw [h1, hl], h2⟩
  unfold microWrites
  rw [mapM_some _ _ (fun bx => (do
        let nbs ← nanoBlocks f ms bind mb bx
        let ws ← nbs.mapM fun nb => calcNanoBlock g fi (nanoDims ms nb)
        pure ws.flatten).getD []) (by
      intro bx hbx
      obtain ⟨l, hl, _⟩ := one bx (hmem bx hbx).1 (hmem bx hbx).2
      rw [hl]; rfl)]
  refine ⟨_, rfl, fun p => ?_⟩
  rw [← List.flatMap_def, List.count, countP_flatMap_eq _ _ (· == p) (fun bx => decide (InBox p bx))]
  · rw [List.countP_filterMap]
    by_cases hp : InBox p mb
    · rw [if_pos hp]
      unfold boxVisits
      apply List.countP_congr
      intro bb hbb
      obtain ⟨t1, t2⟩ := trim_spec mb bb (by rw [hbbs bb hbb, hl])
      cases ht : trim mb bb with
      | none =>
        have := t2 ht p
        simp only [Option.map_none, Option.getD_none, decide_eq_true_eq, Bool.false_eq_true, false_iff]
        tauto
      | some bx =>
        have := (t1 bx ht).2.2 p
        simp only [Option.map_some, Option.getD_some, decide_eq_true_eq]
        tauto
    · rw [if_neg hp, List.countP_eq_zero]
      intro bb hbb
      obtain ⟨t1, t2⟩ := trim_spec mb bb (by rw [hbbs bb hbb, hl])
      cases ht : trim mb bb with
      | none => simp
      | some bx =>
        have := (t1 bx ht).2.2 p
        simp only [Option.map_some, Option.getD_some, decide_eq_true_eq]
        tauto
  · intro bx hbx
    obtain ⟨l, hl, hc⟩ := one bx (hmem bx hbx).1 (hmem bx hbx).2
    rw [hl]
    have := hc p
    rw [List.count] at this
    simp only [Option.getD_some, decide_eq_true_eq]
    exact this

end Yask.Nano
