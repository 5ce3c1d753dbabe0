import Verif.Kernel.NanoModel
import Verif.Common.IdivLemmas
import Verif.Common.ComboLemmas
import Verif.Common.CompactLemmas
import Verif.Common.CoverLemmas
import Verif.Sched.RefLemmas
import Verif.Props.Loops
import Verif.Props.Tuple
import Mathlib.Tactic.Linarith
import Mathlib.Tactic.Tauto

/-!
# Lemmas about the evaluation of one nano-block
-/

namespace Yask.Nano
open Spec

theorem mapM_some {α β : Type} (l : List α) (f : α → Option β) (g : α → β)
    (h : ∀ a ∈ l, f a = some (g a)) : l.mapM f = some (l.map g) := by
  induction l with
  | nil => simp
  | cons a l ih =>
    rw [List.mapM_cons, h a List.mem_cons_self, ih fun a ha => h a (List.mem_cons_of_mem _ ha)]
    simp

/-! ### Pico loops -/

theorem adjFeatures_nested (n : Nat) : ∃ f, adjFeatures { nested := true } n = some f := by
  by_cases h : n < 2 <;> simp [adjFeatures, h]

theorem adjFeatures_plain (n : Nat) : ∃ f, adjFeatures {} n = some f := by
  by_cases h : n < 2 <;> simp [adjFeatures, h]

theorem genLoops_single (a : Bool) (f : LoopFeat) (ds : List LoopDim) (f' : LoopFeat)
    (hf : adjFeatures f ds.length = some f') : genLoops a [(f, ds)] = some (loopBodies a [(f', ds)]) := by
  unfold genLoops
  simp [hf]

/-- The vectors of a pico block are exactly the points of the box, each once. -/
theorem picoVecs_spec (bx : Box) (h : ∀ r ∈ bx, r.1 ≤ r.2) :
    ∃ l, picoVecs bx = some l ∧ ∀ v, l.count v = if InBox v bx then 1 else 0 := by
  unfold picoVecs
  simp only
  set ds : List LoopDim := bx.map fun r => ⟨r.1, r.2, 1, 1, 0, 1⟩ with hds
  obtain ⟨f1, hf1⟩ := adjFeatures_nested ds.dropLast.length
  obtain ⟨f2, hf2⟩ := adjFeatures_plain (ds.drop (ds.length - 1)).length
  have hg : ∃ bodies, genLoops false [({ nested := true }, ds.dropLast), ({}, ds.drop (ds.length - 1))] =
      some bodies := by
    unfold genLoops
    simp only [List.mapM_cons, List.mapM_nil, hf1, hf2]
    exact ⟨_, rfl⟩
  obtain ⟨bodies, hg⟩ := hg
  rw [hg]
  refine ⟨_, rfl, fun v => ?_⟩
  have hflat : ([({ nested := true }, ds.dropLast), ({}, ds.drop (ds.length - 1))] :
      List (LoopFeat × List LoopDim)).flatMap Prod.snd = ds := by
    simp only [List.flatMap_cons, List.flatMap_nil, List.append_nil]
    rw [List.dropLast_eq_take, List.take_append_drop]
  have hok : ∀ g ∈ ([({ nested := true }, ds.dropLast), ({}, ds.drop (ds.length - 1))] :
      List (LoopFeat × List LoopDim)), ∀ d ∈ g.2, d.Ok := by
    intro g hgm d hd
    have : d ∈ ds := by
      rw [← hflat]; exact List.mem_flatMap.2 ⟨g, hgm, hd⟩
    rw [hds, List.mem_map] at this
    obtain ⟨r, hr, rfl⟩ := this
    exact ⟨by simp, by simp, by simp, h r hr⟩
  obtain ⟨hn, hm⟩ := C12_indices_once false _ hok bodies hg
  rw [hflat] at hm
  -- bodies are determined by their index vectors
  obtain ⟨gs', e1, _, _, _, hb⟩ := genLoops_groups hg
  rw [hflat] at e1
  have hsnd : ∀ b ∈ bodies, b.2 = bodyBox false ds b.1 := by
    intro b hbm
    rw [hb] at hbm
    unfold loopBodies at hbm
    rw [e1, List.mem_map] at hbm
    obtain ⟨idx, _, rfl⟩ := hbm
    rfl
  have hst : ∀ (bx : Box) (idx : List Int), (bodyBox false (bx.map fun r => (⟨r.1, r.2, 1, 1, 0, 1⟩ : LoopDim)) idx).map
      Prod.fst = List.zipWith (fun (r : Ivl) i => r.1 + i) bx idx := by
    intro bx
    induction bx with
    | nil => intro idx; rfl
    | cons r bx ih =>
      intro idx
      cases idx with
      | nil => rfl
      | cons i idx =>
        have := ih idx
        simp only [bodyBox, List.map_cons, List.zipWith_cons_cons] at this ⊢
        rw [this]; simp [LoopDim.range]
  have e : bodies.map (fun b => b.2.map Prod.fst) =
      (bodies.map Prod.fst).map (fun idx => List.zipWith (fun (r : Ivl) i => r.1 + i) bx idx) := by
    rw [List.map_map]
    apply List.map_congr_left
    intro b hbm
    rw [hsnd b hbm, hds, hst]
    rfl
  show List.count v (bodies.map (fun b => b.2.map Prod.fst)) = _
  rw [e]
  have hns : ∀ idx, InSpace (ds.map (LoopDim.numIters false)) idx ↔
      List.Forall₂ (fun (i : Int) (r : Ivl) => 0 ≤ i ∧ i < r.2 - r.1) idx bx := by
    intro idx
    unfold InSpace
    rw [hds, List.map_map, List.forall₂_map_right_iff]
    have : ∀ r : Ivl, (LoopDim.numIters false ∘ fun (r : Ivl) => (⟨r.1, r.2, 1, 1, 0, 1⟩ : LoopDim)) r = r.2 - r.1 := by
      intro r
      simp [LoopDim.numIters, LoopDim.alignedBegin, ceilIdivFlr_eq]
    simp only [this]
  rw [List.count, List.countP_map]
  have hinj : ∀ (bx : Box) (a b : List Int), a.length = bx.length → b.length = bx.length →
      List.zipWith (fun (r : Ivl) i => r.1 + i) bx a = List.zipWith (fun (r : Ivl) i => r.1 + i) bx b →
      a = b := by
    intro bx
    induction bx with
    | nil => intro a b ha hb _; simp at ha hb; rw [ha, hb]
    | cons r bx ih =>
      intro a b ha hb hab
      match a, b, ha, hb with
      | x :: a, y :: b, ha, hb =>
        simp only [List.zipWith_cons_cons, List.cons.injEq] at hab
        rw [ih a b (by simpa using ha) (by simpa using hb) hab.2, show x = y by omega]
  have hbox : ∀ (bx : Box) (idx : List Int),
      List.Forall₂ (fun (i : Int) (r : Ivl) => 0 ≤ i ∧ i < r.2 - r.1) idx bx →
      InBox (List.zipWith (fun (r : Ivl) i => r.1 + i) bx idx) bx := by
    intro bx idx h
    induction h with
    | nil => exact List.Forall₂.nil
    | cons h1 h2 ih => exact List.Forall₂.cons ⟨by dsimp only; omega, by dsimp only; omega⟩ ih
  apply countP_unique _ hn
  · intro hv
    have : ∀ (bx : Box) (v : List Int), InBox v bx →
        ∃ idx, List.Forall₂ (fun (i : Int) (r : Ivl) => 0 ≤ i ∧ i < r.2 - r.1) idx bx ∧
          List.zipWith (fun (r : Ivl) i => r.1 + i) bx idx = v := by
      intro bx v hv
      induction hv with
      | nil => exact ⟨[], List.Forall₂.nil, rfl⟩
      | @cons x r v bx h1 h2 ih =>
        obtain ⟨idx, i1, i2⟩ := ih
        exact ⟨(x - r.1) :: idx, List.Forall₂.cons ⟨by omega, by omega⟩ i1, by simp [i2]⟩
    obtain ⟨idx, i1, i2⟩ := this bx v hv
    exact ⟨idx, (hm idx).2 ((hns idx).2 i1), by simp [i2]⟩
  · intro a ha b hb ha' hb'
    simp only [Function.comp, beq_iff_eq] at ha' hb'
    have la := ((hns a).1 ((hm a).1 ha)).length_eq
    have lb := ((hns b).1 ((hm b).1 hb)).length_eq
    exact hinj bx a b la lb (by rw [ha', hb'])
  · intro a ha ha'
    simp only [Function.comp, beq_iff_eq] at ha'
    rw [← ha']
    exact hbox bx a ((hns a).1 ((hm a).1 ha))

/-! ### Nano loops -/

/-- A range the nano loops handle: not inverted, or inverted by one with a stride of at least two. -/
def LoopOk (d : NanoDim) (r : Ivl) : Prop :=
  0 < d.norm d.strideElems ∧ 0 < d.norm d.tile ∧
    (r.1 ≤ r.2 ∨ (r.1 = r.2 + 1 ∧ 2 ≤ d.norm d.strideElems))

theorem groupIndices_empty (f : LoopFeat) (a : Bool) (ds : List LoopDim) (prev : Option Int)
    (h : ∃ d ∈ ds, d.numIters a = 0) : groupIndices f a ds prev = [] := by
  obtain ⟨d, hd, h0⟩ := h
  have hm : (0 : Int) ∈ ds.map (LoopDim.numIters a) := by
    rw [← h0]; exact List.mem_map.2 ⟨d, hd, rfl⟩
  unfold groupIndices
  simp only
  split
  · exact nestedIndices_of_zero _ ⟨0, hm, le_refl _⟩
  · have : prodVals (ds.map (LoopDim.numIters a)) = 0 := by
      rw [prodVals_eq]; exact List.prod_eq_zero_iff.2 hm
    rw [this]; rfl

theorem calcVecs_spec (f : LoopFeat) (ds : List NanoDim) (bx : Box) (hlen : bx.length = ds.length)
    (hf : ∃ f', adjFeatures f ds.length = some f') (h : ∀ x ∈ ds.zip bx, LoopOk x.1 x.2) :
    ∃ l, calcVecs f ds bx = some l ∧ ∀ v, l.count v = if InBox v bx then 1 else 0 := by
  obtain ⟨f', hf⟩ := hf
  set lds := List.zipWith NanoDim.loopDim ds bx with hlds
  have hl : lds.length = ds.length := by simp [hlds, hlen]
  have hgen := genLoops_single false f lds f' (by rw [hl]; exact hf)
  have hmem : ∀ d ∈ lds, ∃ x ∈ ds.zip bx, d = x.1.loopDim x.2 := by
    intro d hd
    rw [hlds, ← List.map_uncurry_zip_eq_zipWith, List.mem_map] at hd
    obtain ⟨x, hx, rfl⟩ := hd
    exact ⟨x, hx, rfl⟩
  unfold calcVecs
  rw [← hlds, hgen]
  simp only [Option.bind_eq_bind, Option.bind_some, Option.pure_def]
  by_cases hinv : ∀ r ∈ bx, r.1 ≤ r.2
  · have hok : ∀ d ∈ lds, d.Ok := by
      intro d hd
      obtain ⟨x, hx, rfl⟩ := hmem d hd
      obtain ⟨h1, h2, _⟩ := h x hx
      exact ⟨h1, by simp [NanoDim.loopDim], h2, hinv _ (List.of_mem_zip hx).2⟩
    have hok' : ∀ g ∈ [(f, lds)], ∀ d ∈ g.2, d.Ok := by
      intro g hg; rw [List.mem_singleton] at hg; subst hg; exact hok
    have hcov := C12_loops_cover false [(f, lds)] hok' _ hgen
    have hidx := C12_indices_once false [(f, lds)] hok' _ hgen
    set bodies := loopBodies false [(f', lds)] with hbodies
    have hbb : ∀ b ∈ bodies, ∀ r ∈ b.2, r.1 ≤ r.2 := by
      intro b hb r hr
      have h1 := (hidx.2 b.1).1 (List.mem_map.2 ⟨b, hb, rfl⟩)
      have h2 : b.2 = bodyBox false lds b.1 := by
        rw [hbodies] at hb
        unfold loopBodies at hb
        rw [List.mem_map] at hb
        obtain ⟨idx, _, rfl⟩ := hb
        simp
      simp only [List.flatMap_cons, List.flatMap_nil, List.append_nil] at h1
      rw [h2] at hr
      unfold InSpace at h1
      rw [List.forall₂_map_right_iff] at h1
      clear_value lds
      generalize b.1 = is at h1 hr
      clear * - h1 hr hok
      unfold bodyBox at hr
      induction h1 with
      | nil => simp at hr
      | @cons i d is lds h1 h2 ih =>
        rw [List.zipWith_cons_cons, List.mem_cons] at hr
        rcases hr with rfl | hr
        · have hd := hok d List.mem_cons_self
          have := C12_piece_bounds false d hd i h1.1 h1.2
          rcases hd with ⟨_, _, _, h4⟩
          by_cases hlt : d.begin_ < d.end_
          · have := this.2.2.2.1 hlt; omega
          · have e : d.begin_ = d.end_ := by omega
            have : d.numIters false = 0 := by
              simp only [LoopDim.numIters, LoopDim.alignedBegin, e]
              rename_i hs _ _
              simp only [Bool.false_eq_true, if_false, sub_self]
              rw [ceilIdivFlr_eq _ _ hs]
              exact Int.ediv_eq_zero_of_lt (by omega) (by omega)
            omega
        · exact ih (fun d hd => hok d (List.mem_cons_of_mem _ hd)) hr
    have hp : ∀ b ∈ bodies, picoVecs b.2 = some ((picoVecs b.2).getD []) := by
      intro b hb
      obtain ⟨l, hl, _⟩ := picoVecs_spec b.2 (hbb b hb)
      rw [hl]; rfl
    rw [mapM_some _ _ _ hp]
    refine ⟨_, rfl, fun v => ?_⟩
    rw [← List.flatMap_def]
    have := countP_flatMap_eq bodies (fun b => (picoVecs b.2).getD []) (· == v)
      (fun b => decide (InBox v b.2)) (by
        intro b hb
        obtain ⟨l, hl, hc⟩ := picoVecs_spec b.2 (hbb b hb)
        have := hc v
        rw [hl]
        simp only [Option.getD_some]
        rw [List.count] at this
        rw [this]
        simp)
    rw [List.count, this]
    have hv := hcov v
    unfold boxVisits at hv
    rw [List.countP_map] at hv
    have e : ([(f, lds)].flatMap Prod.snd).map (fun d => (d.begin_, d.end_)) = bx := by
      simp only [List.flatMap_cons, List.flatMap_nil, List.append_nil]
      rw [hlds]
      clear * - hlen
      induction ds generalizing bx with
      | nil => simp at hlen; subst hlen; rfl
      | cons d ds ih =>
        match bx, hlen with
        | r :: bx, hlen =>
          simp only [List.zipWith_cons_cons, List.map_cons, ih bx (by simpa using hlen)]
          rfl
    rw [e] at hv
    rw [← hv]
    rfl
  · push Not at hinv
    obtain ⟨r, hr, hlt⟩ := hinv
    have hz : ∃ x ∈ ds.zip bx, x.2 = r := by
      obtain ⟨i, hi, rfl⟩ := List.mem_iff_getElem.1 hr
      refine ⟨(ds[i]'(by omega), bx[i]), ?_, rfl⟩
      rw [List.mem_iff_getElem]
      exact ⟨i, by simp; omega, by simp⟩
    obtain ⟨x, hx, rfl⟩ := hz
    obtain ⟨h1, h2, h3⟩ := h x hx
    have h0 : (x.1.loopDim x.2).numIters false = 0 := by
      rcases h3 with h3 | ⟨h3, h4⟩
      · omega
      · simp only [LoopDim.numIters, LoopDim.alignedBegin, NanoDim.loopDim, Bool.false_eq_true, if_false]
        rw [ceilIdivFlr_eq _ _ h1, h3]
        exact Int.ediv_eq_zero_of_lt (by omega) (by omega)
    have hemp : loopBodies false [(f', lds)] = [] := by
      unfold loopBodies
      rw [List.map_eq_nil_iff]
      simp only [nestIndices]
      rw [groupIndices_empty]
      · rfl
      · refine ⟨_, ?_, h0⟩
        rw [hlds, ← List.map_uncurry_zip_eq_zipWith, List.mem_map]
        exact ⟨x, hx, rfl⟩
    rw [hemp]
    refine ⟨[], rfl, fun v => ?_⟩
    rw [if_neg]
    · rfl
    · intro hv
      have : ∀ (v : List Int) (bx : Box), InBox v bx → ∀ r ∈ bx, r.1 < r.2 := by
        intro v bx hv
        induction hv with
        | nil => simp
        | cons h1 h2 ih =>
          intro r hr
          rcases List.mem_cons.1 hr with rfl | hr
          · omega
          · exact ih r hr
      have := this v bx hv _ hr
      omega

end Yask.Nano
