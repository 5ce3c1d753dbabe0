import Verif.Loops.LoopLemmas
import Verif.Loops.ManualLemmas

/-!
# C12: generated scan loops
-/

namespace Yask
open Spec

/-- A dimension description that the kernel may pass to a generated loop. -/
def LoopDim.Ok (d : LoopDim) : Prop :=
  0 < d.stride ∧ 0 < d.align ∧ 0 < d.tileSize ∧ d.begin_ ≤ d.end_

theorem groupIndices_perm (f : LoopFeat) (a : Bool) (ds : List LoopDim) (prev : Option Int)
    (h : ∀ d ∈ ds, d.Ok) :
    (groupIndices f a ds prev).Perm (nestedIndices (ds.map (LoopDim.numIters a))) := by
  have hnn : ∀ n ∈ ds.map (LoopDim.numIters a), 0 ≤ n := by
    intro n hn
    obtain ⟨d, hd, rfl⟩ := List.mem_map.1 hn
    obtain ⟨h1, h2, _, h4⟩ := h d hd
    exact LoopDim.numIters_nonneg a d h1 h2 h4
  unfold groupIndices
  simp only
  split
  · exact List.Perm.refl _
  · cases ht : f.tile
    · simp only [Bool.false_eq_true, if_false]
      have e := flatIndices_map _ hnn
      have e2 : ((List.range (prodVals (ds.map (LoopDim.numIters a))).toNat).map fun (li : Nat) =>
          pathAdjust f.serp f.square prev ((flatIndices true (ds.map (LoopDim.numIters a)) li).zip
            (ds.map (LoopDim.numIters a)))) =
          (nestedIndices (ds.map (LoopDim.numIters a))).map fun pt =>
            pathAdjust f.serp f.square prev (pt.zip (ds.map (LoopDim.numIters a))) := by
        rw [← e, List.map_map]; rfl
      rw [e2]
      apply perm_of_injOn_mapsTo _ (nestedIndices_nodup _)
      · intro x hx
        rw [mem_nestedIndices] at *
        exact pathAdjust_range _ _ _ _ _ hx
      · intro x hx y hy hxy
        rw [mem_nestedIndices] at hx hy
        exact pathAdjust_inj _ _ _ _ _ _ hx hy hxy
    · simp only [if_true]
      have hz : (ds.map (LoopDim.numIters a)) =
          ((ds.map (LoopDim.numIters a)).zip (ds.map (LoopDim.tileIters a))).map Prod.fst := by
        rw [List.map_fst_zip]; simp
      by_cases hpos : ∀ n ∈ ds.map (LoopDim.numIters a), 0 < n
      · have := tiledIndices_perm ((ds.map (LoopDim.numIters a)).zip (ds.map (LoopDim.tileIters a)))
          (by
            intro x hx
            rw [List.zip_map', List.mem_map] at hx
            obtain ⟨d, hd, rfl⟩ := hx
            obtain ⟨h1, h2, h3, h4⟩ := h d hd
            have h5 := hpos _ (List.mem_map.2 ⟨d, hd, rfl⟩)
            have h6 := (ceilIdivFlr_spec d.tileSize h1).1
            have h7 : 0 < ceilIdivFlr d.tileSize d.stride := by
              by_contra hc
              have : ceilIdivFlr d.tileSize d.stride * d.stride ≤ 0 :=
                mul_nonpos_of_nonpos_of_nonneg (by omega) (by omega)
              omega
            simp only [LoopDim.tileIters]
            omega)
        rwa [← hz] at this
      · have hzero : ∃ n ∈ ds.map (LoopDim.numIters a), n ≤ 0 := by
          by_contra hc
          push Not at hc
          exact hpos hc
        rw [nestedIndices_of_zero _ hzero]
        obtain ⟨n, hn, h0⟩ := hzero
        have : n = 0 := le_antisymm h0 (hnn n hn)
        have hp : prodVals (ds.map (LoopDim.numIters a)) = 0 := by
          rw [prodVals_eq]; exact List.prod_eq_zero_iff.2 (this ▸ hn)
        rw [hp]; exact List.Perm.refl _

theorem nestIndices_perm (a : Bool) (gs : List (LoopFeat × List LoopDim)) (prev : Option Int)
    (h : ∀ g ∈ gs, ∀ d ∈ g.2, d.Ok) :
    (nestIndices a gs prev).Perm (nestedIndices ((gs.flatMap Prod.snd).map (LoopDim.numIters a))) := by
  induction gs generalizing prev with
  | nil => exact List.Perm.refl _
  | cons g gs ih =>
    obtain ⟨f, ds⟩ := g
    simp only [nestIndices, List.flatMap_cons, List.map_append, nestedIndices_append]
    have h1 := groupIndices_perm f a ds prev (h (f, ds) List.mem_cons_self)
    refine (List.Perm.flatMap_left _ ?_).trans (List.Perm.flatMap_right _ h1)
    intro x _
    exact (ih _ (fun g hg => h g (List.mem_cons_of_mem _ hg))).map _

theorem genLoops_groups {a : Bool} {gs : List (LoopFeat × List LoopDim)}
    {bodies : List (List Int × Box)} (hg : genLoops a gs = some bodies) :
    ∃ gs', gs'.flatMap Prod.snd = gs.flatMap Prod.snd ∧ (∀ g ∈ gs', ∃ g' ∈ gs, g'.2 = g.2) ∧
      gs'.length = gs.length ∧
      (∀ i (h : i < gs'.length) (h' : i < gs.length),
        adjFeatures gs[i].1 gs[i].2.length = some gs'[i].1) ∧
      bodies = loopBodies a gs' := by
  unfold genLoops at hg
  rw [Option.map_eq_some_iff] at hg
  obtain ⟨gs', h1, rfl⟩ := hg
  refine ⟨gs', ?_⟩
  have : gs'.flatMap Prod.snd = gs.flatMap Prod.snd ∧ (∀ g ∈ gs', ∃ g' ∈ gs, g'.2 = g.2) ∧
      gs'.length = gs.length ∧
      (∀ i (h : i < gs'.length) (h' : i < gs.length),
        adjFeatures gs[i].1 gs[i].2.length = some gs'[i].1) := by
    induction gs generalizing gs' with
    | nil => simp at h1; subst h1; simp
    | cons g gs ih =>
      rw [List.mapM_cons] at h1
      simp only [Option.bind_eq_bind, Option.bind_eq_some_iff, Option.map_eq_some_iff,
        Option.pure_def, Option.some.injEq] at h1
      obtain ⟨g', ⟨f, hf, rfl⟩, gs'', h2, rfl⟩ := h1
      obtain ⟨i1, i2, i3, i4⟩ := ih gs'' h2
      refine ⟨by simp [i1], ?_, by simp [i3], ?_⟩
      · intro x hx
        rcases List.mem_cons.1 hx with rfl | hx
        · exact ⟨g, List.mem_cons_self, rfl⟩
        · obtain ⟨g', hg', he⟩ := i2 x hx
          exact ⟨g', List.mem_cons_of_mem _ hg', he⟩
      · intro i h h'
        cases i with
        | zero => exact hf
        | succ i => exact i4 i (by simpa using h) (by simpa using h')
  exact ⟨this.1, this.2.1, this.2.2.1, this.2.2.2, rfl⟩

/-- C12: the bodies run by any generated loop nest cover the region `[begin, end)` of every scanned
dimension exactly once, for every accepted combination of `nested`, `tiled`, `serpentine` and
`square_wave` modifiers, with and without alignment, for any number of dimensions and loops. -/
theorem C12_loops_cover (doAlign : Bool) (gs : List (LoopFeat × List LoopDim))
    (h : ∀ g ∈ gs, ∀ d ∈ g.2, d.Ok) (bodies : List (List Int × Box))
    (hg : genLoops doAlign gs = some bodies) :
    ExactBoxCover (bodies.map Prod.snd)
      ((gs.flatMap Prod.snd).map fun d => (d.begin_, d.end_)) := by
  obtain ⟨gs', e1, e2, _, _, rfl⟩ := genLoops_groups hg
  have hok : ∀ g ∈ gs', ∀ d ∈ g.2, d.Ok := by
    intro g hgm d hd
    obtain ⟨g', hg', he⟩ := e2 g hgm
    exact h g' hg' d (he ▸ hd)
  rw [← e1]
  unfold loopBodies
  rw [List.map_map]
  show ExactBoxCover ((nestIndices doAlign gs' none).map (bodyBox doAlign (gs'.flatMap Prod.snd))) _
  apply exactBoxCover_perm ((nestIndices_perm doAlign gs' none hok).map _).symm
  apply boxes_cover
  intro d hd
  obtain ⟨g, hgm, hdg⟩ := List.mem_flatMap.1 hd
  obtain ⟨h1, h2, _, h4⟩ := hok g hgm d hdg
  exact ⟨h1, h2, h4⟩

/-- C12: every index vector occurs exactly once: the list of body indices is a permutation of the
index space whose size in each dimension is the number of iterations there. -/
theorem C12_indices_once (doAlign : Bool) (gs : List (LoopFeat × List LoopDim))
    (h : ∀ g ∈ gs, ∀ d ∈ g.2, d.Ok) (bodies : List (List Int × Box))
    (hg : genLoops doAlign gs = some bodies) :
    (bodies.map Prod.fst).Nodup ∧
      ∀ idx, idx ∈ bodies.map Prod.fst ↔
        InSpace ((gs.flatMap Prod.snd).map (LoopDim.numIters doAlign)) idx := by
  obtain ⟨gs', e1, e2, _, _, rfl⟩ := genLoops_groups hg
  have hok : ∀ g ∈ gs', ∀ d ∈ g.2, d.Ok := by
    intro g hgm d hd
    obtain ⟨g', hg', he⟩ := e2 g hgm
    exact h g' hg' d (he ▸ hd)
  have hp := nestIndices_perm doAlign gs' none hok
  rw [← e1]
  have e : (loopBodies doAlign gs').map Prod.fst = nestIndices doAlign gs' none := by
    unfold loopBodies; rw [List.map_map]; exact List.map_id _
  rw [e]
  exact ⟨hp.symm.nodup (nestedIndices_nodup _), fun idx => by rw [hp.mem_iff, mem_nestedIndices]⟩

/-- C12: no piece is longer than the stride, and with alignment every piece boundary strictly inside
the region is at a multiple of the effective alignment from `align_ofs` when the stride is a multiple
of that alignment. -/
theorem C12_piece_bounds (doAlign : Bool) (d : LoopDim) (h : d.Ok) (idx : Int) (h0 : 0 ≤ idx)
    (hlt : idx < d.numIters doAlign) :
    d.begin_ ≤ (d.range doAlign idx).1 ∧ (d.range doAlign idx).2 ≤ d.end_ ∧
    (d.range doAlign idx).2 - (d.range doAlign idx).1 ≤ d.stride ∧
    (d.begin_ < d.end_ → (d.range doAlign idx).1 < (d.range doAlign idx).2) ∧
    (doAlign = true → min d.align d.stride ∣ d.stride →
      ((d.range doAlign idx).1 = d.begin_ ∨
        min d.align d.stride ∣ (d.range doAlign idx).1 - d.alignOfs) ∧
      ((d.range doAlign idx).2 = d.end_ ∨
        min d.align d.stride ∣ (d.range doAlign idx).2 - d.alignOfs)) := by
  obtain ⟨hs, ha, _, hbe⟩ := h
  have h1 := LoopDim.alignedBegin_spec doAlign d hs ha
  have h2 := ceilIdivFlr_spec (d.end_ - d.alignedBegin doAlign) hs
  have h3 : 0 ≤ idx * d.stride := by positivity
  have h4 : idx * d.stride + d.stride ≤ ceilIdivFlr (d.end_ - d.alignedBegin doAlign) d.stride * d.stride := by
    have : (idx + 1) * d.stride ≤ d.numIters doAlign * d.stride := by
      apply mul_le_mul_of_nonneg_right <;> omega
    unfold LoopDim.numIters at this
    linarith
  have h5 : (idx + 1) * d.stride = idx * d.stride + d.stride := by ring
  cases doAlign
  · simp only [LoopDim.range, Bool.false_eq_true, if_false, false_imp_iff, and_true]
    simp only [LoopDim.alignedBegin, Bool.false_eq_true, if_false] at *
    refine ⟨by omega, by omega, by omega, by omega⟩
  · simp only [LoopDim.range, if_true]
    refine ⟨by omega, by omega, by omega, by omega, ?_⟩
    intro _ hdvd
    have h6 : min d.align d.stride ∣ d.alignedBegin true - d.alignOfs := by
      unfold LoopDim.alignedBegin LoopDim.adjAlign
      simp only [if_true]
      have := (roundDownFlr_spec (d.begin_ - d.alignOfs) (b := min d.align d.stride) (by omega)).2.2
      simpa using this
    constructor
    · rcases le_total (d.alignedBegin true + idx * d.stride) d.begin_ with hc | hc
      · left; omega
      · right
        rw [max_eq_left hc, show d.alignedBegin true + idx * d.stride - d.alignOfs =
          (d.alignedBegin true - d.alignOfs) + idx * d.stride by ring]
        exact dvd_add h6 (Dvd.dvd.mul_left hdvd _)
    · rcases le_total (d.alignedBegin true + (idx + 1) * d.stride) d.end_ with hc | hc
      · right
        rw [min_eq_left hc, show d.alignedBegin true + (idx + 1) * d.stride - d.alignOfs =
          (d.alignedBegin true - d.alignOfs) + (idx + 1) * d.stride by ring]
        exact dvd_add h6 (Dvd.dvd.mul_left hdvd _)
      · left; omega

/-- C12: without `serpentine`, `square_wave` and `tiled`, a loop visits its indices in strictly
increasing lexicographic order, whether nested or flattened (the order temporal tiling relies on). -/
theorem C12_increasing_order (doAlign : Bool) (f : LoopFeat) (ds : List LoopDim)
    (h : ∀ d ∈ ds, d.Ok) (hf : f.serp = false ∧ f.square = false ∧ f.tile = false)
    (bodies : List (List Int × Box)) (hg : genLoops doAlign [(f, ds)] = some bodies) :
    (bodies.map Prod.fst).Pairwise (· < ·) := by
  obtain ⟨gs', e1, e2, e3, e4, rfl⟩ := genLoops_groups hg
  have hnn : ∀ n ∈ ds.map (LoopDim.numIters doAlign), 0 ≤ n := by
    intro n hn
    obtain ⟨d, hd, rfl⟩ := List.mem_map.1 hn
    obtain ⟨h1, h2, _, h4⟩ := h d hd
    exact LoopDim.numIters_nonneg doAlign d h1 h2 h4
  match gs', e1, e2, e3, e4 with
  | [(f', ds')], e1, e2, e3, e4 =>
    have hds : ds' = ds := by simpa using e1
    subst hds
    have hadj : adjFeatures f ds'.length = some f' := by
      simpa using e4 0 (by simp) (by simp)
    have hf' : f'.serp = false ∧ f'.square = false ∧ f'.tile = false := by
      unfold adjFeatures at hadj
      obtain ⟨f1, f2, f3, f4⟩ := f
      simp only at hf
      obtain ⟨rfl, rfl, rfl⟩ := hf
      by_cases hd : ds'.length < 2
      · simp [hd] at hadj; subst hadj; simp
      · simp [hd] at hadj; subst hadj; simp
    have e : (loopBodies doAlign [(f', ds')]).map Prod.fst = groupIndices f' doAlign ds' none := by
      unfold loopBodies
      rw [List.map_map]
      simp [nestIndices, Function.comp_def]
    rw [e]
    have hpa : ∀ (l : List (Int × Int)), pathAdjust false false none l = l.map Prod.fst ∧
        ∀ p, pathAdjust false false (some p) l = l.map Prod.fst := by
      intro l
      induction l with
      | nil => simp [pathAdjust]
      | cons x l ih =>
        cases l with
        | nil => simp [pathAdjust, serpFlip]
        | cons y l =>
          cases l with
          | nil => simp [pathAdjust, serpFlip]
          | cons z l =>
            simp only [pathAdjust, serpFlip]
            exact ⟨by rw [ih.2]; rfl, fun p => by rw [ih.2]; rfl⟩
    unfold groupIndices
    simp only
    split
    · exact nestedIndices_sorted _
    · rw [hf'.1, hf'.2.1, hf'.2.2]
      simp only [Bool.false_eq_true, if_false]
      have : ∀ li : Nat, pathAdjust false false none
          ((flatIndices true (ds'.map (LoopDim.numIters doAlign)) li).zip
            (ds'.map (LoopDim.numIters doAlign))) =
          flatIndices true (ds'.map (LoopDim.numIters doAlign)) li := by
        intro li
        rw [(hpa _).1, List.map_fst_zip]
        have : ∀ (b : Bool) (ns : List Int) (li : Int), (flatIndices b ns li).length = ns.length := by
          intro b ns
          induction ns generalizing b with
          | nil => intro li; rfl
          | cons n ns ih => intro li; simp [flatIndices, ih]
        rw [this]
      simp only [this]
      rw [flatIndices_map _ hnn]
      exact nestedIndices_sorted _

/-- C12, finding: the flattened loop multiplies the iteration counts, so if two dimensions have
`end` below `begin` by more than a stride the product is positive and the body runs although the region
is empty.  Callers must not pass such regions (`LoopDim.Ok`). -/
theorem C12_inverted_region_runs :
    ∃ (ds : List LoopDim), (∀ d ∈ ds, d.end_ < d.begin_) ∧
      (genLoops true [({}, ds)]).map List.length = some 4 :=
  ⟨[⟨10, 8, 1, 1, 0, 1⟩, ⟨10, 8, 1, 1, 0, 1⟩], by decide, by decide +kernel⟩

/-- C12 (`manual` modifier): for any number of threads, every thread has a defined list of body
executions when all dimensions have iterations, and together the threads run every index vector exactly
once (thread by thread, in lexicographic order). -/
theorem C12_manual_threads (ns : List Int) (hne : ns ≠ []) (h : ∀ n ∈ ns, 0 < n) (nthr : Nat)
    (hn : 0 < nthr) :
    ∃ parts : Nat → List (List Int),
      (∀ thr, thr < nthr → manualThread ns nthr thr = some (parts thr)) ∧
      (List.range nthr).flatMap parts = nestedIndices ns := by
  match ns, hne with
  | n :: ns, _ =>
    refine ⟨fun thr => (ivlList (divEquallyCumuSizeN (prodVals (n :: ns)) nthr ((thr : Int) - 1))
        (divEquallyCumuSizeN (prodVals (n :: ns)) nthr thr)).map (flatIndices false (n :: ns)),
      fun thr ht => manualThread_eq n ns h nthr thr ht, ?_⟩
    have hT := prodVals_pos _ h
    have hmono := divEquallyCumu_mono (num := prodVals (n :: ns)) (np := nthr) (by omega) (by omega)
    have hlast : divEquallyCumuSizeN (prodVals (n :: ns)) nthr ((nthr : Int) - 1) = prodVals (n :: ns) :=
      divEquallyCumu_last (by omega) (by omega)
    have := (flatMap_ivlList_chain
      (fun i => divEquallyCumuSizeN (prodVals (n :: ns)) nthr ((i : Int) - 1)) nthr (by
        intro i _
        have := hmono i
        push_cast
        simpa using this) (flatIndices false (n :: ns))).1
    simp only [hlast] at this
    rw [← flatIndices_map_false _ h]
    have e0 : divEquallyCumuSizeN (prodVals (n :: ns)) nthr (((0 : Nat) : Int) - 1) = 0 := by
      simp [divEquallyCumuSizeN]
    rw [e0] at this
    have e1 : ((List.range nthr).flatMap fun (thr : Nat) =>
        (ivlList (divEquallyCumuSizeN (prodVals (n :: ns)) nthr ((thr : Int) - 1))
          (divEquallyCumuSizeN (prodVals (n :: ns)) nthr thr)).map (flatIndices false (n :: ns))) =
        ((List.range nthr).flatMap fun (i : Nat) =>
          (ivlList (divEquallyCumuSizeN (prodVals (n :: ns)) nthr ((i : Int) - 1))
          (divEquallyCumuSizeN (prodVals (n :: ns)) nthr (((i + 1 : Nat) : Int) - 1))).map
            (flatIndices false (n :: ns))) := by
      apply List.flatMap_congr
      intro i _
      push_cast
      rw [show (i : Int) + 1 - 1 = i by omega]
    rw [e1, this]
    unfold ivlList
    rw [Int.sub_zero, List.map_map]
    apply List.map_congr_left
    intro k _
    simp

/-- C12, finding: a `manual` loop whose inner dimension has no iterations divides by zero instead of
running nothing. -/
theorem C12_manual_empty_undefined : manualThread [2, 0] 1 0 = none := by decide +kernel

example : manualThread [2, 3] 4 1 = some [[0, 2], [1, 0]] :=
  (manualThread_eq 2 [3] (by decide) 4 1 (by decide)).trans (by decide +kernel)

-- A three-dimensional serpentine + square-wave scan, a tiled scan, and a two-level nest.
example : ∀ d ∈ [(⟨3, 20, 8, 4, 1, 16⟩ : LoopDim), ⟨-5, 9, 4, 4, 0, 8⟩, ⟨0, 7, 3, 1, 0, 3⟩], d.Ok := by
  unfold LoopDim.Ok; decide
example : (genLoops true [({ serp := true, square := true },
    [⟨3, 20, 8, 4, 1, 16⟩, ⟨-5, 9, 4, 4, 0, 8⟩, ⟨0, 7, 3, 1, 0, 3⟩])]).map List.length = some 45 := by
  decide +kernel
example : (genLoops false [({ tile := true }, [⟨0, 5, 1, 1, 0, 2⟩, ⟨0, 3, 1, 1, 0, 2⟩])]).map
    (fun l => l.map Prod.fst) =
  some [[0, 0], [0, 1], [1, 0], [1, 1], [0, 2], [1, 2], [2, 0], [2, 1], [3, 0], [3, 1], [2, 2],
    [3, 2], [4, 0], [4, 1], [4, 2]] := by decide +kernel
example : (genLoops true [({ nested := true }, [⟨0, 4, 2, 1, 0, 2⟩, ⟨1, 5, 4, 4, 0, 2⟩]),
    ({ serp := true }, [⟨0, 3, 1, 1, 0, 1⟩])]).map (fun l => l.map Prod.snd) =
  some [[(0, 2), (1, 4), (0, 1)], [(0, 2), (1, 4), (1, 2)], [(0, 2), (1, 4), (2, 3)],
    [(0, 2), (4, 5), (2, 3)], [(0, 2), (4, 5), (1, 2)], [(0, 2), (4, 5), (0, 1)],
    [(2, 4), (1, 4), (0, 1)], [(2, 4), (1, 4), (1, 2)], [(2, 4), (1, 4), (2, 3)],
    [(2, 4), (4, 5), (2, 3)], [(2, 4), (4, 5), (1, 2)], [(2, 4), (4, 5), (0, 1)]] := by decide +kernel

end Yask
