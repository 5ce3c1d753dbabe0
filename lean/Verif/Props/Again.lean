import Verif.Setup.AgainLemmas

/-!
# Preparing a solution again: property C72

`SamePlacement` and `SameOutcome` are defined in Spec/AgainSpec; `settingsAfter` gives the settings that the next call finds.
-/

namespace Yask
open Setup

/-- C72: calling `prepare_solution()` again without changing settings succeeds and changes nothing in the placement of
ranks, the sizes and the neighbours, whatever was requested for the first call. -/
theorem C72_unchanged (fi : Bool) (fold : Nat → Int) (nd : Nat) (oldNbr : Nat → Nat → Option Nat)
    (minSize : Nat → Nat → Nat) (opts : List ROpts) (hne : opts ≠ []) (r : RankRes)
    (h : placeRanks fi fold nd oldNbr minSize opts = .ok r) (hfold : ∀ j < nd, 0 < fold j)
    (hreq : ∀ o ∈ opts, ∀ j < nd, 0 ≤ o.gsz.getD j 0 ∧ 0 ≤ o.lsz.getD j 0) :
    ∃ r', placeRanks fi fold nd r.nbr minSize (settingsAfter nd opts.length r) = .ok r' ∧
      SamePlacement opts.length nd r' r := by
  obtain ⟨hp, hc⟩ := known_after hne h
  have hn : 0 < opts.length := List.length_pos_iff.2 hne
  have hpos : ∀ k < opts.length, ∀ j < nd, 0 < r.lsz k j := fun k hk j hj =>
    C27_not_empty fi fold nd oldNbr minSize opts r h hfold hreq k hk j hj
  have hg : ∀ k < opts.length, ∀ j < nd, r.gsz k j = r.gsz 0 j ∧ 0 < r.gsz k j := overall_pos hne h hpos
  have hlen : (settingsAfter nd opts.length r).length = opts.length := by simp [settingsAfter]
  have hsame : SameOutcome opts.length nd (setupRanks fi fold nd r.nbr (settingsAfter nd opts.length r)) (.ok r) := by
    rw [setupRanks_core, hlen, req_after hn, numAfter hn hp.len, compact_again hp.prod (by omega)]
    have hk := core_known (fi := fi) (fold := fold) (o := r.nbr) (gsz := optTab (settingsAfter nd opts.length r) (·.gsz))
      (lsz := optTab (settingsAfter nd opts.length r) (·.lsz)) hn hp.prod hp.len hp.pos
      (fun k hk j hj => by
        rw [(optTab_after hk hj).1, (optTab_after hn hj).1]
        exact ⟨(hg k hk j hj).1, by have := (hg k hk j hj).2; omega⟩)
      (fun k hk j hj => by rw [(optTab_after hk hj).2.1]; have := hpos k hk j hj; omega)
      (fun me hme rn hrn di hdi hin dj hdj hne => by
        rw [(optTab_after hme hdj).2.1, (optTab_after hrn hdj).2.1]
        exact hp.aligned me hme rn hrn di hdi (by rw [hp.idx]; exact hin) dj hdj hne)
    rw [if_pos] at hk
    · refine sameOutcome_trans hk ⟨rfl, fun k hk => ⟨fun j hj => ⟨?_, (optTab_after hk hj).1, (optTab_after hk hj).2.1, ?_⟩,
        fun s => ?_⟩⟩
      · rw [hp.idx]
      · rw [hp.ofs, hp.idx]
        exact rankOffset_congr fun k hk => (optTab_after hk hj).2.1
      · have := neighbors_again (fi := fi) hp.grid k (oldNbr k)
        rw [hp.nbr]
        simp only
        rw [← hp.idx, this]
    · intro k hk j hj
      rw [(optTab_after hk hj).1, hp.gsz k hk j hj, hp.idx]
      exact (lineSum_congr fun k hk => (optTab_after hk hj).2.1).symm
  have := place_same (minSize := minSize) hsame
  unfold placeRanks
  rw [hlen]
  rw [show (Outcome.ok r >>= checkSizes nd opts.length minSize) = checkSizes nd opts.length minSize r from rfl, hc] at this
  cases hx : (setupRanks fi fold nd r.nbr (settingsAfter nd opts.length r) >>= checkSizes nd opts.length minSize) with
  | ok r' => rw [hx] at this; exact ⟨r', rfl, this⟩
  | throws => rw [hx] at this; exact this.elim
  | undefined => rw [hx] at this; exact this.elim

/-- C72: changing the sizes after a call of `prepare_solution()` has the same effect as specifying these sizes in the first
place, provided that both kinds of sizes are specified anew, each positive or zero for unspecified. -/
theorem C72_resized (fi : Bool) (fold : Nat → Int) (nd : Nat) (oldNbr : Nat → Nat → Option Nat)
    (minSize minSize' : Nat → Nat → Nat) (opts : List ROpts) (hne : opts ≠ []) (r : RankRes)
    (h : placeRanks fi fold nd oldNbr minSize opts = .ok r) (gsz : List Int) (lsz : Nat → List Int) :
    SameOutcome opts.length nd
      (placeRanks fi fold nd r.nbr minSize' (setRank lsz (setOverall gsz (settingsAfter nd opts.length r))))
      (placeRanks fi fold nd oldNbr minSize' (setRank lsz (setOverall gsz opts))) := by
  obtain ⟨hp, _⟩ := known_after hne h
  have hn : 0 < opts.length := List.length_pos_iff.2 hne
  have hl : ∀ o : List ROpts, (setRank lsz (setOverall gsz o)).length = o.length := by
    intro o; simp [setRank, setOverall]
  have hlen : (settingsAfter nd opts.length r).length = opts.length := by simp [settingsAfter]
  have hnum : ∀ o : List ROpts, optTab (setRank lsz (setOverall gsz o)) (·.numRanks) = optTab o (·.numRanks) := by
    intro o
    funext k j
    unfold optTab setRank setOverall
    simp only [List.getElem?_mapIdx, List.getElem?_map]
    cases o[k]? <;> rfl
  have hgz : ∀ o : List ROpts, o.length = opts.length → optTab (setRank lsz (setOverall gsz o)) (·.gsz) =
      fun k j => if k < opts.length then gsz.getD j 0 else 0 := by
    intro o ho
    funext k j
    unfold optTab setRank setOverall
    simp only [List.getElem?_mapIdx, List.getElem?_map]
    by_cases hk : k < opts.length
    · rw [List.getElem?_eq_getElem (by omega), if_pos hk]; rfl
    · rw [List.getElem?_eq_none (by omega), if_neg hk]; rfl
  have hlz : ∀ o : List ROpts, o.length = opts.length → optTab (setRank lsz (setOverall gsz o)) (·.lsz) =
      fun k j => if k < opts.length then (lsz k).getD j 0 else 0 := by
    intro o ho
    funext k j
    unfold optTab setRank setOverall
    simp only [List.getElem?_mapIdx, List.getElem?_map]
    by_cases hk : k < opts.length
    · rw [List.getElem?_eq_getElem (by omega), if_pos hk]; rfl
    · rw [List.getElem?_eq_none (by omega), if_neg hk]; rfl
  have hreq : allRD opts.length nd (fun k j => decide (optTab opts (·.numRanks) k j = optTab opts (·.numRanks) 0 j)) = true := by
    rw [allRD_iff]
    intro k hk j hj
    simpa using (hp.same k hk j hj).2
  unfold placeRanks
  rw [hl, hl, hlen]
  apply place_same
  rw [setupRanks_core, setupRanks_core, hl, hl, hlen, hnum, hnum, hgz _ hlen, hgz _ rfl, hlz _ hlen, hlz _ rfl, hreq,
    req_after hn, numAfter hn hp.len, compact_again hp.prod (by omega), ← hp.num,
    setupCore_old (o := r.nbr) (o' := oldNbr)]
  · exact sameOutcome_refl _
  · intro k
    rw [← hp.idx, hp.nbr]
    exact neighbors_again hp.grid k (oldNbr k)

/-- C72 fails if only the overall size is set anew, after any successful call of `prepare_solution()`: the size of the rank
that was computed by the first call is then taken as specified, and the next call throws whatever the new size is. -/
theorem C72_overall_size_only (fi : Bool) (fold : Nat → Int) (nd : Nat) (oldNbr : Nat → Nat → Option Nat)
    (minSize minSize' : Nat → Nat → Nat) (opts : List ROpts) (hne : opts ≠ []) (r : RankRes)
    (h : placeRanks fi fold nd oldNbr minSize opts = .ok r) (hfold : ∀ j < nd, 0 < fold j)
    (hreq : ∀ o ∈ opts, ∀ j < nd, 0 ≤ o.gsz.getD j 0 ∧ 0 ≤ o.lsz.getD j 0)
    (gsz : List Int) (hpos : ∀ j < nd, 0 < gsz.getD j 0) (hnew : ∃ j < nd, gsz.getD j 0 ≠ r.gsz 0 j) :
    placeRanks fi fold nd r.nbr minSize' (setOverall gsz (settingsAfter nd opts.length r)) = .throws := by
  obtain ⟨hp, hc⟩ := known_after hne h
  have hn : 0 < opts.length := List.length_pos_iff.2 hne
  have hlpos : ∀ k < opts.length, ∀ j < nd, 0 < r.lsz k j := fun k hk j hj =>
    C27_not_empty fi fold nd oldNbr minSize opts r h hfold hreq k hk j hj
  have hlen : (settingsAfter nd opts.length r).length = opts.length := by simp [settingsAfter]
  have hl : (setOverall gsz (settingsAfter nd opts.length r)).length = opts.length := by simp [setOverall, hlen]
  have hnum : optTab (setOverall gsz (settingsAfter nd opts.length r)) (·.numRanks) =
      optTab (settingsAfter nd opts.length r) (·.numRanks) := by
    funext k j
    unfold optTab setOverall
    simp only [List.getElem?_map]
    cases (settingsAfter nd opts.length r)[k]? <;> rfl
  have hlz : optTab (setOverall gsz (settingsAfter nd opts.length r)) (·.lsz) =
      optTab (settingsAfter nd opts.length r) (·.lsz) := by
    funext k j
    unfold optTab setOverall
    simp only [List.getElem?_map]
    cases (settingsAfter nd opts.length r)[k]? <;> rfl
  have hgz : ∀ k < opts.length, ∀ j, optTab (setOverall gsz (settingsAfter nd opts.length r)) (·.gsz) k j = gsz.getD j 0 := by
    intro k hk j
    unfold optTab setOverall
    simp only [List.getElem?_map]
    rw [List.getElem?_eq_getElem (by omega)]; rfl
  have hk := core_known (fi := fi) (fold := fold) (o := r.nbr)
      (gsz := optTab (setOverall gsz (settingsAfter nd opts.length r)) (·.gsz))
      (lsz := optTab (settingsAfter nd opts.length r) (·.lsz)) hn hp.prod hp.len hp.pos
      (fun k hk j hj => by
        rw [hgz k hk, hgz 0 hn]
        exact ⟨rfl, by have := hpos j hj; omega⟩)
      (fun k hk j hj => by rw [(optTab_after hk hj).2.1]; have := hlpos k hk j hj; omega)
      (fun me hme rn hrn di hdi hin dj hdj hne => by
        rw [(optTab_after hme hdj).2.1, (optTab_after hrn hdj).2.1]
        exact hp.aligned me hme rn hrn di hdi (by rw [hp.idx]; exact hin) dj hdj hne)
  rw [if_neg] at hk
  · unfold placeRanks
    rw [setupRanks_core, hl, hnum, hlz, req_after hn, numAfter hn hp.len, compact_again hp.prod (by omega)]
    cases hx : setupCore fi fold nd opts.length r.nbr true r.num
        (optTab (setOverall gsz (settingsAfter nd opts.length r)) (·.gsz))
        (optTab (settingsAfter nd opts.length r) (·.lsz)) with
    | ok r' => rw [hx] at hk; exact hk.elim
    | throws => rfl
    | undefined => rw [hx] at hk; exact hk.elim
  · obtain ⟨j, hj, hne'⟩ := hnew
    intro hall
    apply hne'
    have := hall 0 hn j hj
    rw [hgz 0 hn] at this
    rw [this, hp.gsz 0 hn j hj, hp.idx]
    exact lineSum_congr fun k hk => (optTab_after hk hj).2.1

/-- C72 in a build without MPI: preparing again changes nothing, and changing only the overall size makes the next call
throw. -/
theorem C72_no_mpi (gsz lsz l g : Int) (h : setupNoMpi gsz lsz = .ok (l, g)) :
    setupNoMpi g l = .ok (l, g) ∧ ∀ g', g' ≠ 0 → g' ≠ g → setupNoMpi g' l = .throws := by
  unfold setupNoMpi at h ⊢
  split_ifs at h with h1 h2 h3 h4 <;> simp only [Outcome.ok.injEq, Prod.mk.injEq] at h <;> obtain ⟨rfl, rfl⟩ := h
  all_goals
    refine ⟨?_, fun g' a b => ?_⟩
    · split_ifs <;> first | rfl | omega | (simp; omega)
    · split_ifs <;> first | rfl | omega | (simp; omega)

/-- Six ranks: the overall size is first 20 by 12. Preparing again changes nothing, by `C72_unchanged`; with 24 by 12 as new
overall size the next call throws although a new solution with this size can be prepared; with the rank size reset to zero
it is prepared. -/
example :
    (do
      let r ← placeRanks true rankFold 2 (fun _ _ => none) (fun _ _ => 2) exSix
      let r' ← placeRanks true rankFold 2 r.nbr (fun _ _ => 2) (settingsAfter 2 6 r)
      pure (tabList 6 2 r'.lsz)) = .ok [[8, 6], [8, 6], [4, 6], [8, 6], [8, 6], [4, 6]] ∧
    (do
      let r ← placeRanks true rankFold 2 (fun _ _ => none) (fun _ _ => 2) exSix
      let r' ← placeRanks true rankFold 2 r.nbr (fun _ _ => 2) (setOverall [24, 12] (settingsAfter 2 6 r))
      pure (tabList 6 2 r'.lsz)) = .throws ∧
    (do
      let r' ← placeRanks true rankFold 2 (fun _ _ => none) (fun _ _ => 2) (setOverall [24, 12] exSix)
      pure (tabList 6 2 r'.lsz)) = .ok [[8, 6], [8, 6], [8, 6], [8, 6], [8, 6], [8, 6]] ∧
    (do
      let r ← placeRanks true rankFold 2 (fun _ _ => none) (fun _ _ => 2) exSix
      let r' ← placeRanks true rankFold 2 r.nbr (fun _ _ => 2)
        (setRank (fun _ => [0, 0]) (setOverall [24, 12] (settingsAfter 2 6 r)))
      pure (tabList 6 2 r'.lsz)) = .ok [[8, 6], [8, 6], [8, 6], [8, 6], [8, 6], [8, 6]] := by
  decide +kernel

end Yask
