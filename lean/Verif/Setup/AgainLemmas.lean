import Verif.Setup.AgainModel
import Verif.Spec.AgainSpec
import Verif.Props.Ranks

/-!
# Lemmas about preparing a solution again
-/

namespace Yask
open Setup

theorem optTab_after {nd n : Nat} {r : RankRes} {k j : Nat} (hk : k < n) (hj : j < nd) :
    optTab (settingsAfter nd n r) (·.gsz) k j = r.gsz k j ∧ optTab (settingsAfter nd n r) (·.lsz) k j = r.lsz k j ∧
    optTab (settingsAfter nd n r) (·.numRanks) k j = r.num.getD j 0 := by
  unfold optTab settingsAfter
  simp [hk, hj]

theorem compact_again {vals : List Int} {N : Int} (h : prodVals vals = N) (hN : N ≠ 0) : compactFactors vals N = vals := by
  unfold compactFactors
  split_ifs with h1
  · exact (List.eq_nil_of_length_eq_zero h1).symm
  · rfl

theorem neighbors_again {fi : Bool} {n nd : Nat} {num : Nat → Int} {coord : Tab} (hg : Grid n nd num coord) (me : Nat)
    (old : Nat → Option Nat) :
    neighbors fi n nd coord me (neighbors fi n nd coord me old) = neighbors fi n nd coord me old := by
  funext s
  obtain ⟨a1, a2⟩ := neighbors_eq (fi := fi) hg (me := me) old n (le_refl _)
  obtain ⟨b1, b2⟩ := neighbors_eq (fi := fi) hg (me := me) (neighbors fi n nd coord me old) n (le_refl _)
  by_cases he : ∃ rn < n, maxDist nd coord me rn ≤ 1 ∧ s = nbrSlot fi nd (fun di => coord rn di - coord me di)
  · obtain ⟨rn, hrn, hd, rfl⟩ := he
    rw [show neighbors fi n nd coord me (neighbors fi n nd coord me old) _ = _ from b1 rn hrn hd,
      show neighbors fi n nd coord me old _ = _ from a1 rn hrn hd]
  · push Not at he
    exact b2 s he

/-- The list of numbers of ranks after the call. -/
theorem numAfter {nd n : Nat} {r : RankRes} (hn : 0 < n) (hlen : r.num.length = nd) :
    (List.range nd).map (optTab (settingsAfter nd n r) (·.numRanks) 0) = r.num := by
  apply List.ext_getElem
  · simp [hlen]
  · intro j h1 h2
    have hj : j < nd := by simpa using h1
    simp only [List.getElem_map, List.getElem_range]
    rw [(optTab_after hn hj).2.2]
    simp [List.getD_eq_getElem?_getD, h2]

/-- `lineSum` uses only the ranks and the dim. -/
theorem lineSum_congr {n nd : Nat} {coord rsz rsz' : Tab} {me di : Nat} (h : ∀ k < n, rsz k di = rsz' k di) :
    lineSum n nd coord rsz me di = lineSum n nd coord rsz' me di := by
  unfold lineSum
  apply List.foldl_ext
  intro a k hk
  rw [h k (List.mem_range.1 hk)]

theorem rankOffset_congr {n nd : Nat} {coord rsz rsz' : Tab} {me di : Nat} (h : ∀ k < n, rsz k di = rsz' k di) :
    rankOffset n nd coord rsz me di = rankOffset n nd coord rsz' me di := by
  unfold rankOffset
  apply List.foldl_ext
  intro a k hk
  rw [h k (List.mem_range.1 hk)]

/-- `setupRanks` as a function of the tables of settings. -/
def setupCore (fi : Bool) (fold : Nat → Int) (nd n : Nat) (oldNbr : Nat → Nat → Option Nat) (okReq : Bool) (num : List Int)
    (gsz lsz : Tab) : Outcome RankRes :=
  if !(allRD n nd (fun r j => decide (gsz r j = gsz 0 j)) && okReq) then .throws
  else if !allRD n nd (fun r j => !(decide (gsz r j = 0) && decide (lsz r j = 0))) then .throws
  else if prodVals num ≠ n then .throws
  else if num.length ≠ nd then .undefined
  else if !allRD n nd (fun r j => !(decide ((unlayoutVals fi num r).getD j 0 < 0) ||
      decide ((unlayoutVals fi num r).getD j 0 ≥ num.getD j 0))) then .throws
  else if !(List.range n).all (fun me => (List.range n).all fun rn =>
      decide (rn = me) || !decide (manDist nd (fun r j => (unlayoutVals fi num r).getD j 0) me rn = 0)) then .throws
  else
    let idx : Tab := fun r j => (unlayoutVals fi num r).getD j 0
    let p0 := pass0 fold (fun j => num.getD j 0) n nd idx lsz gsz
    if !allRD n nd (fun r j => match p0 r j with | .ok _ => true | _ => false) then .throws
    else
      let lsz1 : Tab := fun r j => match p0 r j with | .ok x => x.1 | _ => 0
      let gsz1 : Tab := fun r j => match p0 r j with | .ok x => x.2 | _ => 0
      if !(List.range n).all (fun me => (List.range n).all fun rn => aligned nd idx lsz1 me rn) then .throws
      else if !allRD n nd (fun r j => decide (gsz1 r j = lineSum n nd idx lsz1 r j)) then .throws
      else .ok
        { num := num, idx := idx, gsz := gsz1, lsz := lsz1
          ofs := rankOffset n nd idx lsz1
          nbr := fun me => neighbors fi n nd idx me (oldNbr me) }

theorem allRD_and {n nd : Nat} {p q : Nat → Nat → Bool} :
    allRD n nd (fun r j => p r j && q r j) = (allRD n nd p && allRD n nd q) := by
  rw [Bool.eq_iff_iff, Bool.and_eq_true, allRD_iff, allRD_iff, allRD_iff]
  simp only [Bool.and_eq_true]
  exact ⟨fun h => ⟨fun k hk j hj => (h k hk j hj).1, fun k hk j hj => (h k hk j hj).2⟩,
    fun h k hk j hj => ⟨h.1 k hk j hj, h.2 k hk j hj⟩⟩

theorem setupRanks_core (fi : Bool) (fold : Nat → Int) (nd : Nat) (oldNbr : Nat → Nat → Option Nat) (opts : List ROpts) :
    setupRanks fi fold nd oldNbr opts = setupCore fi fold nd opts.length oldNbr
      (allRD opts.length nd fun r j => decide (optTab opts (·.numRanks) r j = optTab opts (·.numRanks) 0 j))
      (compactFactors ((List.range nd).map (optTab opts (·.numRanks) 0)) opts.length)
      (optTab opts (·.gsz)) (optTab opts (·.lsz)) := by
  unfold setupCore
  rw [← allRD_and]
  rfl

/-- Only the tables of neighbours depend on earlier calls. -/
theorem setupCore_old {fi : Bool} {fold : Nat → Int} {nd n : Nat} {o o' : Nat → Nat → Option Nat} {okReq : Bool}
    {num : List Int} {gsz lsz : Tab} (h : ∀ k, neighbors fi n nd (fun r j => (unlayoutVals fi num r).getD j 0) k (o k) =
      neighbors fi n nd (fun r j => (unlayoutVals fi num r).getD j 0) k (o' k)) :
    setupCore fi fold nd n o okReq num gsz lsz = setupCore fi fold nd n o' okReq num gsz lsz := by
  unfold setupCore
  have : (fun me => neighbors fi n nd (fun r j => (unlayoutVals fi num r).getD j 0) me (o me)) =
      fun me => neighbors fi n nd (fun r j => (unlayoutVals fi num r).getD j 0) me (o' me) := funext h
  simp only [this]

theorem req_after {nd n : Nat} {r : RankRes} (hn : 0 < n) :
    allRD n nd (fun k j => decide (optTab (settingsAfter nd n r) (·.numRanks) k j =
      optTab (settingsAfter nd n r) (·.numRanks) 0 j)) = true := by
  rw [allRD_iff]
  intro k hk j hj
  rw [(optTab_after hk hj).2.2, (optTab_after hn hj).2.2]
  simp

/-- Preparing with known rank sizes. -/
theorem core_known {fi : Bool} {fold : Nat → Int} {nd n : Nat} {o : Nat → Nat → Option Nat} {num : List Int}
    {gsz lsz : Tab} (hn : 0 < n) (hprod : prodVals num = n) (hlen : num.length = nd) (hpos : ∀ d ∈ num, 0 < d)
    (hg : ∀ k < n, ∀ j < nd, gsz k j = gsz 0 j ∧ gsz k j ≠ 0) (hl : ∀ k < n, ∀ j < nd, lsz k j ≠ 0)
    (hal : Aligned n nd (fun r j => (unlayoutVals fi num r).getD j 0) lsz) :
    SameOutcome n nd (setupCore fi fold nd n o true num gsz lsz)
      (if ∀ k < n, ∀ j < nd, gsz k j = lineSum n nd (fun r j => (unlayoutVals fi num r).getD j 0) lsz k j then
        .ok { num := num, idx := fun r j => (unlayoutVals fi num r).getD j 0, gsz := gsz, lsz := lsz
              ofs := rankOffset n nd (fun r j => (unlayoutVals fi num r).getD j 0) lsz
              nbr := fun me => neighbors fi n nd (fun r j => (unlayoutVals fi num r).getD j 0) me (o me) }
      else .throws) := by
  have hgrid := unlayout_grid fi num hpos n hprod
  rw [hlen] at hgrid
  set idx : Tab := fun r j => (unlayoutVals fi num r).getD j 0 with hidx
  have hp0 : ∀ k < n, ∀ j < nd, pass0 fold (fun j => num.getD j 0) n nd idx lsz gsz k j = .ok (lsz k j, gsz k j) := by
    intro k hk j hj
    unfold pass0
    rw [if_neg (hl k hk j hj), if_neg (hg k hk j hj).2]
  have e1 : allRD n nd (fun r j => decide (gsz r j = gsz 0 j)) = true := by
    rw [allRD_iff]
    intro k hk j hj
    simpa using (hg k hk j hj).1
  have e2 : allRD n nd (fun r j => !(decide (gsz r j = 0) && decide (lsz r j = 0))) = true := by
    rw [allRD_iff]
    intro k hk j hj
    simp [(hg k hk j hj).2]
  have e3 : allRD n nd (fun k j => !(decide (idx k j < 0) || decide (idx k j ≥ num.getD j 0))) = true := by
    rw [allRD_iff]
    intro k hk j hj
    have := hgrid.lt k hk j hj
    rw [Bool.not_eq_true', Bool.or_eq_false_iff, decide_eq_false_iff_not, decide_eq_false_iff_not]
    omega
  have e4 : (List.range n).all (fun me => (List.range n).all fun rn =>
      decide (rn = me) || !decide (manDist nd idx me rn = 0)) = true := by
    simp only [List.all_eq_true, List.mem_range, Bool.or_eq_true, decide_eq_true_eq, Bool.not_eq_true', decide_eq_false_iff_not]
    intro me hme rn hrn
    by_cases he : rn = me
    · exact .inl he
    · right
      intro h0
      refine he (hgrid.inj rn hrn me hme fun j hj => ?_)
      have := manDist_zero.1 h0 j hj
      omega
  have e5 : allRD n nd (fun r j => match pass0 fold (fun j => num.getD j 0) n nd idx lsz gsz r j with
      | .ok _ => true | _ => false) = true := by
    rw [allRD_iff]
    intro k hk j hj
    rw [hp0 k hk j hj]
  set lsz1 : Tab := fun r j => match pass0 fold (fun j => num.getD j 0) n nd idx lsz gsz r j with | .ok x => x.1 | _ => 0
    with hl1
  set gsz1 : Tab := fun r j => match pass0 fold (fun j => num.getD j 0) n nd idx lsz gsz r j with | .ok x => x.2 | _ => 0
    with hg1
  have l1 : ∀ k < n, ∀ j < nd, lsz1 k j = lsz k j := fun k hk j hj => by rw [hl1]; simp only [hp0 k hk j hj]
  have g1 : ∀ k < n, ∀ j < nd, gsz1 k j = gsz k j := fun k hk j hj => by rw [hg1]; simp only [hp0 k hk j hj]
  have e6 : (List.range n).all (fun me => (List.range n).all fun rn => aligned nd idx lsz1 me rn) = true := by
    rw [aligned_iff]
    intro me hme rn hrn di hdi hin dj hdj hne
    rw [l1 me hme dj hdj, l1 rn hrn dj hdj]
    exact hal me hme rn hrn di hdi hin dj hdj hne
  have e7 : allRD n nd (fun r j => decide (gsz1 r j = lineSum n nd idx lsz1 r j)) = true ↔
      ∀ k < n, ∀ j < nd, gsz k j = lineSum n nd idx lsz k j := by
    rw [allRD_iff]
    refine forall_congr' fun k => forall_congr' fun hk => forall_congr' fun j => forall_congr' fun hj => ?_
    rw [decide_eq_true_eq, g1 k hk j hj, lineSum_congr fun k hk => l1 k hk j hj]
  have hred : setupCore fi fold nd n o true num gsz lsz =
      if !allRD n nd (fun r j => decide (gsz1 r j = lineSum n nd idx lsz1 r j)) then .throws
      else .ok { num := num, idx := idx, gsz := gsz1, lsz := lsz1, ofs := rankOffset n nd idx lsz1
                 nbr := fun me => neighbors fi n nd idx me (o me) } := by
    unfold setupCore
    rw [e1, e2]
    simp only [Bool.and_self, Bool.not_true, Bool.false_eq_true, if_false, ← hidx]
    rw [if_neg (not_not.2 hprod), if_neg (not_not.2 hlen), e3, e4]
    simp only [Bool.not_true, Bool.false_eq_true, if_false]
    rw [e5]
    simp only [Bool.not_true, Bool.false_eq_true, if_false]
    refine (if_neg ?_).trans rfl
    show ¬ ((!(List.range n).all (fun me => (List.range n).all fun rn => aligned nd idx lsz1 me rn)) = true)
    rw [e6]
    simp
  rw [hred]
  by_cases hc : ∀ k < n, ∀ j < nd, gsz k j = lineSum n nd idx lsz k j
  · rw [if_pos hc, e7.2 hc]
    simp only [Bool.not_true, Bool.false_eq_true, if_false]
    exact ⟨rfl, fun k hk => ⟨fun j hj => ⟨rfl, g1 k hk j hj, l1 k hk j hj, rankOffset_congr fun k hk => l1 k hk j hj⟩,
      fun s => rfl⟩⟩
  · rw [if_neg hc, if_pos]
    · trivial
    · rw [Bool.not_eq_true', Bool.eq_false_iff]
      exact fun h => hc (e7.1 h)

/-- What is known after a successful call of `prepare_solution()`. -/
theorem known_after {fi : Bool} {fold : Nat → Int} {nd : Nat} {oldNbr : Nat → Nat → Option Nat}
    {minSize : Nat → Nat → Nat} {opts : List ROpts} (hne : opts ≠ []) {r : RankRes}
    (h : placeRanks fi fold nd oldNbr minSize opts = .ok r) :
    Placed fi fold nd oldNbr opts r ∧ checkSizes nd opts.length minSize r = .ok r := by
  unfold placeRanks at h
  cases hs : setupRanks fi fold nd oldNbr opts with
  | ok r0 =>
    rw [hs] at h
    have h' : checkSizes nd opts.length minSize r0 = .ok r := h
    have : r0 = r := by
      unfold checkSizes at h'
      split at h'
      · cases h'
      · exact Outcome.ok.inj h'
    subst this
    exact ⟨placed_of_setup hne hs, h'⟩
  | throws => rw [hs] at h; cases h
  | undefined => rw [hs] at h; cases h

/-- The check of the sizes depends on the placement only. -/
theorem place_same {nd n : Nat} {minSize : Nat → Nat → Nat} {x y : Outcome RankRes} (h : SameOutcome n nd x y) :
    SameOutcome n nd (x >>= checkSizes nd n minSize) (y >>= checkSizes nd n minSize) := by
  cases x <;> cases y <;> try exact h.elim
  · rename_i r r'
    show SameOutcome n nd (checkSizes nd n minSize r) (checkSizes nd n minSize r')
    have hc : allRD n nd (fun k j => !(decide (r.num.getD j 0 > 1) && decide (r.lsz k j < minSize k j))) =
        allRD n nd (fun k j => !(decide (r'.num.getD j 0 > 1) && decide (r'.lsz k j < minSize k j))) := by
      rw [Bool.eq_iff_iff, allRD_iff, allRD_iff]
      refine forall_congr' fun k => forall_congr' fun hk => forall_congr' fun j => forall_congr' fun hj => ?_
      rw [h.1, ((h.2 k hk).1 j hj).2.2.1]
    unfold checkSizes
    rw [hc]
    split
    · trivial
    · exact h
  · trivial
  · trivial

theorem sameOutcome_trans {n nd : Nat} {x y z : Outcome RankRes} (h : SameOutcome n nd x y) (h' : SameOutcome n nd y z) :
    SameOutcome n nd x z := by
  cases x <;> cases y <;> (try exact h.elim) <;> cases z <;> (try exact h'.elim) <;> (try trivial)
  exact ⟨h.1.trans h'.1, fun k hk => ⟨fun j hj =>
    have a := (h.2 k hk).1 j hj
    have b := (h'.2 k hk).1 j hj
    ⟨a.1.trans b.1, a.2.1.trans b.2.1, a.2.2.1.trans b.2.2.1, a.2.2.2.trans b.2.2.2⟩,
    fun s => ((h.2 k hk).2 s).trans ((h'.2 k hk).2 s)⟩⟩

theorem sameOutcome_refl {n nd : Nat} (x : Outcome RankRes) : SameOutcome n nd x x := by
  cases x
  · exact ⟨rfl, fun k hk => ⟨fun j hj => ⟨rfl, rfl, rfl, rfl⟩, fun s => rfl⟩⟩
  · trivial
  · trivial

/-- The overall size is the same on all ranks, and positive. -/
theorem overall_pos {fi : Bool} {fold : Nat → Int} {nd : Nat} {oldNbr : Nat → Nat → Option Nat}
    {minSize : Nat → Nat → Nat} {opts : List ROpts} (hne : opts ≠ []) {r : RankRes}
    (h : placeRanks fi fold nd oldNbr minSize opts = .ok r) (hpos : ∀ k < opts.length, ∀ j < nd, 0 < r.lsz k j) :
    ∀ k < opts.length, ∀ j < nd, r.gsz k j = r.gsz 0 j ∧ 0 < r.gsz k j := by
  obtain ⟨h1, _, h3⟩ := C27_tiles fi fold nd oldNbr minSize opts hne r h
  have hn : 0 < opts.length := List.length_pos_iff.2 hne
  intro k hk j hj
  have e := h1 k hk j hj
  have := h3 k hk (r.ofs k) (fun j hj => ⟨Int.le_refl _, by have := hpos k hk j hj; omega⟩) j hj
  exact ⟨e, by rw [e]; omega⟩

end Yask
