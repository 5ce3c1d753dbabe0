import Verif.Props.Factors
import Verif.Setup.RankSetupLemmas
import Verif.Common.IdivLemmas

/-!
# C27, C28, C57, C58: the placement of ranks

`placeRanks` models what `prepare_solution()` does on all ranks together to set sizes and positions.
-/

namespace Yask
open Setup Spec

/-! ## C27: ranks tile the overall domain -/

/-- C27. If `prepare_solution()` succeeds on all ranks: all agree on the overall size, every point of the overall domain
belongs to the domain of exactly one rank, and rank domains contain no other points. This holds for every number of ranks and
dims, every combination of requested global and local sizes and numbers of ranks, all folds and all minimal sizes. -/
theorem C27_tiles (fi : Bool) (fold : Nat → Int) (nd : Nat) (oldNbr : Nat → Nat → Option Nat) (minSize : Nat → Nat → Nat)
    (opts : List ROpts) (hne : opts ≠ []) (r : RankRes) (h : placeRanks fi fold nd oldNbr minSize opts = .ok r) :
    (∀ k < opts.length, ∀ j < nd, r.gsz k j = r.gsz 0 j) ∧
    (∀ p, InOverall nd (r.gsz 0) p → ∃! k, k < opts.length ∧ InRank nd (r.ofs k) (r.lsz k) p) ∧
    ∀ k < opts.length, ∀ p, InRank nd (r.ofs k) (r.lsz k) p → InOverall nd (r.gsz 0) p := by
  have hn : 0 < opts.length := List.length_pos_iff.2 hne
  unfold placeRanks at h
  cases hs : setupRanks fi fold nd oldNbr opts with
  | throws => rw [hs] at h; cases h
  | undefined => rw [hs] at h; cases h
  | ok r' =>
    rw [hs, Outcome.bind_ok] at h
    unfold checkSizes at h
    split at h
    · cases h
    rename_i hmin
    simp only [Outcome.ok.injEq] at h
    subst h
    have hp := placed_of_setup hne hs
    simp only [Bool.not_eq_true', Bool.not_eq_false, allRD_iff] at hmin
    obtain ⟨S, hS⟩ := exists_sizes hp.grid hp.aligned
    have hG : ∀ k < opts.length, ∀ j < nd, r'.gsz k j = ∑ c ∈ Finset.range (r'.num.getD j 0).toNat, S j c := by
      intro k hk j hj
      rw [hp.gsz k hk j hj]
      exact lineSum_eq hp.grid hk hj (fun q hq => hS q hq j hj)
    have hO : ∀ p, InOverall nd (r'.gsz 0) p ↔
        InOverall nd (fun j => ∑ c ∈ Finset.range (r'.num.getD j 0).toNat, S j c) p := by
      intro p
      unfold InOverall
      constructor
      · intro h j hj; have := h j hj; rw [hG 0 hn j hj] at this; exact this
      · intro h j hj; have := h j hj; rw [hG 0 hn j hj]; exact this
    have ht := grid_tiles hp.grid S hS (by
      intro k hk j hj h1
      have := hmin k hk j hj
      simp only [Bool.and_eq_false_iff, decide_eq_false_iff_not] at this
      rcases this with h2 | h2
      · exact absurd h1 h2
      · omega) hn
    refine ⟨fun k hk j hj => by rw [hG k hk j hj, hG 0 hn j hj], ?_, ?_⟩
    · intro p hpt
      have := (ht p).1 ((hO p).1 hpt)
      rw [hp.ofs]
      exact this
    · intro k hk p hpt
      rw [hp.ofs] at hpt
      exact (hO p).2 ((ht p).2 k hk hpt)

/-- C27 (requests). Sizes that were requested are not changed. -/
theorem C27_requests_kept (fi : Bool) (fold : Nat → Int) (nd : Nat) (oldNbr : Nat → Nat → Option Nat) (minSize : Nat → Nat → Nat)
    (opts : List ROpts) (r : RankRes) (h : placeRanks fi fold nd oldNbr minSize opts = .ok r)
    (k : Nat) (o : ROpts) (ho : opts[k]? = some o) (j : Nat) (hj : j < nd) :
    (o.gsz.getD j 0 ≠ 0 → r.gsz k j = o.gsz.getD j 0) ∧ (o.lsz.getD j 0 ≠ 0 → r.lsz k j = o.lsz.getD j 0) := by
  have hk : k < opts.length := (List.getElem?_eq_some_iff.1 ho).1
  have hne : opts ≠ [] := by rintro rfl; simp at hk
  unfold placeRanks at h
  cases hs : setupRanks fi fold nd oldNbr opts with
  | throws => rw [hs] at h; cases h
  | undefined => rw [hs] at h; cases h
  | ok r' =>
    rw [hs, Outcome.bind_ok] at h
    unfold checkSizes at h
    split at h
    · cases h
    simp only [Outcome.ok.injEq] at h
    subst h
    have hp := (placed_of_setup hne hs).p0 k hk j hj
    have hg : optTab opts (·.gsz) k j = o.gsz.getD j 0 := by simp only [optTab, ho]
    have hl : optTab opts (·.lsz) k j = o.lsz.getD j 0 := by simp only [optTab, ho]
    unfold pass0 at hp
    rw [hg, hl] at hp
    refine ⟨fun hz => ?_, fun hz => ?_⟩
    · by_cases hl0 : o.lsz.getD j 0 = 0
      · rw [if_pos hl0] at hp
        simp only at hp
        split_ifs at hp <;> simp only [Outcome.ok.injEq, Prod.mk.injEq] at hp <;> exact hp.2.symm
      · rw [if_neg hl0, if_neg hz] at hp
        simp only [Outcome.ok.injEq, Prod.mk.injEq] at hp
        exact hp.2.symm
    · rw [if_neg hz] at hp
      split_ifs at hp <;> simp only [Outcome.ok.injEq, Prod.mk.injEq] at hp <;> exact hp.1.symm

/-- C27 (automatic sizes). If only global sizes are given, with at least one fold length of points for the last rank in each
dim, then setting up the ranks succeeds; every rank but the last in a dim gets the smallest multiple `sz` of the fold length
with which the ranks can cover the dim, and the last rank gets the rest. -/
theorem C27_automatic (fi : Bool) (fold : Nat → Int) (nd : Nat) (oldNbr : Nat → Nat → Option Nat)
    (opts : List ROpts) (hne : opts ≠ []) (g : Nat → Int) (req : Nat → Int) (hfold : ∀ j < nd, 0 < fold j)
    (hg : ∀ k < opts.length, ∀ j < nd, optTab opts (·.gsz) k j = g j) (hg0 : ∀ j < nd, 0 < g j)
    (hl : ∀ k < opts.length, ∀ j < nd, optTab opts (·.lsz) k j = 0)
    (hreq : ∀ k < opts.length, ∀ j < nd, optTab opts (·.numRanks) k j = req j)
    (num : List Int) (hnum : compactFactors ((List.range nd).map req) opts.length = num) (hlen : num.length = nd)
    (hpos : ∀ x ∈ num, 0 < x) (hprod : num.prod = opts.length)
    (sz : Nat → Int) (hsz : ∀ j < nd, fold j ∣ sz j ∧ g j ≤ sz j * num.getD j 0 ∧
      ∀ m, fold j ∣ m → g j ≤ m * num.getD j 0 → sz j ≤ m)
    (hbig : ∀ j < nd, sz j * (num.getD j 0 - 1) < g j) :
    ∃ r, setupRanks fi fold nd oldNbr opts = .ok r ∧ r.num = num ∧
      ∀ k < opts.length, ∀ j < nd, r.gsz k j = g j ∧
        r.lsz k j = if r.idx k j = num.getD j 0 - 1 then g j - sz j * (num.getD j 0 - 1) else sz j := by
  have hn : 0 < opts.length := List.length_pos_iff.2 hne
  have hposj : ∀ j < nd, 0 < num.getD j 0 := by
    intro j hj
    have hj' : j < num.length := by omega
    have : num.getD j 0 = num[j] := by simp [List.getD_eq_getElem?_getD, hj']
    rw [this]; exact hpos _ (List.getElem_mem hj')
  have hr : ∀ j < nd, roundUp (ceilDiv (g j) (num.getD j 0)) (fold j) = sz j := by
    intro j hj
    obtain ⟨s1, s2, s3⟩ := hsz j hj
    have hn0 := hposj j hj
    have hg0' := hg0 j hj
    obtain ⟨c1, c2⟩ := ceilDiv_spec (le_of_lt hg0') hn0
    have hc0 : 0 ≤ ceilDiv (g j) (num.getD j 0) := by
      by_contra hc
      have : ceilDiv (g j) (num.getD j 0) * num.getD j 0 ≤ 0 := Int.mul_nonpos_of_nonpos_of_nonneg (by omega) (by omega)
      omega
    obtain ⟨u1, u2, u3⟩ := roundUp_spec hc0 (hfold j hj)
    apply le_antisymm
    · -- both are multiples of the fold
      have hge : ceilDiv (g j) (num.getD j 0) ≤ sz j := by
        by_contra hlt
        have h1 : sz j + 1 ≤ ceilDiv (g j) (num.getD j 0) := by omega
        have h2 := Int.mul_le_mul_of_nonneg_right h1 (le_of_lt hn0)
        rw [Int.add_mul] at h2
        omega
      obtain ⟨a, ha⟩ := u3
      obtain ⟨b, hb⟩ := s1
      by_contra hlt
      have hf := hfold j hj
      have hab : b + 1 ≤ a := by
        by_contra hc
        have : fold j * a ≤ fold j * b := Int.mul_le_mul_of_nonneg_left (by omega) (by omega)
        omega
      have := Int.mul_le_mul_of_nonneg_left hab (le_of_lt hf)
      rw [Int.mul_add] at this
      omega
    · refine s3 _ u3 ?_
      have := Int.mul_le_mul_of_nonneg_right u1 (le_of_lt hn0)
      omega
  have hreq0 : (List.range nd).map (optTab opts (·.numRanks) 0) = (List.range nd).map req := by
    apply List.map_congr_left
    intro j hj
    exact hreq 0 hn j (List.mem_range.1 hj)
  have hgrid := unlayout_grid fi num hpos opts.length (by rw [prodVals_eq]; exact hprod)
  rw [hlen] at hgrid
  have hp0 : ∀ k < opts.length, ∀ j < nd, pass0 fold (fun j => num.getD j 0) opts.length nd
      (fun r j => (unlayoutVals fi num r).getD j 0) (optTab opts (·.lsz)) (optTab opts (·.gsz)) k j =
      .ok (if (unlayoutVals fi num k).getD j 0 = num.getD j 0 - 1 then g j - sz j * (num.getD j 0 - 1) else sz j, g j) := by
    intro k hk j hj
    unfold pass0
    have hz : lineSum opts.length nd (fun r j => (unlayoutVals fi num r).getD j 0) (optTab opts (·.lsz)) k j = 0 := by
      rw [lineSum_eq (S := fun _ => 0) hgrid hk hj (fun r hr => hl r hr j hj)]
      simp
    rw [if_pos (hl k hk j hj), if_neg (by rw [hz]; simp), hg k hk j hj]
    simp only
    rw [hr j hj, if_neg (by have := hbig j hj; omega)]
  unfold setupRanks
  extract_lets n req' gsz lsz num' idx nr p0 lsz1 gsz1
  have hnum' : num' = num := by simp only [num', req', n]; rw [hreq0, hnum]
  have hidx : idx = fun r j => (unlayoutVals fi num r).getD j 0 := by simp only [idx, hnum']
  have hnr : nr = fun j => num.getD j 0 := by simp only [nr, hnum']
  have hp0' : ∀ k < n, ∀ j < nd, p0 k j =
      .ok (if (unlayoutVals fi num k).getD j 0 = num.getD j 0 - 1 then g j - sz j * (num.getD j 0 - 1) else sz j, g j) := by
    intro k hk j hj
    simp only [p0, hidx, hnr]
    exact hp0 k hk j hj
  have hl1 : ∀ k < n, ∀ j < nd, lsz1 k j =
      if (unlayoutVals fi num k).getD j 0 = num.getD j 0 - 1 then g j - sz j * (num.getD j 0 - 1) else sz j := by
    intro k hk j hj
    simp only [lsz1, hp0' k hk j hj]
  have hg1 : ∀ k < n, ∀ j < nd, gsz1 k j = g j := by
    intro k hk j hj
    simp only [gsz1, hp0' k hk j hj]
  have hsum : ∀ k < n, ∀ j < nd, lineSum n nd idx lsz1 k j = g j := by
    intro k hk j hj
    rw [hidx, lineSum_eq (S := fun c => if c = num.getD j 0 - 1 then g j - sz j * (num.getD j 0 - 1) else sz j) hgrid hk hj
      (fun r hr => hl1 r hr j hj)]
    have hn0 := hposj j hj
    obtain ⟨m, hm⟩ : ∃ m : Nat, num.getD j 0 = m + 1 := ⟨(num.getD j 0 - 1).toNat, by omega⟩
    rw [hm]
    have : ((m : Int) + 1).toNat = m + 1 := by omega
    rw [this, Finset.sum_range_succ]
    have hs : ∑ x ∈ Finset.range m, (if (x : Int) = (m : Int) + 1 - 1 then g j - sz j * ((m : Int) + 1 - 1) else sz j) =
        ∑ _x ∈ Finset.range m, sz j := by
      refine Finset.sum_congr rfl fun x hx => ?_
      rw [Finset.mem_range] at hx
      rw [if_neg (by omega)]
    rw [hs, Finset.sum_const, Finset.card_range, if_pos (by omega)]
    simp only [nsmul_eq_mul, Int.add_sub_cancel]
    rw [Int.mul_comm]
    have : (m : Int) * sz j = sz j * m := Int.mul_comm _ _
    push_cast
    omega
  have hal : Aligned n nd idx lsz1 := by
    intro me hme rn hrn di hdi hin dj hdj hdd
    rw [hl1 me hme dj hdj, hl1 rn hrn dj hdj]
    have := hin dj hdj hdd
    rw [hidx] at this
    simp only at this
    rw [this]
  rw [if_neg (by
    simp only [Bool.not_eq_true', Bool.not_eq_false, allRD_iff, Bool.and_eq_true, decide_eq_true_eq]
    intro k hk j hj
    exact ⟨(hg k hk j hj).trans (hg 0 hn j hj).symm, (hreq k hk j hj).trans (hreq 0 hn j hj).symm⟩)]
  rw [if_neg (by
    simp only [Bool.not_eq_true', Bool.not_eq_false, allRD_iff, Bool.and_eq_false_iff, decide_eq_false_iff_not]
    intro k hk j hj
    left
    have h1 : gsz k j = g j := hg k hk j hj
    have := hg0 j hj
    omega)]
  rw [if_neg (by rw [hnum', prodVals_eq, hprod]; simp [n])]
  rw [if_neg (by rw [hnum', hlen]; simp)]
  rw [if_neg (by
    simp only [Bool.not_eq_true', Bool.not_eq_false, allRD_iff, Bool.or_eq_false_iff, decide_eq_false_iff_not]
    intro k hk j hj
    rw [hidx, hnr]
    have := hgrid.lt k hk j hj
    simp only at this ⊢
    omega)]
  rw [if_neg (by
    simp only [Bool.not_eq_true', Bool.not_eq_false, List.all_eq_true, List.mem_range, Bool.or_eq_true, decide_eq_true_eq,
      decide_eq_false_iff_not]
    intro me hme rn hrn
    by_cases he : rn = me
    · exact .inl he
    · right
      intro h0
      apply he
      refine hgrid.inj rn hrn me hme fun j hj => ?_
      have := manDist_zero.1 h0 j hj
      rw [hidx] at this
      exact this)]
  rw [if_neg (by
    simp only [Bool.not_eq_true', Bool.not_eq_false, allRD_iff]
    intro k hk j hj
    rw [hp0' k hk j hj])]
  rw [if_neg (by
    simp only [Bool.not_eq_true', Bool.not_eq_false]
    exact aligned_iff.2 hal)]
  rw [if_neg (by
    simp only [Bool.not_eq_true', Bool.not_eq_false, allRD_iff, decide_eq_true_eq]
    intro k hk j hj
    rw [hg1 k hk j hj, hsum k hk j hj])]
  refine ⟨_, rfl, hnum', ?_⟩
  intro k hk j hj
  refine ⟨hg1 k hk j hj, ?_⟩
  simp only
  rw [hl1 k hk j hj, hidx]

/-! ## C28: neighbours -/

/-- C28 (meaning). On a new solution, the entry for the offset `d` in the table of rank `a` is rank `b` exactly if the
indices of `b` are those of `a` plus `d`. -/
theorem C28_neighbor_iff_partial (fi : Bool) (fold : Nat → Int) (nd : Nat) (opts : List ROpts) (r : RankRes)
    (h : setupRanks fi fold nd (fun _ _ => none) opts = .ok r)
    (a : Nat) (ha : a < opts.length) (d : Nat → Int) (hd : Near nd d) (b : Nat) :
    r.nbr a (nbrSlot fi nd d) = some b ↔ b < opts.length ∧ ∀ j < nd, r.idx b j = r.idx a j + d j := by
  have hne : opts ≠ [] := by rintro rfl; simp at ha
  have hp := placed_of_setup hne h
  obtain ⟨h1, h2⟩ := neighbors_eq (fi := fi) hp.grid (me := a) (fun _ => none) opts.length (le_refl _)
  rw [hp.nbr]
  simp only
  unfold neighbors
  constructor
  · intro hb
    by_cases hex : ∃ rn < opts.length, maxDist nd r.idx a rn ≤ 1 ∧ nbrSlot fi nd d = nbrSlot fi nd (fun di => r.idx rn di - r.idx a di)
    · obtain ⟨rn, hrn, hm, hs⟩ := hex
      rw [hs, h1 rn hrn hm] at hb
      cases hb
      refine ⟨hrn, fun j hj => ?_⟩
      have := nbrSlot_inj hd (near_iff.1 hm) hs j hj
      omega
    · push Not at hex
      rw [h2 _ hex] at hb
      cases hb
  · rintro ⟨hb, hd'⟩
    have hs : nbrSlot fi nd d = nbrSlot fi nd (fun di => r.idx b di - r.idx a di) := by
      unfold nbrSlot
      congr 1
      apply List.map_congr_left
      intro j hj
      rw [List.mem_range] at hj
      have := hd' j hj
      simp only
      omega
    rw [hs]
    refine h1 b hb (near_iff.2 ?_)
    intro j hj
    have := hd j hj
    have := hd' j hj
    simp only
    omega

/-- C28 (symmetry). If rank `a` regards rank `b` as its neighbour at offset `d`, then `b` regards `a` as its neighbour at
offset `-d`. -/
theorem C28_symmetric_partial (fi : Bool) (fold : Nat → Int) (nd : Nat) (opts : List ROpts) (r : RankRes)
    (h : setupRanks fi fold nd (fun _ _ => none) opts = .ok r)
    (a : Nat) (ha : a < opts.length) (d : Nat → Int) (hd : Near nd d) (b : Nat)
    (hab : r.nbr a (nbrSlot fi nd d) = some b) : r.nbr b (nbrSlot fi nd (fun j => - d j)) = some a := by
  obtain ⟨hb, hi⟩ := (C28_neighbor_iff_partial fi fold nd opts r h a ha d hd b).1 hab
  refine (C28_neighbor_iff_partial fi fold nd opts r h b hb _ ?_ a).2 ⟨ha, ?_⟩
  · intro j hj
    have := hd j hj
    simp only
    omega
  · intro j hj
    have := hi j hj
    omega

/-- C28 (no confusion). Different offsets have different places in the table, every entry belongs to an offset, and no rank
occurs at two offsets. -/
theorem C28_unambiguous_partial (fi : Bool) (fold : Nat → Int) (nd : Nat) (opts : List ROpts) (r : RankRes)
    (h : setupRanks fi fold nd (fun _ _ => none) opts = .ok r) (a : Nat) (ha : a < opts.length) :
    (∀ d d', Near nd d → Near nd d' → nbrSlot fi nd d = nbrSlot fi nd d' → ∀ j < nd, d j = d' j) ∧
    (∀ s b, r.nbr a s = some b → ∃ d, Near nd d ∧ s = nbrSlot fi nd d) ∧
    ∀ s s' b, r.nbr a s = some b → r.nbr a s' = some b → s = s' := by
  have hne : opts ≠ [] := by rintro rfl; simp at ha
  have hp := placed_of_setup hne h
  have hex : ∀ s b, r.nbr a s = some b → ∃ d, Near nd d ∧ s = nbrSlot fi nd d := by
    intro s b hs
    obtain ⟨h1, h2⟩ := neighbors_eq (fi := fi) hp.grid (me := a) (fun _ => none) opts.length (le_refl _)
    rw [hp.nbr] at hs
    simp only at hs
    unfold neighbors at hs
    by_cases he : ∃ rn < opts.length, maxDist nd r.idx a rn ≤ 1 ∧ s = nbrSlot fi nd (fun di => r.idx rn di - r.idx a di)
    · obtain ⟨rn, hrn, hm, hs'⟩ := he
      exact ⟨_, near_iff.1 hm, hs'⟩
    · push Not at he
      rw [h2 s he] at hs
      cases hs
  refine ⟨fun d d' hd hd' => nbrSlot_inj hd hd', hex, ?_⟩
  intro s s' b hs hs'
  obtain ⟨d, hd, rfl⟩ := hex s b hs
  obtain ⟨d', hd', rfl⟩ := hex s' b hs'
  obtain ⟨_, h1⟩ := (C28_neighbor_iff_partial fi fold nd opts r h a ha d hd b).1 hs
  obtain ⟨_, h2⟩ := (C28_neighbor_iff_partial fi fold nd opts r h a ha d' hd' b).1 hs'
  unfold nbrSlot
  congr 1
  apply List.map_congr_left
  intro j hj
  rw [List.mem_range] at hj
  have := h1 j hj
  have := h2 j hj
  omega

/-! ### Examples -/

/-- Six ranks; the overall size is 20 by 12; folds of 4 by 1. -/
def exSix : List ROpts := List.replicate 6 ⟨[0, 0], [0, 0], [20, 12], [0, 0]⟩

def rankFold : Nat → Int := fun j => if j = 0 then 4 else 1

/-- Values of all ranks in all dims. -/
def tabList (n nd : Nat) (t : Tab) : List (List Int) := (List.range n).map fun k => (List.range nd).map (t k)

example : (do let r ← placeRanks true rankFold 2 (fun _ _ => none) (fun _ _ => 2) exSix; pure (r.num, tabList 6 2 r.ofs)) =
    .ok ([3, 2], [[0, 0], [8, 0], [16, 0], [0, 6], [8, 6], [16, 6]]) := by decide +kernel

example : (do let r ← placeRanks true rankFold 2 (fun _ _ => none) (fun _ _ => 2) exSix; pure (tabList 6 2 r.idx, tabList 6 2 r.lsz)) =
    .ok ([[0, 0], [1, 0], [2, 0], [0, 1], [1, 1], [2, 1]], [[8, 6], [8, 6], [4, 6], [8, 6], [8, 6], [4, 6]]) := by decide +kernel

/-- The neighbours of rank 1. -/
example : (do let r ← placeRanks true rankFold 2 (fun _ _ => none) (fun _ _ => 2) exSix; pure ((List.range 9).map (r.nbr 1))) =
    .ok [none, none, none, some 0, some 1, some 2, some 3, some 4, some 5] := by decide +kernel

/-- The hypotheses of `C27_automatic` hold for this case. -/
example : ∃ r, setupRanks true rankFold 2 (fun _ _ => none) exSix = .ok r ∧ r.num = [3, 2] ∧
    ∀ k < exSix.length, ∀ j < 2, r.gsz k j = (if j = 0 then 20 else 12) ∧
      r.lsz k j = if r.idx k j = [3, 2].getD j 0 - 1 then
        (if j = 0 then 20 else 12) - (if j = 0 then 8 else 6) * ([3, 2].getD j 0 - 1) else (if j = 0 then 8 else 6) := by
  refine C27_automatic true rankFold 2 _ exSix (by decide) (fun j => if j = 0 then 20 else 12) (fun _ => 0) (by decide)
    (by decide) (by decide) (by decide) (by decide) [3, 2] (by decide +kernel) rfl (by decide) (by decide)
    (fun j => if j = 0 then 8 else 6) ?_ (by decide)
  intro j hj
  rcases (by omega : j = 0 ∨ j = 1) with rfl | rfl
  · refine ⟨by decide, by decide, ?_⟩
    rintro m ⟨a, rfl⟩ h
    simp [rankFold] at h ⊢
    omega
  · refine ⟨by decide, by decide, ?_⟩
    rintro m ⟨a, rfl⟩ h
    simp [rankFold] at h ⊢
    omega

/-- Sizes of ranks given by the user, with different sizes along both dims; the overall size is their sum. -/
example : (do
    let r ← placeRanks false rankFold 2 (fun _ _ => none) (fun _ _ => 2)
      [⟨[2, 0], [0, 0], [0, 0], [7, 3]⟩, ⟨[2, 0], [0, 0], [0, 0], [7, 5]⟩, ⟨[2, 0], [0, 0], [0, 0], [9, 3]⟩,
       ⟨[2, 0], [0, 0], [0, 0], [9, 5]⟩]
    pure (r.gsz 3 0, r.gsz 3 1, tabList 4 2 r.ofs)) =
    .ok (16, 8, [[0, 0], [0, 3], [7, 0], [7, 3]]) := by decide +kernel

/-- Unaligned ranks are rejected. -/
example : (do
    let r ← placeRanks true rankFold 2 (fun _ _ => none) (fun _ _ => 2)
      [⟨[2, 2], [0, 0], [0, 0], [7, 3]⟩, ⟨[2, 2], [0, 0], [0, 0], [9, 4]⟩, ⟨[2, 2], [0, 0], [0, 0], [7, 5]⟩,
       ⟨[2, 2], [0, 0], [0, 0], [9, 5]⟩]
    pure r.num) = .throws := by decide +kernel

/-- C28 fails if `prepare_solution()` is called a second time with another arrangement: the tables keep entries of the first
call. Two ranks are first arranged along x, then along y with all sizes given anew. Then rank 0 (index (0,0)) regards rank 1
(index (0,1)) as its neighbour in the +x direction, although there is no such neighbour. -/
theorem C28_second_prepare_wrong :
    (do
      let opts1 : List ROpts := [⟨[2, 1], [0, 0], [8, 8], [4, 8]⟩, ⟨[2, 1], [0, 0], [8, 8], [4, 8]⟩]
      let opts2 : List ROpts := [⟨[1, 2], [0, 0], [8, 8], [8, 4]⟩, ⟨[1, 2], [0, 0], [8, 8], [8, 4]⟩]
      let r1 ← placeRanks true (fun _ => 1) 2 (fun _ _ => none) (fun _ _ => 2) opts1
      let r2 ← placeRanks true (fun _ => 1) 2 r1.nbr (fun _ _ => 2) opts2
      pure (r2.nbr 0 (nbrSlot true 2 fun j => if j = 0 then 1 else 0), tabList 2 2 r2.idx)) =
    .ok (some 1, [[0, 0], [0, 1]]) := by
  decide +kernel

/-! ## C57: the location of a rank -/

/-- C57 (automatic). Without explicit rank indices, every rank gets its own location in the grid of ranks, and every location
is taken.

Missing for the full property: explicit indices are ignored, see `C57_explicit_wrong`. -/
theorem C57_unique_partial (fi : Bool) (fold : Nat → Int) (nd : Nat) (oldNbr : Nat → Nat → Option Nat) (opts : List ROpts)
    (hne : opts ≠ []) (r : RankRes) (h : setupRanks fi fold nd oldNbr opts = .ok r) :
    (∀ k < opts.length, ∀ j < nd, 0 ≤ r.idx k j ∧ r.idx k j < r.num.getD j 0) ∧
    ∀ c : Nat → Int, (∀ j < nd, 0 ≤ c j ∧ c j < r.num.getD j 0) → ∃! k, k < opts.length ∧ ∀ j < nd, r.idx k j = c j := by
  have hg := (placed_of_setup hne h).grid
  refine ⟨hg.lt, fun c hc => ?_⟩
  obtain ⟨k, hk, h1⟩ := hg.surj c hc
  refine ⟨k, ⟨hk, h1⟩, ?_⟩
  rintro k' ⟨hk', h2⟩
  exact hg.inj k' hk' k hk (fun j hj => by rw [h1 j hj, h2 j hj])

/-- C57 fails: the indices set with `set_rank_index()` or `-ri` are never used, whatever they are. -/
theorem C57_explicit_ignored (fi : Bool) (fold : Nat → Int) (nd : Nat) (oldNbr : Nat → Nat → Option Nat) (opts : List ROpts)
    (f : ROpts → List Int) :
    setupRanks fi fold nd oldNbr (opts.map fun o => { o with rankIdx := f o }) = setupRanks fi fold nd oldNbr opts := by
  have hn : (opts.map fun o => { o with rankIdx := f o }).length = opts.length := List.length_map _
  have h1 : optTab (opts.map fun o => { o with rankIdx := f o }) (·.numRanks) = optTab opts (·.numRanks) := by
    funext r j; unfold optTab; rw [List.getElem?_map]; cases opts[r]? <;> rfl
  have h2 : optTab (opts.map fun o => { o with rankIdx := f o }) (·.gsz) = optTab opts (·.gsz) := by
    funext r j; unfold optTab; rw [List.getElem?_map]; cases opts[r]? <;> rfl
  have h3 : optTab (opts.map fun o => { o with rankIdx := f o }) (·.lsz) = optTab opts (·.lsz) := by
    funext r j; unfold optTab; rw [List.getElem?_map]; cases opts[r]? <;> rfl
  unfold setupRanks
  rw [hn, h1, h2, h3]

/-- Two ranks with explicit, valid and different indices: they are placed the other way round. -/
theorem C57_explicit_wrong :
    (do
      let r ← setupRanks true (fun _ => 1) 1 (fun _ _ => none) [⟨[2], [1], [8], [0]⟩, ⟨[2], [0], [8], [0]⟩]
      pure (tabList 2 1 r.idx)) = .ok [[0], [1]] := by
  decide +kernel

/-! ## C58: the numbers of ranks -/

/-- C58 (kept). If the requested numbers of ranks (zeros are free) can be completed to a grid with the actual number of ranks,
then the grid that is used has the requested numbers.

Missing for the full property: a request that cannot be met is not rejected, see `C58_ignored_wrong`. -/
theorem C58_kept_partial (fi : Bool) (fold : Nat → Int) (nd : Nat) (oldNbr : Nat → Nat → Option Nat) (opts : List ROpts)
    (hne : opts ≠ []) (hnd : 0 < nd) (r : RankRes) (h : setupRanks fi fold nd oldNbr opts = .ok r)
    (hreq : ∀ j < nd, 0 ≤ optTab opts (·.numRanks) 0 j)
    (hex : ∃ w : List Int, w.length = nd ∧ (∀ x ∈ w, 0 < x) ∧ w.prod = opts.length ∧
      ∀ j < nd, optTab opts (·.numRanks) 0 j ≠ 0 → w.getD j 0 = optTab opts (·.numRanks) 0 j) :
    r.num.prod = opts.length ∧ ∀ j < nd, optTab opts (·.numRanks) 0 j ≠ 0 → r.num.getD j 0 = optTab opts (·.numRanks) 0 j := by
  have hn : 0 < opts.length := List.length_pos_iff.2 hne
  have hp := placed_of_setup hne h
  refine ⟨by rw [← prodVals_eq]; exact hp.prod, ?_⟩
  obtain ⟨w, hw1, hw2, hw3, hw4⟩ := hex
  obtain ⟨_, hk, _⟩ := C33_keeps_request ((List.range nd).map (optTab opts (·.numRanks) 0)) opts.length (by omega)
    (by simp; omega) (by
      intro v hv
      obtain ⟨j, hj, rfl⟩ := List.mem_map.1 hv
      exact hreq j (List.mem_range.1 hj))
    ⟨w, ⟨by simp [hw1], hw2, hw3⟩, by
      unfold KeepsRequest
      rw [List.forall₂_iff_get]
      refine ⟨by simp [hw1], ?_⟩
      intro i h1 h2 h3
      simp only [List.length_map, List.length_range] at h1
      simp only [List.get_eq_getElem, List.getElem_map, List.getElem_range] at h3 ⊢
      have := hw4 i h1 (by omega)
      rw [← this]
      simp [List.getD_eq_getElem?_getD, hw1, h1]⟩
  rw [← hp.num] at hk
  intro j hj hz
  have := forall₂_getD hk j (by rw [hp.len]; exact hj)
  rw [map_range_getD _ hj] at this
  exact this (by have := hreq j hj; omega)

/-- C58 fails: three ranks in the first dim are requested but there are only two ranks; instead of an exception, the request
is replaced. -/
theorem C58_ignored_wrong :
    (do
      let r ← setupRanks true (fun _ => 1) 2 (fun _ _ => none) [⟨[3, 0], [0, 0], [8, 8], [0, 0]⟩, ⟨[3, 0], [0, 0], [8, 8], [0, 0]⟩]
      pure r.num) = .ok [2, 1] ∧
    (do
      let r ← setupRanks true (fun _ => 1) 2 (fun _ _ => none) [⟨[3, 5], [0, 0], [8, 8], [0, 0]⟩, ⟨[3, 5], [0, 0], [8, 8], [0, 0]⟩]
      pure r.num) = .ok [2, 1] := by
  decide +kernel

/-- C58 fails: one rank, and two ranks are requested in the first dim. The grid becomes an empty tuple, and its elements are
read through a null pointer. -/
theorem C58_one_rank_undefined :
    (do
      let r ← setupRanks true (fun _ => 1) 2 (fun _ _ => none) [⟨[2, 0], [0, 0], [8, 8], [0, 0]⟩]
      pure r.num) = .undefined := by
  decide +kernel

/-- C27 (no empty rank). If no negative size was requested, then every rank that is set up has at least one point in every
dim. -/
theorem C27_not_empty (fi : Bool) (fold : Nat → Int) (nd : Nat) (oldNbr : Nat → Nat → Option Nat) (minSize : Nat → Nat → Nat)
    (opts : List ROpts) (r : RankRes) (h : placeRanks fi fold nd oldNbr minSize opts = .ok r)
    (hfold : ∀ j < nd, 0 < fold j) (hreq : ∀ o ∈ opts, ∀ j < nd, 0 ≤ o.gsz.getD j 0 ∧ 0 ≤ o.lsz.getD j 0)
    (k : Nat) (hk : k < opts.length) (j : Nat) (hj : j < nd) : 0 < r.lsz k j := by
  have hne : opts ≠ [] := by rintro rfl; simp at hk
  unfold placeRanks at h
  cases hs : setupRanks fi fold nd oldNbr opts with
  | throws => rw [hs] at h; cases h
  | undefined => rw [hs] at h; cases h
  | ok r' =>
    rw [hs, Outcome.bind_ok] at h
    unfold checkSizes at h
    split at h
    · cases h
    simp only [Outcome.ok.injEq] at h
    subst h
    have hpl := placed_of_setup hne hs
    have hp := hpl.p0 k hk j hj
    have ho : opts[k]? = some opts[k] := List.getElem?_eq_getElem hk
    obtain ⟨hg0, hl0⟩ := hreq opts[k] (List.getElem_mem hk) j hj
    have hg : optTab opts (·.gsz) k j = opts[k].gsz.getD j 0 := by simp only [optTab, ho]
    have hl : optTab opts (·.lsz) k j = opts[k].lsz.getD j 0 := by simp only [optTab, ho]
    have hn0 : 0 < r'.num.getD j 0 := by
      have hj' : j < r'.num.length := by rw [hpl.len]; exact hj
      have : r'.num.getD j 0 = r'.num[j] := by simp [List.getD_eq_getElem?_getD, hj']
      rw [this]; exact hpl.pos _ (List.getElem_mem hj')
    unfold pass0 at hp
    rw [hg, hl] at hp
    by_cases hz : opts[k].lsz.getD j 0 = 0
    · rw [if_pos hz] at hp
      split at hp
      · cases hp
      simp only at hp
      split at hp
      · cases hp
      rename_i hrem
      simp only [Outcome.ok.injEq, Prod.mk.injEq] at hp
      rw [← hp.1]
      obtain ⟨c1, c2⟩ := ceilDiv_spec hg0 hn0
      have hc0 : 0 ≤ ceilDiv (opts[k].gsz.getD j 0) (r'.num.getD j 0) := by
        by_contra hc
        have : (ceilDiv (opts[k].gsz.getD j 0) (r'.num.getD j 0) + 1) * r'.num.getD j 0 ≤ 0 :=
          Int.mul_nonpos_of_nonpos_of_nonneg (by omega) (by omega)
        rw [Int.add_mul] at this
        omega
      obtain ⟨u1, u2, u3⟩ := roundUp_spec hc0 (hfold j hj)
      split
      · omega
      · by_contra hc
        have hr0 : roundUp (ceilDiv (opts[k].gsz.getD j 0) (r'.num.getD j 0)) (fold j) = 0 := by omega
        rw [hr0] at hrem
        have : ceilDiv (opts[k].gsz.getD j 0) (r'.num.getD j 0) = 0 := by omega
        rw [this] at c1
        omega
    · rw [if_neg hz] at hp
      split at hp <;> simp only [Outcome.ok.injEq, Prod.mk.injEq] at hp <;> omega

/-- C27 in a build without MPI: setting up the only rank in one dim succeeds exactly if one of the two sizes was requested or
both were and agree; then both sizes are the requested one. -/
theorem C27_no_mpi (gsz lsz : Int) :
    (setupNoMpi gsz lsz = .throws ↔ (gsz = 0 ∧ lsz = 0) ∨ (gsz ≠ 0 ∧ lsz ≠ 0 ∧ gsz ≠ lsz)) ∧
    (setupNoMpi gsz lsz ≠ .throws → ∃ n, setupNoMpi gsz lsz = .ok (n, n) ∧ n ≠ 0 ∧ (gsz ≠ 0 → n = gsz) ∧
      (lsz ≠ 0 → n = lsz)) := by
  unfold setupNoMpi
  by_cases h1 : gsz = 0 <;> by_cases h2 : lsz = 0
  · simp [h1, h2]
  · simp [h1, h2]
  · simp [h1, h2]
  · by_cases h3 : gsz = lsz
    · subst h3; simp [h1]
    · simp [h1, h2, h3]

example : setupNoMpi 0 64 = .ok (64, 64) ∧ setupNoMpi 64 0 = .ok (64, 64) ∧ setupNoMpi 64 32 = .throws ∧
    setupNoMpi 64 64 = .ok (64, 64) := by decide +kernel

end Yask
