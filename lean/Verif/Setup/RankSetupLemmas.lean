import Verif.Setup.RankLemmas

/-! Helper lemmas: results of `setupRanks`. -/

namespace Yask.Setup
open Spec

theorem forall₂_getD {R : Int → Int → Prop} : ∀ {l m : List Int}, List.Forall₂ R l m → ∀ j < m.length, R (l.getD j 0) (m.getD j 0)
  | _, _, .nil, j, hj => by simp at hj
  | _, _, .cons h hs, j, hj => by
    cases j with
    | zero => simpa using h
    | succ j => simpa using forall₂_getD hs j (by simpa using hj)

theorem map_range_getD (f : Nat → Int) {nd j : Nat} (hj : j < nd) : ((List.range nd).map f).getD j 0 = f j := by
  simp [List.getD_eq_getElem?_getD, hj]

theorem ext_getD {l m : List Int} (hl : l.length = m.length) (h : ∀ j < m.length, l.getD j 0 = m.getD j 0) : l = m := by
  apply List.ext_getElem hl
  intro i h1 h2
  have := h i h2
  simpa [List.getD_eq_getElem?_getD, h1, h2] using this

theorem inSpace_of_getD {sizes : List Int} {f : Nat → Int} (h : ∀ j < sizes.length, 0 ≤ f j ∧ f j < sizes.getD j 0) :
    InSpace sizes ((List.range sizes.length).map f) := by
  unfold InSpace
  rw [List.forall₂_iff_get]
  refine ⟨by simp, ?_⟩
  intro i h1 h2
  have := h i h2
  simpa [List.getD_eq_getElem?_getD, h2] using this

/-- The indices that `unlayout` gives form a grid. -/
theorem unlayout_grid (fi : Bool) (num : List Int) (hpos : ∀ d ∈ num, 0 < d) (n : Nat) (hn : prodVals num = n) :
    Grid n num.length (fun j => num.getD j 0) (fun r j => (unlayoutVals fi num r).getD j 0) := by
  refine ⟨?_, ?_, ?_⟩
  · intro r _ j hj
    exact forall₂_getD (unlayout_inSpace fi num hpos r) j hj
  · intro r hr r' hr' h
    have h1 := layout_unlayout fi num hpos r (by rw [hn]; omega)
    have h2 := layout_unlayout fi num hpos r' (by rw [hn]; omega)
    have : unlayoutVals fi num r = unlayoutVals fi num r' := by
      have hl1 := (unlayout_inSpace fi num hpos r).length_eq
      have hl2 := (unlayout_inSpace fi num hpos r').length_eq
      exact ext_getD (by omega) (fun j hj => h j (by omega))
    rw [← h1, this, h2]
  · intro c hc
    have hin := inSpace_of_getD hc
    refine ⟨layoutVals fi num ((List.range num.length).map c), ?_, ?_⟩
    · have := layout_lt fi num _ hin
      rw [hn] at this; omega
    · intro j hj
      rw [unlayout_layout fi num _ hin, map_range_getD c hj]

/-- What a successful `setupRanks` implies. -/
structure Placed (fi : Bool) (fold : Nat → Int) (nd : Nat) (oldNbr : Nat → Nat → Option Nat) (opts : List ROpts) (r : RankRes) :
    Prop where
  same : ∀ k < opts.length, ∀ j < nd, optTab opts (·.gsz) k j = optTab opts (·.gsz) 0 j ∧
    optTab opts (·.numRanks) k j = optTab opts (·.numRanks) 0 j
  num : r.num = compactFactors ((List.range nd).map (optTab opts (·.numRanks) 0)) opts.length
  len : r.num.length = nd
  prod : prodVals r.num = opts.length
  pos : ∀ d ∈ r.num, 0 < d
  grid : Grid opts.length nd (fun j => r.num.getD j 0) r.idx
  idx : r.idx = fun k j => (unlayoutVals fi r.num k).getD j 0
  p0 : ∀ k < opts.length, ∀ j < nd, pass0 fold (fun j => r.num.getD j 0) opts.length nd r.idx (optTab opts (·.lsz))
    (optTab opts (·.gsz)) k j = .ok (r.lsz k j, r.gsz k j)
  aligned : Aligned opts.length nd r.idx r.lsz
  gsz : ∀ k < opts.length, ∀ j < nd, r.gsz k j = lineSum opts.length nd r.idx r.lsz k j
  ofs : r.ofs = rankOffset opts.length nd r.idx r.lsz
  nbr : r.nbr = fun me => neighbors fi opts.length nd r.idx me (oldNbr me)

theorem aligned_iff {n nd : Nat} {coord rsz : Tab} :
    ((List.range n).all (fun me => (List.range n).all fun rn => aligned nd coord rsz me rn)) = true ↔ Aligned n nd coord rsz := by
  simp only [List.all_eq_true, List.mem_range, Aligned, aligned, Bool.or_eq_true, Bool.not_eq_true', decide_eq_true_eq]
  constructor
  · intro h me hme rn hrn di hdi hin dj hdj hne
    rcases h me hme rn hrn di hdi with h1 | h1
    · rw [isInline_iff.2 hin] at h1; cases h1
    · rcases h1 dj hdj with h2 | h2
      · exact absurd h2.symm hne
      · exact h2
  · intro h me hme rn hrn di hdi
    by_cases hin : isInline nd coord me rn di = true
    · right
      intro dj hdj
      by_cases hne : dj = di
      · exact .inl hne.symm
      · exact .inr (h me hme rn hrn di hdi (isInline_iff.1 hin) dj hdj hne)
    · exact .inl (by simpa using hin)

theorem placed_of_setup {fi : Bool} {fold : Nat → Int} {nd : Nat} {oldNbr : Nat → Nat → Option Nat} {opts : List ROpts}
    {r : RankRes} (hne : opts ≠ []) (h : setupRanks fi fold nd oldNbr opts = .ok r) : Placed fi fold nd oldNbr opts r := by
  have hn : 0 < opts.length := List.length_pos_iff.2 hne
  unfold setupRanks at h
  extract_lets n req gsz lsz num idx nr p0 lsz1 gsz1 at h
  split at h; · cases h
  rename_i h1; split at h; · cases h
  rename_i h2; split at h; · cases h
  rename_i h3; split at h; · cases h
  rename_i h4; split at h; · cases h
  rename_i h5; split at h; · cases h
  rename_i h6; split at h; · cases h
  rename_i h7; split at h; · cases h
  rename_i h8; split at h; · cases h
  rename_i h9
  simp only [Outcome.ok.injEq] at h
  simp only [Bool.not_eq_true, Bool.not_eq_false'] at h1 h2 h5 h6 h7 h8 h9
  rw [allRD_iff] at h1 h2 h5 h7 h9
  rw [aligned_iff] at h8
  push Not at h3 h4
  have hpos : ∀ d ∈ num, 0 < d := by
    intro d hd
    obtain ⟨j, hj, rfl⟩ := List.getElem_of_mem hd
    have := h5 0 hn j (by omega)
    simp only [Bool.not_eq_true', Bool.or_eq_false_iff, decide_eq_false_iff_not, ge_iff_le] at this
    have he : nr j = num[j] := by
      simp [nr, List.getD_eq_getElem?_getD, hj]
    rw [← he]
    omega
  subst h
  refine ⟨?_, rfl, h4, h3, hpos, ?_, rfl, ?_, h8, ?_, rfl, rfl⟩
  · intro k hk j hj
    have := h1 k hk j hj
    simpa using this
  · have := unlayout_grid fi _ hpos opts.length h3
    rw [h4] at this
    exact this
  · intro k hk j hj
    have := h7 k hk j hj
    show p0 k j = .ok (lsz1 k j, gsz1 k j)
    simp only [lsz1, gsz1]
    split at this
    · rename_i x hx
      rw [hx]
    · cases this
  · intro k hk j hj
    simpa using h9 k hk j hj

/-! ### Neighbours -/

theorem maxDist_le {nd : Nat} {coord : Tab} {me rn : Nat} {b : Int} (hb : 0 ≤ b) :
    maxDist nd coord me rn ≤ b ↔ ∀ j < nd, |coord rn j - coord me j| ≤ b := by
  unfold maxDist
  induction nd with
  | zero => simp [hb]
  | succ nd ih =>
    rw [List.range_succ, List.foldl_append, List.foldl_cons, List.foldl_nil, max_le_iff, ih]
    constructor
    · rintro ⟨h1, h2⟩ j hj
      rcases Nat.lt_succ_iff_lt_or_eq.1 hj with h | rfl
      · exact h1 j h
      · exact h2
    · intro h
      exact ⟨fun j hj => h j (by omega), h nd (by omega)⟩

theorem manDist_zero {nd : Nat} {coord : Tab} {me rn : Nat} :
    manDist nd coord me rn = 0 ↔ ∀ j < nd, coord rn j = coord me j := by
  have hnn : ∀ nd, 0 ≤ manDist nd coord me rn := by
    intro nd
    unfold manDist
    induction nd with
    | zero => simp
    | succ nd ih =>
      rw [List.range_succ, List.foldl_append, List.foldl_cons, List.foldl_nil]
      have := abs_nonneg (coord rn nd - coord me nd)
      omega
  induction nd with
  | zero => simp [manDist]
  | succ nd ih =>
    have h0 := hnn nd
    have : manDist (nd + 1) coord me rn = manDist nd coord me rn + |coord rn nd - coord me nd| := by
      unfold manDist
      rw [List.range_succ, List.foldl_append, List.foldl_cons, List.foldl_nil]
    rw [this]
    have ha := abs_nonneg (coord rn nd - coord me nd)
    constructor
    · intro h j hj
      rcases Nat.lt_succ_iff_lt_or_eq.1 hj with hlt | rfl
      · exact ih.1 (by omega) j hlt
      · have : |coord rn j - coord me j| = 0 := by omega
        have := abs_eq_zero.1 this
        omega
    · intro h
      rw [ih.2 (fun j hj => h j (by omega)), h nd (by omega)]
      simp

theorem nbrSlot_inj {fi : Bool} {nd : Nat} {d d' : Nat → Int} (hd : Near nd d) (hd' : Near nd d')
    (h : nbrSlot fi nd d = nbrSlot fi nd d') : ∀ j < nd, d j = d' j := by
  unfold nbrSlot at h
  have key : ∀ e : Nat → Int, Near nd e → InSpace ((List.range nd).map fun _ => (3 : Int)) ((List.range nd).map fun j => e j + 1) := by
    intro e he
    have := inSpace_of_getD (sizes := (List.range nd).map fun _ => (3 : Int)) (f := fun j => e j + 1) (by
      intro j hj
      simp only [List.length_map, List.length_range] at hj
      rw [map_range_getD _ hj]
      have := he j hj
      omega)
    simpa using this
  have h1 := unlayout_layout fi _ _ (key d hd)
  rw [h, unlayout_layout fi _ _ (key d' hd')] at h1
  intro j hj
  have h2 := congrArg (fun l => l.getD j 0) h1
  simp only [map_range_getD _ hj] at h2
  omega

theorem near_iff {nd : Nat} {coord : Tab} {me rn : Nat} :
    maxDist nd coord me rn ≤ 1 ↔ Near nd (fun j => coord rn j - coord me j) := by
  rw [maxDist_le (by omega)]
  unfold Near
  constructor
  · intro h j hj
    have := abs_le.1 (h j hj)
    omega
  · intro h j hj
    have := h j hj
    exact abs_le.2 (by omega)

/-- The table of neighbours: entries of near ranks, old entries elsewhere. -/
theorem neighbors_eq {fi : Bool} {n nd : Nat} {num : Nat → Int} {coord : Tab} (hg : Grid n nd num coord) {me : Nat}
    (old : Nat → Option Nat) : ∀ m ≤ n,
    let tab := (List.range m).foldl (fun tab rn =>
      if maxDist nd coord me rn ≤ 1 then
        fun s => if s = nbrSlot fi nd (fun di => coord rn di - coord me di) then some rn else tab s
      else tab) old
    (∀ rn < m, maxDist nd coord me rn ≤ 1 → tab (nbrSlot fi nd (fun di => coord rn di - coord me di)) = some rn) ∧
    ∀ s, (∀ rn < m, maxDist nd coord me rn ≤ 1 → s ≠ nbrSlot fi nd (fun di => coord rn di - coord me di)) → tab s = old s := by
  intro m
  induction m with
  | zero => intro _; exact ⟨fun rn h => by omega, fun s _ => rfl⟩
  | succ m ih =>
    intro hm
    obtain ⟨h1, h2⟩ := ih (by omega)
    simp only [List.range_succ, List.foldl_append, List.foldl_cons, List.foldl_nil]
    by_cases hd : maxDist nd coord me m ≤ 1
    · simp only [if_pos hd]
      refine ⟨?_, ?_⟩
      · intro rn hrn hrd
        rcases Nat.lt_succ_iff_lt_or_eq.1 hrn with h | rfl
        · rw [if_neg]
          · exact h1 rn h hrd
          · intro he
            have := nbrSlot_inj (near_iff.1 hrd) (near_iff.1 hd) he
            have := hg.inj rn (by omega) m (by omega) (fun j hj => by have := this j hj; omega)
            omega
        · rw [if_pos rfl]
      · intro s hs
        rw [if_neg (hs m (by omega) hd)]
        exact h2 s (fun rn hrn => hs rn (by omega))
    · simp only [if_neg hd]
      refine ⟨?_, fun s hs => h2 s (fun rn hrn => hs rn (by omega))⟩
      intro rn hrn hrd
      rcases Nat.lt_succ_iff_lt_or_eq.1 hrn with h | rfl
      · exact h1 rn h hrd
      · exact absurd hrd hd

end Yask.Setup
