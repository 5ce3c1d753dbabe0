import Verif.Mpi.BoxLemmas
import Verif.Spec.BoxSpec
import Verif.Spec.RankSpec
import Verif.Props.Ranks
import Mathlib.Algebra.BigOperators.Ring.Finset

/-!
# C29: the regions exchanged between neighbour ranks

`rankBuf … me nbr send` is the region of a var that rank `me` sends to (or receives from) rank `nbr` (`none`: nothing).
`placeRanks` gives sizes and offsets of ranks; `OnRanks` says that the var has these and the pads computed by `resize()`.
-/

namespace Yask
open Setup Spec Mpi Var

section
variable {fi : Bool} {fold : Nat → Int} {nd : Nat} {oldNbr : Nat → Nat → Option Nat} {minSize : Nat → Nat → Nat}
  {opts : List ROpts} {r : RankRes} {var : Nat → XRank} {ext : Nat → Int} {used : Nat → Bool} {vl lh rh : Nat → Int}

theorem mkBuf_some {a : XRank} {ok send wf : Bool} {maxD : Int} {d : Nat → Int} {x : XBuf}
    (h : mkBuf nd a ok send wf maxD ext d = some x) :
    (∃ j < nd, a.used j = true ∧ d j ≠ 0) ∧
    (∀ j < nd, a.used j = true → (x.beg j, x.fin j) = a.range (a.varVecOk nd ok) send ext d j) ∧
    (x.vec = true → a.varVecOk nd ok = true ∧ ∀ j < nd, a.used j = true →
      (x.fin j - x.beg j).tmod (a.dim j).varVL = 0 ∧ imodFlr (x.beg j) (a.dim j).varVL = 0) := by
  unfold mkBuf at h
  extract_lets maxd mandist vec rng at h
  split at h; · cases h
  split at h; · cases h
  rename_i h2
  split at h; · cases h
  simp only [Option.some.injEq] at h
  subst h
  simp only [Bool.not_eq_true', Bool.not_eq_false, List.any_eq_true, List.mem_range, Bool.and_eq_true, decide_eq_true_eq] at h2
  refine ⟨?_, ?_, ?_⟩
  · obtain ⟨j, hj, hu, hd⟩ := h2; exact ⟨j, hj, hu, hd⟩
  · intro j hj hu
    simp only [rng, hu, hj, decide_true, Bool.and_true, if_true]
    rfl
  · intro hv
    simp only [Bool.and_eq_true, List.all_eq_true, List.mem_range, Bool.or_eq_true, Bool.not_eq_true', decide_eq_true_eq] at hv
    refine ⟨hv.1, fun j hj hu => ?_⟩
    rcases hv.2 j hj with h | h
    · rw [hu] at h; cases h
    · exact h

theorem mkBuf_exists {a : XRank} {ok send wf : Bool} {maxD : Int} {d : Nat → Int}
    (hdist : wf = true ∧ (List.range nd).foldl (fun s j => s + |d j|) (0 : Int) ≤ nd ∨
      (List.range nd).foldl (fun s j => s + |d j|) (0 : Int) ≤ maxD ∧ wf = false)
    (hd : ∃ j < nd, a.used j = true ∧ d j ≠ 0)
    (hne : ∀ j < nd, a.used j = true → (a.range (a.varVecOk nd ok) send ext d j).1 < (a.range (a.varVecOk nd ok) send ext d j).2) :
    ∃ x, mkBuf nd a ok send wf maxD ext d = some x := by
  unfold mkBuf
  extract_lets maxd mandist vec rng
  rw [if_neg, if_neg, if_neg]
  · exact ⟨_, rfl⟩
  · simp only [List.any_eq_true, List.mem_range, Bool.and_eq_true, decide_eq_true_eq, not_exists, not_and]
    intro j hj hu
    have := hne j hj hu
    simp only [rng, hu, hj, decide_true, Bool.and_true, if_true]
    change (a.range vec send ext d j).1 < (a.range vec send ext d j).2 at this
    omega
  · obtain ⟨j, hj, hu, h0⟩ := hd
    simp only [Bool.not_eq_true', Bool.not_eq_false, List.any_eq_true, List.mem_range, Bool.and_eq_true, decide_eq_true_eq]
    exact ⟨j, hj, hu, h0⟩
  · rw [not_lt]
    rcases hdist with ⟨h1, h2⟩ | ⟨h1, h2⟩
    · simp only [maxd, h1, if_true]; exact h2
    · simp only [maxd, h2, Bool.false_eq_true, if_false]; exact h1

theorem foldl_abs_congr {d d' : Nat → Int} (l : List Nat) (h : ∀ j ∈ l, |d j| = |d' j|) : ∀ s : Int,
    l.foldl (fun s j => s + |d j|) s = l.foldl (fun s j => s + |d' j|) s := by
  induction l with
  | nil => intro s; rfl
  | cons x l ih =>
    intro s
    rw [List.foldl_cons, List.foldl_cons, h x (by simp), ih (fun j hj => h j (by simp [hj]))]

theorem foldl_abs_sum (d : Nat → Int) (m : Nat) :
    (List.range m).foldl (fun s j => s + |d j|) (0 : Int) = ∑ j ∈ Finset.range m, |d j| := by
  induction m with
  | zero => rfl
  | succ n ih => rw [List.range_succ, List.foldl_append, Finset.sum_range_succ, List.foldl_cons, List.foldl_nil, ih]

/-- C29 (matching). What rank `a` sends to a neighbour `b` is exactly the region that `b` receives from `a`: either both have a
buffer or none, and first index, last index and the way of copying (vectors or elements) are the same. For all settings,
numbers of ranks and dims, sizes, halos, wave-front extensions, folds and dims of the var. -/
theorem C29_match (hne : opts ≠ []) (h : placeRanks fi fold nd oldNbr minSize opts = .ok r)
    (hv : OnRanks nd opts.length fold r minSize var ext used vl lh rh) (forceScalar wf : Bool) (maxD : Int)
    (a b : Nat) (ha : a < opts.length) (hb : b < opts.length) (hnear : Near nd (fun j => r.idx b j - r.idx a j)) :
    rankBuf nd fold r var forceScalar wf maxD ext a b true = rankBuf nd fold r var forceScalar wf maxD ext b a false := by
  have hp := (size_facts h hne).1
  unfold rankBuf
  have eok : (!forceScalar && hasMults nd fold r b && hasMults nd fold r a) =
      (!forceScalar && hasMults nd fold r a && hasMults nd fold r b) := by
    cases forceScalar <;> cases hasMults nd fold r a <;> cases hasMults nd fold r b <;> rfl
  rw [eok]
  generalize (!forceScalar && hasMults nd fold r a && hasMults nd fold r b) = ok
  unfold mkBuf
  rw [varVecOk_eq hv ha, varVecOk_eq hv hb, hv.used_eq a ha, hv.used_eq b hb]
  have e1 : (List.range nd).foldl (fun s j => s + |r.idx b j - r.idx a j|) (0 : Int) =
      (List.range nd).foldl (fun s j => s + |r.idx a j - r.idx b j|) (0 : Int) :=
    foldl_abs_congr _ (fun j _ => abs_sub_comm _ _) 0
  have e2 : (List.range nd).any (fun j => used j && decide (r.idx b j - r.idx a j ≠ 0)) =
      (List.range nd).any (fun j => used j && decide (r.idx a j - r.idx b j ≠ 0)) := by
    have e : ∀ j, (r.idx b j - r.idx a j ≠ 0) ↔ (r.idx a j - r.idx b j ≠ 0) := fun j => by omega
    simp only [e]
  have e3 : (fun j => if used j && decide (j < nd) then (var a).range ok true ext (fun j => r.idx b j - r.idx a j) j else (0, 0)) =
      (fun j => if used j && decide (j < nd) then (var b).range ok false ext (fun j => r.idx a j - r.idx b j) j else (0, 0)) := by
    funext j
    by_cases hc : (used j && decide (j < nd)) = true
    · rw [if_pos hc, if_pos hc]
      simp only [Bool.and_eq_true, decide_eq_true_eq] at hc
      exact range_match hp hv ha hb hc.2 hc.1 (hnear j hc.2) ok
    · rw [if_neg hc, if_neg hc]
  have e3' := fun j => congrFun e3 j
  simp only [e1, e2, e3']
  have e4 : ∀ f : Nat → Int × Int, (List.range nd).all (fun j => !used j ||
      (decide (((f j).2 - (f j).1).tmod ((var a).dim j).varVL = 0) && decide (imodFlr (f j).1 ((var a).dim j).varVL = 0))) =
      (List.range nd).all (fun j => !used j ||
      (decide (((f j).2 - (f j).1).tmod ((var b).dim j).varVL = 0) && decide (imodFlr (f j).1 ((var b).dim j).varVL = 0))) := by
    intro f
    rw [Bool.eq_iff_iff, List.all_eq_true, List.all_eq_true]
    apply forall₂_congr
    intro j hj
    rw [List.mem_range] at hj
    cases hu : used j with
    | false => rfl
    | true => rw [(hv.facts ha hj hu).vvl, (hv.facts hb hj hu).vvl]
  rw [e4 fun j => if (used j && decide (j < nd)) = true then (var b).range ok false ext (fun j => r.idx a j - r.idx b j) j else (0, 0)]

/-- Sizes and positions of two near ranks. -/
theorem near_facts (hne : opts ≠ []) (h : placeRanks fi fold nd oldNbr minSize opts = .ok r)
    (hv : OnRanks nd opts.length fold r minSize var ext used vl lh rh)
    {a b j : Nat} (ha : a < opts.length) (hb : b < opts.length) (hj : j < nd) (hu : used j = true) :
    (r.idx b j - r.idx a j = -1 → r.idx a j ≠ 0 ∧ lh j + ext j ≤ r.lsz a j ∧ rh j + ext j ≤ r.lsz a j) ∧
    (r.idx b j - r.idx a j = 1 → r.idx a j ≠ r.num.getD j 0 - 1 ∧ lh j + ext j ≤ r.lsz a j ∧ rh j + ext j ≤ r.lsz a j) := by
  obtain ⟨hp, hs⟩ := size_facts h hne
  have ga := hp.grid.lt a ha j hj
  have gb := hp.grid.lt b hb j hj
  have m1 := hv.min_l a ha j hj hu
  have m2 := hv.min_r a ha j hj hu
  constructor
  · intro e
    have := hs a ha j hj (by omega)
    exact ⟨by omega, by omega, by omega⟩
  · intro e
    have := hs a ha j hj (by omega)
    exact ⟨by omega, by omega, by omega⟩

/-- The range of a buffer in one dim, with the settings of the var. -/
theorem range_eq (hv : OnRanks nd opts.length fold r minSize var ext used vl lh rh)
    {a j : Nat} (ha : a < opts.length) (hj : j < nd) (hu : used j = true) (vec send : Bool) (d : Nat → Int)
    (hd : -1 ≤ d j ∧ d j ≤ 1) :
    ∃ h fo lo : Int, (var a).range vec send ext d j =
      (if d j = -1 then (if send then (r.ofs a j, r.ofs a j + h) else (r.ofs a j - h, r.ofs a j))
      else if d j = 1 then (if send then (r.ofs a j + r.lsz a j - h, r.ofs a j + r.lsz a j)
        else (r.ofs a j + r.lsz a j, r.ofs a j + r.lsz a j + h))
      else (fo, lo)) ∧
      (d j ≠ 0 → let h0 := if (d j = -1) = (send = true) then rh j + ext j else lh j + ext j
        (vec = false → h = h0) ∧ h0 ≤ h ∧ h < h0 + vl j ∧ (vec = true → vl j ∣ h)) ∧
      (let f0 := if r.idx a j = 0 then r.ofs a j - lh j else r.ofs a j
       fo ≤ f0 ∧ f0 < fo + vl j ∧ (vec = false → fo = f0) ∧ (vec = true → vl j ∣ fo)) ∧
      (let l0 := if r.idx a j = r.num.getD j 0 - 1 then r.ofs a j + r.lsz a j + rh j else r.ofs a j + r.lsz a j
       l0 ≤ lo ∧ lo < l0 + vl j ∧ (vec = false → lo = l0) ∧ (vec = true → vl j ∣ lo)) := by
  have f := hv.facts ha hj hu
  have hx := hv.ext_nonneg j hj
  refine ⟨(var a).halo vec (!send) (ext j) (d j) j, (var a).firstOuter vec j, (var a).lastOuter vec j + 1, ?_, ?_, ?_, ?_⟩
  · unfold XRank.range XRank.firstInner XRank.lastInner
    rw [f.ro, f.dom]
    cases send <;> simp only [Bool.false_eq_true, if_false, if_true] <;> split_ifs <;>
      simp only [Prod.mk.injEq] <;> omega
  · intro h0
    unfold XRank.halo
    rw [f.vvl, f.hl, f.hr]
    have hl0 := f.lh0
    have hr0 := f.rh0
    have c : d j = -1 ∨ d j = 1 := by omega
    have k1 := roundUp_spec (a := lh j + ext j) (by omega) f.vl_pos
    have k2 := roundUp_spec (a := rh j + ext j) (by omega) f.vl_pos
    have := f.vl_pos
    rcases c with c | c <;> rw [c] <;> cases send <;> cases vec <;>
      simp [k1.1, k1.2.1, k1.2.2, k2.1, k2.2.1, k2.2.2, this]
  · have := f.vl_pos
    unfold XRank.firstOuter XRank.fidx XRank.firstInner
    rw [f.ro, f.hl, f.vvl, hv.isFirst a ha j hj]
    simp only [decide_eq_true_eq]
    generalize (if r.idx a j = 0 then r.ofs a j - lh j else r.ofs a j) = z
    have k := roundDownFlr_spec z f.vl_pos
    cases vec with
    | true => exact ⟨k.1, k.2.1, by simp, fun _ => k.2.2⟩
    | false => simp [this]
  · have := f.vl_pos
    unfold XRank.lastOuter XRank.lidx XRank.lastInner
    rw [f.ro, f.hr, f.vvl, f.dom, hv.isLast a ha j hj]
    simp only [decide_eq_true_eq]
    have e : (if r.idx a j = r.num.getD j 0 - 1 then r.ofs a j + r.lsz a j - 1 + rh j else r.ofs a j + r.lsz a j - 1) + 1 =
      (if r.idx a j = r.num.getD j 0 - 1 then r.ofs a j + r.lsz a j + rh j else r.ofs a j + r.lsz a j) := by split_ifs <;> omega
    rw [e]
    generalize hz : (if r.idx a j = r.num.getD j 0 - 1 then r.ofs a j + r.lsz a j + rh j else r.ofs a j + r.lsz a j) = z at *
    have k := roundUpFlr_spec z f.vl_pos
    cases vec with
    | true => simp only [if_true]; exact ⟨by omega, by omega, by simp, fun _ => by rw [sub_add_cancel]; exact k.2.2⟩
    | false => simp only [Bool.false_eq_true, if_false]; exact ⟨by omega, by omega, by omega, by simp⟩

/-- C29 (storage). Every point that is sent or received lies within the storage that the rank has allocated for the var. -/
theorem C29_allocated (hne : opts ≠ []) (h : placeRanks fi fold nd oldNbr minSize opts = .ok r)
    (hv : OnRanks nd opts.length fold r minSize var ext used vl lh rh) (forceScalar wf : Bool) (maxD : Int)
    (a b : Nat) (ha : a < opts.length) (hb : b < opts.length) (hnear : Near nd (fun j => r.idx b j - r.idx a j))
    (send : Bool) (x : XBuf) (hx : rankBuf nd fold r var forceScalar wf maxD ext a b send = some x)
    (p : Nat → Int) (hp : InRegion nd used x.beg x.fin p) :
    ∀ j < nd, used j = true → ((var a).dim j).firstLocal ≤ p j ∧ p j ≤ ((var a).dim j).lastLocal := by
  intro j hj hu
  have hm := (mkBuf_some hx).2.1 j hj (by rw [hv.used_eq a ha]; exact hu)
  rw [varVecOk_eq hv ha] at hm
  obtain ⟨hh, fo, lo, e, h1, h2, h3⟩ := range_eq hv ha hj hu
    (!forceScalar && hasMults nd fold r a && hasMults nd fold r b) send (fun j => r.idx b j - r.idx a j) (hnear j hj)
  rw [e] at hm
  have f := hv.facts ha hj hu
  have nf := near_facts hne h hv ha hb hj hu
  have hxe := hv.ext_nonneg j hj
  have f1 := f.first
  have f2 := f.last
  have f3 := f.lh0
  have f4 := f.rh0
  have f5 := f.vl_pos
  have hpj := hp j hj hu
  have hn := hnear j hj
  simp only at *
  have c : r.idx b j - r.idx a j = -1 ∨ r.idx b j - r.idx a j = 0 ∨ r.idx b j - r.idx a j = 1 := by omega
  rcases c with c | c | c
  · rw [c] at hm h1
    obtain ⟨n1, n2, n3⟩ := nf.1 c
    rw [if_neg n1] at f1
    cases send <;> simp at hm h1 <;> split_ifs at f2 <;> omega
  · rw [c] at hm
    simp at hm
    split_ifs at * <;> omega
  · rw [c] at hm h1
    obtain ⟨n1, n2, n3⟩ := nf.2 c
    rw [if_neg n1] at f2
    cases send <;> simp at hm h1 <;> split_ifs at f1 <;> omega

/-- C29 (receiving). No point that is received lies in the domain of the receiving rank. -/
theorem C29_received_outside (hne : opts ≠ []) (h : placeRanks fi fold nd oldNbr minSize opts = .ok r)
    (hv : OnRanks nd opts.length fold r minSize var ext used vl lh rh) (forceScalar wf : Bool) (maxD : Int)
    (a b : Nat) (ha : a < opts.length) (hb : b < opts.length) (hnear : Near nd (fun j => r.idx b j - r.idx a j))
    (x : XBuf) (hx : rankBuf nd fold r var forceScalar wf maxD ext a b false = some x)
    (p : Nat → Int) (hp : InRegion nd used x.beg x.fin p) : ¬ InRank nd (r.ofs a) (r.lsz a) p := by
  have _ := h
  have _ := hb
  have _ := hne
  obtain ⟨j, hj, hu, hd⟩ := (mkBuf_some hx).1
  rw [hv.used_eq a ha] at hu
  have hm := (mkBuf_some hx).2.1 j hj (by rw [hv.used_eq a ha]; exact hu)
  rw [varVecOk_eq hv ha] at hm
  obtain ⟨hh, fo, lo, e, h1, h2, h3⟩ := range_eq hv ha hj hu
    (!forceScalar && hasMults nd fold r a && hasMults nd fold r b) false (fun j => r.idx b j - r.idx a j) (hnear j hj)
  rw [e] at hm
  have hpj := hp j hj hu
  have hn := hnear j hj
  intro hin
  have hi := hin j hj
  simp only at *
  have c : r.idx b j - r.idx a j = -1 ∨ r.idx b j - r.idx a j = 1 := by omega
  rcases c with c | c <;> rw [c] at hm <;> simp at hm <;> omega

/-- C29 (sending; the first index of each rank is a multiple of the vector length). Every point that is sent belongs to the
sending rank: it is in its domain, or beyond an outer side of the overall domain. -/
theorem C29_sent_partial (hne : opts ≠ []) (h : placeRanks fi fold nd oldNbr minSize opts = .ok r)
    (hv : OnRanks nd opts.length fold r minSize var ext used vl lh rh) (forceScalar wf : Bool) (maxD : Int)
    (a b : Nat) (ha : a < opts.length) (hb : b < opts.length) (hnear : Near nd (fun j => r.idx b j - r.idx a j))
    (hal : ∀ j < nd, used j = true → vl j ∣ r.ofs a j)
    (x : XBuf) (hx : rankBuf nd fold r var forceScalar wf maxD ext a b true = some x)
    (p : Nat → Int) (hp : InRegion nd used x.beg x.fin p) :
    Mine nd used (r.ofs a) (r.lsz a) (fun j => r.idx a j = 0) (fun j => r.idx a j = r.num.getD j 0 - 1) p := by
  intro j hj hu
  have hm := (mkBuf_some hx).2.1 j hj (by rw [hv.used_eq a ha]; exact hu)
  rw [varVecOk_eq hv ha] at hm
  generalize hvec : (!forceScalar && hasMults nd fold r a && hasMults nd fold r b) = vec at hm
  obtain ⟨hh, fo, lo, e, h1, h2, h3⟩ := range_eq hv ha hj hu vec true (fun j => r.idx b j - r.idx a j) (hnear j hj)
  rw [e] at hm
  have f := hv.facts ha hj hu
  have nf := near_facts hne h hv ha hb hj hu
  have hxe := hv.ext_nonneg j hj
  have f3 := f.lh0
  have f4 := f.rh0
  have f5 := f.vl_pos
  have hpj := hp j hj hu
  have hn := hnear j hj
  have hal := hal j hj hu
  have hsz : vec = true → vl j ∣ r.lsz a j := by
    rintro rfl
    simp only [Bool.and_eq_true] at hvec
    have := hasMults_iff.1 hvec.1.2 j hj
    rcases hv.vl_eq j hj with e | e
    · rw [e]; exact Int.one_dvd _
    · rw [e]; exact this
  have up : ∀ m s : Int, vl j ∣ m → vl j ∣ s → m < s + vl j → m ≤ s := by
    intro m s h1 h2 h3
    by_contra hc
    exact absurd (Int.le_of_dvd (by omega) (Int.dvd_sub h1 h2)) (by omega)
  simp only at *
  have c : r.idx b j - r.idx a j = -1 ∨ r.idx b j - r.idx a j = 0 ∨ r.idx b j - r.idx a j = 1 := by omega
  rcases c with c | c | c
  · rw [c] at hm h1
    obtain ⟨n1, n2, n3⟩ := nf.1 c
    simp at hm h1
    have : hh ≤ r.lsz a j := by
      cases vec with
      | false => have := h1.1 rfl; omega
      | true => exact up _ _ (h1.2.2.2 rfl) (hsz rfl) (by omega)
    omega
  · rw [c] at hm
    simp at hm
    have d1 : r.idx a j ≠ 0 → r.ofs a j ≤ fo := by
      intro hz
      rw [if_neg hz] at h2
      cases vec with
      | false => have := h2.2.2.1 rfl; omega
      | true => exact up _ _ hal (h2.2.2.2 rfl) (by omega)
    have d2 : r.idx a j ≠ r.num.getD j 0 - 1 → lo ≤ r.ofs a j + r.lsz a j := by
      intro hz
      rw [if_neg hz] at h3
      cases vec with
      | false => have := h3.2.2.1 rfl; omega
      | true => exact up _ _ (h3.2.2.2 rfl) (Int.dvd_add hal (hsz rfl)) (by omega)
    constructor
    · by_cases hz : r.idx a j = 0
      · exact Or.inr hz
      · have := d1 hz; omega
    · by_cases hz : r.idx a j = r.num.getD j 0 - 1
      · exact Or.inr hz
      · have := d2 hz; omega
  · rw [c] at hm h1
    obtain ⟨n1, n2, n3⟩ := nf.2 c
    simp at hm h1
    have : hh ≤ r.lsz a j := by
      cases vec with
      | false => have := h1.1 rfl; omega
      | true => exact up _ _ (h1.2.2.2 rfl) (hsz rfl) (by omega)
    omega

/-- C29 (nothing is missing). Let `b` be a neighbour of `a`, in the direction of some dim of the var, at a distance for which
the var is exchanged. Then every point of the halo of `a`, widened by the wave-front extensions, on the side of `b` is
received from `b`. -/
theorem C29_covered (hne : opts ≠ []) (h : placeRanks fi fold nd oldNbr minSize opts = .ok r)
    (hv : OnRanks nd opts.length fold r minSize var ext used vl lh rh) (forceScalar wf : Bool) (maxD : Int)
    (a b : Nat) (ha : a < opts.length) (hb : b < opts.length) (hnear : Near nd (fun j => r.idx b j - r.idx a j))
    (hdir : ∃ j < nd, used j = true ∧ r.idx b j ≠ r.idx a j)
    (hdist : wf = true ∨ ∑ j ∈ Finset.range nd, |r.idx b j - r.idx a j| ≤ maxD)
    (p : Nat → Int)
    (hp : OnSide nd used (r.ofs a) (r.lsz a) (fun j => lh j + ext j) (fun j => rh j + ext j) lh rh (fun j => r.idx a j = 0)
      (fun j => r.idx a j = r.num.getD j 0 - 1) (fun j => r.idx b j - r.idx a j) p) :
    ∃ x, rankBuf nd fold r var forceScalar wf maxD ext a b false = some x ∧ InRegion nd used x.beg x.fin p := by
  have _ := hne
  have _ := hb
  have _ := h
  have esum : ∀ d : Nat → Int, (List.range nd).foldl (fun s j => s + |d j|) (0 : Int) = ∑ j ∈ Finset.range nd, |d j| :=
    fun d => foldl_abs_sum d nd
  have key : ∀ j < nd, used j = true →
      ((var a).range (!forceScalar && hasMults nd fold r a && hasMults nd fold r b) false ext (fun j => r.idx b j - r.idx a j) j).1 ≤ p j ∧
      p j < ((var a).range (!forceScalar && hasMults nd fold r a && hasMults nd fold r b) false ext
        (fun j => r.idx b j - r.idx a j) j).2 := by
    intro j hj hu
    obtain ⟨hh, fo, lo, e, h1, h2, h3⟩ := range_eq hv ha hj hu
      (!forceScalar && hasMults nd fold r a && hasMults nd fold r b) false (fun j => r.idx b j - r.idx a j) (hnear j hj)
    rw [e]
    have hn := hnear j hj
    have hs := hp j hj hu
    have f := hv.facts ha hj hu
    have f3 := f.lh0
    have f4 := f.rh0
    simp only at *
    have c : r.idx b j - r.idx a j = -1 ∨ r.idx b j - r.idx a j = 0 ∨ r.idx b j - r.idx a j = 1 := by omega
    obtain ⟨s1, s2, s3⟩ := hs
    rcases c with c | c | c
    · have s1 := s1 c
      rw [c] at h1 ⊢
      simp at h1 ⊢
      omega
    · have s3 := s3 c
      rw [c]
      simp only [(by decide : ¬ ((0 : Int) = -1)), (by decide : ¬ ((0 : Int) = 1)), if_false]
      constructor
      · have := h2.1
        split_ifs at this <;> omega
      · have := h3.1
        split_ifs at this <;> omega
    · have s2 := s2 c
      rw [c] at h1 ⊢
      simp at h1 ⊢
      omega
  obtain ⟨x, hx⟩ : ∃ x, rankBuf nd fold r var forceScalar wf maxD ext a b false = some x := by
    unfold rankBuf
    apply mkBuf_exists
    · cases hw : wf with
      | true =>
        refine Or.inl ⟨rfl, ?_⟩
        rw [esum (fun j => r.idx b j - r.idx a j)]
        calc ∑ j ∈ Finset.range nd, |r.idx b j - r.idx a j| ≤ ∑ _j ∈ Finset.range nd, (1 : Int) := by
              apply Finset.sum_le_sum
              intro j hj
              rw [Finset.mem_range] at hj
              have := hnear j hj
              exact abs_le.2 this
          _ = nd := by simp
      | false =>
        refine Or.inr ⟨?_, rfl⟩
        rw [esum (fun j => r.idx b j - r.idx a j)]
        rcases hdist with hd | hd
        · rw [hw] at hd; cases hd
        · exact hd
    · obtain ⟨j, hj, hu, h0⟩ := hdir
      exact ⟨j, hj, by rw [hv.used_eq a ha]; exact hu, by omega⟩
    · intro j hj hu
      rw [hv.used_eq a ha] at hu
      rw [varVecOk_eq hv ha]
      have := key j hj hu
      omega
  refine ⟨x, hx, ?_⟩
  intro j hj hu
  have hm := (mkBuf_some hx).2.1 j hj (by rw [hv.used_eq a ha]; exact hu)
  rw [varVecOk_eq hv ha] at hm
  have := key j hj hu
  rw [← hm] at this
  exact this

/-- C29 (no conflict; the first index of each rank is a multiple of the vector length). Regions received from neighbours in
different directions, seen in the dims of the var, have no point in common. -/
theorem C29_disjoint_partial (hne : opts ≠ []) (h : placeRanks fi fold nd oldNbr minSize opts = .ok r)
    (hv : OnRanks nd opts.length fold r minSize var ext used vl lh rh) (forceScalar wf : Bool) (maxD : Int)
    (a b b' : Nat) (ha : a < opts.length) (hb : b < opts.length) (hb' : b' < opts.length)
    (hnear : Near nd (fun j => r.idx b j - r.idx a j)) (hnear' : Near nd (fun j => r.idx b' j - r.idx a j))
    (hal : ∀ j < nd, used j = true → vl j ∣ r.ofs a j)
    (x x' : XBuf) (hx : rankBuf nd fold r var forceScalar wf maxD ext a b false = some x)
    (hx' : rankBuf nd fold r var forceScalar wf maxD ext a b' false = some x')
    (p : Nat → Int) (hp : InRegion nd used x.beg x.fin p) (hp' : InRegion nd used x'.beg x'.fin p) :
    ∀ j < nd, used j = true → r.idx b j = r.idx b' j := by
  intro j hj hu
  have side : ∀ (c : Nat) (_ : c < opts.length) (_ : Near nd (fun j => r.idx c j - r.idx a j)) (y : XBuf)
      (_ : rankBuf nd fold r var forceScalar wf maxD ext a c false = some y) (_ : InRegion nd used y.beg y.fin p),
      r.idx c j - r.idx a j = if p j < r.ofs a j ∧ r.idx a j ≠ 0 then -1
        else if r.ofs a j + r.lsz a j ≤ p j ∧ r.idx a j ≠ r.num.getD j 0 - 1 then 1 else 0 := by
    intro c hc hn y hy hpy
    have hm := (mkBuf_some hy).2.1 j hj (by rw [hv.used_eq a ha]; exact hu)
    rw [varVecOk_eq hv ha] at hm
    generalize hvec : (!forceScalar && hasMults nd fold r a && hasMults nd fold r c) = vec at hm
    obtain ⟨hh, fo, lo, e, h1, h2, h3⟩ := range_eq hv ha hj hu vec false (fun j => r.idx c j - r.idx a j) (hn j hj)
    rw [e] at hm
    have f := hv.facts ha hj hu
    have nf := near_facts hne h hv ha hc hj hu
    have hxe := hv.ext_nonneg j hj
    have f3 := f.lh0
    have f4 := f.rh0
    have f5 := f.vl_pos
    have hpj := hpy j hj hu
    have hal := hal j hj hu
    have hn := hn j hj
    have hsz : vec = true → vl j ∣ r.lsz a j := by
      rintro rfl
      simp only [Bool.and_eq_true] at hvec
      have := hasMults_iff.1 hvec.1.2 j hj
      rcases hv.vl_eq j hj with e | e
      · rw [e]; exact Int.one_dvd _
      · rw [e]; exact this
    have up : ∀ m s : Int, vl j ∣ m → vl j ∣ s → m < s + vl j → m ≤ s := by
      intro m s h1 h2 h3
      by_contra hc
      exact absurd (Int.le_of_dvd (by omega) (Int.dvd_sub h1 h2)) (by omega)
    simp only at *
    have cc : r.idx c j - r.idx a j = -1 ∨ r.idx c j - r.idx a j = 0 ∨ r.idx c j - r.idx a j = 1 := by omega
    rcases cc with cc | cc | cc
    · rw [cc] at hm
      obtain ⟨n1, n2, n3⟩ := nf.1 cc
      simp at hm
      rw [cc, if_pos ⟨by omega, n1⟩]
    · rw [cc] at hm
      simp at hm
      have d1 : r.idx a j ≠ 0 → r.ofs a j ≤ fo := by
        intro hz
        rw [if_neg hz] at h2
        cases vec with
        | false => have := h2.2.2.1 rfl; omega
        | true => exact up _ _ hal (h2.2.2.2 rfl) (by omega)
      have d2 : r.idx a j ≠ r.num.getD j 0 - 1 → lo ≤ r.ofs a j + r.lsz a j := by
        intro hz
        rw [if_neg hz] at h3
        cases vec with
        | false => have := h3.2.2.1 rfl; omega
        | true => exact up _ _ (h3.2.2.2 rfl) (Int.dvd_add hal (hsz rfl)) (by omega)
      rw [cc, if_neg, if_neg]
      · rintro ⟨q1, q2⟩; have := d2 q2; omega
      · rintro ⟨q1, q2⟩; have := d1 q2; omega
    · rw [cc] at hm
      obtain ⟨n1, n2, n3⟩ := nf.2 cc
      simp at hm
      rw [cc, if_neg (by omega), if_pos ⟨by omega, n1⟩]
  have s1 := side b hb hnear x hx hp
  have s2 := side b' hb' hnear' x' hx' hp'
  omega

/-- C29 (vector copies; the first index of each rank is a multiple of the vector length). A region that is copied by vectors
consists of whole vectors of the storage of the rank. -/
theorem C29_vectors_partial
    (hv : OnRanks nd opts.length fold r minSize var ext used vl lh rh) (forceScalar wf : Bool) (maxD : Int)
    (a b : Nat) (ha : a < opts.length)
    (hal : ∀ j < nd, used j = true → vl j ∣ r.ofs a j)
    (send : Bool) (x : XBuf) (hx : rankBuf nd fold r var forceScalar wf maxD ext a b send = some x) (hvec : x.vec = true) :
    ∀ j < nd, used j = true → vl j ∣ x.beg j - r.ofs a j ∧ vl j ∣ x.fin j - r.ofs a j := by
  intro j hj hu
  obtain ⟨h1, h2⟩ := ((mkBuf_some hx).2.2 hvec).2 j hj (by rw [hv.used_eq a ha]; exact hu)
  have f := hv.facts ha hj hu
  rw [f.vvl] at h1 h2
  rw [imodFlr_eq _ _ f.vl_pos] at h2
  have hal := hal j hj hu
  have d1 := Int.dvd_of_tmod_eq_zero h1
  have d2 := Int.dvd_of_emod_eq_zero h2
  refine ⟨Int.dvd_sub d2 hal, ?_⟩
  have := Int.dvd_add d1 (Int.dvd_sub d2 hal)
  rwa [show x.fin j - x.beg j + (x.beg j - r.ofs a j) = x.fin j - r.ofs a j by omega] at this

/-- C29 (when first indices are multiples of vector lengths). This is so if all ranks but the last one in each dim have sizes
that are multiples of the fold length, as all automatically chosen sizes have (`C27_automatic`). -/
theorem C29_aligned (hne : opts ≠ []) (h : placeRanks fi fold nd oldNbr minSize opts = .ok r)
    (hv : OnRanks nd opts.length fold r minSize var ext used vl lh rh)
    (hsz : ∀ k < opts.length, ∀ j < nd, r.idx k j ≠ r.num.getD j 0 - 1 → fold j ∣ r.lsz k j)
    (a : Nat) (ha : a < opts.length) : ∀ j < nd, vl j ∣ r.ofs a j := by
  intro j hj
  have hp := (size_facts h hne).1
  have hf : vl j ∣ fold j := by
    rcases hv.vl_eq j hj with e | e <;> rw [e]
    exact Int.one_dvd _
  refine Int.dvd_trans hf ?_
  obtain ⟨S, hS⟩ := exists_sizes hp.grid hp.aligned
  have ea := rankOffset_eq hp.grid ha hj (fun q hq => hS q hq j hj)
  rw [← hp.ofs] at ea
  rw [ea]
  apply Finset.dvd_sum
  intro c hc
  rw [Finset.mem_range] at hc
  have ga := hp.grid.lt a ha j hj
  obtain ⟨q, hq, hqc⟩ := hp.grid.surj (fun i => if i = j then (c : Int) else r.idx a i) (by
    intro i hi
    by_cases hij : i = j
    · subst hij; rw [if_pos rfl]; omega
    · rw [if_neg hij]; exact hp.grid.lt a ha i hi)
  have hqj := hqc j hj
  simp only [if_true] at hqj
  rw [← hqj, ← hS q hq j hj]
  exact hsz q hq j hj (by omega)

end

/-! ### Examples -/

/-- A 2-dim var on ranks placed by `prepare_solution()`: halos of 1 to the left and 2 to the right, wave-front extension of
`ext`, fold length as given. -/
def boxVar (fold : Nat → Int) (ext : Int) (r : RankRes) (k : Nat) : XRank :=
  { used := fun _ => true
    isFirst := fun j => decide (r.idx k j = 0), isLast := fun j => decide (r.idx k j = r.num.getD j 0 - 1)
    dim := fun j => DimG.resized true true false
      { kind := .domain, domain := r.lsz k j, lHalo := 1, rHalo := 2, rankOfs := r.ofs k j
        lExt := if r.idx k j = 0 then 0 else ext, rExt := if r.idx k j = r.num.getD j 0 - 1 then 0 else ext
        solnVL := fold j, varVL := fold j } }

/-- For any ranks and folds, this var meets the hypotheses of the theorems. -/
theorem boxVar_on (fold : Nat → Int) (n : Nat) (r : RankRes) (hf : ∀ j < 2, 0 < fold j) (ext : Int) (hext : 0 ≤ ext) :
    OnRanks 2 n fold r (fun _ _ => (2 + ext).toNat) (boxVar fold ext r) (fun _ => ext) (fun _ => true) fold (fun _ => 1) (fun _ => 2) where
  used_eq := fun _ _ => rfl
  isFirst := fun _ _ _ _ => rfl
  isLast := fun _ _ _ _ => rfl
  ext_nonneg := fun _ _ => hext
  fold_pos := hf
  vl_eq := fun _ _ => Or.inr rfl
  min_l := by intro k _ j _ _; omega
  min_r := by intro k _ j _ _; omega
  dims := by
    intro k _ j _ _
    refine ⟨_, true, true, false, rfl, ?_, rfl, by simp, rfl, rfl, rfl, rfl, rfl, rfl, rfl, rfl, rfl⟩
    rw [settingsOk_iff]
    simp only
    refine ⟨by omega, by omega, ?_, ?_, by omega, by omega, by omega, by omega⟩ <;> split_ifs <;> omega

/-- The regions of six ranks, sizes chosen automatically: rank 1 to its neighbours 0 (left, in line) and 3 (corner), and what
those receive from rank 1. First and one-past-last index in both dims, and whether vectors are copied. -/
def showBuf (r : RankRes) (me nbr : Nat) (send : Bool) : List Int × Bool :=
  match rankBuf 2 rankFold r (boxVar rankFold 0 r) false false 2 (fun _ => 0) me nbr send with
  | some x => ([x.beg 0, x.fin 0, x.beg 1, x.fin 1], x.vec)
  | none => ([], false)

example : (do
    let r ← placeRanks true rankFold 2 (fun _ _ => none) (fun _ _ => 2) exSix
    pure [showBuf r 1 0 true, showBuf r 0 1 false, showBuf r 1 3 true, showBuf r 3 1 false, showBuf r 4 1 true]) =
    .ok [([8, 12, -1, 6], true), ([8, 12, -1, 6], true), ([8, 12, 5, 6], true), ([8, 12, 5, 6], true),
      ([8, 16, 6, 8], true)] := by decide +kernel

/-- Ranks of sizes 5 and 4 along x and 4 and 4 along y (all set by the user); the fold is 4 along x. -/
def exFive : List ROpts :=
  [⟨[2, 2], [0, 0], [0, 0], [5, 4]⟩, ⟨[2, 2], [0, 0], [0, 0], [4, 4]⟩, ⟨[2, 2], [0, 0], [0, 0], [5, 4]⟩,
   ⟨[2, 2], [0, 0], [0, 0], [4, 4]⟩]

/-- C29 fails if a rank begins at an index that is not a multiple of the fold length. With `exFive`, the ranks at x index 1 begin
at x = 5 and have sizes that are multiples of the fold lengths, so regions are rounded to whole vectors: rank 1 (at (1,0)) sends
to rank 3 (at (1,1)) the points from x = 4, although x = 4 is in the domain of rank 0 (at (0,0)), and rank 3 also receives that
point, (4, 3), from rank 0, in element-wise exchange. So the halo value that rank 3 ends up with is rank 1's own, possibly old,
copy. Moreover the exchange is done by vectors that begin at 4, while the vectors of the storage begin at 5 modulo 4. -/
theorem C29_misaligned_wrong :
    (do
      let r ← placeRanks true rankFold 2 (fun _ _ => none) (fun _ _ => 2) exFive
      pure ((tabList 4 2 r.ofs, tabList 4 2 r.lsz), [showBuf r 1 3 true, showBuf r 3 1 false, showBuf r 3 0 false])) =
    .ok (([[0, 0], [5, 0], [0, 4], [5, 4]], [[5, 4], [4, 4], [5, 4], [4, 4]]),
      [([4, 12, 3, 4], true), ([4, 12, 3, 4], true), ([4, 5, 3, 4], false)]) := by
  decide +kernel

/-- The ranks in this example are accepted, and its var meets the hypotheses of the other theorems. -/
example : (placeRanks true rankFold 2 (fun _ _ => none) (fun _ _ => (2 + 0 : Int).toNat) exFive).isOk = true ∧ ∀ r,
    OnRanks 2 4 rankFold r (fun _ _ => (2 + 0 : Int).toNat) (boxVar rankFold 0 r) (fun _ => 0) (fun _ => true) rankFold
      (fun _ => 1) (fun _ => 2) :=
  ⟨by decide +kernel, fun r => boxVar_on rankFold 4 r (by decide) 0 (by decide)⟩

/-- With automatic sizes the first indices are multiples of the fold lengths; `C29_sent_partial`, `C29_disjoint_partial` and
`C29_vectors_partial` apply. -/
example : (do
    let r ← placeRanks true rankFold 2 (fun _ _ => none) (fun _ _ => 2) exSix
    pure ((List.range 6).all fun k => (List.range 2).all fun j =>
      decide (r.idx k j = r.num.getD j 0 - 1) || decide (rankFold j ∣ r.lsz k j))) = .ok true := by decide +kernel

end Yask
