import Verif.Compiler.HaloL1Lemmas

/-!
# Properties C46, C55, C56: halos computed by the compiler, scratch parts, exchange distance
-/

namespace Yask
open Comp Spec

/-- C46: for each point needed to evaluate the equations on the domain, directly or through scratch vars, the
displacement is within the halos of the var. -/
theorem C46_needed {S : HSys} {scr : Nat → Bool} {dims : Nat → List String} (hS : Staged S scr dims) {v : Nat}
    {d : String → Int} (h : Needed (allEqs S) scr v d) (n : String) (hn : n ∈ dims v) :
    -((S.calcHalos v).size n true) ≤ d n ∧ d n ≤ (S.calcHalos v).size n false :=
  needed_halo hS h n hn

/-- C55: a scratch part is evaluated over the domain extended by its write halo. If no scratch var is updated in two
parts, each of its outputs has exactly this halo, and each input has a halo that covers what is read. -/
theorem C55_scratch_parts_partial {S : HSys} {scr : Nat → Bool} {dims : Nat → List String} (hS : Staged S scr dims)
    (hO : OnePart S scr) {s : HStage} (hs : s ∈ S.stages) (hsc : s.scr = true) {P : List PEq} (hP : P ∈ s.parts)
    {st : HStage} (hst : st ∈ S.stages) (hk : st.scr = false) (hreq : s.id ∈ S.scrDeps st.id) :
    (∀ e ∈ P, ∀ n left, writeHalo S.calcHalos P n left = (S.calcHalos e.lhs.var).size n left) ∧
    ∀ e ∈ P, ∀ p ∈ e.rhs, ∀ n ∈ dims p.var,
      writeHalo S.calcHalos P n true - p.at n ≤ (S.calcHalos p.var).size n true ∧
      writeHalo S.calcHalos P n false + p.at n ≤ (S.calcHalos p.var).size n false :=
  scratch_part hS hO hs hsc hP hst hk hreq

/-- C56: data read directly by a non-scratch equation is exchanged with the rank that owns it. Not covered: data read
through scratch vars. -/
theorem C56_direct_partial {S : HSys} {scr : Nat → Bool} {dims : Nat → List String} (hS : Staged S scr dims) {e : PEq}
    (he : e ∈ allEqs S) (hsc : scr e.lhs.var = false) {p : Pt} (hp : p ∈ e.rhs) (hd : (dims p.var).Nodup)
    (wfSteps : Int) (nDims : Nat) (hN : (dims p.var).length ≤ nDims) :
    exchangesWith (S.calcHalos p.var).l1 wfSteps nDims (rankDist (dims p.var) p.at) = true := by
  obtain ⟨st, hst, hes⟩ := List.mem_flatMap.1 he
  have hk : st.scr = false := by rw [← hS.kind st hst e hes]; exact hsc
  have h1 := phase1_l1 S st hst hk e hes p (List.mem_cons_of_mem _ hp)
  have h2 := calcHalos_l1 S p.var
  have h3 := rankDist_le p (dims p.var) hd (fun n hn => (hS.used e he p (List.mem_cons_of_mem _ hp) n).2 hn)
  have h4 : rankDist (dims p.var) p.at ≤ (dims p.var).length := by
    unfold rankDist; exact List.length_filter_le _ _
  unfold exchangesWith
  simp only [Bool.not_eq_true', decide_eq_false_iff_not]
  by_cases hw : wfSteps > 0
  · rw [if_pos hw]; omega
  · rw [if_neg hw]; omega

/-- C56: data read through scratch vars is exchanged with the rank that owns it, if that rank lies on one side in all dims,
or if one of the reads on the way already has an offset in every dim in which the rank differs. Not covered: see
`C56_corner_wrong`. -/
theorem C56_scratch_partial {S : HSys} {scr : Nat → Bool} {dims : Nat → List String} (hS : Staged S scr dims)
    (hd : ∀ v, (dims v).Nodup) {v : Nat} {d : String → Int} {ps : List Pt} (h : NeededVia (allEqs S) scr v d ps)
    (hside : (∀ n ∈ dims v, d n ≤ 0) ∨ (∀ n ∈ dims v, 0 ≤ d n) ∨ ∃ q ∈ ps, ∀ n ∈ dims v, d n ≠ 0 → q.at n ≠ 0)
    (wfSteps : Int) (nDims : Nat) (hN : (dims v).length ≤ nDims) :
    exchangesWith (S.calcHalos v).l1 wfSteps nDims (rankDist (dims v) d) = true := by
  obtain ⟨⟨h1, h2⟩, h3⟩ := needed_wide hS hd h
  have h4 : rankDist (dims v) d ≤ (dims v).length := by
    unfold rankDist; exact List.length_filter_le _ _
  have key : (rankDist (dims v) d : Int) ≤ (S.calcHalos v).l1 := by
    rcases hside with hs | hs | ⟨q, hq, hs⟩
    · refine le_trans (le_of_eq ?_) h1
      unfold rankDist
      rw [List.filter_congr fun n hn => ?_]
      have := hs n hn
      rw [decide_eq_decide]; omega
    · refine le_trans (le_of_eq ?_) h2
      unfold rankDist
      rw [List.filter_congr fun n hn => ?_]
      have := hs n hn
      rw [decide_eq_decide]; omega
    · refine le_trans (Int.ofNat_le.2 ?_) (h3 q hq)
      unfold rankDist
      have hsub : ((dims v).filter fun n => d n ≠ 0) ⊆ (dims q.var).filter fun n => q.at n ≠ 0 := by
        intro n hn
        obtain ⟨n1, n2⟩ := List.mem_filter.1 hn
        refine List.mem_filter.2 ⟨?_, by simpa using hs n n1 (by simpa using n2)⟩
        rcases via_scr h q hq with hv | hv
        · rw [hv]; exact n1
        · exact hS.full q.var v hv n n1
      exact (List.subperm_of_subset ((hd v).filter _) hsub).length_le
  unfold exchangesWith
  simp only [Bool.not_eq_true', decide_eq_false_iff_not]
  by_cases hw : wfSteps > 0
  · rw [if_pos hw]; omega
  · rw [if_neg hw]; omega

/-- C56: with wave-fronts, everything that is needed is exchanged. -/
theorem C56_wavefront_partial (l1 wfSteps : Int) (dims : List String) (d : String → Int) (nDims : Nat) (hN : dims.length ≤ nDims)
    (hw : wfSteps > 0) : exchangesWith l1 wfSteps nDims (rankDist dims d) = true := by
  have h4 : rankDist dims d ≤ dims.length := by
    unfold rankDist; exact List.length_filter_le _ _
  unfold exchangesWith
  simp only [Bool.not_eq_true', decide_eq_false_iff_not, if_pos hw]
  omega

/-! ### Cases that meet the hypotheses -/

/-- Is it var 1 or more? -/
def scrFrom1 (v : Nat) : Bool := decide (1 ≤ v)

/-- `u(t+1,x) = a(x-1) + a(x+2)`, `a(x) = b(x-1) + u(t,x+3)`, `b(x) = u(t,x+1)`. -/
def exChain : HSys where
  stages := [⟨2, true, [[⟨⟨2, none, [("x", 0)]⟩, [⟨0, some 0, [("x", 1)]⟩]⟩]]⟩,
    ⟨1, true, [[⟨⟨1, none, [("x", 0)]⟩, [⟨2, none, [("x", -1)]⟩, ⟨0, some 0, [("x", 3)]⟩]⟩]]⟩,
    ⟨0, false, [[⟨⟨0, some 1, [("x", 0)]⟩, [⟨1, none, [("x", -1)]⟩, ⟨1, none, [("x", 2)]⟩]⟩]]⟩]
  scrDeps := fun i => if i = 0 then [2, 1] else []

theorem exChain_staged : Staged exChain scrFrom1 fun _ => ["x"] where
  ids := by decide
  kind := by decide
  closed := by decide
  order := by decide
  self := by decide
  used := by
    have h : ∀ e ∈ allEqs exChain, ∀ p ∈ e.lhs :: e.rhs, p.dom.map Prod.fst = ["x"] := by decide
    intro e he p hp n
    rw [h e he p hp]
  full := fun _ _ _ _ h => h

theorem exChain_one : OnePart exChain scrFrom1 := by unfold OnePart; decide

/-- `u` is needed at x-1 (from `a` at x-1, `b` at x-2) and at x+5 (from `a` at x+2). -/
example : ∃ d, Needed (allEqs exChain) scrFrom1 0 d ∧ d "x" = -1 := by
  have h1 : Needed (allEqs exChain) scrFrom1 1 (Pt.at ⟨1, none, [("x", -1)]⟩) :=
    .direct (e := ⟨⟨0, some 1, [("x", 0)]⟩, [⟨1, none, [("x", -1)]⟩, ⟨1, none, [("x", 2)]⟩]⟩) (p := ⟨1, none, [("x", -1)]⟩)
      (by decide) (by decide) (by decide)
  have h2 : Needed (allEqs exChain) scrFrom1 2 _ :=
    .scratch (e := ⟨⟨1, none, [("x", 0)]⟩, [⟨2, none, [("x", -1)]⟩, ⟨0, some 0, [("x", 3)]⟩]⟩) (p := ⟨2, none, [("x", -1)]⟩)
      h1 (by decide) (by decide) (by decide) (by decide)
  exact ⟨_, .scratch (e := ⟨⟨2, none, [("x", 0)]⟩, [⟨0, some 0, [("x", 1)]⟩]⟩) (p := ⟨0, some 0, [("x", 1)]⟩) h2
    (by decide) (by decide) (by decide) (by decide), by decide⟩

example : ∃ d, Needed (allEqs exChain) scrFrom1 0 d ∧ d "x" = 5 := by
  have h1 : Needed (allEqs exChain) scrFrom1 1 (Pt.at ⟨1, none, [("x", 2)]⟩) :=
    .direct (e := ⟨⟨0, some 1, [("x", 0)]⟩, [⟨1, none, [("x", -1)]⟩, ⟨1, none, [("x", 2)]⟩]⟩) (p := ⟨1, none, [("x", 2)]⟩)
      (by decide) (by decide) (by decide)
  exact ⟨_, .scratch (e := ⟨⟨1, none, [("x", 0)]⟩, [⟨2, none, [("x", -1)]⟩, ⟨0, some 0, [("x", 3)]⟩]⟩)
    (p := ⟨0, some 0, [("x", 3)]⟩) h1 (by decide) (by decide) (by decide) (by decide), by decide⟩

example : (exChain.calcHalos 0).size "x" true = 1 ∧ (exChain.calcHalos 0).size "x" false = 5 ∧
    (exChain.calcHalos 1).size "x" true = 1 ∧ (exChain.calcHalos 1).size "x" false = 2 ∧
    (exChain.calcHalos 2).size "x" true = 2 ∧ (exChain.calcHalos 2).size "x" false = 1 := by decide +kernel

/-! ### C55 does not hold if a scratch var is updated in two parts -/

/-- A point of a scratch var. -/
def sp (v : Nat) (x : Int) : Pt := ⟨v, none, [("x", x)]⟩

/-- `s1(x) = u(t,x) IF c1`, `s3(x) = u(t,x) IF c1` in one part, `s1(x) = u(t,x) IF c2`, `s2(x) = u(t,x) IF c2` in another
one, and `u(t+1,x) = s1(x+1) + s2(x+10) + s3(x)`. -/
def exTwoParts : HSys where
  stages := [⟨1, true, [[⟨sp 1 0, [⟨0, some 0, [("x", 0)]⟩]⟩, ⟨sp 3 0, [⟨4, none, [("x", 0)]⟩]⟩],
      [⟨sp 1 0, [⟨0, some 0, [("x", 0)]⟩]⟩, ⟨sp 2 0, [⟨0, some 0, [("x", 0)]⟩]⟩]]⟩,
    ⟨0, false, [[⟨⟨0, some 1, [("x", 0)]⟩, [sp 1 1, sp 2 10, sp 3 0]⟩]]⟩]
  scrDeps := fun i => if i = 0 then [1] else []

/-- Vars 1 to 3 are scratch vars. -/
def scr123 (v : Nat) : Bool := decide (1 ≤ v ∧ v ≤ 3)

theorem exTwoParts_staged : Staged exTwoParts scr123 fun _ => ["x"] where
  ids := by decide
  kind := by decide
  closed := by decide
  order := by decide
  self := by decide
  used := by
    have h : ∀ e ∈ allEqs exTwoParts, ∀ p ∈ e.lhs :: e.rhs, p.dom.map Prod.fst = ["x"] := by decide
    intro e he p hp n
    rw [h e he p hp]
  full := fun _ _ _ _ h => h

/-- C55 does not hold in general: the first part is evaluated up to 10 points beyond the domain because `s1` has this
halo, but `s3`, which it also updates, has a halo of only 1, and so has the var it reads. -/
theorem C55_two_parts_wrong : ∃ (S : HSys) (scr : Nat → Bool) (dims : Nat → List String), Staged S scr dims ∧
    ∃ s ∈ S.stages, s.scr = true ∧ ∃ P ∈ s.parts, ∃ st ∈ S.stages, st.scr = false ∧ s.id ∈ S.scrDeps st.id ∧
    ∃ e ∈ P, ∃ p ∈ e.rhs, "x" ∈ dims p.var ∧ (S.calcHalos e.lhs.var).size "x" false = 1 ∧ (S.calcHalos p.var).size "x" false = 1 ∧
      p.at "x" = 0 ∧ writeHalo S.calcHalos P "x" false = 10 :=
  ⟨exTwoParts, scr123, fun _ => ["x"], exTwoParts_staged,
    ⟨1, true, [[⟨sp 1 0, [⟨0, some 0, [("x", 0)]⟩]⟩, ⟨sp 3 0, [⟨4, none, [("x", 0)]⟩]⟩],
      [⟨sp 1 0, [⟨0, some 0, [("x", 0)]⟩]⟩, ⟨sp 2 0, [⟨0, some 0, [("x", 0)]⟩]⟩]]⟩, by simp [exTwoParts], rfl,
    [⟨sp 1 0, [⟨0, some 0, [("x", 0)]⟩]⟩, ⟨sp 3 0, [⟨4, none, [("x", 0)]⟩]⟩], by simp,
    ⟨0, false, [[⟨⟨0, some 1, [("x", 0)]⟩, [sp 1 1, sp 2 10, sp 3 0]⟩]]⟩, by simp [exTwoParts], rfl, by decide,
    ⟨sp 3 0, [⟨4, none, [("x", 0)]⟩]⟩, by decide, ⟨4, none, [("x", 0)]⟩, by decide, by decide, by decide +kernel, by decide +kernel,
    by decide, by decide +kernel⟩

/-! ### C56 does not hold for reads through scratch vars -/

/-- `a(x,y,z) = u(t,x,y,z+1)`, `u(t+1,x,y,z) = a(x-1,y+1,z)`. -/
def exCorner : HSys where
  stages := [⟨1, true, [[⟨⟨1, none, [("x", 0), ("y", 0), ("z", 0)]⟩, [⟨0, some 0, [("x", 0), ("y", 0), ("z", 1)]⟩]⟩]]⟩,
    ⟨0, false, [[⟨⟨0, some 1, [("x", 0), ("y", 0), ("z", 0)]⟩, [⟨1, none, [("x", -1), ("y", 1), ("z", 0)]⟩]⟩]]⟩]
  scrDeps := fun i => if i = 0 then [1] else []

theorem exCorner_staged : Staged exCorner scrFrom1 fun _ => ["x", "y", "z"] where
  ids := by decide
  kind := by decide
  closed := by decide
  order := by decide
  self := by decide
  used := by
    have h : ∀ e ∈ allEqs exCorner, ∀ p ∈ e.lhs :: e.rhs, p.dom.map Prod.fst = ["x", "y", "z"] := by decide
    intro e he p hp n
    rw [h e he p hp]
  full := fun _ _ _ _ h => h

/-- C56 does not hold in general: the value at (x-1, y+1, z+1) is needed, so a corner neighbour must be asked for it, but
without wave-fronts only face and edge neighbours are. -/
theorem C56_corner_wrong : ∃ (S : HSys) (scr : Nat → Bool) (dims : Nat → List String), Staged S scr dims ∧
    ∃ v d, Needed (allEqs S) scr v d ∧ rankDist (dims v) d = 3 ∧
      exchangesWith (S.calcHalos v).l1 0 3 (rankDist (dims v) d) = false := by
  refine ⟨exCorner, scrFrom1, fun _ => ["x", "y", "z"], exCorner_staged, 0, _,
    .scratch (v := 1) (e := ⟨⟨1, none, [("x", 0), ("y", 0), ("z", 0)]⟩, [⟨0, some 0, [("x", 0), ("y", 0), ("z", 1)]⟩]⟩)
      (p := ⟨0, some 0, [("x", 0), ("y", 0), ("z", 1)]⟩)
      (.direct (e := ⟨⟨0, some 1, [("x", 0), ("y", 0), ("z", 0)]⟩, [⟨1, none, [("x", -1), ("y", 1), ("z", 0)]⟩]⟩)
        (p := ⟨1, none, [("x", -1), ("y", 1), ("z", 0)]⟩)
        (by decide) (by decide) (by decide)) (by decide) (by decide) (by decide) (by decide), by decide, by decide +kernel⟩

/-- A needed value that meets the hypotheses of `C56_scratch_partial`: `u` at x+2, through `a` at x-1. -/
example : ∃ d ps, NeededVia (allEqs exChain) scrFrom1 0 d ps ∧ (∀ n ∈ ["x"], 0 ≤ d n) ∧ ps.length = 2 ∧ d "x" = 2 ∧
    exchangesWith (exChain.calcHalos 0).l1 0 1 (rankDist ["x"] d) = true := by
  have h1 : NeededVia (allEqs exChain) scrFrom1 1 (Pt.at ⟨1, none, [("x", -1)]⟩) [⟨1, none, [("x", -1)]⟩] :=
    .direct (eqs := allEqs exChain) (scr := scrFrom1)
      (e := ⟨⟨0, some 1, [("x", 0)]⟩, [⟨1, none, [("x", -1)]⟩, ⟨1, none, [("x", 2)]⟩]⟩) (p := ⟨1, none, [("x", -1)]⟩)
      (by decide) (by decide) (by decide)
  have h2 : NeededVia (allEqs exChain) scrFrom1 0 _ _ :=
    .scratch (e := ⟨⟨1, none, [("x", 0)]⟩, [⟨2, none, [("x", -1)]⟩, ⟨0, some 0, [("x", 3)]⟩]⟩) (p := ⟨0, some 0, [("x", 3)]⟩)
      h1 (by decide) (by decide) (by decide) (by decide)
  have h3 : ∀ n ∈ ["x"], 0 ≤ Pt.at ⟨1, none, [("x", -1)]⟩ n + Pt.at ⟨0, some 0, [("x", 3)]⟩ n := by decide
  exact ⟨_, _, h2, h3, rfl, by decide, C56_scratch_partial exChain_staged (fun _ => by decide) h2 (.inr (.inl h3)) 0 1 (by decide)⟩

end Yask
