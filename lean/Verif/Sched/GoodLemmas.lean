import Verif.Sched.SchedSpec
import Verif.Sched.ScanLemmas
import Verif.Sched.DimLemmas
import Verif.Common.ComboLemmas

/-! Helper lemmas: traces of the tiling functions, from the inside out. -/

namespace Yask
open Spec
namespace RunCfg

variable (c : RunCfg) (dir : Int) (en : Bool)

/-- The order that traces must respect; the flag `en` allows to ask for no order. -/
def okOrd (a b : Task) : Prop := en = true → ¬ c.MustPrecede dir b a

theorem not_okOrd {a b : Task} (h : ¬ c.okOrd dir en a b) : en = true ∧ c.MustPrecede dir b a := by
  unfold okOrd at h
  rw [Classical.not_imp, not_not] at h
  exact h

/-- A valid evaluation. -/
def Valid (a : Task) : Prop :=
  a.part < c.nparts a.stage ∧ c.stepOk a.stage a.part a.step = true ∧
    c.dom a.stage a.part a.pt = true ∧ a.pt.length = c.nd

theorem not_before_same (a b : Task) (h1 : a.step = b.step) (h2 : a.stage = b.stage) :
    ¬ Task.Before dir a b := by
  unfold Task.Before; rw [h1, h2]; omega

theorem okOrd_same {a b : Task} (h1 : a.step = b.step) (h2 : a.stage = b.stage) : c.okOrd dir en a b :=
  fun _ h => not_before_same dir b a h1.symm h2.symm h.1

theorem good_evalBox (t : Int) (stage : Nat) (r : Nat → Ivl) :
    Good (c.okOrd dir en) (c.evalBox t stage ((List.range c.nd).map r))
      (fun a => a.step = t ∧ a.stage = stage ∧ c.Valid a ∧ ∀ j < c.nd, InIvl (at_ a.pt j) (r j)) := by
  unfold evalBox
  refine (good_seq (List.range (c.nparts stage)) _
    (fun p a => a.step = t ∧ a.stage = stage ∧ a.part = p ∧ c.stepOk stage p t = true ∧
      c.dom stage p a.pt = true ∧ a.pt.length = c.nd ∧ ∀ j < c.nd, InIvl (at_ a.pt j) (r j)) ?_ ?_).congr ?_
  · intro p _
    by_cases hs : c.stepOk stage p t = true
    · simp only [hs, if_true]
      refine (good_par _ (fun x => doOne (⟨t, stage, p, x⟩ : Task)) (fun x a => a = ⟨t, stage, p, x⟩)
        (fun x _ => good_one _) ?_).congr ?_
      · have := (boxPoints_nodup ((List.range c.nd).map r)).filter (c.dom stage p)
        refine this.imp ?_
        rintro x y hxy _ _ rfl rfl
        refine ⟨fun h => hxy (by injection h), c.okOrd_same dir en rfl rfl, c.okOrd_same dir en rfl rfl⟩
      · intro a
        simp only [List.mem_filter, mem_boxPoints_range]
        constructor
        · rintro ⟨x, ⟨⟨h1, h2⟩, h3⟩, rfl⟩
          exact ⟨rfl, rfl, rfl, trivial, h3, h1, h2⟩
        · rintro ⟨h1, h2, h3, _, h5, h6, h7⟩
          refine ⟨a.pt, ⟨⟨h6, h7⟩, h5⟩, ?_⟩
          cases a; simp_all
    · simp only [hs]
      exact good_nothing (fun a h => by simp at h)
  · refine List.pairwise_lt_range.imp ?_
    rintro p p' hp a b ⟨a1, a2, a3, _⟩ ⟨b1, b2, b3, _⟩
    refine ⟨?_, c.okOrd_same dir en (a1.trans b1.symm) (a2.trans b2.symm)⟩
    rintro rfl; omega
  · intro a
    simp only [List.mem_range, Valid]
    constructor
    · rintro ⟨p, hp, h1, h2, rfl, h4, h5, h6, h7⟩
      refine ⟨h1, h2, ⟨?_, ?_, ?_, h6⟩, h7⟩
      · rw [h2]; exact hp
      · rw [h2, h1]; exact h4
      · rw [h2]; exact h5
    · rintro ⟨h1, h2, ⟨h3, h4, h5, h6⟩, h7⟩
      rw [h2] at h3 h5
      rw [h2, h1] at h4
      exact ⟨a.part, h3, h1, h2, rfl, h4, h5, h6, h7⟩

/-- Whether `shift_mega_block` accepts the section. -/
def sectOk (sect : Sect) : Prop :=
  match sect with
  | .ext dim left => c.exteriorExists dim left = true
  | _ => True

/-- Bounds of the mega-block in dimension `j` at a given shift. -/
abbrev megaIvl (stage : Nat) (sect : Sect) (base : Box) (s : Int) (j : Nat) : Ivl :=
  c.shiftTrim stage sect j (base.getD j (0, 0)) s

theorem shiftMega_eq (stage : Nat) (sect : Sect) (base : Box) (s : Int) :
    c.shiftMega stage sect base s =
      (open Classical in
      if c.sectOk sect ∧ ∀ j < c.nd, (c.megaIvl stage sect base s j).1 < (c.megaIvl stage sect base s j).2
      then some ((List.range c.nd).map fun (j : Nat) => c.megaIvl stage sect base s j) else none) := by
  unfold shiftMega sectOk
  cases sect <;> simp only [] <;> congr

/-- The region of one (step, stage) of a micro-block. -/
def InMicro (stages : List Nat) (megaShift : Int) (multi : Bool) (bridge : Nat → Bool) (sect : Sect)
    (base mega blk adj mb : Box) (t0 : Int) (i q : Nat) (a : Task) : Prop :=
  let s : Int := (i * stages.length + q : Nat)
  a.step = t0 + dir * i ∧ a.stage = stages.getD q 0 ∧ c.Valid a ∧ c.sectOk sect ∧
    ∀ j < c.nd, InIvl (at_ a.pt j)
      (c.microTrim j (adj.getD j (0, 0)) (mb.getD j (0, 0))
        (c.megaIvl (stages.getD q 0) sect base (megaShift + s) j)
        (c.blockShape j (mega.getD j (0, 0)) (blk.getD j (0, 0))
          (c.megaIvl (stages.getD q 0) sect base (megaShift + s) j) s multi (bridge j)) s)

theorem microTrim_sub (j : Nat) (adj mb idxs shape : Ivl) (s x : Int)
    (h : InIvl x (c.microTrim j adj mb idxs shape s)) : InIvl x idxs ∧ InIvl x shape := by
  unfold microTrim at h
  obtain ⟨h1, h2⟩ := h
  rw [max_le_iff, max_le_iff] at h1
  rw [lt_min_iff, lt_min_iff] at h2
  exact ⟨⟨h1.1.2, h2.1.2⟩, ⟨h1.2, h2.2⟩⟩

theorem good_calcMicro (hdir : dir = 1 ∨ dir = -1) (stages : List Nat) (hst : stages.Pairwise (· < ·))
    (megaShift : Int) (multi : Bool) (bridge : Nat → Bool)
    (sect : Sect) (base mega blk adj mb : Box) (t0 : Int) (nt : Nat) :
    Good (c.okOrd dir en)
      (c.calcMicro dir stages megaShift multi bridge sect base mega blk adj mb t0 nt)
      (fun a => ∃ i < nt, ∃ q < stages.length,
        c.InMicro dir stages megaShift multi bridge sect base mega blk adj mb t0 i q a) := by
  unfold calcMicro
  refine (good_seq (List.range nt) _ (fun i a => ∃ q < stages.length,
        c.InMicro dir stages megaShift multi bridge sect base mega blk adj mb t0 i q a) ?_ ?_).congr ?_
  · intro i _
    refine (good_seq (List.range stages.length) _ (fun q a =>
        c.InMicro dir stages megaShift multi bridge sect base mega blk adj mb t0 i q a) ?_ ?_).congr ?_
    · intro q _
      simp only [shiftMega_eq]
      by_cases h1 : c.sectOk sect ∧ ∀ j < c.nd,
          (c.megaIvl (stages.getD q 0) sect base (megaShift + (i * stages.length + q : Nat)) j).1 <
          (c.megaIvl (stages.getD q 0) sect base (megaShift + (i * stages.length + q : Nat)) j).2
      · rw [if_pos h1]
        simp only [shiftMicro]
        have e : ∀ j < c.nd, ((List.range c.nd).map fun (j : Nat) =>
            c.megaIvl (stages.getD q 0) sect base (megaShift + (i * stages.length + q : Nat)) j).getD j (0, 0)
            = c.megaIvl (stages.getD q 0) sect base (megaShift + (i * stages.length + q : Nat)) j :=
          fun j hj => getD_map_range _ _ _ hj
        have : ∀ {p : Prop} [Decidable p] (f : Nat → Ivl) (P : Task → Prop),
            (p → Good (c.okOrd dir en) (c.evalBox (t0 + dir * i) (stages.getD q 0)
              ((List.range c.nd).map f)) P) →
            (¬ p → ∀ a, ¬ P a) →
            Good (c.okOrd dir en)
              (match (if p then some ((List.range c.nd).map f) else none : Option Box) with
                | none => doNothing
                | some bx => c.evalBox (t0 + dir * i) (stages.getD q 0) bx) P := by
          intro p _ f P h1 h2
          by_cases hp : p
          · rw [if_pos hp]; exact h1 hp
          · rw [if_neg hp]; exact good_nothing (h2 hp)
        apply this
        · intro hp
          refine (c.good_evalBox dir en _ _ _).congr ?_
          intro a
          unfold InMicro
          refine and_congr_right fun _ => and_congr_right fun _ => and_congr_right fun _ => ?_
          constructor
          · intro h
            refine ⟨h1.1, fun j hj => ?_⟩
            have := h j hj
            rw [e j hj] at this
            exact this
          · rintro ⟨_, h⟩ j hj
            rw [e j hj]
            exact h j hj
        · rintro hp a ⟨_, _, _, _, h⟩
          apply hp
          intro j hj
          rw [e j hj]
          have g := h j hj
          have g' := (c.microTrim_sub j _ _ _ _ _ _ g).2
          constructor
          · exact lt_of_le_of_lt g'.1 g'.2
          · exact lt_of_le_of_lt g.1 g.2
      · rw [if_neg h1]
        refine good_nothing ?_
        rintro a ⟨_, _, _, h4, h5⟩
        apply h1
        refine ⟨h4, fun j hj => ?_⟩
        have g := (c.microTrim_sub j _ _ _ _ _ _ (h5 j hj)).1
        exact lt_of_le_of_lt g.1 g.2
    · refine List.Pairwise.imp_of_mem ?_ List.pairwise_lt_range
      intro q q' hq hq' hlt a b ha hb
      rw [List.mem_range] at hq hq'
      have : a.stage < b.stage := by
        rw [ha.2.1, hb.2.1, List.getD_eq_getElem _ _ hq, List.getD_eq_getElem _ _ hq']
        exact List.pairwise_iff_getElem.1 hst q q' hq hq' hlt
      have h3 : a.step = b.step := ha.1.trans hb.1.symm
      refine ⟨by rintro rfl; omega, fun _ h => ?_⟩
      have := h.1
      unfold Task.Before at this
      rw [h3] at this
      omega
    · intro a; simp only [List.mem_range]
  · refine List.pairwise_lt_range.imp ?_
    rintro i i' hi a b ⟨q, _, ha⟩ ⟨q', _, hb⟩
    have h1 := ha.1
    have h2 := hb.1
    have : dir * a.step < dir * b.step := by
      rw [h1, h2]
      rcases hdir with rfl | rfl <;> omega
    refine ⟨by rintro rfl; omega, fun _ h => ?_⟩
    rcases h.1 with h | h
    · omega
    · rw [h.1] at this; omega
  · intro a; simp only [List.mem_range]

end RunCfg
end Yask
