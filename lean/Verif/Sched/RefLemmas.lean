import Verif.Sched.BatchLemmas
import Verif.Sched.SeqTrace

/-! Helper lemmas: the reference order, and memory effects of traces. -/

namespace Yask
open Spec
namespace RunCfg

variable {c : RunCfg} {dir : Int} {en : Bool}

/-- Which evaluations the reference performs. -/
def InRef (c : RunCfg) (first last : Int) (a : Task) : Prop :=
  ∃ i < numSteps first last, a.step = first + stepDir first last * i ∧ a.stage < c.nst ∧ c.Valid a ∧
    ∀ j < c.nd, InIvl (at_ a.pt j) ((c.dim j).rankBeg, c.rankEnd j)

theorem runRef_spec (c : RunCfg) (first last : Int) :
    (c.runRef first last).Nodup ∧ (∀ a, a ∈ c.runRef first last ↔ c.InRef first last a) ∧
      (c.runRef first last).Pairwise (c.okOrd (stepDir first last) true) := by
  have hg := good_steps (c := c) (en := true) (stepDir_cases first last) first (numSteps first last)
    (List.range c.nst) List.pairwise_lt_range
    (fun i q => c.evalBox (first + stepDir first last * i) q
      ((List.range c.nd).map fun (j : Nat) => ((c.dim j).rankBeg, c.rankEnd j)))
    (fun i q a => q < c.nst ∧ a.step = first + stepDir first last * i ∧ a.stage = q ∧ c.Valid a ∧
      ∀ j < c.nd, InIvl (at_ a.pt j) ((c.dim j).rankBeg, c.rankEnd j))
    (by
      rintro i q a ⟨h0, h1, h2, _⟩
      refine ⟨h1, ?_⟩
      rw [h2, List.getD_eq_getElem _ _ (by simpa using h0), List.getElem_range])
    (by
      intro i _ q hq
      rw [List.length_range] at hq
      refine (good_evalBox _ _ _ _ _ _).congr ?_
      intro a
      exact ⟨fun h => ⟨hq, h⟩, fun h => h.2⟩)
  have ht : c.runRef first last = (List.range (numSteps first last)).flatMap fun (i : Nat) =>
      (List.range (List.range c.nst).length).flatMap fun (q : Nat) =>
        c.evalBoxL (first + stepDir first last * i) q
          ((List.range c.nd).map fun (j : Nat) => ((c.dim j).rankBeg, c.rankEnd j)) := by
    unfold runRef evalBoxL
    simp only [List.length_range, ← List.map_eq_flatMap]
  have hm := hg (c.runRef first last) (by
    rw [ht]
    exact doSeq_flatMap _ _ _ fun i _ => doSeq_flatMap _ _ _ fun q _ => c.evalBoxL_trace _ _ _)
  refine ⟨hm.1, fun a => (hm.2.1 a).trans ?_, hm.2.2⟩
  unfold InRef
  constructor
  · rintro ⟨i, hi, q, _, h0, h1, h2, h3⟩
    exact ⟨i, hi, h1, by omega, h3⟩
  · rintro ⟨i, hi, h1, h2, h3⟩
    exact ⟨i, hi, a.stage, by simpa using h2, h2, h1, rfl, h3⟩

theorem evalBeg_single (h : c.SingleRank) {j : Nat} (hj : j < c.nd) (s : Int) :
    c.evalBeg j s = (c.dim j).rankBeg := by
  unfold evalBeg leftExt; simp [(h j hj).1]

theorem evalEnd_single (h : c.SingleRank) {j : Nat} (hj : j < c.nd) (s : Int) :
    c.evalEnd j s = c.rankEnd j := by
  unfold evalEnd rightExt rankEnd; simp [(h j hj).2]

theorem required_batch_iff (c : RunCfg) (first last : Int) (a : Task) :
    (∃ k : Nat, k * (max c.wfSteps 1).toNat < numSteps first last ∧
        c.Required (stepDir first last) (first + stepDir first last * (k * (max c.wfSteps 1).toNat : Nat))
          (min (max c.wfSteps 1).toNat (numSteps first last - k * (max c.wfSteps 1).toNat)) a) ↔
    ∃ i < numSteps first last, a.step = first + stepDir first last * i ∧ a.stage < c.nst ∧ c.Valid a ∧
      ∀ j < c.nd, c.evalBeg j ((i % (max c.wfSteps 1).toNat : Nat) * c.nst + a.stage) ≤ at_ a.pt j ∧
        at_ a.pt j < c.evalEnd j ((i % (max c.wfSteps 1).toNat : Nat) * c.nst + a.stage) := by
  have hstp : 0 < (max c.wfSteps 1).toNat := by omega
  generalize (max c.wfSteps 1).toNat = st at *
  generalize stepDir first last = dir
  constructor
  · rintro ⟨k, hk, i, hi, h1, h2, h3, h4, h5, h6, h7⟩
    refine ⟨k * st + i, by omega, ?_, h2, ⟨h3, h4, h5, h6⟩, ?_⟩
    · rw [h1]; push_cast; ring
    · have : (k * st + i) % st = i := by
        rw [Nat.mul_comm, Nat.mul_add_mod, Nat.mod_eq_of_lt (by omega)]
      rw [this]; exact h7
  · rintro ⟨i, hi, h1, h2, ⟨h3, h4, h5, h6⟩, h7⟩
    have hd := Nat.div_add_mod i st
    have hm := Nat.mod_lt i hstp
    have hc : i / st * st = st * (i / st) := Nat.mul_comm _ _
    refine ⟨i / st, by omega, i % st, by omega, ?_, h2, h3, h4, h5, h6, h7⟩
    rw [h1]
    have : (i : Int) = (i / st * st : Nat) + (i % st : Nat) := by
      rw [hc]; exact_mod_cast hd.symm
    rw [this]; push_cast; ring

theorem near_symm {nd : Nat} {halo : Nat → Int} {p q : List Int} (h : Near nd halo p q) :
    Near nd halo q p := fun j hj => ⟨(h j hj).2, (h j hj).1⟩

theorem before_or (hdir : dir = 1 ∨ dir = -1) (a b : Task) :
    (a.step = b.step ∧ a.stage = b.stage) ∨ Task.Before dir a b ∨ Task.Before dir b a := by
  unfold Task.Before
  rcases hdir with rfl | rfl <;> omega

theorem near_self {nd : Nat} {halo : Nat → Int} (h : ∀ j < nd, 0 ≤ halo j) (p : List Int) :
    Near nd halo p p := fun j hj => by have := h j hj; omega

/-- Evaluations whose order is not fixed do not conflict. -/
theorem not_conflict (h : c.Ok) {Buf Val : Type*} (S : Stencil c Buf Val) (hdir : dir = 1 ∨ dir = -1)
    {a b : Task} (hne : a ≠ b) (h1 : ¬ c.MustPrecede dir a b) (h2 : ¬ c.MustPrecede dir b a) :
    ¬ S.sem.Conflict a b := by
  have key : ∀ a b : Task, a ≠ b → ¬ c.MustPrecede dir a b → ¬ c.MustPrecede dir b a → ∀ l,
      ¬ (S.sem.writes a l ∧ (S.sem.reads b l ∨ S.sem.writes b l)) := by
    rintro a b hne h1 h2 ⟨β, q⟩ ⟨⟨hw, rfl⟩, hr⟩
    have hnear : Near c.nd (fun j => (c.dim j).maxHalo) a.pt b.pt := by
      rcases hr with hr | hr
      · exact S.reads_near _ _ _ hr
      · have : a.pt = b.pt := hr.2
        rw [this]; exact near_self h.halo_nonneg _
    rcases before_or hdir a b with ⟨e1, e2⟩ | hb | hb
    · obtain ⟨i1, i2⟩ := S.indep a b hne e1 e2 β hw
      rcases hr with hr | hr
      · exact i1 hr
      · exact i2 hr
    · exact h1 ⟨hb, hnear⟩
    · exact h2 ⟨hb, near_symm hnear⟩
  rintro ⟨l, hl | hl⟩
  · exact key a b hne h1 h2 l hl
  · exact key b a (Ne.symm hne) h2 h1 l hl

/-- Two orders of the same evaluations that both respect `MustPrecede` have the same effect. -/
theorem exec_eq (h : c.Ok) {Buf Val : Type*} (S : Stencil c Buf Val) (hdir : dir = 1 ∨ dir = -1)
    {t1 t2 : List Task} (hn1 : t1.Nodup) (hn2 : t2.Nodup) (hm : ∀ a, a ∈ t1 ↔ a ∈ t2)
    (ho1 : t1.Pairwise fun a b => ¬ c.MustPrecede dir b a)
    (ho2 : t2.Pairwise fun a b => ¬ c.MustPrecede dir b a) (m : Buf × List Int → Val) :
    S.sem.exec t1 m = S.sem.exec t2 m :=
  exec_eq_of_perm _ _ t1 t2 ((List.perm_ext_iff_of_nodup hn1 hn2).2 hm) hn1 ho1 ho2
    (fun _ _ _ _ hne hab hba => not_conflict h S hdir hne hba hab) m

theorem inSteps_iff (first last s : Int) :
    InSteps first last s ↔ ∃ i : Nat, i < numSteps first last ∧ s = first + stepDir first last * i := by
  unfold InSteps numSteps stepDir
  constructor
  · intro h
    refine ⟨(s - first).natAbs, by omega, ?_⟩
    split <;> omega
  · rintro ⟨i, hi, rfl⟩
    split <;> omega

end RunCfg
end Yask

namespace Yask

theorem countP_unique {α : Type*} (l : List α) (hn : l.Nodup) (q : α → Bool) (P : Prop) [Decidable P]
    (hex : P → ∃ a ∈ l, q a = true) (hu : ∀ a ∈ l, ∀ b ∈ l, q a = true → q b = true → a = b)
    (hP : ∀ a ∈ l, q a = true → P) : l.countP q = if P then 1 else 0 := by
  rw [List.countP_eq_length_filter]
  split
  · rename_i h
    obtain ⟨a, ha, hq⟩ := hex h
    have : (l.filter q).Perm [a] := by
      rw [List.perm_ext_iff_of_nodup (hn.filter q) (List.nodup_singleton a)]
      intro b
      rw [List.mem_filter, List.mem_singleton]
      exact ⟨fun h => hu b h.1 a ha h.2 hq, by rintro rfl; exact ⟨ha, hq⟩⟩
    rw [this.length_eq]; rfl
  · rename_i h
    rw [List.length_eq_zero_iff, List.filter_eq_nil_iff]
    exact fun a ha hq => h (hP a ha hq)

end Yask
