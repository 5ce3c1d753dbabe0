import Verif.Mpi.ScrNetModel
import Verif.Mpi.PassLemmas
import Verif.Sched.ScratchTrace

/-! Helper lemmas: passes with scratch vars on several ranks are passes of the stencil in which scratch vars are substituted. -/

namespace Yask
open Spec Mpi RunCfg

section
variable {α : Type*} {c : RunCfg} {dir : Int}

theorem becomes_passWith {β : Type*} (φ : α → List β) {ev : Int → Nat → Box → Traces α} {ev' : Int → Nat → Box → Traces β}
    (h : ∀ t st bx, Becomes φ (ev t st bx) (ev' t st bx)) (p : Pass) :
    Becomes φ (packedPassWith ev c dir p) (packedPassWith ev' c dir p) ∧ Becomes φ (laterPassWith ev c dir p) (laterPassWith ev' c dir p) := by
  have hm := becomes_calcMega (c := c) φ h
  exact ⟨becomes_seq _ _ _ _ fun _ _ => becomes_seq _ _ _ _ fun _ _ => hm _ _ _ _ _ _,
    becomes_seq _ _ _ _ fun _ _ => becomes_seq _ _ _ _ fun _ _ => hm _ _ _ _ _ _⟩

theorem always_passWith (hn : c.nd ≤ 8) {Q : List α → Prop} (hQ : Mixes Q) {ev : Int → Nat → Box → Traces α}
    (h : ∀ t st bx, bx.length = c.nd → Always (ev t st bx) Q) (p : Pass) :
    Always (packedPassWith ev c dir p) Q ∧ Always (laterPassWith ev c dir p) Q := by
  have hm := always_calcMega hn hQ h
  exact ⟨always_seq hQ _ _ fun _ _ => always_seq hQ _ _ fun _ _ => hm _ _ _ _ _ _,
    always_seq hQ _ _ fun _ _ => always_seq hQ _ _ fun _ _ => hm _ _ _ _ _ _⟩

theorem passWith_withParts (np : Nat → Nat) (dm : Nat → Nat → List Int → Bool) (so : Nat → Nat → Int → Bool) (ev : Int → Nat → Box → Traces α)
    (p : Pass) : packedPassWith ev (c.withParts np dm so) dir p = packedPassWith ev c dir p ∧
      laterPassWith ev (c.withParts np dm so) dir p = laterPassWith ev c dir p := by
  unfold packedPassWith laterPassWith sectPassWith
  rw [calcMegaWith_withParts]
  exact ⟨rfl, rfl⟩

end

namespace Scr
variable {Buf SVar Val : Type*} {X : Scr Buf SVar Val} {c : RunCfg} {dir : Int}

theorem quiet_prefix {u v : List STask} (h : Quiet c dir (u ++ v)) : Quiet c dir u := by
  rintro u1 u2 u3 u4 bx a bx' b rfl
  exact h u1 u2 u3 (u4 ++ v) bx a bx' b (by simp)

/-- The facts about a pass with scratch vars on one rank. -/
theorem pass_facts (h : c.Ok) (hrem : c.tbSteps = 0 ∨ c.NoShortRemainder) (hdir : dir = 1 ∨ dir = -1) (hs : X.Supplied c) {first : Int} {p : Pass}
    {m0 cnt : Nat} (hp : PassAt c first dir p m0 cnt) {u v : List STask} (hu : packedPassWith (X.evBox c) c dir p u)
    (hv : laterPassWith (X.evBox c) c dir p v) :
    (X.Closed u ∧ X.Closed (u ++ v)) ∧ (∀ x ∈ u ++ v, X.Regular c x) ∧ Quiet c dir (u ++ v) ∧
      packedPass c dir p (u.flatMap STask.mains) ∧ laterPass c dir p (v.flatMap STask.mains) := by
  have h1 := always_passWith (dir := dir) h.nd_le (mixes_closed (X := X)) (ev := X.evBox c) (fun t st bx hb => by
    rw [evBox_pieces]
    exact closed_seq _ (items_spec hs st t).1) p
  have h2 := always_passWith (dir := dir) h.nd_le (mixes_all (X.Regular c)) (ev := X.evBox c) (fun t st bx hb => by
    rw [evBox_pieces]
    exact regular_seq hb _ (items_spec hs st t).1) p
  have h3 := becomes_passWith (c := c) (dir := dir) STask.mains (becomes_evalBox hs) p
  have h4 := becomes_passWith (c := c) (dir := dir) (shadowOf c) (becomes_shadow hs) p
  have hw := passWith_withParts (c := c) (dir := dir) (fun st => c.nparts st + 1) (fun st p x => match p with | 0 => inStage c st x | p + 1 => c.dom st p x)
    (fun st p t => match p with | 0 => true | p + 1 => c.stepOk st p t) (shadow c).evalBox p
  have hr : ∀ x ∈ u ++ v, X.Regular c x := by
    intro x hx
    rcases List.mem_append.1 hx with hx | hx
    · exact h2.1 u hu x hx
    · exact h2.2 v hv x hx
  have m1 : packedPass c dir p (u.flatMap STask.mains) := h3.1 u hu
  have m2 : laterPass c dir p (v.flatMap STask.mains) := h3.2 v hv
  have s1 : packedPass (shadow c) dir p (u.flatMap (shadowOf c)) := by
    have := h4.1 u hu
    rw [← hw.1] at this
    exact this
  have s2 : laterPass (shadow c) dir p (v.flatMap (shadowOf c)) := by
    have := h4.2 v hv
    rw [← hw.2] at this
    exact this
  have hp' : PassAt (shadow c) first dir p m0 cnt := PassAt.congr (c := c) (c' := shadow c) rfl rfl hp
  have g := hp'.isPass (shadow_ok h) (shadow_rem hrem) hdir s1 s2
  have g' := hp.isPass h hrem hdir m1 m2
  refine ⟨⟨h1.1 u hu, mixes_closed.mix _ _ _ (h1.1 u hu) (h1.2 v hv) (interleave_append u v)⟩, hr, ?_, m1, m2⟩
  refine quiet_of_shadow h hr ?_ ?_
  · rw [List.flatMap_append]; exact g'.nodup
  · rw [List.flatMap_append]; exact g.ord

end Scr

section
variable {G : RunCfg} {SVar Val : Type*} {N : Net} {X : Nat → Scr Slot SVar Val} {dir : Int}

/-- The stencil with substituted scratch vars, on each rank. -/
def InlinedOn (X : Nat → Scr Slot SVar Val) (hd : Divided G N) (S : Stencil G Slot Val) : Prop :=
  ∀ r (hr : r < N.n), (X r).Inlined (S.on (N.cfg r) (hd.nd r hr) (hd.halo r hr))

theorem mem_mains {tr : List STask} {a : Task} (h : a ∈ tr.flatMap STask.mains) : ∃ bx, STask.main bx a ∈ tr := by
  obtain ⟨x, hx, hm⟩ := List.mem_flatMap.1 h
  cases x with
  | start _ _ _ => exact absurd hm List.not_mem_nil
  | scr _ _ _ _ _ => exact absurd hm List.not_mem_nil
  | main bx b =>
    simp only [STask.mains, List.mem_singleton] at hm
    exact ⟨bx, hm ▸ hx⟩

theorem scr_pass (hd : Divided G N) (hs : ∀ r < N.n, (X r).Supplied (N.cfg r)) {S : Stencil G Slot Val} (hi : InlinedOn X hd S)
    (hdir : dir = 1 ∨ dir = -1) {first : Int} {p : Pass} {m0 cnt : Nat} (hp : ∀ r < N.n, PassAt (N.cfg r) first dir p m0 cnt)
    {s : NState Val} {o : Outcome (NState Val)} (ho : N.ScrPassTo X dir p s o) : N.PassTo S dir p s o := by
  obtain ⟨u, v, f, mk, htr, rfl⟩ := ho
  have key : ∀ r, r < N.n → ∀ m : Slot × List Int → Val,
      ((X r).exec (u r) ⟨m, f r⟩).vars = S.sem.exec ((u r).flatMap STask.mains) m ∧
      ((X r).exec (u r ++ v r) ⟨m, f r⟩).vars = S.sem.exec ((v r).flatMap STask.mains) (S.sem.exec ((u r).flatMap STask.mains) m) := by
    intro r hr m
    obtain ⟨t1, t2, -⟩ := htr r hr
    obtain ⟨⟨c1, c2⟩, c3, c4, -⟩ := Scr.pass_facts (hd.ok r hr) (hd.rem r hr) hdir (hs r hr) (hp r hr) t1 t2
    have hh := (hd.ok r hr).halo_nonneg
    constructor
    · exact Scr.exec_inlined (hs r hr) (hi r hr) hdir hh c1 (fun x hx => c3 x (List.mem_append_left _ hx)) (Scr.quiet_prefix c4) ⟨m, f r⟩
    · rw [← exec_append, ← List.flatMap_append]
      exact Scr.exec_inlined (hs r hr) (hi r hr) hdir hh c2 c3 c4 ⟨m, f r⟩
  refine ⟨fun r => if r < N.n then (u r).flatMap STask.mains else [], fun r => if r < N.n then (v r).flatMap STask.mains else [], mk, ?_, ?_⟩
  · intro r hr
    obtain ⟨t1, t2, t3, t4⟩ := htr r hr
    obtain ⟨-, c3, -, c5, c6⟩ := Scr.pass_facts (hd.ok r hr) (hd.rem r hr) hdir (hs r hr) (hp r hr) t1 t2
    simp only [if_pos hr]
    refine ⟨c5, c6, fun a ha β hw => ?_, t4⟩
    obtain ⟨bx, hm⟩ := mem_mains ha
    have hreg : (X r).Regular (N.cfg r) (.main bx a) := c3 _ (List.mem_append_left _ hm)
    exact t3 bx a hm β (((hi r hr).writes a hreg.1 β).1 hw)
  · have e1 : s.scrComputed X N dir p u f mk =
        s.computed S N dir p (fun r => if r < N.n then (u r).flatMap STask.mains else []) mk := by
      unfold NState.scrComputed NState.computed
      congr 1
      funext r
      by_cases hr : r < N.n
      · simp only [if_pos hr]
        exact (key r hr _).1
      · simp only [if_neg hr]
        rfl
    have e2 : s.scrComputed X N dir p (fun r => u r ++ v r) f mk =
        (s.computed S N dir p (fun r => if r < N.n then (u r).flatMap STask.mains else []) mk).further S
          (fun r => if r < N.n then (v r).flatMap STask.mains else []) := by
      unfold NState.scrComputed NState.computed NState.further
      congr 1
      funext r
      by_cases hr : r < N.n
      · simp only [if_pos hr]
        exact (key r hr _).2
      · simp only [if_neg hr]
        rfl
    rw [e1, e2]

theorem scr_passes (hd : Divided G N) (hs : ∀ r < N.n, (X r).Supplied (N.cfg r)) {S : Stencil G Slot Val} (hi : InlinedOn X hd S)
    (hdir : dir = 1 ∨ dir = -1) {first : Int} (ps : List Pass) {m m' : Nat} (hch : PassChain G first dir ps m m') {s : NState Val}
    {o : Outcome (NState Val)} (ho : N.ScrPassesTo X dir ps s o) : N.PassesTo S dir ps s o := by
  induction ps generalizing m s with
  | nil => exact ho
  | cons p ps ih =>
    obtain ⟨cnt, h1, h2⟩ := hch
    obtain ⟨o1, ho1, ho2⟩ := ho
    refine ⟨o1, scr_pass hd hs hi hdir (fun r hr => h1.congr (hd.steps r hr).symm (hd.nst r hr).symm) ho1, ?_⟩
    rcases ho2 with ⟨s1, e1, ho2⟩ | ho2
    · exact Or.inl ⟨s1, e1, ih h2 ho2⟩
    · exact Or.inr ho2

/-- A run with scratch vars on several ranks is a run of the stencil with substituted scratch vars. -/
theorem scr_run (hd : Divided G N) (hn : 0 < N.n) (hs : ∀ r < N.n, (X r).Supplied (N.cfg r)) {S : Stencil G Slot Val} (hi : InlinedOn X hd S)
    {first last : Int} {s : NState Val} {o : Outcome (NState Val)} (ho : N.ScrRunTo X first last s o) : N.RunTo S first last s o := by
  have hch : PassChain G first (stepDir first last) (passes (N.cfg 0) first last) 0 (numSteps first last * G.nst) := by
    have := (passes_chain (hd.ok 0 hn) first last).congr (hd.steps 0 hn) (hd.nst 0 hn)
    rwa [hd.nst 0 hn] at this
  unfold Net.ScrRunTo at ho
  unfold Net.RunTo
  simp only at ho ⊢
  split_ifs at ho ⊢
  · obtain ⟨o1, e, ho⟩ := ho
    refine ⟨o1, e, ?_⟩
    rcases ho with ⟨s1, e1, ho⟩ | ho
    · exact Or.inl ⟨s1, e1, scr_passes hd hs hi (stepDir_cases first last) _ hch ho⟩
    · exact Or.inr ho
  · exact ho

end
end Yask
