import Verif.Spec.SolnRunSpec
import Verif.Sched.RefLemmas
import Mathlib.Data.Int.ModEq
import Mathlib.Data.List.Induction
import Mathlib.Tactic.Ring
import Mathlib.Tactic.Linarith

/-!
# Lemmas: the tasks of the kernel compute the values that the equations define
-/

namespace Yask
open Spec Comp RunCfg

section
variable {Val : Type} {G : RunCfg} {U : USoln Val} {L : List (List (List (Fin U.eqs.length)))} {sz : Nat → Nat}
  {vdims : Nat → List String}

theorem getD_shiftPt (dims : List String) (x : List Int) (p : Pt) {j : Nat} (hj : j < dims.length) :
    (shiftPt dims x p).getD j 0 = x.getD j 0 + p.at (dims.getD j "") := by
  unfold shiftPt
  rw [List.getD_eq_getElem?_getD, List.getElem?_map, List.getElem?_range hj]
  rfl

theorem shiftPt_zero {dims : List String} {x : List Int} {p : Pt} (hx : x.length = dims.length) (hp : ∀ n, p.at n = 0) :
    shiftPt dims x p = x := by
  apply List.ext_getElem
  · simp [shiftPt, hx]
  · intro i h1 h2
    simp only [shiftPt, List.getElem_map, List.getElem_range, hp, add_zero]
    rw [List.getD_eq_getElem?_getD, List.getElem?_eq_getElem h2]
    rfl

theorem ptSlot_lhs (hl : Legal U vdims) (e : Fin U.eqs.length) (t : Int) :
    ptSlot U sz U.eqs[e].lhs t = (U.eqs[e].lhs.var, ((t + U.dir) % (sz U.eqs[e].lhs.var : Int)).toNat) := by
  have h1 := (hl.lhs U.eqs[e] (List.getElem_mem _)).1
  have h2 := hl.step U.eqs[e] (List.getElem_mem _) U.eqs[e].lhs List.mem_cons_self
  rw [h1] at h2
  unfold ptSlot stepSlot stepAt
  rw [h1]
  simp only [Option.isSome_some] at h2
  rw [← h2]
  rfl

theorem ptSlot_some (hl : Legal U vdims) {e : UEq Val} (he : e ∈ U.eqs) {p : Pt} (hp : p ∈ e.rhs) {k : Int} (hk : p.step = some k) (t : Int) :
    ptSlot U sz p t = (p.var, ((t + k) % (sz p.var : Int)).toNat) ∧ U.hasStep p.var = true := by
  have h2 := hl.step e he p (List.mem_cons_of_mem _ hp)
  rw [hk] at h2
  simp only [Option.isSome_some] at h2
  unfold ptSlot stepSlot stepAt
  rw [hk, ← h2]
  exact ⟨rfl, rfl⟩

theorem ptSlot_none (hl : Legal U vdims) {e : UEq Val} (he : e ∈ U.eqs) {p : Pt} (hp : p ∈ e.rhs) (hk : p.step = none) (t : Int) :
    ptSlot U sz p t = (p.var, 0) ∧ U.hasStep p.var = false := by
  have h2 := hl.step e he p (List.mem_cons_of_mem _ hp)
  rw [hk] at h2
  simp only [Option.isSome_none] at h2
  unfold ptSlot stepSlot stepAt
  rw [hk, ← h2]
  exact ⟨rfl, rfl⟩

theorem lhs_hasStep (hl : Legal U vdims) (e : Fin U.eqs.length) : U.hasStep U.eqs[e].lhs.var = true := by
  have h1 := (hl.lhs U.eqs[e] (List.getElem_mem _)).1
  have h2 := hl.step U.eqs[e] (List.getElem_mem _) U.eqs[e].lhs List.mem_cons_self
  rw [h1] at h2
  exact h2.symm

theorem toNat_mod_eq {a b : Int} {n : Nat} (hn : 0 < n) (h : (a % (n : Int)).toNat = (b % (n : Int)).toNat) : (n : Int) ∣ a - b := by
  have h1 := Int.emod_nonneg a (b := (n : Int)) (by omega)
  have h2 := Int.emod_nonneg b (b := (n : Int)) (by omega)
  have h3 : b % (n : Int) = a % (n : Int) := by omega
  exact Int.modEq_iff_dvd.1 h3

theorem mod_eq_of_dvd {a b : Int} {n : Nat} (h : (n : Int) ∣ a - b) : (a % (n : Int)).toNat = (b % (n : Int)).toNat := by
  have h1 : Int.ModEq n b a := Int.modEq_iff_dvd.2 h
  rw [show b % (n : Int) = a % (n : Int) from h1]

/-- A step that is read and shares its slot with the new step: it is the new step, or the oldest one. -/
theorem same_slot (hl : Legal U vdims) (hn : Enough U L sz) {e : UEq Val} (he : e ∈ U.eqs) {p : Pt} (hp : p ∈ e.rhs) {k : Int}
    (hk : p.step = some k) (h : (sz p.var : Int) ∣ U.dir - k) : k = U.dir ∨ k * U.dir = 1 - sz p.var := by
  have h1 := hn.range e he p hp k hk
  have h2 := hl.rhs e he p hp k hk
  have h3 := hn.pos p.var
  obtain ⟨c, hc⟩ := h
  rcases hl.dir with hd | hd <;> rw [hd] at h1 h2 hc ⊢
  · have : c = 0 ∨ c = 1 := by
      by_contra hne
      rcases lt_or_ge c 0 with h | h
      · have := mul_le_mul_of_nonneg_left (show c ≤ -1 by omega) (show (0 : Int) ≤ sz p.var by omega)
        omega
      · have := mul_le_mul_of_nonneg_left (show (2 : Int) ≤ c by omega) (show (0 : Int) ≤ sz p.var by omega)
        omega
    rcases this with rfl | rfl <;> omega
  · have : c = 0 ∨ c = -1 := by
      by_contra hne
      rcases lt_or_ge c 0 with h | h
      · have := mul_le_mul_of_nonneg_left (show c ≤ -2 by omega) (show (0 : Int) ≤ sz p.var by omega)
        omega
      · have := mul_le_mul_of_nonneg_left (show (1 : Int) ≤ c by omega) (show (0 : Int) ≤ sz p.var by omega)
        omega
    rcases this with rfl | rfl <;> omega

/-- The same task if it evaluates the same equation at the same step and point. -/
theorem task_eq (ha : Arranged U L) {a b : Task} {e : Fin U.eqs.length} (h1 : e ∈ partOf L a) (h2 : e ∈ partOf L b)
    (hs : a.step = b.step) (hp : a.pt = b.pt) : a = b := by
  obtain ⟨i1, i2⟩ := ha.uniq e _ _ _ _ h1 h2
  cases a; cases b
  simp only at *
  subst hs hp i1 i2
  rfl

/-- Equations of the same var that apply at the same place are the same. -/
theorem eq_of_applies (hl : Legal U vdims) {e e' : Fin U.eqs.length} (hv : U.eqs[e].lhs.var = U.eqs[e'].lhs.var) {t : Int} {x : List Int}
    (h1 : U.eqs[e].domIf x = true) (h2 : U.eqs[e].stepIf t = true) (h3 : U.eqs[e'].domIf x = true) (h4 : U.eqs[e'].stepIf t = true) : e = e' := by
  have := hl.one e e' U.eqs[e] U.eqs[e'] (List.getElem?_eq_getElem e.2) (List.getElem?_eq_getElem e'.2) hv t x h1 h2 h3 h4
  exact Fin.ext this

variable [Inhabited Val]

/-- The stencil that the kernel evaluates. -/
def solnStencil (hr : Runs G U L) (hl : Legal U vdims) (ha : Arranged U L) (hn : Enough U L sz) : Stencil G (Nat × Nat) Val where
  writes := U.writes L sz
  reads := U.reads L sz
  value := U.value L sz
  reads_near := by
    rintro a β q ⟨_, e, he, _, _, p, hp, _, rfl⟩ j hj
    rw [getD_shiftPt _ _ _ (hr.nd ▸ hj)]
    have := hr.halo U.eqs[e] (List.getElem_mem _) p hp j hj
    simp only
    omega
  value_local := by
    intro a m m' β h
    unfold USoln.value
    cases hf : (partOf L a).find? fun e => decide (β = ptSlot U sz U.eqs[e].lhs a.step) with
    | none => rfl
    | some e =>
      simp only
      split_ifs with hc
      · congr 1
        apply List.map_congr_left
        intro p hp
        exact h _ _ ⟨hc.1, e, List.mem_of_find?_eq_some hf, hc.2.1, hc.2.2, p, hp, rfl, rfl⟩
      · rfl
  indep := by
    rintro a b hne hs hg β ⟨e, he, rfl, c1, c2⟩
    constructor
    · rintro ⟨hlen, e', he', c3, c4, p, hp, hβ, hpt⟩
      have hmem : U.eqs[e'] ∈ U.eqs := List.getElem_mem _
      rw [ptSlot_lhs hl] at hβ
      cases hk : p.step with
      | none =>
        obtain ⟨h1, h2⟩ := ptSlot_none (sz := sz) hl hmem hp hk b.step
        rw [h1, Prod.mk.injEq] at hβ
        have := lhs_hasStep hl e
        rw [hβ.1, h2] at this
        cases this
      | some k =>
        obtain ⟨h1, h2⟩ := ptSlot_some (sz := sz) hl hmem hp hk b.step
        rw [h1, Prod.mk.injEq] at hβ
        obtain ⟨b1, b2⟩ := hβ
        rw [b1, hs] at b2
        have hd := toNat_mod_eq (hn.pos p.var) b2
        rw [show b.step + U.dir - (b.step + k) = U.dir - k by ring] at hd
        rcases same_slot hl hn hmem hp hk hd with hk' | hk'
        · have := ha.order e' e _ _ _ _ he' he p hp b1.symm (by
            rw [hk, (hl.lhs U.eqs[e] (List.getElem_mem _)).1, hk'])
          omega
        · obtain ⟨z1, z2⟩ := hn.oldest e' e _ _ _ _ he' he (by omega) p hp b1.symm k hk hk'
          rw [shiftPt_zero hlen z1] at hpt
          have : e' = e := eq_of_applies hl (z2.trans b1.symm) c3 c4 (hpt ▸ c1) (hs ▸ c2)
          subst this
          exact hne (task_eq ha he he' hs hpt)
    · rintro ⟨⟨e', he', hβ, c3, c4⟩, hpt⟩
      rw [ptSlot_lhs hl, ptSlot_lhs hl, Prod.mk.injEq] at hβ
      have : e = e' := eq_of_applies hl hβ.1 c1 c2 (hpt ▸ c3) (hs ▸ c4)
      subst this
      exact hne (task_eq ha he he' hs hpt)

/-! ### One step of the reference evaluation -/

/-- The tasks of one step. -/
theorem mem_step (hr : Runs G U L) (t : Int) (a : Task) : a ∈ G.runRef t t ↔ a.step = t ∧ a.stage < L.length ∧
    a.part < (L.getD a.stage []).length ∧ InWhole G a.pt ∧
    ∀ e ∈ partOf L a, U.eqs[e].domIf a.pt = true ∧ U.eqs[e].stepIf t = true := by
  rw [(runRef_spec G t t).2.1 a]
  have hns : numSteps t t = 1 := by simp [numSteps]
  unfold RunCfg.InRef RunCfg.Valid InWhole partOf
  rw [hns]
  constructor
  · rintro ⟨i, hi, h1, h2, ⟨h3, h4, h5, h6⟩, h7⟩
    obtain rfl : i = 0 := by omega
    have hst : a.step = t := by simpa using h1
    refine ⟨hst, hr.nst ▸ h2, by rw [← hr.nparts _ h2]; exact h3, ⟨h6, fun j hj => h7 j hj⟩, fun e he => ⟨((hr.dom _ h2 _ h3 _ h6).1 h5).2 e he, ?_⟩⟩
    exact (hr.stepOk _ h2 _ h3 _).1 (hst ▸ h4) e he
  · rintro ⟨h1, h2, h3, ⟨h4, h5⟩, h6⟩
    have h2' : a.stage < G.nst := hr.nst ▸ h2
    have h3' : a.part < G.nparts a.stage := by rw [hr.nparts _ h2']; exact h3
    refine ⟨0, by omega, by simpa using h1, h2', ⟨h3', ?_, ?_, h4⟩, fun j hj => h5 j hj⟩
    · rw [h1]; exact (hr.stepOk _ h2' _ h3' _).2 fun e he => (h6 e he).2
    · exact (hr.dom _ h2' _ h3' _ h4).2 ⟨h5, fun e he => (h6 e he).1⟩

/-- The task of an equation that applies. -/
theorem task_of_applies (hr : Runs G U L) (ha : Arranged U L) {e : Fin U.eqs.length} {t : Int} {x : List Int}
    (h : U.eqs[e].Applies (InWhole G) t x) : ∃ i p, e ∈ (L.getD i []).getD p [] ∧ (⟨t, i, p, x⟩ : Task) ∈ G.runRef t t := by
  obtain ⟨i, p, he⟩ := ha.mem e
  refine ⟨i, p, he, (mem_step hr t _).2 ⟨rfl, ?_, ?_, h.1, ?_⟩⟩
  · by_contra hc
    rw [List.getD_eq_getElem?_getD, List.getD_eq_getElem?_getD, List.getElem?_eq_none (l := L) (by simpa using hc)] at he
    simp at he
  · by_contra hc
    rw [List.getD_eq_getElem?_getD, List.getElem?_eq_none (by simpa using hc)] at he
    simp at he
  · intro e' he'
    obtain ⟨s1, s2⟩ := ha.same e e' i p he he'
    rw [← s1, ← s2]
    exact h.2

theorem apart {dir j : Int} {n : Nat} (hd : dir = 1 ∨ dir = -1) (h1 : 1 ≤ j) (h2 : j < n) {t : Int} :
    ¬ (n : Int) ∣ (t + dir) - (t + dir - dir * j) := by
  rintro ⟨c, hc⟩
  have e : dir * j = n * c := by linarith
  have hc1 : c < 1 := by
    by_contra h
    have := mul_le_mul_of_nonneg_left (show (1 : Int) ≤ c by omega) (show (0 : Int) ≤ n by omega)
    rcases hd with rfl | rfl <;> omega
  have hc2 : -1 < c := by
    by_contra h
    have := mul_le_mul_of_nonneg_left (show c ≤ -1 by omega) (show (0 : Int) ≤ n by omega)
    rcases hd with rfl | rfl <;> omega
  obtain rfl : c = 0 := by omega
  rcases hd with rfl | rfl <;> omega

theorem near_shift (hr : Runs G U L) {e : UEq Val} (he : e ∈ U.eqs) {p : Pt} (hp : p ∈ e.rhs) (x : List Int) :
    Near G.nd (fun j => (G.dim j).maxHalo) (shiftPt U.dims x p) x := by
  intro j hj
  rw [getD_shiftPt _ _ _ (hr.nd ▸ hj)]
  have := hr.halo e he p hp j hj
  simp only
  omega

theorem near_symm {nd : Nat} {h : Nat → Int} {x y : List Int} (hx : Near nd h x y) : Near nd h y x :=
  fun j hj => ⟨(hx j hj).2, (hx j hj).1⟩

theorem writes_var (hl : Legal U vdims) {a : Task} {v s : Nat} (h : U.writes L sz a (v, s)) :
    U.hasStep v = true ∧ (v, s) = stepSlot U sz v (a.step + U.dir) := by
  obtain ⟨e, _, hβ, _⟩ := h
  rw [ptSlot_lhs hl, Prod.mk.injEq] at hβ
  obtain ⟨rfl, rfl⟩ := hβ
  have := lhs_hasStep hl e
  refine ⟨this, ?_⟩
  unfold stepSlot
  rw [if_pos this]

/-- Equations and their conditions in a task of the step. -/
theorem applies_of_mem (hr : Runs G U L) {t : Int} {a : Task} (h : a ∈ G.runRef t t) {e : Fin U.eqs.length} (he : e ∈ partOf L a) :
    U.eqs[e].Applies (InWhole G) t a.pt := by
  obtain ⟨_, _, _, h4, h5⟩ := (mem_step hr t a).1 h
  exact ⟨h4, h5 e he⟩

open Classical in
/-- The values after some of the tasks of a step. -/
theorem step_prefix (hr : Runs G U L) (hl : Legal U vdims) (ha : Arranged U L) (hn : Enough U L sz) {W : History Val} {t : Int}
    (heq : ∀ e ∈ U.eqs, ∀ x, e.Applies (InWhole G) t x → W e.lhs.var (t + U.dir) x = e.rhsVal U.dims W t x)
    (hkeep : ∀ v x, U.hasStep v = true → (¬ ∃ e ∈ U.eqs, e.lhs.var = v ∧ e.Applies (InWhole G) t x) →
      W v (t + U.dir) x = W v (t + U.dir - U.dir * sz v) x)
    {m0 : (Nat × Nat) × List Int → Val} (hm : Stores U sz W t m0) (pre : List Task) :
    ∀ rest, G.runRef t t = pre ++ rest →
      ∀ v s x, ((solnStencil hr hl ha hn).sem.exec pre m0) ((v, s), x) =
        if ∃ a ∈ pre, a.pt = x ∧ U.writes L sz a (v, s) then W v (t + U.dir) x else m0 ((v, s), x) := by
  induction pre using List.reverseRecOn with
  | nil =>
    intro rest _ v s x
    simp [ActionSem.exec]
  | append_singleton pre a ih =>
    intro rest hrest v s x
    rw [List.append_assoc] at hrest
    have ih := ih ([a] ++ rest) hrest
    obtain ⟨hnd, _, hpw⟩ := runRef_spec G t t
    have hma : a ∈ G.runRef t t := by rw [hrest]; simp
    have hmpre : ∀ b ∈ pre, b ∈ G.runRef t t := fun b hb => by rw [hrest]; simp [hb]
    have hstep : ∀ b ∈ G.runRef t t, b.step = t := fun b hb => ((mem_step hr t b).1 hb).1
    rw [hrest] at hpw hnd
    have hordpre : ∀ b ∈ pre, ¬ G.MustPrecede (stepDir t t) a b := fun b hb =>
      (List.pairwise_append.1 hpw).2.2 b hb a (by simp) rfl
    have hordpost : ∀ b ∈ rest, ¬ G.MustPrecede (stepDir t t) b a := fun b hb =>
      (List.pairwise_cons.1 (List.pairwise_append.1 hpw).2.1).1 b hb rfl
    have hnotin : a ∉ pre := fun h => (List.nodup_append.1 hnd).2.2 a h a (by simp) rfl
    rw [exec_append]
    show (solnStencil hr hl ha hn).sem.run a ((solnStencil hr hl ha hn).sem.exec pre m0) ((v, s), x) = _
    generalize hmm : (solnStencil hr hl ha hn).sem.exec pre m0 = mm at ih ⊢
    by_cases hw : U.writes L sz a (v, s) ∧ x = a.pt
    · rw [if_pos ⟨a, by simp, hw.2.symm, hw.1⟩]
      have h1 : (solnStencil hr hl ha hn).sem.run a mm ((v, s), x) = U.value L sz a mm (v, s) := if_pos hw
      rw [h1]
      obtain ⟨hw1, rfl⟩ := hw
      obtain ⟨hvs, hsl⟩ := writes_var hl hw1
      obtain ⟨e0, he0, hβ0, _⟩ := hw1
      unfold USoln.value
      cases hf : (partOf L a).find? fun e => decide ((v, s) = ptSlot U sz U.eqs[e].lhs a.step) with
      | none =>
        rw [List.find?_eq_none] at hf
        exact absurd (decide_eq_true hβ0) (hf e0 he0)
      | some e =>
        have he := List.mem_of_find?_eq_some hf
        have hβ : (v, s) = ptSlot U sz U.eqs[e].lhs a.step := by simpa using List.find?_some hf
        have hap := applies_of_mem hr hma he
        have hmem : U.eqs[e] ∈ U.eqs := List.getElem_mem _
        have hst := hstep a hma
        simp only
        rw [if_pos ⟨by rw [hap.1.1, hr.nd], hap.2.1, hst ▸ hap.2.2⟩]
        rw [ptSlot_lhs hl, Prod.mk.injEq] at hβ
        rw [hβ.1, heq _ hmem _ hap, hst]
        unfold UEq.rhsVal
        congr 1
        apply List.map_congr_left
        intro p hp
        have hnear := near_shift hr hmem hp a.pt
        set y := shiftPt U.dims a.pt p with hy
        cases hk : p.step with
        | none =>
          obtain ⟨q1, q2⟩ := ptSlot_none (sz := sz) hl hmem hp hk t
          rw [q1, ih, if_neg]
          · have : stepAt p t = 0 := by unfold stepAt; rw [hk]
            rw [this]
            exact hm.1 _ _ q2
          · rintro ⟨b, _, _, hb⟩
            rw [(writes_var hl hb).1] at q2
            cases q2
        | some k =>
          obtain ⟨q1, q2⟩ := ptSlot_some (sz := sz) hl hmem hp hk t
          have hat : stepAt p t = t + k := by unfold stepAt; rw [hk]
          have hpos := hn.pos p.var
          rw [q1, ih, hat]
          by_cases hkd : k = U.dir
          · subst hkd
            split_ifs with hex
            · rfl
            · rw [hkeep _ _ q2]
              · have hs := hm.2 p.var y q2 (sz p.var - 1) (by omega)
                have e1 : t - U.dir * ((sz p.var - 1 : Nat) : Int) = t + U.dir - U.dir * sz p.var := by
                  rw [Nat.cast_sub (by omega)]; push_cast; ring
                rw [e1] at hs
                rw [← hs]
                unfold stepSlot
                rw [if_pos q2]
                congr 3
                apply mod_eq_of_dvd
                exact ⟨U.dir, by ring⟩
              · rintro ⟨e', he', hv', hap'⟩
                obtain ⟨i', hi', rfl⟩ := List.getElem_of_mem he'
                obtain ⟨i, pp, hin, hb⟩ := task_of_applies hr ha (e := ⟨i', hi'⟩) hap'
                have hlt := ha.order e ⟨i', hi'⟩ _ _ _ _ he hin p hp hv'.symm
                  (by rw [hk]; exact (hl.lhs _ (List.getElem_mem _)).1.symm)
                have hwb : U.writes L sz ⟨t, i, pp, y⟩ (p.var, ((t + U.dir) % (sz p.var : Int)).toNat) := by
                  refine ⟨⟨i', hi'⟩, hin, ?_, hap'.2⟩
                  rw [ptSlot_lhs hl, show U.eqs[(⟨i', hi'⟩ : Fin U.eqs.length)].lhs.var = p.var from hv']
                rw [hrest] at hb
                rcases List.mem_append.1 hb with hb | hb
                · exact hex ⟨_, hb, rfl, hwb⟩
                · rcases List.mem_append.1 hb with hb | hb
                  · rw [List.mem_singleton] at hb
                    rw [← hb] at hlt
                    exact absurd hlt (lt_irrefl _)
                  · exact hordpost _ hb ⟨Or.inr ⟨hst.symm, hlt⟩, hnear⟩
          · rw [if_neg]
            · have hr1 := hn.range _ hmem p hp k hk
              have hr2 := hl.rhs _ hmem p hp k hk
              have hj : (((-(k * U.dir)).toNat : Nat) : Int) = -(k * U.dir) := by
                apply Int.toNat_of_nonneg
                rcases hl.dir with hd | hd <;> rw [hd] at hr2 hkd ⊢ <;> omega
              have hs := hm.2 p.var y q2 (-(k * U.dir)).toNat (by omega)
              have e1 : t - U.dir * (((-(k * U.dir)).toNat : Nat) : Int) = t + k := by
                rw [hj]
                rcases hl.dir with hd | hd <;> rw [hd] <;> ring
              rw [e1] at hs
              rw [← hs]
              unfold stepSlot
              rw [if_pos q2]
            · rintro ⟨b, hb, hby, e', he', hβ', c1, c2⟩
              have hbs := hstep b (hmpre b hb)
              rw [ptSlot_lhs hl, Prod.mk.injEq, hbs] at hβ'
              obtain ⟨b1, b2⟩ := hβ'
              rw [← b1] at b2
              have hd := toNat_mod_eq hpos b2.symm
              rcases same_slot hl hn hmem hp hk (by rw [show t + U.dir - (t + k) = U.dir - k by ring] at hd; exact hd) with h | h
              · exact hkd h
              have hle : b.stage ≤ a.stage := by
                by_contra hc
                exact hordpre b hb ⟨Or.inr ⟨by rw [hst, hbs], by omega⟩, near_symm (hby ▸ hnear)⟩
              obtain ⟨z, hz⟩ := hn.oldest e e' _ _ _ _ he he' hle p hp b1 k hk h
              have hya : y = a.pt := shiftPt_zero (by rw [hap.1.1, hr.nd]) z
              have : e = e' := eq_of_applies hl (hz.trans b1) hap.2.1 hap.2.2 (by rw [← hya, ← hby]; exact c1) (hbs ▸ c2)
              subst this
              exact hnotin (task_eq ha he he' (by rw [hst, hbs]) (by rw [hby, hya]) ▸ hb)
    · have h1 : (solnStencil hr hl ha hn).sem.run a mm ((v, s), x) = mm ((v, s), x) := if_neg hw
      rw [h1, ih]
      congr 1
      apply propext
      constructor
      · rintro ⟨b, hb, h2⟩
        exact ⟨b, by simp [hb], h2⟩
      · rintro ⟨b, hb, h2, h3⟩
        rcases List.mem_append.1 hb with hb | hb
        · exact ⟨b, hb, h2, h3⟩
        · rw [List.mem_singleton] at hb
          subst hb
          exact absurd ⟨h3, h2.symm⟩ hw

/-- One step. -/
theorem step_stores (hr : Runs G U L) (hl : Legal U vdims) (ha : Arranged U L) (hn : Enough U L sz) {W : History Val} {t : Int}
    (heq : ∀ e ∈ U.eqs, ∀ x, e.Applies (InWhole G) t x → W e.lhs.var (t + U.dir) x = e.rhsVal U.dims W t x)
    (hkeep : ∀ v x, U.hasStep v = true → (¬ ∃ e ∈ U.eqs, e.lhs.var = v ∧ e.Applies (InWhole G) t x) →
      W v (t + U.dir) x = W v (t + U.dir - U.dir * sz v) x)
    {m0 : (Nat × Nat) × List Int → Val} (hm : Stores U sz W t m0) :
    Stores U sz W (t + U.dir) ((solnStencil hr hl ha hn).sem.exec (G.runRef t t) m0) := by
  classical
  have h := step_prefix hr hl ha hn heq hkeep hm (G.runRef t t) [] (by simp)
  constructor
  · intro v x hv
    rw [h, if_neg]
    · exact hm.1 v x hv
    · rintro ⟨b, _, _, hb⟩
      rw [(writes_var hl hb).1] at hv
      cases hv
  · intro v x hv j hj
    have hsl : stepSlot U sz v (t + U.dir - U.dir * j) = (v, ((t + U.dir - U.dir * j) % (sz v : Int)).toNat) := by
      unfold stepSlot; rw [if_pos hv]
    rw [hsl, h]
    rcases Nat.eq_zero_or_pos j with rfl | hj0
    · rw [show t + U.dir - U.dir * ((0 : Nat) : Int) = t + U.dir by simp]
      split_ifs with hex
      · rfl
      · rw [hkeep _ _ hv]
        · have hs := hm.2 v x hv (sz v - 1) (by omega)
          have e1 : t - U.dir * ((sz v - 1 : Nat) : Int) = t + U.dir - U.dir * sz v := by
            rw [Nat.cast_sub (by omega)]; push_cast; ring
          rw [e1] at hs
          rw [← hs]
          unfold stepSlot
          rw [if_pos hv]
          congr 3
          apply mod_eq_of_dvd
          exact ⟨U.dir, by ring⟩
        · rintro ⟨e', he', rfl, hap'⟩
          obtain ⟨i', hi', rfl⟩ := List.getElem_of_mem he'
          obtain ⟨i, pp, hin, hb⟩ := task_of_applies hr ha (e := ⟨i', hi'⟩) hap'
          exact hex ⟨_, hb, rfl, ⟨i', hi'⟩, hin, (ptSlot_lhs hl ⟨i', hi'⟩ t).symm, hap'.2⟩
    · rw [if_neg]
      · have hs := hm.2 v x hv (j - 1) (by omega)
        have e1 : t - U.dir * ((j - 1 : Nat) : Int) = t + U.dir - U.dir * j := by
          rw [Nat.cast_sub (by omega)]; push_cast; ring
        rw [e1] at hs
        rw [← hs, hsl]
      · rintro ⟨b, hb, hbx, hw⟩
        have h2 := (writes_var hl hw).2
        rw [((mem_step hr t b).1 hb).1] at h2
        unfold stepSlot at h2
        rw [if_pos hv, Prod.mk.injEq] at h2
        exact apart hl.dir (by omega) (by exact_mod_cast hj) (toNat_mod_eq (by omega) h2.2.symm)

/-- All steps, from the reference evaluation of the first ones. -/
theorem runRef_steps (G : RunCfg) (first last : Int) :
    G.runRef first last = (List.range (numSteps first last)).flatMap fun (i : Nat) =>
      G.runRef (first + stepDir first last * i) (first + stepDir first last * i) := by
  conv_lhs => unfold runRef
  apply List.flatMap_congr
  intro i _
  unfold runRef
  have : numSteps (first + stepDir first last * i) (first + stepDir first last * i) = 1 := by simp [numSteps]
  rw [this]
  simp

theorem run_stores (hr : Runs G U L) (hl : Legal U vdims) (ha : Arranged U L) (hn : Enough U L sz) {W : History Val} {first : Int} {n : Nat}
    (hW : Evolves U (InWhole G) sz first n W) {m0 : (Nat × Nat) × List Int → Val} (hm : Stores U sz W first m0) :
    ∀ k ≤ n, Stores U sz W (first + U.dir * k) ((solnStencil hr hl ha hn).sem.exec
      ((List.range k).flatMap fun (i : Nat) => G.runRef (first + U.dir * i) (first + U.dir * i)) m0) := by
  intro k hk
  induction k with
  | zero => simpa [ActionSem.exec] using hm
  | succ k ih =>
    rw [List.range_succ, List.flatMap_append, exec_append]
    have := step_stores hr hl ha hn (hW.eq k (by omega)) (hW.keep k (by omega)) (ih (by omega))
    rw [show first + U.dir * k + U.dir = first + U.dir * ((k + 1 : Nat) : Int) by push_cast; ring] at this
    simpa using this

end

end Yask
