import Verif.Kernel.CodeSolnIndep

/-! Helper lemmas: the storage of the vars follows the memory of the model of the solution. -/

namespace Yask.Nano
open Spec Var Comp Spec.Cpp

theorem addr_same {g : Geom} (hok : g.Ok) (hs : StepsAlloc g.api) {a b : List Int} (ha : InRangeButStep g.api a) (h : SameElem g.api a b) :
    g.addrOf a = g.addrOf b := by
  have hb := inRange_same h ha
  rw [addrOf_eq hok ha hs, addrOf_eq hok hb hs, (addr_eq_iff hok ha hb hs).2 h]

section
variable {V : Type} {R : SolnCode} {U : USoln V} {L : List (List (List (Fin U.eqs.length)))} {S : Slices} {sz : Nat → Nat} {A : Arith V}
  {vdims : Nat → List String}

/-- The storage holds the memory of the model. -/
def Rep (U : USoln V) (S : Slices) (sz : Nat → Nat) (mem : Nat → Int → V) (g : (Nat × Nat) × List Int → V) : Prop :=
  ∀ v < S.nv, ∀ s : Int, (U.hasStep v = false → s = 0) → ∀ x, x.length = U.dims.length →
    InRangeButStep (S.geo (S.var v)).api (S.elem U.dims v s x) → ∀ a, (S.geo (S.var v)).addrOf (S.elem U.dims v s x) = .ok a →
    mem (S.var v) a = g (stepSlot U sz v s, x)

theorem shiftPt_length (dims : List String) (x : List Int) (p : Pt) : (shiftPt dims x p).length = dims.length := by
  simp [shiftPt]

variable [Inhabited V] {inner : String} {folds rofs : List Int}

open Classical in
theorem sim_task (hc : CodeOf R U L S sz A) (hl : Legal U vdims) {G : RunCfg} (hG : Runs G U L) (hr : RunsIn R.cfg U L) (hf : R.Fits V inner folds rofs) (hi : R.Indep)
    (h : R.cfg.Ok) (ha : Arranged U L) (hn : Enough U L sz) (u : V) {a : Task} (hat : R.AtTask a) {mem : Nat → Int → V}
    {g : (Nat × Nat) × List Int → V} (hrep : Rep U S sz mem g) :
    Rep U S sz ((R.partAt a.stage a.part a.step).evalPt u A mem a.pt) ((solnStencil hG hl ha hn).sem.run a g) := by
  obtain ⟨hp, _, hxl, _⟩ := id hat
  have hst : R.step ∉ R.dims := (hf.part a.stage a.part a.step hp).step
  obtain ⟨ev1, ev2⟩ := evals_point (hf.code a.stage a.part a.step hp) (hf.lhsNodup a.stage a.part hp) u A
    ((part_indep hf hi h (st := a.stage) (p := a.part) (t := a.step)).mono (P := (· = a.pt)) fun x hx => by rw [hx]; exact hat) mem
  obtain ⟨ce, d1, d2⟩ := hc.eqs a.stage a.part hp
  intro v hv s hs x hx hin b hb
  show _ = if U.writes L sz a (stepSlot U sz v s) ∧ x = a.pt then U.value L sz a g (stepSlot U sz v s) else g (stepSlot U sz v s, x)
  have hok := geo_ok hc hv
  have hal := geo_steps hc hn.pos hv
  split_ifs with hw
  · obtain ⟨⟨e, he, hslot, c1, c2⟩, rfl⟩ := hw
    -- the equation
    rw [ptSlot_lhs hl] at hslot
    have hvar : v = U.eqs[e].lhs.var := congrArg Prod.fst hslot
    have hsp : U.hasStep v = true := by rw [hvar]; exact lhs_hasStep hl e
    have hslot2 := congrArg Prod.snd hslot
    simp only [Spec.stepSlot, ← hvar, hsp, if_true] at hslot2
    have hmod : s % (sz v : Int) = (a.step + U.dir) % (sz v : Int) := by
      have h1 := hn.pos v
      have h2 := Int.emod_nonneg s (b := (sz v : Int)) (by omega)
      have h3 := Int.emod_nonneg (a.step + U.dir) (b := (sz v : Int)) (by omega)
      omega
    have hadr := addr_same hok hal hin (same_step hc hv (s' := a.step + U.dir) (x := a.pt) fun _ => hmod)
    rw [hadr] at hb
    have hcm : ce e ∈ (R.code a.stage a.part).eqs := by rw [d1]; exact List.mem_map_of_mem he
    obtain ⟨e1, e2, e3⟩ := d2 e he
    obtain ⟨b', b1, b2⟩ := ev1 (ce e) hcm a.pt rfl
    rw [e1, elemAt_lhs hc hl hr hst hat he a.part hp] at b1
    have hgeo := (hc.vars a.stage a.part hp v hv).1
    have hb' : (S.geo (S.var v)).addrOf (S.elem U.dims v (a.step + U.dir) a.pt) = .ok b' := by
      rw [← hgeo, hvar]
      exact b1
    rw [hb] at hb'
    injection hb' with hb'
    subst hb'
    rw [e1] at b2
    have hv2 : S.var v = (S.point U.eqs[e].lhs).1 := by rw [hvar]; rfl
    rw [hv2, b2, e3 a.step a.pt]
    -- the value in the model
    unfold USoln.value
    cases hfd : (partOf L a).find? fun e' => decide (stepSlot U sz v s = ptSlot U sz U.eqs[e'].lhs a.step) with
    | none =>
      exfalso
      have := List.find?_eq_none.1 hfd e he
      rw [decide_eq_true_eq, hslot, ptSlot_lhs hl] at this
      exact this rfl
    | some e' =>
      have hm' := List.mem_of_find?_eq_some hfd
      have hs' := List.find?_some hfd
      rw [decide_eq_true_eq, ptSlot_lhs hl] at hs'
      have hvar' : v = U.eqs[e'].lhs.var := congrArg Prod.fst hs'
      obtain ⟨_, c3, c4⟩ := at_cond hc hr hat hm'
      have := eq_of_applies hl (hvar.symm.trans hvar') c1 c2 c3 c4
      subst this
      simp only
      rw [if_pos ⟨hx, c1, c2⟩]
      congr 1
      apply List.map_congr_left
      intro q hq
      have hrd : (R.code a.stage a.part).IsRead (S.point q) := ⟨ce e, hcm, (e2 _).2 ⟨q, hq, rfl⟩⟩
      have hrng := hi.range a.stage a.part a.step a.pt hat (S.point q) (.inr hrd)
      have hqv := rhs_nv hc e hq
      have hgq := (hc.vars a.stage a.part hp q.var hqv).1
      rw [elemAt_rhs hc hl hr hst hat he hq] at hrng
      have hrng2 : InRangeButStep (S.geo (S.var q.var)).api (S.elem U.dims q.var (stepAt q a.step) (shiftPt U.dims a.pt q)) := by
        rw [← hgq]; exact hrng
      unfold PartAt.valAt
      rw [elemAt_rhs hc hl hr hst hat he hq]
      have hadr2 := addrOf_eq (geo_ok hc hqv) hrng2 (geo_steps hc hn.pos hqv)
      have hadr3 : ((R.partAt a.stage a.part a.step).c.vars (S.point q).1).g.addrOf
          (S.elem U.dims q.var (stepAt q a.step) (shiftPt U.dims a.pt q)) =
          .ok ((S.geo (S.var q.var)).addrOfSlots (slots (S.geo (S.var q.var)).dims
            (S.elem U.dims q.var (stepAt q a.step) (shiftPt U.dims a.pt q)))) := by
        rw [← hadr2, ← hgq]; rfl
      rw [hadr3]
      simp only
      refine hrep q.var hqv (stepAt q a.step) ?_ _ (shiftPt_length ..) hrng2 _ hadr2
      intro hno
      have := hl.step U.eqs[e] (List.getElem_mem _) q (List.mem_cons_of_mem _ hq)
      rw [hno] at this
      unfold stepAt
      cases hqs : q.step with
      | none => rfl
      | some k => rw [hqs] at this; cases this
  · rw [ev2 (S.var v) b]
    · exact hrep v hv s hs x hx hin b hb
    · rintro c hcm hcv y rfl hadr
      rw [show (R.partAt a.stage a.part a.step).c.eqs = (R.code a.stage a.part).eqs from rfl, d1, List.mem_map] at hcm
      obtain ⟨e, he, rfl⟩ := hcm
      obtain ⟨e1, _, _⟩ := d2 e he
      have hev := lhs_nv hc e
      have hvv : S.var U.eqs[e].lhs.var = S.var v := by rw [e1] at hcv; exact hcv
      rw [e1, elemAt_lhs hc hl hr hst hat he a.part hp] at hadr
      have hgeo := (hc.vars a.stage a.part hp v hv).1
      have hrng := hi.range a.stage a.part a.step a.pt hat (S.point U.eqs[e].lhs) (.inl (by
        rw [d1, List.map_map]
        exact List.mem_map.2 ⟨e, he, e1⟩))
      rw [elemAt_lhs hc hl hr hst hat he a.part hp] at hrng
      have hgeo' := (hc.vars a.stage a.part hp _ hev).1
      have hrng2 : InRangeButStep (S.geo (S.var v)).api (S.elem U.dims U.eqs[e].lhs.var (a.step + U.dir) a.pt) := by
        rw [← hvv, ← hgeo']; exact hrng
      have hadr2 : (S.geo (S.var v)).addrOf (S.elem U.dims U.eqs[e].lhs.var (a.step + U.dir) a.pt) = .ok b := by
        rw [← hgeo]; exact hadr
      rw [addrOf_eq hok hrng2 hal] at hadr2
      rw [addrOf_eq hok hin hal] at hb
      injection hadr2 with hadr2
      injection hb with hb
      have hsame := (addr_eq_iff hok hin hrng2 hal).1 (hb.trans hadr2.symm)
      obtain ⟨h1, h2, h3⟩ := of_same hc hv hev hvv.symm hsame
      refine hw ⟨⟨e, he, ?_, ?_⟩, ?_⟩
      · have hsp : U.hasStep v = true := by rw [h1]; exact lhs_hasStep hl e
        rw [ptSlot_lhs hl]
        unfold Spec.stepSlot
        rw [hsp, if_pos rfl, h2 hsp, h1]
      · exact (at_cond hc hr hat he).2
      · exact pt_eq hc e hl.dims hx (hxl.trans hr.nd) (by rw [← h1]; exact h3)

theorem sim_tasks (hc : CodeOf R U L S sz A) (hl : Legal U vdims) {G : RunCfg} (hG : Runs G U L) (hr : RunsIn R.cfg U L) (hf : R.Fits V inner folds rofs) (hi : R.Indep)
    (h : R.cfg.Ok) (ha : Arranged U L) (hn : Enough U L sz) (u : V) : ∀ (l : List Task), (∀ a ∈ l, R.AtTask a) → ∀ {mem : Nat → Int → V}
    {g : (Nat × Nat) × List Int → V}, Rep U S sz mem g → Rep U S sz (R.evalTasks u A l mem) ((solnStencil hG hl ha hn).sem.exec l g)
  | [], _, _, _, hrep => hrep
  | a :: l, hat, mem, g, hrep => by
    unfold SolnCode.evalTasks ActionSem.exec
    rw [List.foldl_cons, List.foldl_cons]
    exact sim_tasks hc hl hG hr hf hi h ha hn u l (fun b hb => hat b (List.mem_cons_of_mem _ hb))
      (sim_task hc hl hG hr hf hi h ha hn u (hat a (by simp)) hrep)

/-- The model memory that holds the stored steps of a history. -/
def memOf (U : USoln V) (sz : Nat → Nat) (W : History V) (first : Int) (l : (Nat × Nat) × List Int) : V :=
  if U.hasStep l.1.1 = true then W l.1.1 (first - U.dir * ((U.dir * (first - l.1.2)) % (sz l.1.1 : Int))) l.2 else W l.1.1 0 l.2

omit [Inhabited V] in
theorem stored_slot {dir first s n : Int} :
    (dir * (first - (s % n))) % n = (dir * (first - s)) % n := by
  have h1 := Int.emod_add_mul_ediv s n
  rw [← Int.add_mul_emod_self_left (dir * (first - s)) n (dir * (s / n))]
  congr 1
  have : s = s % n + n * (s / n) := h1.symm
  generalize s % n = r at *
  generalize s / n = q at *
  subst this
  ring

omit [Inhabited V] in
theorem stored_mod {dir first s n : Int} (hd : dir = 1 ∨ dir = -1) :
    (first - dir * ((dir * (first - s)) % n)) % n = s % n := by
  have h1 := Int.emod_add_mul_ediv (dir * (first - s)) n
  rw [← Int.add_mul_emod_self_left s n (dir * (dir * (first - s) / n))]
  congr 1
  have hdd : dir * dir = 1 := by rcases hd with rfl | rfl <;> rfl
  have : dir * (dir * (first - s)) = first - s := by rw [← mul_assoc, hdd, one_mul]
  generalize (dir * (first - s)) % n = r at *
  generalize (dir * (first - s)) / n = q at *
  rw [← h1] at this
  linear_combination -this

omit [Inhabited V] in
theorem memOf_slot (hl : Legal U vdims) (hpos : ∀ v, 0 < sz v) (W : History V) (first : Int) {v : Nat} (hv : U.hasStep v = true) (s : Int)
    (x : List Int) : memOf U sz W first (stepSlot U sz v s, x) = W v (first - U.dir * ((U.dir * (first - s)) % (sz v : Int))) x := by
  have h1 := hpos v
  unfold memOf Spec.stepSlot
  simp only [hv, if_true]
  rw [Int.toNat_of_nonneg (Int.emod_nonneg _ (by omega)), stored_slot]

omit [Inhabited V] in
theorem memOf_stores (hl : Legal U vdims) (hpos : ∀ v, 0 < sz v) (W : History V) (first : Int) : Stores U sz W first (memOf U sz W first) := by
  refine ⟨fun v x hv => ?_, fun v x hv j hj => ?_⟩
  · unfold memOf; simp [hv]
  · rw [memOf_slot hl hpos W first hv]
    have hdd : U.dir * U.dir = 1 := by rcases hl.dir with h | h <;> rw [h] <;> rfl
    have : U.dir * (first - (first - U.dir * j)) = j := by
      rw [sub_sub_cancel, ← mul_assoc, hdd, one_mul]
    rw [this, Int.emod_eq_of_lt (by omega) (by omega)]

omit [Inhabited V] in
theorem memOf_rep (hc : CodeOf R U L S sz A) (hl : Legal U vdims) (hpos : ∀ v, 0 < sz v) {W : History V} {first : Int} {mem : Nat → Int → V}
    (h : StoresIn U S sz W first mem) : Rep U S sz mem (memOf U sz W first) := by
  intro v hv s hs x hx hin b hb
  have hok := geo_ok hc hv
  have hal := geo_steps hc hpos hv
  by_cases hst : U.hasStep v = true
  · rw [memOf_slot hl hpos W first hst]
    have h1 := hpos v
    obtain ⟨j, hj⟩ := Int.eq_ofNat_of_zero_le (Int.emod_nonneg (U.dir * (first - s)) (b := (sz v : Int)) (by omega))
    have hlt := Int.emod_lt_of_pos (U.dir * (first - s)) (b := (sz v : Int)) (by omega)
    have hm := stored_mod (first := first) (s := s) (n := (sz v : Int)) hl.dir
    have hsame := same_step hc hv (x := x) (s := s) (s' := first - U.dir * ((U.dir * (first - s)) % (sz v : Int))) fun _ => hm.symm
    rw [addr_same hok hal hin hsame] at hb
    have hrd := h v hv (first - U.dir * ((U.dir * (first - s)) % (sz v : Int)))
      (by unfold StoredAt; rw [if_pos hst]; exact ⟨j, by omega, by rw [hj]⟩) x hx (inRange_same hsame hin)
    obtain ⟨b', k1, k2, _⟩ := readAt_eq hok hal (inRange_same hsame hin) (mem (S.var v))
    rw [hb] at k1
    injection k1 with k1
    rw [hrd, ← k1] at k2
    injection k2 with k2
    exact k2.symm
  · have hst : U.hasStep v = false := by simpa using hst
    have := hs hst
    subst this
    have hrd := h v hv 0 (by unfold StoredAt; rw [if_neg (by simp [hst])]) x hx hin
    obtain ⟨b', k1, k2, _⟩ := readAt_eq hok hal hin (mem (S.var v))
    rw [hb] at k1
    injection k1 with k1
    rw [hrd, ← k1] at k2
    injection k2 with hrd
    unfold memOf Spec.stepSlot
    simp [hst, hrd]

omit [Inhabited V] in
theorem rep_stores (hc : CodeOf R U L S sz A) (hpos : ∀ v, 0 < sz v) {W : History V} {t : Int} {mem : Nat → Int → V}
    {g : (Nat × Nat) × List Int → V} (hrep : Rep U S sz mem g) (h : Stores U sz W t g) : StoresIn U S sz W t mem := by
  intro v hv s hs x hx hin
  have hok := geo_ok hc hv
  have hal := geo_steps hc hpos hv
  obtain ⟨b, hb, k2, _⟩ := readAt_eq hok hal hin (mem (S.var v))
  rw [k2]
  congr 1
  unfold StoredAt at hs
  split_ifs at hs with hst
  · obtain ⟨j, hj, rfl⟩ := hs
    rw [hrep v hv _ (fun h => by rw [hst] at h; cases h) x hx hin _ hb]
    exact h.2 v x hst j hj
  · have hst : U.hasStep v = false := by simpa using hst
    subst hs
    rw [hrep v hv _ (fun _ => rfl) x hx hin _ hb, ← h.1 v x hst]
    unfold Spec.stepSlot
    simp [hst]

/-- The model memory that the storage holds. -/
def memIn (U : USoln V) (S : Slices) (mem : Nat → Int → V) (l : (Nat × Nat) × List Int) : V :=
  match (S.geo (S.var l.1.1)).addrOf (S.elem U.dims l.1.1 l.1.2 l.2) with
  | .ok a => mem (S.var l.1.1) a
  | _ => mem 0 0

omit [Inhabited V] in
theorem memIn_rep (hc : CodeOf R U L S sz A) (hpos : ∀ v, 0 < sz v) (mem : Nat → Int → V) : Rep U S sz mem (memIn U S mem) := by
  intro v hv s hs x hx hin b hb
  have hok := geo_ok hc hv
  have hal := geo_steps hc hpos hv
  unfold memIn
  have : (S.geo (S.var v)).addrOf (S.elem U.dims v ((stepSlot U sz v s).2 : Nat) x) = .ok b := by
    by_cases hst : U.hasStep v = true
    · unfold Spec.stepSlot
      simp only [hst, if_true]
      have h1 := hpos v
      rw [Int.toNat_of_nonneg (Int.emod_nonneg _ (by omega)),
        ← addr_same hok hal hin (same_step hc hv fun _ => (Int.emod_emod_of_dvd s (dvd_refl _)).symm)]
      exact hb
    · have := hs (by simpa using hst)
      subst this
      unfold Spec.stepSlot
      rw [if_neg hst]
      exact hb
  rw [show (stepSlot U sz v s).1 = v from rfl]
  simp only [this]

end
end Yask.Nano
