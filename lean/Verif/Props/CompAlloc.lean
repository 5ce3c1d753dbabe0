import Mathlib.Tactic.Ring
import Verif.Compiler.StepLemmas

/-!
# Property C47: the step allocation is sufficient
-/

namespace Yask
open Comp Spec

/-- C47: the compiler's step allocation for a var is enough, in either direction, provided that each stage that reads the var
at some offset other than that being written either (a) also accesses it at the offset being written, and if the var is written at or before
this stage and the read is the one furthest back, it is the writing equation that reads; or (b) comes before all
stages that write the var, and also accesses it at offset 0. Missing: all other cases, for which the claim is
false (below), and the explicit allocation, which is ignored. -/
theorem C47_alloc_partial {S : HSys} (hid : (S.stages.map HStage.id).Nodup) {v : Nat} {dir : Int} (hdir : dir = 1 ∨ dir = -1)
    (hdom : ∀ e ∈ allEqs S, ∀ p ∈ e.lhs :: e.rhs, p.var = v → p.dom ≠ [])
    (hw : ∀ e ∈ allEqs S, e.lhs.var = v → e.lhs.step = some dir)
    (hr : ∀ e ∈ allEqs S, ∀ p ∈ e.rhs, p.var = v → ∀ k, p.step = some k → k * dir ≤ 1)
    (hcase : ∀ (j : Nat) (st : HStage), (mainStages S)[j]? = some st → ∀ e ∈ stageEqs S st, ∀ p ∈ e.rhs, p.var = v → ∀ k, p.step = some k → k ≠ dir →
      (Accesses S st v dir ∧ ((∀ k', Accesses S st v k' → k * dir ≤ k' * dir) →
        ∀ (i : Nat) (sti : HStage), (mainStages S)[i]? = some sti → i ≤ j → ∀ e' ∈ stageEqs S sti, e'.lhs.var = v → i = j ∧ e' = e)) ∨
      (Accesses S st v 0 ∧ ∀ (i : Nat) (sti : HStage), (mainStages S)[i]? = some sti → i ≤ j → ∀ e' ∈ stageEqs S sti, e'.lhs.var ≠ v))
    (varAlloc optAlloc t0 : Int) : ¬ MayReadStale S v ((S.calcHalos v).stepAlloc true varAlloc optAlloc) t0 dir := by
  rintro ⟨n', i, e', w, n, j, e, p, k, ⟨sti, hi, he'⟩, hv', hw', ⟨st, hj, he⟩, hp, hv, hk, hprec, hpos, hdvd⟩
  obtain ⟨hst, hsc⟩ := mem_mainStages hj
  obtain ⟨hsti, hsci⟩ := mem_mainStages hi
  have hall : ∀ st ∈ S.stages, ∀ e ∈ stageEqs S st, e ∈ allEqs S := by
    intro st hst e he
    rcases stageEqs_mem.1 he with h | ⟨r, hr, _, h⟩
    · exact List.mem_flatMap.2 ⟨st, hst, h⟩
    · exact List.mem_flatMap.2 ⟨r, hr, h⟩
  have hea := hall st hst e he
  have hwd : w = dir := by
    have := hw e' (hall sti hsti e' he') hv'
    rw [hw'] at this
    injection this
  subst hwd
  have hkd := hr e hea p hp hv k hk
  obtain ⟨first, last, hrange, hacc, hsz⟩ := stageAlloc_spec (v := v) (va := varAlloc) (oa := optAlloc) hst hsc he
    (List.mem_cons_of_mem _ hp) hv (hdom e hea p (List.mem_cons_of_mem _ hp) hv)
  have hacc' : ∀ k, Accesses S st v k → first ≤ k ∧ k ≤ last := by
    rintro k ⟨f, hf, q, hq, hqv, hqs⟩
    exact hacc k ⟨f, hf, q, hq, hqv, hqs, hdom f (hall st hst f hf) q hq hqv⟩
  have hkr := hacc' k ⟨e, he, p, List.mem_cons_of_mem _ hp, hv, hk⟩
  generalize hA : (S.calcHalos v).stepAlloc true varAlloc optAlloc = sz at *
  have hszpos : 1 ≤ sz := by rw [← hA]; exact stepAlloc_pos _ _ _ _
  -- the distance in steps
  have hnn : n' ≤ n := by
    rcases hprec with h | ⟨h, _⟩
    · exact Nat.le_of_lt h
    · exact Nat.le_of_eq h
  have hge : sz ≤ (t0 + w * n' + w - (t0 + w * n + k)) * w := by
    have h1 : sz ∣ (t0 + w * n' + w - (t0 + w * n + k)) * w := Dvd.dvd.mul_right hdvd w
    exact Int.le_of_dvd hpos h1
  have hww : w * w = 1 := by rcases hdir with rfl | rfl <;> rfl
  have hexp : (t0 + w * n' + w - (t0 + w * n + k)) * w = (n' : Int) - n + 1 - k * w := by
    have : (t0 + w * n' + w - (t0 + w * n + k)) * w = (w * w) * n' + w * w - (w * w) * n - k * w := by ring
    rw [this, hww]; ring
  rw [hexp] at hge
  -- steps before this one
  have hlt : n' < n → (n' : Int) - n + 1 ≤ 0 := by intro h; omega
  have hkw : k ≠ w := by
    rintro rfl
    rw [hww] at hge
    omega
  rcases hcase j st hj e he p hp hv k hk hkw with ⟨ha, hself⟩ | ⟨ha, hnone⟩
  · have hdr := hacc' w ha
    have hspan : 1 - k * w ≤ last - first := by rcases hdir with rfl | rfl <;> omega
    rcases hsz with hsz | ⟨_, _, hsz, hm1, hm2⟩
    · omega
    · -- written back: only a read at the far end can be hit
      by_cases hfar : last - first ≤ 1 - k * w
      · have hend : ∀ k', Accesses S st v k' → k * w ≤ k' * w := by
          intro k' hk'
          have := hacc' k' hk'
          rcases hdir with rfl | rfl <;> omega
        have hzero : ∀ d ∈ p.dom, d.2 = 0 := by
          intro d hd
          obtain ⟨y, hy, hxy⟩ := access_cov hst hsc he (List.mem_cons_of_mem _ hp) (n := d.1) (o := d.2) hd
          rw [hv, hk] at hy
          have := maxHalo_ge hy
          simp only [Option.getD_some] at this
          have hkk : k = first ∨ k = last := by rcases hdir with rfl | rfl <;> omega
          rcases hkk with h | h
          · rw [h, hm1] at this; split_ifs at hxy <;> omega
          · rw [h, hm2] at this; split_ifs at hxy <;> omega
        have hlt' : n' < n := by
          rcases hprec with h | ⟨h, h2⟩
          · exact h
          · exfalso
            have hij : i ≤ j := by rcases h2 with h2 | ⟨h2, _⟩ <;> omega
            obtain ⟨g1, g2⟩ := hself hend i sti hi hij e' he' hv'
            rcases h2 with h2 | ⟨_, h2⟩
            · omega
            · exact h2 ⟨g2, hzero⟩
        have := hlt hlt'
        omega
      · omega
  · have h0 := hacc' 0 ha
    have hspan : - (k * w) ≤ last - first := by rcases hdir with rfl | rfl <;> omega
    have hlt' : n' < n := by
      rcases hprec with h | ⟨_, h2⟩
      · exact h
      · exfalso
        have hij : i ≤ j := by rcases h2 with h2 | ⟨h2, _⟩ <;> omega
        exact hnone i sti hi hij e' he' hv'
    have := hlt hlt'
    rcases hsz with hsz | ⟨hwr, _, _, _, _⟩
    · omega
    · obtain ⟨f, hf, hfv⟩ := isWritten_spec hid hst hwr
      exact hnone j st hj (Nat.le_refl _) f hf hfv

/-! ### Cases that meet the hypotheses -/

/-- The wave equation `u(t+1,x) = u(t,x-1) + u(t,x) + u(t,x+1) - u(t-1,x)`, with the step offsets multiplied by `d`. -/
def exWaveEq (d : Int) : PEq :=
  ⟨⟨0, some d, [("x", 0)]⟩, [⟨0, some 0, [("x", -1)]⟩, ⟨0, some 0, [("x", 0)]⟩, ⟨0, some 0, [("x", 1)]⟩, ⟨0, some (-d), [("x", 0)]⟩]⟩
/-- One stage. -/
def exWave (d : Int) : HSys := ⟨[⟨0, false, [[exWaveEq d]]⟩], fun _ => []⟩

/-- Two slots are allocated, the new values are written over the oldest ones. -/
example : ((exWave 1).calcHalos 0).stepAlloc true 0 0 = 2 ∧ ((exWave (-1)).calcHalos 0).stepAlloc true 0 0 = 2 := by
  decide +kernel

/-- This is enough, in both directions. -/
theorem exWave_enough (d : Int) (hd : d = 1 ∨ d = -1) (t0 : Int) :
    ¬ MayReadStale (exWave d) 0 (((exWave d).calcHalos 0).stepAlloc true 0 0) t0 d := by
  have hall : ∀ e ∈ allEqs (exWave d), e = exWaveEq d := by
    intro e he
    simp only [allEqs, exWave, HStage.eqs, List.flatMap_cons, List.flatMap_nil, List.flatten_cons, List.flatten_nil, List.append_nil,
      List.mem_singleton] at he
    exact he
  have hse : ∀ (j : Nat) (st : HStage), (mainStages (exWave d))[j]? = some st → j = 0 ∧ st = ⟨0, false, [[exWaveEq d]]⟩ := by
    intro j st h
    have hm : mainStages (exWave d) = [⟨0, false, [[exWaveEq d]]⟩] := rfl
    rw [hm] at h
    cases j with
    | zero => exact ⟨rfl, by simpa using h.symm⟩
    | succ j => simp at h
  have hsq : ∀ e ∈ stageEqs (exWave d) ⟨0, false, [[exWaveEq d]]⟩, e = exWaveEq d := by
    intro e he
    simpa [stageEqs, exWave, HStage.eqs] using he
  have hmem : exWaveEq d ∈ stageEqs (exWave d) ⟨0, false, [[exWaveEq d]]⟩ := by
    simp [stageEqs, HStage.eqs]
  refine C47_alloc_partial (S := exWave d) (by simp [exWave]) hd ?_ ?_ ?_ ?_ 0 0 t0
  · intro e he p hp _
    rw [hall e he] at hp
    simp only [exWaveEq, List.mem_cons, List.not_mem_nil, or_false] at hp
    rcases hp with rfl | rfl | rfl | rfl | rfl <;> simp
  · intro e he _
    rw [hall e he]; rfl
  · intro e he p hp _ k hk
    rw [hall e he] at hp
    simp only [exWaveEq, List.mem_cons, List.not_mem_nil, or_false] at hp
    rcases hp with rfl | rfl | rfl | rfl <;> simp only [Option.some.injEq] at hk <;> subst hk <;> rcases hd with rfl | rfl <;> decide
  · intro j st hj e he p hp _ k hk
    obtain ⟨rfl, rfl⟩ := hse j st hj
    have hee := hsq e he
    subst hee
    intro _
    left
    refine ⟨⟨exWaveEq d, hmem, (exWaveEq d).lhs, List.mem_cons_self, rfl, rfl⟩, ?_⟩
    intro _ i sti hi hij e' he' _
    obtain ⟨rfl, rfl⟩ := hse i sti hi
    exact ⟨rfl, hsq e' he'⟩

/-! ### C47 does not hold in general -/

/-- `a(t+1,x) = c(t,x)`, then `c(t+1,x) = a(t+1,x)`, then `b(t+1,x) = a(t,x-2) + c(t+1,x)`. -/
def exThree : HSys where
  stages := [⟨0, false, [[⟨⟨0, some 1, [("x", 0)]⟩, [⟨2, some 0, [("x", 0)]⟩]⟩]]⟩,
    ⟨1, false, [[⟨⟨2, some 1, [("x", 0)]⟩, [⟨0, some 1, [("x", 0)]⟩]⟩]]⟩,
    ⟨2, false, [[⟨⟨1, some 1, [("x", 0)]⟩, [⟨0, some 0, [("x", -2)]⟩, ⟨2, some 1, [("x", 0)]⟩]⟩]]⟩]
  scrDeps := fun _ => []

/-- C47 does not hold if the offsets are used in different stages: no single stage uses `a` at two offsets, so only one
slot is allocated, and the last stage reads `a(t)` where `a(t+1)` has already been stored. -/
theorem C47_stages_wrong : (exThree.calcHalos 0).stepAlloc true 0 0 = 1 ∧
    ReadsStale exThree 0 ((exThree.calcHalos 0).stepAlloc true 0 0) 0 1 := by
  have h : (exThree.calcHalos 0).stepAlloc true 0 0 = 1 := by decide +kernel
  refine ⟨h, ?_⟩
  rw [h]
  refine ⟨0, 0, 2, _, _, 0, 0, _, _, _, _, 1, 0, ⟨0, some 0, [("x", -2)]⟩, rfl, rfl, rfl, rfl, List.mem_cons_self, List.mem_cons_self,
    .inl (by decide), rfl, rfl, by decide, rfl, rfl, ?_⟩
  unfold Replaces
  decide

/-- `a(t+1,x) = a(t,x)` and, in another part of the same stage, `b(t+1,x) = a(t,x)`. -/
def exBack : HSys where
  stages := [⟨0, false, [[⟨⟨0, some 1, [("x", 0)]⟩, [⟨0, some 0, [("x", 0)]⟩]⟩],
    [⟨⟨1, some 1, [("x", 0)]⟩, [⟨0, some 0, [("x", 0)]⟩]⟩]]⟩]
  scrDeps := fun _ => []

/-- C47 does not hold if another part of the stage reads the values that are written back: only one slot is allocated, and
the second part reads `a(t)` where the first one has already stored `a(t+1)`. -/
theorem C47_writeback_wrong : (exBack.calcHalos 0).stepAlloc true 0 0 = 1 ∧
    ReadsStale exBack 0 ((exBack.calcHalos 0).stepAlloc true 0 0) 0 1 := by
  have h : (exBack.calcHalos 0).stepAlloc true 0 0 = 1 := by decide +kernel
  refine ⟨h, ?_⟩
  rw [h]
  refine ⟨0, 0, 0, _, _, 0, 1, _, _, _, _, 1, 0, ⟨0, some 0, [("x", 0)]⟩, rfl, rfl, rfl, rfl, List.mem_cons_self, List.mem_cons_self,
    .inr ⟨rfl, by decide⟩, rfl, rfl, by decide, rfl, rfl, ?_⟩
  unfold Replaces
  decide

/-- C47 does not hold for explicit allocations: whatever size the author sets, by API or by option, is ignored. -/
theorem C47_explicit_wrong (v : HVar) (hasStep : Bool) (varAlloc optAlloc : Int) :
    v.stepAlloc hasStep varAlloc optAlloc = v.stepAlloc hasStep 0 0 := rfl

/-- For instance the wave equation with an explicit allocation of 5. -/
example : ((exWave 1).calcHalos 0).stepAlloc true 5 0 = 2 := by decide +kernel

end Yask
