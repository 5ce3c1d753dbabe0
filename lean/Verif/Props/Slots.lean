import Verif.Compiler.SlotLemmas

/-!
# C48: scratch vars that share memory

The compiler assigns a memory slot to each scratch var; the kernel gives all vars with the same slot the same storage.
-/

namespace Yask
open Comp Spec

/-- C48 (assignment). For every list of stages, however the vars are ordered and whatever their sizes: the assignment
succeeds, every accessed var gets a slot, and two different vars of which neither is last accessed before the stage of the
first access of the other get different slots. -/
theorem C48_slots_partial (size : Nat → Nat) (stages : List LStage) (vars szs : List Nat) (hnd : vars.Nodup)
    (hvars : ∀ v s, UsedIn stages v s → v ∈ vars) (hszs : ∀ v ∈ vars, size v ∈ szs) :
    ∃ slot, calcLifespans size stages vars szs = .ok slot ∧
      (∀ v s, UsedIn stages v s → ∃ n, slot v = some n) ∧
      ∀ v w a b c d, v ≠ w → UsedIn stages v a → UsedIn stages v b → UsedIn stages w c → UsedIn stages w d →
        a ≤ d → c ≤ b → slot v ≠ slot w := by
  obtain ⟨h1, h2⟩ := firstLast_inv stages
  obtain ⟨s, h3, h4⟩ := assign_inv (size := size) vars hnd (fun v f l h => (h2 v f l h).1) stages.length
  have hlen : ∀ v s, UsedIn stages v s → s < stages.length := by
    rintro v s ⟨st, hst, _⟩
    exact (List.getElem?_eq_some_iff.1 hst).1
  have hD : ∀ v s, UsedIn stages v s → v ∈ vars ∧ ∃ f l, firstLast stages v = some (f, l) ∧ f < stages.length := by
    intro v s hu
    obtain ⟨f, l, g1, g2, g3⟩ := h1 v s (hlen v s hu) hu
    exact ⟨hvars v s hu, f, l, g1, lt_of_le_of_lt g2 (hlen v s hu)⟩
  refine ⟨finalSlot size s szs, ?_, ?_, ?_⟩
  · unfold calcLifespans assignSlots
    rw [h3]; rfl
  · intro v t hu
    obtain ⟨n, hn, _⟩ := h4.has v (hD v t hu)
    exact ⟨_, by rw [finalSlot, hn]; rfl⟩
  · intro v w a b c d hne ha hb hc hd had hcb
    obtain ⟨n, hn, hnl⟩ := h4.has v (hD v a ha)
    obtain ⟨m, hm, hml⟩ := h4.has w (hD w c hc)
    rw [finalSlot, finalSlot, hn, hm]
    rw [Option.map_some, Option.map_some]
    intro he
    replace he := Option.some.inj he
    by_cases hsz : size v = size w
    · have hO : Overlap (firstLast stages) v w := by
        obtain ⟨f, l, g1, g2, g3⟩ := h1 v a (hlen v a ha) ha
        obtain ⟨f', l', g1', g2', g3'⟩ := h1 v b (hlen v b hb) hb
        obtain ⟨k, j, k1, k2, k3⟩ := h1 w c (hlen w c hc) hc
        obtain ⟨k', j', k1', k2', k3'⟩ := h1 w d (hlen w d hd) hd
        rw [g1] at g1'; cases g1'
        rw [k1] at k1'; cases k1'
        exact ⟨f, l, k, j, g1, k1, by omega, by omega⟩
      have := h4.diff v w (hD v a ha) (hD w c hc) hne hsz hO
      rw [hn, hm] at this
      rw [hsz] at he
      exact this (by congr 1; omega)
    · rcases ofs_le (nm := s.nmems) (hszs v (hvars v a ha)) (hszs w (hvars w c hc)) hsz with h | h
      · omega
      · omega

/-- C48 (use). If the parts are evaluated in the order of their stages and every var that is read has been computed before
in the same sequence (`run_ref`, and a micro-block of a stage with one non-scratch part), then every part reads exactly the
values that were computed for the vars it names, although vars share memory: for every type of values, every function
computed by the parts and every initial content of the memory.

Missing for the full property: a micro-block of a stage with more than one non-scratch part does not evaluate the parts in
the order of their stages, see `C48_reuse_wrong`. -/
theorem C48_values_partial {V : Type} (size : Nat → Nat) (stages : List LStage) (vars szs : List Nat) (hnd : vars.Nodup)
    (hvars : ∀ v s, UsedIn stages v s → v ∈ vars) (hszs : ∀ v ∈ vars, size v ∈ szs)
    (slot : Nat → Option Nat) (hslot : calcLifespans size stages vars szs = .ok slot)
    (ps : List SPart) (hps : Sequence stages ps) (comp : Nat → List V → Nat → V) (mem val : Nat → V) :
    runSlots (fun v => (slot v).getD 0) comp mem ps = runVars comp val ps := by
  obtain ⟨slot', g1, g2, g3⟩ := C48_slots_partial size stages vars szs hnd hvars hszs
  rw [hslot] at g1; cases g1
  obtain ⟨h1, h2⟩ := firstLast_inv stages
  obtain ⟨p1, p2, p3⟩ := hps
  have hlen : ∀ v s, UsedIn stages v s → s < stages.length := by
    rintro v s ⟨st, hst, _⟩
    exact (List.getElem?_eq_some_iff.1 hst).1
  -- first and last accesses by parts of the sequence
  let first : Nat → Nat := fun v => ((firstLast stages v).map (·.1)).getD 0
  let last : Nat → Nat := fun v => ((firstLast stages v).map (·.2)).getD 0
  have hfl : ∀ v s, UsedIn stages v s → first v ≤ s ∧ s ≤ last v := by
    intro v s hu
    obtain ⟨f, l, k1, k2, k3⟩ := h1 v s (hlen v s hu) hu
    simp only [first, last, k1, Option.map_some, Option.getD_some]
    exact ⟨k2, k3⟩
  have hused : ∀ v f l, firstLast stages v = some (f, l) → UsedIn stages v f ∧ UsedIn stages v l := firstLast_used stages
  refine run_eq _ comp first last ps (fun _ => False) 0 mem val p1 (fun _ _ => Nat.zero_le _)
    (fun p hp v hv => hfl v p.stage (p2 p hp v hv)) ?_ ?_ (fun v h => h.elim) (fun v h => h.elim)
  · rintro p hp w hw v (h | ⟨q, hq, hv⟩) hne k1 k2
    · exact h.elim
    · have hw' := p2 p hp w (List.mem_append_right _ hw)
      have hv' := p2 q hq v (List.mem_append_right _ hv)
      obtain ⟨fw, lw, w1, _, _⟩ := h1 w _ (hlen _ _ hw') hw'
      obtain ⟨fv, lv, v1, _, _⟩ := h1 v _ (hlen _ _ hv') hv'
      simp only [first, last, w1, v1, Option.map_some, Option.getD_some] at k1 k2
      obtain ⟨n, hn⟩ := g2 v _ hv'
      obtain ⟨m, hm⟩ := g2 w _ hw'
      have := g3 v w fv lv fw lw hne (hused v fv lv v1).1 (hused v fv lv v1).2 (hused w fw lw w1).1 (hused w fw lw w1).2 k1 k2
      rw [hn, hm] at this ⊢
      simpa using this
  · intro l p r hlr v hv
    exact .inr (p3 l p r hlr v hv)

/-- C48 (micro-block). The same for a micro-block of a stage with one non-scratch part. -/
theorem C48_one_part_partial {V : Type} (size : Nat → Nat) (stages : List LStage) (vars szs : List Nat) (hnd : vars.Nodup)
    (hvars : ∀ v s, UsedIn stages v s → v ∈ vars) (hszs : ∀ v ∈ vars, size v ∈ szs)
    (slot : Nat → Option Nat) (hslot : calcLifespans size stages vars szs = .ok slot)
    (m : MainPart) (hids : (m.reqd.map (·.id)).Nodup) (hps : Sequence stages m.reqd)
    (comp : Nat → List V → Nat → V) (mem val : Nat → V) :
    runSlots (fun v => (slot v).getD 0) comp mem (microBlock [] [m]) = runVars comp val m.reqd := by
  have : microBlock [] [m] = m.reqd := by
    simp only [microBlock, List.append_nil]
    exact microParts_all _ _ hids (fun p _ h => (by cases h))
  rw [this]
  exact C48_values_partial size stages vars szs hnd hvars hszs slot hslot _ hps comp mem val

/-! ### Example -/

/-- A chain T1 → T2 → T3 → result, where T3 reuses the memory of T1. -/
def slotChain : List LStage := [⟨[1], []⟩, ⟨[2], [1]⟩, ⟨[3], [2]⟩, ⟨[], [3]⟩]

def exChainParts : List SPart := [⟨1, 0, [], [1]⟩, ⟨2, 1, [1], [2]⟩, ⟨3, 2, [2], [3]⟩, ⟨4, 3, [3], []⟩]

/-- T3 and T1 share a slot. -/
example : (do let f ← calcLifespans (fun _ => 8) slotChain [1, 2, 3] [8]; pure ([1, 2, 3].map f)) =
    .ok [some 0, some 1, some 0] := by decide +kernel

theorem usedIn_iff (stages : List LStage) (v s : Nat) : UsedIn stages v s ↔
    (match stages[s]? with | some st => decide (v ∈ st.outs ++ st.ins) | none => false) = true := by
  unfold UsedIn
  cases stages[s]? with
  | none => simp
  | some st => simp

example : Sequence slotChain exChainParts := by
  refine ⟨by decide, ?_, ?_⟩
  · simp only [usedIn_iff]; decide +kernel
  · intro l p r h v hv
    rcases l with _ | ⟨a, _ | ⟨b, _ | ⟨c, _ | ⟨d, _ | ⟨e, l⟩⟩⟩⟩⟩ <;> simp [exChainParts] at h
    · obtain ⟨rfl, _⟩ := h; simp at hv
    · obtain ⟨rfl, rfl, _⟩ := h; simp at hv; subst hv; exact ⟨_, List.mem_cons_self, by simp⟩
    · obtain ⟨rfl, rfl, rfl, _⟩ := h; simp at hv; subst hv; exact ⟨⟨2, 1, [1], [2]⟩, by simp, by simp⟩
    · obtain ⟨rfl, rfl, rfl, rfl, _⟩ := h; simp at hv; subst hv; exact ⟨⟨3, 2, [2], [3]⟩, by simp, by simp⟩

/-! ### More than one non-scratch part in a stage -/

/-- Stages: T1; T2 and T5, which read T1; T3, which reads T2; the results P1, which reads T3, and P2, which reads T5. -/
def exReuse : List LStage := [⟨[1], []⟩, ⟨[2, 5], [1]⟩, ⟨[3], [2]⟩, ⟨[], [3, 5]⟩]

def exReuseMain : List MainPart :=
  [⟨[⟨1, 0, [], [1]⟩, ⟨2, 1, [1], [2]⟩, ⟨3, 2, [2], [3]⟩], ⟨10, 3, [3], []⟩⟩,
   ⟨[⟨1, 0, [], [1]⟩, ⟨5, 1, [1], [5]⟩], ⟨11, 3, [5], []⟩⟩]

/-- C48 fails in the kernel as written: the values that a result reads may not be those of the scratch var it names. In a
micro-block of a stage with two non-scratch parts, the parts of the second are evaluated after all parts of the first, and
T1 is not evaluated again; meanwhile T3 has been stored in the memory of T1. Here T1 computes 1, T3 computes 3, and T5
is the value of T1: the second result reads 3 instead of 1. -/
theorem C48_reuse_wrong :
    ∃ (stages : List LStage) (ms : List MainPart) (slot : Nat → Option Nat) (comp : Nat → List Nat → Nat → Nat),
      calcLifespans (fun _ => 8) stages [1, 2, 3, 5] [8] = .ok slot ∧
      (∀ m ∈ ms, m.reqd.Pairwise (fun p q => p.stage ≤ q.stage) ∧
        (∀ p ∈ m.reqd, ∀ v ∈ p.ins ++ p.outs, UsedIn stages v p.stage) ∧
        ∀ p ∈ m.reqd, ∀ v ∈ p.ins, ∃ q ∈ m.reqd, q.stage < p.stage ∧ v ∈ q.outs) ∧
      (runVars comp (fun _ => 0) (microBlock [] ms)).getLast? = some [1] ∧
      (runSlots (fun v => (slot v).getD 0) comp (fun _ => 0) (microBlock [] ms)).getLast? = some [3] := by
  obtain ⟨slot, hslot, -, -⟩ := C48_slots_partial (fun _ => 8) exReuse [1, 2, 3, 5] [8] (by decide) (by
    rintro v s ⟨st, hst, hv⟩
    rcases s with _ | _ | _ | _ | s <;> simp [exReuse] at hst <;> subst hst <;> simp at hv <;> simp <;> omega) (by decide)
  have hs : ∀ v ∈ [1, 2, 3, 5], some (slot v) = [(1, some 0), (2, some 1), (3, some 0), (5, some 2)].lookup v := by
    have h : (do let f ← calcLifespans (fun _ => 8) exReuse [1, 2, 3, 5] [8]; pure ([1, 2, 3, 5].map f)) =
      .ok [some 0, some 1, some 0, some 2] := by decide +kernel
    rw [hslot] at h
    simp only [Outcome.bind_ok, Outcome.pure_eq, Outcome.ok.injEq, List.map_cons, List.map_nil, List.cons.injEq] at h
    obtain ⟨h1, h2, h3, h5, _⟩ := h
    simp [h1, h2, h3, h5, List.lookup]
  refine ⟨exReuse, exReuseMain, slot, fun id vals _ => if id = 5 then vals.headD 0 else id, hslot, ?_, by decide +kernel, ?_⟩
  · simp only [usedIn_iff]; decide +kernel
  · have h1 := hs 1 (by decide)
    have h2 := hs 2 (by decide)
    have h3 := hs 3 (by decide)
    have h5 := hs 5 (by decide)
    simp [List.lookup] at h1 h2 h3 h5
    have hmb : microBlock [] exReuseMain = [⟨1, 0, [], [1]⟩, ⟨2, 1, [1], [2]⟩, ⟨3, 2, [2], [3]⟩, ⟨10, 3, [3], []⟩,
      ⟨5, 1, [1], [5]⟩, ⟨11, 3, [5], []⟩] := by decide +kernel
    rw [hmb]
    simp [runSlots, h1, h2, h3, h5, put]

end Yask
