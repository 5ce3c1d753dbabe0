import Verif.Kernel.CohModel
import Mathlib.Data.List.Forall2

/-!
# C25: host/device coherency
-/

namespace Yask
open Coh Spec

variable {L V : Type} [DecidableEq L]

/-- The copy named by the state holds the latest values. -/
def CohInv (s : Latest L V) (v : CVar L V) : Prop :=
  (v.state ≠ .devMod → Current s v.host) ∧ (v.state ≠ .hostMod → Current s v.dev)

theorem current_pokes {s : Latest L V} {m : L → V} (h : Current s m) (ws : List (L × V)) :
    Current (s.write ws) (pokes m ws) := by
  induction ws generalizing s m with
  | nil => exact h
  | cons w ws ih =>
    apply ih
    intro l y hy
    by_cases e : l = w.1
    · simp only [e, if_true, Option.some.injEq] at hy ⊢; exact hy
    · simp only [e, if_false] at hy ⊢; exact h l y hy

theorem copyTo_inv {s : Latest L V} {v : CVar L V} (h : CohInv s v) :
    ∃ w, v.copyToDevice = .ok w ∧ CohInv s w ∧ w.state ≠ .hostMod := by
  unfold CVar.copyToDevice
  by_cases e : v.state = .hostMod
  · refine ⟨{ v with dev := v.host, state := .inSync }, ?_, ?_, by simp⟩
    · rw [if_pos e]; simp only [CohState.hostCopiedToDev, e]; rfl
    · have := h.1 (by simp [e])
      exact ⟨fun _ => this, fun _ => this⟩
  · exact ⟨v, by rw [if_neg e]; rfl, h, e⟩

theorem copyFrom_inv {s : Latest L V} {v : CVar L V} (h : CohInv s v) :
    ∃ w, v.copyFromDevice = .ok w ∧ CohInv s w ∧ w.state ≠ .devMod := by
  unfold CVar.copyFromDevice
  by_cases e : v.state = .devMod
  · refine ⟨{ v with host := v.dev, state := .inSync }, ?_, ?_, by simp⟩
    · rw [if_pos e]; simp only [CohState.devCopiedToHost, e]; rfl
    · have := h.2 (by simp [e])
      exact ⟨fun _ => this, fun _ => this⟩
  · exact ⟨v, by rw [if_neg e]; rfl, h, e⟩

theorem kernels_inv (ks : List (KernelOp L V)) {s : Latest L V} {v : CVar L V} (h : CohInv s v)
    (hs : v.state ≠ .hostMod) : ∃ w rs, v.kernels ks = .ok (w, rs) ∧ CohInv (s.kernels ks).1 w ∧
      w.state ≠ .hostMod ∧ List.Forall₂ IsLatest (s.kernels ks).2 rs := by
  induction ks generalizing s v with
  | nil => exact ⟨v, [], rfl, h, hs, .nil⟩
  | cons k ks ih =>
    cases k with
    | read l =>
      obtain ⟨w, rs, e, hi, hw, hf⟩ := ih h hs
      refine ⟨w, v.dev l :: rs, ?_, hi, hw, .cons (h.2 hs l) hf⟩
      simp only [CVar.kernels, CVar.kernel, pure_bind]
      rw [e]; rfl
    | write ws =>
      obtain ⟨w, rs, e, hi, hw, hf⟩ := ih (s := s.write ws)
        (v := { v with dev := pokes v.dev ws, state := .devMod })
        ⟨fun c => absurd rfl c, fun _ => current_pokes (h.2 hs) ws⟩ (by simp)
      refine ⟨w, rs, ?_, hi, hw, hf⟩
      simp only [CVar.kernels, CVar.kernel, CohState.modDev, if_neg hs]
      show (CVar.kernels _ ks >>= _) = _
      rw [e]; rfl

theorem op_inv (o : CohOp L V) {s : Latest L V} {v : CVar L V} (h : CohInv s v) :
    ∃ w rs, v.op false o = .ok (w, rs) ∧ CohInv (s.op o).1 w ∧
      List.Forall₂ IsLatest (s.op o).2 rs := by
  cases o with
  | get l =>
    obtain ⟨w, e, hi, hw⟩ := copyFrom_inv h
    exact ⟨w, [w.host l], by simp only [CVar.op, CVar.hostGet, e]; rfl, hi, .cons (hi.1 hw l) .nil⟩
  | pack l =>
    obtain ⟨w, e, hi, hw⟩ := copyTo_inv h
    exact ⟨w, [w.dev l], by simp only [CVar.op, CVar.devGet, e]; rfl, hi, .cons (hi.2 hw l) .nil⟩
  | set ws =>
    obtain ⟨w, e, hi, hw⟩ := copyFrom_inv h
    refine ⟨{ w with host := pokes w.host ws, state := .hostMod }, [], ?_, ?_, .nil⟩
    · simp only [CVar.op, CVar.hostSet, e]
      show ((w.state.modHost >>= _) >>= _) = _
      simp only [CohState.modHost, if_neg hw]; rfl
    · exact ⟨fun _ => current_pokes (hi.1 hw) ws, fun c => absurd rfl c⟩
  | unpack ws =>
    obtain ⟨w, e, hi, hw⟩ := copyTo_inv h
    refine ⟨{ w with dev := pokes w.dev ws, state := .devMod }, [], ?_, ?_, .nil⟩
    · simp only [CVar.op, CVar.devSet, e]
      show ((w.state.modDev >>= _) >>= _) = _
      simp only [CohState.modDev, if_neg hw]; rfl
    · exact ⟨fun c => absurd rfl c, fun _ => current_pokes (hi.2 hw) ws⟩
  | setAll f =>
    refine ⟨⟨.notInit, f, f⟩, [], rfl, ?_, .nil⟩
    constructor <;> intro _ l y hy <;> simpa [Latest.op] using hy
  | init f =>
    refine ⟨⟨.hostMod, f, f⟩, [], rfl, ?_, .nil⟩
    constructor <;> intro _ l y hy <;> simpa [Latest.op] using hy
  | run ks =>
    obtain ⟨w, e, hi, hw⟩ := copyTo_inv h
    obtain ⟨w', rs, e', hi', -, hf⟩ := kernels_inv ks hi hw
    refine ⟨w', rs, ?_, hi', hf⟩
    simp only [CVar.op, CVar.run, e]
    exact e'

theorem ops_inv (os : List (CohOp L V)) {s : Latest L V} {v : CVar L V} (h : CohInv s v) :
    ∃ w rs, v.ops false os = .ok (w, rs) ∧ CohInv (s.ops os).1 w ∧
      List.Forall₂ IsLatest (s.ops os).2 rs := by
  induction os generalizing s v with
  | nil => exact ⟨v, [], rfl, h, .nil⟩
  | cons o os ih =>
    obtain ⟨w, rs, e, hi, hf⟩ := op_inv o h
    obtain ⟨w', rs', e', hi', hf'⟩ := ih hi
    refine ⟨w', rs ++ rs', ?_, hi', List.rel_append hf hf'⟩
    simp only [CVar.ops, e]
    show (w.ops false os >>= _) = _
    rw [e']; rfl

/-- A new var: neither copy holds anything. -/
theorem cohInv_new (host dev : L → V) :
    CohInv (fun _ => none) (⟨.notInit, host, dev⟩ : CVar L V) :=
  ⟨fun _ _ _ h => by simp at h, fun _ _ _ h => by simp at h⟩

/-- **C25**: for a new var and any sequence of calls (host reads and writes, `set_all…`,
`run_solution` with any kernels, halo exchanges), no call fails, and every value read, on the host or
on the device, is the one written last to that location, if any. -/
theorem C25_reads_latest (host dev : L → V) (os : List (CohOp L V)) :
    ∃ v rs, (⟨.notInit, host, dev⟩ : CVar L V).ops false os = .ok (v, rs) ∧
      List.Forall₂ IsLatest (Latest.ops (fun _ => none) os).2 rs := by
  obtain ⟨w, rs, e, -, hf⟩ := ops_inv os (cohInv_new host dev)
  exact ⟨w, rs, e, hf⟩

/-- **C25**: after any sequence of calls, at least one copy holds all the latest values: the copies are
never both modified independently. -/
theorem C25_some_copy_current (host dev : L → V) (os : List (CohOp L V)) (v : CVar L V)
    (rs : List V) (h : (⟨.notInit, host, dev⟩ : CVar L V).ops false os = .ok (v, rs)) :
    Current (Latest.ops (fun _ => none) os).1 v.host ∨
      Current (Latest.ops (fun _ => none) os).1 v.dev := by
  obtain ⟨w, rs', e, hi, -⟩ := ops_inv os (cohInv_new host dev)
  rw [h] at e
  cases e
  by_cases c : v.state = .devMod
  · exact .inr (hi.2 (by simp [c]))
  · exact .inl (hi.1 c)

theorem ev_inv {s : Latest L V} {v w : CVar L V} (h : CohInv s v) (x : Ev L V)
    (e : v.ev x = .ok w) : CohInv (s.write x.writes) w := by
  cases x with
  | hostWrite ws =>
    by_cases c : v.state = .devMod
    · simp only [CVar.ev, CohState.modHost, if_pos c] at e; cases e
    · simp only [CVar.ev, CohState.modHost, if_neg c] at e; cases e
      exact ⟨fun _ => current_pokes (h.1 c) ws, fun c => absurd rfl c⟩
  | devWrite ws =>
    by_cases c : v.state = .hostMod
    · simp only [CVar.ev, CohState.modDev, if_pos c] at e; cases e
    · simp only [CVar.ev, CohState.modDev, if_neg c] at e; cases e
      exact ⟨fun c => absurd rfl c, fun _ => current_pokes (h.2 c) ws⟩
  | bothWrite ws =>
    by_cases c : v.state = .devMod
    · simp only [CVar.ev, CohState.modBoth, if_pos c] at e; cases e
    · by_cases c' : v.state = .hostMod
      · simp only [CVar.ev, CohState.modBoth, if_neg c, if_pos c'] at e; cases e
      · simp only [CVar.ev, CohState.modBoth, if_neg c, if_neg c', Bool.false_and] at e; cases e
        exact ⟨fun _ => current_pokes (h.1 c) ws, fun _ => current_pokes (h.2 c') ws⟩
  | toDev =>
    by_cases c : v.state = .devMod
    · simp only [CVar.ev, CohState.hostCopiedToDev, if_pos c] at e; cases e
    · simp only [CVar.ev, CohState.hostCopiedToDev, if_neg c] at e; cases e
      exact ⟨fun _ => h.1 c, fun _ => h.1 c⟩
  | fromDev =>
    by_cases c : v.state = .hostMod
    · simp only [CVar.ev, CohState.devCopiedToHost, if_pos c] at e; cases e
    · simp only [CVar.ev, CohState.devCopiedToHost, if_neg c] at e; cases e
      exact ⟨fun _ => h.2 c, fun _ => h.2 c⟩

/-- **C25**, for raw events: every sequence of modifications and copies, in any order, that the
coherency checks accept without an exception leaves one copy with all the latest values; if the state
is "in sync", both. -/
theorem C25_accepted_events (host dev : L → V) (xs : List (Ev L V)) (v : CVar L V)
    (h : xs.foldlM CVar.ev (⟨.notInit, host, dev⟩ : CVar L V) = .ok v) :
    let s := Latest.write (fun _ => none) (xs.flatMap Ev.writes)
    (Current s v.host ∨ Current s v.dev) ∧
      (v.state = .inSync → Current s v.host ∧ Current s v.dev) := by
  have key : ∀ (xs : List (Ev L V)) (s : Latest L V) (u : CVar L V), CohInv s u →
      xs.foldlM CVar.ev u = .ok v → CohInv (s.write (xs.flatMap Ev.writes)) v := by
    intro xs
    induction xs with
    | nil => intro s u hi e; cases e; exact hi
    | cons x xs ih =>
      intro s u hi e
      rw [List.foldlM_cons] at e
      cases ex : u.ev x with
      | ok w =>
        rw [ex] at e
        have := ih (s.write x.writes) w (ev_inv hi x ex) e
        rw [List.flatMap_cons]
        simpa only [Latest.write, List.foldl_append] using this
      | throws => rw [ex] at e; cases e
      | undefined => rw [ex] at e; cases e
  intro s
  have hi := key xs _ _ (cohInv_new host dev) h
  refine ⟨?_, fun c => ⟨hi.1 (by simp [c]), hi.2 (by simp [c])⟩⟩
  by_cases c : v.state = .devMod
  · exact .inr (hi.2 (by simp [c]))
  · exact .inl (hi.1 c)

/-- **C25**: modifying one copy directly after the other one was modified, or copying over it, is
refused. -/
theorem C25_lost_update_refused (v w : CVar L V) (ws ws' : List (L × V)) :
    (v.ev (.devWrite ws) = .ok w → w.ev (.hostWrite ws') = .throws ∧ w.ev .toDev = .throws) ∧
    (v.ev (.hostWrite ws) = .ok w → w.ev (.devWrite ws') = .throws ∧ w.ev .fromDev = .throws) := by
  constructor <;> intro e
  · by_cases c : v.state = .hostMod
    · simp only [CVar.ev, CohState.modDev, if_pos c] at e; cases e
    · simp only [CVar.ev, CohState.modDev, if_neg c] at e; cases e; exact ⟨rfl, rfl⟩
  · by_cases c : v.state = .devMod
    · simp only [CVar.ev, CohState.modHost, if_pos c] at e; cases e
    · simp only [CVar.ev, CohState.modHost, if_neg c] at e; cases e; exact ⟨rfl, rfl⟩

/-- Host set, kernels on the device, host read, host set, device read. -/
example : ((⟨.notInit, fun _ => 7, fun _ => 8⟩ : CVar Nat Nat).ops false
    [.set [(0, 1), (1, 2)], .run [.read 0, .write [(1, 5)], .read 1], .get 1, .set [(0, 3)],
     .pack 0, .get 1]).bind (fun r => .ok r.2) = .ok [1, 5, 5, 3, 5] := by decide

/-- Events that are accepted. -/
example : ([.hostWrite [(0, 1)], .toDev, .devWrite [(0, 2)], .fromDev] : List (Ev Nat Nat)).foldlM
    CVar.ev (⟨.notInit, fun _ => 7, fun _ => 8⟩ : CVar Nat Nat) >>= (fun v => .ok (v.host 0, v.dev 0))
      = .ok (2, 2) := by decide

/-- The code does not have the property in a build with assertions: `set_all_elements_same` first
forces the state "not initialised", then `mod_both` asserts that it is "in sync". -/
theorem C25_set_all_fails_with_assertions (v : CVar L V) (f : L → V) :
    v.op true (.setAll f) = .undefined := rfl

/-- Nor after `run_ref` in the same context: it changes the data on the host without a coherency event,
so later kernels use old data. -/
theorem C25_fails_after_reference_run :
    ∃ v : CVar Nat Nat, (⟨.notInit, fun _ => 0, fun _ => 0⟩ : CVar Nat Nat).ops false
        [.set [(0, 1)], .run []] = .ok (v, []) ∧
      ∃ w, (v.runRef [(0, 2)]).op false (.run [.read 0]) = .ok (w, [1]) :=
  ⟨_, rfl, _, rfl⟩

end Yask
