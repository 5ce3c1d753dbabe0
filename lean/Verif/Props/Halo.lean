import Verif.Mpi.DirtyModel
import Mathlib.Tactic.Tauto
import Mathlib.Tactic.ByContra

/-!
# C23: halo exchange and dirty flags
-/

namespace Yask
open Dirty

variable {R T P V : Type}

/-- Every slot is visited, and a rank's halo contains no point of its own. -/
structure TopoOk (topo : Topo R T P) : Prop where
  slots : ∀ t, t ∈ topo.slots
  halo : ∀ r p, topo.halo r p = true → topo.owner p ≠ r

/-- What the operations of a program may write.
* A single rank sets only its own points; a call that also sets halo points is made by every rank.
* A stage evaluated by a rank on a point of its halo (wave-front extension) is also evaluated there by
  the owner.
* The interior of a rank is in no halo (C08). -/
def LegalOp (topo : Topo R T P) : Op R T P V → Prop
  | .write r _ ws => ∀ w ∈ ws, topo.owner w.1 = r
  | .writeAll _ _ => True
  | .start => True
  | .eval _ ws => ∀ r, ∀ w ∈ ws r, topo.owner w.1 ≠ r → w.1 ∈ (ws (topo.owner w.1)).map Prod.fst
  | .exchange => True
  | .overlap _ ws => ∀ r, ∀ w ∈ ws r, topo.owner w.1 = r ∧ ∀ r', topo.halo r' w.1 = false

/-- Operations of API calls. -/
def IsApi : Op R T P V → Prop
  | .write _ _ _ => True
  | .writeAll _ _ => True
  | _ => False

/-- Operations inside `run_solution`. -/
def IsRun : Op R T P V → Prop
  | .eval _ _ => True
  | .exchange => True
  | .overlap _ _ => True
  | _ => False

/-- Histories: API calls, then `run_solution`, again and again; the last one may be under way. -/
inductive History : List (Op R T P V) → Prop
  | nil : History []
  | run (h api ops : List (Op R T P V)) : History h → (∀ o ∈ api, IsApi o) → (∀ o ∈ ops, IsRun o) →
      History (h ++ (api ++ .start :: ops))

/-- The halo copies in slot `t` of rank `r` are the owners' current values. -/
def HaloCurrent (topo : Topo R T P) (s : State R T P V) (r : R) (t : T) : Prop :=
  ∀ p, topo.halo r p = true → s.copy r t p = s.copy (topo.owner p) t p

/-- Unless the owner is dirty, copies agree. -/
def OwnerInv (topo : Topo R T P) (s : State R T P V) : Prop :=
  ∀ r t p, topo.halo r p = true → s.self (topo.owner p) t = false →
    s.copy r t p = s.copy (topo.owner p) t p

/-- Flags during a run. -/
def RunInv (s : State R T P V) : Prop :=
  (∀ r r' t, s.others r t = s.others r' t) ∧ (∀ r t, s.self r t = true → s.others r t = true)

variable [DecidableEq R] [DecidableEq T] [DecidableEq P]

theorem pokes_miss (m : T → P → V) (t : T) (ws : List (P × V)) (t' : T) (p : P)
    (h : t' = t → p ∉ ws.map Prod.fst) : pokes m t ws t' p = m t' p := by
  unfold pokes
  induction ws generalizing m with
  | nil => rfl
  | cons w ws ih =>
    rw [List.foldl_cons, ih]
    · rw [if_neg]
      rintro ⟨h1, h2⟩
      exact h h1 (by rw [h2]; simp)
    · intro e hm
      exact h e (by simp only [List.map_cons, List.mem_cons]; exact .inr hm)

theorem ownerInv_exchange {topo : Topo R T P} (ok : TopoOk topo) {src cur t : State R T P V}
    (hi : OwnerInv topo src) (hr : RunInv src)
    (hc : ∀ r u p, (topo.halo r p = true ∨ ∃ r', topo.halo r' p = true ∧ topo.owner p = r) →
      cur.copy r u p = src.copy r u p)
    (h : exchangeFrom topo src cur = .ok t) :
    (∀ r u, HaloCurrent topo t r u) ∧ OwnerInv topo t ∧ RunInv t := by
  unfold exchangeFrom at h
  split at h
  · cases h
    have key : ∀ r u, HaloCurrent topo
        ({ copy := fun r => unpack topo src cur r, self := fun _ _ => false,
           others := fun _ _ => false } : State R T P V) r u := by
      intro r u p hp
      show unpack topo src cur r u p = unpack topo src cur (topo.owner p) u p
      have hown : unpack topo src cur (topo.owner p) u p = src.copy (topo.owner p) u p := by
        unfold unpack
        rw [if_neg]
        · exact hc _ _ _ (.inr ⟨r, hp, rfl⟩)
        · rintro ⟨-, h2, -⟩
          exact ok.halo _ _ h2 rfl
      rw [hown]
      unfold unpack
      split
      · rfl
      · rename_i hn
        rw [hc r u p (.inl hp)]
        apply hi r u p hp
        by_contra hs
        have hs' : src.self (topo.owner p) u = true := by simpa using hs
        have ho := hr.2 _ _ hs'
        apply hn
        refine ⟨?_, hp, ?_⟩
        · unfold toSwap
          rw [List.mem_filter]
          exact ⟨ok.slots u, by rw [hr.1 r (topo.owner p)]; exact ho⟩
        · unfold mineDirty
          rw [List.any_eq_true]
          refine ⟨u, ?_, hs'⟩
          unfold toSwap
          rw [List.mem_filter]
          exact ⟨ok.slots u, ho⟩
    exact ⟨key, fun r u p hp _ => key r u p hp, fun _ _ _ => rfl, fun _ _ h => by simp at h⟩
  · cases h

theorem exchange_ok {topo : Topo R T P} {src cur : State R T P V} (hr : RunInv src) :
    ∃ t, exchangeFrom topo src cur = .ok t := by
  unfold exchangeFrom
  rw [if_pos]
  · exact ⟨_, rfl⟩
  · intro r _ r' _
    unfold toSwap
    congr 1
    funext t
    exact hr.1 r r' t

theorem ownerInv_api {topo : Topo R T P} (ok : TopoOk topo) {s : State R T P V} (hi : OwnerInv topo s)
    (o : Op R T P V) (ha : IsApi o) (hl : LegalOp topo o) :
    ∃ t, step topo s o = .ok t ∧ OwnerInv topo t := by
  cases o with
  | write r t ws =>
    refine ⟨_, rfl, ?_⟩
    intro r' u p hp hs
    simp only at hs ⊢
    by_cases e : topo.owner p = r ∧ u = t
    · rw [if_pos e] at hs; cases hs
    · rw [if_neg e] at hs
      have h0 := hi r' u p hp hs
      have h1 : (if topo.owner p = r then pokes (s.copy (topo.owner p)) t ws else s.copy (topo.owner p)) u p
          = s.copy (topo.owner p) u p := by
        split
        · rename_i e2
          exact pokes_miss _ _ _ _ _ (fun e3 => absurd ⟨e2, e3⟩ e)
        · rfl
      have h2 : (if r' = r then pokes (s.copy r') t ws else s.copy r') u p = s.copy r' u p := by
        split
        · rename_i e2
          apply pokes_miss
          intro _ hm
          obtain ⟨w, hw, rfl⟩ := List.mem_map.mp hm
          exact ok.halo _ _ hp ((hl w hw).trans e2.symm)
        · rfl
      rw [h1, h2]; exact h0
  | writeAll t ws =>
    refine ⟨_, rfl, ?_⟩
    intro r' u p hp hs
    simp only at hs ⊢
    by_cases e : u = t
    · rw [if_pos e] at hs; cases hs
    · rw [if_neg e] at hs
      rw [pokes_miss _ _ _ _ _ (fun h => absurd h e), pokes_miss _ _ _ _ _ (fun h => absurd h e)]
      exact hi r' u p hp hs
  | start => exact absurd ha id
  | eval t ws => exact absurd ha id
  | exchange => exact absurd ha id
  | overlap t ws => exact absurd ha id

theorem runInv_step {topo : Topo R T P} (ok : TopoOk topo) {s : State R T P V} (hi : OwnerInv topo s)
    (hr : RunInv s) (o : Op R T P V) (ha : IsRun o) (hl : LegalOp topo o) :
    ∃ t, step topo s o = .ok t ∧ OwnerInv topo t ∧ RunInv t := by
  cases o with
  | write r t ws => exact absurd ha id
  | writeAll t ws => exact absurd ha id
  | start => exact absurd ha id
  | eval t ws =>
    refine ⟨_, rfl, ?_, ?_, ?_⟩
    · intro r u p hp hs
      simp only at hs ⊢
      by_cases e : u = t ∧ ws (topo.owner p) ≠ []
      · rw [if_pos e] at hs; cases hs
      · rw [if_neg e] at hs
        have hempty : u = t → ws (topo.owner p) = [] := by
          intro e1
          by_contra e2
          exact e ⟨e1, e2⟩
        have h1 : pokes (s.copy (topo.owner p)) t (ws (topo.owner p)) u p = s.copy (topo.owner p) u p := by
          apply pokes_miss
          intro e1 hm
          rw [hempty e1] at hm; cases hm
        have h2 : pokes (s.copy r) t (ws r) u p = s.copy r u p := by
          apply pokes_miss
          intro e1 hm
          obtain ⟨w, hw, rfl⟩ := List.mem_map.mp hm
          have := hl r w hw (ok.halo _ _ hp)
          rw [hempty e1] at this; cases this
        rw [h1, h2]; exact hi r u p hp hs
    · intro r r' u
      simp only
      split
      · rfl
      · exact hr.1 r r' u
    · intro r u hs
      simp only at hs ⊢
      split
      · rfl
      · rename_i e
        rw [if_neg (fun h => e h.1)] at hs
        exact hr.2 r u hs
  | exchange =>
    obtain ⟨t, e⟩ := exchange_ok (topo := topo) (cur := s) hr
    exact ⟨t, e, (ownerInv_exchange ok hi hr (fun _ _ _ _ => rfl) e).2⟩
  | overlap t ws =>
    obtain ⟨u, e⟩ := exchange_ok (topo := topo)
      (cur := { s with copy := fun r => pokes (s.copy r) t (ws r) }) hr
    refine ⟨u, e, (ownerInv_exchange ok hi hr ?_ e).2⟩
    intro r v p hp
    apply pokes_miss
    intro _ hm
    obtain ⟨w, hw, rfl⟩ := List.mem_map.mp hm
    obtain ⟨h1, h2⟩ := hl r w hw
    rcases hp with hp | ⟨r', hp, -⟩
    · rw [h2] at hp; cases hp
    · rw [h2] at hp; cases hp

theorem foldlM_append_ok {α β : Type} (f : β → α → Outcome β) (a b : List α) (s t : β)
    (h : a.foldlM f s = .ok t) : (a ++ b).foldlM f s = b.foldlM f t := by
  rw [List.foldlM_append, h]; rfl

theorem history_inv {topo : Topo R T P} (ok : TopoOk topo) (copy : R → T → P → V)
    (os : List (Op R T P V)) (hh : History os) (hl : ∀ o ∈ os, LegalOp topo o) :
    ∃ s, Dirty.run topo (fresh copy) os = .ok s ∧ OwnerInv topo s ∧ RunInv s := by
  induction hh with
  | nil =>
    exact ⟨fresh copy, rfl, fun r t p _ h => by simp [fresh] at h, fun _ _ _ => rfl, fun _ _ _ => rfl⟩
  | run h api ops _ ha hr ih =>
    obtain ⟨s, e, hi, -⟩ := ih (fun o ho => hl o (by simp [ho]))
    have hapi : ∃ s', api.foldlM (step topo) s = .ok s' ∧ OwnerInv topo s' := by
      have hl' : ∀ o ∈ api, LegalOp topo o := fun o ho => hl o (by simp [ho])
      clear e
      induction api generalizing s with
      | nil => exact ⟨s, rfl, hi⟩
      | cons o api ih2 =>
        obtain ⟨s1, e1, h1⟩ := ownerInv_api ok hi o (ha o (by simp)) (hl' o (by simp))
        obtain ⟨s2, e2, h2⟩ := ih2 (fun o ho => ha o (by simp [ho]))
          (fun o ho => hl o (by simp only [List.mem_append, List.mem_cons] at ho ⊢; tauto)) s1 h1
          (fun o ho => hl' o (by simp [ho]))
        exact ⟨s2, by rw [List.foldlM_cons, e1]; exact e2, h2⟩
    obtain ⟨s1, e1, h1⟩ := hapi
    have hrun : ∀ (ops : List (Op R T P V)) (s : State R T P V), OwnerInv topo s → RunInv s →
        (∀ o ∈ ops, IsRun o) → (∀ o ∈ ops, LegalOp topo o) →
        ∃ s', ops.foldlM (step topo) s = .ok s' ∧ OwnerInv topo s' ∧ RunInv s' := by
      intro ops
      induction ops with
      | nil => intro s h h' _ _; exact ⟨s, rfl, h, h'⟩
      | cons o ops ih2 =>
        intro s hi hr' hro hlo
        obtain ⟨s1, e1, h1, h1'⟩ := runInv_step ok hi hr' o (hro o (by simp)) (hlo o (by simp))
        obtain ⟨s2, e2, h2, h2'⟩ := ih2 s1 h1 h1' (fun o ho => hro o (by simp [ho]))
          (fun o ho => hlo o (by simp [ho]))
        exact ⟨s2, by rw [List.foldlM_cons, e1]; exact e2, h2, h2'⟩
    obtain ⟨s3, e3, h3, h3'⟩ := hrun ops { s1 with others := fun _ _ => true } h1
      ⟨fun _ _ _ => rfl, fun _ _ _ => rfl⟩ hr (fun o ho => hl o (by simp [ho]))
    refine ⟨s3, ?_, h3, h3'⟩
    unfold Dirty.run
    rw [foldlM_append_ok _ _ _ _ _ e, foldlM_append_ok _ _ _ _ _ e1, List.foldlM_cons]
    exact e3

/-- **C23**: along every history of API writes, runs and exchanges: whenever, during a run, a rank's
flag says that the neighbours' data of a step slot is up to date, its halo copies in that slot equal the
owners' current values.  The exchanges are always consistent between ranks. -/
theorem C23_clean_halo_is_current (topo : Topo R T P) (ok : TopoOk topo) (copy : R → T → P → V)
    (os : List (Op R T P V)) (hh : History os) (hl : ∀ o ∈ os, LegalOp topo o) :
    ∃ s, Dirty.run topo (fresh copy) os = .ok s ∧
      ∀ r t, s.others r t = false → HaloCurrent topo s r t := by
  obtain ⟨s, e, hi, hr⟩ := history_inv ok copy os hh hl
  refine ⟨s, e, ?_⟩
  intro r t ho p hp
  apply hi r t p hp
  by_contra hs
  have := hr.2 _ _ (show s.self (topo.owner p) t = true by simpa using hs)
  rw [hr.1 _ r] at this
  rw [ho] at this
  cases this

/-- **C23**: directly after every exchange (also one that overlaps with the evaluation of the interior),
all halo copies of all ranks are current. -/
theorem C23_after_exchange (topo : Topo R T P) (ok : TopoOk topo) (copy : R → T → P → V)
    (os : List (Op R T P V)) (x : Op R T P V) (hx : x = .exchange ∨ ∃ t ws, x = .overlap t ws)
    (hh : History (os ++ [x])) (hh0 : History os) (hl : ∀ o ∈ os ++ [x], LegalOp topo o) :
    ∃ s, Dirty.run topo (fresh copy) (os ++ [x]) = .ok s ∧ ∀ r t, HaloCurrent topo s r t := by
  obtain ⟨s, e, hi, hr⟩ := history_inv ok copy os hh0 (fun o ho => hl o (by simp [ho]))
  have happ : Dirty.run topo (fresh copy) (os ++ [x]) = step topo s x := by
    unfold Dirty.run at e ⊢
    rw [foldlM_append_ok _ _ _ _ _ e, List.foldlM_cons]
    cases step topo s x <;> rfl
  have hlx : LegalOp topo x := hl x (by simp)
  rcases hx with rfl | ⟨t, ws, rfl⟩
  · obtain ⟨u, e'⟩ := exchange_ok (topo := topo) (cur := s) hr
    exact ⟨u, by rw [happ]; exact e', (ownerInv_exchange ok hi hr (fun _ _ _ _ => rfl) e').1⟩
  · obtain ⟨u, e'⟩ := exchange_ok (topo := topo)
      (cur := { s with copy := fun r => pokes (s.copy r) t (ws r) }) hr
    refine ⟨u, by rw [happ]; exact e', (ownerInv_exchange ok hi hr ?_ e').1⟩
    intro r v p hp
    apply pokes_miss
    intro _ hm
    obtain ⟨w, hw, rfl⟩ := List.mem_map.mp hm
    obtain ⟨h1, h2⟩ := hlx r w hw
    rcases hp with hp | ⟨r', hp, -⟩
    · rw [h2] at hp; cases hp
    · rw [h2] at hp; cases hp

/-- Two ranks, three points each; the points next to the border are in the other's halo. -/
def exTopo : Topo Bool (Fin 2) (Fin 6) where
  ranks := [false, true]
  slots := [0, 1]
  owner p := decide (3 ≤ p.val)
  halo r p := if r then p.val == 2 else p.val == 3

example : TopoOk exTopo := ⟨by decide, by decide⟩

/-- Rank 0 sets a point, then a run with an exchange, a stage and an overlapped exchange. -/
def exOps : List (Op Bool (Fin 2) (Fin 6) Nat) :=
  [.write false 0 [(2, 7)]] ++ .start :: [.exchange, .eval 1 (fun r => if r then [(3, 8)] else [(2, 9)]),
    .overlap 1 (fun r => if r then [(5, 1)] else [(0, 2)])]

example : History exOps := by
  have := History.run [] [.write false 0 [(2, 7)]] [.exchange, .eval 1 (fun r => if r then [(3, 8)] else [(2, 9)]),
    .overlap 1 (fun r => if r then [(5, 1)] else [(0, 2)])] (.nil (R := Bool) (T := Fin 2) (P := Fin 6) (V := Nat))
    (by simp [IsApi]) (by simp [IsRun])
  exact this

example : ∀ o ∈ exOps, LegalOp exTopo o := by
  intro o ho
  simp only [exOps, List.cons_append, List.nil_append, List.mem_cons, List.not_mem_nil, or_false] at ho
  rcases ho with rfl | rfl | rfl | rfl | rfl
  · simp [LegalOp, exTopo]
  · trivial
  · trivial
  · intro r w hw hne
    cases r
    · simp only [Bool.false_eq_true, if_false, List.mem_singleton] at hw
      subst hw; exact absurd (by decide) hne
    · simp only [if_true, List.mem_singleton] at hw
      subst hw; exact absurd (by decide) hne
  · intro r; cases r <;> simp [exTopo] <;> decide

example : (Dirty.run exTopo (fresh (fun _ _ _ => 0)) exOps >>= fun s =>
    .ok (s.copy true 0 2, s.copy true 1 2, s.copy false 1 3)) = .ok (7, 9, 8) := by decide

/-- The code does not have the property if a single rank sets a point of its own halo: the owner is not
dirty and sends nothing, so the halo keeps a value that is not the owner's. -/
theorem C23_fails_for_halo_write :
    ∃ os : List (Op Bool (Fin 2) (Fin 6) Nat), History os ∧
      (Dirty.run exTopo (fresh (fun _ _ _ => 0)) os >>= fun s =>
        .ok (s.others true 0, s.copy true 0 2, s.copy (exTopo.owner 2) 0 2)) = .ok (false, 5, 0) := by
  refine ⟨([] ++ ([] ++ .start :: [.exchange])) ++ ([.write true 0 [(2, 5)]] ++ .start :: [.exchange]), ?_, by decide⟩
  exact .run _ _ _ (.run _ _ _ .nil (by simp) (by simp [IsRun])) (by simp [IsApi]) (by simp [IsRun])

end Yask
