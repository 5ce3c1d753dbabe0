import Verif.Mpi.WinLemmas
import Verif.Props.Halo
import Verif.Props.VarSteps

/-!
# C78: the step of exchanged data
-/

namespace Yask
open Dirty Win

variable {R P V : Type} {n : Nat}

/-- API calls. -/
def WIsApi : WOp n R P V → Prop
  | .set _ _ _ => True
  | .slice _ _ => True
  | .setAll _ => True
  | .sliceOne _ _ _ => True
  | _ => False

/-- Operations inside `run_solution`. -/
def WIsRun : WOp n R P V → Prop
  | .eval _ _ => True
  | .exchange => True
  | .overlap _ _ _ => True
  | _ => False

/-- Histories: API calls, then `run_solution`, again and again; the last one may be under way. -/
inductive WHistory : List (WOp n R P V) → Prop
  | nil : WHistory []
  | run (h api ops : List (WOp n R P V)) : WHistory h → (∀ o ∈ api, WIsApi o) → (∀ o ∈ ops, WIsRun o) →
      WHistory (h ++ (api ++ .start :: ops))

/-- Step `t` is a valid step of rank `r`. -/
def ValidStep (s : WState n R P V) (r : R) (t : Int) : Prop := s.first r ≤ t ∧ t ≤ s.first r + n - 1

/-- What the operations may write: as for C23, a rank alone sets only its own points, extensions are also
evaluated by their owners, and interiors are in no halo. -/
def WLegal [NeZero n] (topo : Topo R (Fin n) P) (o : WOp n R P V) : Prop :=
  ∀ d ∈ toDirty o, LegalOp topo d

variable [NeZero n] [DecidableEq R] [DecidableEq P]

theorem legal_slotTopo (topo : Topo R (Fin n) P) (d : Op R (Fin n) P V) :
    LegalOp (slotTopo topo) d ↔ LegalOp topo d := by
  cases d <;> exact Iff.rfl

theorem wapi_toDirty {o : WOp n R P V} (h : WIsApi o) : ∀ d ∈ toDirty o, IsApi d := by
  intro d hd
  cases o <;> simp only [toDirty, List.mem_singleton, List.mem_map] at hd
  case set => subst hd; trivial
  case slice => subst hd; trivial
  case setAll => obtain ⟨u, -, rfl⟩ := hd; trivial
  case sliceOne => subst hd; trivial
  all_goals exact absurd h id

theorem wrun_toDirty {o : WOp n R P V} (h : WIsRun o) : ∀ d ∈ toDirty o, IsRun d := by
  intro d hd
  cases o <;> simp only [toDirty, List.mem_singleton, List.mem_cons, List.not_mem_nil, or_false] at hd
  case eval => subst hd; trivial
  case exchange => subst hd; trivial
  case overlap => rcases hd with rfl | rfl <;> trivial
  all_goals exact absurd h id

theorem history_toDirty {os : List (WOp n R P V)} (h : WHistory os) : History (os.flatMap toDirty) := by
  induction h with
  | nil => exact .nil
  | run h api ops _ ha hr ih =>
    rw [List.flatMap_append, List.flatMap_append, List.flatMap_cons]
    refine .run _ _ _ ih ?_ ?_
    · intro d hd
      obtain ⟨o, ho, hd⟩ := List.mem_flatMap.mp hd
      exact wapi_toDirty (ha o ho) d hd
    · intro d hd
      obtain ⟨o, ho, hd⟩ := List.mem_flatMap.mp hd
      exact wrun_toDirty (hr o ho) d hd

/-- The valid steps of this model are those of a var (C17): a write to step `t` moves them in the same way. -/
theorem C78_valid_steps (v : Var.YVar V) (hr : Var.Reachable v) (d : Var.DimG) (ds : List Var.DimG)
    (hd : v.g.dims = d :: ds) (hk : d.kind = .step) (hn : d.alloc = (n : Int)) (t : Int) :
    ∃ d', (v.g.updateValidStep t).dims = d' :: ds ∧ d'.firstLocal = upd n d.firstLocal t ∧
      d'.lastLocal = upd n d.firstLocal t + n - 1 := by
  have hpos : 0 < n := npos
  have h := hr.ok.dims d (by rw [hd]; exact List.mem_cons_self)
  have h1 := h.nd_pad (by rw [hk]; decide)
  have h2 := h.nd_halo (by rw [hk]; decide)
  have h3 := C17_window_size v hr d (by rw [hd]; exact List.mem_cons_self) hk
  unfold Var.Geom.updateValidStep upd
  rw [hd]
  simp only [hk, if_true]
  by_cases c1 : t < d.firstLocal
  · simp only [if_pos c1]
    refine ⟨_, rfl, ?_, ?_⟩ <;> simp only [Var.DimG.firstLocal, Var.DimG.lastLocal] at c1 h3 ⊢ <;> omega
  · by_cases c2 : t > d.lastLocal
    · simp only [if_neg c1, if_pos c2]
      rw [if_pos (by omega)]
      refine ⟨_, rfl, ?_, ?_⟩ <;> simp only [Var.DimG.firstLocal, Var.DimG.lastLocal] at c1 h3 ⊢ <;> omega
    · simp only [if_neg c1, if_neg c2]
      rw [if_neg (by omega)]
      exact ⟨d, hd, rfl, by omega⟩

/-- **C78**: as long as no rank moves the valid steps alone, every operation is defined, all ranks have the
same valid steps, and an exchange by steps is the exchange by slots of C23. -/
theorem C78_steps_agree (topo : Topo R (Fin n) P) (copy : R → Fin n → P → V) (os : List (WOp n R P V))
    (hc : ∀ o ∈ os, Common o) :
    ∃ s, Win.run topo (Win.fresh copy) os = .ok s ∧ (∀ r r', s.first r = s.first r') ∧
      Dirty.run (slotTopo topo) (Dirty.fresh copy) (os.flatMap toDirty) = .ok s.st := by
  obtain ⟨s, e, h, d⟩ := run_eq topo os (Win.fresh copy) ⟨fun _ _ => rfl, fun _ _ _ => rfl⟩ hc
  exact ⟨s, e, h.first, d⟩

/-- **C78**: directly after every exchange, the halo of every rank holds, for each of its valid steps, the
values that the owner of the point has for this same step, and the step is valid there, too. -/
theorem C78_after_exchange_partial (topo : Topo R (Fin n) P) (hh : ∀ r p, topo.halo r p = true → topo.owner p ≠ r)
    (copy : R → Fin n → P → V) (os : List (WOp n R P V)) (x : WOp n R P V)
    (hx : x = .exchange ∨ ∃ t ext int, x = .overlap t ext int)
    (h0 : WHistory os) (h1 : WHistory (os ++ [x]))
    (hc : ∀ o ∈ os ++ [x], Common o) (hl : ∀ o ∈ os ++ [x], WLegal topo o) :
    ∃ s, Win.run topo (Win.fresh copy) (os ++ [x]) = .ok s ∧
      ∀ r p t, topo.halo r p = true → ValidStep s r t →
        ValidStep s (topo.owner p) t ∧ s.st.copy r (slot n t) p = s.st.copy (topo.owner p) (slot n t) p := by
  obtain ⟨s, e, hf, d⟩ := C78_steps_agree topo copy (os ++ [x]) hc
  refine ⟨s, e, ?_⟩
  have key : ∀ r u, HaloCurrent (slotTopo topo) s.st r u := by
    have ok : TopoOk (slotTopo topo) := ⟨fun u => List.mem_finRange u, hh⟩
    have hld : ∀ l : List (WOp n R P V), (∀ o ∈ l, WLegal topo o) → ∀ d ∈ l.flatMap toDirty,
        LegalOp (slotTopo topo) d := by
      intro l hl d hd
      obtain ⟨o, ho, hd⟩ := List.mem_flatMap.mp hd
      exact (legal_slotTopo topo d).mpr (hl o ho d hd)
    have hH := history_toDirty h1
    have hl1 := hld _ hl
    rw [List.flatMap_append] at d hH hl1
    rcases hx with rfl | ⟨t, ext, int, rfl⟩
    · obtain ⟨s', e', hk⟩ := C23_after_exchange (slotTopo topo) ok copy (os.flatMap toDirty) .exchange (.inl rfl)
        hH (history_toDirty h0) hl1
      have : Dirty.run (slotTopo topo) (Dirty.fresh copy) (os.flatMap toDirty ++ [.exchange]) = .ok s.st := d
      rw [this] at e'
      cases e'
      exact hk
    · have d' : Dirty.run (slotTopo topo) (Dirty.fresh copy)
          ((os.flatMap toDirty ++ [.eval (slot n t) ext]) ++ [.overlap (slot n t) int]) = .ok s.st := by
        rw [List.append_assoc]; exact d
      have hH' : History ((os.flatMap toDirty ++ [.eval (slot n t) ext]) ++ [.overlap (slot n t) int]) := by
        rw [List.append_assoc]; exact hH
      have hl' : ∀ o ∈ (os.flatMap toDirty ++ [.eval (slot n t) ext]) ++ [.overlap (slot n t) int],
          LegalOp (slotTopo topo) o := by
        rw [List.append_assoc]; exact hl1
      have hpre : History (os.flatMap toDirty ++ [.eval (slot n t) ext]) := by
        generalize hq : os ++ [WOp.overlap t ext int] = q at h1
        cases h1 with
        | nil => simp at hq
        | run h api ops hh1 ha hr =>
          have hne : ops ≠ [] := by
            rintro rfl
            have := congrArg List.getLast? hq
            simp at this
          obtain ⟨ops', y, rfl⟩ : ∃ ops' y, ops = ops' ++ [y] :=
            ⟨ops.dropLast, ops.getLast hne, (List.dropLast_append_getLast hne).symm⟩
          have hq' : os ++ [WOp.overlap t ext int] = (h ++ (api ++ WOp.start :: ops')) ++ [y] := by
            rw [hq]; simp
          obtain ⟨e1, e2⟩ := List.append_inj' hq' rfl
          have := history_toDirty (WHistory.run h api (ops' ++ [.eval t ext]) hh1 ha (by
            intro o ho
            rcases List.mem_append.mp ho with ho | ho
            · exact hr o (by simp [ho])
            · rw [List.mem_singleton] at ho; subst ho; trivial))
          have e3 : h ++ (api ++ WOp.start :: (ops' ++ [WOp.eval t ext])) = os ++ [WOp.eval t ext] := by
            rw [e1]; simp
          rw [e3, List.flatMap_append] at this
          exact this
      obtain ⟨s', e', hk⟩ := C23_after_exchange (slotTopo topo) ok copy _ (.overlap (slot n t) int)
        (.inr ⟨_, _, rfl⟩) hH' hpre hl'
      rw [d'] at e'
      cases e'
      exact hk
  intro r p t hp ht
  refine ⟨?_, key r _ p hp⟩
  unfold ValidStep at ht ⊢
  rw [hf (topo.owner p) r]
  exact ht

theorem swap_all (first : R → Int) (r : R) :
    swapSteps (n := n) first (fun _ _ => true) r = (List.range n).map fun k : Nat => first r + (k : Int) := by
  unfold swapSteps
  rw [List.filter_eq_self.mpr]
  intro _ _
  rfl

theorem find_zip_range {α : Type} (a b : Nat → Int) (g : Int → α) (p : Int → Bool) (m k : Nat) (hk : k < m)
    (hp : p (a k) = true) (hu : ∀ j, j < m → p (a j) = true → j = k) :
    (((List.range m).map a).zip (((List.range m).map b).map g)).find? (fun e => p e.1) = some (a k, g (b k)) := by
  rw [List.map_map, List.zip_map']
  have hm : ∀ x ∈ (List.range m).map (fun j => (a j, (g ∘ b) j)), p x.1 = true → x = (a k, g (b k)) := by
    intro x hx hpx
    obtain ⟨j, hj, rfl⟩ := List.mem_map.mp hx
    rw [hu j (by simpa using hj) hpx]
    rfl
  have hs : (((List.range m).map fun j => (a j, (g ∘ b) j)).find? fun e => p e.1).isSome = true := by
    rw [List.find?_isSome]
    exact ⟨(a k, (g ∘ b) k), List.mem_map.mpr ⟨k, by simpa using hk, rfl⟩, hp⟩
  obtain ⟨x, hx⟩ := Option.isSome_iff_exists.mp hs
  rw [hx]
  have h1 := List.find?_some hx
  have h2 := List.mem_of_find?_eq_some hx
  rw [hm x h2 h1]

/-- **C78**, what an exchange at the begin of a run does in any state: rank `r` gets for its valid step `t` the
data that the owner has in the slot of step `t - first r + first (owner)`, i.e. the first valid step of one
for the first valid step of the other, and so on. -/
theorem C78_by_position (topo : Topo R (Fin n) P) (s : WState n R P V) (r : R) (p : P)
    (hp : topo.halo r p = true) (hd : ∃ u, s.st.self (topo.owner p) u = true) :
    ∃ s', Win.run topo s [.start, .exchange] = .ok s' ∧ ∀ t, ValidStep s r t →
      s'.st.copy r (slot n t) p =
        s.st.copy (topo.owner p) (slot n (t - s.first r + s.first (topo.owner p))) p := by
  have hm : ∀ q, message { s with st := { s.st with others := fun _ _ => true } } q = [] ∨
      (message { s with st := { s.st with others := fun _ _ => true } } q).length = n := by
    intro q
    unfold message
    split
    · right
      simp only [swap_all, List.length_map, List.length_range]
    · exact .inl rfl
  have hrun : ∃ s', Win.run topo s [.start, .exchange] = .ok s' ∧ s'.st.copy r =
      Win.unpack topo { s with st := { s.st with others := fun _ _ => true } }
        { s with st := { s.st with others := fun _ _ => true } } r := by
    have he : Win.run topo s [.start, .exchange] =
        Win.exchangeFrom topo { s with st := { s.st with others := fun _ _ => true } }
          { s with st := { s.st with others := fun _ _ => true } } := by
      show (Win.exchangeFrom topo _ _ >>= fun s => Outcome.ok s) = _
      generalize Win.exchangeFrom topo { s with st := { s.st with others := fun _ _ => true } }
          { s with st := { s.st with others := fun _ _ => true } } = o
      cases o <;> rfl
    rw [he]
    unfold Win.exchangeFrom
    rw [if_pos]
    · exact ⟨_, rfl, rfl⟩
    · intro r' _ q _
      rcases hm q with h | h
      · exact .inl h
      · right
        rw [h]
        simp only [swap_all, List.length_map, List.length_range]
  obtain ⟨s', e, hcopy⟩ := hrun
  refine ⟨s', e, ?_⟩
  intro t ht
  rw [hcopy]
  unfold Win.unpack
  rw [if_pos hp]
  obtain ⟨u, hu⟩ := hd
  have hany : ((swapSteps (n := n) s.first (fun _ _ => true) (topo.owner p)).any
      fun t => s.st.self (topo.owner p) (slot n t)) = true := by
    rw [List.any_eq_true]
    obtain ⟨t', ht', e'⟩ := exists_swap (first := s.first) (others := fun _ _ => true) (r := topo.owner p)
      (u := u) rfl
    exact ⟨t', ht', by rw [e']; exact hu⟩
  unfold message
  simp only [hany, if_true]
  rw [swap_all, swap_all]
  unfold ValidStep at ht
  have hk : (t - s.first r).toNat < n := by omega
  rw [find_zip_range (fun k : Nat => s.first r + (k : Int)) (fun k : Nat => s.first (topo.owner p) + (k : Int))
    (fun t => s.st.copy (topo.owner p) (slot n t)) (fun a => decide (slot n a = slot n t)) n
    (t - s.first r).toNat hk]
  · have h2 : s.first (topo.owner p) + ((t - s.first r).toNat : Int) = t - s.first r + s.first (topo.owner p) := by
      omega
    simp only [h2]
  · have h1 : s.first r + ((t - s.first r).toNat : Int) = t := by omega
    rw [h1]
    exact decide_eq_true rfl
  · intro j hj h
    have h := of_decide_eq_true h
    have h1 : t = s.first r + ((t - s.first r).toNat : Int) := by omega
    rw [h1] at h
    have := slot_inj (s.first r) j (t - s.first r).toNat hj hk h
    exact this

/-- **C78**, exactly when this is right: the exchange at the begin of a run gives rank `r` the owner's data of
the same steps, whatever the contents, if and only if the first valid steps of both are in the same slot. -/
theorem C78_right_iff [Nontrivial V] (topo : Topo R (Fin n) P) (first : R → Int) (r : R) (p : P)
    (hp : topo.halo r p = true) :
    (∀ st : State R (Fin n) P V, (∃ u, st.self (topo.owner p) u = true) →
        ∃ s', Win.run topo ⟨first, st⟩ [.start, .exchange] = .ok s' ∧
          ∀ t, ValidStep (⟨first, st⟩ : WState n R P V) r t →
            s'.st.copy r (slot n t) p = st.copy (topo.owner p) (slot n t) p) ↔
      slot n (first r) = slot n (first (topo.owner p)) := by
  have hn : 0 < n := npos
  constructor
  · intro h
    by_contra hne
    obtain ⟨a, b, hab⟩ := exists_pair_ne V
    let st : State R (Fin n) P V := ⟨fun _ u _ => (if u = slot n (first r) then a else b),
      fun _ _ => true, fun _ _ => true⟩
    obtain ⟨s', e', h'⟩ := h st ⟨0, rfl⟩
    obtain ⟨s'', e'', h''⟩ := C78_by_position topo ⟨first, st⟩ r p hp ⟨0, rfl⟩
    rw [e'] at e''
    cases e''
    have hv : ValidStep (⟨first, st⟩ : WState n R P V) r (first r) := by
      unfold ValidStep
      simp only
      omega
    have h1 := h' (first r) hv
    have h2 := h'' (first r) hv
    rw [h1] at h2
    simp only [st, sub_self, zero_add] at h2
    rw [if_pos trivial, if_neg (fun h => hne h.symm)] at h2
    exact hab h2
  · intro h st hd
    obtain ⟨s', e, h'⟩ := C78_by_position topo ⟨first, st⟩ r p hp hd
    refine ⟨s', e, ?_⟩
    intro t ht
    rw [h' t ht]
    simp only
    congr 1
    rw [slot_eq_iff] at h ⊢
    rw [show t - first r + first (topo.owner p) = t + (first (topo.owner p) - first r) by omega, Int.add_emod,
      Int.emod_eq_emod_iff_emod_sub_eq_zero.mp h.symm, add_zero, Int.emod_emod_of_dvd _ (dvd_refl _)]

/-- **C78**: whatever the valid steps were, a run of at least as many steps as the var stores gives all ranks
the same valid steps, forward and in reverse. -/
theorem C78_run_aligns (topo : Topo R (Fin n) P) (s : WState n R P V) (t : Int) (k : Nat) (hk : n ≤ k + 1)
    (ws : Nat → R → List (P × V)) :
    (∃ s', Win.run topo s ((List.range (k + 1)).map fun j : Nat => .eval (t + j) (ws j)) = .ok s' ∧
      ∀ r, s'.first r = t + k - n + 1) ∧
    (∃ s', Win.run topo s ((List.range (k + 1)).map fun j : Nat => .eval (t - j) (ws j)) = .ok s' ∧
      ∀ r, s'.first r = t - k) := by
  have hrun : ∀ (l : List Nat) (a : Nat → Int) (s : WState n R P V),
      ∃ s', Win.run topo s (l.map fun j => .eval (a j) (ws j)) = .ok s' ∧
        ∀ r, s'.first r = (l.map a).foldl (upd n) (s.first r) := by
    intro l a
    induction l with
    | nil => intro s; exact ⟨s, rfl, fun _ => rfl⟩
    | cons j l ih =>
      intro s
      obtain ⟨s', e, h⟩ := ih (evalAll s (a j) (ws j))
      exact ⟨s', e, h⟩
  constructor
  · obtain ⟨s', e, h⟩ := hrun (List.range (k + 1)) (fun j : Nat => t + (j : Int)) s
    exact ⟨s', e, fun r => by rw [h r]; exact (upd_up (s.first r) t k).2.2.1 hk⟩
  · obtain ⟨s', e, h⟩ := hrun (List.range (k + 1)) (fun j : Nat => t - (j : Int)) s
    exact ⟨s', e, fun r => by rw [h r]; exact (upd_down (s.first r) t k).2.2.1 hk⟩

namespace WinExample

/-- Two ranks with three points each, two slots. -/
def topo : Topo Bool (Fin 2) (Fin 6) where
  ranks := [false, true]
  slots := [0, 1]
  owner p := decide (3 ≤ p.val)
  halo r p := if r then p.val == 2 else p.val == 3

/-- All elements of all ranks are set by the ranks together: `10` in slot 0 and `20` in slot 1. -/
def init : WOp 2 Bool (Fin 6) Nat :=
  .setAll fun u _ => (List.finRange 6).map fun p => (p, if u = 0 then 10 else 20)

/-- A run of steps 0 and 1, writing steps 1 and 2. -/
def ops : List (WOp 2 Bool (Fin 6) Nat) :=
  [init] ++ .start :: [.exchange, .eval 1 (fun r => if r then [(3, 8)] else [(2, 9)]), .exchange,
    .overlap 2 (fun r => if r then [(3, 5)] else [(2, 6)]) (fun r => if r then [(5, 1)] else [(0, 2)])]

example : ∀ o ∈ ops, Common o := by
  intro o ho
  simp only [ops, init, List.cons_append, List.nil_append, List.mem_cons, List.not_mem_nil, or_false] at ho
  rcases ho with rfl | rfl | rfl | rfl | rfl | rfl <;> trivial

example : WHistory ops :=
  WHistory.run [] [init] _ .nil (by simp [WIsApi, init]) (by simp [WIsRun])

example : ∀ o ∈ ops, WLegal topo o := by
  intro o ho
  simp only [ops, init, List.cons_append, List.nil_append, List.mem_cons, List.not_mem_nil, or_false] at ho
  rcases ho with rfl | rfl | rfl | rfl | rfl | rfl <;> intro d hd <;>
    simp only [toDirty, List.mem_map, List.mem_singleton, List.mem_cons, List.not_mem_nil, or_false] at hd
  · obtain ⟨u, -, rfl⟩ := hd; trivial
  · subst hd; trivial
  · subst hd; trivial
  · subst hd
    intro r w hw hne
    cases r
    · simp only [Bool.false_eq_true, if_false, List.mem_singleton] at hw
      subst hw; exact absurd (by decide) hne
    · simp only [if_true, List.mem_singleton] at hw
      subst hw; exact absurd (by decide) hne
  · subst hd; trivial
  · rcases hd with rfl | rfl
    · intro r w hw hne
      cases r
      · simp only [Bool.false_eq_true, if_false, List.mem_singleton] at hw
        subst hw; exact absurd (by decide) hne
      · simp only [if_true, List.mem_singleton] at hw
        subst hw; exact absurd (by decide) hne
    · intro r; cases r <;> simp [topo] <;> decide

/-- After the run, the valid steps are 1 and 2, and the halos hold the neighbour's values. -/
example : (Win.run topo (Win.fresh (fun _ _ _ => 0)) ops >>= fun s =>
    .ok (s.first false, s.first true, s.st.copy true (slot 2 2) 2, s.st.copy true (slot 2 1) 2,
      s.st.copy false (slot 2 2) 3)) = .ok (1, 1, 6, 9, 5) := by decide +kernel

end WinExample

/-- The property is false after `run_auto_tuner_now()`, which runs as many steps in each rank as its own
measurements need: here rank 0 runs three steps and rank 1 four.  As the documentation asks, the data is set
again afterwards (all elements, in both ranks: 10 for even and 20 for odd steps).  The next `run_solution()`
exchanges halos by the order of the valid steps, which are 2 and 3 in one rank, 3 and 4 in the other: the halos
of both ranks hold the data of the other step. -/
theorem C78_after_tuning_wrong :
    (Win.run WinExample.topo (Win.fresh (fun _ _ _ => 0))
      [.tune false [(1, []), (2, []), (3, [])], .tune true [(1, []), (2, []), (3, []), (4, [])],
        WinExample.init, .start, .exchange] >>= fun s =>
      .ok (s.first false, s.first true,
        (s.st.copy (WinExample.topo.owner 2) (slot 2 0) 2, s.st.copy true (slot 2 0) 2),
        (s.st.copy (WinExample.topo.owner 2) (slot 2 1) 2, s.st.copy true (slot 2 1) 2))) =
      .ok (2, 3, (10, 20), (20, 10)) := by decide +kernel

/-- The same if one rank alone sets a slice of a step that is not valid. -/
theorem C78_after_slice_wrong :
    (Win.run WinExample.topo (Win.fresh (fun _ _ _ => 0))
      [WinExample.init, .sliceOne false 2 [(0, 10)], .start, .exchange] >>= fun s =>
      .ok (s.first false, s.first true,
        (s.st.copy (WinExample.topo.owner 2) (slot 2 0) 2, s.st.copy true (slot 2 0) 2))) =
      .ok (1, 0, (10, 20)) := by decide +kernel

end Yask
