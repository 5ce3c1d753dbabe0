import Verif.Var.AccessLemmas
import Verif.Var.StepModel
import Mathlib.Data.Int.ModEq

/-! Helper lemmas: the valid steps, and histories of setting calls. -/

namespace Yask.Var
open Spec

variable {V : Type}

theorem runSettings_reachable {v v' : YVar V} {cs : List (Nat × Setting × Int)} (hv : Reachable v)
    (h : runSettings v cs = some v') : Reachable v' := by
  induction cs generalizing v with
  | nil => cases h; exact hv
  | cons c cs ih =>
    unfold runSettings at h
    split at h
    · cases h
    · next hc =>
      exact ih (Reachable.setting v _ c.1 c.2.1 c.2.2 hv (Prod.ext rfl (by simpa using hc))) h

/-- Only the first step index of the first dimension moves. -/
theorem updateValidStep_eq {g : Geom} {d : DimG} {ds : List DimG} (hd : g.dims = d :: ds)
    (hk : d.kind = .step) (t : Int) :
    g.updateValidStep t = { g with dims :=
      { d with localOfs := if t < d.firstLocal then t
          else if t > d.lastLocal then t - d.domain + 1 else d.localOfs } :: ds } := by
  obtain ⟨dims, _, _, _, _, _, _, _, _, _⟩ := g
  subst hd
  unfold Geom.updateValidStep
  simp only
  rw [if_pos hk]
  split
  · rfl
  · split
    · rfl
    · obtain ⟨⟩ := d
      rfl

theorem slots_updateValidStep (g : Geom) (t : Int) (idx : List Int) :
    slots (g.updateValidStep t).dims idx = slots g.dims idx := by
  unfold Geom.updateValidStep
  split
  · next d ds hd =>
    split
    · next hk =>
      split
      · rw [hd]; cases idx with
        | nil => rfl
        | cons i is => simp [slots, DimG.slot, hk]
      · split
        · rw [hd]; cases idx with
          | nil => rfl
          | cons i is => simp [slots, DimG.slot, hk]
        · rfl
    · rfl
  · rfl

theorem zipWith_initial {α β γ : Type} (f : α → β → γ) (a a' : α) (as : List α) (bs : List β)
    (h : ∀ b, f a b = f a' b) : List.zipWith f (a :: as) bs = List.zipWith f (a' :: as) bs := by
  cases bs <;> simp [h]

theorem addrOfSlots_updateValidStep (g : Geom) (t : Int) (s : List Int) :
    (g.updateValidStep t).addrOfSlots s = g.addrOfSlots s := by
  have key : ∀ (d : DimG) (ds : List DimG) (n : Int), g.dims = d :: ds →
      Geom.addrOfSlots { g with dims := { d with localOfs := n } :: ds } s = g.addrOfSlots s := by
    intro d ds n hd
    unfold Geom.addrOfSlots Geom.vecAllocs vecIdxOf vecOfsOf Geom.foldPerm Geom.elemReals
    simp only [hd]
    rw [zipWith_initial _ { d with localOfs := n } d _ _ (fun _ => rfl),
      zipWith_initial _ { d with localOfs := n } d _ _ (fun _ => rfl)]
    rfl
  unfold Geom.updateValidStep
  split
  · next d ds hd =>
    split
    · split
      · exact key d ds _ hd
      · split
        · exact key d ds _ hd
        · rfl
    · rfl
  · rfl

theorem stepWrap_updateValidStep (g : Geom) (t : Int) : (g.updateValidStep t).stepWrap = g.stepWrap := by
  unfold Geom.updateValidStep
  split
  · split
    · split
      · rfl
      · split <;> rfl
    · rfl
  · rfl

/-- The writes of one step. -/
theorem kernelWrites_eq {g : Geom} (hok : g.Ok) (hs : StepsAlloc g.api) (t : Int) (m : Int → V)
    (ws : List (List Int × V)) (hw : ∀ w ∈ ws, InRangeButStep g.api (t :: w.1)) :
    ws.foldlM (fun m w => do
      let asi ← g.allocStepIndex (t :: w.1)
      writeElem g m w.2 (t :: w.1) asi) m =
    Outcome.ok (ws.foldl (fun m w => poke m (g.addrOfSlots (slots g.dims (t :: w.1))) w.2) m) := by
  induction ws generalizing m with
  | nil => rfl
  | cons w ws ih =>
    rw [List.foldlM_cons, writeElem_eq hok m w.2 (hw w List.mem_cons_self) hs]
    simp only [Outcome.bind_ok]
    rw [ih _ fun x hx => hw x (List.mem_cons_of_mem _ hx)]
    rfl

/-- Effect of several writes at one address. -/
theorem foldl_poke (f : List Int × V → Int) (m : Int → V) (ws : List (List Int × V)) (a : Int) :
    ws.foldl (fun m w => poke m (f w) w.2) m a =
      match ws.reverse.find? (fun w => decide (f w = a)) with
      | some w => w.2
      | none => m a := by
  induction ws generalizing m with
  | nil => rfl
  | cons w ws ih =>
    rw [List.foldl_cons, ih, List.reverse_cons, List.find?_append]
    cases ws.reverse.find? (fun w => decide (f w = a)) with
    | some x => rfl
    | none =>
      simp only [Option.none_or, List.find?_cons, List.find?_nil]
      by_cases h : f w = a
      · simp [h, poke]
      · simp [h, poke, Ne.symm h]

theorem sameElem_tail {ds : List ApiDim} (hns : ∀ d ∈ ds, d.isStep = false) (a b : List Int)
    (ha : a.length = ds.length) (hb : b.length = ds.length) : SameElem ds a b ↔ a = b := by
  induction ds generalizing a b with
  | nil => cases a <;> cases b <;> simp_all [SameElem]
  | cons d ds ih =>
    cases a with
    | nil => simp at ha
    | cons i a =>
      cases b with
      | nil => simp at hb
      | cons j b =>
        simp only [SameElem, hns d List.mem_cons_self, Bool.false_eq_true, if_false, List.cons.injEq]
        rw [ih (fun x hx => hns x (List.mem_cons_of_mem _ hx)) a b (by simpa using ha)
          (by simpa using hb)]

theorem emod_window {n f i t : Int} (hi : f ≤ i ∧ i ≤ f + n - 1) (ht : f ≤ t ∧ t ≤ f + n - 1)
    (h : i % n = t % n) : i = t := by
  have hn : 0 < n := by omega
  have h1 : n ∣ i - t := Int.ModEq.dvd (Int.ModEq.symm h)
  obtain ⟨k, hk⟩ := h1
  have : k = 0 := by
    by_contra hne
    rcases Int.lt_or_gt_of_ne hne with h' | h'
    · have : n * k ≤ n * (-1) := Int.mul_le_mul_of_nonneg_left (by omega) hn.le
      omega
    · have : n * 1 ≤ n * k := Int.mul_le_mul_of_nonneg_left (by omega) hn.le
      omega
  subst this
  omega

end Yask.Var
