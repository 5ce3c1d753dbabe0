import Verif.Common.CompactLemmas

/-!
# C33: automatic factorisation of the number of ranks

`vals` are the requested numbers of ranks per dimension, 0 meaning unset; `N` is the number of ranks.
-/

namespace Yask
open Spec

/-- A grid of `N` ranks: one positive number per requested dimension, with product `N`. -/
def IsGrid (vals : List Int) (N : Int) (w : List Int) : Prop :=
  w.length = vals.length ∧ (∀ x ∈ w, 0 < x) ∧ w.prod = N

/-- `w` has the requested number in every dimension where one is requested. -/
def KeepsRequest (vals w : List Int) : Prop :=
  List.Forall₂ (fun v x => 0 < v → x = v) vals w

theorem keeps_true (vals w : List Int) : Keeps true vals w ↔ KeepsRequest vals w := by
  unfold Keeps KeepsRequest; simp

theorem keeps_false (vals w : List Int) : Keeps false vals w ↔ w.length = vals.length := by
  unfold Keeps
  constructor
  · intro h; exact h.length_eq.symm
  · intro h
    rw [List.forall₂_iff_get]
    exact ⟨h.symm, fun _ _ _ h => by simp at h⟩

theorem keepsRequest_length {vals w : List Int} (h : KeepsRequest vals w) : w.length = vals.length :=
  h.length_eq.symm

theorem grid_exists (v : Int) (vs : List Int) (N : Int) (hN : 0 < N) :
    IsGrid (v :: vs) N (N :: vs.map fun _ => 1) := by
  refine ⟨by simp, ?_, ?_⟩
  · intro x hx
    rw [List.mem_cons, List.mem_map] at hx
    rcases hx with rfl | ⟨_, _, rfl⟩ <;> omega
  · rw [List.prod_cons]
    have : (vs.map fun _ => (1 : Int)).prod = 1 := by
      induction vs with
      | nil => rfl
      | cons a l ih => rw [List.map_cons, List.prod_cons, ih]; rfl
    rw [this, mul_one]

theorem all_pos_of_prod {vals : List Int} (h0 : ∀ v ∈ vals, 0 ≤ v) (hp : 0 < vals.prod) :
    ∀ v ∈ vals, 0 < v := by
  intro v hv
  rcases (h0 v hv).lt_or_eq with h | h
  · exact h
  · exfalso
    have : vals.prod = 0 := List.prod_eq_zero_iff.2 (by rw [h]; exact hv)
    omega

/-- C33: if some grid keeps the requested numbers, the result is such a grid, and its largest number is as
small as possible among them. -/
theorem C33_keeps_request (vals : List Int) (N : Int) (hN : 0 < N) (hne : vals ≠ [])
    (h0 : ∀ v ∈ vals, 0 ≤ v) (hex : ∃ w, IsGrid vals N w ∧ KeepsRequest vals w) :
    IsGrid vals N (compactFactors vals N) ∧ KeepsRequest vals (compactFactors vals N) ∧
      ∀ w, IsGrid vals N w → KeepsRequest vals w → maxVals (compactFactors vals N) ≤ maxVals w := by
  unfold compactFactors
  rw [if_neg (by simpa using hne), if_neg (by omega), prodVals_eq]
  by_cases hp : vals.prod = N
  · rw [if_pos hp]
    have hpos := all_pos_of_prod h0 (by omega)
    refine ⟨⟨rfl, hpos, hp⟩, ?_, ?_⟩
    · unfold KeepsRequest
      rw [List.forall₂_same]
      intro _ _ _; rfl
    · intro w hw hk
      have : w = vals := by
        unfold KeepsRequest at hk
        clear hex hw hp h0 hne
        induction hk with
        | nil => rfl
        | @cons v x vs xs h1 _ ih =>
          rw [h1 (hpos v List.mem_cons_self), ih fun y hy => hpos y (List.mem_cons_of_mem _ hy)]
      rw [this]
  · rw [if_neg hp]
    obtain ⟨v, vs, rfl⟩ := List.exists_cons_of_ne_nil hne
    obtain ⟨s1, s2⟩ := compactPass_spec true N hN v vs
    simp only [keeps_true] at s1 s2
    obtain ⟨w, hw, hk⟩ := hex
    have hne' : compactPass true N (v :: vs) [] ≠ [] := fun h => s1 h w ⟨hk, hw.2⟩
    obtain ⟨t1, t2⟩ := s2 hne'
    simp only []
    rw [if_pos (by rw [prodVals_eq]; exact t1.2.2)]
    exact ⟨⟨keepsRequest_length t1.1, t1.2⟩, t1.1, fun w hw hk => t2 w ⟨hk, hw.2⟩⟩

/-- C33, for more than one rank: the result is always a grid of `N` ranks in the requested dimensions; if the
requested numbers cannot be kept, its largest number is as small as possible. -/
theorem C33_valid_grid_partial (vals : List Int) (N : Int) (hN : 1 < N) (hne : vals ≠ [])
    (h0 : ∀ v ∈ vals, 0 ≤ v) :
    IsGrid vals N (compactFactors vals N) ∧
      ((¬ ∃ w, IsGrid vals N w ∧ KeepsRequest vals w) →
        ∀ w, IsGrid vals N w → maxVals (compactFactors vals N) ≤ maxVals w) := by
  by_cases hex : ∃ w, IsGrid vals N w ∧ KeepsRequest vals w
  · exact ⟨(C33_keeps_request vals N (by omega) hne h0 hex).1, fun h => absurd hex h⟩
  · have hp : vals.prod ≠ N := by
      intro hp
      refine hex ⟨vals, ⟨rfl, all_pos_of_prod h0 (by omega), hp⟩, ?_⟩
      unfold KeepsRequest
      rw [List.forall₂_same]
      intro _ _ _; rfl
    unfold compactFactors
    rw [if_neg (by simpa using hne), if_neg (by omega), prodVals_eq, if_neg hp]
    obtain ⟨v, vs, rfl⟩ := List.exists_cons_of_ne_nil hne
    obtain ⟨s1, s2⟩ := compactPass_spec true N (by omega) v vs
    simp only [keeps_true] at s1 s2
    have h1 : compactPass true N (v :: vs) [] = [] := by
      by_contra h
      obtain ⟨t1, _⟩ := s2 h
      exact hex ⟨_, ⟨keepsRequest_length t1.1, t1.2⟩, t1.1⟩
    simp only [h1]
    rw [if_neg (show ¬ prodVals [] = N by simp only [prodVals]; omega)]
    obtain ⟨r1, r2⟩ := compactPass_spec false N (by omega) v vs
    simp only [keeps_false] at r1 r2
    have hne' : compactPass false N (v :: vs) [] ≠ [] :=
      fun h => r1 h _ (grid_exists v vs N (by omega))
    obtain ⟨t1, t2⟩ := r2 hne'
    exact ⟨t1, fun _ w hw => t2 w hw⟩

/-- C33 fails for one rank when more than one is requested in some dimension: the result has no
dimensions at all (the caller accepts it, because the product of no numbers is 1). -/
theorem C33_one_rank_empty : compactFactors [2, 0] 1 = [] ∧ prodVals (compactFactors [2, 0] 1) = 1 := by
  decide +kernel

-- Twelve ranks: nothing requested; 2 requested in the first dimension; an impossible request.
example : compactFactors [0, 0] 12 = [4, 3] ∧ compactFactors [2, 0] 12 = [2, 6] ∧
    compactFactors [5, 0] 12 = [4, 3] ∧ compactFactors [0, 0, 0] 12 = [3, 2, 2] := by
  decide +kernel

example : ∃ w, IsGrid [2, 0] 12 w ∧ KeepsRequest [2, 0] w :=
  ⟨[2, 6], ⟨rfl, by decide, rfl⟩, by unfold KeepsRequest; simp⟩

end Yask
