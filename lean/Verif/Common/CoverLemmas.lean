import Verif.Spec.Cover
import Mathlib.Tactic.Linarith
import Mathlib.Tactic.Ring
import Mathlib.Algebra.BigOperators.Group.List.Basic

/-! Helper lemmas about exact covers. -/

namespace Yask
open Spec

/-- Monotone break points: exactly one chunk contains a point of the full range. -/
theorem countP_chain (f : Nat → Int) (n : Nat) (hf : ∀ i, i < n → f i ≤ f (i + 1)) (x : Int) :
    (List.range n).countP (fun i => decide (f i ≤ x ∧ x < f (i + 1))) =
      if f 0 ≤ x ∧ x < f n then 1 else 0 := by
  induction n with
  | zero => simp only [List.range_zero, List.countP_nil]; split <;> omega
  | succ n ih =>
    have hmono : f 0 ≤ f n := by
      clear ih
      induction n with
      | zero => exact le_refl _
      | succ m ihm =>
        have h1 := hf m (by omega)
        have h2 := ihm (fun i hi => hf i (by omega))
        omega
    have hn := hf n (by omega)
    rw [List.range_succ, List.countP_append, ih (fun i hi => hf i (by omega))]
    simp only [List.countP_cons, List.countP_nil, Nat.zero_add, decide_eq_true_eq]
    split <;> split <;> split <;> omega

/-- Chunks with monotone break points, clipped to `[b, e)`, cover `[b, e)` exactly. -/
theorem exactCover_chain_clip (f : Nat → Int) (n : Nat) (b e : Int)
    (hf : ∀ i, i < n → f i ≤ f (i + 1)) (h0 : f 0 ≤ b) (hn : e ≤ f n) :
    ExactCover ((List.range n).map fun i => (max (f i) b, min (f (i + 1)) e)) b e := by
  intro x
  unfold visits
  rw [List.countP_map]
  by_cases hx : b ≤ x ∧ x < e
  · have : (List.range n).countP ((fun r : Ivl => decide (InIvl x r)) ∘
        fun i => (max (f i) b, min (f (i + 1)) e)) =
        (List.range n).countP (fun i => decide (f i ≤ x ∧ x < f (i + 1))) := by
      apply List.countP_congr
      intro i _
      simp only [Function.comp, decide_eq_true_eq]
      unfold InIvl
      simp only
      omega
    rw [this, countP_chain f n hf x]
    have : f 0 ≤ x ∧ x < f n := by omega
    simp [hx, this]
  · have : (List.range n).countP ((fun r : Ivl => decide (InIvl x r)) ∘
        fun i => (max (f i) b, min (f (i + 1)) e)) = 0 := by
      rw [List.countP_eq_zero]
      intro i _
      simp only [Function.comp, decide_eq_true_eq]
      unfold InIvl
      simp only
      omega
    rw [this]; simp [hx]

theorem exactCover_chain (f : Nat → Int) (n : Nat)
    (hf : ∀ i, i < n → f i ≤ f (i + 1)) :
    ExactCover ((List.range n).map fun i => (f i, f (i + 1))) (f 0) (f n) := by
  intro x
  unfold visits
  rw [List.countP_map]
  exact countP_chain f n hf x

theorem exactCover_perm {l l' : List Ivl} {b e : Int} (h : l.Perm l')
    (hc : ExactCover l b e) : ExactCover l' b e := by
  intro x; rw [← hc x]; exact (h.countP_eq _).symm

theorem exactCover_nil {b e : Int} (h : e ≤ b) : ExactCover [] b e := by
  intro x; simp only [visits, List.countP_nil]; split <;> omega

theorem exactCover_single {b e : Int} : ExactCover [(b, e)] b e := by
  intro x; simp only [visits, List.countP_cons, List.countP_nil, decide_eq_true_eq]; simp [InIvl]

/-- Counting through a nested loop. -/
theorem countP_flatMap_eq {α β : Type*} (l : List α) (inner : α → List β)
    (hit : β → Bool) (hitA : α → Bool)
    (h : ∀ a ∈ l, (inner a).countP hit = if hitA a then 1 else 0) :
    (l.flatMap inner).countP hit = l.countP hitA := by
  induction l with
  | nil => simp
  | cons a l ih =>
    rw [List.flatMap_cons, List.countP_append, List.countP_cons,
      ih (fun a' ha' => h a' (List.mem_cons_of_mem _ ha')), h a (List.mem_cons_self)]
    omega

/-- Refining each range of an exact cover by an exact cover of it. -/
theorem exactCover_flatMap {l : List Ivl} {b e : Int} {inner : Ivl → List Ivl}
    (hl : ExactCover l b e) (hi : ∀ r ∈ l, ExactCover (inner r) r.1 r.2) :
    ExactCover (l.flatMap inner) b e := by
  intro x
  rw [← hl x]
  unfold visits
  apply countP_flatMap_eq
  intro r hr
  have := hi r hr x
  unfold visits at this
  rw [this]
  simp only [decide_eq_true_eq]

/-- The boxes visited by nested loops over per-dimension lists of ranges, outermost
dimension first. -/
def boxProduct : List (List Ivl) → List Box
  | [] => [[]]
  | l :: ls => l.flatMap fun r => (boxProduct ls).map (r :: ·)

theorem boxVisits_product (ls : List (List Ivl)) (p : List Int)
    (hlen : p.length = ls.length) :
    boxVisits (boxProduct ls) p = ((p.zip ls).map fun q => visits q.2 q.1).prod := by
  induction ls generalizing p with
  | nil =>
    have : p = [] := by simpa using hlen
    subst this
    simp [boxProduct, boxVisits, InBox]
  | cons l ls ih =>
    cases p with
    | nil => simp at hlen
    | cons x p =>
      have ih' := ih p (by simpa using hlen)
      simp only [boxProduct, List.zip_cons_cons, List.map_cons, List.prod_cons]
      rw [← ih']
      unfold boxVisits visits
      clear ih ih' hlen
      induction l with
      | nil => simp
      | cons r l ihl =>
        rw [List.flatMap_cons, List.countP_append, ihl, List.countP_cons, List.countP_map,
          Nat.add_mul, Nat.add_comm]
        congr 1
        by_cases hx : InIvl x r
        · rw [if_pos (by simpa using hx), Nat.one_mul]
          apply List.countP_congr
          intro b _
          simp only [Function.comp, decide_eq_true_eq, InBox, List.forall₂_cons]
          exact and_iff_right hx
        · rw [if_neg (by simpa using hx), Nat.zero_mul]
          rw [List.countP_eq_zero]
          intro b _
          simp only [Function.comp, decide_eq_true_eq]
          simp [InBox, hx]

theorem boxProduct_length {ls : List (List Ivl)} {b : Box} (h : b ∈ boxProduct ls) :
    b.length = ls.length := by
  induction ls generalizing b with
  | nil => simp [boxProduct] at h; simp [h]
  | cons l ls ih =>
    simp only [boxProduct, List.mem_flatMap, List.mem_map] at h
    obtain ⟨r, _, b', hb', rfl⟩ := h
    simp [ih hb']

theorem boxVisits_product_of_length_ne (ls : List (List Ivl)) (p : List Int)
    (hlen : p.length ≠ ls.length) : boxVisits (boxProduct ls) p = 0 := by
  unfold boxVisits
  rw [List.countP_eq_zero]
  intro b hb
  have := boxProduct_length hb
  simp only [decide_eq_true_eq]
  intro hin
  have := List.Forall₂.length_eq hin
  omega

/-- Nested loops whose per-dimension ranges are exact covers cover the product box
exactly. -/
theorem exactBoxCover_product (ls : List (List Ivl)) (region : Box)
    (h : List.Forall₂ (fun l r => ExactCover l r.1 r.2) ls region) :
    ExactBoxCover (boxProduct ls) region := by
  intro p
  have hlen := h.length_eq
  by_cases hp : p.length = ls.length
  · rw [boxVisits_product ls p hp]
    induction h generalizing p with
    | nil =>
      have : p = [] := by simpa using hp
      subst this
      simp [InBox]
    | @cons l r ls rs hl _ ih =>
      cases p with
      | nil => simp at hp
      | cons x p =>
        have ih' := ih p (by simpa using hlen) (by simpa using hp)
        simp only [List.zip_cons_cons, List.map_cons, List.prod_cons]
        rw [ih', hl x]
        simp only [InBox, List.forall₂_cons, InIvl]
        by_cases h1 : r.1 ≤ x ∧ x < r.2 <;>
          by_cases h2 : List.Forall₂ InIvl p rs <;> simp_all [InBox]
  · rw [boxVisits_product_of_length_ne ls p hp]
    have : ¬ InBox p region := by
      intro hin; have := List.Forall₂.length_eq hin; omega
    simp [this]

theorem exactBoxCover_perm {l l' : List Box} {region : Box} (h : l.Perm l')
    (hc : ExactBoxCover l region) : ExactBoxCover l' region := by
  intro x; rw [← hc x]; exact (h.countP_eq _).symm

/-- Refining each box of an exact cover by an exact cover of it. -/
theorem exactBoxCover_flatMap {l : List Box} {region : Box} {inner : Box → List Box}
    (hl : ExactBoxCover l region) (hi : ∀ r ∈ l, ExactBoxCover (inner r) r) :
    ExactBoxCover (l.flatMap inner) region := by
  intro x
  rw [← hl x]
  unfold boxVisits
  apply countP_flatMap_eq
  intro r hr
  have := hi r hr x
  unfold boxVisits at this
  rw [this]
  simp

end Yask
