import Verif.Spec.CodeNetSpec
import Verif.Mpi.PrepLemmas
import Verif.Kernel.CodeSolnSim

/-! Helper lemmas: ranks with the vars of the equations instead of the vars of the kernel; messages on the storage of the vars. -/

namespace Yask
open Spec Mpi Var Nano Comp Spec.Cpp RunCfg

/-! ### The interior depends on the set of vars only -/

section
variable {α β : Type*} {f : β → α → β}

theorem foldl_absorb (hc : ∀ b x y, f (f b x) y = f (f b y) x) (hi : ∀ b x, f (f b x) x = f b x) {x : α} :
    ∀ (l : List α) (b : β), x ∈ l → l.foldl f (f b x) = l.foldl f b
  | [], _, h => by simp at h
  | y :: l, b, h => by
    rw [List.foldl_cons, List.foldl_cons]
    rcases List.mem_cons.1 h with rfl | h
    · rw [hi]
    · rw [hc]
      exact foldl_absorb hc hi l _ h

theorem foldl_append_absorb (hc : ∀ b x y, f (f b x) y = f (f b y) x) (hi : ∀ b x, f (f b x) x = f b x) :
    ∀ (l l' : List α) (b : β), (∀ x ∈ l, x ∈ l') → (l ++ l').foldl f b = l'.foldl f b
  | [], _, _, _ => rfl
  | x :: l, l', b, h => by
    rw [List.cons_append, List.foldl_cons, foldl_absorb hc hi _ _ (List.mem_append_right _ (h x (by simp)))]
    exact foldl_append_absorb hc hi l l' b fun y hy => h y (List.mem_cons_of_mem _ hy)

theorem foldl_same_set (hc : ∀ b x y, f (f b x) y = f (f b y) x) (hi : ∀ b x, f (f b x) x = f b x) {l l' : List α}
    (h1 : ∀ x ∈ l, x ∈ l') (h2 : ∀ x ∈ l', x ∈ l) (b : β) : l.foldl f b = l'.foldl f b := by
  rw [← foldl_append_absorb hc hi l l' b h1, ← foldl_append_absorb hc hi l' l b h2]
  exact List.perm_append_comm.foldl_eq' (fun x _ y _ z => hc z x y) b

end

theorem adjust_form (P : Prep) (me j : Nat) (nv : Nat × Nat) : (∀ b, P.adjust me j b nv = b) ∨
    (∃ l, ∀ b, P.adjust me j b nv = (max b.1 l, b.2)) ∨ ∃ h, ∀ b, P.adjust me j b nv = (b.1, min b.2 h) := by
  unfold Prep.adjust
  simp only
  split_ifs <;> first | exact Or.inl fun _ => rfl | exact Or.inr (Or.inl ⟨_, fun _ => rfl⟩) | exact Or.inr (Or.inr ⟨_, fun _ => rfl⟩)

theorem adjust_comm (P : Prep) (me j : Nat) (b : Int × Int) (x y : Nat × Nat) :
    P.adjust me j (P.adjust me j b x) y = P.adjust me j (P.adjust me j b y) x := by
  rcases adjust_form P me j x with hx | ⟨l, hx⟩ | ⟨l, hx⟩ <;> rcases adjust_form P me j y with hy | ⟨l', hy⟩ | ⟨l', hy⟩ <;>
    simp only [hx, hy, Prod.mk.injEq, true_and, and_true] <;> omega

theorem adjust_idem (P : Prep) (me j : Nat) (b : Int × Int) (x : Nat × Nat) :
    P.adjust me j (P.adjust me j b x) x = P.adjust me j b x := by
  rcases adjust_form P me j x with hx | ⟨l, hx⟩ | ⟨l, hx⟩ <;> simp only [hx, Prod.mk.injEq, true_and, and_true] <;> omega

section
variable {P : Prep} {S : Slices}

theorem sliced_interior (hv : ∀ v < S.nv, S.var v < P.nvars) (ho : ∀ k < P.nvars, ∃ v < S.nv, S.var v = k) (me j : Nat) :
    (P.sliced S).interior me j = P.interior me j := by
  have e : (P.sliced S).interior me j = (((P.nbrs me).flatMap fun nb => (List.range S.nv).map fun v => (nb, v)).map
      fun x => (x.1, S.var x.2)).foldl (P.adjust me j) ((P.cfg me).extBeg j, (P.cfg me).extEnd j) := by
    rw [List.foldl_map]
    rfl
  rw [e]
  unfold Prep.interior
  refine foldl_same_set (adjust_comm P me j) (adjust_idem P me j) ?_ ?_ _
  · intro x hx
    simp only [List.mem_map, List.mem_flatMap, List.mem_range] at hx
    obtain ⟨_, ⟨nb, h1, v, h2, rfl⟩, rfl⟩ := hx
    simp only [List.mem_map, List.mem_flatMap, List.mem_range]
    exact ⟨nb, h1, S.var v, hv v h2, rfl⟩
  · intro x hx
    simp only [List.mem_map, List.mem_flatMap, List.mem_range] at hx
    obtain ⟨nb, h1, k, h2, rfl⟩ := hx
    obtain ⟨v, h3, rfl⟩ := ho k h2
    simp only [List.mem_map, List.mem_flatMap, List.mem_range]
    exact ⟨(nb, v), ⟨nb, h1, v, h3, rfl⟩, rfl⟩

theorem sliced_full (hv : ∀ v < S.nv, S.var v < P.nvars) (ho : ∀ k < P.nvars, ∃ v < S.nv, S.var v = k) (me : Nat) :
    (P.sliced S).full me = P.full me := by
  unfold Prep.full
  simp only [sliced_interior hv ho]
  rfl

theorem sliced_prepared {G : RunCfg} {opts : List Setup.ROpts} {minSize : Nat → Nat → Nat} {shape : Nat → VarShape}
    (h : Prepared G P opts minSize shape) (hv : ∀ v < S.nv, S.var v < P.nvars) (ho : ∀ k < P.nvars, ∃ v < S.nv, S.var v = k) :
    Prepared G (P.sliced S) opts minSize fun v => shape (S.var v) where
  some_rank := h.some_rank
  n := h.n
  placed := h.placed
  nd := h.nd
  ok k hk := by rw [sliced_full hv ho]; exact h.ok k hk
  rem k hk := by rw [sliced_full hv ho]; exact h.rem k hk
  cfg_nd := h.cfg_nd
  nst := h.nst
  nparts := h.nparts
  stepOk := h.stepOk
  steps := h.steps
  dims := h.dims
  whole := h.whole
  min := h.min
  inside := h.inside
  dom := h.dom
  vars v hv' := h.vars (S.var v) (hv v hv')
  aligned v hv' := h.aligned (S.var v) (hv v hv')

end

/-! ### Reads and writes of several elements -/

section
variable {V : Type}

theorem readAll_eq {g : Geom} (hg : g.Ok) (hs : StepsAlloc g.api) (m : Int → V) :
    ∀ (l : List (List Int)), (∀ i ∈ l, InRangeButStep g.api i) → readAll g m l = .ok (l.map fun i => m (g.addrOfSlots (slots g.dims i)))
  | [], _ => rfl
  | i :: l, h => by
    have hi := h i (by simp)
    obtain ⟨a, h1, h2, _⟩ := readAt_eq hg hs hi m
    rw [addrOf_eq hg hi hs] at h1
    injection h1 with h1
    unfold readAll
    rw [h2, Outcome.bind_ok, readAll_eq hg hs m l fun j hj => h j (List.mem_cons_of_mem _ hj), Outcome.bind_ok, List.map_cons, h1]

theorem writeAll_eq {g : Geom} (hg : g.Ok) (hs : StepsAlloc g.api) (val : List Int → V) :
    ∀ (l : List (List Int)), (∀ i ∈ l, InRangeButStep g.api i) →
      (∀ i ∈ l, ∀ j ∈ l, g.addrOfSlots (slots g.dims i) = g.addrOfSlots (slots g.dims j) → i = j) → ∀ m : Int → V,
      ∃ m', writeAll g m l (l.map val) = .ok m' ∧ (∀ i ∈ l, m' (g.addrOfSlots (slots g.dims i)) = val i) ∧
        ∀ a, (∀ i ∈ l, g.addrOfSlots (slots g.dims i) ≠ a) → m' a = m a
  | [], _, _, m => ⟨m, rfl, by simp, fun _ _ => rfl⟩
  | i :: l, h, hinj, m => by
    have hi := h i (by simp)
    obtain ⟨a, h1, _, h3⟩ := readAt_eq hg hs hi m
    rw [addrOf_eq hg hi hs] at h1
    injection h1 with h1
    obtain ⟨m', e1, e2, e3⟩ := writeAll_eq hg hs val l (fun j hj => h j (List.mem_cons_of_mem _ hj))
      (fun x hx y hy => hinj x (List.mem_cons_of_mem _ hx) y (List.mem_cons_of_mem _ hy)) fun b => if b = a then val i else m b
    refine ⟨m', ?_, ?_, ?_⟩
    · rw [List.map_cons]
      unfold writeAll
      rw [h3, Outcome.bind_ok, e1]
    · intro j hj
      by_cases hjl : j ∈ l
      · exact e2 j hjl
      · rcases List.mem_cons.1 hj with rfl | hj
        · rw [e3 _ fun x hx he => hjl (by rw [← hinj x (List.mem_cons_of_mem _ hx) j (by simp) he]; exact hx), h1, if_pos rfl]
        · exact absurd hj hjl
    · intro b hb
      rw [e3 b fun x hx => hb x (List.mem_cons_of_mem _ hx), if_neg]
      rintro rfl
      exact hb i (by simp) h1

end
end Yask
