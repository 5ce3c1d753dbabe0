import Verif.Mpi.MsgModel
import Mathlib.Data.List.Nodup
import Mathlib.Data.List.Pairwise
import Mathlib.Tactic.Common

/-!
# Lemmas for halo exchange by messages
-/

namespace Yask.Msg
open MsgSpec

variable {R V : Type} [DecidableEq R]

/-- In exchange `n`, rank `a` sends var `v` with tag `t` to rank `b`. -/
structure Item (net : Net R V) (a b : R) (n t v : Nat) : Prop where
  lt : n < net.rounds
  mem : (v, t) ∈ (net.vars n).zipIdx 1
  pos : 0 < net.size a b v
  nb : b ∈ net.nbs a

/-- The exchange uses tag `t` from `a` to `b`. -/
def Net.uses (net : Net R V) (a b : R) (t n : Nat) : Bool :=
  decide (n < net.rounds) && decide (b ∈ net.nbs a) &&
    ((net.vars n).zipIdx 1).any fun p => p.2 == t && decide (0 < net.size a b p.1)

theorem uses_iff (net : Net R V) (a b : R) (t n : Nat) :
    net.uses a b t n = true ↔ ∃ v, Item net a b n t v := by
  unfold Net.uses
  simp only [Bool.and_eq_true, decide_eq_true_eq, List.any_eq_true, beq_iff_eq]
  constructor
  · rintro ⟨⟨h1, h2⟩, ⟨v, t'⟩, h3, h4, h5⟩
    cases h4
    exact ⟨v, h1, h3, h5, h2⟩
  · rintro ⟨v, h1, h2, h3, h4⟩
    exact ⟨⟨h1, h4⟩, (v, t), h2, rfl, h3⟩

/-- The number of exchanges before `n` that use tag `t` from `a` to `b`. -/
def Net.idx (net : Net R V) (a b : R) (t : Nat) : Nat → Nat
  | 0 => 0
  | n + 1 => Net.idx net a b t n + if net.uses a b t n then 1 else 0

theorem idx_mono (net : Net R V) (a b : R) (t : Nat) {n m : Nat} (h : n ≤ m) :
    net.idx a b t n ≤ net.idx a b t m := by
  induction h with
  | refl => exact Nat.le_refl _
  | step _ ih => exact Nat.le_trans ih (by simp [Net.idx])

theorem idx_lt (net : Net R V) (a b : R) (t : Nat) {n m : Nat} (h : n < m)
    (hu : net.uses a b t n = true) : net.idx a b t n < net.idx a b t m := by
  have h1 := idx_mono net a b t (show n + 1 ≤ m from h)
  have h2 : net.idx a b t (n + 1) = net.idx a b t n + 1 := by simp [Net.idx, hu]
  omega

theorem idx_inj (net : Net R V) (a b : R) (t : Nat) {n m : Nat} (hn : net.uses a b t n = true)
    (hm : net.uses a b t m = true) (h : net.idx a b t n = net.idx a b t m) : n = m := by
  rcases Nat.lt_trichotomy n m with h' | h' | h'
  · have := idx_lt net a b t h' hn; omega
  · exact h'
  · have := idx_lt net a b t h' hm; omega

theorem idx_le (net : Net R V) (a b : R) (t : Nat) {n m : Nat}
    (h : ∀ i < n, net.uses a b t i = true → net.idx a b t i < m) : net.idx a b t n ≤ m := by
  induction n with
  | zero => simp [Net.idx]
  | succ n ih =>
    have := ih fun i hi => h i (by omega)
    unfold Net.idx
    split
    · next hu => have := h n (by omega) hu; omega
    · omega

/-! ### Tags and programs -/

theorem tag_var {l : List Nat} {v w t : Nat} (h1 : (v, t) ∈ l.zipIdx 1) (h2 : (w, t) ∈ l.zipIdx 1) :
    v = w := by
  rw [List.mem_zipIdx_iff_le_and_getElem?_sub] at h1 h2
  have := h1.2.symm.trans h2.2
  simpa using this

theorem var_tag {l : List Nat} (hn : l.Nodup) {v t u : Nat} (h1 : (v, t) ∈ l.zipIdx 1)
    (h2 : (v, u) ∈ l.zipIdx 1) : t = u := by
  rw [List.mem_zipIdx_iff_le_and_getElem?_sub] at h1 h2
  obtain ⟨h1a, h1b⟩ := h1
  obtain ⟨h2a, h2b⟩ := h2
  simp only at h1a h1b h2a h2b
  obtain ⟨e1, h1c⟩ := List.getElem?_eq_some_iff.1 h1b
  obtain ⟨e2, h2c⟩ := List.getElem?_eq_some_iff.1 h2b
  have := (List.Nodup.getElem_inj_iff hn).1 (h1c.trans h2c.symm)
  omega

theorem Item.var_eq {net : Net R V} {a b : R} {n t v w : Nat} (h1 : Item net a b n t v)
    (h2 : Item net a b n t w) : v = w := tag_var h1.mem h2.mem

theorem Item.tag_eq {net : Net R V} (ok : net.Ok) {a b : R} {n t u v : Nat} (h1 : Item net a b n t v)
    (h2 : Item net a b n u v) : t = u := var_tag (ok.vars_nodup n) h1.mem h2.mem

theorem Item.uses {net : Net R V} {a b : R} {n t v : Nat} (h : Item net a b n t v) :
    net.uses a b t n = true := (uses_iff ..).2 ⟨v, h⟩

theorem mem_acts (net : Net R V) (n : Nat) (r : R) (k : Kind) (x : Act R) :
    x ∈ net.acts n r k ↔ x.kind = k ∧ (x.var, x.tag) ∈ (net.vars n).zipIdx 1 ∧ x.nb ∈ net.nbs r ∧
      0 < net.bytes r k x.nb x.var := by
  unfold Net.acts
  simp only [List.mem_flatMap, List.mem_map, List.mem_filter, decide_eq_true_eq]
  constructor
  · rintro ⟨⟨v, t⟩, h1, q, ⟨h2, h3⟩, rfl⟩
    exact ⟨rfl, h1, h2, h3⟩
  · rintro ⟨h1, h2, h3, h4⟩
    refine ⟨(x.var, x.tag), h2, x.nb, ⟨h3, h4⟩, ?_⟩
    cases x; simp at h1; subst h1; rfl

theorem mem_prog (net : Net R V) (n : Nat) (r : R) (x : Act R) :
    x ∈ net.prog n r ↔ n < net.rounds ∧ (x.var, x.tag) ∈ (net.vars n).zipIdx 1 ∧ x.nb ∈ net.nbs r ∧
      0 < net.bytes r x.kind x.nb x.var := by
  unfold Net.prog
  split
  · next h =>
    simp only [List.mem_append, mem_acts]
    constructor
    · rintro (((⟨h1, h2⟩ | ⟨h1, h2⟩) | ⟨h1, h2⟩) | ⟨h1, h2⟩) <;> (rw [h1]; exact ⟨h, h2⟩)
    · rintro ⟨_, h2⟩
      cases hk : x.kind <;> rw [hk] at h2 <;> simp [h2]
  · next h => simp [h]

theorem acts_nodup {net : Net R V} (ok : net.Ok) (n : Nat) (r : R) (k : Kind) :
    (net.acts n r k).Nodup := by
  unfold Net.acts
  rw [List.nodup_flatMap]
  constructor
  · intro p _
    refine List.Nodup.map ?_ ((ok.nbs_nodup r).filter _)
    intro x y h
    simpa using h
  · have hp : ((net.vars n).zipIdx 1).Pairwise fun p q => p.1 ≠ q.1 := by
      have := ok.vars_nodup n
      unfold List.Nodup at this
      have e : ((net.vars n).zipIdx 1).map Prod.fst = net.vars n := by simp
      rw [← e, List.pairwise_map] at this
      exact this
    refine hp.imp ?_
    intro p q h
    show List.Disjoint _ _
    intro x h1 h2
    simp only [List.mem_map] at h1 h2
    obtain ⟨_, _, rfl⟩ := h1
    obtain ⟨_, _, e⟩ := h2
    simp at e
    exact h e.2.1.symm

theorem acts_kind {net : Net R V} {n : Nat} {r : R} {k : Kind} {x : Act R} (h : x ∈ net.acts n r k) :
    x.kind = k := ((mem_acts ..).1 h).1

theorem prog_nodup {net : Net R V} (ok : net.Ok) (n : Nat) (r : R) : (net.prog n r).Nodup := by
  unfold Net.prog
  split
  · rw [List.nodup_append, List.nodup_append, List.nodup_append]
    refine ⟨⟨⟨acts_nodup ok .., acts_nodup ok .., ?_⟩, acts_nodup ok .., ?_⟩, acts_nodup ok .., ?_⟩
    all_goals
      intro x h1 y h2 e
      subst e
      have h2 := acts_kind h2
      try simp only [List.mem_append] at h1
    · have h1 := acts_kind h1; rw [h1] at h2; cases h2
    · rcases h1 with h1 | h1 <;> have h1 := acts_kind h1 <;> rw [h1] at h2 <;> cases h2
    · rcases h1 with (h1 | h1) | h1 <;> have h1 := acts_kind h1 <;> rw [h1] at h2 <;> cases h2
  · exact List.nodup_nil

theorem acts_sorted (net : Net R V) (n : Nat) (r : R) (k : Kind) :
    (net.acts n r k).Pairwise fun x y => x.kind.ord ≤ y.kind.ord := by
  rw [List.pairwise_iff_forall_sublist]
  intro x y h
  have hx := acts_kind (h.subset (List.mem_cons_self ..))
  have hy := acts_kind (h.subset (List.mem_cons_of_mem _ (List.mem_cons_self ..)))
  exact Nat.le_of_eq (by rw [hx, hy])

theorem prog_sorted (net : Net R V) (n : Nat) (r : R) :
    (net.prog n r).Pairwise fun x y => x.kind.ord ≤ y.kind.ord := by
  unfold Net.prog
  split
  · rw [List.pairwise_append, List.pairwise_append, List.pairwise_append]
    refine ⟨⟨⟨acts_sorted .., acts_sorted .., ?_⟩, acts_sorted .., ?_⟩, acts_sorted .., ?_⟩
    all_goals
      intro x h1 y h2
      have h2 := acts_kind h2
      try simp only [List.mem_append] at h1
    · rw [acts_kind h1, h2]; decide
    · rcases h1 with h1 | h1 <;> rw [acts_kind h1, h2] <;> decide
    · rcases h1 with (h1 | h1) | h1 <;> rw [acts_kind h1, h2] <;> decide
  · exact List.Pairwise.nil

/-- What is left of a program has everything of later phases. -/
theorem later_mem {net : Net R V} {n : Nat} {r : R} {l : List (Act R)} (h : l <:+ net.prog n r)
    {x y : Act R} (hx : x ∈ l) (hy : y ∈ net.prog n r) (hlt : x.kind.ord < y.kind.ord) : y ∈ l := by
  obtain ⟨pre, e⟩ := h
  have hs := prog_sorted net n r
  rw [← e] at hs hy
  rcases List.mem_append.1 hy with h' | h'
  · have := (List.pairwise_append.1 hs).2.2 y h' x hx
    omega
  · exact h'

/-! ### What has been done -/

/-- The action for exchange `n` has been done. -/
def Done (s : State R V) (k : Kind) (r : R) (n t v : Nat) (q : R) : Prop :=
  n < s.round r ∨ (n = s.round r ∧ (⟨k, t, v, q⟩ : Act R) ∉ s.todo r)

theorem Item.send_mem {net : Net R V} {a b : R} {n t v : Nat} (h : Item net a b n t v) :
    (⟨.send, t, v, b⟩ : Act R) ∈ net.prog n a := (mem_prog ..).2 ⟨h.lt, h.mem, h.nb, h.pos⟩

theorem Item.final_mem {net : Net R V} {a b : R} {n t v : Nat} (h : Item net a b n t v) :
    (⟨.final, t, v, b⟩ : Act R) ∈ net.prog n a := (mem_prog ..).2 ⟨h.lt, h.mem, h.nb, h.pos⟩

theorem Item.irecv_mem {net : Net R V} (ok : net.Ok) {a b : R} {n t v : Nat} (h : Item net a b n t v) :
    (⟨.irecv, t, v, a⟩ : Act R) ∈ net.prog n b :=
  (mem_prog ..).2 ⟨h.lt, h.mem, ok.nbs_symm _ _ h.nb, h.pos⟩

theorem Item.unpack_mem {net : Net R V} (ok : net.Ok) {a b : R} {n t v : Nat}
    (h : Item net a b n t v) : (⟨.unpack, t, v, a⟩ : Act R) ∈ net.prog n b :=
  (mem_prog ..).2 ⟨h.lt, h.mem, ok.nbs_symm _ _ h.nb, h.pos⟩

end Yask.Msg
