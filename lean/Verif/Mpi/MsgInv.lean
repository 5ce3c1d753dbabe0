import Verif.Mpi.MsgLemmas

/-!
# Invariant of halo exchange by messages
-/

namespace Yask.Msg
open MsgSpec

variable {R V : Type} [DecidableEq R]

/-- What the action `x` of exchange `n` adds to the log of `r`, if it unpacks. -/
def gotOf (net : Net R V) (r : R) (n : Nat) (l : List (Act R)) : List (Got R V) :=
  (l.filter fun x => decide (x.kind = .unpack)).map fun x => ⟨n, x.var, x.nb, net.msg n x.nb r x.var⟩

/-- The invariant.  `a` sends var `v` to `b`; `idx` is the number of the message in its tag. -/
structure Inv (net : Net R V) (s : State R V) : Prop where
  good : s.bad = false
  rnd : ∀ r, s.round r ≤ net.rounds
  suf : ∀ r, s.todo r <:+ net.prog (s.round r) r
  nsent : ∀ a b n t v, Item net a b n t v →
    (Done s .send a n t v b ↔ net.idx a b t n < s.nsent (a, b, t))
  sfrom : ∀ a b t k, k < s.nsent (a, b, t) → ∃ n v, Item net a b n t v ∧ k = net.idx a b t n
  nrecv : ∀ a b n t v, Item net a b n t v →
    (Done s .irecv b n t v a ↔ net.idx a b t n < s.nrecv (a, b, t))
  rfrom : ∀ a b t k, k < s.nrecv (a, b, t) → ∃ n v, Item net a b n t v ∧ k = net.idx a b t n
  sent : ∀ a b n t v, Item net a b n t v → Done s .send a n t v b →
    s.svar (a, b, t, net.idx a b t n) = v ∧
    s.slen (a, b, t, net.idx a b t n) = (net.msg n a b v).length ∧
    (s.sdat (a, b, t, net.idx a b t n) = some (net.msg n a b v) ∨
      (s.sdat (a, b, t, net.idx a b t n) = none ∧ ¬ Done s .final a n t v b ∧
        s.sreq (a, b, v) = some (t, net.idx a b t n) ∧
        (s.sbuf (a, b, v)).take (net.msg n a b v).length = net.msg n a b v))
  unsent : ∀ a b n t v, Item net a b n t v → ¬ Done s .send a n t v b →
    s.sdat (a, b, t, net.idx a b t n) = none
  sreq : ∀ a b v t k, s.sreq (a, b, v) = some (t, k) → ∃ n, Item net a b n t v ∧
    k = net.idx a b t n ∧ Done s .send a n t v b ∧ ¬ Done s .final a n t v b
  rvar : ∀ a b n t v, Item net a b n t v → Done s .irecv b n t v a →
    s.rvar (a, b, t, net.idx a b t n) = v
  rgot : ∀ a b n t v c, Item net a b n t v → s.rgot (a, b, t, net.idx a b t n) = some c →
    Done s .irecv b n t v a ∧ s.sdat (a, b, t, net.idx a b t n) = some (net.msg n a b v) ∧
    c = (net.msg n a b v).length
  wait : ∀ a b n t v, Item net a b n t v → Done s .irecv b n t v a → ¬ Done s .unpack b n t v a →
    (s.rreq (b, a, v) = some (t, net.idx a b t n) ∧
      (s.rgot (a, b, t, net.idx a b t n) = none ∨
        (s.rbuf (b, a, v)).take (net.msg n a b v).length = net.msg n a b v)) ∨
    (s.rreq (b, a, v) = none ∧
      s.rgot (a, b, t, net.idx a b t n) = some (net.msg n a b v).length ∧
      s.rstat (b, a, v) = (net.msg n a b v).length ∧
      (s.rbuf (b, a, v)).take (net.msg n a b v).length = net.msg n a b v)
  rreq : ∀ a b v t k, s.rreq (b, a, v) = some (t, k) → ∃ n, Item net a b n t v ∧
    k = net.idx a b t n ∧ Done s .irecv b n t v a ∧ ¬ Done s .unpack b n t v a
  unpacked : ∀ a b n t v, Item net a b n t v → Done s .unpack b n t v a →
    s.rgot (a, b, t, net.idx a b t n) = some (net.msg n a b v).length
  log : ∀ r, s.log r ++ gotOf net r (s.round r) (s.todo r) =
    (List.range (s.round r + 1)).flatMap fun n => gotOf net r n (net.prog n r)

/-- Only the current exchange has something done and something not done. -/
theorem Done.now {s : State R V} {k k' : Kind} {r : R} {n t v : Nat} {q : R}
    (h : Done s k r n t v q) (h' : ¬ Done s k' r n t v q) : n = s.round r := by
  unfold Done at h h'
  rcases h with h | h
  · exact absurd (Or.inl h) h'
  · exact h.1

theorem not_done_mem {s : State R V} {k k' : Kind} {r : R} {n t v : Nat} {q : R}
    (h : Done s k r n t v q) (h' : ¬ Done s k' r n t v q) : (⟨k', t, v, q⟩ : Act R) ∈ s.todo r := by
  have e := h.now h'
  unfold Done at h'
  push Not at h'
  exact h'.2 e

theorem inv_init {net : Net R V} (ok : net.Ok) (rstat : R × R × Nat → Nat)
    (rbuf sbuf : R × R × Nat → List V) : Inv net (init net rstat rbuf sbuf) := by
  have nd : ∀ k r n t v q, (⟨k, t, v, q⟩ : Act R) ∈ net.prog n r →
      ¬ Done (init net rstat rbuf sbuf) k r n t v q := by
    intro k r n t v q h h'
    rcases h' with h' | ⟨h1, h2⟩
    · exact absurd h' (Nat.not_lt_zero _)
    · change n = 0 at h1
      subst h1
      exact h2 h
  refine ⟨rfl, fun _ => Nat.zero_le _, fun r => List.suffix_refl _, ?_, ?_, ?_, ?_, ?_, ?_, ?_, ?_, ?_, ?_, ?_,
    ?_, ?_⟩
  · intro a b n t v h
    exact ⟨fun h' => absurd h' (nd _ _ _ _ _ _ h.send_mem), fun h' => absurd h' (Nat.not_lt_zero _)⟩
  · intro a b t k h; exact absurd h (Nat.not_lt_zero _)
  · intro a b n t v h
    exact ⟨fun h' => absurd h' (nd _ _ _ _ _ _ (h.irecv_mem ok)), fun h' => absurd h' (Nat.not_lt_zero _)⟩
  · intro a b t k h; exact absurd h (Nat.not_lt_zero _)
  · intro a b n t v h h'; exact absurd h' (nd _ _ _ _ _ _ h.send_mem)
  · intros; rfl
  · intro a b v t k h; cases h
  · intro a b n t v h h'; exact absurd h' (nd _ _ _ _ _ _ (h.irecv_mem ok))
  · intro a b n t v c h h'; cases h'
  · intro a b n t v h h'; exact absurd h' (nd _ _ _ _ _ _ (h.irecv_mem ok))
  · intro a b v t k h; cases h
  · intro a b n t v h h'; exact absurd h' (nd _ _ _ _ _ _ (h.unpack_mem ok))
  · intro r
    show [] ++ gotOf net r 0 (net.prog 0 r) =
      (List.range (0 + 1)).flatMap fun n => gotOf net r n (net.prog n r)
    simp

/-- The next exchange. -/
theorem inv_next {net : Net R V} (ok : net.Ok) {s : State R V} (hi : Inv net s) (r : R)
    (ht : s.todo r = []) (hr : s.round r < net.rounds) :
    Inv net { s with
      round := Function.update s.round r (s.round r + 1)
      todo := Function.update s.todo r (net.prog (s.round r + 1) r) } := by
  set s' : State R V := { s with
      round := Function.update s.round r (s.round r + 1)
      todo := Function.update s.todo r (net.prog (s.round r + 1) r) } with hs'
  have hd : ∀ k r' n t v q, (⟨k, t, v, q⟩ : Act R) ∈ net.prog n r' →
      (Done s' k r' n t v q ↔ Done s k r' n t v q) := by
    intro k r' n t v q hm
    unfold Done
    by_cases e : r' = r
    · subst e
      have e1 : s'.round r' = s.round r' + 1 := by simp [hs']
      have e2 : s'.todo r' = net.prog (s.round r' + 1) r' := by simp [hs']
      rw [e1, e2, ht]
      constructor
      · rintro (h | ⟨h, h2⟩)
        · rcases Nat.lt_succ_iff_lt_or_eq.1 h with h | h
          · exact .inl h
          · exact .inr ⟨h, by simp⟩
        · subst h; exact absurd hm h2
      · rintro (h | ⟨h, _⟩)
        · exact .inl (by omega)
        · exact .inl (by omega)
    · have e1 : s'.round r' = s.round r' := by simp [hs', e]
      have e2 : s'.todo r' = s.todo r' := by simp [hs', e]
      rw [e1, e2]
  refine ⟨hi.good, ?_, ?_, ?_, hi.sfrom, ?_, hi.rfrom, ?_, ?_, ?_, ?_, ?_, ?_, ?_, ?_, ?_⟩
  · intro r'
    by_cases e : r' = r
    · subst e; simp [hs']; omega
    · have := hi.rnd r'
      simpa [hs', e] using this
  · intro r'
    by_cases e : r' = r
    · subst e; simp [hs']
    · have := hi.suf r'
      simpa [hs', e] using this
  · intro a b n t v h; rw [hd _ _ _ _ _ _ h.send_mem]; exact hi.nsent _ _ _ _ _ h
  · intro a b n t v h; rw [hd _ _ _ _ _ _ (h.irecv_mem ok)]; exact hi.nrecv _ _ _ _ _ h
  · intro a b n t v h; rw [hd _ _ _ _ _ _ h.send_mem, hd _ _ _ _ _ _ h.final_mem]
    exact hi.sent _ _ _ _ _ h
  · intro a b n t v h; rw [hd _ _ _ _ _ _ h.send_mem]; exact hi.unsent _ _ _ _ _ h
  · intro a b v t k h
    obtain ⟨n, h1, h2, h3, h4⟩ := hi.sreq _ _ _ _ _ h
    exact ⟨n, h1, h2, (hd _ _ _ _ _ _ h1.send_mem).2 h3, fun h' => h4 ((hd _ _ _ _ _ _ h1.final_mem).1 h')⟩
  · intro a b n t v h; rw [hd _ _ _ _ _ _ (h.irecv_mem ok)]; exact hi.rvar _ _ _ _ _ h
  · intro a b n t v c h; rw [hd _ _ _ _ _ _ (h.irecv_mem ok)]; exact hi.rgot _ _ _ _ _ _ h
  · intro a b n t v h; rw [hd _ _ _ _ _ _ (h.irecv_mem ok), hd _ _ _ _ _ _ (h.unpack_mem ok)]
    exact hi.wait _ _ _ _ _ h
  · intro a b v t k h
    obtain ⟨n, h1, h2, h3, h4⟩ := hi.rreq _ _ _ _ _ h
    exact ⟨n, h1, h2, (hd _ _ _ _ _ _ (h1.irecv_mem ok)).2 h3,
      fun h' => h4 ((hd _ _ _ _ _ _ (h1.unpack_mem ok)).1 h')⟩
  · intro a b n t v h; rw [hd _ _ _ _ _ _ (h.unpack_mem ok)]; exact hi.unpacked _ _ _ _ _ h
  · intro r'
    by_cases e : r' = r
    · subst e
      have e1 : s'.round r' = s.round r' + 1 := by simp [hs']
      have e2 : s'.todo r' = net.prog (s.round r' + 1) r' := by simp [hs']
      have := hi.log r'
      rw [ht] at this
      rw [e1, e2, List.range_succ, List.flatMap_append, ← this]
      simp [gotOf, hs']
    · have := hi.log r'
      simpa [hs', e] using this

end Yask.Msg
