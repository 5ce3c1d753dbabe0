import Verif.Mpi.MsgActs

/-!
# All steps keep the invariant
-/

namespace Yask.Msg
open MsgSpec

variable {R V : Type} [DecidableEq R]

theorem inv_final {net : Net R V} (ok : net.Ok) {s u : State R V} (hi : Inv net s) {r : R} {t0 v0 : Nat}
    {q0 : R} {rest : List (Act R)} (ht : s.todo r = ⟨.final, t0, v0, q0⟩ :: rest)
    (hu : doFinal s r ⟨.final, t0, v0, q0⟩ = some u) :
    Inv net { u with todo := Function.update u.todo r rest } := by
  have it := item_out hi ht (.inr rfl)
  have nd := head_not_done ht
  have hs := earlier_done hi ht .send t0 v0 q0 (by simp [Kind.ord])
  -- the data have been taken
  have hdat : s.sdat (r, q0, t0, net.idx r q0 t0 (s.round r)) = some (net.msg (s.round r) r q0 v0) := by
    rcases (hi.sent _ _ _ _ _ it hs).2.2 with h | ⟨h1, _, h3, _⟩
    · exact h
    · unfold doFinal at hu
      simp only [h3, h1] at hu
      simp at hu
  -- only this request changes
  have hu' : u = { s with sreq := Function.update s.sreq (r, q0, v0) none } := by
    unfold doFinal at hu
    split at hu
    · next h =>
      simp only [Option.some.injEq] at hu
      subst hu
      have : Function.update s.sreq (r, q0, v0) none = s.sreq := by
        rw [← h]; exact Function.update_eq_self ..
      rw [this]
    · split at hu
      · simpa using hu.symm
      · cases hu
  subst hu'
  set s' : State R V :=
    { s with sreq := Function.update s.sreq (r, q0, v0) none, todo := Function.update s.todo r rest } with hs'
  have D := done_step ok hi (s' := s') ht rfl rfl
  have Do : ∀ k r' n t v q, k ≠ .final → (Done s' k r' n t v q ↔ Done s k r' n t v q) := by
    intro k r' n t v q hne
    rw [D]
    constructor
    · rintro (h | ⟨_, _, h⟩)
      · exact h
      · simp only [Act.mk.injEq] at h; exact absurd h.1.symm hne
    · exact .inl
  have Di : ∀ r' n t v q, Done s' .final r' n t v q ↔ Done s .final r' n t v q ∨
      (r' = r ∧ n = s.round r ∧ t = t0 ∧ v = v0 ∧ q = q0) := by
    intro r' n t v q
    rw [D]
    simp only [Act.mk.injEq, true_and]
    constructor <;> (rintro (h | ⟨h1, h2, h3, h4, h5⟩); exact .inl h; exact .inr ⟨h1, h2, h3.symm, h4.symm, h5.symm⟩)
  have hsr : s'.sreq = Function.update s.sreq (r, q0, v0) none := rfl
  refine ⟨hi.good, hi.rnd, suf_step hi ht, ?_, hi.sfrom, ?_, hi.rfrom, ?_, ?_, ?_, ?_, ?_, ?_, ?_, ?_,
    log_step hi ht (by simp)⟩
  · intro a b n t v h; rw [Do _ _ _ _ _ _ (by simp)]; exact hi.nsent _ _ _ _ _ h
  · intro a b n t v h; rw [Do _ _ _ _ _ _ (by simp)]; exact hi.nrecv _ _ _ _ _ h
  · intro a b n t v h h'
    rw [Do _ _ _ _ _ _ (by simp)] at h'
    obtain ⟨h1, h2, h3⟩ := hi.sent _ _ _ _ _ h h'
    refine ⟨h1, h2, ?_⟩
    rcases h3 with h3 | ⟨h3, h4, h5, h6⟩
    · exact .inl h3
    · have hne : (a, b, v) ≠ (r, q0, v0) := by
        intro e
        obtain ⟨rfl, rfl, rfl⟩ : a = r ∧ b = q0 ∧ v = v0 := by simpa using e
        have hn := h'.now h4
        subst hn
        have := h.tag_eq ok it
        subst this
        rw [hdat] at h3
        cases h3
      refine .inr ⟨h3, ?_, ?_, h6⟩
      · rw [Di]
        rintro (h' | ⟨rfl, _, _, rfl, rfl⟩)
        · exact h4 h'
        · exact hne rfl
      · rw [hsr, Function.update_of_ne hne]; exact h5
  · intro a b n t v h; rw [Do _ _ _ _ _ _ (by simp)]; exact hi.unsent _ _ _ _ _ h
  · intro a b v t k h
    rw [hsr, Function.update_apply] at h
    split at h
    · cases h
    · next e =>
      obtain ⟨n, h1, h2, h3, h4⟩ := hi.sreq _ _ _ _ _ h
      refine ⟨n, h1, h2, (Do _ _ _ _ _ _ (by simp)).2 h3, ?_⟩
      rw [Di]
      rintro (h' | ⟨rfl, _, _, rfl, rfl⟩)
      · exact h4 h'
      · exact e rfl
  · intro a b n t v h; rw [Do _ _ _ _ _ _ (by simp)]; exact hi.rvar _ _ _ _ _ h
  · intro a b n t v c h; rw [Do _ _ _ _ _ _ (by simp)]; exact hi.rgot _ _ _ _ _ _ h
  · intro a b n t v h; rw [Do _ _ _ _ _ _ (by simp), Do _ _ _ _ _ _ (by simp)]
    exact hi.wait _ _ _ _ _ h
  · intro a b v t k h
    obtain ⟨n, h1, h2, h3, h4⟩ := hi.rreq _ _ _ _ _ h
    exact ⟨n, h1, h2, (Do _ _ _ _ _ _ (by simp)).2 h3, fun h' => h4 ((Do _ _ _ _ _ _ (by simp)).1 h')⟩
  · intro a b n t v h; rw [Do _ _ _ _ _ _ (by simp)]; exact hi.unpacked _ _ _ _ _ h

theorem inv_unpack {net : Net R V} (ok : net.Ok) {s u : State R V} (hi : Inv net s) {r : R}
    {t0 v0 : Nat} {q0 : R} {rest : List (Act R)} (ht : s.todo r = ⟨.unpack, t0, v0, q0⟩ :: rest)
    (hu : doUnpack s r ⟨.unpack, t0, v0, q0⟩ = some u) :
    Inv net { u with todo := Function.update u.todo r rest } := by
  have it := item_in ok hi ht (.inr rfl)
  have nd := head_not_done ht
  have hs := earlier_done hi ht .irecv t0 v0 q0 (by simp [Kind.ord])
  -- what is unpacked, and what else changes
  obtain ⟨st, hgot, hu'⟩ : ∃ st, s.rgot (q0, r, t0, net.idx q0 r t0 (s.round r)) =
        some (net.msg (s.round r) q0 r v0).length ∧
      u = { s with
        rreq := Function.update s.rreq (r, q0, v0) none
        rstat := Function.update s.rstat (r, q0, v0) st
        log := Function.update s.log r
          (s.log r ++ [⟨s.round r, v0, q0, net.msg (s.round r) q0 r v0⟩]) } := by
    rcases hi.wait _ _ _ _ _ it hs nd with ⟨h1, h2⟩ | ⟨h1, h2, h3, h4⟩
    · unfold doUnpack at hu
      simp only [h1] at hu
      split at hu
      · cases hu
      · next c hc =>
        have h3 := (hi.rgot _ _ _ _ _ _ it hc).2.2
        rcases h2 with h2 | h2
        · rw [h2] at hc; cases hc
        · subst h3
          refine ⟨(net.msg (s.round r) q0 r v0).length, hc, ?_⟩
          simp only [take, Option.some.injEq] at hu
          rw [← hu, h2]
    · unfold doUnpack at hu
      simp only [h1, h3] at hu
      refine ⟨s.rstat (r, q0, v0), h2, ?_⟩
      simp only [take, Option.some.injEq] at hu
      rw [← hu, h4, ← h1, Function.update_eq_self, Function.update_eq_self]
  subst hu'
  set s' : State R V :=
    { s with
      rreq := Function.update s.rreq (r, q0, v0) none
      rstat := Function.update s.rstat (r, q0, v0) st
      log := Function.update s.log r
        (s.log r ++ [⟨s.round r, v0, q0, net.msg (s.round r) q0 r v0⟩])
      todo := Function.update s.todo r rest } with hs'
  have D := done_step ok hi (s' := s') ht rfl rfl
  have Do : ∀ k r' n t v q, k ≠ .unpack → (Done s' k r' n t v q ↔ Done s k r' n t v q) := by
    intro k r' n t v q hne
    rw [D]
    constructor
    · rintro (h | ⟨_, _, h⟩)
      · exact h
      · simp only [Act.mk.injEq] at h; exact absurd h.1.symm hne
    · exact .inl
  have Di : ∀ r' n t v q, Done s' .unpack r' n t v q ↔ Done s .unpack r' n t v q ∨
      (r' = r ∧ n = s.round r ∧ t = t0 ∧ v = v0 ∧ q = q0) := by
    intro r' n t v q
    rw [D]
    simp only [Act.mk.injEq, true_and]
    constructor <;> (rintro (h | ⟨h1, h2, h3, h4, h5⟩); exact .inl h; exact .inr ⟨h1, h2, h3.symm, h4.symm, h5.symm⟩)
  have hrr : s'.rreq = Function.update s.rreq (r, q0, v0) none := rfl
  have hrs : s'.rstat = Function.update s.rstat (r, q0, v0) st := rfl
  refine ⟨hi.good, hi.rnd, suf_step hi ht, ?_, hi.sfrom, ?_, hi.rfrom, ?_, ?_, ?_, ?_, ?_, ?_, ?_, ?_, ?_⟩
  · intro a b n t v h; rw [Do _ _ _ _ _ _ (by simp)]; exact hi.nsent _ _ _ _ _ h
  · intro a b n t v h; rw [Do _ _ _ _ _ _ (by simp)]; exact hi.nrecv _ _ _ _ _ h
  · intro a b n t v h; rw [Do _ _ _ _ _ _ (by simp), Do _ _ _ _ _ _ (by simp)]
    exact hi.sent _ _ _ _ _ h
  · intro a b n t v h; rw [Do _ _ _ _ _ _ (by simp)]; exact hi.unsent _ _ _ _ _ h
  · intro a b v t k h
    obtain ⟨n, h1, h2, h3, h4⟩ := hi.sreq _ _ _ _ _ h
    exact ⟨n, h1, h2, (Do _ _ _ _ _ _ (by simp)).2 h3, fun h' => h4 ((Do _ _ _ _ _ _ (by simp)).1 h')⟩
  · intro a b n t v h; rw [Do _ _ _ _ _ _ (by simp)]; exact hi.rvar _ _ _ _ _ h
  · intro a b n t v c h; rw [Do _ _ _ _ _ _ (by simp)]; exact hi.rgot _ _ _ _ _ _ h
  · intro a b n t v h h1 h2
    rw [Do _ _ _ _ _ _ (by simp)] at h1
    rw [Di] at h2
    have h3 : ¬ Done s .unpack b n t v a := fun h' => h2 (.inl h')
    have hne : (b, a, v) ≠ (r, q0, v0) := by
      intro e
      obtain ⟨rfl, rfl, rfl⟩ : b = r ∧ a = q0 ∧ v = v0 := by simpa using e
      have hn := h1.now h3
      subst hn
      have := h.tag_eq ok it
      subst this
      exact h2 (.inr ⟨rfl, rfl, rfl, rfl, rfl⟩)
    rw [hrr, hrs, Function.update_of_ne hne, Function.update_of_ne hne]
    exact hi.wait _ _ _ _ _ h h1 h3
  · intro a b v t k h
    rw [hrr, Function.update_apply] at h
    split at h
    · cases h
    · next e =>
      obtain ⟨n, h1, h2, h3, h4⟩ := hi.rreq _ _ _ _ _ h
      refine ⟨n, h1, h2, (Do _ _ _ _ _ _ (by simp)).2 h3, ?_⟩
      rw [Di]
      rintro (h' | ⟨rfl, _, _, rfl, rfl⟩)
      · exact h4 h'
      · exact e rfl
  · intro a b n t v h h'
    rw [Di] at h'
    rcases h' with h' | ⟨rfl, rfl, rfl, rfl, rfl⟩
    · exact hi.unpacked _ _ _ _ _ h h'
    · exact hgot
  · intro r'
    rw [← hi.log r']
    show Function.update s.log r _ r' ++ gotOf net r' (s.round r') (Function.update s.todo r rest r') = _
    by_cases e : r' = r
    · subst e
      rw [Function.update_self, Function.update_self, ht]
      simp [gotOf]
    · rw [Function.update_of_ne e, Function.update_of_ne e]

/-- The statuses after the loop that stores them (`halo.cpp:527-533`). -/
theorem stats_stored (r : R) (v : Nat) (g : R → Nat) (locs : List R) (f : R × R × Nat → Nat)
    (x : R × R × Nat) :
    ((locs.zip (locs.map g)).foldl (fun f p => Function.update f (r, p.1, v) p.2) f) x =
      if x.1 = r ∧ x.2.1 ∈ locs ∧ x.2.2 = v then g x.2.1 else f x := by
  induction locs generalizing f with
  | nil => simp
  | cons q l ih =>
    simp only [List.map_cons, List.zip_cons_cons, List.foldl_cons, ih, Function.update_apply,
      List.mem_cons]
    obtain ⟨x1, x2, x3⟩ := x
    simp only [Prod.mk.injEq]
    by_cases h1 : x1 = r <;> by_cases h2 : x2 = q <;> by_cases h3 : x3 = v <;> by_cases h4 : x2 ∈ l <;>
      simp_all

theorem inv_testRecv {net : Net R V} {s : State R V} (hi : Inv net s) (r : R) (v0 : Nat)
    (locs : List R)
    (hl : ∀ q ∈ locs, ∃ t k c, s.rreq (r, q, v0) = some (t, k) ∧ s.rgot (q, r, t, k) = some c) :
    Inv net (testRecv s r v0 locs) := by
  have hrr : ∀ x, (testRecv s r v0 locs).rreq x =
      if x.1 = r ∧ x.2.1 ∈ locs ∧ x.2.2 = v0 then none else s.rreq x := fun _ => rfl
  have hrs : ∀ x, (testRecv s r v0 locs).rstat x =
      if x.1 = r ∧ x.2.1 ∈ locs ∧ x.2.2 = v0 then count s r x.2.1 v0 else s.rstat x :=
    fun x => stats_stored ..
  refine ⟨hi.good, hi.rnd, hi.suf, hi.nsent, hi.sfrom, hi.nrecv, hi.rfrom, hi.sent, hi.unsent, hi.sreq,
    hi.rvar, hi.rgot, ?_, ?_, hi.unpacked, hi.log⟩
  · intro a b n t v h h1 h2
    rw [hrr, hrs]
    by_cases e : b = r ∧ a ∈ locs ∧ v = v0
    · obtain ⟨rfl, e, rfl⟩ := e
      simp only [true_and, and_true, if_pos e]
      obtain ⟨t', k', c, h3, h4⟩ := hl a e
      have hc : count s b a v = c := by simp [count, h3, h4]
      rcases hi.wait _ _ _ _ _ h h1 h2 with ⟨h5, h6⟩ | ⟨h5, _⟩
      · rw [h3] at h5
        simp only [Option.some.injEq, Prod.mk.injEq] at h5
        obtain ⟨rfl, rfl⟩ := h5
        have h7 := (hi.rgot _ _ _ _ _ _ h h4).2.2
        rw [hc]
        subst h7
        rcases h6 with h6 | h6
        · rw [h6] at h4; cases h4
        · exact .inr ⟨h4, rfl, h6⟩
      · rw [h3] at h5; cases h5
    · simp only [if_neg e]
      exact hi.wait _ _ _ _ _ h h1 h2
  · intro a b v t k h
    rw [hrr] at h
    split at h
    · cases h
    · exact hi.rreq _ _ _ _ _ h

theorem inv_testSend {net : Net R V} {s : State R V} (hi : Inv net s) (r : R) (v0 : Nat)
    (locs : List R)
    (hl : ∀ q ∈ locs, ∃ t k x, s.sreq (r, q, v0) = some (t, k) ∧ s.sdat (r, q, t, k) = some x) :
    Inv net (testSend s r v0 locs) := by
  have hsr : ∀ x, (testSend s r v0 locs).sreq x =
      if x.1 = r ∧ x.2.1 ∈ locs ∧ x.2.2 = v0 then none else s.sreq x := fun _ => rfl
  refine ⟨hi.good, hi.rnd, hi.suf, hi.nsent, hi.sfrom, hi.nrecv, hi.rfrom, ?_, hi.unsent, ?_,
    hi.rvar, hi.rgot, hi.wait, hi.rreq, hi.unpacked, hi.log⟩
  · intro a b n t v h h'
    obtain ⟨h1, h2, h3⟩ := hi.sent _ _ _ _ _ h h'
    refine ⟨h1, h2, ?_⟩
    rcases h3 with h3 | ⟨h3, h4, h5, h6⟩
    · exact .inl h3
    · refine .inr ⟨h3, h4, ?_, h6⟩
      rw [hsr, if_neg, h5]
      rintro ⟨e1, e2, e3⟩
      simp only at e1 e2 e3
      subst e1 e3
      obtain ⟨t', k', x, h7, h8⟩ := hl b e2
      rw [h5] at h7
      simp only [Option.some.injEq, Prod.mk.injEq] at h7
      obtain ⟨rfl, rfl⟩ := h7
      rw [h3] at h8
      cases h8
  · intro a b v t k h
    rw [hsr] at h
    split at h
    · cases h
    · exact hi.sreq _ _ _ _ _ h

theorem inv_fetch {net : Net R V} {s : State R V} (hi : Inv net s) (a0 b0 : R) (t0 k0 : Nat)
    (hk : k0 < s.nsent (a0, b0, t0)) (hd : s.sdat (a0, b0, t0, k0) = none) :
    Inv net (fetch s a0 b0 t0 k0) := by
  obtain ⟨n0, v0, it, rfl⟩ := hi.sfrom _ _ _ _ hk
  have hs := (hi.nsent _ _ _ _ _ it).2 hk
  obtain ⟨h1, h2, h3⟩ := hi.sent _ _ _ _ _ it hs
  have hx : (fetch s a0 b0 t0 (net.idx a0 b0 t0 n0)).sdat =
      Function.update s.sdat (a0, b0, t0, net.idx a0 b0 t0 n0) (some (net.msg n0 a0 b0 v0)) := by
    rcases h3 with h3 | ⟨_, _, _, h6⟩
    · rw [hd] at h3; cases h3
    · unfold fetch
      rw [h1, h2, h6]
  refine ⟨hi.good, hi.rnd, hi.suf, hi.nsent, hi.sfrom, hi.nrecv, hi.rfrom, ?_, ?_, hi.sreq, hi.rvar, ?_, hi.wait,
    hi.rreq, hi.unpacked, hi.log⟩
  · intro a b n t v h h'
    obtain ⟨g1, g2, g3⟩ := hi.sent _ _ _ _ _ h h'
    refine ⟨g1, g2, ?_⟩
    rw [hx, Function.update_apply]
    split
    · next e =>
      simp only [Prod.mk.injEq] at e
      obtain ⟨rfl, rfl, rfl, e⟩ := e
      have := idx_inj net a b t h.uses it.uses e
      subst this
      have := it.var_eq h
      subst this
      exact .inl rfl
    · exact g3
  · intro a b n t v h h'
    rw [hx, Function.update_apply]
    split
    · next e =>
      simp only [Prod.mk.injEq] at e
      obtain ⟨rfl, rfl, rfl, e⟩ := e
      have := idx_inj net a b t h.uses it.uses e
      subst this
      have := it.var_eq h
      subst this
      exact absurd hs h'
    · exact hi.unsent _ _ _ _ _ h h'
  · intro a b n t v c h hg
    obtain ⟨g1, g2, g3⟩ := hi.rgot _ _ _ _ _ _ h hg
    refine ⟨g1, ?_, g3⟩
    rw [hx, Function.update_apply]
    split
    · next e => rw [e, hd] at g2; cases g2
    · exact g2

theorem inv_deliver {net : Net R V} (ok : net.Ok) {s : State R V} (hi : Inv net s) (a0 b0 : R)
    (t0 k0 : Nat) (x : List V) (hd : s.sdat (a0, b0, t0, k0) = some x) (hk : k0 < s.nrecv (a0, b0, t0))
    (hg : s.rgot (a0, b0, t0, k0) = none) : Inv net (deliver net s a0 b0 t0 k0 x) := by
  obtain ⟨n0, v0, it, rfl⟩ := hi.rfrom _ _ _ _ hk
  have hr := (hi.nrecv _ _ _ _ _ it).2 hk
  have hv := hi.rvar _ _ _ _ _ it hr
  have hx : x = net.msg n0 a0 b0 v0 := by
    by_cases hs : Done s .send a0 n0 t0 v0 b0
    · rcases (hi.sent _ _ _ _ _ it hs).2.2 with h | ⟨h, _⟩
      · rw [hd] at h; simpa using h
      · rw [hd] at h; cases h
    · have := hi.unsent _ _ _ _ _ it hs
      rw [hd] at this; cases this
  subst hx
  have nu : ¬ Done s .unpack b0 n0 t0 v0 a0 := by
    intro h
    have := hi.unpacked _ _ _ _ _ it h
    rw [hg] at this; cases this
  set s' := deliver net s a0 b0 t0 (net.idx a0 b0 t0 n0) (net.msg n0 a0 b0 v0) with hs'
  have hrb : s'.rbuf = Function.update s.rbuf (b0, a0, v0)
      (over (net.msg n0 a0 b0 v0) (s.rbuf (b0, a0, v0))) := by
    simp only [hs', deliver, hv]
  have hrg : s'.rgot = Function.update s.rgot (a0, b0, t0, net.idx a0 b0 t0 n0)
      (some (net.msg n0 a0 b0 v0).length) := rfl
  refine ⟨?_, hi.rnd, hi.suf, hi.nsent, hi.sfrom, hi.nrecv, hi.rfrom, hi.sent, hi.unsent, hi.sreq, hi.rvar, ?_, ?_,
    hi.rreq, ?_, hi.log⟩
  · have := ok.fits n0 a0 b0 v0
    simp only [hs', deliver, hv, hi.good, Bool.false_or, decide_eq_false_iff_not]
    omega
  · intro a b n t v c h hc
    rw [hrg, Function.update_apply] at hc
    split at hc
    · next e =>
      simp only [Prod.mk.injEq] at e
      obtain ⟨rfl, rfl, rfl, e⟩ := e
      have := idx_inj net a b t h.uses it.uses e
      subst this
      have := it.var_eq h
      subst this
      simp only [Option.some.injEq] at hc
      exact ⟨hr, hd, hc.symm⟩
    · exact hi.rgot _ _ _ _ _ _ h hc
  · intro a b n t v h h1 h2
    rw [hrg, hrb]
    by_cases e : (b, a, v) = (b0, a0, v0)
    · obtain ⟨rfl, rfl, rfl⟩ : b = b0 ∧ a = a0 ∧ v = v0 := by simpa using e
      have hn : n = s.round b := Done.now (s := s) h1 h2
      have hn0 := hr.now nu
      subst hn
      subst hn0
      have := h.tag_eq ok it
      subst this
      simp only [Function.update_self]
      rcases hi.wait _ _ _ _ _ it hr nu with ⟨h3, _⟩ | ⟨_, h3, _⟩
      · exact .inl ⟨h3, .inr (take_over ..)⟩
      · rw [hg] at h3; cases h3
    · have hne : (a, b, t, net.idx a b t n) ≠ (a0, b0, t0, net.idx a0 b0 t0 n0) := by
        intro e'
        simp only [Prod.mk.injEq] at e'
        obtain ⟨rfl, rfl, rfl, e'⟩ := e'
        have := idx_inj net a b t h.uses it.uses e'
        subst this
        have := it.var_eq h
        subst this
        exact e rfl
      rw [Function.update_of_ne e, Function.update_of_ne hne]
      exact hi.wait _ _ _ _ _ h h1 h2
  · intro a b n t v h h'
    rw [hrg, Function.update_apply]
    split
    · next e =>
      simp only [Prod.mk.injEq] at e
      obtain ⟨rfl, rfl, rfl, e⟩ := e
      have := idx_inj net a b t h.uses it.uses e
      subst this
      have := it.var_eq h
      subst this
      rfl
    · exact hi.unpacked _ _ _ _ _ h h'

theorem inv_rank {net : Net R V} (ok : net.Ok) {s u : State R V} (hi : Inv net s) (r : R)
    (h : stepRank net s r = some u) : Inv net u := by
  unfold stepRank at h
  split at h
  · next ht =>
    split at h
    · next hr =>
      simp only [Option.some.injEq] at h
      subst h
      exact inv_next ok hi r ht hr
    · cases h
  · next x rest ht =>
    obtain ⟨k, t, v, q⟩ := x
    rw [Option.map_eq_some_iff] at h
    obtain ⟨u', h1, rfl⟩ := h
    cases k with
    | irecv =>
      simp only [act, Option.some.injEq] at h1
      subst h1
      exact inv_irecv ok hi ht
    | send =>
      simp only [act, Option.some.injEq] at h1
      subst h1
      exact inv_send ok hi ht
    | unpack => exact inv_unpack ok hi ht h1
    | final => exact inv_final ok hi ht h1

theorem inv_work {net : Net R V} (ok : net.Ok) {s u : State R V} (hi : Inv net s) (h : Work net s u) :
    Inv net u := by
  cases h with
  | rank r u h => exact inv_rank ok hi r h
  | fetch a b t k h hd => exact inv_fetch hi a b t k h hd
  | deliver a b t k x hd h hg => exact inv_deliver ok hi a b t k x hd h hg

theorem inv_test {net : Net R V} {s u : State R V} (hi : Inv net s) (h : Test s u) : Inv net u := by
  cases h with
  | recv r v locs h => exact inv_testRecv hi r v locs h
  | send r v locs h => exact inv_testSend hi r v locs h

theorem inv_reach {net : Net R V} (ok : net.Ok) {s u : State R V} {n : Nat} (hi : Inv net s)
    (h : Reach net s u n) : Inv net u := by
  induction h with
  | refl => exact hi
  | work t u n _ h2 ih => exact inv_work ok ih h2
  | test t u n _ h2 ih => exact inv_test ih h2

end Yask.Msg
