import Verif.Mpi.MsgInv

/-!
# The actions of a rank keep the invariant
-/

namespace Yask.Msg
open MsgSpec

variable {R V : Type} [DecidableEq R]

/-- An action makes itself done, and nothing else. -/
theorem done_step {net : Net R V} (ok : net.Ok) {s s' : State R V} (hi : Inv net s) {r : R} {x : Act R}
    {rest : List (Act R)} (ht : s.todo r = x :: rest) (e1 : s'.round = s.round)
    (e2 : s'.todo = Function.update s.todo r rest) (k : Kind) (r' : R) (n t v : Nat) (q : R) :
    Done s' k r' n t v q ↔
      Done s k r' n t v q ∨ (r' = r ∧ n = s.round r ∧ x = ⟨k, t, v, q⟩) := by
  unfold Done
  rw [e1, e2]
  by_cases e : r' = r
  · subst e
    have hn : (x :: rest).Nodup := by
      rw [← ht]
      exact (prog_nodup ok _ _).sublist (hi.suf r').sublist
    rw [List.nodup_cons] at hn
    simp only [Function.update_self, ht, List.mem_cons, true_and]
    constructor
    · rintro (h | ⟨h, h2⟩)
      · exact .inl (.inl h)
      · by_cases h3 : x = ⟨k, t, v, q⟩
        · exact .inr ⟨h, h3⟩
        · refine .inl (.inr ⟨h, ?_⟩)
          rintro (h4 | h4)
          · exact h3 h4.symm
          · exact h2 h4
    · rintro ((h | ⟨h, h2⟩) | ⟨h, h2⟩)
      · exact .inl h
      · exact .inr ⟨h, fun h3 => h2 (.inr h3)⟩
      · exact .inr ⟨h, by rw [← h2]; exact hn.1⟩
  · simp [e]

theorem suf_step {net : Net R V} {s : State R V} (hi : Inv net s) {r : R} {x : Act R}
    {rest : List (Act R)} (ht : s.todo r = x :: rest) (r' : R) :
    Function.update s.todo r rest r' <:+ net.prog (s.round r') r' := by
  by_cases e : r' = r
  · subst e
    rw [Function.update_self]
    have := hi.suf r'
    rw [ht] at this
    exact (List.suffix_cons x rest).trans this
  · rw [Function.update_of_ne e]; exact hi.suf r'

theorem log_step {net : Net R V} {s : State R V} (hi : Inv net s) {r : R} {x : Act R}
    {rest : List (Act R)} (ht : s.todo r = x :: rest) (hk : x.kind ≠ .unpack) (r' : R) :
    s.log r' ++ gotOf net r' (s.round r') (Function.update s.todo r rest r') =
      (List.range (s.round r' + 1)).flatMap fun n => gotOf net r' n (net.prog n r') := by
  rw [← hi.log r']
  by_cases e : r' = r
  · subst e
    rw [Function.update_self, ht]
    simp [gotOf, hk]
  · rw [Function.update_of_ne e]

theorem head_mem {net : Net R V} {s : State R V} (hi : Inv net s) {r : R} {x : Act R}
    {rest : List (Act R)} (ht : s.todo r = x :: rest) : x ∈ net.prog (s.round r) r := by
  refine (hi.suf r).subset ?_
  rw [ht]
  exact List.mem_cons_self ..

theorem head_not_done {s : State R V} {r : R} {k : Kind} {t v : Nat} {q : R}
    {rest : List (Act R)} (ht : s.todo r = ⟨k, t, v, q⟩ :: rest) : ¬ Done s k r (s.round r) t v q := by
  rintro (h | ⟨_, h⟩)
  · omega
  · rw [ht] at h; exact h (List.mem_cons_self ..)

/-- The item that an action of `r` sends or finishes. -/
theorem item_out {net : Net R V} {s : State R V} (hi : Inv net s) {r : R} {k : Kind} {t v : Nat} {q : R}
    {rest : List (Act R)} (ht : s.todo r = ⟨k, t, v, q⟩ :: rest) (hk : k = .send ∨ k = .final) :
    Item net r q (s.round r) t v := by
  obtain ⟨h1, h2, h3, h4⟩ := (mem_prog ..).1 (head_mem hi ht)
  rcases hk with rfl | rfl <;> exact ⟨h1, h2, h4, h3⟩

/-- The item that an action of `r` receives or unpacks. -/
theorem item_in {net : Net R V} (ok : net.Ok) {s : State R V} (hi : Inv net s) {r : R} {k : Kind}
    {t v : Nat} {q : R} {rest : List (Act R)} (ht : s.todo r = ⟨k, t, v, q⟩ :: rest)
    (hk : k = .irecv ∨ k = .unpack) : Item net q r (s.round r) t v := by
  obtain ⟨h1, h2, h3, h4⟩ := (mem_prog ..).1 (head_mem hi ht)
  rcases hk with rfl | rfl <;> exact ⟨h1, h2, h4, ok.nbs_symm _ _ h3⟩

/-- What comes in an earlier phase than the next action has been done. -/
theorem earlier_done {net : Net R V} {s : State R V} (hi : Inv net s) {r : R} {x : Act R}
    {rest : List (Act R)} (ht : s.todo r = x :: rest) (k : Kind) (t v : Nat) (q : R)
    (hk : k.ord < x.kind.ord) : Done s k r (s.round r) t v q := by
  refine .inr ⟨rfl, fun h => ?_⟩
  have hs : (s.todo r).Pairwise fun x y => x.kind.ord ≤ y.kind.ord :=
    (prog_sorted net _ _).sublist (hi.suf r).sublist
  rw [ht] at hs h
  rcases List.mem_cons.1 h with h | h
  · rw [← h] at hk; simp at hk
  · have := (List.pairwise_cons.1 hs).1 _ h
    simp only at this
    omega

/-- What comes in a later phase than something not done is not done. -/
theorem later_not_done {net : Net R V} {s : State R V} (hi : Inv net s) {r : R} {k k' : Kind}
    {n t v t' v' : Nat} {q q' : R} (h : ¬ Done s k r n t v q)
    (hm : (⟨k', t', v', q'⟩ : Act R) ∈ net.prog n r) (hk : k.ord < k'.ord) :
    ¬ Done s k' r n t' v' q' := by
  rintro (h' | ⟨h1, h2⟩)
  · exact h (.inl h')
  · subst h1
    refine h2 (later_mem (hi.suf r) (x := ⟨k, t, v, q⟩) ?_ hm hk)
    by_contra h3
    exact h (.inr ⟨rfl, h3⟩)

theorem send_num {net : Net R V} {s : State R V} (hi : Inv net s) {r : R} {t v : Nat} {q : R}
    {rest : List (Act R)} (ht : s.todo r = ⟨.send, t, v, q⟩ :: rest) :
    s.nsent (r, q, t) = net.idx r q t (s.round r) := by
  have it := item_out hi ht (.inl rfl)
  have h1 : ¬ net.idx r q t (s.round r) < s.nsent (r, q, t) :=
    fun h => head_not_done ht ((hi.nsent _ _ _ _ _ it).2 h)
  have h2 := idx_le net r q t (n := s.round r) (m := s.nsent (r, q, t)) (by
    intro i hlt hu
    obtain ⟨w, hw⟩ := (uses_iff ..).1 hu
    exact (hi.nsent _ _ _ _ _ hw).1 (.inl hlt))
  omega

theorem recv_num {net : Net R V} (ok : net.Ok) {s : State R V} (hi : Inv net s) {r : R} {t v : Nat}
    {q : R} {rest : List (Act R)} (ht : s.todo r = ⟨.irecv, t, v, q⟩ :: rest) :
    s.nrecv (q, r, t) = net.idx q r t (s.round r) := by
  have it := item_in ok hi ht (.inl rfl)
  have h1 : ¬ net.idx q r t (s.round r) < s.nrecv (q, r, t) :=
    fun h => head_not_done ht ((hi.nrecv _ _ _ _ _ it).2 h)
  have h2 := idx_le net q r t (n := s.round r) (m := s.nrecv (q, r, t)) (by
    intro i hlt hu
    obtain ⟨w, hw⟩ := (uses_iff ..).1 hu
    exact (hi.nrecv _ _ _ _ _ hw).1 (.inl hlt))
  omega

theorem rreq_none {net : Net R V} (ok : net.Ok) {s : State R V} (hi : Inv net s) {r : R} {t v : Nat}
    {q : R} {rest : List (Act R)} (ht : s.todo r = ⟨.irecv, t, v, q⟩ :: rest) :
    s.rreq (r, q, v) = none := by
  have it := item_in ok hi ht (.inl rfl)
  cases h : s.rreq (r, q, v) with
  | none => rfl
  | some p =>
    obtain ⟨t', k⟩ := p
    obtain ⟨n, h1, _, h3, h4⟩ := hi.rreq _ _ _ _ _ h
    have e := h3.now h4
    subst e
    have := it.tag_eq ok h1
    subst this
    exact absurd h3 (head_not_done ht)

theorem sreq_none {net : Net R V} (ok : net.Ok) {s : State R V} (hi : Inv net s) {r : R} {t v : Nat}
    {q : R} {rest : List (Act R)} (ht : s.todo r = ⟨.send, t, v, q⟩ :: rest) :
    s.sreq (r, q, v) = none := by
  have it := item_out hi ht (.inl rfl)
  cases h : s.sreq (r, q, v) with
  | none => rfl
  | some p =>
    obtain ⟨t', k⟩ := p
    obtain ⟨n, h1, _, h3, h4⟩ := hi.sreq _ _ _ _ _ h
    have e := h3.now h4
    subst e
    have := it.tag_eq ok h1
    subst this
    exact absurd h3 (head_not_done ht)

theorem inv_irecv {net : Net R V} (ok : net.Ok) {s : State R V} (hi : Inv net s) {r : R} {t0 v0 : Nat}
    {q0 : R} {rest : List (Act R)} (ht : s.todo r = ⟨.irecv, t0, v0, q0⟩ :: rest) :
    Inv net { doIrecv s r ⟨.irecv, t0, v0, q0⟩ with todo := Function.update s.todo r rest } := by
  have it := item_in ok hi ht (.inl rfl)
  have hk := recv_num ok hi ht
  have hq := rreq_none ok hi ht
  have nd := head_not_done ht
  set s' : State R V :=
    { doIrecv s r ⟨.irecv, t0, v0, q0⟩ with todo := Function.update s.todo r rest } with hs'
  have D := done_step ok hi (s' := s') ht rfl rfl
  have Do : ∀ k r' n t v q, k ≠ .irecv → (Done s' k r' n t v q ↔ Done s k r' n t v q) := by
    intro k r' n t v q hne
    rw [D]
    constructor
    · rintro (h | ⟨_, _, h⟩)
      · exact h
      · simp only [Act.mk.injEq] at h; exact absurd h.1.symm hne
    · exact .inl
  have Di : ∀ r' n t v q, Done s' .irecv r' n t v q ↔ Done s .irecv r' n t v q ∨
      (r' = r ∧ n = s.round r ∧ t = t0 ∧ v = v0 ∧ q = q0) := by
    intro r' n t v q
    rw [D]
    simp only [Act.mk.injEq, true_and]
    constructor <;> (rintro (h | ⟨h1, h2, h3, h4, h5⟩); exact .inl h; exact .inr ⟨h1, h2, h3.symm, h4.symm, h5.symm⟩)
  have hnr : s'.nrecv = Function.update s.nrecv (q0, r, t0) (net.idx q0 r t0 (s.round r) + 1) := by
    rw [← hk]; rfl
  have hrv : s'.rvar = Function.update s.rvar (q0, r, t0, net.idx q0 r t0 (s.round r)) v0 := by
    rw [← hk]; rfl
  have hrr : s'.rreq = Function.update s.rreq (r, q0, v0) (some (t0, net.idx q0 r t0 (s.round r))) := by
    rw [← hk]; rfl
  refine ⟨?_, hi.rnd, suf_step hi ht, ?_, hi.sfrom, ?_, ?_, ?_, ?_, ?_, ?_, ?_, ?_, ?_, ?_,
    log_step hi ht (by simp)⟩
  · show (s.bad || (s.rreq (r, q0, v0)).isSome) = false
    rw [hi.good, hq]; rfl
  · intro a b n t v h; rw [Do _ _ _ _ _ _ (by simp)]; exact hi.nsent _ _ _ _ _ h
  · intro a b n t v h
    rw [Di, hi.nrecv _ _ _ _ _ h, hnr, Function.update_apply]
    by_cases e : (a, b, t) = (q0, r, t0)
    · rw [if_pos e]
      obtain ⟨rfl, rfl, rfl⟩ : a = q0 ∧ b = r ∧ t = t0 := by simpa using e
      rw [hk]
      constructor
      · rintro (h' | ⟨_, rfl, _⟩) <;> omega
      · intro h'
        rcases Nat.lt_succ_iff_lt_or_eq.1 h' with h' | h'
        · exact .inl h'
        · have := idx_inj net a b t h.uses it.uses h'
          subst this
          exact .inr ⟨rfl, rfl, rfl, h.var_eq it, rfl⟩
    · rw [if_neg e]
      constructor
      · rintro (h' | ⟨rfl, _, rfl, _, rfl⟩)
        · exact h'
        · exact absurd rfl e
      · exact .inl
  · intro a b t k h
    rw [hnr, Function.update_apply] at h
    split at h
    · next e =>
      obtain ⟨rfl, rfl, rfl⟩ : a = q0 ∧ b = r ∧ t = t0 := by simpa using e
      rcases Nat.lt_succ_iff_lt_or_eq.1 h with h' | h'
      · exact hi.rfrom _ _ _ _ (by rw [hk]; exact h')
      · exact ⟨_, _, it, h'⟩
    · exact hi.rfrom _ _ _ _ h
  · intro a b n t v h; rw [Do _ _ _ _ _ _ (by simp), Do _ _ _ _ _ _ (by simp)]
    exact hi.sent _ _ _ _ _ h
  · intro a b n t v h; rw [Do _ _ _ _ _ _ (by simp)]; exact hi.unsent _ _ _ _ _ h
  · intro a b v t k h
    obtain ⟨n, h1, h2, h3, h4⟩ := hi.sreq _ _ _ _ _ h
    exact ⟨n, h1, h2, (Do _ _ _ _ _ _ (by simp)).2 h3, fun h' => h4 ((Do _ _ _ _ _ _ (by simp)).1 h')⟩
  · intro a b n t v h h'
    rw [Di] at h'
    rw [hrv, Function.update_apply]
    split
    · next e =>
      simp only [Prod.mk.injEq] at e
      obtain ⟨rfl, rfl, rfl, e⟩ := e
      have := idx_inj net a b t h.uses it.uses e
      subst this
      exact it.var_eq h
    · next e =>
      rcases h' with h' | ⟨rfl, rfl, rfl, rfl, rfl⟩
      · exact hi.rvar _ _ _ _ _ h h'
      · exact absurd rfl e
  · intro a b n t v c h hg
    obtain ⟨h1, h2⟩ := hi.rgot _ _ _ _ _ _ h hg
    exact ⟨(Di ..).2 (.inl h1), h2⟩
  · intro a b n t v h h1 h2
    rw [Do _ _ _ _ _ _ (by simp)] at h2
    rw [hrr, Function.update_apply]
    by_cases e : (b, a, v) = (r, q0, v0)
    · rw [if_pos e]
      obtain ⟨rfl, rfl, rfl⟩ : b = r ∧ a = q0 ∧ v = v0 := by simpa using e
      have hn : n = s'.round b := Done.now (s := s') h1 (fun h' => h2 ((Do _ _ _ _ _ _ (by simp)).1 h'))
      change n = s.round b at hn
      subst hn
      have := it.tag_eq ok h
      subst this
      refine .inl ⟨rfl, .inl ?_⟩
      cases hg : s.rgot (a, b, t0, net.idx a b t0 (s.round b)) with
      | none => exact hg
      | some c => exact absurd (hi.rgot _ _ _ _ _ _ it hg).1 nd
    · rw [if_neg e]
      rw [Di] at h1
      rcases h1 with h1 | ⟨rfl, _, _, rfl, rfl⟩
      · exact hi.wait _ _ _ _ _ h h1 h2
      · exact absurd rfl e
  · intro a b v t k h
    rw [hrr, Function.update_apply] at h
    split at h
    · next e =>
      obtain ⟨rfl, rfl, rfl⟩ : b = r ∧ a = q0 ∧ v = v0 := by simpa using e
      simp only [Option.some.injEq, Prod.mk.injEq] at h
      obtain ⟨rfl, rfl⟩ := h
      refine ⟨_, it, rfl, (Di ..).2 (.inr ⟨rfl, rfl, rfl, rfl, rfl⟩), ?_⟩
      rw [Do _ _ _ _ _ _ (by simp)]
      exact later_not_done hi nd (it.unpack_mem ok) (by decide)
    · obtain ⟨n, h1, h2, h3, h4⟩ := hi.rreq _ _ _ _ _ h
      exact ⟨n, h1, h2, (Di ..).2 (.inl h3), fun h' => h4 ((Do _ _ _ _ _ _ (by simp)).1 h')⟩
  · intro a b n t v h h'
    rw [Do _ _ _ _ _ _ (by simp)] at h'
    exact hi.unpacked _ _ _ _ _ h h'

theorem take_over (x old : List V) : (over x old).take x.length = x := by
  simp [over]

theorem inv_send {net : Net R V} (ok : net.Ok) {s : State R V} (hi : Inv net s) {r : R} {t0 v0 : Nat}
    {q0 : R} {rest : List (Act R)} (ht : s.todo r = ⟨.send, t0, v0, q0⟩ :: rest) :
    Inv net { doSend net s r ⟨.send, t0, v0, q0⟩ with todo := Function.update s.todo r rest } := by
  have it := item_out hi ht (.inl rfl)
  have hk := send_num hi ht
  have hq := sreq_none ok hi ht
  have nd := head_not_done ht
  set s' : State R V :=
    { doSend net s r ⟨.send, t0, v0, q0⟩ with todo := Function.update s.todo r rest } with hs'
  have D := done_step ok hi (s' := s') ht rfl rfl
  have Do : ∀ k r' n t v q, k ≠ .send → (Done s' k r' n t v q ↔ Done s k r' n t v q) := by
    intro k r' n t v q hne
    rw [D]
    constructor
    · rintro (h | ⟨_, _, h⟩)
      · exact h
      · simp only [Act.mk.injEq] at h; exact absurd h.1.symm hne
    · exact .inl
  have Di : ∀ r' n t v q, Done s' .send r' n t v q ↔ Done s .send r' n t v q ∨
      (r' = r ∧ n = s.round r ∧ t = t0 ∧ v = v0 ∧ q = q0) := by
    intro r' n t v q
    rw [D]
    simp only [Act.mk.injEq, true_and]
    constructor <;> (rintro (h | ⟨h1, h2, h3, h4, h5⟩); exact .inl h; exact .inr ⟨h1, h2, h3.symm, h4.symm, h5.symm⟩)
  have hns : s'.nsent = Function.update s.nsent (r, q0, t0) (net.idx r q0 t0 (s.round r) + 1) := by
    rw [← hk]; rfl
  have hsv : s'.svar = Function.update s.svar (r, q0, t0, net.idx r q0 t0 (s.round r)) v0 := by
    rw [← hk]; rfl
  have hsl : s'.slen = Function.update s.slen (r, q0, t0, net.idx r q0 t0 (s.round r))
      (net.msg (s.round r) r q0 v0).length := by
    rw [← hk]; rfl
  have hsr : s'.sreq = Function.update s.sreq (r, q0, v0) (some (t0, net.idx r q0 t0 (s.round r))) := by
    rw [← hk]; rfl
  have hsb : s'.sbuf = Function.update s.sbuf (r, q0, v0)
      (over (net.msg (s.round r) r q0 v0) (s.sbuf (r, q0, v0))) := rfl
  have hsd : s'.sdat = s.sdat := rfl
  refine ⟨?_, hi.rnd, suf_step hi ht, ?_, ?_, ?_, hi.rfrom, ?_, ?_, ?_, ?_, ?_, ?_, ?_, ?_,
    log_step hi ht (by simp)⟩
  · show (s.bad || (s.sreq (r, q0, v0)).isSome) = false
    rw [hi.good, hq]; rfl
  · intro a b n t v h
    rw [Di, hi.nsent _ _ _ _ _ h, hns, Function.update_apply]
    by_cases e : (a, b, t) = (r, q0, t0)
    · rw [if_pos e]
      obtain ⟨rfl, rfl, rfl⟩ : a = r ∧ b = q0 ∧ t = t0 := by simpa using e
      rw [hk]
      constructor
      · rintro (h' | ⟨_, rfl, _⟩) <;> omega
      · intro h'
        rcases Nat.lt_succ_iff_lt_or_eq.1 h' with h' | h'
        · exact .inl h'
        · have := idx_inj net a b t h.uses it.uses h'
          subst this
          exact .inr ⟨rfl, rfl, rfl, h.var_eq it, rfl⟩
    · rw [if_neg e]
      constructor
      · rintro (h' | ⟨rfl, _, rfl, _, rfl⟩)
        · exact h'
        · exact absurd rfl e
      · exact .inl
  · intro a b t k h
    rw [hns, Function.update_apply] at h
    split at h
    · next e =>
      obtain ⟨rfl, rfl, rfl⟩ : a = r ∧ b = q0 ∧ t = t0 := by simpa using e
      rcases Nat.lt_succ_iff_lt_or_eq.1 h with h' | h'
      · exact hi.sfrom _ _ _ _ (by rw [hk]; exact h')
      · exact ⟨_, _, it, h'⟩
    · exact hi.sfrom _ _ _ _ h
  · intro a b n t v h; rw [Do _ _ _ _ _ _ (by simp)]; exact hi.nrecv _ _ _ _ _ h
  · intro a b n t v h h'
    rw [hsv, hsl, hsr, hsb, hsd, Do _ _ _ _ _ _ (by simp)]
    rw [Di] at h'
    by_cases e : (a, b, t, net.idx a b t n) = (r, q0, t0, net.idx r q0 t0 (s.round r))
    · simp only [Prod.mk.injEq] at e
      obtain ⟨rfl, rfl, rfl, e⟩ := e
      have := idx_inj net a b t h.uses it.uses e
      subst this
      have := it.var_eq h
      subst this
      simp only [Function.update_self, true_and]
      exact .inr ⟨hi.unsent _ _ _ _ _ it nd, later_not_done hi nd it.final_mem (by decide), take_over ..⟩
    · rw [Function.update_of_ne e, Function.update_of_ne e]
      rcases h' with h' | ⟨rfl, rfl, rfl, rfl, rfl⟩
      · obtain ⟨h1, h2, h3⟩ := hi.sent _ _ _ _ _ h h'
        refine ⟨h1, h2, ?_⟩
        rcases h3 with h3 | ⟨h3, h4, h5, h6⟩
        · exact .inl h3
        · have hne : (a, b, v) ≠ (r, q0, v0) := by
            intro e'
            rw [e', hq] at h5
            cases h5
          rw [Function.update_of_ne hne, Function.update_of_ne hne]
          exact .inr ⟨h3, h4, h5, h6⟩
      · exact absurd rfl e
  · intro a b n t v h h'
    rw [Di] at h'
    exact hi.unsent _ _ _ _ _ h fun h'' => h' (.inl h'')
  · intro a b v t k h
    rw [hsr, Function.update_apply] at h
    split at h
    · next e =>
      obtain ⟨rfl, rfl, rfl⟩ : a = r ∧ b = q0 ∧ v = v0 := by simpa using e
      simp only [Option.some.injEq, Prod.mk.injEq] at h
      obtain ⟨rfl, rfl⟩ := h
      refine ⟨_, it, rfl, (Di ..).2 (.inr ⟨rfl, rfl, rfl, rfl, rfl⟩), ?_⟩
      rw [Do _ _ _ _ _ _ (by simp)]
      exact later_not_done hi nd it.final_mem (by decide)
    · obtain ⟨n, h1, h2, h3, h4⟩ := hi.sreq _ _ _ _ _ h
      exact ⟨n, h1, h2, (Di ..).2 (.inl h3), fun h' => h4 ((Do _ _ _ _ _ _ (by simp)).1 h')⟩
  · intro a b n t v h; rw [Do _ _ _ _ _ _ (by simp)]; exact hi.rvar _ _ _ _ _ h
  · intro a b n t v c h; rw [Do _ _ _ _ _ _ (by simp)]; exact hi.rgot _ _ _ _ _ _ h
  · intro a b n t v h; rw [Do _ _ _ _ _ _ (by simp), Do _ _ _ _ _ _ (by simp)]
    exact hi.wait _ _ _ _ _ h
  · intro a b v t k h
    obtain ⟨n, h1, h2, h3, h4⟩ := hi.rreq _ _ _ _ _ h
    exact ⟨n, h1, h2, (Do _ _ _ _ _ _ (by simp)).2 h3, fun h' => h4 ((Do _ _ _ _ _ _ (by simp)).1 h')⟩
  · intro a b n t v h; rw [Do _ _ _ _ _ _ (by simp)]; exact hi.unpacked _ _ _ _ _ h

end Yask.Msg
