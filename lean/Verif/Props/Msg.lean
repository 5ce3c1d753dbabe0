import Verif.Mpi.MsgCalc

/-!
# C92: halo exchange by messages
-/

namespace Yask
open Msg MsgSpec

variable {R V : Type} [DecidableEq R]

/-- **C92**: whenever MPI takes and delivers the data, whenever progress is tested, and however the
ranks interleave, nothing is done that MPI leaves undefined, and what each rank has taken out of its
buffers so far is the beginning of what it is to receive: complete data, each of the same exchange, var
and neighbour, none lost or repeated.  Initial contents of buffers and statuses are arbitrary. -/
theorem C92_received (net : Net R V) (ok : net.Ok) (rstat : R × R × Nat → Nat)
    (rbuf sbuf : R × R × Nat → List V) (s : Msg.State R V) (n : Nat)
    (h : Msg.Reach net (Msg.init net rstat rbuf sbuf) s n) :
    s.bad = false ∧
      ∀ r, s.log r <+: expected net.rounds net.vars net.nbs net.size net.msg r :=
  have hi := Msg.inv_reach ok (Msg.inv_init ok rstat rbuf sbuf) h
  ⟨hi.good, fun r => Msg.log_prefix hi r⟩

/-- **C92**: the ranks never all wait for each other: as long as a rank has not finished all exchanges, a
rank or MPI can take a step. -/
theorem C92_no_deadlock (net : Net R V) (ok : net.Ok) (rstat : R × R × Nat → Nat)
    (rbuf sbuf : R × R × Nat → List V) (s : Msg.State R V) (n : Nat)
    (h : Msg.Reach net (Msg.init net rstat rbuf sbuf) s n) (hr : ∃ r, s.round r < net.rounds) :
    ∃ u, Work net s u := by
  have hi := Msg.inv_reach ok (Msg.inv_init ok rstat rbuf sbuf) h
  obtain ⟨r0, h0⟩ := hr
  have hex : ∃ k, ∃ r, s.round r = k := ⟨_, r0, rfl⟩
  classical
  obtain ⟨r, h2⟩ := Nat.find_spec hex
  have hmin : ∀ q, s.round r ≤ s.round q := fun q => by
    rw [h2]; exact Nat.find_min' hex ⟨q, rfl⟩
  exact not_stuck ok hi (Nat.lt_of_le_of_lt (hmin r0) h0) hmin

/-- **C92**: the number of steps is bounded, so no rank waits forever: with at most `P` actions per rank and
exchange, every execution has at most this many steps that are not progress tests. -/
theorem C92_finishes [Fintype R] (net : Net R V) (rstat : R × R × Nat → Nat)
    (rbuf sbuf : R × R × Nat → List V) (P : Nat) (hP : ∀ n r, (net.prog n r).length ≤ P)
    (s : Msg.State R V) (n : Nat) (h : Msg.Reach net (Msg.init net rstat rbuf sbuf) s n) :
    n ≤ 2 * (Fintype.card R * (net.rounds * (P + 1) + P)) := by
  obtain ⟨m, F, D, S, Q, hn, hF, hD, hFS, hDQ, hl, _, _, _, _, hm⟩ :=
    steps_split hP h (fun _ => rfl) (fun _ => rfl)
  have h1 : F.length ≤ S.length := (hF.subperm hFS).length_le
  have h2 : D.length ≤ Q.length := (hD.subperm hDQ).length_le
  have hb : ∑ r, Msg.pot net P (Msg.init net rstat rbuf sbuf) r ≤ ∑ _r : R, (net.rounds * (P + 1) + P) := by
    apply Finset.sum_le_sum
    intro r _
    have := hP 0 r
    show (net.rounds - 0) * (P + 1) + (net.prog 0 r).length ≤ _
    rw [Nat.sub_zero]
    omega
  rw [Finset.sum_const, Finset.card_univ] at hb
  have hb' : ∑ r, Msg.pot net P (Msg.init net rstat rbuf sbuf) r ≤
      Fintype.card R * (net.rounds * (P + 1) + P) := hb
  omega

/-- **C92**: when neither a rank nor MPI can take a step any more, every rank has received all that it is
to receive. -/
theorem C92_all_received (net : Net R V) (ok : net.Ok) (rstat : R × R × Nat → Nat)
    (rbuf sbuf : R × R × Nat → List V) (s : Msg.State R V) (n : Nat)
    (h : Msg.Reach net (Msg.init net rstat rbuf sbuf) s n) (hend : ∀ u, ¬ Work net s u) (r : R) :
    s.log r = expected net.rounds net.vars net.nbs net.size net.msg r := by
  refine Msg.ended (Msg.inv_reach ok (Msg.inv_init ok rstat rbuf sbuf) h) r fun hr => ?_
  obtain ⟨u, hu⟩ := C92_no_deadlock net ok rstat rbuf sbuf s n h ⟨r, hr⟩
  exact hend u hu

/-- **C92**, with data that the ranks compute: each rank packs what its program computes from all that it has
received so far.  Then what each rank receives is what it would receive if all ranks went through the
exchanges together. -/
theorem C92_as_together (p : Prog R V) (ok : p.Ok) (rstat : R × R × Nat → Nat)
    (rbuf sbuf : R × R × Nat → List V) (s : Msg.State R V) (n : Nat)
    (h : RunsTo p (Msg.init (p.at fun _ _ => []) rstat rbuf sbuf) s n) :
    s.bad = false ∧ ∀ r, s.log r <+: together p.vars p.nbs p.size p.pack p.rounds r := by
  have hi := Msg.inv_init (Prog.net_ok ok) rstat rbuf sbuf
  have h1 := C92_received p.net (Prog.net_ok ok) rstat rbuf sbuf s n (runs_reach ok hi h)
  refine ⟨h1.1, fun r => ?_⟩
  have h2 := h1.2 r
  rwa [show expected p.net.rounds p.net.vars p.net.nbs p.net.size p.net.msg r =
    together p.vars p.nbs p.size p.pack p.rounds r from hist_expected p p.rounds r] at h2

/-- **C92**, with data that the ranks compute: as long as a rank has not finished, a rank or MPI can take a
step; when none can, every rank has received what it would receive if all ranks went through the exchanges
together.  So the result of a run depends neither on the timing nor on what was in the buffers. -/
theorem C92_same_result (p : Prog R V) (ok : p.Ok) (rstat : R × R × Nat → Nat)
    (rbuf sbuf : R × R × Nat → List V) (s : Msg.State R V) (n : Nat)
    (h : RunsTo p (Msg.init (p.at fun _ _ => []) rstat rbuf sbuf) s n) :
    ((∃ r, s.round r < p.rounds) → ∃ u, Work (p.at fun _ => s.log) s u) ∧
    ((∀ u, ¬ Work (p.at fun _ => s.log) s u) →
      ∀ r, s.log r = together p.vars p.nbs p.size p.pack p.rounds r) := by
  have hi := Msg.inv_init (Prog.net_ok ok) rstat rbuf sbuf
  have hr := runs_reach ok hi h
  have hs := Msg.inv_reach (Prog.net_ok ok) hi hr
  constructor
  · intro h1
    obtain ⟨u, hu⟩ := C92_no_deadlock p.net (Prog.net_ok ok) rstat rbuf sbuf s n hr h1
    exact ⟨u, (work_same ok hs).2 hu⟩
  · intro h1 r
    have := C92_all_received p.net (Prog.net_ok ok) rstat rbuf sbuf s n hr
      (fun u hu => h1 u ((work_same ok hs).2 hu)) r
    rwa [show expected p.net.rounds p.net.vars p.net.nbs p.net.size p.net.msg r =
      together p.vars p.nbs p.size p.pack p.rounds r from hist_expected p p.rounds r] at this

/-! ### Examples -/

/-- A command of an execution. -/
inductive MsgCmd
  | rank (r : Nat) | fetch (a b t k : Nat) | deliver (a b t k : Nat) | test (r v q : Nat)

/-- The result of a command, if it is possible. -/
def MsgCmd.run (net : Net Nat Nat) (s : Msg.State Nat Nat) : MsgCmd → Option (Msg.State Nat Nat)
  | .rank r => stepRank net s r
  | .fetch a b t k =>
    if k < s.nsent (a, b, t) ∧ s.sdat (a, b, t, k) = none then some (Msg.fetch s a b t k) else none
  | .deliver a b t k =>
    match s.sdat (a, b, t, k) with
    | some x =>
      if k < s.nrecv (a, b, t) ∧ s.rgot (a, b, t, k) = none then some (Msg.deliver net s a b t k x) else none
    | none => none
  | .test r v q =>
    match s.rreq (r, q, v) with
    | some (t, k) => if (s.rgot (q, r, t, k)).isSome then some (testRecv s r v [q]) else none
    | none => none

/-- The result of a list of commands. -/
def msgRun (net : Net Nat Nat) : List MsgCmd → Msg.State Nat Nat → Option (Msg.State Nat Nat)
  | [], s => some s
  | c :: cs, s => (c.run net s).bind (msgRun net cs)

theorem msgCmd_reach {net : Net Nat Nat} {s0 s u : Msg.State Nat Nat} {n : Nat} (h : Msg.Reach net s0 s n)
    {c : MsgCmd} (hc : c.run net s = some u) : ∃ n, Msg.Reach net s0 u n := by
  cases c with
  | rank r => exact ⟨_, .work _ _ _ _ h (.rank r u hc)⟩
  | fetch a b t k =>
    unfold MsgCmd.run at hc
    simp only at hc
    split at hc
    · next g => cases hc; exact ⟨_, .work _ _ _ _ h (.fetch a b t k g.1 g.2)⟩
    · cases hc
  | deliver a b t k =>
    unfold MsgCmd.run at hc
    simp only at hc
    split at hc
    · next x hx =>
      split at hc
      · next g => cases hc; exact ⟨_, .work _ _ _ _ h (.deliver a b t k x hx g.1 g.2)⟩
      · cases hc
    · cases hc
  | test r v q =>
    unfold MsgCmd.run at hc
    simp only at hc
    split at hc
    · next t k hx =>
      split at hc
      · next g =>
        cases hc
        obtain ⟨c, hc⟩ := Option.isSome_iff_exists.1 g
        refine ⟨_, .test _ _ _ _ h (.recv r v [q] ?_)⟩
        intro q' hq'
        rw [List.mem_singleton] at hq'
        subst hq'
        exact ⟨t, k, c, hx, hc⟩
      · cases hc
    · cases hc

theorem msgRun_reach {net : Net Nat Nat} {s0 : Msg.State Nat Nat} (l : List MsgCmd) {s u : Msg.State Nat Nat}
    {n : Nat} (h : Msg.Reach net s0 s n) (hl : msgRun net l s = some u) : ∃ n, Msg.Reach net s0 u n := by
  induction l generalizing s n with
  | nil => cases hl; exact ⟨n, h⟩
  | cons c cs ih =>
    unfold msgRun at hl
    rw [Option.bind_eq_some_iff] at hl
    obtain ⟨s', h1, h2⟩ := hl
    obtain ⟨n', h'⟩ := msgCmd_reach h h1
    exact ih h' h2

/-- Two ranks; the first exchange is of vars 5 and 7, the second only of var 7, with the tag that var 5 had; rank
1 has nothing of var 5 for rank 0, and its var 7 is not dirty in the second exchange. -/
def netTwo : Net Nat Nat where
  nbs r := if r = 0 then [1] else if r = 1 then [0] else []
  vars n := if n = 0 then [5, 7] else [7]
  size a b v := if a = 0 ∧ b = 1 then 3 else if a = 1 ∧ b = 0 ∧ v = 7 then 2 else 0
  msg n a b v :=
    if a = 0 ∧ b = 1 then [100 * n + v, 1] else if a = 1 ∧ b = 0 ∧ v = 7 ∧ n = 0 then [8] else []
  rounds := 2

theorem netTwo_ok : netTwo.Ok where
  nbs_nodup r := by simp only [netTwo]; split <;> (try split) <;> simp
  nbs_symm r q h := by
    simp only [netTwo] at h ⊢
    split at h
    · next e => simp at h; subst h e; simp
    · split at h
      · next e => simp at h; subst h e; simp
      · cases h
  vars_nodup n := by simp only [netTwo]; split <;> simp
  fits n a b v := by
    simp only [netTwo]
    split
    · simp
    · split
      · next h => simp [h.1, h.2.1, h.2.2.1]
      · simp

/-- An execution: rank 1 finds one message by a test and waits for another; rank 0 has sent its second message
with tag 1 before rank 1 unpacks the first one. -/
def netTwoCmds : List MsgCmd :=
  [.rank 0, .rank 0, .rank 0, .rank 1, .rank 1, .rank 1, .fetch 0 1 1 0, .deliver 0 1 1 0, .test 1 5 0,
   .fetch 1 0 2 0, .deliver 1 0 2 0, .rank 0, .rank 0, .fetch 0 1 2 0, .rank 0, .rank 0, .rank 0, .rank 0,
   .fetch 0 1 1 1, .rank 1, .deliver 0 1 2 0, .rank 1]

example : (msgRun netTwo netTwoCmds (Msg.init netTwo (fun _ => 9) (fun _ => [3, 3, 3]) (fun _ => [4]))).map
    (fun s => (s.log 0, s.log 1)) =
    some ([⟨0, 7, 1, [8]⟩], [⟨0, 5, 0, [5, 1]⟩, ⟨0, 7, 0, [7, 1]⟩]) := by
  decide +kernel

example : (msgRun netTwo netTwoCmds (Msg.init netTwo (fun _ => 9) (fun _ => [3, 3, 3]) (fun _ => [4]))).map
    (fun s => (s.bad, s.round 0, s.round 1)) = some (false, 1, 0) := by
  decide +kernel

example : expected netTwo.rounds netTwo.vars netTwo.nbs netTwo.size netTwo.msg 1 =
    [⟨0, 5, 0, [5, 1]⟩, ⟨0, 7, 0, [7, 1]⟩, ⟨1, 7, 0, [107, 1]⟩] := by decide +kernel

/-- The state after these commands is one of those that the theorems are about. -/
example : ∃ s n, Msg.Reach netTwo (Msg.init netTwo (fun _ => 9) (fun _ => [3, 3, 3]) (fun _ => [4])) s n ∧
    s.log 1 = [⟨0, 5, 0, [5, 1]⟩, ⟨0, 7, 0, [7, 1]⟩] ∧ s.round 1 < netTwo.rounds := by
  have h : ((msgRun netTwo netTwoCmds
      (Msg.init netTwo (fun _ => 9) (fun _ => [3, 3, 3]) (fun _ => [4]))).map
        fun s => (s.log 1, s.round 1)) = some ([⟨0, 5, 0, [5, 1]⟩, ⟨0, 7, 0, [7, 1]⟩], 0) := by decide +kernel
  rw [Option.map_eq_some_iff] at h
  obtain ⟨s, h1, h2⟩ := h
  obtain ⟨n, hn⟩ := msgRun_reach _ (.refl _) h1
  simp only [Prod.mk.injEq] at h2
  exact ⟨s, n, hn, h2.1, by rw [h2.2]; decide⟩

/-- Two ranks that exchange one var. -/
def netOne : Net (Fin 2) Nat where
  nbs r := [1 - r]
  vars _ := [7]
  size _ _ _ := 1
  msg n _ _ _ := [n]
  rounds := 3

example : netOne.Ok ∧ (∀ n r, (netOne.prog n r).length ≤ 4) ∧ (netOne.prog 2 0).length = 4 := by
  refine ⟨⟨fun r => by simp [netOne], ?_, fun n => by simp [netOne], fun n a b v => by simp [netOne]⟩, ?_,
    by decide +kernel⟩
  · decide
  · intro n r
    by_cases h : n < 3
    · simp [Net.prog, Net.acts, Net.bytes, netOne, h]
    · simp [Net.prog, netOne, h]

/-- Two ranks; each sends one more than the sum of what it has received, rank 1 from 10. -/
def progTwo : Prog Nat Nat where
  nbs r := if r = 0 then [1] else if r = 1 then [0] else []
  vars n := if n = 0 then [5, 7] else [7]
  size _ _ _ := 1
  pack r h _ v := [(h.map fun g => g.data.sum).sum + v + 10 * r]
  rounds := 2

example : progTwo.Ok where
  nbs_nodup r := by simp only [progTwo]; split <;> (try split) <;> simp
  nbs_symm r q h := by
    simp only [progTwo] at h ⊢
    split at h
    · next e => simp at h; subst h e; simp
    · split at h
      · next e => simp at h; subst h e; simp
      · cases h
  vars_nodup n := by simp only [progTwo]; split <;> simp
  fits a h b v := by simp [progTwo]

example : together progTwo.vars progTwo.nbs progTwo.size progTwo.pack progTwo.rounds 0 =
    [⟨0, 5, 1, [15]⟩, ⟨0, 7, 1, [17]⟩, ⟨1, 7, 1, [29]⟩] := by decide +kernel

end Yask
