import Verif.Mpi.ShmLemmas
import Mathlib.Algebra.BigOperators.Group.Finset.Basic
import Mathlib.Algebra.Order.BigOperators.Group.Finset
import Mathlib.Data.Fintype.Card

/-!
# C24: halo exchange through shared memory
-/

namespace Yask
open Shm

variable {R C V : Type} [DecidableEq R] [DecidableEq C]

/-- All messages packed for a channel, in order: one for each exchange that uses it. -/
def messages (net : Net R C V) (c : C) : List (List V) :=
  ((List.range net.rounds).filter fun n => net.used n c).map fun n => net.msg c n

/-- **C24**: under every interleaving of the steps of all ranks, the messages unpacked from a buffer so
far are the first messages packed into it, complete and in order: none is lost, repeated or torn.
Initial contents of buffers and size fields are arbitrary. -/
theorem C24_messages_in_order (net : Net R C V) (ok : net.Ok) (data : C → Nat) (buf : C → Nat → V)
    (s : State R C V) (n : Nat) (h : Reach net (init net data buf) s n) (c : C) :
    s.log c <+: messages net c :=
  log_prefix (inv_reach ok (inv_init ok data buf) h) c

/-- **C24**: the ranks never all wait: as long as some rank has not finished all exchanges, some rank
can take a step. -/
theorem C24_no_deadlock (net : Net R C V) (ok : net.Ok) (data : C → Nat) (buf : C → Nat → V)
    (s : State R C V) (n : Nat) (h : Reach net (init net data buf) s n)
    (hr : ∃ r, s.round r < net.rounds) : ∃ r, (stepRank net s r).isSome := by
  have hi := inv_reach ok (inv_init ok data buf) h
  obtain ⟨r0, h0⟩ := hr
  have hex : ∃ k, ∃ r, s.round r < net.rounds ∧ key s r = k := ⟨_, r0, h0, rfl⟩
  classical
  obtain ⟨r, h1, h2⟩ := Nat.find_spec hex
  refine ⟨r, min_moves ok hi h1 ?_⟩
  intro r' h'
  rw [h2]
  exact Nat.find_min' hex ⟨r', h', rfl⟩

/-- **C24**: the number of steps is bounded, so no rank waits forever: with buffers of at most `B` cells
and at most `P` buffers per rank, every execution has at most this many steps. -/
theorem C24_finishes [Fintype R] (net : Net R C V) (ok : net.Ok) (data : C → Nat)
    (buf : C → Nat → V) (B P : Nat) (hB : ∀ c n, (net.msg c n).length ≤ B)
    (hP : ∀ n r, (net.prog n r).length ≤ P) (s : State R C V) (n : Nat)
    (h : Reach net (init net data buf) s n) :
    n ≤ Fintype.card R * ((net.rounds * (P + 1) + P) * (B + 3)) := by
  have key : n + ∑ r, pot net B P s r ≤ ∑ r, pot net B P (init net data buf) r := by
    induction h with
    | refl => omega
    | step t u r n h1 h2 ih =>
      have hi := inv_reach ok (inv_init ok data buf) h1
      obtain ⟨hlt, hoth⟩ := pot_step hB hP hi h2
      have : ∑ r, pot net B P u r < ∑ r, pot net B P t r := by
        apply Finset.sum_lt_sum
        · intro r' _
          by_cases e : r' = r
          · subst e; exact le_of_lt hlt
          · exact le_of_eq (hoth r' e)
        · exact ⟨r, Finset.mem_univ r, hlt⟩
      omega
  have hb : ∑ r, pot net B P (init net data buf) r ≤
      ∑ _r : R, (net.rounds * (P + 1) + P) * (B + 3) := by
    apply Finset.sum_le_sum
    intro r _
    unfold pot
    refine Nat.le_trans (Nat.sub_le _ _) (Nat.mul_le_mul_right _ ?_)
    have := hP 0 r
    show (net.rounds - 0) * (P + 1) + (net.prog 0 r).length ≤ _
    rw [Nat.sub_zero]
    omega
  rw [Finset.sum_const, Finset.card_univ] at hb
  exact Nat.le_trans (Nat.le_trans (Nat.le_add_right _ _) key) hb

/-- **C24**: when no rank can take a step any more, every message of every exchange has been unpacked. -/
theorem C24_all_delivered (net : Net R C V) (ok : net.Ok) (data : C → Nat) (buf : C → Nat → V)
    (s : State R C V) (n : Nat) (h : Reach net (init net data buf) s n)
    (hend : ∀ r, stepRank net s r = none) (c : C) : s.log c = messages net c := by
  have hi := inv_reach ok (inv_init ok data buf) h
  have hdone : ∀ r, s.round r = net.rounds := by
    intro r
    by_contra hne
    have hlt : s.round r < net.rounds := Nat.lt_of_le_of_ne (hi.rank r).le hne
    obtain ⟨r', h'⟩ := C24_no_deadlock net ok data buf s n h ⟨r, hlt⟩
    rw [hend r'] at h'
    cases h'
  rw [(hi.chan c).log]
  unfold recvL
  rw [hdone, if_neg (fun h => Nat.lt_irrefl _ h.1), List.append_nil]
  rfl

/-- Two ranks that exchange in both directions, three times. -/
def exNet : Net Bool Bool Nat where
  src c := c
  dst c := !c
  used _ _ := true
  msg c n := if c then [n, n + 1] else [10 * n]
  outs _ r := [r]
  ins _ r := [!r]
  rounds := 3

theorem exNet_ok : exNet.Ok where
  outs_mem := by intro n r c; cases r <;> cases c <;> simp [exNet]
  ins_mem := by intro n r c; cases r <;> cases c <;> simp [exNet]
  outs_nodup := by intro n r; simp [exNet]
  ins_nodup := by intro n r; simp [exNet]

example : messages exNet true = [[0, 1], [1, 2], [2, 3]] := by decide

/-- Run with a scheduler that lets the given rank move, if it can. -/
def runSched (net : Net R C V) (s : State R C V) : List R → State R C V
  | [] => s
  | r :: rs => runSched net ((stepRank net s r).getD s) rs

example : ((runSched exNet (init exNet (fun _ => 5) (fun _ _ => 77))
    ((List.range 100).map fun i => i % 3 == 0)).log true) = [[0, 1], [1, 2], [2, 3]] := by decide +kernel

end Yask
