import Verif.Mpi.MsgProgress

/-!
# Ranks that compute what they send
-/

namespace Yask.Msg
open MsgSpec

variable {R V : Type} [DecidableEq R]

/-- What rank `r` has received after `n` exchanges done together. -/
def Prog.hist (p : Prog R V) (n : Nat) (r : R) : List (Got R V) := together p.vars p.nbs p.size p.pack n r

/-- The exchange pattern when all exchanges are done together. -/
def Prog.net (p : Prog R V) : Net R V := p.at p.hist

theorem Prog.net_ok {p : Prog R V} (ok : p.Ok) : p.net.Ok :=
  ⟨ok.nbs_nodup, ok.nbs_symm, ok.vars_nodup, fun _ _ _ _ => ok.fits _ _ _ _⟩

theorem hist_expected (p : Prog R V) (n : Nat) (r : R) :
    expected n p.vars p.nbs p.size p.net.msg r = p.hist n r := by
  induction n with
  | zero => rfl
  | succ n ih =>
    show _ = p.hist n r ++ _
    rw [← ih]
    unfold expected
    rw [List.range_succ, List.flatMap_append]
    simp only [List.flatMap_cons, List.flatMap_nil, List.append_nil]
    rfl

theorem hist_gotOf (p : Prog R V) (n : Nat) (hn : n ≤ p.rounds) (r : R) :
    (List.range n).flatMap (fun n => gotOf p.net r n (p.net.prog n r)) = p.hist n r := by
  rw [← hist_expected]
  unfold expected
  rw [List.flatMap_def, List.flatMap_def]
  congr 1
  apply List.map_congr_left
  intro i hi
  exact gotOf_prog p.net r i (by simp at hi; exact Nat.lt_of_lt_of_le hi hn)

/-- When a rank packs, it has received all of the exchanges before, and nothing of the present one. -/
theorem log_at_send {p : Prog R V} (ok : p.Ok) {s : State R V} (hi : Inv p.net s) {r : R} {t v : Nat}
    {q : R} {rest : List (Act R)} (ht : s.todo r = ⟨.send, t, v, q⟩ :: rest) :
    s.log r = p.hist (s.round r) r := by
  have hl := hi.log r
  rw [List.range_succ, List.flatMap_append, hist_gotOf p _ (hi.rnd r)] at hl
  simp only [List.flatMap_cons, List.flatMap_nil, List.append_nil] at hl
  -- nothing has been unpacked
  have hg : gotOf p.net r (s.round r) (s.todo r) = gotOf p.net r (s.round r) (p.net.prog (s.round r) r) := by
    obtain ⟨pre, e⟩ := hi.suf r
    rw [← e, gotOf_append]
    have : gotOf p.net r (s.round r) pre = [] := by
      unfold gotOf
      rw [List.map_eq_nil_iff, List.filter_eq_nil_iff]
      intro x hx hk
      simp only [decide_eq_true_eq] at hk
      have hs := prog_sorted p.net (s.round r) r
      rw [← e] at hs
      have := (List.pairwise_append.1 hs).2.2 x hx ⟨.send, t, v, q⟩ (by rw [ht]; exact List.mem_cons_self ..)
      rw [hk] at this
      simp [Kind.ord] at this
    rw [this, List.nil_append]
  rw [hg] at hl
  exact List.append_cancel_right hl

theorem rank_same {p : Prog R V} (ok : p.Ok) {s : State R V} (hi : Inv p.net s) (r : R) :
    stepRank (p.at fun _ => s.log) s r = stepRank p.net s r := by
  unfold stepRank
  cases ht : s.todo r with
  | nil => rfl
  | cons x rest =>
    obtain ⟨k, t, v, q⟩ := x
    cases k with
    | send =>
      have := log_at_send ok hi ht
      have e : (p.at fun _ => s.log).msg (s.round r) r q v = p.net.msg (s.round r) r q v := by
        show p.pack r (s.log r) q v = p.pack r (p.hist (s.round r) r) q v
        rw [this]
      simp only [act, doSend, e]
    | irecv => rfl
    | unpack => rfl
    | final => rfl

theorem work_same {p : Prog R V} (ok : p.Ok) {s u : State R V} (hi : Inv p.net s) :
    Work (p.at fun _ => s.log) s u ↔ Work p.net s u := by
  constructor
  · intro h
    cases h with
    | rank r u h => exact .rank r u (by rw [← rank_same ok hi]; exact h)
    | fetch a b t k h hd => exact .fetch a b t k h hd
    | deliver a b t k x hd h hg => exact .deliver (net := p.net) a b t k x hd h hg
  · intro h
    cases h with
    | rank r u h => exact .rank r u (by rw [rank_same ok hi]; exact h)
    | fetch a b t k h hd => exact .fetch a b t k h hd
    | deliver a b t k x hd h hg => exact .deliver (net := p.at fun _ => s.log) a b t k x hd h hg

theorem runs_reach {p : Prog R V} (ok : p.Ok) {s0 s : State R V} {n : Nat} (hi : Inv p.net s0)
    (h : RunsTo p s0 s n) : Reach p.net s0 s n := by
  induction h with
  | refl => exact .refl _
  | work t u n _ h2 ih => exact .work _ _ _ _ ih ((work_same ok (inv_reach (Prog.net_ok ok) hi ih)).1 h2)
  | test t u n _ h2 ih => exact .test _ _ _ _ ih h2

end Yask.Msg
