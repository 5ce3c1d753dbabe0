import Verif.Kernel.MainLemmas
import Mathlib.Algebra.Order.BigOperators.Group.List
import Mathlib.Data.List.Perm.Basic
import Mathlib.Tactic.FieldSimp
import Mathlib.Tactic.Ring
import Mathlib.Tactic.NormNum

/-!
# C79: the utility `yask_kernel` ends on all ranks, and says PASSED if and only if the results agree
-/

namespace Yask

open MainPgm

variable {nr : Nat} {σ : Type} {M : Machine nr σ}

/-- `init_vars` sets all data, whatever was there. -/
def MainPgm.Overwrites (M : Machine nr σ) : Prop := ∀ i s s', M.init i s = M.init i s'

/-- If the ranks have the same options for warm-up, tuning, sign of the trial time and block size, then the job
ends: there are a number of steps and an end such that every execution, however the ranks are scheduled and
whatever times they measure, can be continued to this end in what is left of the number of steps.  So no
execution blocks or goes on for ever, and all have the same outcome. -/
theorem C79_ends_partial (hn : 0 < nr) (x : Fin nr → RankIn) (hs : Same x) (s r : Fin nr → σ) :
    ∃ N d, Done d ∧ ∀ m e, Run M m (start x s r) e → ∃ l, N = m + l ∧ Run M l e d := by
  obtain ⟨d, ⟨N, hN⟩, hd, _⟩ := steps_main (M := M) hn x hs s r
  exact ⟨N, d, hd, fun m e he => run_after_run m N hN hd he⟩

/-- In particular the job never blocks before all ranks have finished. -/
theorem C79_no_deadlock_partial (hn : 0 < nr) (x : Fin nr → RankIn) (hs : Same x) (s r : Fin nr → σ)
    (m : Nat) (e : Job nr σ) (he : Run M m (start x s r) e) : Done e ∨ ∃ e', Step M e e' := by
  obtain ⟨N, d, hd, h⟩ := C79_ends_partial (M := M) hn x hs s r
  obtain ⟨l, _, hl⟩ := h m e he
  cases hl with
  | nil _ => exact Or.inl hd
  | cons h1 _ => exact Or.inr ⟨_, h1⟩

/-- The end that is reached is that of `steps_main`. -/
theorem MainPgm.end_unique {c d e : Job nr σ} {n m : Nat} (h : Run M n c d) (hd : Done d) (he : Run M m c e)
    (hde : Done e) : e = d := by
  obtain ⟨l, _, hl⟩ := run_after_run m n h hd he
  cases hl with
  | nil _ => rfl
  | cons h1 _ => exact (done_no_step hde h1).elim

/-- If the number of trials, the number of steps or the validation differ between ranks, all ranks exit with an
error, without any run. -/
theorem C79_disagree (hn : 0 < nr) (x : Fin nr → RankIn) (hs : Same x) (hc : ¬ Checked x) (s r : Fin nr → σ)
    (m : Nat) (e : Job nr σ) (he : Run M m (start x s r) e) (hd : Done e) (i : Fin nr) :
    (e i).prog = .stop false ∧ (e i).log.filter isRun = [] := by
  obtain ⟨d, ⟨N, hN⟩, hd', h, _⟩ := steps_main (M := M) hn x hs s r
  rw [end_unique hN hd' he hd]
  exact h hc i

/-- Otherwise there are at most three warm-up runs, none without a reason; they, and the number `S` of steps of
a trial, are the same on all ranks; `S` is the requested number if there is one; and every rank makes exactly
the requested number of trials of steps 0 to `S - 1`, followed by the reference run if the results are to be
validated.  Without trials or steps the utility exits with an error. -/
theorem C79_trials (hn : 0 < nr) (x : Fin nr → RankIn) (hs : Same x) (hc : Checked x) (s r : Fin nr → σ)
    (m : Nat) (e : Job nr σ) (he : Run M m (start x s r) e) (hd : Done e) :
    ∃ (S : Int) (ws : List Int), (∀ w ∈ ws, 1 ≤ w) ∧ ws.length ≤ 3 ∧
      (∀ i, warms (x i).opts = false → ws = []) ∧
      (∀ i, 0 < (x i).opts.trialSteps → S = (x i).opts.trialSteps) ∧ ∀ i,
      ((x i).opts.numTrials < 1 ∨ S ≤ 0 → (e i).prog = .stop false ∧
        (e i).log.filter isRun = ws.map fun w => .run 0 (w - 1)) ∧
      (1 ≤ (x i).opts.numTrials → 0 < S → (e i).log.filter isRun = (ws.map fun w => .run 0 (w - 1)) ++
        (List.replicate (x i).opts.numTrials.toNat (.run 0 (S - 1)) ++
          (if (x i).opts.validate then [.runRef 0 (S - 1)] else [])) ∧
        ((x i).opts.validate = false → (e i).prog = .stop true)) := by
  obtain ⟨d, ⟨N, hN⟩, hd', _, h⟩ := steps_main (M := M) hn x hs s r
  rw [end_unique hN hd' he hd]
  obtain ⟨S, ws, h1, h2, h3, h4, h5⟩ := h hc
  refine ⟨S, ws, h1, h2, h3, h4, fun i => ⟨fun h => ⟨((h5 i).1 h).1, ((h5 i).1 h).2.1⟩, fun a b => ?_⟩⟩
  obtain ⟨g1, g2, _⟩ := (h5 i).2 a b
  exact ⟨g1, fun hv => (g2 hv).1⟩

/-- With validation, rank `i` prints one message, and it says PASSED, and the utility returns without error on
it, if and only if the comparison finds no mismatch between the results of the solution and those of the
reference after the same `S` steps from the initial data, whatever the auto-tuner, the warm-up runs and earlier
trials did to the data. -/
theorem C79_validates (hn : 0 < nr) (x : Fin nr → RankIn) (hs : Same x) (hc : Checked x) (ho : Overwrites M)
    (s r : Fin nr → σ) (m : Nat) (e : Job nr σ) (he : Run M m (start x s r) e) (hd : Done e)
    (hv : ∀ i, (x i).opts.validate = true ∧ 1 ≤ (x i).opts.numTrials ∧ 1 ≤ (x i).opts.trialSteps) (i : Fin nr) :
    ∃ ok, (e i).prog = .stop ok ∧ (e i).log.filter isReport = [.report ok] ∧
      (ok = true ↔ M.mism i (M.run 0 ((x i).opts.trialSteps - 1) (fun j => M.init j (M.fresh j)) i)
        (M.runRef 0 ((x i).opts.trialSteps - 1) (fun j => M.init j (M.fresh j)) i) = 0) := by
  obtain ⟨d, ⟨N, hN⟩, hd', _, h⟩ := steps_main (M := M) hn x hs s r
  rw [end_unique hN hd' he hd]
  obtain ⟨S, ws, h1, h2, h3, h4, h5⟩ := h hc
  obtain ⟨v1, v2, v3⟩ := hv i
  have hS := h4 i (by omega)
  subst hS
  obtain ⟨g1, _, g3⟩ := (h5 i).2 v2 (by omega)
  obtain ⟨s0, ok, k1, k2, k3⟩ := g3 v1
  refine ⟨ok, k1, k2, ?_⟩
  have e0 : initAll M s0 = fun j => M.init j (M.fresh j) := by
    funext j
    exact ho j _ _
  rw [k3, decide_eq_true_iff, e0]
  rfl

/-- The same if the number of steps is found by calibration: it is then some number of steps, the same for both
runs and for all ranks. -/
theorem C79_validates_time (hn : 0 < nr) (x : Fin nr → RankIn) (hs : Same x) (hc : Checked x) (ho : Overwrites M)
    (s r : Fin nr → σ) (m : Nat) (e : Job nr σ) (he : Run M m (start x s r) e) (hd : Done e)
    (hv : ∀ i, (x i).opts.validate = true ∧ 1 ≤ (x i).opts.numTrials) :
    (∀ i, (e i).prog = .stop false ∧ (e i).log.filter isReport = []) ∨ ∃ S, 1 ≤ S ∧ ∀ i, ∃ ok,
      (e i).prog = .stop ok ∧ (e i).log.filter isReport = [.report ok] ∧
      (ok = true ↔ M.mism i (M.run 0 (S - 1) (fun j => M.init j (M.fresh j)) i)
        (M.runRef 0 (S - 1) (fun j => M.init j (M.fresh j)) i) = 0) := by
  obtain ⟨d, ⟨N, hN⟩, hd', _, h⟩ := steps_main (M := M) hn x hs s r
  rw [end_unique hN hd' he hd]
  obtain ⟨S, ws, h1, h2, h3, h4, h5⟩ := h hc
  by_cases hS : S ≤ 0
  · left
    intro i
    obtain ⟨g1, _, g3⟩ := (h5 i).1 (Or.inr hS)
    exact ⟨g1, g3⟩
  · right
    refine ⟨S, by omega, fun i => ?_⟩
    obtain ⟨g1, _, g3⟩ := (h5 i).2 (hv i).2 (by omega)
    obtain ⟨s0, ok, k1, k2, k3⟩ := g3 (hv i).1
    refine ⟨ok, k1, k2, ?_⟩
    have e0 : initAll M s0 = fun j => M.init j (M.fresh j) := by
      funext j
      exact ho j _ _
    rw [k3, decide_eq_true_iff, e0]
    rfl

/-! ## What is not so -/

/-- Options of two ranks that differ only in `-warmup`, which is not checked. -/
def MainPgm.mixed (i : Fin 2) : RankIn := ⟨⟨decide (i = 0), false, false, 1, 1, 10⟩, fun _ => 1, 1⟩

/-- What a rank of `mixed` does after the preparation. -/
def MainPgm.mixedRest (i : Fin 2) : Prog :=
  let rest :=
    if warms (mixed i).opts then warmLoop (mixed i) 2 (finalSteps (mixed i) 2 (perform 2 i (mixed i))) 3 1 10 1
    else perform 2 i (mixed i) (mixed i).opts.trialSteps
  if (mixed i).opts.preTune then call .tune rest else rest

theorem MainPgm.stuck (M : Machine 2 σ) (e : Job 2 σ) (p q : Prog) (h0 : (e 0).prog = call (.run 0 0) p)
    (h1 : (e 1).prog = call .barrier q) : ¬ Done e ∧ ∀ e', ¬ Step M e e' := by
  refine ⟨?_, ?_⟩
  · intro hd
    obtain ⟨ok, h⟩ := hd 0
    rw [h0] at h
    cases h
  · intro e' h
    cases h with
    | own i a k hi ha =>
      match i, hi with
      | 0, hi => rw [h0] at hi; cases hi; cases ha
      | 1, hi => rw [h1] at hi; cases hi; cases ha
    | all as ks _ hp _ hg =>
      have g := hg 0 1
      have e0 := hp 0
      have e1 := hp 1
      rw [h0] at e0
      rw [h1] at e1
      injection e0 with e0
      injection e1 with e1
      rw [← e0, ← e1] at g
      revert g
      decide

/-- If the ranks differ only in the option `-[no-]warmup`, they wait for each other for ever: one in its first
warm-up run, the other before its first trial. -/
theorem C79_warmup_wrong (M : Machine 2 σ) (s r : Fin 2 → σ) :
    Checked mixed ∧ ∃ m e, Run M m (start mixed s r) e ∧ ¬ Done e ∧
      ∀ e', ¬ Step M e e' := by
  have hc : Checked mixed := ⟨fun _ _ => rfl, fun _ _ => rfl, fun _ _ => rfl⟩
  refine ⟨hc, ?_⟩
  have hn : 0 < 2 := by decide
  have hstart : start mixed s r = mk (fun _ => []) (fun i => main 2 i (mixed i)) s r := rfl
  have b1 := steps_barrier (M := M) hn (fun _ => []) (fun i =>
    agreed (mixed i).opts.numTrials (mixed i).opts.trialSteps (mixed i).opts.validate <|
    call .prepare <| call .init <| call .toDevice <|
      mixedRest i) s r
  obtain ⟨P1, _, b2⟩ := steps_agreed (M := M) hn (fun _ => [] ++ [.barrier])
      (fun i => (mixed i).opts.numTrials) (fun i => (mixed i).opts.trialSteps) (fun i => (mixed i).opts.validate)
      (fun i => call .prepare <| call .init <| call .toDevice <|
      mixedRest i) s r hc.numTrials hc.trialSteps hc.validate
  have b3 := ((b1.trans b2).trans (steps_call (M := M) hn _ .prepare _ _ _ rfl)).trans (steps_init _ _ _ _)
  -- from here on one rank warms up and the other performs its trial
  have b4 : mixedRest = fun i => call .barrier (if i = 0
      then call (.run 0 0) (call .barrier (perform 2 0 (mixed 0) 1))
      else call .barrier (call (.run 0 0) (call .barrier (finish true)))) := by
    funext i
    match i with
    | 0 => simp [mixedRest, mixed, warms, warmLoop, finalSteps]
    | 1 => simp [mixedRest, mixed, warms, perform, trials, trial]
  have b5 : Steps M (start mixed s r) (mk _ mixedRest _ _) := b3
  rw [b4] at b5
  obtain ⟨m, hm⟩ := b5.trans (steps_barrier (M := M) hn _ _ _ _)
  exact ⟨m, _, hm, stuck M _ _ _ rfl rfl⟩

/-- The number of steps found by calibration is kept in an `int`: with a million steps per second and an hour
as the wanted time, the steps of a trial come out negative, so that the utility exits with an error. -/
theorem C79_many_steps_wrong (M : Machine 1 σ) (k : Int → Prog) (L : List Act) (s r : σ) :
    Steps M
      (fun _ => ⟨L, finalSteps ⟨⟨true, false, false, 1, 0, 3600⟩, fun _ => 1, 1⟩ 1 k 1000000, s, r⟩)
      (fun _ => ⟨L ++ [.sum 3600000000], k (-694967296), s, r⟩) := by
  have h := steps_sum (M := M) (by decide : 0 < 1) (fun _ => L) (fun _ => 3600000000)
    (fun _ z => k (Options.toInt32 (if (1 : Int) > 1 ∧ roundUp (ceilDiv z (1 : Nat)) 1 ≤
        (6 * ceilDiv z (1 : Nat)).tdiv 5 then roundUp (ceilDiv z (1 : Nat)) 1 else ceilDiv z (1 : Nat))))
    (fun _ => s) (fun _ => r)
  have e1 : ⌈(1000000 : ℚ) * 3600⌉ = 3600000000 := by
    rw [Int.ceil_eq_iff]; norm_num
  have e2 : Options.toInt32 (if (1 : Int) > 1 ∧ roundUp (ceilDiv (((List.finRange 1).map
      fun _ => (3600000000 : Int)).sum) (1 : Nat)) 1 ≤ (6 * ceilDiv (((List.finRange 1).map
      fun _ => (3600000000 : Int)).sum) (1 : Nat)).tdiv 5 then roundUp (ceilDiv (((List.finRange 1).map
      fun _ => (3600000000 : Int)).sum) (1 : Nat)) 1 else ceilDiv (((List.finRange 1).map
      fun _ => (3600000000 : Int)).sum) (1 : Nat)) = -694967296 := by decide
  rw [e2] at h
  unfold finalSteps
  simp only [gt_iff_lt, lt_self_iff_false, if_false]
  rw [e1]
  exact h

/-! ## The statistics -/

theorem MainPgm.sorted_pairwise (l : List ℚ) : (sorted l).Pairwise (· ≤ ·) :=
  List.pairwise_insertionSort _ l

theorem MainPgm.sorted_perm (l : List ℚ) : (sorted l).Perm l := List.perm_insertionSort _ l

/-- The best trial is a fastest one. -/
theorem C79_best (l : List ℚ) (b : ℚ) (h : best l = some b) : b ∈ l ∧ ∀ t ∈ l, b ≤ t := by
  unfold best at h
  have hs := sorted_pairwise l
  have hp := sorted_perm l
  cases hl : sorted l with
  | nil => rw [hl] at h; cases h
  | cons a t =>
    rw [hl] at h hs hp
    simp only [List.getElem?_cons_zero, Option.some.injEq] at h
    subst h
    refine ⟨hp.mem_iff.1 List.mem_cons_self, fun u hu => ?_⟩
    rcases List.mem_cons.1 (hp.mem_iff.2 hu) with h1 | h1
    · exact le_of_eq h1.symm
    · exact (List.pairwise_cons.1 hs).1 u h1

/-- `t` is the trial at ordinal rank `k` (counted from 1) of the trials by time. -/
def MainPgm.Ranked (l : List ℚ) (k : Nat) (t : ℚ) : Prop :=
  1 ≤ k ∧ ∃ a b : List ℚ, (a ++ t :: b).Perm l ∧ a.length + 1 = k ∧ (∀ u ∈ a, u ≤ t) ∧ ∀ u ∈ b, t ≤ u

/-- The nearest-rank method for percentile 50: rank ⌈n / 2⌉. -/
def MainPgm.nearestRank50 (n : Nat) : Nat := (n + 1) / 2

/-- The trial that is reported as the 50th percentile has rank `n / 2 + 1`. -/
theorem C79_mid (l : List ℚ) (t : ℚ) (h : mid l = some t) : Ranked l (l.length / 2 + 1) t := by
  unfold mid at h
  have hlt : l.length / 2 < (sorted l).length := (List.getElem?_eq_some_iff.1 h).1
  have ht := (List.getElem?_eq_some_iff.1 h).2
  have hs := sorted_pairwise l
  have he : (sorted l).take (l.length / 2) ++ t :: (sorted l).drop (l.length / 2 + 1) = sorted l := by
    rw [← ht, ← List.drop_eq_getElem_cons hlt, List.take_append_drop]
  refine ⟨Nat.succ_pos _, (sorted l).take (l.length / 2), (sorted l).drop (l.length / 2 + 1), ?_, ?_, ?_, ?_⟩
  · rw [he]; exact sorted_perm l
  · rw [List.length_take, min_eq_left (le_of_lt hlt)]
  · intro u hu
    rw [← he, List.pairwise_append] at hs
    exact hs.2.2 u hu t List.mem_cons_self
  · intro u hu
    rw [← he, List.pairwise_append] at hs
    exact (List.pairwise_cons.1 hs.2.1).1 u hu

/-- For an odd number of trials it is the median, and the one of the nearest-rank method. -/
theorem C79_mid_odd_partial (l : List ℚ) (t : ℚ) (h : mid l = some t) (ho : l.length % 2 = 1) :
    Ranked l (nearestRank50 l.length) t := by
  have h' := C79_mid l t h
  have e : nearestRank50 l.length = l.length / 2 + 1 := by unfold nearestRank50; omega
  rw [e]; exact h'

theorem MainPgm.ranked_count (l : List ℚ) (k : Nat) (t : ℚ) (hd : l.Nodup) (h : Ranked l k t) :
    (l.filter fun u => decide (u < t)).length + 1 = k := by
  obtain ⟨_, a, b, hp, hk, ha, hb⟩ := h
  have hnd : (a ++ t :: b).Nodup := hp.nodup_iff.2 hd
  rw [← (hp.filter _).length_eq, List.filter_append, List.filter_cons, ← hk]
  have h1 : a.filter (fun u => decide (u < t)) = a := by
    rw [List.filter_eq_self]
    intro u hu
    rw [decide_eq_true_iff]
    refine lt_of_le_of_ne (ha u hu) ?_
    intro e
    subst e
    exact (List.nodup_append.1 hnd).2.2 u hu u List.mem_cons_self rfl
  have h2 : b.filter (fun u => decide (u < t)) = [] := by
    rw [List.filter_eq_nil_iff]
    intro u hu h
    rw [decide_eq_true_iff] at h
    exact absurd (hb u hu) (not_le.2 h)
  rw [h1, h2]
  simp

/-- For an even number of trials with different times it is never the one of the nearest-rank method, which is
what the utility says it is: it is the next slower one. -/
theorem C79_mid_even_wrong (l : List ℚ) (t : ℚ) (h : mid l = some t) (he : l.length % 2 = 0) (hd : l.Nodup) :
    ¬ Ranked l (nearestRank50 l.length) t := by
  intro h'
  have h1 := ranked_count l _ t hd (C79_mid l t h)
  have h2 := ranked_count l _ t hd h'
  unfold nearestRank50 at h2
  omega

theorem MainPgm.sum_sq (l : List ℚ) (c : ℚ) :
    (l.map fun p => (p - c) * (p - c)).sum = (l.map fun p => p * p).sum - 2 * c * l.sum + l.length * (c * c) := by
  induction l with
  | nil => simp
  | cons p l ih =>
    simp only [List.map_cons, List.sum_cons, List.length_cons, ih]
    push_cast
    ring

/-- The variance is the sum of the squared distances from the average by `n - 1`. -/
theorem C79_variance (l : List ℚ) (h : 2 ≤ l.length) :
    varPps l = (l.map fun p => (p - avePps l) * (p - avePps l)).sum / (l.length - 1) := by
  have hn : (l.length : ℚ) ≠ 0 := by
    have : 0 < l.length := by omega
    positivity
  rw [sum_sq]
  unfold varPps avePps
  congr 1
  field_simp
  ring

/-- But for two trials the standard deviation is said to be 0, whatever they are. -/
theorem C79_two_trials_wrong (a b : ℚ) (h : a ≠ b) : sdPps2 [a, b] = 0 ∧ varPps [a, b] ≠ 0 := by
  refine ⟨rfl, ?_⟩
  have e : varPps [a, b] = (a - b) * (a - b) / 2 := by
    unfold varPps
    simp only [List.map_cons, List.map_nil, List.sum_cons, List.sum_nil, List.length_cons, List.length_nil]
    push_cast
    ring
  rw [e]
  have : a - b ≠ 0 := sub_ne_zero.2 h
  exact div_ne_zero (mul_ne_zero this this) (by norm_num)

theorem MainPgm.fold_max (l : List ℚ) : ∀ m : ℚ, 0 < m → (∀ p ∈ l, 0 ≤ p) →
    m ≤ l.foldl (fun m p => if m = 0 ∨ p > m then p else m) m ∧
    (∀ p ∈ l, p ≤ l.foldl (fun m p => if m = 0 ∨ p > m then p else m) m) ∧
    (l.foldl (fun m p => if m = 0 ∨ p > m then p else m) m = m ∨
      l.foldl (fun m p => if m = 0 ∨ p > m then p else m) m ∈ l) := by
  induction l with
  | nil => intro m _ _; simp
  | cons q l ih =>
    intro m hm hl
    rw [List.foldl_cons]
    have hl' : ∀ p ∈ l, 0 ≤ p := fun p hp => hl p (List.mem_cons_of_mem _ hp)
    by_cases h : q > m
    · rw [if_pos (Or.inr h)]
      obtain ⟨h1, h2, h3⟩ := ih q (lt_trans hm h) hl'
      refine ⟨le_trans (le_of_lt h) h1, ?_, Or.inr ?_⟩
      · intro p hp
        rcases List.mem_cons.1 hp with e | e
        · subst e; exact h1
        · exact h2 p e
      · rcases h3 with e | e
        · rw [e]; exact List.mem_cons_self
        · exact List.mem_cons_of_mem _ e
    · rw [if_neg (by rintro (e | e); exact absurd e (ne_of_gt hm); exact h e)]
      obtain ⟨h1, h2, h3⟩ := ih m hm hl'
      refine ⟨h1, ?_, ?_⟩
      · intro p hp
        rcases List.mem_cons.1 hp with e | e
        · subst e; exact le_trans (not_lt.1 h) h1
        · exact h2 p e
      · rcases h3 with e | e
        · exact Or.inl e
        · exact Or.inr (List.mem_cons_of_mem _ e)

/-- The greatest throughput is the greatest one, if the first is positive and none is negative. -/
theorem C79_max (q : ℚ) (l : List ℚ) (hq : 0 < q) (hl : ∀ p ∈ l, 0 ≤ p) :
    maxPps (q :: l) ∈ q :: l ∧ ∀ p ∈ q :: l, p ≤ maxPps (q :: l) := by
  unfold maxPps
  rw [List.foldl_cons, if_pos (Or.inl rfl)]
  obtain ⟨h1, h2, h3⟩ := fold_max l q hq hl
  refine ⟨?_, ?_⟩
  · rcases h3 with e | e
    · rw [e]; exact List.mem_cons_self
    · exact List.mem_cons_of_mem _ e
  · intro p hp
    rcases List.mem_cons.1 hp with e | e
    · subst e; exact h1
    · exact h2 p e

theorem MainPgm.fold_min (l : List ℚ) : ∀ m : ℚ, 0 < m → (∀ p ∈ l, 0 < p) →
    l.foldl (fun m p => if m = 0 ∨ p < m then p else m) m ≤ m ∧
    (∀ p ∈ l, l.foldl (fun m p => if m = 0 ∨ p < m then p else m) m ≤ p) ∧
    (l.foldl (fun m p => if m = 0 ∨ p < m then p else m) m = m ∨
      l.foldl (fun m p => if m = 0 ∨ p < m then p else m) m ∈ l) := by
  induction l with
  | nil => intro m _ _; simp
  | cons q l ih =>
    intro m hm hl
    rw [List.foldl_cons]
    have hl' : ∀ p ∈ l, 0 < p := fun p hp => hl p (List.mem_cons_of_mem _ hp)
    by_cases h : q < m
    · rw [if_pos (Or.inr h)]
      obtain ⟨h1, h2, h3⟩ := ih q (hl q List.mem_cons_self) hl'
      refine ⟨le_trans h1 (le_of_lt h), ?_, Or.inr ?_⟩
      · intro p hp
        rcases List.mem_cons.1 hp with e | e
        · subst e; exact h1
        · exact h2 p e
      · rcases h3 with e | e
        · rw [e]; exact List.mem_cons_self
        · exact List.mem_cons_of_mem _ e
    · rw [if_neg (by rintro (e | e); exact absurd e (ne_of_gt hm); exact h e)]
      obtain ⟨h1, h2, h3⟩ := ih m hm hl'
      refine ⟨h1, ?_, ?_⟩
      · intro p hp
        rcases List.mem_cons.1 hp with e | e
        · subst e; exact le_trans h1 (not_lt.1 h)
        · exact h2 p e
      · rcases h3 with e | e
        · exact Or.inl e
        · exact Or.inr (List.mem_cons_of_mem _ e)

/-- The least throughput is the least one, if all are positive. -/
theorem C79_min_partial (l : List ℚ) (h0 : l ≠ []) (hl : ∀ p ∈ l, 0 < p) :
    minPps l ∈ l ∧ ∀ p ∈ l, minPps l ≤ p := by
  cases l with
  | nil => exact absurd rfl h0
  | cons q l =>
    unfold minPps
    rw [List.foldl_cons, if_pos (Or.inl rfl)]
    obtain ⟨h1, h2, h3⟩ := fold_min l q (hl q List.mem_cons_self) (fun p hp => hl p (List.mem_cons_of_mem _ hp))
    refine ⟨?_, ?_⟩
    · rcases h3 with e | e
      · rw [e]; exact List.mem_cons_self
      · exact List.mem_cons_of_mem _ e
    · intro p hp
      rcases List.mem_cons.1 hp with e | e
      · subst e; exact h1
      · exact h2 p e

/-- A throughput of 0 is forgotten when the next one comes. -/
theorem C79_min_zero_wrong (p : ℚ) (h : 0 < p) : minPps [0, p] = p ∧ ¬ (∀ q ∈ [0, p], minPps [0, p] ≤ q) := by
  have e : minPps [0, p] = p := by simp [minPps]
  refine ⟨e, fun hh => ?_⟩
  have := hh 0 (by simp)
  rw [e] at this
  exact absurd this (not_le.2 h)

/-! ## Examples -/

namespace MainExample

/-- Two ranks that measure different times, with calibration and validation. -/
def two (i : Fin 2) : RankIn := ⟨⟨true, true, true, 3, 0, 10⟩, fun n => if i = 0 then 1 / (n + 2) else 1 / 7, 4⟩

/-- The same with a given number of steps. -/
def given (i : Fin 2) : RankIn := ⟨⟨true, true, true, 3, 5, 10⟩, (two i).time, 4⟩

/-- One number per rank; each step adds the rank's number to that of its neighbor, and 1. -/
def adder : Machine 2 Int where
  init := fun i _ => i.val + 1
  fresh := fun _ => 0
  tune := fun s i => s i * 1000
  run := fun f l s i => s i + s (1 - i) * (l - f + 1) + 1
  runRef := fun f l s i => s i + s (1 - i) * (l - f + 1) + (if i = 0 then 1 else 2)
  mism := fun _ a b => if a = b then 0 else 1

example : Same two ∧ Checked two ∧ Same given ∧ Checked given ∧ Overwrites adder :=
  ⟨⟨fun _ _ => rfl, fun _ _ => rfl, fun _ _ => rfl, fun _ _ => rfl⟩, ⟨fun _ _ => rfl, fun _ _ => rfl, fun _ _ => rfl⟩,
    ⟨fun _ _ => rfl, fun _ _ => rfl, fun _ _ => rfl, fun _ _ => rfl⟩, ⟨fun _ _ => rfl, fun _ _ => rfl, fun _ _ => rfl⟩,
    fun _ _ _ => rfl⟩

/-- Some execution gets to the end, so that the theorems about ends speak of something. -/
example : ∃ m e, Run adder m (start given (fun _ => 77) (fun _ => 78)) e ∧ Done e := by
  obtain ⟨N, d, hd, h⟩ := C79_ends_partial (M := adder) (by decide) given
    ⟨fun _ _ => rfl, fun _ _ => rfl, fun _ _ => rfl, fun _ _ => rfl⟩ (fun _ => 77) (fun _ => 78)
  obtain ⟨l, _, hl⟩ := h 0 _ (.nil _)
  exact ⟨l, d, hl, hd⟩

/-- Rank 0 says PASSED and rank 1 FAILED. -/
example (m : Nat) (e : Job 2 Int) (he : Run adder m (start given (fun _ => 77) (fun _ => 78)) e) (hd : Done e) :
    (e 0).prog = .stop true ∧ (e 1).prog = .stop false := by
  have h := C79_validates (M := adder) (by decide) given
    ⟨fun _ _ => rfl, fun _ _ => rfl, fun _ _ => rfl, fun _ _ => rfl⟩ ⟨fun _ _ => rfl, fun _ _ => rfl, fun _ _ => rfl⟩
    (fun _ _ _ => rfl) _ _ m e he hd (fun i => ⟨rfl, (by decide : (1 : Int) ≤ 3), (by decide : (1 : Int) ≤ 5)⟩)
  obtain ⟨a, a1, _, a3⟩ := h 0
  obtain ⟨b, b1, _, b3⟩ := h 1
  have ha : a = true := a3.2 (by decide)
  have hb : ¬ b = true := fun hh => absurd (b3.1 hh) (by decide)
  rw [a1, b1, ha, Bool.eq_false_iff.2 hb]
  exact ⟨rfl, rfl⟩

/-- A disagreement about the number of trials. -/
example : ¬ Checked (fun i : Fin 2 => (⟨⟨true, true, true, i.val + 1, 0, 10⟩, fun _ => 1, 4⟩ : RankIn)) := by
  intro h
  have := h.numTrials 0 1
  revert this
  decide

example : best [3, 1, 2] = some 1 ∧ mid [3, 1, 2] = some 2 ∧ mid [4, 3, 1, 2] = some 3 := by
  decide +kernel

end MainExample

end Yask
