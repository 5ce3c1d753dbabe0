import Verif.Kernel.MainModel
import Mathlib.Tactic.Linarith
import Mathlib.Tactic.SplitIfs

/-! # Lemmas about the utility `yask_kernel` -/

namespace Yask.MainPgm

variable {nr : Nat} {σ : Type} {M : Machine nr σ}

/-! ## All executions end like one that ends -/

theorem diamond {c a b : Job nr σ} (ha : Step M c a) (hb : Step M c b) :
    a = b ∨ ∃ e, Step M a e ∧ Step M b e := by
  cases ha with
  | own i x k hi hx =>
    cases hb with
    | own j y l hj hy =>
      by_cases hij : i = j
      · subst hij
        rw [hi] at hj
        cases hj
        exact Or.inl rfl
      · right
        have hji : ¬ j = i := fun h => hij h.symm
        refine ⟨_, Step.own _ j y l ?_ hy, ?_⟩
        · rw [Function.update_of_ne hji]; exact hj
        · have := Step.own (M := M) (Function.update c j ⟨(c j).log ++ [y], l (M.ownAns j y (c j).sol (c j).ref),
            M.ownSol j y (c j).sol, M.ownRef j y (c j).ref⟩) i x k
            (by rw [Function.update_of_ne hij]; exact hi) hx
          rw [Function.update_of_ne hij] at this
          rw [Function.update_of_ne hji, Function.update_comm hij]
          exact this
    | all as ks hn hp hc hg =>
      exfalso
      have h1 := hp i
      rw [hi] at h1
      cases h1
      rw [hc i] at hx
      cases hx
  | all as ks hn hp hc hg =>
    cases hb with
    | own j y l hj hy =>
      exfalso
      have h1 := hp j
      rw [hj] at h1
      cases h1
      rw [hc j] at hy
      cases hy
    | all as' ks' _ hp' _ _ =>
      left
      have h1 : as = as' ∧ ks = ks' := by
        constructor <;> funext i <;> (have h := (hp i).symm.trans (hp' i); injection h)
      rw [h1.1, h1.2]

theorem done_no_step {c d : Job nr σ} (hd : Done c) (h : Step M c d) : False := by
  cases h with
  | own i a k hi _ =>
    obtain ⟨ok, h⟩ := hd i
    rw [h] at hi; cases hi
  | all as ks hn hp _ _ =>
    obtain ⟨ok, h⟩ := hd ⟨0, hn⟩
    have := hp ⟨0, hn⟩
    rw [h] at this; cases this

theorem run_after_step : ∀ (n : Nat) {c d b : Job nr σ}, Run M n c d → Done d → Step M c b →
    ∃ m, n = m + 1 ∧ Run M m b d := by
  intro n
  induction n with
  | zero =>
    intro c d b hr hd hs
    cases hr
    exact (done_no_step hd hs).elim
  | succ n ih =>
    intro c d b hr hd hs
    cases hr with
    | cons h1 h2 =>
      rcases diamond h1 hs with h | ⟨e, h, h'⟩
      · subst h
        exact ⟨n, rfl, h2⟩
      · obtain ⟨m, hm, hr'⟩ := ih h2 hd h
        subst hm
        exact ⟨m + 1, rfl, Run.cons h' hr'⟩

theorem run_after_run : ∀ (m n : Nat) {c d e : Job nr σ}, Run M n c d → Done d → Run M m c e →
    ∃ l, n = m + l ∧ Run M l e d := by
  intro m
  induction m with
  | zero =>
    intro n c d e h hd he
    cases he
    exact ⟨n, (Nat.zero_add n).symm, h⟩
  | succ m ih =>
    intro n c d e h hd he
    cases he with
    | cons h1 h2 =>
      obtain ⟨n', hn', hr⟩ := run_after_step n h hd h1
      obtain ⟨l, hl, hr'⟩ := ih n' hr hd h2
      exact ⟨l, by omega, hr'⟩

/-! ## Composing steps -/

/-- Some number of steps. -/
def Steps (M : Machine nr σ) (c d : Job nr σ) : Prop := ∃ n, Run M n c d

theorem Steps.refl (c : Job nr σ) : Steps M c c := ⟨0, .nil c⟩

theorem Steps.one {c d : Job nr σ} (h : Step M c d) : Steps M c d := ⟨1, .cons h (.nil d)⟩

theorem Steps.trans {a b c : Job nr σ} (h : Steps M a b) (h' : Steps M b c) : Steps M a c := by
  obtain ⟨n, hn⟩ := h
  obtain ⟨m, hm⟩ := h'
  induction hn with
  | nil _ => exact ⟨m, hm⟩
  | cons h1 _ ih =>
    obtain ⟨k, hk⟩ := ih hm
    exact ⟨k + 1, .cons h1 hk⟩

/-- The job made of these parts. -/
def mk (L : Fin nr → List Act) (p : Fin nr → Prog) (s r : Fin nr → σ) : Job nr σ := fun i => ⟨L i, p i, s i, r i⟩

theorem steps_all (hn : 0 < nr) (L : Fin nr → List Act) (as : Fin nr → Act) (ks : Fin nr → Int → Prog)
    (s r : Fin nr → σ) (hc : ∀ i, (as i).coll = true) (hg : ∀ i j, (as i).goesWith (as j) = true) :
    Steps M (mk L (fun i => .act (as i) (ks i)) s r)
      (mk (fun i => L i ++ [as i]) (fun i => ks i (answer as i)) (fun i => M.allSol (as i) s i)
        (fun i => M.allRef (as i) r i)) :=
  Steps.one (Step.all (M := M) (mk L (fun i => .act (as i) (ks i)) s r) as ks hn (fun _ => rfl) hc hg)

theorem goesWith_self (a : Act) : a.goesWith a = true := by
  cases a <;> simp [Act.goesWith]

theorem steps_call (hn : 0 < nr) (L : Fin nr → List Act) (a : Act) (p : Fin nr → Prog)
    (s r : Fin nr → σ) (hc : a.coll = true) :
    Steps M (mk L (fun i => call a (p i)) s r)
      (mk (fun i => L i ++ [a]) p (M.allSol a s) (M.allRef a r)) :=
  steps_all hn L (fun _ => a) (fun i _ => p i) s r (fun _ => hc) (fun _ _ => goesWith_self a)

theorem steps_barrier (hn : 0 < nr) (L : Fin nr → List Act) (p : Fin nr → Prog) (s r : Fin nr → σ) :
    Steps M (mk L (fun i => call .barrier (p i)) s r) (mk (fun i => L i ++ [.barrier]) p s r) :=
  steps_call hn L .barrier p s r rfl

theorem steps_sum (hn : 0 < nr) (L : Fin nr → List Act) (z : Fin nr → Int) (ks : Fin nr → Int → Prog)
    (s r : Fin nr → σ) :
    Steps M (mk L (fun i => .act (.sum (z i)) (ks i)) s r)
      (mk (fun i => L i ++ [.sum (z i)]) (fun i => ks i ((List.finRange nr).map z).sum) s r) :=
  steps_all hn L (fun i => .sum (z i)) ks s r (fun _ => rfl) (fun _ _ => rfl)

theorem steps_agree (hn : 0 < nr) (L : Fin nr → List Act) (z : Fin nr → Int) (ks : Fin nr → Int → Prog)
    (s r : Fin nr → σ) :
    Steps M (mk L (fun i => .act (.agree (z i)) (ks i)) s r)
      (mk (fun i => L i ++ [.agree (z i)]) (fun i => ks i (if ∀ j, z j = z i then 1 else 0)) s r) :=
  steps_all hn L (fun i => .agree (z i)) ks s r (fun _ => rfl) (fun _ _ => rfl)

/-- Some ranks make a call of their own. -/
theorem steps_own_list (a : Act) (ha : a.coll = false) (L : Fin nr → List Act) (k : Fin nr → Int → Prog)
    (s r : Fin nr → σ) (p : Fin nr → Prog) : ∀ l : List (Fin nr), l.Nodup → (∀ i ∈ l, p i = .act a (k i)) →
    Steps M (mk L p s r)
      (mk (fun i => if i ∈ l then L i ++ [a] else L i)
        (fun i => if i ∈ l then k i (M.ownAns i a (s i) (r i)) else p i)
        (fun i => if i ∈ l then M.ownSol i a (s i) else s i)
        (fun i => if i ∈ l then M.ownRef i a (r i) else r i)) := by
  intro l
  induction l with
  | nil =>
    intro _ _
    simp only [List.not_mem_nil, if_false]
    exact Steps.refl _
  | cons j l ih =>
    intro hnd hp
    rw [List.nodup_cons] at hnd
    refine (ih hnd.2 fun i hi => hp i (List.mem_cons_of_mem _ hi)).trans ?_
    have h := Step.own (M := M)
      (mk (fun i => if i ∈ l then L i ++ [a] else L i)
        (fun i => if i ∈ l then k i (M.ownAns i a (s i) (r i)) else p i)
        (fun i => if i ∈ l then M.ownSol i a (s i) else s i)
        (fun i => if i ∈ l then M.ownRef i a (r i) else r i)) j a (k j)
      (by simp only [mk, if_neg hnd.1]; exact hp j List.mem_cons_self) ha
    refine Steps.one ?_
    convert h using 1
    funext i
    by_cases hij : i = j
    · subst hij
      simp [mk, hnd.1]
    · rw [Function.update_of_ne hij]
      simp [mk, hij]

theorem steps_own (L : Fin nr → List Act) (a : Act) (k : Fin nr → Int → Prog) (s r : Fin nr → σ)
    (ha : a.coll = false) :
    Steps M (mk L (fun i => .act a (k i)) s r)
      (mk (fun i => L i ++ [a]) (fun i => k i (M.ownAns i a (s i) (r i))) (fun i => M.ownSol i a (s i))
        (fun i => M.ownRef i a (r i))) := by
  have h := steps_own_list (M := M) a ha L k s r (fun i => .act a (k i)) (List.finRange nr)
    (List.nodup_finRange nr) (fun _ _ => rfl)
  simpa only [List.mem_finRange, if_true] using h

/-! ## The parts of `main` -/

/-- The runs among the calls. -/
def isRun : Act → Bool
  | .run _ _ => true
  | .runRef _ _ => true
  | _ => false

/-- The reports among the calls. -/
def isReport : Act → Bool
  | .report _ => true
  | _ => false

/-- All values are the same. -/
def AllEq {α : Type} (f : Fin nr → α) : Prop := ∀ i j, f i = f j

theorem agree_ans (z : Fin nr → Int) (h : AllEq z) (i : Fin nr) : (if ∀ j, z j = z i then (1 : Int) else 0) = 1 :=
  if_pos fun j => h j i

theorem agree_ans_no (z : Fin nr → Int) (h : ¬ AllEq z) (i : Fin nr) :
    ¬ (if ∀ j, z j = z i then (1 : Int) else 0) = 1 := by
  rw [if_neg]
  · decide
  · intro h1
    exact h fun a b => (h1 a).trans (h1 b).symm

/-- Nothing but agreements. -/
def OnlyAgree (l : List Act) : Prop := ∀ a ∈ l, ∃ z, a = .agree z

theorem steps_agreed (hn : 0 < nr) (L : Fin nr → List Act) (n t : Fin nr → Int) (v : Fin nr → Bool)
    (p : Fin nr → Prog) (s r : Fin nr → σ) (h1 : AllEq n) (h2 : AllEq t) (h3 : AllEq v) :
    ∃ P : Fin nr → List Act, (∀ i, OnlyAgree (P i)) ∧
      Steps M (mk L (fun i => agreed (n i) (t i) (v i) (p i)) s r) (mk (fun i => L i ++ P i) p s r) := by
  refine ⟨fun i => [.agree (n i), .agree (t i), .agree (if v i then 0 else 1)], ?_, ?_⟩
  · intro i a ha
    simp only [List.mem_cons, List.not_mem_nil, or_false] at ha
    rcases ha with h | h | h <;> exact ⟨_, h⟩
  · unfold agreed
    refine (steps_agree hn L n _ s r).trans ?_
    simp only [agree_ans n h1, if_true]
    refine (steps_agree hn _ t _ s r).trans ?_
    simp only [agree_ans t h2, if_true]
    refine (steps_agree hn _ (fun i => if v i then 0 else 1) _ s r).trans ?_
    have h3' : AllEq fun i => (if v i then (0 : Int) else 1) := fun i j => by
      show (if v i then (0 : Int) else 1) = if v j then 0 else 1
      rw [h3 i j]
    have : ∀ i, (if ∀ j, (if v j then (0 : Int) else 1) = if v i then 0 else 1 then (1 : Int) else 0) = 1 :=
      agree_ans _ h3'
    simp only [this, if_true, List.append_assoc]
    exact Steps.refl _

theorem steps_disagreed (hn : 0 < nr) (L : Fin nr → List Act) (n t : Fin nr → Int) (v : Fin nr → Bool)
    (p : Fin nr → Prog) (s r : Fin nr → σ) (h : ¬ (AllEq n ∧ AllEq t ∧ AllEq v)) :
    ∃ P : Fin nr → List Act, (∀ i, OnlyAgree (P i)) ∧
      Steps M (mk L (fun i => agreed (n i) (t i) (v i) (p i)) s r)
        (mk (fun i => L i ++ P i) (fun _ => .stop false) s r) := by
  unfold agreed
  have h0 := steps_agree (M := M) hn L n (fun i a => if a = 1 then
    .act (.agree (t i)) fun b => if b = 1 then
      .act (.agree (if v i then 0 else 1)) fun c => if c = 1 then p i else .stop false
    else .stop false
  else .stop false) s r
  by_cases h1 : AllEq n
  · simp only [agree_ans n h1, if_true] at h0
    have h0' := h0.trans (steps_agree hn _ t _ s r)
    by_cases h2 : AllEq t
    · simp only [agree_ans t h2, if_true] at h0'
      have h0'' := h0'.trans (steps_agree hn _ (fun i => if v i then 0 else 1) _ s r)
      have h3 : ¬ AllEq v := fun h3 => h ⟨h1, h2, h3⟩
      have h3' : ¬ AllEq fun i => (if v i then (0 : Int) else 1) := by
        intro hh
        refine h3 fun i j => ?_
        have : (if v i then (0 : Int) else 1) = if v j then 0 else 1 := hh i j
        cases hi : v i <;> cases hj : v j <;> simp [hi, hj] at this ⊢
      have : ∀ i, ¬ (if ∀ j, (if v j then (0 : Int) else 1) = if v i then 0 else 1 then (1 : Int) else 0) = 1 :=
        agree_ans_no _ h3'
      simp only [this, if_false, List.append_assoc] at h0''
      refine ⟨_, ?_, h0''⟩
      intro i a ha
      simp only [List.mem_append, List.mem_cons, List.not_mem_nil, or_false] at ha
      rcases ha with h | h | h <;> exact ⟨_, h⟩
    · simp only [agree_ans_no t h2, if_false, List.append_assoc] at h0'
      refine ⟨_, ?_, h0'⟩
      intro i a ha
      simp only [List.mem_append, List.mem_cons, List.not_mem_nil, or_false] at ha
      rcases ha with h | h <;> exact ⟨_, h⟩
  · simp only [agree_ans_no n h1, if_false] at h0
    refine ⟨_, ?_, h0⟩
    intro i a ha
    simp only [List.mem_cons, List.not_mem_nil, or_false] at ha
    exact ⟨_, ha⟩

theorem onlyAgree_runs {l : List Act} (h : OnlyAgree l) : l.filter isRun = [] := by
  rw [List.filter_eq_nil_iff]
  intro a ha
  obtain ⟨z, hz⟩ := h a ha
  subst hz; exact Bool.false_ne_true

theorem onlyAgree_reports {l : List Act} (h : OnlyAgree l) : l.filter isReport = [] := by
  rw [List.filter_eq_nil_iff]
  intro a ha
  obtain ⟨z, hz⟩ := h a ha
  subst hz; exact Bool.false_ne_true

/-- The runs of these numbers of steps. -/
def runsOf (ws : List Int) : List Act := ws.map fun w => .run 0 (w - 1)

/-- The warm-up leads all ranks to the same runs, whatever the times are. -/
theorem steps_warm (hn : 0 < nr) (x : Fin nr → RankIn) (k : Fin nr → ℚ → Prog)
    (ht : AllEq fun i => (x i).opts.trialSteps) :
    ∀ (m : Nat) (w maxw : Int) (rate : Fin nr → ℚ) (L : Fin nr → List Act) (s r : Fin nr → σ), 1 ≤ w →
    ∃ (ws : List Int) (rate' : Fin nr → ℚ) (P : Fin nr → List Act) (s' : Fin nr → σ),
      (∀ v ∈ ws, 1 ≤ v) ∧ ws.length ≤ m ∧ (∀ i, (P i).filter isRun = runsOf ws) ∧
      (∀ i, (P i).filter isReport = []) ∧
      Steps M (mk L (fun i => warmLoop (x i) nr (k i) m w maxw (rate i)) s r)
        (mk (fun i => L i ++ P i) (fun i => k i (rate' i)) s' r) := by
  intro m
  induction m with
  | zero =>
    intro w maxw rate L s r _
    refine ⟨[], rate, fun _ => [], s, by simp, le_refl _, fun _ => rfl, fun _ => rfl, ?_⟩
    simp only [List.append_nil]
    exact Steps.refl _
  | succ m ih =>
    intro w maxw rate L s r hw
    have hA : ∀ q : Fin nr → Prog, Steps M
        (mk L (fun i => call .barrier <| call (.run 0 (w - 1)) <| call .barrier (q i)) s r)
        (mk (fun i => L i ++ [.barrier, .run 0 (w - 1), .barrier]) q (M.run 0 (w - 1) s) r) := by
      intro q
      have h1 := (steps_barrier hn L (fun i => call (.run 0 (w - 1)) <| call .barrier (q i)) s r).trans
        (steps_call (M := M) hn _ (.run 0 (w - 1)) (fun i => call .barrier (q i)) s r rfl)
      have h2 := h1.trans (steps_barrier hn _ q _ _)
      simp only [List.append_assoc, List.cons_append, List.nil_append] at h2
      exact h2
    simp only [warmLoop]
    by_cases h0 : ∃ i, (x i).opts.trialSteps > 0
    · have h0' : ∀ i, (x i).opts.trialSteps > 0 := by
        obtain ⟨j, hj⟩ := h0
        intro i
        have h : (x i).opts.trialSteps = (x j).opts.trialSteps := ht i j
        omega
      simp only [h0', if_true]
      exact ⟨[w], _, fun _ => [.barrier, .run 0 (w - 1), .barrier], _, by simpa using hw, by simp,
        fun _ => rfl, fun _ => rfl, hA _⟩
    · have h0' : ∀ i, ¬ (x i).opts.trialSteps > 0 := fun i h => h0 ⟨i, h⟩
      simp only [h0', if_false]
      have h3 := (hA _).trans (steps_sum (M := M) hn (fun i => L i ++ [.barrier, .run 0 (w - 1), .barrier])
        (fun i => min ⌈(if (x i).time (2 - m) > 0 then (w : ℚ) / (x i).time (2 - m) else 0) *
            ((((2 - m : Nat) : ℚ) + 1) / 2)⌉ maxw)
        (fun i z => if ceilDiv z nr ≤ 1
          then k i (if (x i).time (2 - m) > 0 then (w : ℚ) / (x i).time (2 - m) else 0)
          else warmLoop (x i) nr (k i) m (ceilDiv z nr) (maxw * maxw)
            (if (x i).time (2 - m) > 0 then (w : ℚ) / (x i).time (2 - m) else 0)) _ _)
      generalize hz : ((List.finRange nr).map fun i =>
        min ⌈(if (x i).time (2 - m) > 0 then (w : ℚ) / (x i).time (2 - m) else 0) *
            ((((2 - m : Nat) : ℚ) + 1) / 2)⌉ maxw).sum = z at h3
      by_cases h1 : ceilDiv z nr ≤ 1
      · simp only [h1, if_true, List.append_assoc] at h3
        exact ⟨[w], _, _, _, by simpa using hw, by simp, fun _ => rfl, fun _ => rfl, h3⟩
      · simp only [h1, if_false] at h3
        obtain ⟨ws, rate', P, s', g1, g2, g3, g4, g5⟩ := ih (ceilDiv z nr) (maxw * maxw)
          (fun i => if (x i).time (2 - m) > 0 then (w : ℚ) / (x i).time (2 - m) else 0) _ _ r (by omega)
        have h4 := h3.trans g5
        simp only [List.append_assoc] at h4
        refine ⟨w :: ws, rate', _, s', ?_, ?_, ?_, ?_, h4⟩
        · intro v hv
          rcases List.mem_cons.1 hv with h | h
          · omega
          · exact g1 v h
        · simpa using g2
        · intro i
          rw [List.filter_append, List.filter_append, g3 i]
          rfl
        · intro i
          rw [List.filter_append, List.filter_append, g4 i]
          rfl

/-- The number of steps is the same on all ranks. -/
theorem steps_final (hn : 0 < nr) (x : Fin nr → RankIn) (k : Fin nr → Int → Prog)
    (ht : AllEq fun i => (x i).opts.trialSteps) (hb : AllEq fun i => (x i).bt)
    (rate : Fin nr → ℚ) (L : Fin nr → List Act) (s r : Fin nr → σ) :
    ∃ (S : Int) (P : Fin nr → List Act), (∀ i, (x i).opts.trialSteps > 0 → S = (x i).opts.trialSteps) ∧
      (∀ i, (P i).filter isRun = []) ∧ (∀ i, (P i).filter isReport = []) ∧
      Steps M (mk L (fun i => finalSteps (x i) nr (k i) (rate i)) s r)
        (mk (fun i => L i ++ P i) (fun i => k i S) s r) := by
  unfold finalSteps
  by_cases h0 : ∃ i, (x i).opts.trialSteps > 0
  · obtain ⟨j, hj⟩ := h0
    have hE : ∀ i, (x i).opts.trialSteps = (x j).opts.trialSteps := fun i => ht i j
    refine ⟨(x j).opts.trialSteps, fun _ => [], fun i _ => (hE i).symm, fun _ => rfl, fun _ => rfl, ?_⟩
    simp only [hE, hj, if_true, List.append_nil]
    exact Steps.refl _
  · have h0' : ∀ i, ¬ (x i).opts.trialSteps > 0 := fun i h => h0 ⟨i, h⟩
    simp only [h0', if_false]
    have h := steps_sum (M := M) hn L (fun i => ⌈rate i * (x i).opts.trialTime⌉)
      (fun i z => k i (Options.toInt32 (if (x i).bt > 1 ∧ roundUp (ceilDiv z nr) (x i).bt ≤
        (6 * ceilDiv z nr).tdiv 5 then roundUp (ceilDiv z nr) (x i).bt else ceilDiv z nr))) s r
    have hE : ∀ i, (x i).bt = (x ⟨0, hn⟩).bt := fun i => hb i _
    simp only [hE] at h ⊢
    refine ⟨_, _, fun i hi => hi.elim, fun _ => rfl, fun _ => rfl, h⟩

/-- The data after the initialization of all ranks. -/
def initAll (M : Machine nr σ) (s : Fin nr → σ) : Fin nr → σ := fun i => M.init i (s i)

theorem steps_init (L : Fin nr → List Act) (p : Fin nr → Prog) (s r : Fin nr → σ) :
    Steps M (mk L (fun i => call .init <| call .toDevice (p i)) s r)
      (mk (fun i => L i ++ [.init, .toDevice]) p (initAll M s) r) := by
  have h := (steps_own (M := M) L .init (fun i _ => call .toDevice (p i)) s r rfl).trans
    (steps_own (M := M) _ .toDevice (fun i _ => p i) _ _ rfl)
  simp only [List.append_assoc, List.cons_append, List.nil_append] at h
  exact h

/-- The trials. -/
theorem steps_trials (hn : 0 < nr) (v : Bool) (S : Int) : ∀ (n : Nat) (L : Fin nr → List Act)
    (p : Fin nr → Prog) (s r : Fin nr → σ),
    ∃ (P : List Act) (s' : Fin nr → σ), P.filter isRun = List.replicate n (.run 0 (S - 1)) ∧
      P.filter isReport = [] ∧
      (0 < n → v = true → ∃ s0, s' = M.run 0 (S - 1) (initAll M s0)) ∧ (n = 0 → s' = s) ∧
      Steps M (mk L (fun i => trials v S n (p i)) s r) (mk (fun i => L i ++ P) p s' r) := by
  intro n
  induction n with
  | zero =>
    intro L p s r
    refine ⟨[], s, rfl, rfl, fun h => absurd h (lt_irrefl 0), fun _ => rfl, ?_⟩
    simp only [List.append_nil]
    exact Steps.refl _
  | succ n ih =>
    intro L p s r
    have hA : ∀ (L : Fin nr → List Act) (q : Fin nr → Prog) (s : Fin nr → σ), Steps M
        (mk L (fun i => call .barrier <| call (.run 0 (S - 1)) <| call .barrier (q i)) s r)
        (mk (fun i => L i ++ [.barrier, .run 0 (S - 1), .barrier]) q (M.run 0 (S - 1) s) r) := by
      intro L q s
      have h1 := (steps_barrier hn L (fun i => call (.run 0 (S - 1)) <| call .barrier (q i)) s r).trans
        (steps_call (M := M) hn _ (.run 0 (S - 1)) (fun i => call .barrier (q i)) s r rfl)
      have h2 := h1.trans (steps_barrier hn _ q _ _)
      simp only [List.append_assoc, List.cons_append, List.nil_append] at h2
      exact h2
    simp only [trials, trial]
    cases v with
    | false =>
      have h1 := hA L (fun i => trials false S n (p i)) s
      obtain ⟨P, s', g1, g2, g3, g0, g4⟩ := ih (fun i => L i ++ [.barrier, .run 0 (S - 1), .barrier]) p
        (M.run 0 (S - 1) s) r
      have h2 := h1.trans g4
      simp only [List.append_assoc] at h2
      refine ⟨[.barrier, .run 0 (S - 1), .barrier] ++ P, s', ?_, ?_, fun _ h => (Bool.noConfusion h),
        fun h => absurd h (Nat.succ_ne_zero n), by simpa using h2⟩
      · rw [List.filter_append, g1]; rfl
      · rw [List.filter_append, g2]; rfl
    | true =>
      have h1 := (steps_init L (fun i => call .barrier <| call (.run 0 (S - 1)) <| call .barrier
        (trials true S n (p i))) s r).trans (hA _ (fun i => trials true S n (p i)) (initAll M s))
      obtain ⟨P, s', g1, g2, g3, g0, g4⟩ := ih (fun i => (L i ++ [.init, .toDevice]) ++
        [.barrier, .run 0 (S - 1), .barrier]) p (M.run 0 (S - 1) (initAll M s)) r
      have h2 := h1.trans g4
      simp only [List.append_assoc] at h2
      refine ⟨[.init, .toDevice] ++ ([.barrier, .run 0 (S - 1), .barrier] ++ P), s', ?_, ?_, ?_,
        fun h => absurd h (Nat.succ_ne_zero n), by simpa using h2⟩
      · rw [List.filter_append, List.filter_append, g1]; rfl
      · rw [List.filter_append, List.filter_append, g2]; rfl
      · intro _ _
        cases n with
        | zero =>
          exact ⟨s, g0 rfl⟩
        | succ n => exact g3 (Nat.succ_pos n) rfl

/-- The messages of the ranks, in turn. -/
theorem steps_reports (hn : 0 < nr) (ok : Fin nr → Bool) (p : Fin nr → Prog) (s r : Fin nr → σ) :
    ∀ (l : List Nat) (L : Fin nr → List Act), l.Nodup → (∀ n ∈ l, n < nr) →
    ∃ P : Fin nr → List Act, (∀ i, (P i).filter isRun = []) ∧
      (∀ i, (P i).filter isReport = if i.val ∈ l then [.report (ok i)] else []) ∧
      Steps M (mk L (fun i => reports i (ok i) l (p i)) s r) (mk (fun i => L i ++ P i) p s r) := by
  intro l
  induction l with
  | nil =>
    intro L _ _
    refine ⟨fun _ => [], fun _ => rfl, fun _ => by simp, ?_⟩
    simp only [List.append_nil]
    exact Steps.refl _
  | cons n l ih =>
    intro L hnd hl
    rw [List.nodup_cons] at hnd
    simp only [reports]
    have h1 := steps_barrier (M := M) hn L (fun i => if n = i.val then call (.report (ok i))
      (reports i (ok i) l (p i)) else reports i (ok i) l (p i)) s r
    have hlt : n < nr := hl n List.mem_cons_self
    have h2 := steps_own_list (M := M) (.report (ok ⟨n, hlt⟩)) rfl (fun i => L i ++ [.barrier])
      (fun i _ => reports i (ok i) l (p i)) s r
      (fun i => if n = i.val then call (.report (ok i)) (reports i (ok i) l (p i)) else reports i (ok i) l (p i))
      [⟨n, hlt⟩] (by simp) (by
        intro i hi
        rw [List.mem_singleton] at hi
        subst hi
        simp [call])
    have h3 : Steps M (mk (fun i => L i ++ [.barrier]) (fun i => if n = i.val then call (.report (ok i))
        (reports i (ok i) l (p i)) else reports i (ok i) l (p i)) s r)
        (mk (fun i => L i ++ (.barrier :: if n = i.val then [.report (ok i)] else []))
          (fun i => reports i (ok i) l (p i)) s r) := by
      convert h2 using 1
      funext i
      by_cases hi : i = ⟨n, hlt⟩
      · subst hi
        simp [mk, Machine.ownSol, Machine.ownRef]
      · have : ¬ n = i.val := fun h => hi (Fin.ext h.symm)
        simp [mk, hi, this]
    obtain ⟨P, g1, g2, g3⟩ := ih (fun i => L i ++ (.barrier :: if n = i.val then [.report (ok i)] else []))
      hnd.2 (fun m hm => hl m (List.mem_cons_of_mem _ hm))
    have h4 := (h1.trans h3).trans g3
    simp only [List.append_assoc] at h4
    refine ⟨_, ?_, ?_, h4⟩
    · intro i
      rw [List.filter_append, g1 i]
      by_cases h : n = i.val <;> simp [h, isRun]
    · intro i
      rw [List.filter_append, g2 i]
      by_cases h : n = i.val
      · subst h
        simp [hnd.1, isReport]
      · have h' : ¬ i.val = n := fun h' => h h'.symm
        simp [h, h', isReport]

/-- The validation. -/
theorem steps_validation (hn : 0 < nr) (x : Fin nr → RankIn) (S : Int)
    (h1 : AllEq fun i => (x i).opts.numTrials) (h3 : AllEq fun i => (x i).opts.validate)
    (L : Fin nr → List Act) (s r : Fin nr → σ) :
    ∃ (P : Fin nr → List Act) (r' : Fin nr → σ), (∀ i, (P i).filter isRun = [.runRef 0 (S - 1)]) ∧
      r' = M.runRef 0 (S - 1) (initAll M M.fresh) ∧
      (∀ i, (P i).filter isReport = [.report (decide (M.mism i (s i) (r' i) = 0))]) ∧
      Steps M (mk L (fun i => validation nr i (x i) S) s r)
        (mk (fun i => L i ++ P i) (fun i => .stop (decide (M.mism i (s i) (r' i) = 0))) s r') := by
  unfold validation finish
  have a1 := steps_barrier (M := M) hn L (fun i => call .newRef <|
    agreed (x i).opts.numTrials S (x i).opts.validate <|
    call .prepareRef <| call .initRef <| call (.runRef 0 (S - 1)) <| .act .compare fun errs =>
      reports i (decide (errs = 0)) (List.range nr) <| call .barrier <| call .barrier <|
        call .barrier (.stop (decide (errs = 0)))) s r
  have a2 := a1.trans (steps_own (M := M) _ .newRef (fun i _ =>
    agreed (x i).opts.numTrials S (x i).opts.validate <|
    call .prepareRef <| call .initRef <| call (.runRef 0 (S - 1)) <| .act .compare fun errs =>
      reports i (decide (errs = 0)) (List.range nr) <| call .barrier <| call .barrier <|
        call .barrier (.stop (decide (errs = 0)))) s r rfl)
  obtain ⟨P1, p1, a3⟩ := steps_agreed (M := M) hn (fun i => (L i ++ [.barrier]) ++ [.newRef])
    (fun i => (x i).opts.numTrials) (fun _ => S) (fun i => (x i).opts.validate)
    (fun i => call .prepareRef <| call .initRef <| call (.runRef 0 (S - 1)) <| .act .compare fun errs =>
      reports i (decide (errs = 0)) (List.range nr) <| call .barrier <| call .barrier <|
        call .barrier (.stop (decide (errs = 0)))) s M.fresh h1 (fun _ _ => rfl) h3
  have a4 := (a2.trans a3).trans (steps_call (M := M) hn _ .prepareRef _ _ _ rfl)
  have a5 := a4.trans (steps_own (M := M) _ .initRef (fun i _ => call (.runRef 0 (S - 1)) <|
      .act .compare fun errs =>
      reports i (decide (errs = 0)) (List.range nr) <| call .barrier <| call .barrier <|
        call .barrier (.stop (decide (errs = 0)))) _ _ rfl)
  have a6 := a5.trans (steps_call (M := M) hn _ (.runRef 0 (S - 1)) _ _ _ rfl)
  have a7 := a6.trans (steps_own (M := M) _ .compare (fun i errs =>
      reports i (decide (errs = 0)) (List.range nr) <| call .barrier <| call .barrier <|
        call .barrier (.stop (decide (errs = 0)))) _ _ rfl)
  have a7' : Steps M (mk L (fun i => call .barrier <| call .newRef <|
    agreed (x i).opts.numTrials S (x i).opts.validate <|
    call .prepareRef <| call .initRef <| call (.runRef 0 (S - 1)) <| .act .compare fun errs =>
      reports i (decide (errs = 0)) (List.range nr) <| call .barrier <| call .barrier <|
        call .barrier (.stop (decide (errs = 0)))) s r)
      (mk (fun i => L i ++ ([.barrier, .newRef] ++ P1 i ++ [.prepareRef, .initRef, .runRef 0 (S - 1), .compare]))
        (fun i => reports i (decide (M.mism i (s i) (M.runRef 0 (S - 1) (initAll M M.fresh) i) = 0))
          (List.range nr) <| call .barrier <| call .barrier <| call .barrier
            (.stop (decide (M.mism i (s i) (M.runRef 0 (S - 1) (initAll M M.fresh) i) = 0))))
        s (M.runRef 0 (S - 1) (initAll M M.fresh))) := by
    simp only [List.append_assoc, List.cons_append, List.nil_append] at a7 ⊢
    exact a7
  obtain ⟨P2, q1, q2, a8⟩ := steps_reports (M := M) hn
    (fun i => decide (M.mism i (s i) (M.runRef 0 (S - 1) (initAll M M.fresh) i) = 0))
    (fun i => call .barrier <| call .barrier <| call .barrier
      (.stop (decide (M.mism i (s i) (M.runRef 0 (S - 1) (initAll M M.fresh) i) = 0))))
    s (M.runRef 0 (S - 1) (initAll M M.fresh)) (List.range nr)
    (fun i => L i ++ ([.barrier, .newRef] ++ P1 i ++ [.prepareRef, .initRef, .runRef 0 (S - 1), .compare]))
    List.nodup_range (fun n hn => List.mem_range.1 hn)
  have a9 := (((a7'.trans a8).trans (steps_barrier (M := M) hn _ _ _ _)).trans
    (steps_barrier (M := M) hn _ _ _ _)).trans (steps_barrier (M := M) hn _ _ _ _)
  simp only [List.append_assoc] at a9
  refine ⟨_, _, ?_, rfl, ?_, a9⟩
  · intro i
    simp only [List.filter_append, onlyAgree_runs (p1 i), q1 i]
    rfl
  · intro i
    simp only [List.filter_append, onlyAgree_reports (p1 i), q2 i, List.mem_range, i.isLt, if_true]
    rfl

/-- Options that the ranks must have in common although this is not checked. -/
structure Same (x : Fin nr → RankIn) : Prop where
  warmup : AllEq fun i => (x i).opts.doWarmup
  tune : AllEq fun i => (x i).opts.preTune
  time : AllEq fun i => decide ((x i).opts.trialTime > 0)
  block : AllEq fun i => (x i).bt

/-- Options that are checked to be the same on all ranks. -/
structure Checked (x : Fin nr → RankIn) : Prop where
  numTrials : AllEq fun i => (x i).opts.numTrials
  trialSteps : AllEq fun i => (x i).opts.trialSteps
  validate : AllEq fun i => (x i).opts.validate

/-- Everything after the warm-up. -/
theorem steps_perform (hn : 0 < nr) (x : Fin nr → RankIn) (S : Int) (hc : Checked x)
    (L : Fin nr → List Act) (s r : Fin nr → σ) :
    ∃ (P : Fin nr → List Act) (ok : Fin nr → Bool) (s' r' : Fin nr → σ),
      Steps M (mk L (fun i => perform nr i (x i) S) s r) (mk (fun i => L i ++ P i) (fun i => .stop (ok i)) s' r') ∧
      (∀ i, (x i).opts.numTrials < 1 ∨ S ≤ 0 → ok i = false ∧ (P i).filter isRun = [] ∧
        (P i).filter isReport = []) ∧
      (∀ i, 1 ≤ (x i).opts.numTrials → 0 < S →
        (P i).filter isRun = List.replicate (x i).opts.numTrials.toNat (.run 0 (S - 1)) ++
          (if (x i).opts.validate then [.runRef 0 (S - 1)] else []) ∧
        (P i).filter isReport = (if (x i).opts.validate then [.report (ok i)] else []) ∧
        ((x i).opts.validate = false → ok i = true) ∧
        ((x i).opts.validate = true → ∃ s0, ok i = decide (M.mism i (M.run 0 (S - 1) (initAll M s0) i)
          (M.runRef 0 (S - 1) (initAll M M.fresh) i) = 0))) := by
  have eN : ∀ i, (x i).opts.numTrials = (x ⟨0, hn⟩).opts.numTrials := fun i => hc.numTrials i _
  have eV : ∀ i, (x i).opts.validate = (x ⟨0, hn⟩).opts.validate := fun i => hc.validate i _
  unfold perform
  simp only [eN, eV]
  generalize hN : (x ⟨0, hn⟩).opts.numTrials = N
  generalize hV : (x ⟨0, hn⟩).opts.validate = V
  have b1 := steps_barrier (M := M) hn L (fun i => if N < 1 then .stop false
    else if S ≤ 0 then .stop false
    else trials V S N.toNat <| if V = true then validation nr i (x i) S else finish true) s r
  by_cases hz : N < 1 ∨ S ≤ 0
  · have : ∀ i : Fin nr, (if N < 1 then Prog.stop false
      else if S ≤ 0 then .stop false
      else trials V S N.toNat <| if V = true then validation nr i (x i) S else finish true) = .stop false := by
      intro i
      rcases hz with h | h
      · rw [if_pos h]
      · by_cases h' : N < 1
        · rw [if_pos h']
        · rw [if_neg h', if_pos h]
    simp only [this] at b1 ⊢
    refine ⟨_, _, _, _, b1, fun i _ => ⟨rfl, rfl, rfl⟩, ?_⟩
    intro i h1 h2
    omega
  · have h1 : ¬ N < 1 := fun h => hz (Or.inl h)
    have h2 : ¬ S ≤ 0 := fun h => hz (Or.inr h)
    simp only [h1, h2, if_false] at b1 ⊢
    obtain ⟨P, s', g1, g2, g3, _, g4⟩ := steps_trials (M := M) hn V S N.toNat (fun i => L i ++ [.barrier])
      (fun i => if V = true then validation nr i (x i) S else finish true) s r
    have b2 := b1.trans g4
    cases V with
    | false =>
      simp only [Bool.false_eq_true, if_false, finish] at b2 ⊢
      have b3 := b2.trans (steps_barrier (M := M) hn _ _ _ _)
      simp only [List.append_assoc] at b3
      refine ⟨_, fun _ => true, _, _, b3, fun i h => (h.elim id id).elim, ?_⟩
      intro i _ _
      refine ⟨?_, ?_, fun _ => rfl, fun h => by cases h⟩
      · simp only [List.filter_append, g1]
        simp [isRun]
      · simp only [List.filter_append, g2]
        rfl
    | true =>
      simp only [if_true] at b2 ⊢
      obtain ⟨P2, r', q1, q2, q3, q4⟩ := steps_validation (M := M) hn x S hc.numTrials hc.validate
        (fun i => L i ++ [.barrier] ++ P) s' r
      have b3 := b2.trans q4
      simp only [List.append_assoc] at b3
      refine ⟨_, _, _, _, b3, fun i h => (h.elim id id).elim, ?_⟩
      intro i _ _
      obtain ⟨s0, hs0⟩ := g3 (by omega) rfl
      refine ⟨?_, ?_, fun h => (by simp at h), fun _ => ⟨s0, ?_⟩⟩
      · simp only [List.filter_append, g1, q1 i]
        rfl
      · simp only [List.filter_append, g2, q3 i]
        rfl
      · rw [q2, hs0]

/-- The whole utility. -/
theorem steps_main (hn : 0 < nr) (x : Fin nr → RankIn) (hs : Same x) (s r : Fin nr → σ) :
    ∃ d : Job nr σ, Steps M (start x s r) d ∧ Done d ∧
      (¬ Checked x → ∀ i, (d i).prog = .stop false ∧ (d i).log.filter isRun = []) ∧
      (Checked x → ∃ (S : Int) (ws : List Int), (∀ w ∈ ws, 1 ≤ w) ∧ ws.length ≤ 3 ∧
        (∀ i, warms (x i).opts = false → ws = []) ∧
        (∀ i, 0 < (x i).opts.trialSteps → S = (x i).opts.trialSteps) ∧ ∀ i,
        ((x i).opts.numTrials < 1 ∨ S ≤ 0 → (d i).prog = .stop false ∧ (d i).log.filter isRun = runsOf ws ∧
          (d i).log.filter isReport = []) ∧
        (1 ≤ (x i).opts.numTrials → 0 < S →
          (d i).log.filter isRun = runsOf ws ++ (List.replicate (x i).opts.numTrials.toNat (.run 0 (S - 1)) ++
            (if (x i).opts.validate then [.runRef 0 (S - 1)] else [])) ∧
          ((x i).opts.validate = false → (d i).prog = .stop true ∧ (d i).log.filter isReport = []) ∧
          ((x i).opts.validate = true → ∃ s0 ok, (d i).prog = .stop ok ∧
            (d i).log.filter isReport = [.report ok] ∧
            ok = decide (M.mism i (M.run 0 (S - 1) (initAll M s0) i)
              (M.runRef 0 (S - 1) (initAll M M.fresh) i) = 0)))) := by
  have hstart : start x s r = mk (fun _ => []) (fun i => main nr i (x i)) s r := rfl
  have b1 := steps_barrier (M := M) hn (fun _ : Fin nr => []) (fun i =>
    agreed (x i).opts.numTrials (x i).opts.trialSteps (x i).opts.validate <|
    call .prepare <| call .init <| call .toDevice <|
      let rest :=
        if warms (x i).opts then warmLoop (x i) nr (finalSteps (x i) nr (perform nr i (x i))) 3 1 10 1
        else perform nr i (x i) (x i).opts.trialSteps
      if (x i).opts.preTune then call .tune rest else rest) s r
  rw [hstart]
  by_cases hc : Checked x
  · obtain ⟨P1, p1, b2⟩ := steps_agreed (M := M) hn (fun _ => [] ++ [.barrier])
      (fun i => (x i).opts.numTrials) (fun i => (x i).opts.trialSteps) (fun i => (x i).opts.validate)
      (fun i => call .prepare <| call .init <| call .toDevice <|
      let rest :=
        if warms (x i).opts then warmLoop (x i) nr (finalSteps (x i) nr (perform nr i (x i))) 3 1 10 1
        else perform nr i (x i) (x i).opts.trialSteps
      if (x i).opts.preTune then call .tune rest else rest) s r hc.numTrials hc.trialSteps hc.validate
    have b3 := ((b1.trans b2).trans (steps_call (M := M) hn _ .prepare _ _ _ rfl)).trans
      (steps_init _ _ _ _)
    -- the optional tuner
    have eT : ∀ i, (x i).opts.preTune = (x ⟨0, hn⟩).opts.preTune := fun i => hs.tune i _
    simp only [eT] at b3
    have b4 : ∃ (P2 : Fin nr → List Act) (s1 : Fin nr → σ), (∀ i, (P2 i).filter isRun = []) ∧
        (∀ i, (P2 i).filter isReport = []) ∧
        Steps M (mk (fun _ => []) (fun i => main nr i (x i)) s r) (mk P2 (fun i =>
          if warms (x i).opts then warmLoop (x i) nr (finalSteps (x i) nr (perform nr i (x i))) 3 1 10 1
          else perform nr i (x i) (x i).opts.trialSteps) s1 r) := by
      unfold main
      simp only [eT]
      cases hT : (x ⟨0, hn⟩).opts.preTune with
      | false =>
        simp only [hT, Bool.false_eq_true, if_false] at b3 ⊢
        refine ⟨_, _, ?_, ?_, b3⟩
        · intro i
          simp only [List.filter_append, onlyAgree_runs (p1 i)]
          rfl
        · intro i
          simp only [List.filter_append, onlyAgree_reports (p1 i)]
          rfl
      | true =>
        simp only [hT, if_true] at b3 ⊢
        have b5 := b3.trans (steps_call (M := M) hn _ .tune _ _ _ rfl)
        refine ⟨_, _, ?_, ?_, b5⟩
        · intro i
          simp only [List.filter_append, onlyAgree_runs (p1 i)]
          rfl
        · intro i
          simp only [List.filter_append, onlyAgree_reports (p1 i)]
          rfl
    obtain ⟨P2, s1, p21, p22, b5⟩ := b4
    -- the warm-up
    have eW : ∀ i, warms (x i).opts = warms (x ⟨0, hn⟩).opts := by
      intro i
      have e1 : (x i).opts.doWarmup = (x ⟨0, hn⟩).opts.doWarmup := hs.warmup i _
      have e2 : (x i).opts.trialSteps = (x ⟨0, hn⟩).opts.trialSteps := hc.trialSteps i _
      have e3 : decide ((x i).opts.trialTime > 0) = decide ((x ⟨0, hn⟩).opts.trialTime > 0) := hs.time i _
      unfold warms
      rw [e1, e2, e3]
    have eS : ∀ i, (x i).opts.trialSteps = (x ⟨0, hn⟩).opts.trialSteps := fun i => hc.trialSteps i _
    simp only [eW] at b5
    have b6 : ∃ (S : Int) (ws : List Int) (P3 : Fin nr → List Act) (s2 : Fin nr → σ), (∀ w ∈ ws, 1 ≤ w) ∧
        ws.length ≤ 3 ∧ (∀ i, warms (x i).opts = false → ws = []) ∧
        (∀ i, 0 < (x i).opts.trialSteps → S = (x i).opts.trialSteps) ∧
        (∀ i, (P3 i).filter isRun = runsOf ws) ∧ (∀ i, (P3 i).filter isReport = []) ∧
        Steps M (mk (fun _ => []) (fun i => main nr i (x i)) s r)
          (mk P3 (fun i => perform nr i (x i) S) s2 r) := by
      cases hW : warms (x ⟨0, hn⟩).opts with
      | false =>
        simp only [hW, Bool.false_eq_true, if_false, eS] at b5
        exact ⟨_, [], _, _, by simp, by simp, fun _ _ => rfl, fun i _ => (eS i).symm, p21, p22, b5⟩
      | true =>
        simp only [hW, if_true] at b5
        obtain ⟨ws, rate', P3, s2, g1, g2, g3, g4, g5⟩ := steps_warm (M := M) hn x
          (fun i => finalSteps (x i) nr (perform nr i (x i))) hc.trialSteps 3 1 10 (fun _ => 1) P2 s1 r (le_refl 1)
        obtain ⟨S, P4, k1, k2, k3, k4⟩ := steps_final (M := M) hn x (fun i => perform nr i (x i)) hc.trialSteps
          hs.block rate' (fun i => P2 i ++ P3 i) s2 r
        refine ⟨S, ws, _, s2, g1, g2, ?_, k1, ?_, ?_, (b5.trans g5).trans k4⟩
        · intro i h
          rw [eW i, hW] at h
          cases h
        · intro i
          simp only [List.filter_append, p21 i, g3 i, k2 i, List.nil_append, List.append_nil]
        · intro i
          simp only [List.filter_append, p22 i, g4 i, k3 i, List.nil_append]
    obtain ⟨S, ws, P3, s2, w1, w2, w3, w4, w5, w6, b7⟩ := b6
    obtain ⟨P5, ok, s3, r3, b8, z1, z2⟩ := steps_perform (M := M) hn x S hc P3 s2 r
    refine ⟨_, b7.trans b8, fun i => ⟨ok i, rfl⟩, fun h => absurd hc h, fun _ =>
      ⟨S, ws, w1, w2, w3, w4, fun i => ⟨?_, ?_⟩⟩⟩
    · intro h
      obtain ⟨y1, y2, y3⟩ := z1 i h
      refine ⟨?_, ?_, ?_⟩
      · simp only [mk, y1]
      · simp only [mk, List.filter_append, w5 i, y2, List.append_nil]
      · simp only [mk, List.filter_append, w6 i, y3, List.append_nil]
    · intro h1 h2
      obtain ⟨y1, y2, y3, y4⟩ := z2 i h1 h2
      refine ⟨?_, ?_, ?_⟩
      · simp only [mk, List.filter_append, w5 i, y1]
      · intro hv
        refine ⟨?_, ?_⟩
        · simp only [mk, y3 hv]
        · simp only [mk, List.filter_append, w6 i, y2, hv]
          rfl
      · intro hv
        obtain ⟨s0, hok⟩ := y4 hv
        refine ⟨s0, ok i, rfl, ?_, hok⟩
        simp only [mk, List.filter_append, w6 i, y2, hv]
        rfl
  · obtain ⟨P1, p1, b2⟩ := steps_disagreed (M := M) hn (fun _ => [] ++ [.barrier])
      (fun i => (x i).opts.numTrials) (fun i => (x i).opts.trialSteps) (fun i => (x i).opts.validate)
      (fun i => call .prepare <| call .init <| call .toDevice <|
      let rest :=
        if warms (x i).opts then warmLoop (x i) nr (finalSteps (x i) nr (perform nr i (x i))) 3 1 10 1
        else perform nr i (x i) (x i).opts.trialSteps
      if (x i).opts.preTune then call .tune rest else rest) s r
      (fun h => hc ⟨h.1, h.2.1, h.2.2⟩)
    refine ⟨_, b1.trans b2, fun i => ⟨false, rfl⟩, fun _ i => ⟨rfl, ?_⟩, fun h => absurd h hc⟩
    simp only [mk, List.filter_append, onlyAgree_runs (p1 i)]
    rfl

end Yask.MainPgm
