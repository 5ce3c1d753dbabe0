import Verif.Sched.ScratchRefLemmas
import Verif.Props.Sched

/-!
# Property C69: scratch vars stand for their equations
-/

namespace Yask
open Spec RunCfg

section
variable {Buf SVar Val : Type*} {X : Scr Buf SVar Val} {c : RunCfg}

/-- C69: whatever scratch vars contain at first, in every legal configuration and for every interleaving of the threads, a run with scratch vars
leaves in the vars what a run of the stencil with substituted scratch vars leaves. Missing: what C01 misses. -/
theorem C69_substitution_partial (h : c.Ok) (hrem : c.tbSteps = 0 ∨ c.NoShortRemainder) (hs : X.Supplied c) {S : Stencil c Buf Val} (hi : X.Inlined S)
    {first last : Int} {tr : List STask} (ht : X.runSolution c first last tr) (s : Scr.Mem Buf SVar Val) :
    ∃ tr', c.runSolution first last tr' ∧ (X.exec tr s).vars = S.sem.exec tr' s.vars := by
  obtain ⟨h1, h2, h3, h4⟩ := Scr.run_facts h hrem hs ht
  exact ⟨_, h4, Scr.exec_inlined hs hi (stepDir_cases first last) h.halo_nonneg h1 h2 h3 s⟩

/-- C69: `run_ref` with scratch vars, likewise. -/
theorem C69_reference (h : c.Ok) (hs : X.Supplied c) {S : Stencil c Buf Val} (hi : X.Inlined S) {first last : Int} {tr : List STask}
    (ht : X.runRef c first last tr) (s : Scr.Mem Buf SVar Val) : (X.exec tr s).vars = S.sem.exec (c.runRef first last) s.vars := by
  obtain ⟨h1, h2, h3, h4⟩ := Scr.ref_facts hs ht
  rw [Scr.exec_inlined hs hi (stepDir_cases first last) h.halo_nonneg h1 h2 h3 s]
  exact exec_refTraces h S h4 s.vars

/-- C69: with scratch vars, `run_solution` on one rank leaves the same values as `run_ref`, whatever scratch vars contain at first. -/
theorem C69_run_equals_reference_partial (h : c.Ok) (hsr : c.SingleRank) (hrem : c.tbSteps = 0 ∨ c.NoShortRemainder) (hs : X.Supplied c)
    {S : Stencil c Buf Val} (hi : X.Inlined S) {first last : Int} {tr tr' : List STask} (ht : X.runSolution c first last tr)
    (ht' : X.runRef c first last tr') {s s' : Scr.Mem Buf SVar Val} (hv : s.vars = s'.vars) : (X.exec tr s).vars = (X.exec tr' s').vars := by
  obtain ⟨tr1, h1, h2⟩ := C69_substitution_partial h hrem hs hi ht s
  rw [h2, C69_reference h hs hi ht' s', C01_run_equals_reference_partial c h hsr hrem S first last tr1 h1, hv]

/-- There are executions. -/
theorem C69_executions_exist (h : c.Ok) (first last : Int) : (∃ tr, X.runSolution c first last tr) ∧ ∃ tr, X.runRef c first last tr := by
  have hp : ∀ {ι : Type} (l : List ι) (g : ι → STask), ∃ t, doPar (l.map fun y => doOne (g y)) t := fun l g => ⟨_, doPar_list g l⟩
  have hi : ∀ t st bx it, ∃ tr, X.evItem c t st bx it tr := by
    rintro t st bx (k | p)
    · exact hp _ _
    · exact hp _ _
  constructor
  · refine exists_runSolution h.nd_le (fun t st bx => ?_) first last
    refine doSeq_exists _ fun L hL => ?_
    rcases List.mem_cons.1 hL with rfl | hL
    · exact ⟨_, rfl⟩
    · obtain ⟨it, -, rfl⟩ := List.mem_map.1 hL
      exact hi _ _ _ _
  · refine doSeq_exists _ fun L hL => ?_
    obtain ⟨i, -, rfl⟩ := List.mem_map.1 hL
    refine doSeq_exists _ fun L hL => ?_
    obtain ⟨st, -, rfl⟩ := List.mem_map.1 hL
    refine doSeq_exists _ fun L hL => ?_
    obtain ⟨p, -, rfl⟩ := List.mem_map.1 hL
    show ∃ t, X.refPart c _ st p t
    unfold ScrCfg.refPart
    split
    · refine doSeq_exists _ fun L hL => ?_
      rcases List.mem_append.1 hL with hL | hL
      · rcases List.mem_cons.1 hL with rfl | hL
        · exact ⟨_, rfl⟩
        · obtain ⟨k, -, rfl⟩ := List.mem_map.1 hL
          split
          · exact hp _ _
          · exact ⟨_, rfl⟩
      · rw [List.mem_singleton.1 hL]
        exact hi _ _ _ _
    · exact ⟨_, rfl⟩

end

/-! ### An example with a scratch var that is read by another scratch var -/

/-- `a(x) = u(t,x)` if `x >= 0` and `a(x) = 7` if `x < 0` (scratch parts 0 and 1), `b(x) = a(x-1) + a(x+1)` (scratch part 2),
`u(t+1,x) = b(x-1) - b(x+1)`, two steps of `u` stored. Scratch var `false` is `a`, `true` is `b`. -/
def exScr : Scr Bool Bool Int where
  children _ _ := [0, 1, 2]
  empty _ _ := false
  wl k _ := if k < 2 then 2 else 1
  wr k _ := if k < 2 then 2 else 1
  sdom k y := match k with | 0 => decide (0 ≤ y.getD 0 0) | 1 => decide (y.getD 0 0 < 0) | 2 => true | _ => false
  sstep _ _ := true
  outs k v := if v then k = 2 else k < 2
  sreadsB k t y _ β q := k = 0 ∧ β = decide (t % 2 = 0) ∧ q = y
  sreadsS k t y _ w z := k = 2 ∧ w = false ∧ (z = [y.getD 0 0 - 1] ∨ z = [y.getD 0 0 + 1])
  sval k t y m f _ := match k with | 0 => m (decide (t % 2 = 0), y) | 1 => 7 | 2 => f (false, [y.getD 0 0 - 1]) + f (false, [y.getD 0 0 + 1]) | _ => 0
  sval_local := by
    intro k t y m m' f f' v h1 h2
    match k with
    | 0 => exact h1 _ _ ⟨rfl, rfl, rfl⟩
    | 1 => rfl
    | 2 => exact congrArg₂ (· + ·) (h2 _ _ ⟨rfl, rfl, Or.inl rfl⟩) (h2 _ _ ⟨rfl, rfl, Or.inr rfl⟩)
    | _ + 3 => rfl
  writes a β := a.part = 0 ∧ β = decide ((a.step + 1) % 2 = 0)
  readsB _ _ _ := False
  readsS a v y := v = true ∧ (y = [a.pt.getD 0 0 - 1] ∨ y = [a.pt.getD 0 0 + 1])
  value a _ f _ := f (true, [a.pt.getD 0 0 - 1]) - f (true, [a.pt.getD 0 0 + 1])

/-- 40 points; mega-blocks of 20, blocks of 10 and micro-blocks of 5 points, wave-fronts of 2 steps. -/
def exScrG : RunCfg := demoCfg 1 (demoDim 1 2 40 20 10 5) 1 2 0

/-- The value of `a`. -/
def exScrA (m : Bool × List Int → Int) (t i : Int) : Int := if 0 ≤ i then m (decide (t % 2 = 0), [i]) else 7

/-- The equation with substituted scratch vars: `u(t+1,x) = (a(x-2) + a(x)) - (a(x) + a(x+2))`. -/
def exScrS : Stencil exScrG Bool Int where
  writes a β := a.part = 0 ∧ β = decide ((a.step + 1) % 2 = 0)
  reads a β q := a.pt.length = 1 ∧ β = decide (a.step % 2 = 0) ∧ (q = [a.pt.getD 0 0 - 2] ∨ q = [a.pt.getD 0 0] ∨ q = [a.pt.getD 0 0 + 2])
  value a m _ := if a.pt.length = 1 then (exScrA m a.step (a.pt.getD 0 0 - 2) + exScrA m a.step (a.pt.getD 0 0)) -
    (exScrA m a.step (a.pt.getD 0 0) + exScrA m a.step (a.pt.getD 0 0 + 2)) else 0
  reads_near := by
    rintro a β q ⟨-, -, hq⟩ j hj
    obtain rfl : j = 0 := by have : j < 1 := hj; omega
    show q.getD 0 0 - a.pt.getD 0 0 ≤ 2 ∧ a.pt.getD 0 0 - q.getD 0 0 ≤ 2
    rcases hq with rfl | rfl | rfl <;> simp
  value_local := by
    intro a m m' β h
    split
    · rename_i hl
      have hA : ∀ i, ([i] = [a.pt.getD 0 0 - 2] ∨ [i] = [a.pt.getD 0 0] ∨ [i] = [a.pt.getD 0 0 + 2]) → exScrA m a.step i = exScrA m' a.step i := by
        intro i hi
        unfold exScrA
        rw [h _ _ ⟨hl, rfl, hi⟩]
      rw [hA _ (Or.inl rfl), hA _ (Or.inr (Or.inl rfl)), hA _ (Or.inr (Or.inr rfl))]
    · rfl
  indep := by
    rintro a b hne hst hsg β ⟨hp, rfl⟩
    refine ⟨?_, ?_⟩
    · rintro ⟨-, h, -⟩
      rw [hst] at h
      simp only [decide_eq_decide] at h
      omega
    · rintro ⟨⟨hp', -⟩, hpt⟩
      refine hne ?_
      cases a
      cases b
      simp only at hp hp' hst hsg hpt
      rw [hp, hp', hst, hsg, hpt]

theorem exScr_needs {a : Task} {v : Bool} {y : List Int} (h : exScr.Needs a v y) :
    (v = true ∧ (y = [a.pt.getD 0 0 - 1] ∨ y = [a.pt.getD 0 0 + 1])) ∨
    (v = false ∧ (y = [a.pt.getD 0 0 - 2] ∨ y = [a.pt.getD 0 0] ∨ y = [a.pt.getD 0 0 + 2])) := by
  induction h with
  | direct h => exact Or.inl h
  | @through v y k w z _ hk hr ih =>
    obtain ⟨rfl, rfl, hz⟩ := hr
    refine Or.inr ⟨rfl, ?_⟩
    rcases ih with ⟨-, hy⟩ | ⟨rfl, -⟩
    · rcases hy with rfl | rfl <;> rcases hz with rfl | rfl <;> simp only [List.getD_cons_zero]
      · left; congr 1; omega
      · right; left; congr 1; omega
      · right; left; congr 1; omega
      · right; right; congr 1; omega
    · have : 2 < 2 := hk.1
      omega

theorem exScr_defines {t : Int} {v : Bool} {y : List Int} {k : Nat} : exScr.Defines t v y k ↔
    (v = true ∧ k = 2) ∨ (v = false ∧ 0 ≤ y.getD 0 0 ∧ k = 0) ∨ (v = false ∧ y.getD 0 0 < 0 ∧ k = 1) := by
  constructor
  · rintro ⟨h1, h2, -⟩
    cases v with
    | true => exact Or.inl ⟨rfl, h1⟩
    | false =>
      have hk : k < 2 := h1
      match k, hk with
      | 0, _ => exact Or.inr (Or.inl ⟨rfl, of_decide_eq_true h2, rfl⟩)
      | 1, _ => exact Or.inr (Or.inr ⟨rfl, of_decide_eq_true h2, rfl⟩)
  · rintro (⟨rfl, rfl⟩ | ⟨rfl, h, rfl⟩ | ⟨rfl, h, rfl⟩)
    · exact ⟨rfl, rfl, rfl⟩
    · exact ⟨show 0 < 2 by decide, decide_eq_true h, rfl⟩
    · exact ⟨show 1 < 2 by decide, decide_eq_true h, rfl⟩

theorem exScr_supplied : exScr.Supplied exScrG where
  one a _ v y hn := by
    cases v with
    | true =>
      refine ⟨2, show 2 ∈ [0, 1, 2] by decide, exScr_defines.2 (Or.inl ⟨rfl, rfl⟩), fun k' h => ?_⟩
      rw [exScr_defines] at h
      simpa using h
    | false =>
      by_cases hy : 0 ≤ y.getD 0 0
      · refine ⟨0, show 0 ∈ [0, 1, 2] by decide, exScr_defines.2 (Or.inr (Or.inl ⟨rfl, hy, rfl⟩)), fun k' h => ?_⟩
        rw [exScr_defines] at h
        rcases h with ⟨h, _⟩ | ⟨_, _, h⟩ | ⟨_, h, _⟩
        · exact absurd h (by decide)
        · exact h
        · omega
      · refine ⟨1, show 1 ∈ [0, 1, 2] by decide, exScr_defines.2 (Or.inr (Or.inr ⟨rfl, by omega, rfl⟩)), fun k' h => ?_⟩
        rw [exScr_defines] at h
        rcases h with ⟨h, _⟩ | ⟨_, h, _⟩ | ⟨_, _, h⟩
        · exact absurd h (by decide)
        · omega
        · exact h
  near a _ v y k hn hk := by
    rw [exScr_defines] at hk
    have hw : (v = true ∧ k = 2) ∨ (v = false ∧ k < 2) := by
      rcases hk with h | ⟨h, _, rfl⟩ | ⟨h, _, rfl⟩
      · exact Or.inl h
      · exact Or.inr ⟨h, by decide⟩
      · exact Or.inr ⟨h, by decide⟩
    have key : y.length = 1 ∧ (k = 2 ∧ -1 ≤ y.getD 0 0 - a.pt.getD 0 0 ∧ y.getD 0 0 - a.pt.getD 0 0 ≤ 1 ∨
        k < 2 ∧ -2 ≤ y.getD 0 0 - a.pt.getD 0 0 ∧ y.getD 0 0 - a.pt.getD 0 0 ≤ 2) := by
      rcases exScr_needs hn with ⟨rfl, hy⟩ | ⟨rfl, hy⟩
      · have hk2 : k = 2 := by simpa using hw
        rcases hy with rfl | rfl <;> refine ⟨rfl, Or.inl ⟨hk2, ?_⟩⟩ <;> simp only [List.getD_cons_zero] <;> omega
      · have hk2 : k < 2 := by simpa using hw
        rcases hy with rfl | rfl | rfl <;> refine ⟨rfl, Or.inr ⟨hk2, ?_⟩⟩ <;> simp only [List.getD_cons_zero] <;> omega
    refine ⟨key.1, fun j hj => ?_⟩
    obtain rfl : j = 0 := by have : j < 1 := hj; omega
    show -(if k < 2 then 2 else 1) ≤ _ ∧ _ ≤ (if k < 2 then (2 : Int) else 1)
    rcases key.2 with ⟨rfl, h⟩ | ⟨hk2, h⟩
    · exact h
    · rw [if_pos hk2]
      exact h
  order st p l1 k l2 e t y v w z k' hv hr ho := by
    obtain ⟨rfl, rfl, -⟩ := hr
    have hk : k' < 2 := ho
    have e : [0, 1, 2] = l1 ++ 2 :: l2 := e
    match l1, e with
    | [], e => simp at e
    | [_], e => simp at e
    | [a, b], e =>
      simp only [List.cons_append, List.nil_append, List.cons.injEq] at e
      obtain ⟨rfl, rfl, -⟩ := e
      match k', hk with
      | 0, _ => simp
      | 1, _ => simp
    | a :: b :: d :: l, e =>
      have := congrArg List.length e
      simp at this
  empty _ _ h := absurd h Bool.false_ne_true

theorem exScr_inlined : exScr.Inlined exScrS where
  writes a _ β := Iff.rfl
  direct _ _ _ _ h := absurd h id
  through a ha v y k β q hn hk hr := by
    obtain ⟨rfl, rfl, rfl⟩ := hr
    have hl : a.pt.length = 1 := ha.2.2.2
    refine ⟨hl, rfl, ?_⟩
    rcases exScr_needs hn with ⟨rfl, hy⟩ | ⟨rfl, hy⟩
    · rw [exScr_defines] at hk
      simp at hk
    · exact hy
  value a ha β hw m f hf := by
    have hl : a.pt.length = 1 := ha.2.2.2
    have nb : ∀ y, (y = [a.pt.getD 0 0 - 1] ∨ y = [a.pt.getD 0 0 + 1]) → exScr.Needs a true y := fun y hy => .direct ⟨rfl, hy⟩
    have d2 : ∀ y, exScr.Defines a.step true y 2 := fun y => exScr_defines.2 (Or.inl ⟨rfl, rfl⟩)
    have hb : ∀ i, ([i] = [a.pt.getD 0 0 - 1] ∨ [i] = [a.pt.getD 0 0 + 1]) → f (true, [i]) = exScrA m a.step (i - 1) + exScrA m a.step (i + 1) := by
      intro i hi
      rw [hf true [i] 2 (nb _ hi) (d2 _)]
      have ha' : ∀ j, (j = i - 1 ∨ j = i + 1) → f (false, [j]) = exScrA m a.step j := by
        intro j hj
        have hn : exScr.Needs a false [j] := by
          refine .through (nb _ hi) (d2 _) ⟨rfl, rfl, ?_⟩
          rcases hj with rfl | rfl
          · exact Or.inl rfl
          · exact Or.inr rfl
        unfold exScrA
        split
        · rename_i h0
          exact hf false [j] 0 hn (exScr_defines.2 (Or.inr (Or.inl ⟨rfl, h0, rfl⟩)))
        · rename_i h0
          exact hf false [j] 1 hn (exScr_defines.2 (Or.inr (Or.inr ⟨rfl, by simpa using h0, rfl⟩)))
      show f (false, [i - 1]) + f (false, [i + 1]) = _
      rw [ha' _ (Or.inl rfl), ha' _ (Or.inr rfl)]
    show f (true, [a.pt.getD 0 0 - 1]) - f (true, [a.pt.getD 0 0 + 1]) = if a.pt.length = 1 then _ else _
    rw [if_pos hl, hb _ (Or.inl rfl), hb _ (Or.inr rfl)]
    have e1 : a.pt.getD 0 0 - 1 - 1 = a.pt.getD 0 0 - 2 := by omega
    have e2 : a.pt.getD 0 0 - 1 + 1 = a.pt.getD 0 0 := by omega
    have e3 : a.pt.getD 0 0 + 1 - 1 = a.pt.getD 0 0 := by omega
    have e4 : a.pt.getD 0 0 + 1 + 1 = a.pt.getD 0 0 + 2 := by omega
    rw [e1, e2, e3, e4]

theorem exScrG_ok : exScrG.Ok := demoCfg_ok 1 1 2 40 20 10 5 1 2 0 (by decide)

/-- Five steps: every run computes what the reference computes. -/
example (s s' : Scr.Mem Bool Bool Int) (hv : s.vars = s'.vars) (tr tr' : List STask) (ht : exScr.runSolution exScrG 0 4 tr) (ht' : exScr.runRef exScrG 0 4 tr') :
    (exScr.exec tr s).vars = (exScr.exec tr' s').vars :=
  C69_run_equals_reference_partial exScrG_ok (demoCfg_single 1 1 2 40 20 10 5 1 2 0) (Or.inl rfl) exScr_supplied exScr_inlined ht ht' hv

/-- The parts of a micro-block, in order. -/
example : exScr.items exScrG 0 3 = [.scr 0, .scr 1, .scr 2, .main 0] := by decide +kernel
/-- A micro-block of 5 points is expanded by 2 on both sides for `a`. -/
example : exScr.area 0 [(10, 15)] = [(8, 17)] := by decide +kernel
example : ∃ tr, exScr.runSolution exScrG 0 4 tr := (C69_executions_exist exScrG_ok 0 4).1

/-! ### Elements that no equation defines

`run_ref` sets scratch vars to 0 before they are written; `run_solution` does so only with option `-init_scratch_vars`. -/

/-- `a(x) = 7 if (false)`, `u(t+1,x) = a(x)`. -/
def exUndef : Scr Unit Unit Int where
  children _ _ := [0]
  empty _ _ := false
  wl _ _ := 0
  wr _ _ := 0
  sdom _ _ := false
  sstep _ _ := true
  outs _ _ := True
  sreadsB _ _ _ _ _ _ := False
  sreadsS _ _ _ _ _ _ := False
  sval _ _ _ _ _ _ := 7
  sval_local _ _ _ _ _ _ _ _ _ _ := rfl
  writes _ _ := True
  readsB _ _ _ := False
  readsS a _ y := y = a.pt
  value a _ f _ := f ((), a.pt)

theorem exUndef_exec (z : Int) (tr : List STask) (hs : ∀ x ∈ tr, ∀ t st bx k y, x ≠ .scr t st bx k y) (s : Scr.Mem Unit Unit Int)
    (hz : s.scratch = fun _ _ => z) (x : List Int) (hx : s.vars ((), x) = z ∨ ∃ bx a, STask.main bx a ∈ tr ∧ a.pt = x) :
    (exUndef.exec tr s).vars ((), x) = z := by
  induction tr generalizing s with
  | nil => exact hx.resolve_right (by rintro ⟨_, _, h, _⟩; exact absurd h List.not_mem_nil)
  | cons y tr ih =>
    have hs' : ∀ x ∈ tr, ∀ t st bx k y, x ≠ .scr t st bx k y := fun x hx => hs x (List.mem_cons_of_mem _ hx)
    show (exUndef.exec tr (exUndef.step s y)).vars ((), x) = z
    cases y with
    | start t st bx =>
      refine ih hs' s hz (hx.imp_right ?_)
      rintro ⟨bx, a, h, e⟩
      exact ⟨bx, a, (List.mem_cons.1 h).resolve_left (by simp), e⟩
    | scr t st bx k y => exact absurd rfl (hs _ List.mem_cons_self t st bx k y)
    | main bx b =>
      refine ih hs' _ hz ?_
      by_cases hb : x = b.pt
      · left
        simp only [Scr.step]
        rw [if_pos ⟨trivial, hb⟩]
        show s.scratch _ _ = z
        rw [hz]
      · rcases hx with hx | ⟨bx', a, h, e⟩
        · left
          simp only [Scr.step]
          rw [if_neg (fun h => hb h.2)]
          exact hx
        · rcases List.mem_cons.1 h with h | h
          · simp only [STask.main.injEq] at h
            exact absurd (e ▸ h.2 ▸ rfl) hb
          · exact Or.inr ⟨bx', a, h, e⟩

theorem exUndef_noscr {tr : List STask} (h : exUndef.runSolution exScrG 0 0 tr) : ∀ x ∈ tr, ∀ t st bx k y, x ≠ .scr t st bx k y := by
  refine always_runSolution (c := exScrG) (by decide) (Scr.mixes_all _) (fun t st bx _ => ?_) 0 0 tr h
  intro tr htr x hx t' st' bx' k y e
  subst e
  rw [Scr.evBox_pieces] at htr
  obtain ⟨o, -, u, hu, hxu⟩ := Scr.mem_doSeq _ _ _ htr _ hx
  rw [Scr.pieceOf_tasks t st bx o u hu] at hxu
  rcases o with _ | (k | p)
  · exact absurd hxu (by simp [Scr.pieceTasks])
  · obtain ⟨y, -, h, -⟩ := hxu
    exact absurd h Bool.false_ne_true
  · obtain ⟨y, -, -, h⟩ := hxu
    exact absurd h (by simp)

/-- The full claim is false where a scratch var is read at a point that no equation defines: the result of a run depends on what the scratch
vars happened to contain. -/
theorem C69_undefined_element_wrong : ∃ tr, exUndef.runSolution exScrG 0 0 tr ∧ ∀ z : Int,
    (exUndef.exec tr ⟨fun _ => 0, fun _ _ => z⟩).vars ((), [3]) = z := by
  obtain ⟨tr, ht⟩ := (C69_executions_exist (X := exUndef) exScrG_ok 0 0).1
  refine ⟨tr, ht, fun z => exUndef_exec z tr (exUndef_noscr ht) _ rfl _ (Or.inr ?_)⟩
  have hsup : exUndef.empty = fun _ _ => false := rfl
  have hb : ∀ t st bx, Becomes STask.mains (exUndef.evBox exScrG t st bx) (exScrG.evalBox t st bx) := by
    intro t st bx tr htr
    obtain ⟨u, v, hu, hv, rfl⟩ := htr
    rw [show u = _ from hu, List.flatMap_append]
    have := Scr.becomes_items (X := exUndef) (c := exScrG) (φ := STask.mains) (fun a => a) (fun _ _ _ _ _ => rfl) (fun _ _ => rfl) st t bx (exUndef.items exScrG st t) v hv
    have e : exUndef.items exScrG st t = [.scr 0, .main 0] := rfl
    rw [e] at this
    exact this
  have h3 : exScrG.runSolution 0 0 (tr.flatMap STask.mains) := becomes_runSolution STask.mains hb 0 0 tr ht
  obtain ⟨-, g2, -⟩ := good_runSolution (en := true) exScrG_ok (fun _ => Or.inl rfl) 0 0 _ h3
  have hm : (⟨0, 0, 0, [3]⟩ : Task) ∈ tr.flatMap STask.mains := by
    rw [g2]
    refine ⟨0, by decide, 0, by decide, rfl, by decide, by decide, rfl, by decide, rfl, ?_⟩
    intro j hj
    obtain rfl : j = 0 := by have : j < 1 := hj; omega
    decide +kernel
  obtain ⟨x, hx, hxm⟩ := List.mem_flatMap.1 hm
  cases x with
  | main bx a =>
    simp only [STask.mains, List.mem_singleton] at hxm
    exact ⟨bx, a, hx, by rw [← hxm]⟩
  | start _ _ _ => exact absurd hxm List.not_mem_nil
  | scr _ _ _ _ _ => exact absurd hxm List.not_mem_nil

end Yask
