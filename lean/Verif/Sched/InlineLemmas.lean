import Verif.Sched.InlineSpec
import Verif.Sched.TraceLemmas
import Verif.Sched.ScanLemmas

/-! Helper lemmas: scratch vars in traces in which tasks come in a suitable order. -/

namespace Yask
open Spec RunCfg

/-- The part tasks of a trace. -/
def STask.mains : STask → List Task
  | .main _ a => [a]
  | _ => []

namespace Scr
variable {Buf SVar Val : Type*} (X : Scr Buf SVar Val) (c : RunCfg)

/-- What must have been done in the same micro-block before a task. -/
inductive Prereq : STask → STask → Prop
  | mainStart {bx a} : Prereq (.main bx a) (.start a.step a.stage bx)
  | mainScr {bx a k y} : k ∈ X.children a.stage a.part → X.sstep k a.step = true → y ∈ boxPoints (X.area k bx) → X.sdom k y = true →
      Prereq (.main bx a) (.scr a.step a.stage bx k y)
  | scrStart {t st bx k y} : Prereq (.scr t st bx k y) (.start t st bx)
  | scrScr {t st bx k y v w z k'} : X.outs k v → X.sreadsS k t y v w z → X.outs k' w → X.sstep k' t = true → z ∈ boxPoints (X.area k' bx) → X.sdom k' z = true →
      Prereq (.scr t st bx k y) (.scr t st bx k' z)

/-- Every task comes after what must have been done before. -/
def Closed (tr : List STask) : Prop := ∀ u x w, tr = u ++ x :: w → ∀ z, X.Prereq x z → z ∈ u

/-- Part tasks are active and in their boxes; scratch tasks are in the steps and the domains of their parts. -/
def Regular (x : STask) : Prop := match x with
  | .start _ _ _ => True
  | .scr t _ _ k y => X.sdom k y = true ∧ X.sstep k t = true
  | .main bx a => c.Active a ∧ bx.length = c.nd ∧ a.pt ∈ boxPoints bx

/-- Between the start of a micro-block and a task of it there is no task that must come before or after it. -/
def Quiet (dir : Int) (tr : List STask) : Prop :=
  ∀ u1 u2 u3 u4 bx a bx' b, tr = u1 ++ .start a.step a.stage bx :: u2 ++ .main bx' b :: u3 ++ .main bx a :: u4 →
    b ≠ a ∧ ¬ c.MustPrecede dir b a ∧ ¬ c.MustPrecede dir a b

variable {X c}

theorem needs_area (hs : X.Supplied c) {a : Task} (ha : c.Active a) {bx : Box} (hb : bx.length = c.nd) (hp : a.pt ∈ boxPoints bx) {v : SVar} {y : List Int}
    {k : Nat} (hn : X.Needs a v y) (hk : X.Defines a.step v y k) : y ∈ boxPoints (X.area k bx) := by
  obtain ⟨hl, hj⟩ := hs.near a ha v y k hn hk
  have hbx : bx = (List.range c.nd).map fun j => bx.getD j (0, 0) := by
    refine List.ext_getElem (by simp [hb]) fun i h1 h2 => ?_
    simp [List.getD_eq_getElem?_getD, List.getElem?_eq_getElem h1]
  rw [hbx, mem_boxPoints_range] at hp
  unfold ScrCfg.area
  rw [hb, mem_boxPoints_range]
  refine ⟨hl, fun j hjn => ?_⟩
  have h1 := hj j hjn
  have h2 := hp.2 j hjn
  unfold InIvl at_ at h2 ⊢
  simp only at h2 ⊢
  omega

theorem step_lt_cases {dir : Int} (hdir : dir = 1 ∨ dir = -1) (a b : Task) :
    (a.step = b.step ∧ a.stage = b.stage) ∨ a.Before dir b ∨ b.Before dir a := by
  unfold Task.Before
  rcases hdir with rfl | rfl <;> omega

/-- Substitution: if tasks come in a suitable order, the vars get the values of the stencil in which scratch vars are substituted. -/
theorem exec_inlined (hs : X.Supplied c) {S : Stencil c Buf Val} (hi : X.Inlined S) {dir : Int} (hdir : dir = 1 ∨ dir = -1) (hh : ∀ j < c.nd, 0 ≤ (c.dim j).maxHalo)
    {tr : List STask} (hc : X.Closed tr) (hr : ∀ x ∈ tr, X.Regular c x) (hq : Quiet c dir tr) (s : Mem Buf SVar Val) :
    (X.exec tr s).vars = S.sem.exec (tr.flatMap STask.mains) s.vars := by
  -- invariant after each prefix
  suffices h : ∀ w u, tr = u ++ w →
      ((X.exec u s).vars = S.sem.exec (u.flatMap STask.mains) s.vars ∧
        ∀ bx a, STask.main bx a ∈ w → ∀ v y k, X.Needs a v y → X.Defines a.step v y k → STask.scr a.step a.stage bx k y ∈ u →
          (X.exec u s).scratch (a.step, a.stage, bx) (v, y) =
            X.sval k a.step y (X.exec u s).vars ((X.exec u s).scratch (a.step, a.stage, bx)) v) →
      (X.exec tr s).vars = S.sem.exec (tr.flatMap STask.mains) s.vars by
    exact h tr [] rfl ⟨rfl, fun _ _ _ _ _ _ _ _ hm => absurd hm List.not_mem_nil⟩
  intro w
  induction w with
  | nil =>
    intro u hu h
    rw [List.append_nil] at hu
    subst hu
    exact h.1
  | cons x w ih =>
    rintro u hu ⟨h1, h2⟩
    have hsub : ∀ z ∈ u, z ∈ tr := fun z hz => hu ▸ List.mem_append_left _ hz
    have hpre : ∀ z ∈ u, ∀ z', X.Prereq z z' → z' ∈ u := by
      intro z hz z' hp
      obtain ⟨u1, u2, rfl⟩ := List.append_of_mem hz
      refine List.mem_append_left _ (hc u1 z (u2 ++ x :: w) ?_ z' hp)
      rw [hu]; simp
    have hx : ∀ z', X.Prereq x z' → z' ∈ u := fun z' hp => hc u x w hu z' hp
    refine ih (u ++ [x]) (by rw [hu]; simp) ?_
    have hex : X.exec (u ++ [x]) s = X.step (X.exec u s) x := by simp [exec]
    rw [hex]
    set s1 := X.exec u s with hs1
    match x, hu, hx with
    | .start t st bx, hu, hx =>
      refine ⟨by simpa [STask.mains, step] using h1, ?_⟩
      intro bx' a ha v y k hn hk hm
      rw [List.mem_append, List.mem_singleton] at hm
      exact h2 bx' a (List.mem_cons_of_mem _ ha) v y k hn hk (hm.resolve_right (by simp))
    | .scr t st bx k' y', hu, hx =>
      refine ⟨by simpa [STask.mains, step] using h1, ?_⟩
      intro bx' a ha v y k hn hk hm
      have hreg' : X.sdom k' y' = true ∧ X.sstep k' t = true := hr (.scr t st bx k' y') (hu ▸ by simp)
      have hrega : X.Regular c (.main bx' a) := hr _ (hu ▸ by simp [ha])
      obtain ⟨haa, hbl, hap⟩ := hrega
      by_cases hM : ((a.step, a.stage, bx') : Int × Nat × Box) = (t, st, bx)
      · simp only [Prod.mk.injEq] at hM
        obtain ⟨hM1, hM2, hM3⟩ := hM
        subst hM1 hM2 hM3
        -- an element that the new task writes has been written before, or it is the first time
        have hsame : ∀ w z, X.Needs a w z → STask.scr a.step a.stage bx' k y ∈ u ∨ (k = k' ∧ y = y') → X.sreadsS k a.step y v w z →
            (X.step s1 (.scr a.step a.stage bx' k' y')).scratch (a.step, a.stage, bx') (w, z) = s1.scratch (a.step, a.stage, bx') (w, z) := by
          intro w' z hnw hcase hrd
          simp only [step]
          split
          · rename_i hc1
            obtain ⟨-, ho, hz⟩ := hc1
            subst hz
            have hdef : X.Defines a.step w' z k' := ⟨ho, hreg'.1, hreg'.2⟩
            have hin : STask.scr a.step a.stage bx' k' z ∈ u := by
              have harea := needs_area hs haa hbl hap hnw hdef
              rcases hcase with hcase | ⟨rfl, rfl⟩
              · exact hpre _ hcase _ (.scrScr hk.1 hrd ho hreg'.2 harea hreg'.1)
              · exact hx _ (.scrScr hk.1 hrd ho hreg'.2 harea hreg'.1)
            exact (h2 bx' a (List.mem_cons_of_mem _ ha) w' z k' hnw hdef hin).symm
          · rfl
        by_cases hkk : k = k' ∧ y = y'
        · obtain ⟨rfl, rfl⟩ := hkk
          have e1 : (X.step s1 (.scr a.step a.stage bx' k y)).scratch (a.step, a.stage, bx') (v, y) =
              X.sval k a.step y s1.vars (s1.scratch (a.step, a.stage, bx')) v := by
            simp only [step]
            rw [if_pos ⟨rfl, hk.1, rfl⟩]
          rw [e1]
          refine X.sval_local _ _ _ _ _ _ _ _ (fun _ _ _ => rfl) fun w' z hrd => ?_
          exact (hsame w' z (.through hn hk hrd) (Or.inr ⟨rfl, rfl⟩) hrd).symm
        · have hmu : STask.scr a.step a.stage bx' k y ∈ u := by
            rw [List.mem_append, List.mem_singleton] at hm
            rcases hm with hm | hm
            · exact hm
            · simp only [STask.scr.injEq] at hm
              exact absurd ⟨hm.2.2.2.1, hm.2.2.2.2⟩ hkk
          have e1 : (X.step s1 (.scr a.step a.stage bx' k' y')).scratch (a.step, a.stage, bx') (v, y) = s1.scratch (a.step, a.stage, bx') (v, y) := by
            simp only [step]
            rw [if_neg]
            rintro ⟨-, ho, hy⟩
            obtain ⟨k0, -, -, hu0⟩ := hs.one a haa v y hn
            have hk' : X.Defines a.step v y k' := ⟨ho, hy ▸ hreg'.1, hreg'.2⟩
            exact hkk ⟨(hu0 k hk).trans (hu0 k' hk').symm, hy⟩
          rw [e1, h2 bx' a (List.mem_cons_of_mem _ ha) v y k hn hk hmu]
          refine X.sval_local _ _ _ _ _ _ _ _ (fun _ _ _ => rfl) fun w' z hrd => ?_
          exact (hsame w' z (.through hn hk hrd) (Or.inl hmu) hrd).symm
      · have e1 : (X.step s1 (.scr t st bx k' y')).scratch (a.step, a.stage, bx') = s1.scratch (a.step, a.stage, bx') := by
          funext l
          simp only [step]
          rw [if_neg (fun h => hM h.1)]
        rw [e1]
        refine h2 bx' a (List.mem_cons_of_mem _ ha) v y k hn hk ?_
        rw [List.mem_append, List.mem_singleton] at hm
        refine hm.resolve_right fun h => hM ?_
        simp only [STask.scr.injEq] at h
        rw [h.1, h.2.1, h.2.2.1]
    | .main bx b, hu, hx =>
      have hregb : X.Regular c (.main bx b) := hr _ (hu ▸ by simp)
      obtain ⟨hba, hbl, hbp⟩ := hregb
      have hvars : (X.step s1 (.main bx b)).vars = S.sem.run b s1.vars := by
        funext l
        simp only [step, Stencil.sem]
        by_cases hw : X.writes b l.1 ∧ l.2 = b.pt
        · rw [if_pos hw, if_pos ⟨(hi.writes b hba l.1).2 hw.1, hw.2⟩]
          refine hi.value b hba l.1 hw.1 _ _ fun v y k hn hk => ?_
          refine h2 bx b List.mem_cons_self v y k hn hk (hx _ ?_)
          obtain ⟨k0, hk0, -, hu0⟩ := hs.one b hba v y hn
          obtain rfl := hu0 k hk
          exact .mainScr hk0 hk.2.2 (needs_area hs hba hbl hbp hn hk) hk.2.1
        · rw [if_neg hw, if_neg (fun h => hw ⟨(hi.writes b hba l.1).1 h.1, h.2⟩)]
      refine ⟨?_, ?_⟩
      · rw [hvars, h1, List.flatMap_append, exec_append]
        rfl
      · intro bx' a ha v y k hn hk hm
        have hmu : STask.scr a.step a.stage bx' k y ∈ u := by
          rw [List.mem_append, List.mem_singleton] at hm
          exact hm.resolve_right (by simp)
        have hrega : X.Regular c (.main bx' a) := hr _ (hu ▸ by simp [ha])
        have haa := hrega.1
        have hst : STask.start a.step a.stage bx' ∈ u := hpre _ hmu _ .scrStart
        show s1.scratch (a.step, a.stage, bx') (v, y) = X.sval k a.step y (X.step s1 (.main bx b)).vars (s1.scratch (a.step, a.stage, bx')) v
        rw [h2 bx' a (List.mem_cons_of_mem _ ha) v y k hn hk hmu, hvars]
        refine X.sval_local _ _ _ _ _ _ _ _ (fun β q hrd => ?_) fun _ _ _ => rfl
        have hrS := hi.through a haa v y k β q hn hk hrd
        refine (S.sem.frame b s1.vars (β, q) ?_).symm
        rintro ⟨hwb, hqb⟩
        simp only at hwb hqb
        subst hqb
        obtain ⟨u1, u2, rfl⟩ := List.append_of_mem hst
        obtain ⟨w1, w2, rfl⟩ := List.append_of_mem ha
        obtain ⟨q1, q2, q3⟩ := hq u1 u2 w1 w2 bx' a bx b (by rw [hu]; simp)
        have hnear := S.reads_near a β b.pt hrS
        have hnear' : Near c.nd (fun j => (c.dim j).maxHalo) a.pt b.pt := fun j hj => (hnear j hj).symm
        rcases step_lt_cases hdir b a with ⟨e1, e2⟩ | hb | hb
        · exact (S.indep b a q1 e1 e2 β hwb).1 hrS
        · exact q2 ⟨hb, hnear⟩
        · exact q3 ⟨hb, hnear'⟩

end Scr
end Yask
