import Verif.Setup.TunerModel
import Verif.Setup.SettingsLemmas
import Verif.Common.TupleLemmas
import Mathlib.Data.List.Nodup
import Mathlib.Tactic.Linarith

/-! Helper lemmas about the auto-tuner. -/

namespace Yask.Setup
open Spec

/-- A size as the adjustment leaves it: positive, at most `outer`, and whole vectors unless it is `outer`. -/
structure Canon (x outer fold : Int) : Prop where
  pos : 0 < x
  le : x ≤ outer
  whole : fold ∣ x ∨ x = outer

theorem fitSize_canon {x outer fold : Int} (ho : 0 < outer) (hf : 0 < fold) :
    Canon (fitSize x outer fold) outer fold := by
  have h := fitSize_fits (inner := x) ho hf
  exact ⟨h.pos, h.le, h.whole⟩

theorem Canon.fit {x outer fold : Int} (h : Canon x outer fold) (hf : 0 < fold) : fitSize x outer fold = x := by
  have ho : 0 < outer := lt_of_lt_of_le h.pos h.le
  have h2 := fitSize_fits (inner := x) ho hf
  have := h.pos; have := h.le; have := h2.le
  rcases h.whole with hw | hw
  · have := h2.least x hw (by omega) (le_refl _) (by omega)
    rcases h2.atLeast with h3 | h3 <;> omega
  · rcases h2.atLeast with h3 | h3 <;> omega

theorem newSize_canon {radius fold outer center ofs : Int} (ho : 0 < outer) (hf : 0 < fold) :
    Canon (newSize radius fold outer center ofs) outer fold := by
  unfold newSize
  simp only
  generalize (if ofs = 0 then center - max fold minDist * radius
    else if ofs = 2 then if center < max fold minDist * radius then max fold minDist * radius
      else center + max fold minDist * radius else center) = sz
  have h := roundUp_spec (a := max sz fold) (b := fold) (by omega) hf
  refine ⟨by omega, by omega, ?_⟩
  by_cases hc : roundUp (max sz fold) fold ≤ outer
  · left; rw [min_eq_left hc]; exact h.2.2
  · right; omega

theorem neighSizes_spec {radius : Int} {fold : Nat → Int} {outer center : List Int} :
    ∀ (os : List Int) (j m : Nat) (bs : List Int), neighSizes radius fold outer center os j m = some bs →
      bs.length = os.length ∧ ∀ k < os.length, ∃ c o, bs.getD k 0 =
        newSize radius (fold (j + k)) (outer.getD (j + k) 0) c o := by
  intro os
  induction os with
  | nil =>
    intro j m bs h
    simp only [neighSizes, Option.some.injEq] at h
    subst h
    exact ⟨rfl, fun k hk => by simp at hk⟩
  | cons o os ih =>
    intro j m bs h
    unfold neighSizes at h
    simp only at h
    generalize (if o = 1 then m else m + 1) = m' at h
    split at h
    · cases h
    · cases hr : neighSizes radius fold outer center os (j + 1) m' with
      | none => rw [hr] at h; cases h
      | some rest =>
        rw [hr] at h
        have h : some (newSize radius (fold j) (outer.getD j 0) (center.getD j 0) o :: rest) = some bs := h
        cases h
        obtain ⟨i1, i2⟩ := ih (j + 1) _ rest hr
        refine ⟨by simp [i1], fun k hk => ?_⟩
        cases k with
        | zero => exact ⟨_, _, rfl⟩
        | succ k =>
          obtain ⟨c, o', hc⟩ := i2 k (by simpa using hk)
          refine ⟨c, o', ?_⟩
          rw [List.getD_cons_succ, hc]
          congr 2 <;> omega

theorem unlayoutVals_length (f : Bool) (sizes : List Int) (n : Nat) :
    (unlayoutVals f sizes n).length = sizes.length := by
  have h : ∀ (ds : List Nat) (o p : Nat), (unlayoutLoop ds o p).length = ds.length := by
    intro ds
    induction ds with
    | nil => intro o p; rfl
    | cons d ds ih => intro o p; simp [unlayoutLoop, ih]
  unfold unlayoutVals
  have hi : ∀ {α : Type} (l : List α), (innerFirst f l).length = l.length := by
    intro α l; unfold innerFirst; split <;> simp
  rw [hi, List.length_map, h, hi, List.length_map]

/-- Sizes in every dim as the adjustment leaves them. -/
def CanonList (nd : Nat) (outer fold : Nat → Int) (l : List Int) : Prop :=
  l.length = nd ∧ ∀ j < nd, Canon (l.getD j 0) (outer j) (fold j)

/-- `t'` differs from `t` only in the location of the search. -/
def SameBut (t t' : Tuner) : Prop :=
  ∃ c r k b, t' = { t with center := c, radius := r, neigh := k, better := b }

theorem SameBut.refl (t : Tuner) : SameBut t t := ⟨t.center, t.radius, t.neigh, t.better, rfl⟩

theorem SameBut.trans {a b c : Tuner} (h : SameBut a b) (h' : SameBut b c) : SameBut a c := by
  obtain ⟨_, _, _, _, rfl⟩ := h
  obtain ⟨_, _, _, _, rfl⟩ := h'
  exact ⟨_, _, _, _, rfl⟩

theorem scan_spec (fi : Bool) (outer : List Int) (O : Nat → Int) :
    ∀ (n : Nat) (t : Tuner), (∀ j < t.set.nd, outer.getD j 0 = O j ∧ 0 < O j ∧ 0 < t.set.fold j) →
      (∃ k, (t.scan fi outer n).1 = { t with neigh := k }) ∧
      ∀ bs, (t.scan fi outer n).2 = some bs →
        CanonList t.set.nd O t.set.fold bs ∧ bs ∉ t.results.map Prod.fst := by
  intro n
  induction n with
  | zero => intro t _; exact ⟨⟨t.neigh, rfl⟩, fun bs h => by cases h⟩
  | succ n ih =>
    intro t h
    have ih' := ih { t with neigh := t.neigh + 1 } h
    have hrec : (∃ k, (({ t with neigh := t.neigh + 1 } : Tuner).scan fi outer n).1 = { t with neigh := k }) ∧
        ∀ bs, (({ t with neigh := t.neigh + 1 } : Tuner).scan fi outer n).2 = some bs →
          CanonList t.set.nd O t.set.fold bs ∧ bs ∉ t.results.map Prod.fst := by
      obtain ⟨⟨k, hk⟩, i2⟩ := ih'
      exact ⟨⟨k, hk⟩, i2⟩
    unfold Tuner.scan
    simp only
    split
    · rename_i bs hbs
      split
      · rename_i hc
        refine ⟨⟨_, rfl⟩, fun bs' hb => ?_⟩
        simp only [Option.some.injEq] at hb
        subst hb
        obtain ⟨l1, l2⟩ := neighSizes_spec _ _ _ _ hbs
        rw [unlayoutVals_length, List.length_replicate] at l1 l2
        refine ⟨⟨l1, fun j hj => ?_⟩, ?_⟩
        · obtain ⟨c, o, he⟩ := l2 j hj
          obtain ⟨h1, h2, h3⟩ := h j hj
          rw [he, Nat.zero_add, h1]
          exact newSize_canon h2 h3
        · intro hm
          obtain ⟨r, hr, he⟩ := List.mem_map.1 hm
          simp only [Bool.and_eq_true, Bool.not_eq_true', List.any_eq_false, beq_iff_eq] at hc
          exact hc.2 r hr he
      · exact hrec
    · exact hrec

/-- The search ends: with a new size that has not been tried, or for good. -/
theorem search_spec (fi : Bool) (outer : List Int) (O : Nat → Int) :
    ∀ (n : Nat) (t : Tuner), (∀ j < t.set.nd, outer.getD j 0 = O j ∧ 0 < O j ∧ 0 < t.set.fold j) →
      t.best ≠ none → t.radius.toNat + (if t.better then 1 else 0) < n →
      (∃ bs t', t.search fi outer n = .ok (.trial bs t') ∧ SameBut t t' ∧
        CanonList t.set.nd O t.set.fold bs ∧ bs ∉ t.results.map Prod.fst) ∨
      (∃ t', t.search fi outer n = .ok (.stop t') ∧ SameBut t t') := by
  intro n
  induction n with
  | zero => intro t _ _ h; omega
  | succ n ih =>
    intro t h hb hn
    obtain ⟨⟨k, hk⟩, hs⟩ := scan_spec fi outer O (3 ^ t.set.nd - t.neigh) t h
    unfold Tuner.search
    cases hsc : t.scan fi outer (3 ^ t.set.nd - t.neigh) with
    | mk t1 o =>
      rw [hsc] at hk hs
      simp only at hk
      subst hk
      cases o with
      | some bs =>
        left
        obtain ⟨c1, c2⟩ := hs bs rfl
        exact ⟨bs, _, rfl, ⟨_, _, _, _, rfl⟩, c1, c2⟩
      | none =>
        simp only
        cases hbe : t.best with
        | none => exact absurd hbe hb
        | some b =>
          simp only
          have hsame : ∀ r, SameBut t { t with best := some b, center := b, radius := r, neigh := 0, better := false } :=
            fun r => ⟨b, r, 0, false, by rw [hbe]⟩
          by_cases hbt : t.better = true
          · rw [if_pos hbt]
            rw [if_pos hbt] at hn
            rcases ih { t with best := some b, neigh := 0, center := b, better := false } h (by simp) (by simp; omega) with
              ⟨bs, t', e1, e2, e3, e4⟩ | ⟨t', e1, e2⟩
            · left
              exact ⟨bs, t', e1, SameBut.trans (hsame _) e2, e3, e4⟩
            · right
              exact ⟨t', e1, SameBut.trans (hsame _) e2⟩
          · rw [if_neg hbt]
            rw [if_neg hbt] at hn
            by_cases hr : t.radius.tdiv 2 ≥ 1
            · rw [if_pos hr]
              have h0 : 0 ≤ t.radius := by
                by_contra hc
                have h2 : 0 ≤ (-t.radius).tdiv 2 := Int.tdiv_nonneg (by omega) (by omega)
                rw [Int.neg_tdiv] at h2
                omega
              rw [Int.tdiv_eq_ediv_of_nonneg h0] at hr ⊢
              rcases ih { t with best := some b, neigh := 0, center := b, better := false, radius := t.radius / 2 } h
                (by simp) (by simp; omega) with ⟨bs, t', e1, e2, e3, e4⟩ | ⟨t', e1, e2⟩
              · left
                exact ⟨bs, t', e1, SameBut.trans (hsame _) e2, e3, e4⟩
              · right
                exact ⟨t', e1, SameBut.trans (hsame _) e2⟩
            · rw [if_neg hr]
              right
              exact ⟨_, rfl, hsame _⟩

/-! ### Adjusting the settings -/

/-- The settings with all requested sizes. -/
def Tuner.reqSet (t : Tuner) : KSet := { t.set with blk := t.req, stepBlk := t.reqStep }

/-- The enclosing size of a target after adjusting the requested sizes. -/
def Tuner.outerFn (t : Tuner) (g : Tgt) (j : Nat) : Int := g.outer (t.set.rank j) ((preBind t.reqSet).blk j)

theorem midNano_pico (s : KSet) (b : Nat → BlkSizes) (sb : BlkSizes) (x : Nat → Int) (y : Int) (j : Nat) :
    midNano { s with blk := fun j => { b j with pico := x j }, stepBlk := { sb with pico := y } } j =
      midNano { s with blk := b, stepBlk := sb } j := by
  unfold midNano defaultNano
  have hn : nanoSum { s with
      blk := fun j => adjustOuter s.defBlk (s.rank j) (s.fold j) { b j with pico := x j }
      stepBlk := adjustSteps { sb with pico := y } } =
    nanoSum { s with
      blk := fun j => adjustOuter s.defBlk (s.rank j) (s.fold j) (b j), stepBlk := adjustSteps sb } := rfl
  simp only [hn]
  split
  · have e : ∀ k, (adjustOuter s.defBlk (s.rank k) (s.fold k) { b k with pico := x k }).block =
        (adjustOuter s.defBlk (s.rank k) (s.fold k) (b k)).block := fun k => rfl
    have e2 : (adjustSteps { sb with pico := y }).block = (adjustSteps sb).block := rfl
    simp only [e, e2]
    split <;> rfl
  · rfl

theorem outer_indep (s : KSet) (b : Nat → BlkSizes) (sb : BlkSizes) (g : Tgt) (x : Nat → Int) (y : Int) (j : Nat) :
    g.outer (s.rank j)
      ((preBind { s with blk := fun j => g.set (b j) (x j), stepBlk := g.set sb y }).blk j) =
    g.outer (s.rank j) ((preBind { s with blk := b, stepBlk := sb }).blk j) := by
  rw [preBind_blk, preBind_blk]
  cases g
  · rfl
  · rfl
  · rfl
  · rfl
  · have := midNano_pico s b sb x y j
    simp only [Tgt.set, Tgt.outer] at this ⊢
    rw [this]
    rfl

theorem adjust_spec (t : Tuner) (g : Tgt) (h : t.set.Legal) :
    ∃ s', t.adjust g = .ok { t with set := s' } ∧ s'.Legal ∧ s'.nd = t.set.nd ∧ s'.rank = t.set.rank ∧
      s'.fold = t.set.fold ∧ s'.defBlk = t.set.defBlk ∧ s'.innerThreads = t.set.innerThreads ∧
      s'.innerLoop = t.set.innerLoop ∧
      (∀ j, s'.blk j = (preBind { t.set with
        blk := fun j => g.set (t.req j) (g.get (t.set.blk j))
        stepBlk := g.set t.reqStep (g.get t.set.stepBlk) }).blk j) ∧
      (∀ j, g.outer (s'.rank j) (s'.blk j) = t.outerFn g j) ∧
      (∀ j < t.set.nd, 0 < t.outerFn g j ∧ t.outerFn g j ≤ t.set.rank j ∧
        Canon (g.get (s'.blk j)) (t.outerFn g j) (t.set.fold j)) ∧
      (0 ≤ t.set.stepBlk.nano → 0 ≤ t.reqStep.nano → 0 ≤ s'.stepBlk.nano) ∧
      (0 ≤ t.set.stepBlk.nano → (∀ j < t.set.nd, Canon (g.get (t.set.blk j)) (t.outerFn g j) (t.set.fold j)) →
        ∀ j < t.set.nd, g.get (s'.blk j) = g.get (t.set.blk j)) := by
  set X : KSet := { t.set with
    blk := fun j => g.set (t.req j) (g.get (t.set.blk j))
    stepBlk := g.set t.reqStep (g.get t.set.stepBlk) } with hX
  have hl : X.Legal := ⟨h.rank_pos, h.fold_pos, h.def_pos⟩
  obtain ⟨s', hs, he⟩ := adjust_ok X hl
  have hfr := preBind_frame X
  have f1 : s'.nd = X.nd := by rw [he]; exact hfr.1
  have f2 : s'.rank = X.rank := by rw [he]; exact hfr.2.1
  have f3 : s'.fold = X.fold := by rw [he]; exact hfr.2.2.1
  have f4 : s'.defBlk = X.defBlk := by rw [he]; exact hfr.2.2.2.2.2.1
  have f5 : s'.innerThreads = X.innerThreads := by rw [he]; exact hfr.2.2.2.2.2.2.1
  have f6 : s'.innerLoop = X.innerLoop := by rw [he]; exact hfr.2.2.2.2.1
  have hb : ∀ j, s'.blk j = (preBind X).blk j := fun j => by rw [he]
  have ho : ∀ j, g.outer (X.rank j) ((preBind X).blk j) = t.outerFn g j := fun j =>
    outer_indep t.set t.req t.reqStep g (fun j => g.get (t.set.blk j)) (g.get t.set.stepBlk) j
  have hst : s'.stepBlk = adjustSteps X.stepBlk := by rw [he]; exact hfr.2.2.2.1
  -- the size the code fits into the enclosing one
  let q : Nat → Int := fun j => match g with
    | .block => X.reqBlock j
    | .nano => midNano X j
    | _ => g.get (t.set.blk j)
  have hq : ∀ j, g.get ((preBind X).blk j) = fitSize (q j) (t.outerFn g j) (t.set.fold j) := by
    intro j
    rw [← ho j, preBind_blk]
    cases g <;> rfl
  have hn : ∀ j < t.set.nd, 0 < t.outerFn g j ∧ t.outerFn g j ≤ t.set.rank j := by
    intro j hj
    rw [← ho j]
    obtain ⟨p1, p2, p3, p4, p5⟩ := preBind_nest X hl j hj
    have := p1.pos; have := p2.pos; have := p3.pos; have := p4.pos
    have l1 : ((preBind X).blk j).mega ≤ t.set.rank j := p1.le
    have := p2.le; have := p3.le; have := p4.le
    have r0 : 0 < t.set.rank j := h.rank_pos j hj
    have r1 : X.rank j = t.set.rank j := rfl
    clear_value X
    cases g <;> simp only [Tgt.outer] <;> omega
  refine ⟨s', ?_, ⟨?_, ?_, ?_⟩, f1, f2, f3, f4, f5, f6, hb, fun j => ?_, fun j hj => ⟨(hn j hj).1, (hn j hj).2, ?_⟩, ?_, ?_⟩
  · unfold Tuner.adjust
    rw [← hX, hs]
    rfl
  · rw [f1, f2]; exact h.rank_pos
  · rw [f1, f3]; exact h.fold_pos
  · rw [f4]; exact h.def_pos
  · rw [f2, hb]; exact ho j
  · rw [hb, hq]
    exact fitSize_canon (hn j hj).1 (h.fold_pos j hj)
  · intro h1 h2
    rw [hst]
    show 0 ≤ (g.set t.reqStep (g.get t.set.stepBlk)).nano
    cases g <;> assumption
  · intro h0 hc j hj
    rw [hb, hq]
    have hqj : q j = g.get (t.set.blk j) := by
      have hx := (hc j hj).pos
      cases g with
      | block =>
        show X.reqBlock j = _
        unfold KSet.reqBlock
        rw [if_neg]
        · rfl
        · show ¬ (t.set.blk j).block = 0
          have : 0 < (t.set.blk j).block := hx
          omega
      | nano =>
        show midNano X j = _
        unfold midNano
        have hno : ∀ s0 : KSet, ¬ (s0.innerThreads > 1 ∧ nanoSum s0 = 0) → (defaultNano s0) = s0 := by
          intro s0 hc
          unfold defaultNano
          rw [if_neg hc]
        rw [hno]
        · rfl
        · rintro ⟨-, hsum⟩
          have hsum' : (List.range t.set.nd).foldl (fun a k => a + (t.set.blk k).nano) t.set.stepBlk.nano = 0 := hsum
          have key : ∀ (l : List Nat) (a : Int), 0 ≤ a → (∀ k ∈ l, 0 < (t.set.blk k).nano) →
              a + l.length ≤ l.foldl (fun a j => a + (t.set.blk j).nano) a := by
            intro l
            induction l with
            | nil => intro a ha _; simp
            | cons x l ih =>
              intro a ha hl
              have hx := hl x (by simp)
              have := ih (a + (t.set.blk x).nano) (by omega) fun k hk => hl k (by simp [hk])
              simp only [List.foldl_cons, List.length_cons]
              push_cast
              omega
          have hk := key (List.range t.set.nd) t.set.stepBlk.nano h0
            (fun k hk => (hc k (List.mem_range.1 hk)).pos)
          rw [List.length_range] at hk
          omega
      | _ => rfl
    rw [hqj]
    exact (hc j hj).fit (h.fold_pos j hj)

end Yask.Setup
