import Verif.Compiler.ScrLinkModel
import Verif.Compiler.ScrSolnLemmas
import Verif.Compiler.SolnLink

/-!
# Lemmas: what the analysis of equations with scratch vars ensures for the run
-/

namespace Yask
open Spec Comp RunCfg Relation

section
variable {ε Λ κ ν : Type} [DecidableEq ε] [DecidableEq Λ] [DecidableEq κ] [DecidableEq ν]

/-- The dependences on scratch objects are the dependences that lead to them. -/
def ScrTracks {α : Type} (isScr : α → Bool) (g : DepGroup α) : Prop := ∀ x y, y ∈ g.scr.imm x ↔ y ∈ g.deps.imm x ∧ isScr y = true

theorem foldlM_inv {α β : Type} {I : α → Prop} {f : α → β → Outcome α} (hf : ∀ a b a', I a → f a b = .ok a' → I a') :
    ∀ (l : List β) (a a' : α), I a → l.foldlM f a = .ok a' → I a' := by
  intro l
  induction l with
  | nil => intro a a' h e; cases e; exact h
  | cons b l ih =>
    intro a a' h e
    rw [List.foldlM_cons] at e
    cases e1 : f a b with
    | ok a1 =>
      rw [e1] at e
      exact ih a1 a' (hf a b a1 h e1) e
    | throws => rw [e1] at e; cases e
    | undefined => rw [e1] at e; cases e

theorem tracks_setImm {α : Type} [DecidableEq α] {isScr : α → Bool} {g g' : DepGroup α} (h : ScrTracks isScr g) {a b : α}
    (e : g.setImm isScr a b = .ok g') : ScrTracks isScr g' := by
  unfold DepGroup.setImm at e
  simp only at e
  split at e
  · cases e
  · cases e
    intro x y
    show y ∈ (if isScr b then g.scr.setImm a b else g.scr).imm x ↔ y ∈ (g.deps.setImm a b).imm x ∧ _
    rw [mem_setImm_imm]
    have := h x y
    by_cases hb : isScr b = true
    · rw [if_pos hb, mem_setImm_imm, this]
      constructor
      · rintro (⟨h1, h2⟩ | ⟨rfl, rfl⟩)
        · exact ⟨Or.inl h1, h2⟩
        · exact ⟨Or.inr ⟨rfl, rfl⟩, hb⟩
      · rintro ⟨h1 | h1, h2⟩
        · exact Or.inl ⟨h1, h2⟩
        · exact Or.inr h1
    · rw [if_neg hb, this]
      constructor
      · rintro ⟨h1, h2⟩
        exact ⟨Or.inl h1, h2⟩
      · rintro ⟨h1 | ⟨rfl, rfl⟩, h2⟩
        · exact ⟨h1, h2⟩
        · exact absurd h2 hb

theorem findAll_imm {α : Type} [DecidableEq α] {d d' : Deps α} {ord : List α → List α} (e : d.findAll ord = .ok d') : d'.imm = d.imm := by
  unfold Deps.findAll at e
  split at e
  · cases e; rfl
  · revert e
    generalize (List.foldlM _ _ _ : Outcome (α → List α)) = o
    cases o with
    | ok f => intro e; cases e; rfl
    | throws => intro e; cases e
    | undefined => intro e; cases e

theorem tracks_findAll {α : Type} [DecidableEq α] {isScr : α → Bool} {g g' : DepGroup α} (h : ScrTracks isScr g) {ord : List α → List α}
    (e : g.findAll ord = .ok g') : ScrTracks isScr g' := by
  unfold DepGroup.findAll at e
  cases e1 : g.deps.findAll ord with
  | ok d =>
    rw [e1] at e
    simp only [Outcome.bind_ok] at e
    cases e2 : g.scr.findAll ord with
    | ok s =>
      rw [e2] at e
      cases e
      intro x y
      show y ∈ s.imm x ↔ y ∈ d.imm x ∧ _
      rw [findAll_imm e1, findAll_imm e2]
      exact h x y
    | throws => rw [e2] at e; cases e
    | undefined => rw [e2] at e; cases e
  | throws => rw [e1] at e; cases e
  | undefined => rw [e1] at e; cases e

omit [DecidableEq κ] [DecidableEq ν] in
theorem analyze_tracks {S : EqSys ε Λ κ ν} {ordL : List Λ → List Λ} {ordE : List ε → List ε} {E : DepGroup ε} (e : S.analyze ordL ordE = .ok E) :
    ScrTracks S.scr E := by
  unfold EqSys.analyze at e
  cases e1 : S.userGroup with
  | ok g =>
    rw [e1] at e
    simp only [Outcome.bind_ok] at e
    have hg : ScrTracks S.scr g := by
      unfold EqSys.userGroup at e1
      refine foldlM_inv (I := ScrTracks S.scr) (fun a b a' h e => tracks_setImm h e) _ _ _ ?_ e1
      intro x y
      exact ⟨fun h => absurd h List.not_mem_nil, fun h => absurd h.1 List.not_mem_nil⟩
    cases e2 : S.lvGroup ordL with
    | ok lv =>
      rw [e2] at e
      simp only [Outcome.bind_ok] at e
      unfold EqSys.eqGroup at e
      refine foldlM_inv (I := ScrTracks S.scr) (fun a b a' h e => ?_) _ _ _ hg e
      cases e3 : S.eqs.foldlM (S.eqStep lv b) a with
      | ok a1 =>
        rw [e3] at e
        simp only [Outcome.bind_ok] at e
        refine tracks_findAll (foldlM_inv (I := ScrTracks S.scr) (fun a' b' a'' h e => ?_) _ _ _ h e3) e
        unfold EqSys.eqStep at e
        split_ifs at e <;> first | (cases e; exact h) | exact tracks_setImm h e
      | throws => rw [e3] at e; cases e
      | undefined => rw [e3] at e; cases e
    | throws => rw [e2] at e; cases e
    | undefined => rw [e2] at e; cases e
  | throws => rw [e1] at e; cases e
  | undefined => rw [e1] at e; cases e

/-- What is known of the parts and stages. -/
structure Compiled (S : EqSys ε Λ κ ν) (P : Lots ε κ) (Q : Lots Nat Unit) : Prop where
  circ : ¬ Circular S.Reads
  qnd : Q.g.all.Nodup
  pnd : P.g.all.Nodup
  flat : (P.g.all.flatMap P.items).Nodup
  qflat : (Q.g.all.flatMap Q.items).Nodup
  mem : ∀ x, x ∈ P.g.all.flatMap P.items ↔ x ∈ S.todo
  qmem : ∀ x, x ∈ Q.g.all.flatMap Q.items ↔ x ∈ P.g.all
  key : ∀ p ∈ P.g.all, ∀ x ∈ P.items p, ∀ y ∈ P.items p, S.key x = S.key y
  scr : ∀ s ∈ Q.g.all, ∀ p ∈ Q.items s, ∀ x ∈ P.items p, Q.scr s = S.scr x
  pscr : ∀ s ∈ Q.g.all, ∀ p ∈ Q.items s, Q.scr s = P.scr p
  needs : ∀ x y, S.Needs x y → ∀ s ∈ Q.g.all, ∀ t ∈ Q.g.all, ∀ p ∈ Q.items s, ∀ q ∈ Q.items t, x ∈ P.items p → y ∈ P.items q →
    p ≠ q ∧ q ∈ P.g.deps.imm p ∧ s ≠ t ∧ (S.scr y = true → P.g.scr.isDepOn p q = true ∧ t ∈ Q.g.scr.imm s)
  porder : P.g.all.Pairwise fun a b => b ∉ P.g.deps.imm a
  qorder : Q.g.all.Pairwise fun s t => ∀ p ∈ Q.items s, ∀ q ∈ Q.items t, q ∉ P.g.deps.imm p
  ptrans : ∀ a b c, P.g.scr.isDepOn a b = true → P.g.scr.isDepOn b c = true → P.g.scr.isDepOn a c = true
  qtrans : ∀ a b c, Q.g.scr.isDepOn a b = true → c ∈ Q.g.scr.imm b → Q.g.scr.isDepOn a c = true
  qimm : ∀ a b, b ∈ Q.g.scr.imm a → Q.g.scr.isDepOn a b = true

theorem compiled_of {S : EqSys ε Λ κ ν} (hS : S.Valid) {ordL : List Λ → List Λ} (hL : ∀ l, (ordL l).Perm l) {ordE : List ε → List ε}
    (hE : ∀ l, (ordE l).Perm l) {ordP ordS : List Nat → List Nat} (hP : ∀ l, (ordP l).Perm l) (hQ : ∀ l, (ordS l).Perm l) {P : Lots ε κ}
    {Q : Lots Nat Unit} (h : S.compileAll ordL ordE ordP ordS = .ok (P, Q)) : Compiled S P Q := by
  unfold EqSys.compileAll at h
  cases e1 : S.analyze ordL ordE with
  | throws => rw [e1] at h; cases h
  | undefined => rw [e1] at h; cases h
  | ok E =>
  rw [e1] at h
  simp only [Outcome.bind_ok] at h
  cases e2 : S.makeParts E ordP with
  | throws => rw [e2] at h; cases h
  | undefined => rw [e2] at h; cases h
  | ok P' =>
  rw [e2] at h
  simp only [Outcome.bind_ok] at h
  cases e3 : S.makeStages P' ordS with
  | throws => rw [e3] at h; cases h
  | undefined => rw [e3] at h; cases h
  | ok Q' =>
  rw [e3] at h
  simp only [Outcome.bind_ok, Outcome.ok.injEq, Prod.mk.injEq] at h
  obtain ⟨rfl, rfl⟩ := h
  have htr := analyze_tracks e1
  rcases analyze_spec hS hL hE with ⟨E', e, hc, hall, himm, hlv, hcl⟩ | ⟨e, -⟩
  swap
  · rw [e] at e1; cases e1
  rw [e] at e1; cases e1
  rcases (makeParts_spec S hS.nd E hc hP).1 with ⟨P'', e', hp⟩ | e'
  swap
  · rw [e'] at e2; cases e2
  rw [e'] at e2; cases e2
  have hirr : ∀ x, P'.g.deps.isDepOn x x = false := by
    intro x
    have := hp.acyc x
    rw [← hp.full] at this
    simpa using this
  rcases makeStages_spec S P' hp.ok hirr hQ with ⟨Q'', e'', hq⟩ | e''
  swap
  · rw [e''] at e3; cases e3
  rw [e''] at e3; cases e3
  refine ⟨?_, hq.nd, hp.ok.nd, hp.nd, hq.ndi, hp.mem, hq.mem, ?_, ?_, hq.scr, ?_, ?_, ?_, ?_, ?_, ?_⟩
  · rintro ⟨a, ha⟩
    exact hlv a ha
  · intro p hpa x hx y hy
    have h1 := (hp.key p hpa x hx).1
    rw [(hp.key p hpa y hy).1] at h1
    exact (Option.some.inj h1).symm
  · intro s hs p hps x hx
    rw [hq.scr s hs p hps]
    exact (hp.key p ((hq.mem p).1 (List.mem_flatMap.2 ⟨s, hs, hps⟩)) x hx).2
  · intro x y hxy s hs t ht p hps q hqt hx hy
    have hpa : p ∈ P'.g.all := (hq.mem p).1 (List.mem_flatMap.2 ⟨s, hs, hps⟩)
    have hqa : q ∈ P'.g.all := (hq.mem q).1 (List.mem_flatMap.2 ⟨t, ht, hqt⟩)
    have hd : E.deps.isDepOn x y = true := (hc.full x y).2 (.single ((himm x y).2 hxy))
    have hxy' : x ≠ y := by
      rintro rfl
      exact hc.acyc x (.single ((himm x x).2 hxy))
    have hpq : p ≠ q := by
      rintro rfl
      rw [hp.ind p hpa x hx y hy] at hd
      cases hd
    have hpi : q ∈ P'.g.deps.imm p := (hp.imm p q).2 ⟨hpa, hqa, hpq, x, hx, y, hy, hxy', (himm x y).2 hxy⟩
    have hst : s ≠ t := by
      rintro rfl
      have := hq.ind s hs p hps q hqt
      rw [(hp.full p q).2 (.single hpi)] at this
      cases this
    refine ⟨hpq, hpi, hst, fun hsc => ?_⟩
    have hpi' : q ∈ P'.g.scr.imm p := (hp.scrImm p q).2 ⟨hpa, hqa, hpq, x, hx, y, hy, hxy', (htr x y).2 ⟨(himm x y).2 hxy, hsc⟩⟩
    exact ⟨(hp.scrFull p q).2 (.single hpi'), (hq.scrImm s t).2 ⟨hs, ht, hst, p, hps, q, hqt, hpq, hpi'⟩⟩
  · exact hp.order.imp fun {a b} h hb => h (.single hb)
  · refine hq.order.imp_of_mem fun {s t} hs ht h p hps q hqt hpi => ?_
    have hst : s ≠ t := by
      rintro rfl
      have := hq.ind s hs p hps q hqt
      rw [(hp.full p q).2 (.single hpi)] at this
      cases this
    have hpq : p ≠ q := by
      rintro rfl
      exact hp.acyc p (.single hpi)
    exact h (.single ⟨hs, ht, hst, p, hps, q, hqt, hpq, hpi⟩)
  · intro a b c h1 h2
    rw [hp.scrFull] at h1 h2 ⊢
    exact h1.trans h2
  · intro a b c h1 h2
    rw [hq.scrFull] at h1 ⊢
    exact h1.tail h2
  · intro a b h
    rw [hq.scrFull]
    exact .single h

end

/-! ### Where equations are -/

section
variable {ε κ : Type} {P : Lots ε κ} {Q : Lots Nat Unit}

theorem mem_kernelStages {i p : Nat} {x : ε} : x ∈ ((kernelStages P Q).getD i []).getD p [] ↔
    ∃ s pid, (mainIds Q)[i]? = some s ∧ (Q.items s)[p]? = some pid ∧ x ∈ P.items pid := by
  constructor
  · intro h
    obtain ⟨st, part, h1, h2, h3⟩ := getD_mem_stage h
    unfold kernelStages at h1
    rw [List.getElem?_map, Option.map_eq_some_iff] at h1
    obtain ⟨s, hs, rfl⟩ := h1
    rw [List.getElem?_map, Option.map_eq_some_iff] at h2
    obtain ⟨pid, hp, rfl⟩ := h2
    exact ⟨s, pid, hs, hp, h3⟩
  · rintro ⟨s, pid, h1, h2, h3⟩
    have e1 : (kernelStages P Q)[i]? = some ((Q.items s).map P.items) := by unfold kernelStages; rw [List.getElem?_map, h1]; rfl
    have e2 : ((Q.items s).map P.items)[p]? = some (P.items pid) := by rw [List.getElem?_map, h2]; rfl
    rw [List.getD_eq_getElem?_getD, List.getD_eq_getElem?_getD, e1, Option.getD_some, e2, Option.getD_some]
    exact h3

theorem mem_kernelScr {k : Nat} {x : ε} : x ∈ (kernelScr P Q).getD k [] ↔ ∃ pid, (scrIds P Q)[k]? = some pid ∧ x ∈ P.items pid := by
  unfold kernelScr
  rw [List.getD_eq_getElem?_getD, List.getElem?_map]
  cases (scrIds P Q)[k]? with
  | none => simp
  | some pid => simp

theorem mem_mainIds {s : Nat} : s ∈ mainIds Q ↔ s ∈ Q.g.all ∧ Q.scr s = false := by
  unfold mainIds
  rw [List.mem_filter]
  simp

theorem mem_scrIds {pid : Nat} : pid ∈ scrIds P Q ↔ ∃ s ∈ Q.g.all, Q.scr s = true ∧ pid ∈ P.g.all ∧ pid ∈ Q.items s := by
  unfold scrIds
  rw [List.mem_flatMap]
  constructor
  · rintro ⟨s, h1, h2⟩
    rw [List.mem_filter] at h1 h2
    exact ⟨s, h1.1, h1.2, h2.1, of_decide_eq_true h2.2⟩
  · rintro ⟨s, h1, h2, h3, h4⟩
    exact ⟨s, List.mem_filter.2 ⟨h1, h2⟩, List.mem_filter.2 ⟨h3, decide_eq_true h4⟩⟩

/-- In a nested list without duplicates, an object is in one place. -/
theorem flatMap_place {α β : Type} {l : List α} {f : α → List β} (h : (l.flatMap f).Nodup) {a b : α} (ha : a ∈ l) (hb : b ∈ l) {x : β}
    (hx : x ∈ f a) (hy : x ∈ f b) : a = b := by
  rw [List.nodup_flatMap] at h
  by_contra hne
  obtain ⟨i, hi, rfl⟩ := List.getElem_of_mem ha
  obtain ⟨j, hj, rfl⟩ := List.getElem_of_mem hb
  have hp := List.pairwise_iff_getElem.1 h.2
  have hij : i ≠ j := fun e => hne (by subst e; rfl)
  rcases Nat.lt_or_gt_of_ne hij with h' | h'
  · exact hp i j hi hj h' hx hy
  · exact hp j i hj hi h' hy hx

theorem nodup_inj {α : Type} {l : List α} (h : l.Nodup) {i j : Nat} {x : α} (hi : l[i]? = some x) (hj : l[j]? = some x) : i = j := by
  obtain ⟨h1, h2⟩ := List.getElem?_eq_some_iff.1 hi
  obtain ⟨h3, h4⟩ := List.getElem?_eq_some_iff.1 hj
  exact (List.Nodup.getElem_inj_iff h).1 (h2.trans h4.symm)

end

section
variable {Val κ : Type} {X : XSoln Val} {P : Lots X.Idx κ} {Q : Lots Nat Unit} {o : X.Opts κ} {vdims : Nat → List String}

theorem mem_mainL {i p : Nat} {e : Fin X.eqs.length} : e ∈ ((X.mainL P Q).getD i []).getD p [] ↔
    (Sum.inl e : X.Idx) ∈ ((kernelStages P Q).getD i []).getD p [] := by
  unfold XSoln.mainL
  rw [getD_map_nil (fun st : List (List X.Idx) => st.map fun part => part.filterMap Sum.getLeft?) rfl,
    getD_map_nil (fun part : List X.Idx => part.filterMap Sum.getLeft?) rfl, List.mem_filterMap]
  constructor
  · rintro ⟨x, hx, h⟩
    rw [Sum.getLeft?_eq_some_iff] at h
    exact h ▸ hx
  · intro h
    exact ⟨_, h, rfl⟩

theorem mem_scrK {k : Nat} {e : Fin X.scr.length} : e ∈ (X.scrK P Q).getD k [] ↔ (Sum.inr e : X.Idx) ∈ (kernelScr P Q).getD k [] := by
  unfold XSoln.scrK
  rw [getD_map_nil (fun part : List X.Idx => part.filterMap Sum.getRight?) rfl, List.mem_filterMap]
  constructor
  · rintro ⟨x, hx, h⟩
    rw [Sum.getRight?_eq_some_iff] at h
    exact h ▸ hx
  · intro h
    exact ⟨_, h, rfl⟩

theorem scr_inl (hl : X.Legal vdims) (e : Fin X.eqs.length) : (X.sys o).scr (.inl e) = false := (hl.lhs _ (List.getElem_mem _)).1
theorem scr_inr (hl : X.Legal vdims) (e : Fin X.scr.length) : (X.sys o).scr (.inr e) = true := (hl.slhs _ (List.getElem_mem _)).1

/-- The equations of non-scratch stages are those of vars that are not scratch vars. -/
theorem main_inl (hl : X.Legal vdims) (hC : Compiled (X.sys o) P Q) {i p : Nat} {x : X.Idx} (h : x ∈ ((kernelStages P Q).getD i []).getD p []) :
    ∃ e, x = .inl e := by
  obtain ⟨s, pid, h1, h2, h3⟩ := mem_kernelStages.1 h
  obtain ⟨hs, hsc⟩ := mem_mainIds.1 (List.mem_of_getElem? h1)
  have := hC.scr s hs pid (List.mem_of_getElem? h2) x h3
  cases x with
  | inl e => exact ⟨e, rfl⟩
  | inr e => rw [hsc, scr_inr hl] at this; cases this

theorem scr_inr' (hl : X.Legal vdims) (hC : Compiled (X.sys o) P Q) {k : Nat} {x : X.Idx} (h : x ∈ (kernelScr P Q).getD k []) : ∃ e, x = .inr e := by
  obtain ⟨pid, h1, h2⟩ := mem_kernelScr.1 h
  obtain ⟨s, hs, hsc, hp, hps⟩ := mem_scrIds.1 (List.mem_of_getElem? h1)
  have := hC.scr s hs pid hps x h2
  cases x with
  | inr e => exact ⟨e, rfl⟩
  | inl e => rw [hsc, scr_inl hl] at this; cases this

/-- Every equation is in a part of a stage. -/
theorem placed (hall : ∀ e, e ∈ o.order) (hC : Compiled (X.sys o) P Q) (x : X.Idx) : ∃ s ∈ Q.g.all, ∃ pid ∈ Q.items s, pid ∈ P.g.all ∧ x ∈ P.items pid := by
  have hx : x ∈ (X.sys o).todo := by
    unfold EqSys.todo
    rw [List.mem_append, List.mem_filter, List.mem_filter]
    cases h : (X.sys o).scr x with
    | true => exact Or.inr ⟨hall x, rfl⟩
    | false => exact Or.inl ⟨hall x, rfl⟩
  obtain ⟨pid, hp, hx⟩ := List.mem_flatMap.1 ((hC.mem x).2 hx)
  obtain ⟨s, hs, hps⟩ := List.mem_flatMap.1 ((hC.qmem pid).2 hp)
  exact ⟨s, hs, pid, hps, hp, hx⟩

/-- What is read through scratch vars is a chain of reads of logical vars. -/
theorem leads_reads (hl : X.Legal vdims) (hall : ∀ e, e ∈ o.order) (e : Fin X.eqs.length) {q : Pt} (h : X.Leads X.eqs[e] q) :
    TransGen (X.sys o).Reads ((X.sys o).lhs (.inl e)) (q.var, q.step) := by
  induction h with
  | @direct p hp => exact .single ⟨.inl e, hall _, rfl, List.mem_map_of_mem (f := fun p : Pt => (p.var, p.step)) hp⟩
  | @through p k q h1 h2 hk hv hq ih =>
    obtain ⟨i, hi, rfl⟩ := List.getElem_of_mem hk
    have hlhs := hl.slhs _ (List.getElem_mem hi)
    have hst : p.step = none := by
      obtain ⟨e0, he0, p0, hp0, hv0, hs0, -⟩ := XSoln.leads_orig (List.getElem_mem e.2) h1
      have s1 := hl.step e0 he0 p0 (List.mem_cons_of_mem _ hp0)
      have s2 := hl.step _ (List.mem_append_right _ (List.getElem_mem hi)) _ List.mem_cons_self
      rw [hlhs.2.1, hv] at s2
      rw [← hv0, ← s2, ← hs0] at s1
      simpa using s1
    refine ih.tail ⟨.inr ⟨i, hi⟩, hall _, ?_, List.mem_map.2 ⟨q, hq, rfl⟩⟩
    show ((X.scr[i]).lhs.var, (X.scr[i]).lhs.step) = _
    rw [hv, hlhs.2.1, hst]

theorem needs_of (hall : ∀ e, e ∈ o.order) (hC : Compiled (X.sys o) P Q) {x y : X.Idx} (h : TransGen (X.sys o).Reads ((X.sys o).lhs x) ((X.sys o).lhs y)) :
    (X.sys o).Needs x y := by
  refine Or.inr ⟨rfl, hall _, hall _, ?_, h⟩
  rintro rfl
  exact hC.circ ⟨_, h⟩

/-- The step offset of a point of a scratch var. -/
theorem scr_step (hl : X.Legal vdims) {x : X.Idx} {q : Pt} (hq : q ∈ (X.eqn x).rhs) {e' : Fin X.scr.length} (hv : X.scr[e'].lhs.var = q.var) :
    (X.sys o).lhs (.inr e') = (q.var, q.step) := by
  have hlhs := hl.slhs _ (List.getElem_mem e'.2)
  have hm : X.eqn x ∈ X.eqs ++ X.scr := by
    cases x with
    | inl e => exact List.mem_append_left _ (List.getElem_mem _)
    | inr e => exact List.mem_append_right _ (List.getElem_mem _)
  have s1 := hl.step _ hm q (List.mem_cons_of_mem _ hq)
  have s2 := hl.step _ (List.mem_append_right _ (List.getElem_mem e'.2)) _ List.mem_cons_self
  have hv' : (X.scr[e'.1]'e'.2).lhs.var = q.var := hv
  rw [hlhs.2.1, hv'] at s2
  rw [← s2] at s1
  have : q.step = none := by simpa using s1
  show ((X.scr[e'.1]'e'.2).lhs.var, (X.scr[e'.1]'e'.2).lhs.step) = _
  rw [hv', hlhs.2.1, this]

theorem scrIds_order (hC : Compiled (X.sys o) P Q) : (scrIds P Q).Pairwise fun a b => b ∉ P.g.deps.imm a := by
  unfold scrIds
  rw [List.pairwise_flatMap]
  refine ⟨fun s _ => hC.porder.sublist List.filter_sublist, ?_⟩
  refine (hC.qorder.sublist List.filter_sublist).imp fun {s t} h p hp q hq => ?_
  exact h p (of_decide_eq_true (List.mem_filter.1 hp).2) q (of_decide_eq_true (List.mem_filter.1 hq).2)

theorem scrIds_nodup (hC : Compiled (X.sys o) P Q) : (scrIds P Q).Nodup := by
  unfold scrIds
  rw [List.nodup_flatMap]
  refine ⟨fun s _ => hC.pnd.filter _, ?_⟩
  have h := List.nodup_iff_pairwise_ne.1 hC.qnd
  refine ((h.imp_of_mem (S := fun s t => ∀ p ∈ Q.items s, p ∉ Q.items t) fun {s t} hs ht hne p hp hp' =>
    hne (flatMap_place hC.qflat hs ht hp hp')).sublist List.filter_sublist).imp fun {s t} h p hp hp' => ?_
  exact h p (of_decide_eq_true (List.mem_filter.1 hp).2) (of_decide_eq_true (List.mem_filter.1 hp').2)

theorem xarranged_of_compile (hl : X.Legal vdims) (hall : ∀ e, e ∈ o.order)
    (hkey : ∀ e e', o.key e = o.key e' → (X.eqn e).domIf = (X.eqn e').domIf ∧ (X.eqn e).stepIf = (X.eqn e').stepIf)
    (hC : Compiled (X.sys o) P Q) : X.Arranged (X.mainL P Q) (X.scrK P Q) (kernelChildren P Q) where
  mem e := by
    obtain ⟨s, hs, pid, hps, hp, hx⟩ := placed hall hC (.inl e)
    have hsc : Q.scr s = false := (hC.scr s hs pid hps _ hx).trans (scr_inl hl e)
    obtain ⟨i, hi⟩ := List.getElem?_of_mem (mem_mainIds.2 ⟨hs, hsc⟩)
    obtain ⟨p, hp⟩ := List.getElem?_of_mem hps
    exact ⟨i, p, mem_mainL.2 (mem_kernelStages.2 ⟨s, pid, hi, hp, hx⟩)⟩
  uniq e i p i' p' h1 h2 := by
    obtain ⟨s, pid, a1, a2, a3⟩ := mem_kernelStages.1 (mem_mainL.1 h1)
    obtain ⟨s', pid', b1, b2, b3⟩ := mem_kernelStages.1 (mem_mainL.1 h2)
    have hs := (mem_mainIds.1 (List.mem_of_getElem? a1)).1
    have hs' := (mem_mainIds.1 (List.mem_of_getElem? b1)).1
    have hp := (hC.qmem pid).1 (List.mem_flatMap.2 ⟨s, hs, List.mem_of_getElem? a2⟩)
    have hp' := (hC.qmem pid').1 (List.mem_flatMap.2 ⟨s', hs', List.mem_of_getElem? b2⟩)
    have e1 : pid = pid' := flatMap_place hC.flat hp hp' a3 b3
    subst e1
    have e2 : s = s' := flatMap_place hC.qflat hs hs' (List.mem_of_getElem? a2) (List.mem_of_getElem? b2)
    subst e2
    refine ⟨nodup_inj (hC.qnd.filter _) a1 b1, nodup_inj ?_ a2 b2⟩
    exact (List.nodup_flatMap.1 hC.qflat).1 s hs
  order e e' i p i' p' h1 h2 q hq hv hs := by
    obtain ⟨s, pid, a1, a2, a3⟩ := mem_kernelStages.1 (mem_mainL.1 h1)
    obtain ⟨s', pid', b1, b2, b3⟩ := mem_kernelStages.1 (mem_mainL.1 h2)
    have hsm := (mem_mainIds.1 (List.mem_of_getElem? a1)).1
    have hsm' := (mem_mainIds.1 (List.mem_of_getElem? b1)).1
    have hr := leads_reads (o := o) hl hall e hq
    rw [hv, hs] at hr
    obtain ⟨-, g2, g3, -⟩ := hC.needs _ _ (needs_of hall hC (y := .inl e') hr) s hsm s' hsm' pid (List.mem_of_getElem? a2) pid' (List.mem_of_getElem? b2) a3 b3
    obtain ⟨hi1, hi2⟩ := List.getElem?_eq_some_iff.1 a1
    obtain ⟨hj1, hj2⟩ := List.getElem?_eq_some_iff.1 b1
    by_contra hij
    rcases Nat.lt_or_ge i i' with hlt | hge
    · have hp := hC.qorder.sublist (List.filter_sublist (l := Q.g.all) (p := fun s => !Q.scr s))
      have := List.pairwise_iff_getElem.1 hp i i' hi1 hj1 hlt
      rw [show ((Q.g.all.filter fun s => !Q.scr s)[i]'hi1) = s from hi2, show ((Q.g.all.filter fun s => !Q.scr s)[i']'hj1) = s' from hj2] at this
      exact this pid (List.mem_of_getElem? a2) pid' (List.mem_of_getElem? b2) g2
    · have : i = i' := by omega
      subst this
      rw [a1] at b1
      exact g3 (Option.some.inj b1)
  same e e' i p h1 h2 := by
    obtain ⟨s, pid, a1, a2, a3⟩ := mem_kernelStages.1 (mem_mainL.1 h1)
    obtain ⟨s', pid', b1, b2, b3⟩ := mem_kernelStages.1 (mem_mainL.1 h2)
    rw [a1] at b1; cases b1
    rw [a2] at b2; cases b2
    have hs := (mem_mainIds.1 (List.mem_of_getElem? a1)).1
    exact hkey _ _ (hC.key pid ((hC.qmem pid).1 (List.mem_flatMap.2 ⟨s, hs, List.mem_of_getElem? a2⟩)) _ a3 _ b3)
  smem e := by
    obtain ⟨s, hs, pid, hps, hp, hx⟩ := placed hall hC (.inr e)
    have hsc : Q.scr s = true := (hC.scr s hs pid hps _ hx).trans (scr_inr hl e)
    obtain ⟨k, hk⟩ := List.getElem?_of_mem (mem_scrIds.2 ⟨s, hs, hsc, hp, hps⟩)
    exact ⟨k, mem_scrK.2 (mem_kernelScr.2 ⟨pid, hk, hx⟩)⟩
  suniq e k k' h1 h2 := by
    obtain ⟨pid, a1, a2⟩ := mem_kernelScr.1 (mem_scrK.1 h1)
    obtain ⟨pid', b1, b2⟩ := mem_kernelScr.1 (mem_scrK.1 h2)
    obtain ⟨-, -, -, hp, -⟩ := mem_scrIds.1 (List.mem_of_getElem? a1)
    obtain ⟨-, -, -, hp', -⟩ := mem_scrIds.1 (List.mem_of_getElem? b1)
    have : pid = pid' := flatMap_place hC.flat hp hp' a2 b2
    subst this
    exact nodup_inj (scrIds_nodup hC) a1 b1
  ssame e e' k h1 h2 := by
    obtain ⟨pid, a1, a2⟩ := mem_kernelScr.1 (mem_scrK.1 h1)
    obtain ⟨pid', b1, b2⟩ := mem_kernelScr.1 (mem_scrK.1 h2)
    rw [a1] at b1; cases b1
    obtain ⟨-, -, -, hp, -⟩ := mem_scrIds.1 (List.mem_of_getElem? a1)
    exact hkey _ _ (hC.key pid hp _ a2 _ b2)
  reqd i p e h1 q hq k e' h2 hv := by
    obtain ⟨s, pid, a1, a2, a3⟩ := mem_kernelStages.1 (mem_mainL.1 h1)
    obtain ⟨kid, b1, b2⟩ := mem_kernelScr.1 (mem_scrK.1 h2)
    have hsm := (mem_mainIds.1 (List.mem_of_getElem? a1)).1
    obtain ⟨t, ht, htc, hp, hpt⟩ := mem_scrIds.1 (List.mem_of_getElem? b1)
    have hr := leads_reads (o := o) hl hall e hq
    have hq0 : (X.sys o).lhs (.inr e') = (q.var, q.step) := by
      obtain ⟨e0, he0, p0, hp0, hv0, hs0, -⟩ := XSoln.leads_orig (List.getElem_mem e.2) hq
      rw [hv0, hs0]
      rw [hv0] at hv
      rcases List.mem_append.1 he0 with he0 | he0
      · obtain ⟨a, ha, rfl⟩ := List.getElem_of_mem he0
        exact scr_step hl (x := .inl ⟨a, ha⟩) hp0 hv
      · obtain ⟨a, ha, rfl⟩ := List.getElem_of_mem he0
        exact scr_step hl (x := .inr ⟨a, ha⟩) hp0 hv
    rw [← hq0] at hr
    obtain ⟨-, -, -, g4⟩ := hC.needs _ _ (needs_of hall hC hr) s hsm t ht pid (List.mem_of_getElem? a2) kid hpt a3 b2
    unfold kernelChildren
    refine List.mem_filter.2 ⟨List.mem_range.2 (List.getElem?_eq_some_iff.1 b1).1, ?_⟩
    rw [List.getD_eq_getElem?_getD (l := mainIds Q), a1, List.getD_eq_getElem?_getD (l := scrIds P Q), b1, List.getD_eq_getElem?_getD, Option.getD_some, a2]
    exact (g4 (scr_inr hl e')).1
  sorder i p l1 k l2 hch e h1 q hq k' e' h2 hv := by
    obtain ⟨kid, a1, a2⟩ := mem_kernelScr.1 (mem_scrK.1 h1)
    obtain ⟨kid', b1, b2⟩ := mem_kernelScr.1 (mem_scrK.1 h2)
    obtain ⟨s, hs, hsc, hp, hps⟩ := mem_scrIds.1 (List.mem_of_getElem? a1)
    obtain ⟨t, ht, htc, hp', hpt⟩ := mem_scrIds.1 (List.mem_of_getElem? b1)
    have hr : TransGen (X.sys o).Reads ((X.sys o).lhs (.inr e)) ((X.sys o).lhs (.inr e')) := by
      rw [scr_step hl (o := o) (x := .inr e) hq hv]
      exact .single ⟨.inr e, hall _, rfl, List.mem_map_of_mem (f := fun p : Pt => (p.var, p.step)) hq⟩
    obtain ⟨g1, g2, -, g4⟩ := hC.needs _ _ (needs_of hall hC hr) s hs t ht kid hps kid' hpt a2 b2
    have hk : k ∈ kernelChildren P Q i p := by rw [hch]; simp
    have hk' : k' ∈ kernelChildren P Q i p := by
      unfold kernelChildren at hk ⊢
      obtain ⟨-, hk⟩ := List.mem_filter.1 hk
      refine List.mem_filter.2 ⟨List.mem_range.2 (List.getElem?_eq_some_iff.1 b1).1, ?_⟩
      rw [List.getD_eq_getElem?_getD (l := scrIds P Q), a1, Option.getD_some] at hk
      rw [List.getD_eq_getElem?_getD (l := scrIds P Q), b1, Option.getD_some]
      exact hC.ptrans _ _ _ hk (g4 (scr_inr hl e')).1
    have hlt : k' < k := by
      obtain ⟨hi1, hi2⟩ := List.getElem?_eq_some_iff.1 a1
      obtain ⟨hj1, hj2⟩ := List.getElem?_eq_some_iff.1 b1
      by_contra hij
      rcases Nat.lt_or_ge k k' with hlt | hge
      · have := List.pairwise_iff_getElem.1 (scrIds_order hC) k k' hi1 hj1 hlt
        rw [hi2, hj2] at this
        exact this g2
      · have : k = k' := by omega
        subst this
        exact g1 (hi2.symm.trans hj2)
    have hsorted : (kernelChildren P Q i p).Pairwise (· < ·) := List.pairwise_lt_range.sublist List.filter_sublist
    rw [hch] at hsorted hk'
    rcases List.mem_append.1 hk' with h | h
    · exact h
    · exfalso
      rcases List.mem_cons.1 h with rfl | h
      · omega
      · have := (List.pairwise_cons.1 (List.pairwise_append.1 hsorted).2.1).1 k' h
        omega

end
end Yask
