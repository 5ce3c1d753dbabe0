import Mathlib.Data.List.Perm.Basic
import Verif.Compiler.AnalyzeLemmas

/-! Helper lemmas: dividing objects into lots; equations into parts. -/

namespace Yask.Comp
open Relation

section
variable {β κ : Type} [DecidableEq β]

theorem flatMap_add {all : List Nat} (hnd : all.Nodup) {p : Nat} (hp : p ∈ all) (items : Nat → List β) (es : List β) :
    (all.flatMap fun q => if q = p then items p ++ es else items q).Perm (es ++ all.flatMap items) := by
  induction all with
  | nil => simp at hp
  | cons a l ih =>
    obtain ⟨h1, h2⟩ := List.nodup_cons.1 hnd
    simp only [List.flatMap_cons]
    by_cases ha : a = p
    · subst ha
      rw [if_pos rfl]
      have : (l.flatMap fun q => if q = a then items a ++ es else items q) = l.flatMap items := by
        apply List.flatMap_congr
        intro q hq
        rw [if_neg (show ¬ q = a from fun e => h1 (e ▸ hq))]
      rw [this, List.append_assoc]
      refine (List.Perm.append_left _ List.perm_append_comm).trans ?_
      rw [← List.append_assoc]
      exact List.perm_append_comm
    · rw [if_neg ha]
      have hp' : p ∈ l := by
        rcases List.mem_cons.1 hp with e | h
        · exact absurd e.symm ha
        · exact h
      refine ((ih h2 hp').append_left (items a)).trans ?_
      rw [← List.append_assoc, ← List.append_assoc]
      exact List.Perm.append_right _ List.perm_append_comm

/-- The lots hold the placed objects, each once. -/
structure Lots.Inv (st : Lots β κ) : Prop where
  bare : Bare st.g
  lt : ∀ p ∈ st.g.all, p < st.next
  perm : (st.g.all.flatMap st.items).Perm st.placed
  nd : st.placed.Nodup
  ne : ∀ p ∈ st.g.all, st.items p ≠ []

theorem Lots.Inv.empty : ({} : Lots β κ).Inv :=
  ⟨Bare.empty, by simp, by simp, by simp, by simp⟩

theorem Lots.Inv.mem {st : Lots β κ} (h : st.Inv) {p : Nat} (hp : p ∈ st.g.all) {x : β} (hx : x ∈ st.items p) :
    x ∈ st.placed := h.perm.subset (List.mem_flatMap.2 ⟨p, hp, hx⟩)

/-- Appends placed objects to a lot. -/
theorem Lots.Inv.add {st st' : Lots β κ} (h : st.Inv) {p : Nat} (hp : p ∈ st.g.all) {es : List β} (hes : es.Nodup)
    (hd : ∀ e ∈ es, e ∉ st.placed) (hb : Bare st'.g) (hg : st'.g.all = st.g.all) (hn : st'.next = st.next)
    (hi : st'.items = fun q => if q = p then st.items p ++ es else st.items q)
    (hpl : st'.placed = es ++ st.placed) : st'.Inv := by
  refine ⟨hb, ?_, ?_, ?_, ?_⟩
  · rw [hg, hn]; exact h.lt
  · rw [hg, hi, hpl]
    exact (flatMap_add h.bare.nd hp st.items es).trans (h.perm.append_left es)
  · rw [hpl, List.nodup_append]
    exact ⟨hes, h.nd, fun a ha b hb e => hd a ha (e ▸ hb)⟩
  · rw [hg, hi]
    intro q hq
    simp only
    split
    · intro hc
      exact h.ne p hp (List.append_eq_nil_iff.1 hc).1
    · exact h.ne q hq

/-- Makes a new lot. -/
theorem Lots.Inv.newLot {st : Lots β κ} (h : st.Inv) {es : List β} (hes : es.Nodup) (hne : es ≠ [])
    (hd : ∀ e ∈ es, e ∉ st.placed) (k : Option κ) (s : Bool) :
    Lots.Inv { st.newLot es k s with placed := es ++ st.placed } ∧
    (st.newLot es k s).g.all = st.g.all ++ [st.next] ∧ st.next ∉ st.g.all := by
  have hq : st.next ∉ st.g.all := fun hc => absurd (h.lt _ hc) (Nat.lt_irrefl _)
  have hall : (st.newLot es k s).g.all = st.g.all ++ [st.next] := by
    simp [Lots.newLot, DepGroup.addItem, hq]
  refine ⟨⟨h.bare.addItem st.next, ?_, ?_, ?_, ?_⟩, hall, hq⟩
  · intro p hp
    have : p ∈ (st.newLot es k s).g.all := hp
    rw [hall, List.mem_append, List.mem_singleton] at this
    show p < st.next + 1
    rcases this with h' | h'
    · have := h.lt p h'; omega
    · omega
  · show ((st.newLot es k s).g.all.flatMap (st.newLot es k s).items).Perm _
    rw [hall, List.flatMap_append]
    have h1 : st.g.all.flatMap (st.newLot es k s).items = st.g.all.flatMap st.items := by
      apply List.flatMap_congr
      intro q hq'
      simp only [Lots.newLot]
      rw [if_neg (show ¬ q = st.next from fun e => hq (e ▸ hq'))]
    have h2 : [st.next].flatMap (st.newLot es k s).items = es := by simp [Lots.newLot]
    rw [h1, h2]
    exact (List.perm_append_comm).trans (h.perm.append_left es)
  · show (es ++ st.placed).Nodup
    rw [List.nodup_append]
    exact ⟨hes, h.nd, fun a ha b hb e => hd a ha (e ▸ hb)⟩
  · intro p hp
    have : p ∈ (st.newLot es k s).g.all := hp
    rw [hall, List.mem_append, List.mem_singleton] at this
    show (if p = st.next then es else st.items p) ≠ []
    split
    · exact hne
    · rcases this with h' | h'
      · exact h.ne p h'
      · contradiction

end

variable {ε Λ κ ν : Type} [DecidableEq ε] [DecidableEq Λ] [DecidableEq κ] [DecidableEq ν]

/-- The parts are uniform and their equations independent. -/
structure PartsOk (S : EqSys ε Λ κ ν) (d : Deps ε) (st : Lots ε κ) : Prop where
  inv : st.Inv
  key : ∀ p ∈ st.g.all, ∀ x ∈ st.items p, st.key p = some (S.key x) ∧ st.scr p = S.scr x
  ind : ∀ p ∈ st.g.all, ∀ x ∈ st.items p, ∀ y ∈ st.items p, d.isDepOn x y = false

/-- The direct dependences between the lots have no cycle. -/
def LotsAcyclic {β κ : Type} [DecidableEq β] (st : Lots β κ) (r : β → β → Prop) : Prop :=
  ∀ x, ¬ TransGen (Cond st.g.all st.items r) x x

theorem findPart_spec (S : EqSys ε Λ κ ν) (E : DepGroup ε) (hE : E.Ok) {ord : List Nat → List Nat}
    (hord : ∀ l, (ord l).Perm l) (e : ε) (ps : List Nat) (st : Lots ε κ) (hb : Bare st.g) :
    S.findPart E ord st e ps = .ok none ∨
    ∃ p st1, p ∈ ps ∧ S.findPart E ord st e ps = .ok (some st1) ∧ S.fits E.deps st e p = true ∧
      Bare st1.g ∧ st1.g.all = st.g.all ∧ st1.items = (st.addTo p e).items ∧ st1.key = st.key ∧
      st1.scr = st.scr ∧ st1.next = st.next ∧ st1.placed = st.placed ∧
      LotsAcyclic (st.addTo p e) (fun x y => y ∈ E.deps.imm x) := by
  induction ps generalizing st with
  | nil => exact .inl rfl
  | cons p ps ih =>
    simp only [EqSys.findPart]
    by_cases hf : S.fits E.deps st e p = true
    · rw [if_pos hf]
      have hb1 : Bare (st.addTo p e).g := hb
      rcases inherit_spec hb1 (st.addTo p e).items E hE.sub hord with ⟨g, eg, hg, -, hall, -, -, hac, -⟩ | ⟨eg, -⟩
      · rw [eg]
        refine .inr ⟨p, _, List.mem_cons_self, rfl, hf, Bare.clear hg.nd, hall, rfl, rfl, rfl, rfl, rfl, hac⟩
      · rw [eg]
        simp only
        rcases ih { st with g := st.g.clear } (Bare.clear hb.nd) with h | ⟨q, st1, hq, h1, h2, h3, h4, h5, h6⟩
        · exact .inl h
        · exact .inr ⟨q, st1, List.mem_cons_of_mem _ hq, h1, h2, h3, h4, h5, h6⟩
    · rw [if_neg hf]
      rcases ih st hb with h | ⟨q, st1, hq, h⟩
      · exact .inl h
      · exact .inr ⟨q, st1, List.mem_cons_of_mem _ hq, h⟩

theorem addEq_spec (S : EqSys ε Λ κ ν) (E : DepGroup ε) (hE : E.Closed) {ord : List Nat → List Nat}
    (hord : ∀ l, (ord l).Perm l) (st : Lots ε κ) (hst : PartsOk S E.deps st) (e : ε) (he : e ∉ st.placed) :
    ∃ st', S.addEq E ord st e = .ok st' ∧ PartsOk S E.deps st' ∧ st'.placed = e :: st.placed ∧
      ((∀ x y z, y ∈ E.deps.imm x → z ∈ E.deps.imm y → z ∈ E.deps.imm x) →
        LotsAcyclic st (fun x y => y ∈ E.deps.imm x) → LotsAcyclic st' (fun x y => y ∈ E.deps.imm x)) := by
  unfold EqSys.addEq
  rw [if_neg he]
  have hirr : ∀ x, E.deps.isDepOn x x = false := by
    intro x
    by_contra hc
    exact hE.acyc x ((hE.full x x).1 (by simpa using hc))
  -- a new part
  have hnew : ∃ st', (Outcome.ok { st.newLot [e] (some (S.key e)) (S.scr e) with
        placed := e :: (st.newLot [e] (some (S.key e)) (S.scr e)).placed } : Outcome (Lots ε κ)) = .ok st' ∧
      PartsOk S E.deps st' ∧ st'.placed = e :: st.placed ∧
      ((∀ x y z, y ∈ E.deps.imm x → z ∈ E.deps.imm y → z ∈ E.deps.imm x) →
        LotsAcyclic st (fun x y => y ∈ E.deps.imm x) → LotsAcyclic st' (fun x y => y ∈ E.deps.imm x)) := by
    obtain ⟨h1, h2, h3⟩ := hst.inv.newLot (es := [e]) (by simp) (by simp) (by simpa using he) (some (S.key e)) (S.scr e)
    refine ⟨_, rfl, ⟨h1, ?_, ?_⟩, rfl, ?_⟩
    · intro p hp x hx
      have hp' : p ∈ st.g.all ++ [st.next] := h2 ▸ hp
      simp only [Lots.newLot] at hx ⊢
      by_cases hpn : p = st.next
      · rw [if_pos hpn, List.mem_singleton] at hx
        rw [if_pos hpn, if_pos hpn, hx]
        exact ⟨rfl, rfl⟩
      · rw [if_neg hpn] at hx
        rw [if_neg hpn, if_neg hpn]
        exact hst.key p (by simpa [hpn] using hp') x hx
    · intro p hp x hx y hy
      have hp' : p ∈ st.g.all ++ [st.next] := h2 ▸ hp
      simp only [Lots.newLot] at hx hy
      by_cases hpn : p = st.next
      · rw [if_pos hpn, List.mem_singleton] at hx hy
        rw [hx, hy]
        exact hirr e
      · rw [if_neg hpn] at hx hy
        exact hst.ind p (by simpa [hpn] using hp') x hx y hy
    · intro htr hac
      unfold LotsAcyclic
      show ∀ x, ¬ TransGen (Cond (st.newLot [e] (some (S.key e)) (S.scr e)).g.all
        (st.newLot [e] (some (S.key e)) (S.scr e)).items _) x x
      rw [h2]
      refine newLot_acyclic h3 (items := st.items) (e := e) ?_ ?_ htr ?_ ?_ hac
      · intro p hp
        simp only [Lots.newLot]
        rw [if_neg (show ¬ p = st.next from fun e => h3 (e ▸ hp))]
      · simp [Lots.newLot]
      · intro a ha; exact hE.ok.irr a ha
      · intro p hp x hx y hy hxy
        have := hst.ind p hp x hx y hy
        rw [(hE.full x y).2 (.single hxy)] at this
        cases this
  by_cases hbu : S.bundle = true
  · rw [if_pos hbu]
    rcases findPart_spec S E hE.ok hord e st.g.all st hst.inv.bare with
      h | ⟨p, st1, hp, h, hf, hb1, hall, hi, hk, hs, hn, hpl, hac⟩
    · rw [h]
      exact hnew
    · rw [h]
      simp only [EqSys.fits, Bool.and_eq_true, decide_eq_true_eq, List.all_eq_true] at hf
      obtain ⟨⟨f1, f2⟩, f3⟩ := hf
      have hmem : ∀ q x, x ∈ st1.items q → x ∈ st.items q ∨ (q = p ∧ x = e) := by
        intro q x hx
        rw [hi] at hx
        simp only [Lots.addTo] at hx
        by_cases hq : q = p
        · rw [if_pos hq, List.mem_append, List.mem_singleton] at hx
          rcases hx with h' | h'
          · exact .inl (hq ▸ h')
          · exact .inr ⟨hq, h'⟩
        · rw [if_neg hq] at hx
          exact .inl hx
      have hdep : ∀ x ∈ st.items p, E.deps.isDepOn e x = false ∧ E.deps.isDepOn x e = false := by
        intro x hx
        have := (f3 x hx).1.2
        simpa [Deps.isDep] using this
      refine ⟨_, rfl, ⟨?_, ?_, ?_⟩, by simp [hpl], ?_⟩
      · refine hst.inv.add hp (es := [e]) (by simp) (by simpa using he) hb1 hall hn ?_ ?_
        · rw [hi]; rfl
        · simp [hpl]
      · intro q hq x hx
        have hq' : q ∈ st.g.all := hall ▸ hq
        simp only
        rw [hk, hs]
        rcases hmem q x hx with h' | ⟨rfl, rfl⟩
        · exact hst.key q hq' x h'
        · exact ⟨f2, f1⟩
      · intro q hq x hx y hy
        have hq' : q ∈ st.g.all := hall ▸ hq
        rcases hmem q x hx with hx' | ⟨rfl, rfl⟩
        · rcases hmem q y hy with hy' | ⟨rfl, rfl⟩
          · exact hst.ind q hq' x hx' y hy'
          · exact (hdep x hx').2
        · rcases hmem q y hy with hy' | ⟨-, rfl⟩
          · exact (hdep y hy').1
          · exact hirr _
      · intro _ _
        unfold LotsAcyclic at hac ⊢
        simp only
        rw [hall, hi]
        exact hac
  · rw [if_neg hbu]
    exact hnew

theorem addEqs_spec (S : EqSys ε Λ κ ν) (E : DepGroup ε) (hE : E.Closed) {ord : List Nat → List Nat}
    (hord : ∀ l, (ord l).Perm l) (es : List ε) (st : Lots ε κ) (hst : PartsOk S E.deps st) (hnd : es.Nodup)
    (he : ∀ e ∈ es, e ∉ st.placed) :
    ∃ st', es.foldlM (S.addEq E ord) st = .ok st' ∧ PartsOk S E.deps st' ∧
      (∀ x, x ∈ st'.placed ↔ x ∈ st.placed ∨ x ∈ es) ∧
      ((∀ x y z, y ∈ E.deps.imm x → z ∈ E.deps.imm y → z ∈ E.deps.imm x) →
        LotsAcyclic st (fun x y => y ∈ E.deps.imm x) → LotsAcyclic st' (fun x y => y ∈ E.deps.imm x)) := by
  induction es generalizing st with
  | nil => exact ⟨st, rfl, hst, by simp, fun _ h => h⟩
  | cons e es ih =>
    obtain ⟨h1, h2⟩ := List.nodup_cons.1 hnd
    obtain ⟨st1, e1, hs1, hp1, ha1⟩ := addEq_spec S E hE hord st hst e (he e List.mem_cons_self)
    obtain ⟨st2, e2, hs2, hp2, ha2⟩ := ih st1 hs1 h2 (by
      intro x hx
      rw [hp1, List.mem_cons]
      rintro (rfl | h)
      · exact h1 hx
      · exact he x (List.mem_cons_of_mem _ hx) h)
    rw [List.foldlM_cons, e1]
    refine ⟨st2, e2, hs2, fun x => ?_, fun ht hac => ha2 ht (ha1 ht hac)⟩
    rw [hp2, hp1, List.mem_cons, List.mem_cons]
    tauto

/-- The result of `make_parts`. -/
structure PartsResult (S : EqSys ε Λ κ ν) (E : DepGroup ε) (P : Lots ε κ) : Prop where
  ok : P.g.Ok
  full : ∀ a b, P.g.deps.isDepOn a b = true ↔ TransGen (Edge P.g.deps.imm) a b
  acyc : ∀ x, ¬ TransGen (Edge P.g.deps.imm) x x
  imm : ∀ a b, b ∈ P.g.deps.imm a ↔ Cond P.g.all P.items (fun x y => y ∈ E.deps.imm x) a b
  order : P.g.all.Pairwise fun a b => ¬ TransGen (Edge P.g.deps.imm) a b
  ne : ∀ p ∈ P.g.all, P.items p ≠ []
  nd : (P.g.all.flatMap P.items).Nodup
  mem : ∀ x, x ∈ P.g.all.flatMap P.items ↔ x ∈ S.todo
  key : ∀ p ∈ P.g.all, ∀ x ∈ P.items p, P.key p = some (S.key x) ∧ P.scr p = S.scr x
  ind : ∀ p ∈ P.g.all, ∀ x ∈ P.items p, ∀ y ∈ P.items p, E.deps.isDepOn x y = false
  scrImm : ∀ a b, b ∈ P.g.scr.imm a ↔ Cond P.g.all P.items (fun x y => y ∈ E.scr.imm x) a b
  scrFull : ∀ a b, P.g.scr.isDepOn a b = true ↔ TransGen (Edge P.g.scr.imm) a b

theorem cond_congr {β : Type} [DecidableEq β] {l l' : List Nat} (h : ∀ x, x ∈ l ↔ x ∈ l') (items : Nat → List β)
    (r : β → β → Prop) (a b : Nat) : Cond l items r a b ↔ Cond l' items r a b := by
  unfold Cond; rw [h, h]

theorem todo_nodup {S : EqSys ε Λ κ ν} (h : S.eqs.Nodup) : S.todo.Nodup := by
  unfold EqSys.todo
  rw [List.nodup_append]
  refine ⟨h.filter _, h.filter _, ?_⟩
  intro a ha b hb hab
  subst hab
  simp only [List.mem_filter, Bool.and_eq_true, Bool.not_eq_true'] at ha hb
  rw [ha.2.1] at hb
  cases hb.2

theorem makeParts_spec (S : EqSys ε Λ κ ν) (hS : S.eqs.Nodup) (E : DepGroup ε) (hE : E.Closed)
    {ord : List Nat → List Nat} (hord : ∀ l, (ord l).Perm l) :
    ((∃ P, S.makeParts E ord = .ok P ∧ PartsResult S E P) ∨ S.makeParts E ord = .throws) ∧
    ((∀ x y z, y ∈ E.deps.imm x → z ∈ E.deps.imm y → z ∈ E.deps.imm x) → S.makeParts E ord ≠ .throws) := by
  unfold EqSys.makeParts
  obtain ⟨st, e1, hst, hpl, hac⟩ := addEqs_spec S E hE hord S.todo {} ⟨Lots.Inv.empty, by simp, by simp⟩
    (todo_nodup hS) (by simp)
  rw [e1]
  simp only [Outcome.bind_ok]
  rcases inherit_spec hst.inv.bare st.items E hE.ok.sub hord with ⟨g, e2, hg, hd, hall, himm, hsimm, hgac, hsd⟩ | ⟨e2, hc⟩
  · rw [e2]
    simp only [Outcome.bind_ok]
    rcases DepGroup.topoSort_spec hg hord with ⟨g', e3, hg', hp, himm', hsimm', -, hd', hpw, hirr, -, hsd'⟩ | ⟨e3, x, hx⟩
    · rw [e3]
      simp only [Outcome.bind_ok]
      have hmem : ∀ x, x ∈ g'.all ↔ x ∈ st.g.all := by
        intro x; rw [hp.mem_iff, hall]
      have hflat : (g'.all.flatMap st.items).Perm st.placed := by
        refine List.Perm.trans ?_ hst.inv.perm
        rw [← hall]
        exact hp.flatMap_right _
      refine ⟨.inl ⟨_, rfl, ⟨hg', (hg'.strict (hd' hd)).2, ?_, ?_, ?_, ?_, ?_, ?_, ?_, ?_, ?_, hg'.strictScr (hsd' hsd)⟩⟩, fun _ => by simp⟩
      · intro x; rw [himm']; exact hirr x
      · intro a b
        show b ∈ g'.deps.imm a ↔ Cond g'.all st.items _ a b
        rw [himm', himm]
        exact (cond_congr hmem st.items _ a b).symm
      · show g'.all.Pairwise _
        rw [himm']
        exact hpw
      · intro p hp'; exact hst.inv.ne p ((hmem p).1 hp')
      · exact hflat.nodup_iff.2 hst.inv.nd
      · intro x
        rw [hflat.mem_iff, hpl]
        simp
      · intro p hp'; exact hst.key p ((hmem p).1 hp')
      · intro p hp'; exact hst.ind p ((hmem p).1 hp')
      · intro a b
        show b ∈ g'.scr.imm a ↔ Cond g'.all st.items _ a b
        rw [hsimm', hsimm]
        exact (cond_congr hmem st.items _ a b).symm
    · exfalso
      exact hgac x (trans_mono (fun a b hab => (himm a b).1 hab) hx)
  · rw [e2]
    refine ⟨.inr rfl, fun htr => ?_⟩
    exfalso
    obtain ⟨x, hx⟩ := hc
    refine hac htr ?_ x hx
    intro y hy
    obtain ⟨c, hc, -⟩ := TransGen.head'_iff.1 hy
    simp [Cond] at hc

end Yask.Comp
