import Verif.Compiler.LotsLemmas

/-! Helper lemmas: dividing parts into stages. -/

namespace Yask.Comp
open Relation

variable {ε Λ κ ν : Type} [DecidableEq ε] [DecidableEq Λ] [DecidableEq κ] [DecidableEq ν]

/-- The stages are uniform and their parts independent. -/
structure StagesOk (P : Lots ε κ) (st : Lots Nat Unit) : Prop where
  inv : st.Inv
  scr : ∀ s ∈ st.g.all, ∀ p ∈ st.items s, st.scr s = P.scr p
  ind : ∀ s ∈ st.g.all, ∀ x ∈ st.items s, ∀ y ∈ st.items s, P.g.deps.isDepOn x y = false

theorem tryParts_spec (P : DepGroup Nat) (hP : P.Ok) {ord : List Nat → List Nat} (hord : ∀ l, (ord l).Perm l)
    (s : Nat) (pps : List Nat) (st : Lots Nat Unit) (hb : Bare st.g) :
    tryParts P ord st s pps = .ok false ∨
    (tryParts P ord st s pps = .ok true ∧ ∀ pp ∈ pps, ∀ p2 ∈ st.items s, P.deps.isDep pp p2 = false) := by
  induction pps generalizing st with
  | nil => exact .inr ⟨rfl, by simp⟩
  | cons pp pps ih =>
    simp only [tryParts]
    by_cases hd : ((st.items s).any fun p2 => P.deps.isDep pp p2) = true
    · rw [if_pos hd]; exact .inl rfl
    rw [if_neg hd]
    have hd' : ∀ p2 ∈ st.items s, P.deps.isDep pp p2 = false := by simpa using hd
    have hb1 : Bare (st.addTo s pp).g := hb
    rcases inherit_spec hb1 (st.addTo s pp).items P hP.sub hord with ⟨g, eg, -⟩ | ⟨eg, -⟩
    · rw [eg]
      simp only
      rcases ih { st with g := st.g.clear } (Bare.clear hb.nd) with h | ⟨h, h'⟩
      · exact .inl h
      · refine .inr ⟨h, fun q hq => ?_⟩
        rcases List.mem_cons.1 hq with rfl | hq
        · exact hd'
        · exact h' q hq
    · rw [eg]; exact .inl rfl

theorem findStage_spec (S : EqSys ε Λ κ ν) (P : Lots ε κ) (hP : P.g.Ok) {ord : List Nat → List Nat}
    (hord : ∀ l, (ord l).Perm l) (vars logical scr : Bool) (pps ss : List Nat) (st : Lots Nat Unit)
    (hb : Bare st.g) :
    S.findStage P ord vars logical scr st pps ss = .ok none ∨
    ∃ s ∈ ss, S.findStage P ord vars logical scr st pps ss = .ok (some s) ∧ st.scr s = scr ∧
      ∀ pp ∈ pps, ∀ p2 ∈ st.items s, P.g.deps.isDep pp p2 = false := by
  induction ss generalizing st with
  | nil => exact .inl rfl
  | cons s ss ih =>
    have lift : (S.findStage P ord vars logical scr st pps ss = .ok none ∨
        ∃ s ∈ ss, S.findStage P ord vars logical scr st pps ss = .ok (some s) ∧ st.scr s = scr ∧
          ∀ pp ∈ pps, ∀ p2 ∈ st.items s, P.g.deps.isDep pp p2 = false) →
        (S.findStage P ord vars logical scr st pps ss = .ok none ∨
        ∃ s' ∈ s :: ss, S.findStage P ord vars logical scr st pps ss = .ok (some s') ∧ st.scr s' = scr ∧
          ∀ pp ∈ pps, ∀ p2 ∈ st.items s', P.g.deps.isDep pp p2 = false) := by
      rintro (h | ⟨q, hq, h⟩)
      · exact .inl h
      · exact .inr ⟨q, List.mem_cons_of_mem _ hq, h⟩
    simp only [EqSys.findStage]
    by_cases h1 : st.scr s ≠ scr
    · rw [if_pos h1]; exact lift (ih st hb)
    rw [if_neg h1]
    have h1' : st.scr s = scr := by simpa using h1
    by_cases h2 : ((logical || vars) && !S.varMatch P logical pps (st.items s)) = true
    · rw [if_pos h2]; exact lift (ih st hb)
    rw [if_neg h2]
    rcases tryParts_spec P.g hP hord s pps st hb with h | ⟨h, h'⟩
    · rw [h]
      simp only [Outcome.bind_ok, Bool.false_eq_true, if_false]
      rcases ih { st with g := st.g.clear } (Bare.clear hb.nd) with h | ⟨q, hq, h⟩
      · exact .inl h
      · exact .inr ⟨q, List.mem_cons_of_mem _ hq, h⟩
    · rw [h]
      simp only [Outcome.bind_ok, if_true]
      exact .inr ⟨s, List.mem_cons_self, rfl, h1', h'⟩

theorem addParts_spec (S : EqSys ε Λ κ ν) (P : Lots ε κ) (hP : P.g.Ok) {ord : List Nat → List Nat}
    (hord : ∀ l, (ord l).Perm l) (vars logical : Bool) (st : Lots Nat Unit) (hst : StagesOk P st) (pps : List Nat)
    (hne : pps ≠ []) (hnd : pps.Nodup) (hpl : ∀ p ∈ pps, p ∉ st.placed)
    (hscr : ∀ p ∈ pps, ∀ q ∈ pps, P.scr p = P.scr q)
    (hind : ∀ p ∈ pps, ∀ q ∈ pps, P.g.deps.isDepOn p q = false) :
    ∃ st', S.addParts P ord vars logical st pps = .ok st' ∧ StagesOk P st' ∧ st'.placed = pps ++ st.placed := by
  match pps, hne with
  | p0 :: tl, _ =>
    simp only [EqSys.addParts]
    rw [if_neg (hpl p0 List.mem_cons_self)]
    rcases findStage_spec S P hP hord vars logical (P.scr p0) (p0 :: tl) st.g.all st hst.inv.bare with
      h | ⟨s, hs, h, hsc, hdep⟩
    · rw [h]
      simp only [Outcome.bind_ok]
      have hinv0 : Lots.Inv { st with g := st.g.clear } :=
        ⟨Bare.clear hst.inv.bare.nd, hst.inv.lt, hst.inv.perm, hst.inv.nd, hst.inv.ne⟩
      obtain ⟨h1, h2, h3⟩ := hinv0.newLot (es := p0 :: tl) hnd (by simp) hpl none (P.scr p0)
      refine ⟨_, rfl, ⟨h1, ?_, ?_⟩, rfl⟩
      · intro q hq x hx
        have hq' : q ∈ st.g.all ++ [st.next] := h2 ▸ hq
        simp only [Lots.newLot] at hx ⊢
        by_cases hqn : q = st.next
        · rw [if_pos hqn] at hx
          rw [if_pos hqn]
          exact hscr p0 List.mem_cons_self x hx
        · rw [if_neg hqn] at hx
          rw [if_neg hqn]
          exact hst.scr q (by simpa [hqn] using hq') x hx
      · intro q hq x hx y hy
        have hq' : q ∈ st.g.all ++ [st.next] := h2 ▸ hq
        simp only [Lots.newLot] at hx hy
        by_cases hqn : q = st.next
        · rw [if_pos hqn] at hx hy
          exact hind x hx y hy
        · rw [if_neg hqn] at hx hy
          exact hst.ind q (by simpa [hqn] using hq') x hx y hy
    · rw [h]
      simp only [Outcome.bind_ok]
      have hmem : ∀ q x, x ∈ (if q = s then st.items s ++ p0 :: tl else st.items q) →
          x ∈ st.items q ∨ (q = s ∧ x ∈ p0 :: tl) := by
        intro q x hx
        by_cases hq : q = s
        · rw [if_pos hq, List.mem_append] at hx
          rcases hx with h' | h'
          · exact .inl (hq ▸ h')
          · exact .inr ⟨hq, h'⟩
        · rw [if_neg hq] at hx
          exact .inl hx
      have hdep' : ∀ x ∈ p0 :: tl, ∀ y ∈ st.items s,
          P.g.deps.isDepOn x y = false ∧ P.g.deps.isDepOn y x = false := by
        intro x hx y hy
        simpa [Deps.isDep] using hdep x hx y hy
      refine ⟨_, rfl, ⟨?_, ?_, ?_⟩, rfl⟩
      · exact hst.inv.add hs (es := p0 :: tl) hnd hpl (Bare.clear hst.inv.bare.nd) rfl rfl rfl rfl
      · intro q hq x hx
        rcases hmem q x hx with h' | ⟨rfl, h'⟩
        · exact hst.scr q hq x h'
        · exact hsc.trans (hscr p0 List.mem_cons_self x h')
      · intro q hq x hx y hy
        rcases hmem q x hx with hx' | ⟨rfl, hx'⟩
        · rcases hmem q y hy with hy' | ⟨rfl, hy'⟩
          · exact hst.ind q hq x hx' y hy'
          · exact (hdep' y hy' x hx').2
        · rcases hmem q y hy with hy' | ⟨-, hy'⟩
          · exact (hdep' x hx' y hy').1
          · exact hind x hx' y hy'

theorem addAll_spec (S : EqSys ε Λ κ ν) (P : Lots ε κ) (hP : P.g.Ok) {ord : List Nat → List Nat}
    (hord : ∀ l, (ord l).Perm l) (vars logical : Bool) (ls : List Nat) (f : Nat → List Nat)
    (hne : ∀ s ∈ ls, f s ≠ []) (hnd : (ls.flatMap f).Nodup)
    (hscr : ∀ s ∈ ls, ∀ p ∈ f s, ∀ q ∈ f s, P.scr p = P.scr q)
    (hind : ∀ s ∈ ls, ∀ p ∈ f s, ∀ q ∈ f s, P.g.deps.isDepOn p q = false)
    (st : Lots Nat Unit) (hst : StagesOk P st) (hpl : ∀ p ∈ ls.flatMap f, p ∉ st.placed) :
    ∃ st', ls.foldlM (fun st s => S.addParts P ord vars logical st (f s)) st = .ok st' ∧ StagesOk P st' ∧
      ∀ x, x ∈ st'.placed ↔ x ∈ st.placed ∨ x ∈ ls.flatMap f := by
  induction ls generalizing st with
  | nil => exact ⟨st, rfl, hst, by simp⟩
  | cons s ls ih =>
    rw [List.flatMap_cons] at hnd hpl
    obtain ⟨n1, n2, n3⟩ := List.nodup_append.1 hnd
    obtain ⟨st1, e1, h1, hp1⟩ := addParts_spec S P hP hord vars logical st hst (f s) (hne s List.mem_cons_self) n1
      (fun p hp => hpl p (List.mem_append_left _ hp)) (hscr s List.mem_cons_self) (hind s List.mem_cons_self)
    obtain ⟨st2, e2, h2, hp2⟩ := ih (fun q hq => hne q (List.mem_cons_of_mem _ hq)) n2
      (fun q hq => hscr q (List.mem_cons_of_mem _ hq)) (fun q hq => hind q (List.mem_cons_of_mem _ hq)) st1 h1 (by
        intro p hp
        rw [hp1, List.mem_append]
        rintro (h | h)
        · exact n3 p h p hp rfl
        · exact hpl p (List.mem_append_right _ hp) h)
    rw [List.foldlM_cons, e1]
    refine ⟨st2, e2, h2, fun x => ?_⟩
    rw [hp2, hp1, List.flatMap_cons, List.mem_append, List.mem_append]
    tauto

/-- The result of `make_stages`. -/
structure StagesResult (P : Lots ε κ) (Q : Lots Nat Unit) : Prop where
  nd : Q.g.all.Nodup
  acyc : ∀ x, ¬ TransGen (Cond Q.g.all Q.items (fun x y => y ∈ P.g.deps.imm x)) x x
  order : Q.g.all.Pairwise fun a b => ¬ TransGen (Cond Q.g.all Q.items (fun x y => y ∈ P.g.deps.imm x)) a b
  ne : ∀ s ∈ Q.g.all, Q.items s ≠ []
  ndi : (Q.g.all.flatMap Q.items).Nodup
  mem : ∀ x, x ∈ Q.g.all.flatMap Q.items ↔ x ∈ P.g.all
  scr : ∀ s ∈ Q.g.all, ∀ p ∈ Q.items s, Q.scr s = P.scr p
  ind : ∀ s ∈ Q.g.all, ∀ x ∈ Q.items s, ∀ y ∈ Q.items s, P.g.deps.isDepOn x y = false
  scrImm : ∀ a b, b ∈ Q.g.scr.imm a ↔ Cond Q.g.all Q.items (fun x y => y ∈ P.g.scr.imm x) a b
  scrFull : ∀ a b, Q.g.scr.isDepOn a b = true ↔ TransGen (Edge Q.g.scr.imm) a b

theorem groupParts_spec (S : EqSys ε Λ κ ν) (P : Lots ε κ) (hP : P.g.Ok)
    (hirr : ∀ x, P.g.deps.isDepOn x x = false) {ord : List Nat → List Nat} (hord : ∀ l, (ord l).Perm l) :
    ∃ st, S.groupParts P ord = .ok st ∧ StagesOk P st ∧ ∀ x, x ∈ st.placed ↔ x ∈ P.g.all := by
  unfold EqSys.groupParts
  have h0 : StagesOk P ({} : Lots Nat Unit) := ⟨Lots.Inv.empty, by simp, by simp⟩
  have hf : P.g.all.flatMap (fun p => [p]) = P.g.all := by simp
  obtain ⟨st1, e1, h1, p1⟩ := addAll_spec S P hP hord true true P.g.all (fun p => [p]) (by simp)
    (by rw [hf]; exact hP.nd) (by simp) (by
      intro s _ p hp q hq
      simp only [List.mem_singleton] at hp hq
      subst hp; subst hq
      exact hirr _) {} h0 (by simp)
  rw [e1]
  simp only [Outcome.bind_ok]
  have pass : ∀ (a : Lots Nat Unit), StagesOk P a → ∀ l : List Nat, l.Perm a.g.all → ∀ vars,
      ∃ st, l.foldlM (fun st s => S.addParts P ord vars false st (a.items s)) {} = .ok st ∧ StagesOk P st ∧
        ∀ x, x ∈ st.placed ↔ x ∈ a.placed := by
    intro a ha l hl vars
    have hperm : (l.flatMap a.items).Perm a.placed := (hl.flatMap_right _).trans ha.inv.perm
    obtain ⟨st, e, h, p⟩ := addAll_spec S P hP hord vars false l a.items
      (fun s hs => ha.inv.ne s (hl.subset hs)) (hperm.nodup_iff.2 ha.inv.nd)
      (fun s hs p hp q hq => (ha.scr s (hl.subset hs) p hp).symm.trans (ha.scr s (hl.subset hs) q hq))
      (fun s hs => ha.ind s (hl.subset hs)) {} h0 (by simp)
    refine ⟨st, e, h, fun x => ?_⟩
    rw [p, hperm.mem_iff]
    simp
  obtain ⟨st2, e2, h2, p2⟩ := pass st1 h1 st1.g.all (.refl _) true
  rw [e2]
  simp only [Outcome.bind_ok]
  obtain ⟨st3, e3, h3, p3⟩ := pass st2 h2
    ((st2.g.all.filter fun s => !st2.scr s) ++ st2.g.all.filter fun s => st2.scr s) (by
      refine List.perm_append_comm.trans ?_
      have := List.filter_append_perm (fun s => st2.scr s) st2.g.all
      simpa using this) false
  refine ⟨st3, e3, h3, fun x => ?_⟩
  rw [p3, p2, p1, hf]
  simp

theorem makeStages_spec (S : EqSys ε Λ κ ν) (P : Lots ε κ) (hP : P.g.Ok)
    (hirr : ∀ x, P.g.deps.isDepOn x x = false) {ord : List Nat → List Nat} (hord : ∀ l, (ord l).Perm l) :
    (∃ Q, S.makeStages P ord = .ok Q ∧ StagesResult P Q) ∨ S.makeStages P ord = .throws := by
  unfold EqSys.makeStages
  obtain ⟨st, e1, hst, hpl⟩ := groupParts_spec S P hP hirr hord
  rw [e1]
  simp only [Outcome.bind_ok]
  rcases inherit_spec hst.inv.bare st.items P.g hP.sub hord with ⟨g, e2, hg, hd, hall, himm, hsimm, hgac, hsd⟩ | ⟨e2, hc⟩
  · rw [e2]
    simp only [Outcome.bind_ok]
    rcases DepGroup.topoSort_spec hg hord with ⟨g', e3, hg', hp, himm', hsimm', -, hd', hpw, hi, -, hsd'⟩ | ⟨e3, x, hx⟩
    · rw [e3]
      simp only [Outcome.bind_ok]
      have hmem : ∀ x, x ∈ g'.all ↔ x ∈ st.g.all := by
        intro x; rw [hp.mem_iff, hall]
      have hflat : (g'.all.flatMap st.items).Perm st.placed := by
        refine List.Perm.trans ?_ hst.inv.perm
        rw [← hall]
        exact hp.flatMap_right _
      have hconv : ∀ a b, Cond g'.all st.items (fun x y => y ∈ P.g.deps.imm x) a b → b ∈ g.deps.imm a :=
        fun a b hab => (himm a b).2 ((cond_congr hmem st.items _ a b).1 hab)
      refine .inl ⟨_, rfl, ⟨hg'.nd, ?_, ?_, ?_, ?_, ?_, ?_, ?_, ?_, hg'.strictScr (hsd' hsd)⟩⟩
      · intro x hx
        exact hi x (trans_mono (fun a b hab => hconv a b hab) hx)
      · exact hpw.imp fun {a b} hab hc => hab (trans_mono (fun a b hab => hconv a b hab) hc)
      · intro p hp'; exact hst.inv.ne p ((hmem p).1 hp')
      · exact hflat.nodup_iff.2 hst.inv.nd
      · intro x; rw [hflat.mem_iff, hpl]
      · intro s hs; exact hst.scr s ((hmem s).1 hs)
      · intro s hs; exact hst.ind s ((hmem s).1 hs)
      · intro a b
        show b ∈ g'.scr.imm a ↔ Cond g'.all st.items _ a b
        rw [hsimm', hsimm]
        exact (cond_congr hmem st.items _ a b).symm
    · exfalso
      exact hgac x (trans_mono (fun a b hab => (himm a b).1 hab) hx)
  · rw [e2]
    exact .inr rfl

end Yask.Comp
