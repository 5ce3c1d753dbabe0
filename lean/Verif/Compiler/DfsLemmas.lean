import Mathlib.Data.List.Perm.Subperm
import Mathlib.Data.List.Nodup
import Mathlib.Logic.Relation
import Mathlib.Tactic.ByContra
import Verif.Compiler.DepsModel

/-! Helper lemmas: the depth-first search of the dependency graph. -/

namespace Yask.Comp
open Relation

variable {α : Type} [DecidableEq α]

/-- `a` directly depends on `b`. -/
abbrev Edge (imm : α → List α) (a b : α) : Prop := b ∈ imm a

structure Dfs.Inv (imm : α → List α) (U : List α) (s : Dfs α) : Prop where
  finvis : ∀ x ∈ s.fin, x ∈ s.vis
  nd : s.vis.Nodup
  sub : ∀ x ∈ s.vis, x ∈ U
  closed : ∀ x ∈ s.fin, ∀ y ∈ imm x, y ∈ s.fin
  acyc : ∀ x ∈ s.fin, ¬ TransGen (Edge imm) x x

theorem fin_closed {imm : α → List α} {l : List α} (h : ∀ x ∈ l, ∀ y ∈ imm x, y ∈ l) {a b : α} (ha : a ∈ l)
    (hr : ReflTransGen (Edge imm) a b) : b ∈ l := by
  induction hr with
  | refl => exact ha
  | tail _ e ih => exact h _ ih _ e

/-- What one call guarantees. -/
structure Dfs.Step (imm : α → List α) (U : List α) (reach : α → Prop) (s s' : Dfs α) : Prop where
  inv : s'.Inv imm U
  mono : ∀ x ∈ s.fin, x ∈ s'.fin
  active : ∀ x, (x ∈ s'.vis ∧ x ∉ s'.fin) ↔ (x ∈ s.vis ∧ x ∉ s.fin)
  reach : ∀ x ∈ s'.fin, x ∈ s.fin ∨ reach x
  len : s.vis.length ≤ s'.vis.length
  out : ∃ o, s'.out = s.out ++ o ∧ ∀ x, x ∈ o ↔ (x ∈ s'.fin ∧ x ∉ s.fin)

theorem Dfs.Step.refl {imm : α → List α} {U : List α} {reach : α → Prop} {s : Dfs α} (h : s.Inv imm U) :
    Dfs.Step imm U reach s s :=
  ⟨h, fun _ h => h, fun _ => Iff.rfl, fun _ h => Or.inl h, Nat.le_refl _, [], by simp, fun x => by simp⟩

theorem Dfs.Step.trans {imm : α → List α} {U : List α} {reach reach1 reach2 : α → Prop} {s s' s'' : Dfs α}
    (h1 : Dfs.Step imm U reach1 s s') (h2 : Dfs.Step imm U reach2 s' s'') (i1 : ∀ x, reach1 x → reach x)
    (i2 : ∀ x, reach2 x → reach x) : Dfs.Step imm U reach s s'' := by
  refine ⟨h2.inv, fun x hx => h2.mono x (h1.mono x hx), fun x => (h2.active x).trans (h1.active x),
    fun x hx => ?_, Nat.le_trans h1.len h2.len, ?_⟩
  · rcases h2.reach x hx with h | h
    · rcases h1.reach x h with h | h
      · exact .inl h
      · exact .inr (i1 x h)
    · exact .inr (i2 x h)
  · obtain ⟨o1, e1, m1⟩ := h1.out
    obtain ⟨o2, e2, m2⟩ := h2.out
    refine ⟨o1 ++ o2, by rw [e2, e1, List.append_assoc], fun x => ?_⟩
    rw [List.mem_append, m1, m2]
    constructor
    · rintro (⟨h, h'⟩ | ⟨h, h'⟩)
      · exact ⟨h2.mono x h, h'⟩
      · exact ⟨h, fun hc => h' (h1.mono x hc)⟩
    · rintro ⟨h, h'⟩
      by_cases hx : x ∈ s'.fin
      · exact .inl ⟨hx, h'⟩
      · exact .inr ⟨h, hx⟩

/-- The search ends; it throws only if there is a cycle, and otherwise finds the objects that are reachable. -/
theorem dfs_spec {imm : α → List α} {U : List α} (hU : ∀ a ∈ U, ∀ b ∈ imm a, b ∈ U)
    {ord : List α → List α} (hord : ∀ l, (ord l).Perm l) (pre : Bool) (n : Nat) (a : α) (s : Dfs α) (ha : a ∈ U)
    (hs : s.Inv imm U) (hn : U.length < n + s.vis.length)
    (hact : ∀ x ∈ s.vis, x ∉ s.fin → TransGen (Edge imm) x a) :
    (∃ s', dfs imm ord pre n a s = .ok s' ∧ a ∈ s'.fin ∧
      Dfs.Step imm U (ReflTransGen (Edge imm) a) s s') ∨
    (dfs imm ord pre n a s = .throws ∧ ∃ x, TransGen (Edge imm) x x) := by
  induction n generalizing a s with
  | zero =>
    exfalso
    have := (List.subperm_of_subset hs.nd hs.sub).length_le
    omega
  | succ n ih =>
    simp only [dfs]
    by_cases h1 : a ∈ s.fin
    · rw [if_pos h1]
      exact .inl ⟨s, rfl, h1, Dfs.Step.refl hs⟩
    rw [if_neg h1]
    by_cases h2 : a ∈ s.vis
    · rw [if_pos h2]
      exact .inr ⟨rfl, a, hact a h2 h1⟩
    rw [if_neg h2]
    -- the dependencies
    have key : ∀ (bs : List α), (∀ b ∈ bs, b ∈ imm a) → ∀ t : Dfs α, t.Inv imm U →
        (∀ x, (x ∈ t.vis ∧ x ∉ t.fin) ↔ (x = a ∨ (x ∈ s.vis ∧ x ∉ s.fin))) →
        s.vis.length + 1 ≤ t.vis.length →
        (∃ t', bs.foldlM (fun s b => dfs imm ord pre n b s) t = .ok t' ∧ (∀ b ∈ bs, b ∈ t'.fin) ∧
          Dfs.Step imm U (ReflTransGen (Edge imm) a) t t') ∨
        (bs.foldlM (fun s b => dfs imm ord pre n b s) t = .throws ∧ ∃ x, TransGen (Edge imm) x x) := by
      intro bs
      induction bs with
      | nil => intro _ t ht _ _; exact .inl ⟨t, rfl, by simp, Dfs.Step.refl ht⟩
      | cons b bs ihb =>
        intro hb t ht hta htl
        have hba : b ∈ imm a := hb b List.mem_cons_self
        rw [List.foldlM_cons]
        rcases ih b t (hU a ha b hba) ht (by omega) (by
          intro x hx hx'
          rcases (hta x).1 ⟨hx, hx'⟩ with rfl | ⟨h, h'⟩
          · exact TransGen.single hba
          · exact (hact x h h').tail hba) with ⟨t', e, hbf, st⟩ | ⟨e, hc⟩
        · rw [e]
          simp only [Outcome.bind_ok]
          rcases ihb (fun c hc => hb c (List.mem_cons_of_mem _ hc)) t' st.inv
            (fun x => (st.active x).trans (hta x)) (Nat.le_trans htl st.len) with ⟨t'', e', hbf', st'⟩ | ⟨e', hc⟩
          · refine .inl ⟨t'', e', ?_, st.trans st' (fun x h => ?_) fun _ h => h⟩
            · intro c hc
              rcases List.mem_cons.1 hc with rfl | hc
              · exact st'.mono _ hbf
              · exact hbf' c hc
            · exact (ReflTransGen.single hba).trans h
          · exact .inr ⟨e', hc⟩
        · rw [e]
          exact .inr ⟨rfl, hc⟩
    have hs1 : Dfs.Inv imm U ⟨a :: s.vis, s.fin, if pre then s.out ++ [a] else s.out⟩ := by
      refine ⟨fun x hx => List.mem_cons_of_mem _ (hs.finvis x hx), List.nodup_cons.2 ⟨h2, hs.nd⟩, ?_, hs.closed,
        hs.acyc⟩
      intro x hx
      rcases List.mem_cons.1 hx with rfl | hx
      · exact ha
      · exact hs.sub x hx
    rcases key (ord (imm a)) (fun b hb => (hord _).subset hb) _ hs1 (by
        intro x
        simp only [List.mem_cons]
        constructor
        · rintro ⟨rfl | h, h'⟩
          · exact .inl rfl
          · exact .inr ⟨h, h'⟩
        · rintro (rfl | ⟨h, h'⟩)
          · exact ⟨.inl rfl, h1⟩
          · exact ⟨.inr h, h'⟩) (by simp) with ⟨t, e, hbf, st⟩ | ⟨e, hc⟩
    · rw [e]
      simp only [Outcome.bind_ok]
      have hat : a ∈ t.vis ∧ a ∉ t.fin := (st.active a).2 ⟨List.mem_cons_self, h1⟩
      have hdeps : ∀ y ∈ imm a, y ∈ t.fin := fun y hy => hbf y ((hord _).symm.subset hy)
      refine .inl ⟨_, rfl, List.mem_cons_self, ?_, ?_, ?_, ?_, ?_, ?_⟩
      · refine ⟨?_, st.inv.nd, st.inv.sub, ?_, ?_⟩
        · intro x hx
          rcases List.mem_cons.1 hx with rfl | hx
          · exact hat.1
          · exact st.inv.finvis x hx
        · intro x hx y hy
          rcases List.mem_cons.1 hx with rfl | hx
          · exact List.mem_cons_of_mem _ (hdeps y hy)
          · exact List.mem_cons_of_mem _ (st.inv.closed x hx y hy)
        · intro x hx hc
          rcases List.mem_cons.1 hx with rfl | hx
          · obtain ⟨y, hy, hr⟩ := TransGen.head'_iff.1 hc
            exact hat.2 (fin_closed st.inv.closed (hdeps y hy) hr)
          · exact st.inv.acyc x hx hc
      · intro x hx
        exact List.mem_cons_of_mem _ (st.mono x hx)
      · intro x
        have := st.active x
        simp only [List.mem_cons, not_or] at this ⊢
        constructor
        · rintro ⟨h, h', h''⟩
          obtain ⟨rfl | h3, h4⟩ := this.1 ⟨h, h''⟩
          · exact absurd rfl h'
          · exact ⟨h3, h4⟩
        · rintro ⟨h, h'⟩
          have := this.2 ⟨.inr h, h'⟩
          exact ⟨this.1, fun hc => h2 (hc ▸ h), this.2⟩
      · intro x hx
        rcases List.mem_cons.1 hx with rfl | hx
        · exact .inr .refl
        · exact st.reach x hx
      · have := st.len
        simp only [List.length_cons] at this ⊢
        omega
      · obtain ⟨o, eo, mo⟩ := st.out
        simp only at eo mo
        cases pre with
        | true =>
          refine ⟨a :: o, ?_, fun x => ?_⟩
          · simp only [if_true] at eo ⊢
            rw [eo]; simp
          · simp only [List.mem_cons, mo]
            constructor
            · rintro (rfl | ⟨h, h'⟩)
              · exact ⟨.inl rfl, h1⟩
              · exact ⟨.inr h, h'⟩
            · rintro ⟨rfl | h, h'⟩
              · exact .inl rfl
              · exact .inr ⟨h, h'⟩
        | false =>
          refine ⟨o ++ [a], ?_, fun x => ?_⟩
          · simp only [Bool.false_eq_true, if_false] at eo ⊢
            rw [eo]; simp
          · simp only [List.mem_append, mo, List.mem_cons, List.not_mem_nil, or_false]
            constructor
            · rintro (⟨h, h'⟩ | rfl)
              · exact ⟨.inr h, h'⟩
              · exact ⟨.inl rfl, h1⟩
            · rintro ⟨rfl | h, h'⟩
              · exact .inr rfl
              · exact .inl ⟨h, h'⟩
    · rw [e]
      exact .inr ⟨rfl, hc⟩

/-- The graph is complete: both ends of every edge are recorded. -/
structure Deps.Ok (d : Deps α) : Prop where
  src : ∀ a b, b ∈ d.imm a → a ∈ d.all
  dst : ∀ a b, b ∈ d.imm a → b ∈ d.all
  sound : ∀ a b, b ∈ d.full a → TransGen (Edge d.imm) a b
  complete : d.done = true → ∀ a b, TransGen (Edge d.imm) a b → b ∈ d.full a
  acyc : d.done = true → ∀ a, ¬ TransGen (Edge d.imm) a a

theorem Deps.visit_spec {d : Deps α} (h : d.Ok) {ord : List α → List α} (hord : ∀ l, (ord l).Perm l) (pre : Bool)
    {a : α} (ha : a ∈ d.all) :
    (∃ bs, d.visit ord pre a = .ok bs ∧ (∀ x, x ∈ bs ↔ ReflTransGen (Edge d.imm) a x) ∧
      ∀ x, ReflTransGen (Edge d.imm) a x → ¬ TransGen (Edge d.imm) x x) ∨
    (d.visit ord pre a = .throws ∧ ∃ x, TransGen (Edge d.imm) x x) := by
  unfold Deps.visit
  rcases dfs_spec (imm := d.imm) (U := d.all) (fun a _ b hb => h.dst a b hb) hord pre (d.all.length + 2) a {} ha
    ⟨by simp, by simp, by simp, by simp, by simp⟩ (by simp) (by simp) with ⟨s, e, ha', st⟩ | ⟨e, hc⟩
  · rw [e]
    simp only [Outcome.bind_ok]
    obtain ⟨o, eo, mo⟩ := st.out
    refine .inl ⟨_, rfl, fun x => ?_, fun x hx => st.inv.acyc x (fin_closed st.inv.closed ha' hx)⟩
    have : s.out = o := by simpa using eo
    rw [this, mo]
    constructor
    · rintro ⟨h, -⟩
      rcases st.reach x h with h | h
      · simp at h
      · exact h
    · intro hx
      exact ⟨fin_closed st.inv.closed ha' hx, by simp⟩
  · rw [e]
    exact .inr ⟨rfl, hc⟩

theorem mem_setInsert {l : List α} {a x : α} : x ∈ setInsert l a ↔ x = a ∨ x ∈ l := by
  unfold setInsert
  split
  · constructor
    · exact .inr
    · rintro (rfl | h)
      · assumption
      · exact h
  · exact List.mem_cons

theorem mem_foldInsert (a : α) (bs l : List α) (x : α) :
    x ∈ bs.foldl (fun l b => if a ≠ b then setInsert l b else l) l ↔ x ∈ l ∨ (x ∈ bs ∧ a ≠ x) := by
  induction bs generalizing l with
  | nil => simp
  | cons b bs ih =>
    rw [List.foldl_cons, ih]
    by_cases hb : a ≠ b
    · rw [if_pos hb, mem_setInsert, List.mem_cons]
      constructor
      · rintro ((rfl | h) | h)
        · exact .inr ⟨.inl rfl, hb⟩
        · exact .inl h
        · exact .inr ⟨.inr h.1, h.2⟩
      · rintro (h | ⟨rfl | h, h'⟩)
        · exact .inl (.inr h)
        · exact .inl (.inl rfl)
        · exact .inr ⟨h, h'⟩
    · rw [if_neg hb, List.mem_cons]
      have hb' : a = b := by simpa using hb
      constructor
      · rintro (h | h)
        · exact .inl h
        · exact .inr ⟨.inr h.1, h.2⟩
      · rintro (h | ⟨rfl | h, h'⟩)
        · exact .inl h
        · exact absurd hb' h'
        · exact .inr ⟨h, h'⟩

/-- `find_all_deps` computes the transitive closure, or throws because of a cycle. -/
theorem Deps.findAll_spec {d : Deps α} (h : d.Ok) {ord : List α → List α} (hord : ∀ l, (ord l).Perm l) :
    (∃ d', d.findAll ord = .ok d' ∧ d'.Ok ∧ d'.done = true ∧ d'.imm = d.imm ∧ d'.all = d.all) ∨
    (d.findAll ord = .throws ∧ ∃ x, TransGen (Edge d.imm) x x) := by
  unfold Deps.findAll
  by_cases hd : d.done = true
  · rw [if_pos hd]
    exact .inl ⟨d, rfl, h, hd, rfl, rfl⟩
  rw [if_neg hd]
  have key : ∀ (as : List α), (∀ a ∈ as, a ∈ d.all) → ∀ (full : α → List α),
      (∀ a b, b ∈ full a → TransGen (Edge d.imm) a b) →
      (∃ full', as.foldlM (fun (full : α → List α) a => do
          let bs ← d.visit ord true a
          .ok (fun x => if x = a then bs.foldl (fun l b => if a ≠ b then setInsert l b else l) (full a)
            else full x)) full = .ok full' ∧
        (∀ a b, b ∈ full' a → TransGen (Edge d.imm) a b) ∧ (∀ a b, b ∈ full a → b ∈ full' a) ∧
        ∀ a ∈ as, (∀ b, TransGen (Edge d.imm) a b → b ∈ full' a) ∧ ¬ TransGen (Edge d.imm) a a) ∨
      (as.foldlM (fun (full : α → List α) a => do
          let bs ← d.visit ord true a
          .ok (fun x => if x = a then bs.foldl (fun l b => if a ≠ b then setInsert l b else l) (full a)
            else full x)) full = .throws ∧ ∃ x, TransGen (Edge d.imm) x x) := by
    intro as
    induction as with
    | nil => intro _ full hf; exact .inl ⟨full, rfl, hf, fun _ _ h => h, by simp⟩
    | cons a as ih =>
      intro has full hf
      rw [List.foldlM_cons]
      rcases Deps.visit_spec h hord true (has a List.mem_cons_self) with ⟨bs, e, mb, hac⟩ | ⟨e, hc⟩
      · rw [e]
        simp only [Outcome.bind_ok]
        have hf1 : ∀ x b, b ∈ (if x = a then bs.foldl (fun l b => if a ≠ b then setInsert l b else l) (full a)
            else full x) ↔ b ∈ full x ∨ (x = a ∧ b ∈ bs ∧ a ≠ b) := by
          intro x b
          by_cases hx : x = a
          · subst hx
            rw [if_pos rfl, mem_foldInsert]
            simp
          · rw [if_neg hx]
            simp [hx]
        rcases ih (fun b hb => has b (List.mem_cons_of_mem _ hb)) _ (by
          intro x b hb
          rcases (hf1 x b).1 hb with h | ⟨rfl, h, h'⟩
          · exact hf x b h
          · rcases Relation.reflTransGen_iff_eq_or_transGen.1 ((mb b).1 h) with e | e
            · exact absurd e.symm h'
            · exact e) with ⟨full', e', h1, h2, h3⟩ | ⟨e', hc⟩
        · refine .inl ⟨full', e', h1, fun x b hb => h2 x b ((hf1 x b).2 (.inl hb)), ?_⟩
          intro x hx
          rcases List.mem_cons.1 hx with rfl | hx
          · refine ⟨fun b hb => h2 x b ((hf1 x b).2 (.inr ⟨rfl, (mb b).2 hb.to_reflTransGen, ?_⟩)),
              hac x .refl⟩
            rintro rfl
            exact hac x .refl hb
          · exact h3 x hx
        · exact .inr ⟨e', hc⟩
      · rw [e]
        exact .inr ⟨rfl, hc⟩
  rcases key (ord d.all) (fun a ha => (hord _).subset ha) d.full h.sound with ⟨full', e, h1, h2, h3⟩ | ⟨e, hc⟩
  · rw [e]
    have hsrc : ∀ a b, TransGen (Edge d.imm) a b → a ∈ ord d.all := by
      intro a b hab
      obtain ⟨c, hc, -⟩ := TransGen.head'_iff.1 hab
      exact (hord _).symm.subset (h.src a c hc)
    refine .inl ⟨_, rfl, ⟨h.src, h.dst, h1, fun _ a b hab => (h3 a (hsrc a b hab)).1 b hab,
      fun _ a haa => (h3 a (hsrc a a haa)).2 haa⟩, rfl, rfl, rfl⟩
  · rw [e]
    exact .inr ⟨rfl, hc⟩

theorem Deps.setImm_ok {d : Deps α} (h : d.Ok) (a b : α) : (d.setImm a b).Ok := by
  have he : ∀ x y, y ∈ (d.setImm a b).imm x ↔ y ∈ d.imm x ∨ (x = a ∧ y = b) := by
    intro x y
    unfold Deps.setImm
    simp only
    by_cases hx : x = a
    · subst hx; rw [if_pos rfl, mem_setInsert]; simp [or_comm]
    · rw [if_neg hx]; simp [hx]
  have hal : ∀ x, x ∈ (d.setImm a b).all ↔ x = b ∨ x = a ∨ x ∈ d.all := by
    intro x; unfold Deps.setImm; simp only [mem_setInsert]
  refine ⟨?_, ?_, ?_, ?_, ?_⟩
  · intro x y hy
    rw [hal]
    rcases (he x y).1 hy with h' | ⟨rfl, -⟩
    · exact .inr (.inr (h.src x y h'))
    · exact .inr (.inl rfl)
  · intro x y hy
    rw [hal]
    rcases (he x y).1 hy with h' | ⟨-, rfl⟩
    · exact .inr (.inr (h.dst x y h'))
    · exact .inl rfl
  · intro x y hy
    exact TransGen.mono (fun u v huv => (he u v).2 (.inl huv)) x y (h.sound x y hy)
  · intro hd; simp [Deps.setImm] at hd
  · intro hd; simp [Deps.setImm] at hd

theorem Deps.clear_ok (d : Deps α) : d.clear.Ok := by
  have : ∀ a b, ¬ TransGen (Edge d.clear.imm) a b := by
    intro a b hab
    obtain ⟨c, hc, -⟩ := TransGen.head'_iff.1 hab
    simp [Deps.clear, Edge] at hc
  refine ⟨?_, ?_, ?_, fun _ a b hab => absurd hab (this a b), fun _ a => this a a⟩ <;> simp [Deps.clear]

theorem Deps.empty_ok : ({} : Deps α).Ok := by
  refine ⟨?_, ?_, ?_, ?_, ?_⟩ <;> simp

end Yask.Comp
