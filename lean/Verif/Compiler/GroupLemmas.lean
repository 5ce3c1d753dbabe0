import Verif.Compiler.TopoLemmas

/-! Helper lemmas: `DepGroup` as a whole. -/

namespace Yask.Comp
open Relation

variable {α : Type} [DecidableEq α]

/-- What is always true of a group. -/
structure DepGroup.Ok (g : DepGroup α) : Prop where
  nd : g.all.Nodup
  deps : g.deps.Ok
  scr : g.scr.Ok
  sub : ∀ a b, b ∈ g.scr.imm a → b ∈ g.deps.imm a
  mem : ∀ a b, b ∈ g.deps.imm a → a ∈ g.all ∧ b ∈ g.all
  irr : ∀ a, a ∉ g.deps.imm a

theorem mem_addItem {g : DepGroup α} {a x : α} : x ∈ (g.addItem a).all ↔ x ∈ g.all ∨ x = a := by
  unfold DepGroup.addItem
  simp only
  split
  · constructor
    · exact .inl
    · rintro (h | rfl)
      · exact h
      · assumption
  · simp

theorem addItem_nodup {g : DepGroup α} (h : g.all.Nodup) (a : α) : (g.addItem a).all.Nodup := by
  unfold DepGroup.addItem
  simp only
  split
  · exact h
  · rename_i ha
    rw [List.nodup_append]
    refine ⟨h, by simp, ?_⟩
    intro x hx y hy
    rw [List.mem_singleton] at hy
    subst hy
    exact fun e => ha (e ▸ hx)

theorem DepGroup.Ok.addItem {g : DepGroup α} (h : g.Ok) (a : α) :
    (g.addItem a).Ok :=
  ⟨addItem_nodup h.nd a, h.deps, h.scr, h.sub,
    fun x y hy => ⟨mem_addItem.2 (.inl (h.mem x y hy).1), mem_addItem.2 (.inl (h.mem x y hy).2)⟩, h.irr⟩

theorem mem_setImm_imm {d : Deps α} {a b x y : α} :
    y ∈ (d.setImm a b).imm x ↔ y ∈ d.imm x ∨ (x = a ∧ y = b) := by
  unfold Deps.setImm
  simp only
  by_cases hx : x = a
  · subst hx; rw [if_pos rfl, mem_setInsert]; simp [or_comm]
  · rw [if_neg hx]; simp [hx]

theorem DepGroup.Ok.setImm (isScr : α → Bool) {g : DepGroup α} (h : g.Ok) {a b : α} (hab : a ≠ b) :
    ∃ g', g.setImm isScr a b = .ok g' ∧ g'.Ok ∧
      (∀ x y, y ∈ g'.deps.imm x ↔ y ∈ g.deps.imm x ∨ (x = a ∧ y = b)) ∧
      (∀ x y, y ∈ g'.scr.imm x ↔ y ∈ g.scr.imm x ∨ (x = a ∧ y = b ∧ isScr b = true)) ∧
      (∀ x, x ∈ g'.all ↔ x ∈ g.all ∨ x = a ∨ x = b) ∧ g'.all = ((g.addItem a).addItem b).all := by
  have h1 := (h.addItem a).addItem b
  have hal : ∀ x, x ∈ ((g.addItem a).addItem b).all ↔ x ∈ g.all ∨ x = a ∨ x = b := by
    intro x; rw [mem_addItem, mem_addItem, or_assoc]
  unfold DepGroup.setImm
  rw [if_neg hab]
  have hscr : ∀ x y, y ∈ (if isScr b then ((g.addItem a).addItem b).scr.setImm a b
      else ((g.addItem a).addItem b).scr).imm x ↔ y ∈ g.scr.imm x ∨ (x = a ∧ y = b ∧ isScr b = true) := by
    intro x y
    by_cases hb : isScr b = true
    · rw [if_pos hb, mem_setImm_imm]; simp [hb, DepGroup.addItem]
    · rw [if_neg hb]; simp [hb, DepGroup.addItem]
  refine ⟨_, rfl, ⟨h1.nd, Deps.setImm_ok h1.deps a b, ?_, ?_, ?_, ?_⟩, fun x y => mem_setImm_imm, hscr, hal, rfl⟩
  · simp only
    split
    · exact Deps.setImm_ok h1.scr a b
    · exact h1.scr
  · intro x y hy
    rcases (hscr x y).1 hy with h' | ⟨rfl, rfl, -⟩
    · exact mem_setImm_imm.2 (.inl (h.sub x y h'))
    · exact mem_setImm_imm.2 (.inr ⟨rfl, rfl⟩)
  · intro x y hy
    rcases mem_setImm_imm.1 hy with h' | ⟨rfl, rfl⟩
    · exact h1.mem x y h'
    · exact ⟨(hal _).2 (.inr (.inl rfl)), (hal _).2 (.inr (.inr rfl))⟩
  · intro x hx
    rcases mem_setImm_imm.1 hx with h' | ⟨rfl, rfl⟩
    · exact h.irr x h'
    · exact hab rfl

theorem DepGroup.Ok.clear {g : DepGroup α} (h : g.Ok) : g.clear.Ok := by
  refine ⟨h.nd, Deps.clear_ok g.deps, Deps.clear_ok g.scr, ?_, ?_, ?_⟩ <;> simp [DepGroup.clear, Deps.clear]

theorem trans_mono {r s : α → α → Prop} (h : ∀ a b, r a b → s a b) {a b : α} (hab : TransGen r a b) :
    TransGen s a b := TransGen.mono h a b hab

/-- `find_all_deps` of a group: it returns if and only if there is no cycle. -/
theorem DepGroup.findAll_spec {g : DepGroup α} (h : g.Ok) {ord : List α → List α}
    (hord : ∀ l, (ord l).Perm l) :
    (∃ g', g.findAll ord = .ok g' ∧ g'.Ok ∧ g'.deps.done = true ∧ g'.all = g.all ∧
      g'.deps.imm = g.deps.imm ∧ g'.scr.imm = g.scr.imm ∧ (∀ x, ¬ TransGen (Edge g.deps.imm) x x) ∧ g'.scr.done = true) ∨
    (g.findAll ord = .throws ∧ ∃ x, TransGen (Edge g.deps.imm) x x) := by
  unfold DepGroup.findAll
  rcases Deps.findAll_spec h.deps hord with ⟨d, e, hd, hdone, himm, hall⟩ | ⟨e, hc⟩
  · rw [e]
    simp only [Outcome.bind_ok]
    have hac : ∀ x, ¬ TransGen (Edge g.deps.imm) x x := by
      rw [← himm]; exact hd.acyc hdone
    rcases Deps.findAll_spec h.scr hord with ⟨s, e', hs, hsdone, hsimm, hsall⟩ | ⟨e', x, hx⟩
    · rw [e']
      refine .inl ⟨_, rfl, ⟨h.nd, hd, hs, ?_, ?_, ?_⟩, hdone, rfl, himm, hsimm, hac, hsdone⟩
      · intro a b hab; simp only at hab ⊢; rw [hsimm] at hab; rw [himm]; exact h.sub a b hab
      · intro a b hb; simp only at hb ⊢; rw [himm] at hb; exact h.mem a b hb
      · intro a; simp only; rw [himm]; exact h.irr a
    · exact absurd (trans_mono (fun a b hab => h.sub a b hab) hx) (hac x)
  · rw [e]
    exact .inr ⟨rfl, hc⟩

theorem DepGroup.Ok.strict {g : DepGroup α} (h : g.Ok) (hd : g.deps.done = true) :
    StrictDeps g.deps ∧ ∀ a b, g.deps.isDepOn a b = true ↔ TransGen (Edge g.deps.imm) a b := by
  have key : ∀ a b, g.deps.isDepOn a b = true ↔ TransGen (Edge g.deps.imm) a b := by
    intro a b
    unfold Deps.isDepOn
    rw [decide_eq_true_iff]
    exact ⟨h.deps.sound a b, h.deps.complete hd a b⟩
  refine ⟨⟨fun a => ?_, fun a b c => ?_⟩, key⟩
  · by_contra hc
    exact h.deps.acyc hd a ((key a a).1 (by simpa using hc))
  · rw [key, key, key]
    exact TransGen.trans

theorem DepGroup.Ok.strictScr {g : DepGroup α} (h : g.Ok) (hd : g.scr.done = true) :
    ∀ a b, g.scr.isDepOn a b = true ↔ TransGen (Edge g.scr.imm) a b := by
  intro a b
  unfold Deps.isDepOn
  rw [decide_eq_true_iff]
  exact ⟨h.scr.sound a b, h.scr.complete hd a b⟩

theorem DepGroup.topoSort_spec {g : DepGroup α} (h : g.Ok) {ord : List α → List α}
    (hord : ∀ l, (ord l).Perm l) :
    (∃ g', g.topoSort ord = .ok g' ∧ g'.Ok ∧ g'.all.Perm g.all ∧ g'.deps.imm = g.deps.imm ∧
      g'.scr.imm = g.scr.imm ∧
      (1 < g.all.length → g'.deps.done = true) ∧ (g.deps.done = true → g'.deps.done = true) ∧
      g'.all.Pairwise (fun a b => ¬ TransGen (Edge g.deps.imm) a b) ∧
      (∀ x, ¬ TransGen (Edge g.deps.imm) x x) ∧
      (g.all.Pairwise (fun a b => ¬ TransGen (Edge g.deps.imm) a b) → g'.all = g.all) ∧ (g.scr.done = true → g'.scr.done = true)) ∨
    (g.topoSort ord = .throws ∧ ∃ x, TransGen (Edge g.deps.imm) x x) := by
  unfold DepGroup.topoSort
  by_cases hl : g.all.length ≤ 1
  · rw [if_pos hl]
    have hno : ∀ a b, b ∉ g.deps.imm a := by
      intro a b hb
      obtain ⟨h1, h2⟩ := h.mem a b hb
      have hab : a ≠ b := fun e => h.irr a (by rw [← e] at hb; exact hb)
      match hg : g.all, hl, h1, h2 with
      | [], _, h1, _ => simp at h1
      | [c], _, h1, h2 =>
        rw [List.mem_singleton] at h1 h2
        exact hab (h1.trans h2.symm)
    have hac : ∀ a b, ¬ TransGen (Edge g.deps.imm) a b := by
      intro a b hab
      obtain ⟨c, hc, -⟩ := TransGen.head'_iff.1 hab
      exact hno _ _ hc
    refine .inl ⟨g, rfl, h, .refl _, rfl, rfl, fun hc => by omega, fun h => h, ?_, fun x => hac x x, fun _ => rfl, fun h => h⟩
    exact List.Pairwise.imp_of_mem (R := fun _ _ => True) (fun {a b} _ _ _ => hac a b) (List.pairwise_of_forall (fun _ _ => trivial))
  rw [if_neg hl]
  rcases DepGroup.findAll_spec h hord with ⟨g', e, hg', hdone, hall, himm, hsimm, hac, hsdone⟩ | ⟨e, hc⟩
  · rw [e]
    simp only [Outcome.bind_ok]
    obtain ⟨hst, hkey⟩ := hg'.strict hdone
    rw [himm] at hkey
    obtain ⟨r, er, hp, hpw, hkeep⟩ := sortFrom_spec hst g'.all.length g'.all (Nat.le_refl _) hg'.nd
    rw [er]
    have hconv : ∀ a b, g'.deps.isDepOn a b = false ↔ ¬ TransGen (Edge g.deps.imm) a b := by
      intro a b; rw [← hkey]; simp
    refine .inl ⟨_, rfl, ⟨hp.nodup_iff.2 hg'.nd, hg'.deps, hg'.scr, hg'.sub, ?_, hg'.irr⟩,
      hall ▸ hp, himm, hsimm, fun _ => hdone, fun _ => hdone, ?_, hac, ?_, fun _ => hsdone⟩
    · intro a b hb
      exact ⟨hp.symm.subset (hg'.mem a b hb).1, hp.symm.subset (hg'.mem a b hb).2⟩
    · exact hpw.imp fun {a b} hab => (hconv a b).1 hab
    · intro hpw'
      simp only
      rw [hkeep (hall ▸ hpw'.imp fun {a b} hab => (hconv a b).2 hab), hall]
  · rw [e]
    exact .inr ⟨rfl, hc⟩

end Yask.Comp
