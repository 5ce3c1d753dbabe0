import Mathlib.Data.List.Induction
import Verif.Compiler.GroupLemmas

/-!
# Dependency analysis and topological order (C44, C45)

The operations on a dependency group: an object is added, a direct dependence is recorded, the dependences
are cleared, the closure is computed.  The specification of a history is the relation of the direct
dependences recorded since they were last cleared.  Sets iterate in an arbitrary order `ord`.
-/

namespace Yask
open Relation Comp

/-- An operation on a dependency group. -/
inductive DepOp (α : Type)
  /-- `add_item(a)` -/
  | add (a : α)
  /-- `set_imm_dep_on(a, b)`: `a` depends on `b` -/
  | dep (a b : α)
  /-- `clear_deps()` -/
  | clear
  /-- `find_all_deps()` -/
  | close

variable {α : Type} [DecidableEq α]

/-- Executes one operation. -/
def DepOp.run (isScr : α → Bool) (ord : List α → List α) (g : DepGroup α) : DepOp α → Outcome (DepGroup α)
  | .add a => .ok (g.addItem a)
  | .dep a b => g.setImm isScr a b
  | .clear => .ok g.clear
  | .close => g.findAll ord

/-- Executes a history on an empty group. -/
def DepOp.runAll (isScr : α → Bool) (ord : List α → List α) (ops : List (DepOp α)) : Outcome (DepGroup α) :=
  ops.foldlM (DepOp.run isScr ord) {}

/-- Specification: the direct dependences after one more operation. -/
def DepOp.relAfter (r : α → α → Prop) : DepOp α → α → α → Prop
  | .dep a b => fun x y => r x y ∨ (x = a ∧ y = b)
  | .clear => fun _ _ => False
  | _ => r

/-- Specification: the direct dependences recorded by a history since the last `clear`. -/
def directDeps (ops : List (DepOp α)) : α → α → Prop := ops.foldl DepOp.relAfter fun _ _ => False

/-- Specification: the objects a history mentions. -/
def mentioned (ops : List (DepOp α)) (x : α) : Prop :=
  ∃ o ∈ ops, match o with | .add a => x = a | .dep a b => x = a ∨ x = b | _ => False

/-- Some object depends on itself. -/
def Circular (r : α → α → Prop) : Prop := ∃ x, TransGen r x x

theorem directDeps_snoc (ops : List (DepOp α)) (o : DepOp α) :
    directDeps (ops ++ [o]) = o.relAfter (directDeps ops) := by
  unfold directDeps; rw [List.foldl_append]; rfl

theorem runAll_snoc (isScr : α → Bool) (ord : List α → List α) (ops : List (DepOp α)) (o : DepOp α) :
    DepOp.runAll isScr ord (ops ++ [o]) = (DepOp.runAll isScr ord ops >>= fun g => o.run isScr ord g) := by
  unfold DepOp.runAll; rw [List.foldlM_append]; simp only [List.foldlM_cons, List.foldlM_nil, bind_pure]

theorem depGroup_empty_ok : ({} : DepGroup α).Ok := by
  refine ⟨?_, Deps.empty_ok, Deps.empty_ok, ?_, ?_, ?_⟩ <;> simp

theorem runAll_inv (isScr : α → Bool) {ord : List α → List α} (hord : ∀ l, (ord l).Perm l)
    (ops : List (DepOp α)) :
    (∃ g, DepOp.runAll isScr ord ops = .ok g ∧ g.Ok ∧ (∀ a b, b ∈ g.deps.imm a ↔ directDeps ops a b) ∧
      (∀ a b, b ∈ g.scr.imm a ↔ directDeps ops a b ∧ isScr b = true) ∧
      ∀ x, x ∈ g.all ↔ mentioned ops x) ∨
    (DepOp.runAll isScr ord ops = .throws ∧
      ∃ pre post, ops = pre ++ post ∧ Circular (directDeps pre)) := by
  induction ops using List.reverseRecOn with
  | nil => exact .inl ⟨{}, rfl, depGroup_empty_ok, by simp [directDeps], by simp [directDeps], by simp [mentioned]⟩
  | append_singleton ops o ih =>
    rw [runAll_snoc]
    rcases ih with ⟨g, e, hg, himm, hscr, hmem⟩ | ⟨e, pre, post, rfl, hc⟩
    · rw [e]
      simp only [Outcome.bind_ok]
      have hment : ∀ x, mentioned (ops ++ [o]) x ↔ mentioned ops x ∨
          match o with | .add a => x = a | .dep a b => x = a ∨ x = b | _ => False := by
        intro x
        unfold mentioned
        constructor
        · rintro ⟨p, hp, h⟩
          rcases List.mem_append.1 hp with hp | hp
          · exact .inl ⟨p, hp, h⟩
          · rw [List.mem_singleton] at hp; subst hp; exact .inr h
        · rintro (⟨p, hp, h⟩ | h)
          · exact ⟨p, List.mem_append_left _ hp, h⟩
          · exact ⟨o, by simp, h⟩
      rw [directDeps_snoc]
      cases o with
      | add a =>
        refine .inl ⟨_, rfl, hg.addItem a, himm, hscr, fun x => ?_⟩
        rw [hment, mem_addItem, hmem]
      | dep a b =>
        by_cases hab : a = b
        · refine .inr ⟨by simp [DepOp.run, DepGroup.setImm, hab], ops ++ [.dep a b], [], by simp, a, ?_⟩
          rw [directDeps_snoc]
          exact TransGen.single (.inr ⟨rfl, hab⟩)
        · obtain ⟨g', e', hg', himm', hscr', hal, -⟩ := hg.setImm isScr hab
          refine .inl ⟨g', e', hg', fun x y => ?_, fun x y => ?_, fun x => ?_⟩
          · rw [himm', himm]; rfl
          · rw [hscr', hscr]
            show _ ↔ (directDeps ops x y ∨ (x = a ∧ y = b)) ∧ isScr y = true
            constructor
            · rintro (h | ⟨rfl, rfl, h⟩)
              · exact ⟨.inl h.1, h.2⟩
              · exact ⟨.inr ⟨rfl, rfl⟩, h⟩
            · rintro ⟨h | ⟨rfl, rfl⟩, h'⟩
              · exact .inl ⟨h, h'⟩
              · exact .inr ⟨rfl, rfl, h'⟩
          · rw [hment, hal, hmem]
      | clear =>
        refine .inl ⟨_, rfl, hg.clear, fun x y => ?_, fun x y => ?_, fun x => ?_⟩
        · simp [DepGroup.clear, Deps.clear, DepOp.relAfter]
        · simp [DepGroup.clear, Deps.clear, DepOp.relAfter]
        · rw [hment]; simp [DepGroup.clear, hmem]
      | close =>
        rcases DepGroup.findAll_spec hg hord with ⟨g', e', hg', -, hall, himm', hscr', -⟩ | ⟨e', x, hx⟩
        · refine .inl ⟨g', e', hg', fun x y => ?_, fun x y => ?_, fun x => ?_⟩
          · rw [himm', himm]; rfl
          · rw [hscr', hscr]; rfl
          · rw [hment, hall, hmem]; simp
        · refine .inr ⟨e', ops, [.close], rfl, x, trans_mono (fun a b hab => (himm a b).1 hab) hx⟩
    · rw [e]
      exact .inr ⟨rfl, pre, post ++ [o], by simp, hc⟩

theorem transGen_congr {r s : α → α → Prop} (h : ∀ a b, r a b ↔ s a b) (a b : α) :
    TransGen r a b ↔ TransGen s a b :=
  ⟨trans_mono fun x y => (h x y).1, trans_mono fun x y => (h x y).2⟩

/-- C44: after any history that ends by computing the closure, an object is reported to depend on another
exactly if there is a chain of direct dependences between them, and the scratch dependences are the chains in
which every object but the first is a scratch one. -/
theorem C44_closure (isScr : α → Bool) {ord : List α → List α} (hord : ∀ l, (ord l).Perm l)
    (ops : List (DepOp α)) (g : DepGroup α) (h : DepOp.runAll isScr ord (ops ++ [.close]) = .ok g) (a b : α) :
    (g.deps.isDepOn a b = true ↔ TransGen (directDeps ops) a b) ∧
    (g.deps.isDep a b = true ↔ TransGen (directDeps ops) a b ∨ TransGen (directDeps ops) b a) ∧
    (g.deps.isImmDepOn a b = true ↔ directDeps ops a b) ∧
    (g.scr.isDepOn a b = true ↔ TransGen (fun x y => directDeps ops x y ∧ isScr y = true) a b) := by
  rw [runAll_snoc] at h
  rcases runAll_inv isScr hord ops with ⟨g0, e, hg, himm, hscr, -⟩ | ⟨e, -⟩
  · rw [e] at h
    simp only [Outcome.bind_ok, DepOp.run] at h
    rcases DepGroup.findAll_spec hg hord with ⟨g', e', hg', hdone, hall, himm', hsimm, hac, hsdone⟩ | ⟨e', -⟩
    · rw [e'] at h
      cases h
      have key : ∀ a b, g.deps.isDepOn a b = true ↔ TransGen (directDeps ops) a b := by
        intro a b
        rw [(hg'.strict hdone).2, himm']
        exact transGen_congr himm a b
      refine ⟨key a b, ?_, ?_, ?_⟩
      · unfold Deps.isDep
        rw [Bool.or_eq_true, key, key]
      · unfold Deps.isImmDepOn
        rw [decide_eq_true_iff, himm', himm]
      · unfold Deps.isDepOn
        rw [decide_eq_true_iff]
        constructor
        · intro hb
          refine trans_mono (fun x y hxy => ?_) (hg'.scr.sound a b hb)
          rw [hsimm] at hxy
          exact (hscr x y).1 hxy
        · intro hb
          refine hg'.scr.complete hsdone a b (trans_mono (fun x y hxy => ?_) hb)
          rw [hsimm]
          exact (hscr x y).2 hxy
    · rw [e'] at h; cases h
  · rw [e] at h; cases h

/-- C44: computing the closure throws an exception exactly if some object depends on itself. -/
theorem C44_rejects_exactly_cycles (isScr : α → Bool) {ord : List α → List α} (hord : ∀ l, (ord l).Perm l)
    (ops : List (DepOp α)) (g : DepGroup α) (h : DepOp.runAll isScr ord ops = .ok g) :
    (Circular (directDeps ops) → DepOp.runAll isScr ord (ops ++ [.close]) = .throws) ∧
    (¬ Circular (directDeps ops) → ∃ g', DepOp.runAll isScr ord (ops ++ [.close]) = .ok g' ∧ g'.all = g.all) := by
  rw [runAll_snoc, h]
  simp only [Outcome.bind_ok, DepOp.run]
  rcases runAll_inv isScr hord ops with ⟨g0, e, hg, himm, -⟩ | ⟨e, -⟩
  · rw [h] at e
    cases e
    rcases DepGroup.findAll_spec hg hord with ⟨g', e', -, -, hall, -, -, hac, -⟩ | ⟨e', x, hx⟩
    · refine ⟨fun ⟨x, hx⟩ => absurd ((transGen_congr himm x x).2 hx) (hac x), fun _ => ⟨g', e', hall⟩⟩
    · exact ⟨fun _ => e', fun hc => absurd ⟨x, (transGen_congr himm x x).1 hx⟩ hc⟩
  · rw [h] at e; cases e

/-- C44: no history has undefined behaviour or runs forever, and an exception is only thrown if at some point
of the history an object depended on itself. -/
theorem C44_total (isScr : α → Bool) {ord : List α → List α} (hord : ∀ l, (ord l).Perm l)
    (ops : List (DepOp α)) :
    (∃ g, DepOp.runAll isScr ord ops = .ok g) ∨
    (DepOp.runAll isScr ord ops = .throws ∧ ∃ pre post, ops = pre ++ post ∧ Circular (directDeps pre)) := by
  rcases runAll_inv isScr hord ops with ⟨g, e, -⟩ | h
  · exact .inl ⟨g, e⟩
  · exact .inr h

/-- C45: after any history without a circular dependence, `topo_sort` returns the objects of the group, each
once, in an order in which no object precedes one it depends on. An order that has this property is kept. -/
theorem C45_topo_sort (isScr : α → Bool) {ord : List α → List α} (hord : ∀ l, (ord l).Perm l)
    (ops : List (DepOp α)) (g : DepGroup α) (h : DepOp.runAll isScr ord ops = .ok g)
    (hac : ¬ Circular (directDeps ops)) :
    ∃ g', g.topoSort ord = .ok g' ∧ g'.all.Nodup ∧ (∀ x, x ∈ g'.all ↔ mentioned ops x) ∧
      (∀ (i j : Nat) x y, g'.all[i]? = some x → g'.all[j]? = some y → TransGen (directDeps ops) x y → j < i) ∧
      ((∀ (i j : Nat) x y, g.all[i]? = some x → g.all[j]? = some y → TransGen (directDeps ops) x y → j < i) →
        g'.all = g.all) := by
  rcases runAll_inv isScr hord ops with ⟨g0, e, hg, himm, -, hmem⟩ | ⟨e, -⟩
  · rw [h] at e
    cases e
    rcases DepGroup.topoSort_spec hg hord with ⟨g', e', hg', hp, -, -, -, -, hpw, hirr, hkeep, -⟩ | ⟨e', x, hx⟩
    · refine ⟨g', e', hg'.nd, fun x => ?_, ?_, ?_⟩
      · rw [← hmem]; exact hp.mem_iff
      · intro i j x y hx hy hxy
        by_contra hij
        have hi := (List.getElem?_eq_some_iff.1 hx)
        have hj := (List.getElem?_eq_some_iff.1 hy)
        obtain ⟨hi1, hi2⟩ := hi
        obtain ⟨hj1, hj2⟩ := hj
        have hxy' := (transGen_congr himm x y).2 hxy
        rcases Nat.lt_or_ge i j with hlt | hge
        · exact List.pairwise_iff_getElem.1 hpw i j hi1 hj1 hlt (hi2 ▸ hj2 ▸ hxy')
        · have : i = j := by omega
          subst this
          have : x = y := hi2.symm.trans hj2
          subst this
          exact hirr x hxy'
      · intro hk
        refine hkeep (List.pairwise_iff_getElem.2 fun i j hi hj hij hc => ?_)
        have := hk i j _ _ (List.getElem?_eq_getElem hi) (List.getElem?_eq_getElem hj)
          ((transGen_congr himm _ _).1 hc)
        omega
    · exact absurd ⟨x, (transGen_congr himm x x).1 hx⟩ hac
  · rw [h] at e; cases e

/-- C45: with a circular dependence `topo_sort` throws an exception instead of returning a wrong order. -/
theorem C45_topo_sort_circular (isScr : α → Bool) {ord : List α → List α} (hord : ∀ l, (ord l).Perm l)
    (ops : List (DepOp α)) (g : DepGroup α) (h : DepOp.runAll isScr ord ops = .ok g)
    (hac : Circular (directDeps ops)) : g.topoSort ord = .throws := by
  rcases runAll_inv isScr hord ops with ⟨g0, e, hg, himm, -, hmem⟩ | ⟨e, -⟩
  · rw [h] at e
    cases e
    rcases DepGroup.topoSort_spec hg hord with ⟨g', e', -, -, -, -, -, -, -, hirr, -⟩ | ⟨e', x, hx⟩
    · obtain ⟨x, hx⟩ := hac
      exact absurd ((transGen_congr himm x x).2 hx) (hirr x)
    · exact e'
  · rw [h] at e; cases e

/-! Examples: `c` needs `b`, which needs `a`; the order of recording is the opposite one. -/

def exDeps : List (DepOp Nat) := [.dep 3 2, .dep 2 1, .add 4, .dep 4 1]

example : (DepOp.runAll (fun a => a == 1) id exDeps >>= fun g => g.topoSort id >>= fun g' =>
    .ok (g.all, g'.all)) = .ok ([3, 2, 1, 4], [1, 2, 3, 4]) := by decide +kernel

example : (DepOp.runAll (fun a => a == 1) List.reverse (exDeps ++ [.close]) >>= fun g =>
    .ok (g.deps.isDepOn 3 1, g.deps.isDepOn 1 3, g.scr.isDepOn 3 1, g.scr.isDepOn 2 1)) =
    .ok (true, false, false, true) := by decide +kernel

example : DepOp.runAll (fun a => a == 1) id (exDeps ++ [.dep 1 3, .close]) >>= (fun g => .ok g.all) =
    .throws := by decide +kernel

example : ¬ Circular (directDeps exDeps) := by
  rintro ⟨x, hx⟩
  -- every dependence goes to a smaller number
  have hs : ∀ a b, directDeps exDeps a b → b < a := by
    rintro a b (((h | ⟨rfl, rfl⟩) | ⟨rfl, rfl⟩) | ⟨rfl, rfl⟩)
    · exact h.elim
    all_goals decide
  have h : ∀ a b, TransGen (directDeps exDeps) a b → b < a := by
    intro a b hab
    induction hab with
    | single h => exact hs _ _ h
    | tail _ h ih => exact Nat.lt_trans (hs _ _ h) ih
  exact absurd (h x x hx) (by omega)

end Yask
