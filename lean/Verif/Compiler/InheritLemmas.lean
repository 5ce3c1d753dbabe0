import Verif.Compiler.GroupLemmas
import Verif.Compiler.PartsModel

/-! Helper lemmas: dependences of lots inherited from the objects in them. -/

namespace Yask.Comp
open Relation

variable {β : Type} [DecidableEq β]

/-- Lot `a` directly depends on lot `b`. -/
def Cond (all : List Nat) (items : Nat → List β) (r : β → β → Prop) (a b : Nat) : Prop :=
  a ∈ all ∧ b ∈ all ∧ a ≠ b ∧ ∃ x ∈ items a, ∃ y ∈ items b, x ≠ y ∧ r x y

/-- A fold that adds an edge for some elements of a list. -/
theorem foldImm_spec {γ : Type} (l : List γ) (f : Deps Nat → γ → Deps Nat) (E : γ → Nat → Nat → Prop)
    (hf : ∀ c ∈ l, ∀ d : Deps Nat, d.Ok → (f d c).Ok ∧ ∀ x y, y ∈ (f d c).imm x ↔ y ∈ d.imm x ∨ E c x y)
    (d : Deps Nat) (hd : d.Ok) :
    (l.foldl f d).Ok ∧ ∀ x y, y ∈ (l.foldl f d).imm x ↔ y ∈ d.imm x ∨ ∃ c ∈ l, E c x y := by
  induction l generalizing d with
  | nil => exact ⟨hd, by simp⟩
  | cons c l ih =>
    obtain ⟨h1, h2⟩ := hf c List.mem_cons_self d hd
    obtain ⟨h3, h4⟩ := ih (fun c' hc' => hf c' (List.mem_cons_of_mem _ hc')) (f d c) h1
    refine ⟨h3, fun x y => ?_⟩
    rw [List.foldl_cons, h4, h2, or_assoc]
    refine or_congr Iff.rfl ?_
    constructor
    · rintro (h | ⟨c', hc', h⟩)
      · exact ⟨c, List.mem_cons_self, h⟩
      · exact ⟨c', List.mem_cons_of_mem _ hc', h⟩
    · rintro ⟨c', hc', h⟩
      rcases List.mem_cons.1 hc' with rfl | hc'
      · exact .inl h
      · exact .inr ⟨c', hc', h⟩

theorem inheritImm_spec (all : List Nat) (items : Nat → List β) (fd : Deps β) (d : Deps Nat) (hd : d.Ok) :
    (inheritImm all items fd d).Ok ∧
    ∀ x y, y ∈ (inheritImm all items fd d).imm x ↔ y ∈ d.imm x ∨ Cond all items (fun a b => b ∈ fd.imm a) x y := by
  unfold inheritImm
  have h1 := foldImm_spec all (fun d oi => all.foldl (fun d oj =>
    if oi = oj then d
    else (items oi).foldl (fun d fi => (items oj).foldl (fun d fj =>
      if fi = fj then d else if fd.isImmDepOn fi fj then d.setImm oi oj else d) d) d) d)
    (fun oi x y => ∃ oj ∈ all, oi ≠ oj ∧ x = oi ∧ y = oj ∧ ∃ fi ∈ items oi, ∃ fj ∈ items oj, fi ≠ fj ∧ fj ∈ fd.imm fi)
    (fun oi _ d hd => by
      refine foldImm_spec all _ (fun oj x y => oi ≠ oj ∧ x = oi ∧ y = oj ∧
        ∃ fi ∈ items oi, ∃ fj ∈ items oj, fi ≠ fj ∧ fj ∈ fd.imm fi) (fun oj _ d hd => ?_) d hd
      by_cases ho : oi = oj
      · simp only [if_pos ho]
        exact ⟨hd, fun x y => by simp [ho]⟩
      simp only [if_neg ho]
      obtain ⟨h2, h3⟩ := foldImm_spec (items oi) (fun d fi => (items oj).foldl (fun d fj =>
          if fi = fj then d else if fd.isImmDepOn fi fj then d.setImm oi oj else d) d)
        (fun fi x y => ∃ fj ∈ items oj, x = oi ∧ y = oj ∧ fi ≠ fj ∧ fj ∈ fd.imm fi) (fun fi _ d hd => by
          refine foldImm_spec (items oj) _ (fun fj x y => x = oi ∧ y = oj ∧ fi ≠ fj ∧ fj ∈ fd.imm fi)
            (fun fj _ d hd => ?_) d hd
          by_cases hf : fi = fj
          · simp only [if_pos hf]
            exact ⟨hd, fun x y => by simp [hf]⟩
          simp only [if_neg hf]
          by_cases hi : fd.isImmDepOn fi fj = true
          · simp only [if_pos hi]
            refine ⟨Deps.setImm_ok hd oi oj, fun x y => ?_⟩
            rw [mem_setImm_imm]
            have : fj ∈ fd.imm fi := by simpa [Deps.isImmDepOn] using hi
            simp [hf, this]
          · simp only [if_neg hi]
            refine ⟨hd, fun x y => ?_⟩
            have : fj ∉ fd.imm fi := by simpa [Deps.isImmDepOn] using hi
            simp [this]) d hd
      refine ⟨h2, fun x y => ?_⟩
      rw [h3]
      refine or_congr Iff.rfl ?_
      constructor
      · rintro ⟨fi, hfi, fj, hfj, rfl, rfl, hne, hm⟩
        exact ⟨ho, rfl, rfl, fi, hfi, fj, hfj, hne, hm⟩
      · rintro ⟨-, rfl, rfl, fi, hfi, fj, hfj, hne, hm⟩
        exact ⟨fi, hfi, fj, hfj, rfl, rfl, hne, hm⟩) d hd
  refine ⟨h1.1, fun x y => ?_⟩
  rw [h1.2]
  refine or_congr Iff.rfl ?_
  unfold Cond
  constructor
  · rintro ⟨oi, hoi, oj, hoj, hne, rfl, rfl, h⟩
    exact ⟨hoi, hoj, hne, h⟩
  · rintro ⟨hx, hy, hne, h⟩
    exact ⟨x, hx, y, hy, hne, rfl, rfl, h⟩

/-- A group without dependences. -/
structure Bare (g : DepGroup Nat) : Prop where
  nd : g.all.Nodup
  d1 : g.deps.Ok
  d2 : g.scr.Ok
  e1 : ∀ a b, b ∉ g.deps.imm a
  e2 : ∀ a b, b ∉ g.scr.imm a

theorem Bare.clear {g : DepGroup Nat} (h : g.all.Nodup) : Bare g.clear :=
  ⟨h, Deps.clear_ok g.deps, Deps.clear_ok g.scr, by simp [DepGroup.clear, Deps.clear],
    by simp [DepGroup.clear, Deps.clear]⟩

theorem Bare.empty : Bare {} :=
  ⟨by simp, Deps.empty_ok, Deps.empty_ok, by simp, by simp⟩

theorem Bare.addItem {g : DepGroup Nat} (h : Bare g) (a : Nat) : Bare (g.addItem a) :=
  ⟨addItem_nodup h.nd a, h.d1, h.d2, h.e1, h.e2⟩

theorem Bare.ok {g : DepGroup Nat} (h : Bare g) : g.Ok :=
  ⟨h.nd, h.d1, h.d2, fun a b hb => absurd hb (h.e2 a b), fun a b hb => absurd hb (h.e1 a b), fun a => h.e1 a a⟩

/-- `inherit_deps_from` on a group without dependences. -/
theorem inherit_spec {g : DepGroup Nat} (h : Bare g) (items : Nat → List β) (F : DepGroup β)
    (hF : ∀ a b, b ∈ F.scr.imm a → b ∈ F.deps.imm a) {ord : List Nat → List Nat} (hord : ∀ l, (ord l).Perm l) :
    (∃ g', g.inherit items F ord = .ok g' ∧ g'.Ok ∧ g'.deps.done = true ∧ g'.all = g.all ∧
      (∀ a b, b ∈ g'.deps.imm a ↔ Cond g.all items (fun x y => y ∈ F.deps.imm x) a b) ∧
      (∀ a b, b ∈ g'.scr.imm a ↔ Cond g.all items (fun x y => y ∈ F.scr.imm x) a b) ∧
      (∀ x, ¬ TransGen (Cond g.all items (fun x y => y ∈ F.deps.imm x)) x x) ∧ g'.scr.done = true) ∨
    (g.inherit items F ord = .throws ∧
      ∃ x, TransGen (Cond g.all items (fun x y => y ∈ F.deps.imm x)) x x) := by
  unfold DepGroup.inherit
  obtain ⟨a1, a2⟩ := inheritImm_spec g.all items F.deps g.deps h.d1
  obtain ⟨b1, b2⟩ := inheritImm_spec g.all items F.scr g.scr h.d2
  have a3 : ∀ x y, y ∈ (inheritImm g.all items F.deps g.deps).imm x ↔
      Cond g.all items (fun x y => y ∈ F.deps.imm x) x y := by
    intro x y; rw [a2]; simp [h.e1 x y]
  have b3 : ∀ x y, y ∈ (inheritImm g.all items F.scr g.scr).imm x ↔
      Cond g.all items (fun x y => y ∈ F.scr.imm x) x y := by
    intro x y; rw [b2]; simp [h.e2 x y]
  have hok : DepGroup.Ok { g with
      deps := inheritImm g.all items F.deps g.deps, scr := inheritImm g.all items F.scr g.scr } := by
    refine ⟨h.nd, a1, b1, ?_, ?_, ?_⟩
    · intro x y hy
      obtain ⟨h1, h2, h3, u, hu, v, hv, h4, h5⟩ := (b3 x y).1 hy
      exact (a3 x y).2 ⟨h1, h2, h3, u, hu, v, hv, h4, hF _ _ h5⟩
    · intro x y hy
      obtain ⟨h1, h2, -⟩ := (a3 x y).1 hy
      exact ⟨h1, h2⟩
    · intro x hx
      exact ((a3 x x).1 hx).2.2.1 rfl
  rcases DepGroup.findAll_spec hok hord with ⟨g', e, hg', hd, hall, himm, hs, hac, hsd⟩ | ⟨e, x, hx⟩
  · refine .inl ⟨g', e, hg', hd, hall, ?_, ?_, ?_, hsd⟩
    · intro a b; rw [himm]; exact a3 a b
    · intro a b; rw [hs]; exact b3 a b
    · intro x hx
      exact hac x (trans_mono (fun a b hab => (a3 a b).2 hab) hx)
  · exact .inr ⟨e, x, trans_mono (fun a b hab => (a3 a b).1 hab) hx⟩

/-- Adding a lot that holds only `e` makes no cycle if the dependences between the objects are transitive. -/
theorem newLot_acyclic {all : List Nat} {items items' : Nat → List β} {r : β → β → Prop} {q : Nat} {e : β}
    (hq : q ∉ all) (hi : ∀ p ∈ all, items' p = items p) (hiq : items' q = [e])
    (hr : ∀ a b c, r a b → r b c → r a c) (hirr : ∀ a, ¬ r a a)
    (hind : ∀ p ∈ all, ∀ x ∈ items p, ∀ y ∈ items p, ¬ r x y)
    (hac : ∀ x, ¬ TransGen (Cond all items r) x x) :
    ∀ x, ¬ TransGen (Cond (all ++ [q]) items' r) x x := by
  have conv : ∀ a b, a ≠ q → b ≠ q → Cond (all ++ [q]) items' r a b → Cond all items r a b := by
    rintro a b ha hb ⟨h1, h2, h3, x, hx, y, hy, h4, h5⟩
    have ha' : a ∈ all := by simpa [ha] using h1
    have hb' : b ∈ all := by simpa [hb] using h2
    rw [hi a ha'] at hx
    rw [hi b hb'] at hy
    exact ⟨ha', hb', h3, x, hx, y, hy, h4, h5⟩
  have via : ∀ a b, a ≠ q → b ≠ q → Cond (all ++ [q]) items' r a q → Cond (all ++ [q]) items' r q b →
      Cond all items r a b := by
    rintro a b ha hb ⟨h1, -, -, x, hx, y, hy, h4, h5⟩ ⟨-, k2, -, u, hu, v, hv, k4, k5⟩
    rw [hiq, List.mem_singleton] at hy hu
    subst hy; subst hu
    have ha' : a ∈ all := by simpa [ha] using h1
    have hb' : b ∈ all := by simpa [hb] using k2
    rw [hi a ha'] at hx
    rw [hi b hb'] at hv
    have hxv := hr _ _ _ h5 k5
    refine ⟨ha', hb', fun hab => ?_, x, hx, v, hv, fun hc => hirr x (by rw [← hc] at hxv; exact hxv), hxv⟩
    subst hab
    exact hind a ha' x hx v hv hxv
  have key : ∀ a b, a ≠ q → TransGen (Cond (all ++ [q]) items' r) a b →
      (b ≠ q → TransGen (Cond all items r) a b) ∧
      (b = q → ∃ g, g ≠ q ∧ (g = a ∨ TransGen (Cond all items r) a g) ∧ Cond (all ++ [q]) items' r g q) := by
    intro a b ha hab
    induction hab with
    | single h =>
      refine ⟨fun hb => .single (conv _ _ ha hb h), ?_⟩
      rintro rfl
      exact ⟨a, ha, .inl rfl, h⟩
    | @tail b c _ hbc ih =>
      by_cases hb : b = q
      · obtain ⟨g, hg, hag, hgq⟩ := ih.2 hb
        subst hb
        refine ⟨fun hc => ?_, fun hc => absurd hc.symm hbc.2.2.1⟩
        have := via g c hg hc hgq hbc
        rcases hag with rfl | hag
        · exact .single this
        · exact hag.tail this
      · refine ⟨fun hc => (ih.1 hb).tail (conv _ _ hb hc hbc), ?_⟩
        rintro rfl
        exact ⟨b, hb, .inr (ih.1 hb), hbc⟩
  intro x hx
  by_cases hxq : x = q
  · subst hxq
    obtain ⟨h, hxh, hr'⟩ := TransGen.head'_iff.1 hx
    have hh : h ≠ x := fun e => hxh.2.2.1 e.symm
    have : TransGen (Cond (all ++ [x]) items' r) h h := by
      rcases reflTransGen_iff_eq_or_transGen.1 hr' with e | t
      · exact absurd e.symm hh
      · exact t.tail hxh
    exact hac h ((key h h hh this).1 hh)
  · exact hac x ((key x x hxq hx).1 hxq)

end Yask.Comp
