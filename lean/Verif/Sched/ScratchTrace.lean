import Verif.Sched.InlineLemmas
import Verif.Sched.WithLemmas

/-! Helper lemmas: the order of the tasks of a run with scratch vars. -/

namespace Yask
open Spec RunCfg

section
variable {α ι : Type*}

theorem doPar_ones {g : ι → α} (l : List ι) {t : List α} (h : doPar (l.map fun y => doOne (g y)) t) : t.Perm (l.map g) := by
  induction l generalizing t with
  | nil => rw [show t = [] from h]; exact .refl _
  | cons y l ih =>
    obtain ⟨u, v, hu, hv, hi⟩ := h
    rw [show u = [g y] from hu] at hi
    exact (interleave_perm hi).trans ((ih hv).cons _)

theorem doPar_list (g : ι → α) (l : List ι) : doPar (l.map fun y => doOne (g y)) (l.map g) := by
  induction l with
  | nil => rfl
  | cons y l ih => exact ⟨[g y], l.map g, rfl, ih, interleave_append _ _⟩

/-- Pieces that do nothing may be left out. -/
theorem doSeq_filter (f : ι → Traces α) (P : ι → Bool) (xs : List ι) (h : ∀ x ∈ xs, P x = false → f x = doNothing) :
    doSeq (xs.map f) = doSeq ((xs.filter P).map f) := by
  induction xs with
  | nil => rfl
  | cons x xs ih =>
    have ih' := ih fun y hy => h y (List.mem_cons_of_mem _ hy)
    by_cases hp : P x = true
    · rw [List.filter_cons_of_pos hp, List.map_cons, List.map_cons]
      funext t
      simp only [doSeq, ih']
    · rw [List.filter_cons_of_neg hp, List.map_cons, ← ih']
      have hx := h x List.mem_cons_self (by simpa using hp)
      funext t
      apply propext
      simp only [doSeq, hx]
      constructor
      · rintro ⟨u, v, hu, hv, rfl⟩
        rw [show u = [] from hu]
        exact hv
      · exact fun ht => ⟨[], t, rfl, ht, rfl⟩

theorem interleave_split {l r : List α} {t : List α} (h : Interleave l r t) : ∀ u x w, t = u ++ x :: w →
    (∃ u1 w1, l = u1 ++ x :: w1 ∧ ∀ z ∈ u1, z ∈ u) ∨ (∃ u1 w1, r = u1 ++ x :: w1 ∧ ∀ z ∈ u1, z ∈ u) := by
  induction h with
  | nil => intro u x w h; simp at h
  | @left a l r t _ ih =>
    intro u x w h
    rcases u with _ | ⟨b, u⟩
    · simp only [List.nil_append, List.cons.injEq] at h
      exact Or.inl ⟨[], l, by rw [h.1]; rfl, by simp⟩
    · simp only [List.cons_append, List.cons.injEq] at h
      obtain ⟨rfl, h⟩ := h
      rcases ih u x w h with ⟨u1, w1, e, hs⟩ | ⟨u1, w1, e, hs⟩
      · refine Or.inl ⟨a :: u1, w1, by rw [e]; rfl, ?_⟩
        intro z hz
        rcases List.mem_cons.1 hz with rfl | hz
        · exact List.mem_cons_self
        · exact List.mem_cons_of_mem _ (hs z hz)
      · exact Or.inr ⟨u1, w1, e, fun z hz => List.mem_cons_of_mem _ (hs z hz)⟩
  | @right a l r t _ ih =>
    intro u x w h
    rcases u with _ | ⟨b, u⟩
    · simp only [List.nil_append, List.cons.injEq] at h
      exact Or.inr ⟨[], r, by rw [h.1]; rfl, by simp⟩
    · simp only [List.cons_append, List.cons.injEq] at h
      obtain ⟨rfl, h⟩ := h
      rcases ih u x w h with ⟨u1, w1, e, hs⟩ | ⟨u1, w1, e, hs⟩
      · exact Or.inl ⟨u1, w1, e, fun z hz => List.mem_cons_of_mem _ (hs z hz)⟩
      · refine Or.inr ⟨a :: u1, w1, by rw [e]; rfl, ?_⟩
        intro z hz
        rcases List.mem_cons.1 hz with rfl | hz
        · exact List.mem_cons_self
        · exact List.mem_cons_of_mem _ (hs z hz)

def SItem.part? : SItem → Option Nat
  | .main p => some p
  | .scr _ => none

/-- Every action comes after its prerequisites, or they are in `pre`. -/
def ClosedFrom (R : α → α → Prop) (pre : α → Prop) (t : List α) : Prop :=
  ∀ u x w, t = u ++ x :: w → ∀ z, R x z → pre z ∨ z ∈ u

theorem closed_pieces (R : α → α → Prop) (xs : List ι) (f : ι → Traces α) (T : ι → α → Prop) (pre : α → Prop)
    (hf : ∀ x ∈ xs, ∀ t, f x t → ∀ z, z ∈ t ↔ T x z)
    (hR : ∀ l1 x l2, xs = l1 ++ x :: l2 → ∀ z, T x z → ∀ z', R z z' → pre z' ∨ ∃ x' ∈ l1, T x' z') :
    Always (doSeq (xs.map f)) (ClosedFrom R pre) := by
  induction xs generalizing pre with
  | nil =>
    intro t ht u x w h
    rw [show t = [] from ht] at h
    simp at h
  | cons x xs ih =>
    rintro t ⟨u0, v, hu0, hv, rfl⟩
    have hfx := hf x List.mem_cons_self u0 hu0
    have hih := ih (fun z => pre z ∨ T x z) (fun y hy => hf y (List.mem_cons_of_mem _ hy)) (by
      intro l1 y l2 e z hz z' hr
      rcases hR (x :: l1) y l2 (by rw [e]; rfl) z hz z' hr with h | ⟨x', hx', hT⟩
      · exact Or.inl (Or.inl h)
      · rcases List.mem_cons.1 hx' with rfl | hx'
        · exact Or.inl (Or.inr hT)
        · exact Or.inr ⟨x', hx', hT⟩) v hv
    intro u y w h z hr
    rcases List.append_eq_append_iff.1 h with ⟨a', e1, e2⟩ | ⟨c', e1, e2⟩
    · -- `y` is in `v`
      rcases hih a' y w e2 z hr with (hp | hp) | hp
      · exact Or.inl hp
      · exact Or.inr (e1 ▸ List.mem_append_left _ ((hfx z).2 hp))
      · exact Or.inr (e1 ▸ List.mem_append_right _ hp)
    · rcases c' with _ | ⟨b, c'⟩
      · simp only [List.append_nil, List.nil_append] at e1 e2
        rcases hih [] y w e2.symm z hr with (hp | hp) | hp
        · exact Or.inl hp
        · exact Or.inr (e1 ▸ (hfx z).2 hp)
        · exact absurd hp List.not_mem_nil
      · simp only [List.cons_append, List.cons.injEq] at e2
        obtain ⟨rfl, e2⟩ := e2
        have hy : y ∈ u0 := e1 ▸ List.mem_append_right _ List.mem_cons_self
        rcases hR [] x xs rfl y ((hfx y).1 hy) z hr with h | ⟨x', hx', _⟩
        · exact Or.inl h
        · exact absurd hx' List.not_mem_nil

end

namespace Scr
variable {Buf SVar Val : Type*} {X : Scr Buf SVar Val} {c : RunCfg}

theorem mixes_closed : Mixes X.Closed where
  nil := by intro u x w h; simp at h
  mix l r t hl hr hi u x w h z hz := by
    rcases interleave_split hi u x w h with ⟨u1, w1, e, hs⟩ | ⟨u1, w1, e, hs⟩
    · exact hs z (hl u1 x w1 e z hz)
    · exact hs z (hr u1 x w1 e z hz)

theorem mixes_all {α : Type*} (R : α → Prop) : Mixes fun t : List α => ∀ x ∈ t, R x where
  nil := by simp
  mix l r t hl hr hi x hx := by
    rcases List.mem_append.1 ((interleave_perm hi).mem_iff.1 hx) with h | h
    · exact hl x h
    · exact hr x h

/-! ### The parts evaluated in a micro-block -/

section items
variable (X c)

/-- What comes before a part in the list of parts. -/
def Preceded (st : Nat) (t : Int) (it : SItem) (l : List SItem) : Prop := match it with
  | .scr k => X.sstep k t = true ∧ ∀ y v w z k', X.outs k v → X.sreadsS k t y v w z → X.outs k' w → X.sstep k' t = true → SItem.scr k' ∈ l
  | .main p => p < c.nparts st ∧ c.stepOk st p t = true ∧ ∀ k ∈ X.children st p, X.sstep k t = true → SItem.scr k ∈ l

def AllPreceded (st : Nat) (t : Int) (l : List SItem) : Prop := ∀ l1 it l2, l = l1 ++ it :: l2 → X.Preceded c st t it l1

variable {X c}

theorem allPreceded_snoc {st : Nat} {t : Int} {l : List SItem} {it : SItem} (h : X.AllPreceded c st t l) (hi : X.Preceded c st t it l) :
    X.AllPreceded c st t (l ++ [it]) := by
  intro l1 x l2 e
  rcases List.append_eq_append_iff.1 e with ⟨a', e1, e2⟩ | ⟨c', e1, e2⟩
  · rcases a' with _ | ⟨b, a'⟩
    · simp only [List.append_nil, List.nil_append, List.cons.injEq] at e1 e2
      rw [e1, ← e2.1]
      exact hi
    · have := congrArg List.length e2
      simp at this
  · rcases c' with _ | ⟨b, c'⟩
    · simp only [List.append_nil, List.nil_append, List.cons.injEq] at e1 e2
      rw [← e1, e2.1]
      exact hi
    · simp only [List.cons_append, List.cons.injEq] at e2
      obtain ⟨rfl, e2⟩ := e2
      exact h l1 x c' e1

theorem addScr_fold (hs : X.Supplied c) {st : Nat} {t : Int} (p : Nat) (l2 : List Nat) : ∀ (l1 : List Nat) (acc : List SItem), X.children st p = l1 ++ l2 →
    X.AllPreceded c st t acc → (∀ k ∈ l1, X.sstep k t = true → SItem.scr k ∈ acc) →
    X.AllPreceded c st t (l2.foldl (X.addScr t) acc) ∧ (∀ k ∈ X.children st p, X.sstep k t = true → SItem.scr k ∈ l2.foldl (X.addScr t) acc) ∧
      ((l2.foldl (X.addScr t) acc).filterMap SItem.part?) = acc.filterMap SItem.part? := by
  induction l2 with
  | nil =>
    intro l1 acc e h1 h2
    rw [List.append_nil] at e
    exact ⟨h1, e ▸ h2, rfl⟩
  | cons k l2 ih =>
    intro l1 acc e h1 h2
    rw [List.foldl_cons]
    have hadd : X.AllPreceded c st t (X.addScr t acc k) ∧ (∀ k' ∈ l1 ++ [k], X.sstep k' t = true → SItem.scr k' ∈ X.addScr t acc k) ∧
        ((X.addScr t acc k).filterMap SItem.part?) = acc.filterMap SItem.part? := by
      unfold ScrCfg.addScr
      by_cases hc : X.sstep k t = true ∧ SItem.scr k ∉ acc
      · rw [if_pos hc]
        refine ⟨allPreceded_snoc h1 ⟨hc.1, fun y v w z k' hv hr ho hk' => ?_⟩, ?_, ?_⟩
        · exact h2 k' (hs.order st p l1 k l2 e t y v w z k' hv hr ho) hk'
        · intro k' hk' hst
          rcases List.mem_append.1 hk' with hk' | hk'
          · exact List.mem_append_left _ (h2 k' hk' hst)
          · rw [List.mem_singleton.1 hk']
            exact List.mem_append_right _ List.mem_cons_self
        · simp [SItem.part?]
      · rw [if_neg hc]
        refine ⟨h1, ?_, rfl⟩
        intro k' hk' hst
        rcases List.mem_append.1 hk' with hk' | hk'
        · exact h2 k' hk' hst
        · rw [List.mem_singleton.1 hk'] at hst ⊢
          by_contra hn
          exact hc ⟨hst, hn⟩
    obtain ⟨a1, a2, a3⟩ := hadd
    obtain ⟨b1, b2, b3⟩ := ih (l1 ++ [k]) _ (by rw [e]; simp) a1 a2
    exact ⟨b1, b2, b3.trans a3⟩

theorem items_spec (hs : X.Supplied c) (st : Nat) (t : Int) : X.AllPreceded c st t (X.items c st t) ∧
    ((X.items c st t).filterMap SItem.part?) =
      (List.range (c.nparts st)).filter fun p => c.stepOk st p t && !X.empty st p := by
  unfold ScrCfg.items
  suffices h : ∀ n ≤ c.nparts st, X.AllPreceded c st t ((List.range n).foldl (X.addPart c st t) []) ∧
      (((List.range n).foldl (X.addPart c st t) []).filterMap SItem.part?) =
        (List.range n).filter fun p => c.stepOk st p t && !X.empty st p from h _ (Nat.le_refl _)
  intro n
  induction n with
  | zero =>
    intro _
    refine ⟨?_, rfl⟩
    intro l1 it l2 e
    simp at e
  | succ n ih =>
    intro hn
    obtain ⟨h1, h2⟩ := ih (by omega)
    rw [List.range_succ, List.foldl_append, List.filter_append, ← h2]
    simp only [List.foldl_cons, List.foldl_nil]
    generalize (List.range n).foldl (X.addPart c st t) [] = acc at h1 h2
    unfold ScrCfg.addPart
    by_cases hc : c.stepOk st n t = true ∧ X.empty st n = false
    · rw [if_pos hc]
      obtain ⟨a1, a2, a3⟩ := addScr_fold hs n (X.children st n) [] acc rfl h1 (by simp)
      refine ⟨allPreceded_snoc a1 ⟨by omega, hc.1, a2⟩, ?_⟩
      rw [List.filterMap_append, a3]
      simp [hc.1, hc.2, SItem.part?, List.filterMap_cons]
    · rw [if_neg hc]
      refine ⟨h1, ?_⟩
      have : (c.stepOk st n t && !X.empty st n) = false := by
        by_contra hb
        simp only [Bool.not_eq_false, Bool.and_eq_true, Bool.not_eq_true'] at hb
        exact hc hb
      simp [this]

end items

/-- The tasks of the start (`none`) and of each part. -/
def pieceTasks (X : Scr Buf SVar Val) (c : RunCfg) (t : Int) (st : Nat) (bx : Box) : Option SItem → STask → Prop
  | none, z => z = .start t st bx
  | some (.scr k), z => ∃ y, y ∈ boxPoints (X.area k bx) ∧ X.sdom k y = true ∧ z = .scr t st bx k y
  | some (.main p), z => ∃ x, x ∈ boxPoints bx ∧ c.dom st p x = true ∧ z = .main bx ⟨t, st, p, x⟩

def pieceOf (X : Scr Buf SVar Val) (c : RunCfg) (t : Int) (st : Nat) (bx : Box) : Option SItem → Traces STask
  | none => doOne (.start t st bx)
  | some it => X.evItem c t st bx it

theorem pieceOf_tasks (t : Int) (st : Nat) (bx : Box) (o : Option SItem) (tr : List STask) (h : pieceOf X c t st bx o tr) (z : STask) :
    z ∈ tr ↔ pieceTasks X c t st bx o z := by
  rcases o with _ | (k | p)
  · rw [show tr = [STask.start t st bx] from h]
    simp [pieceTasks]
  · rw [(doPar_ones _ h).mem_iff]
    simp only [pieceTasks, List.mem_map, List.mem_filter, and_assoc]
    exact exists_congr fun y => and_congr_right fun _ => and_congr_right fun _ => eq_comm
  · rw [(doPar_ones _ h).mem_iff]
    simp only [pieceTasks, List.mem_map, List.mem_filter, and_assoc]
    exact exists_congr fun y => and_congr_right fun _ => and_congr_right fun _ => eq_comm

theorem evBox_pieces (t : Int) (st : Nat) (bx : Box) :
    X.evBox c t st bx = doSeq ((none :: (X.items c st t).map some).map (pieceOf X c t st bx)) := by
  unfold ScrCfg.evBox
  rw [List.map_cons, List.map_map]
  rfl

/-- A sequence of parts in which each part is preceded by what it requires. -/
theorem closed_seq {st : Nat} {t : Int} {bx : Box} (L : List SItem)
    (hL : X.AllPreceded c st t L) : Always (doSeq ((none :: L.map some).map (pieceOf X c t st bx))) X.Closed := by
  intro tr ht
  have := closed_pieces X.Prereq (none :: L.map some) (pieceOf X c t st bx) (pieceTasks X c t st bx) (fun _ => False)
    (fun x _ tr h z => pieceOf_tasks t st bx x tr h z) ?_ tr ht
  · intro u x w e z hz
    exact (this u x w e z hz).resolve_left id
  · intro l1 o l2 e z hz z' hp
    refine Or.inr ?_
    rcases l1 with _ | ⟨o0, l1⟩
    · simp only [List.nil_append, List.cons.injEq] at e
      rw [← e.1] at hz
      rw [show z = _ from hz] at hp
      cases hp
    · simp only [List.cons_append, List.cons.injEq] at e
      obtain ⟨rfl, e⟩ := e
      obtain ⟨m1, m2', e1, rfl, e2⟩ := List.map_eq_append_iff.1 e
      obtain ⟨it, m2, rfl, rfl, -⟩ := List.map_eq_cons_iff.1 e2
      have hpre := hL m1 it m2 e1
      rcases it with k | p
      · obtain ⟨y, hy, hd, rfl⟩ := hz
        cases hp with
        | scrStart => exact ⟨none, List.mem_cons_self, rfl⟩
        | @scrScr _ _ _ _ _ v w z k' hv hr ho hk' hz' hd' =>
          exact ⟨some (.scr k'), List.mem_cons_of_mem _ (List.mem_map_of_mem (hpre.2 _ _ _ _ _ hv hr ho hk')), z, hz', hd', rfl⟩
      · obtain ⟨x, hx, hd, rfl⟩ := hz
        cases hp with
        | mainStart => exact ⟨none, List.mem_cons_self, rfl⟩
        | @mainScr _ _ k y hk hst hy hd' =>
          exact ⟨some (.scr k), List.mem_cons_of_mem _ (List.mem_map_of_mem (hpre.2.2 k hk hst)), y, hy, hd', rfl⟩

theorem mem_doSeq {α ι : Type*} (f : ι → Traces α) : ∀ (xs : List ι) (t : List α), doSeq (xs.map f) t → ∀ z ∈ t, ∃ x ∈ xs, ∃ u, f x u ∧ z ∈ u := by
  intro xs
  induction xs with
  | nil => intro t ht z hz; rw [show t = [] from ht] at hz; exact absurd hz List.not_mem_nil
  | cons x xs ih =>
    rintro t ⟨u, v, hu, hv, rfl⟩ z hz
    rcases List.mem_append.1 hz with hz | hz
    · exact ⟨x, List.mem_cons_self, u, hu, hz⟩
    · obtain ⟨y, hy, r⟩ := ih v hv z hz
      exact ⟨y, List.mem_cons_of_mem _ hy, r⟩

theorem inBox_length {p : List Int} {bx : Box} (h : p ∈ boxPoints bx) : p.length = bx.length := by
  rw [mem_boxPoints] at h
  exact h.length_eq

theorem regular_seq {st : Nat} {t : Int} {bx : Box} (hb : bx.length = c.nd) (L : List SItem) (hL : X.AllPreceded c st t L) :
    Always (doSeq ((none :: L.map some).map (pieceOf X c t st bx))) fun tr => ∀ x ∈ tr, X.Regular c x := by
  intro tr ht x hx
  obtain ⟨o, ho, u, hu, hxu⟩ := mem_doSeq _ _ _ ht x hx
  rw [pieceOf_tasks t st bx o u hu] at hxu
  rcases List.mem_cons.1 ho with rfl | ho
  · rw [show x = _ from hxu]
    trivial
  · obtain ⟨it, hit, rfl⟩ := List.mem_map.1 ho
    obtain ⟨m1, m2, e⟩ := List.append_of_mem hit
    have hpre := hL m1 it m2 e
    rcases it with k | p
    · obtain ⟨y, hy, hd, rfl⟩ := hxu
      exact ⟨hd, hpre.1⟩
    · obtain ⟨y, hy, hd, rfl⟩ := hxu
      exact ⟨⟨hpre.1, hpre.2.1, hd, (inBox_length hy).trans hb⟩, hb, hy⟩

/-! ### The tasks of the parts alone, and with the starts of the micro-blocks -/

theorem becomes_one {α β : Type*} {φ : α → List β} {x : α} {z : β} (h : φ x = [z]) : Becomes φ (doOne x) (doOne z) := by
  intro t ht
  rw [show t = [x] from ht]
  simp [doOne, h]

theorem becomes_empty {α β : Type*} {φ : α → List β} {T : Traces α} (h : ∀ t, T t → ∀ x ∈ t, φ x = []) : Becomes φ T doNothing := by
  intro t ht
  show t.flatMap φ = []
  rw [List.flatMap_eq_nil_iff]
  exact h t ht

def mainPiece (c : RunCfg) (g : Task → Task) (t : Int) (st : Nat) (bx : Box) : SItem → Traces Task
  | .scr _ => doNothing
  | .main p => doPar (((boxPoints bx).filter (c.dom st p)).map fun x => doOne (g ⟨t, st, p, x⟩))

/-- The parts of a micro-block, seen through a function that forgets scratch tasks and maps part tasks one to one. -/
theorem becomes_items {φ : STask → List Task} (g : Task → Task) (hscr : ∀ t st bx k y, φ (.scr t st bx k y) = []) (hmain : ∀ bx a, φ (.main bx a) = [g a])
    (st : Nat) (t : Int) (bx : Box) (L : List SItem) :
    Becomes φ (doSeq (L.map (X.evItem c t st bx))) (doSeq ((L.filterMap SItem.part?).map fun p =>
      doPar (((boxPoints bx).filter (c.dom st p)).map fun x => doOne (g ⟨t, st, p, x⟩)))) := by
  have h1 : Becomes φ (doSeq (L.map (X.evItem c t st bx))) (doSeq (L.map (mainPiece c g t st bx))) := by
    refine becomes_seq _ _ _ _ fun it _ => ?_
    rcases it with k | p
    · refine becomes_empty fun tr htr x hx => ?_
      rw [(doPar_ones _ htr).mem_iff, List.mem_map] at hx
      obtain ⟨y, -, rfl⟩ := hx
      exact hscr _ _ _ _ _
    · exact becomes_par _ _ _ _ fun x _ => becomes_one (hmain _ _)
  rw [doSeq_filter (mainPiece c g t st bx) (fun | .main _ => true | .scr _ => false) L (by
    rintro (k | p) _ h
    · rfl
    · exact absurd h (by simp))] at h1
  have e : ∀ L : List SItem, ((L.filter fun | .main _ => true | .scr _ => false).map (mainPiece c g t st bx)) =
      (L.filterMap SItem.part?).map fun p =>
        doPar (((boxPoints bx).filter (c.dom st p)).map fun x => doOne (g ⟨t, st, p, x⟩)) := by
    intro L
    induction L with
    | nil => rfl
    | cons it L ih =>
      rcases it with k | p
      · simpa [SItem.part?, List.filterMap_cons] using ih
      · simpa [mainPiece, SItem.part?, List.filterMap_cons] using ih
  rw [e] at h1
  exact h1

theorem evalBox_filter (hs : X.Supplied c) (g : Task → Task) (st : Nat) (t : Int) (bx : Box) :
    doSeq (((List.range (c.nparts st)).filter fun p => c.stepOk st p t && !X.empty st p).map fun p =>
      doPar (((boxPoints bx).filter (c.dom st p)).map fun x => doOne (g ⟨t, st, p, x⟩))) =
    doSeq ((List.range (c.nparts st)).map fun p => if c.stepOk st p t = true then
      doPar (((boxPoints bx).filter (c.dom st p)).map fun x => doOne (g ⟨t, st, p, x⟩)) else doNothing) := by
  rw [doSeq_filter (fun p => if c.stepOk st p t = true then
      doPar (((boxPoints bx).filter (c.dom st p)).map fun x => doOne (g ⟨t, st, p, x⟩)) else doNothing) (fun p => c.stepOk st p t && !X.empty st p)]
  · congr 1
    refine List.map_congr_left fun p hp => ?_
    have := (List.mem_filter.1 hp).2
    simp only [Bool.and_eq_true] at this
    rw [if_pos this.1]
  · intro p _ hp
    by_cases h1 : c.stepOk st p t = true
    · rw [if_pos h1]
      rw [h1, Bool.true_and, Bool.not_eq_false'] at hp
      have : (boxPoints bx).filter (c.dom st p) = [] := by
        rw [List.filter_eq_nil_iff]
        intro x _
        rw [hs.empty st p hp x]
        simp
      rw [this]
      rfl
    · rw [if_neg h1]

/-- Without the scratch tasks, a micro-block is a micro-block of the stencil without scratch vars. -/
theorem becomes_evalBox (hs : X.Supplied c) (t : Int) (st : Nat) (bx : Box) : Becomes STask.mains (X.evBox c t st bx) (c.evalBox t st bx) := by
  rintro tr ⟨u, v, hu, hv, rfl⟩
  rw [show u = _ from hu, List.flatMap_append]
  have := becomes_items (X := X) (c := c) (φ := STask.mains) (fun a => a) (fun _ _ _ _ _ => rfl) (fun _ _ => rfl) st t bx (X.items c st t) v hv
  rw [(items_spec hs st t).2, evalBox_filter hs (fun a => a)] at this
  exact this

/-- All points that a part of the stage may have. -/
def inStage (c : RunCfg) (st : Nat) (x : List Int) : Bool :=
  decide (∀ j < c.nd, InIvl (x.getD j 0) (c.stageBB st j) ∧ InIvl (x.getD j 0) (c.extBeg j, c.extEnd j))

/-- The configuration with an additional first part in each stage, for the starts of the micro-blocks. -/
def shadow (c : RunCfg) : RunCfg :=
  c.withParts (fun st => c.nparts st + 1) (fun st p x => match p with | 0 => inStage c st x | p + 1 => c.dom st p x)
    (fun st p t => match p with | 0 => true | p + 1 => c.stepOk st p t)

def lift (a : Task) : Task := { a with part := a.part + 1 }

/-- The start of a micro-block is a task of the additional part at every point. -/
def shadowOf (c : RunCfg) : STask → List Task
  | .start t st bx => ((boxPoints bx).filter (inStage c st)).map fun x => ⟨t, st, 0, x⟩
  | .scr _ _ _ _ _ => []
  | .main _ a => [lift a]

theorem becomes_shadow (hs : X.Supplied c) (t : Int) (st : Nat) (bx : Box) : Becomes (shadowOf c) (X.evBox c t st bx) ((shadow c).evalBox t st bx) := by
  rintro tr ⟨u, v, hu, hv, rfl⟩
  rw [show u = _ from hu, List.flatMap_append]
  have h2 := becomes_items (X := X) (c := c) (φ := shadowOf c) lift (fun _ _ _ _ _ => rfl) (fun _ _ => rfl) st t bx (X.items c st t) v hv
  rw [(items_spec hs st t).2, evalBox_filter hs lift] at h2
  unfold evalBox
  show doSeq ((List.range (c.nparts st + 1)).map _) _
  rw [List.range_succ_eq_map, List.map_cons, List.map_map]
  refine ⟨_, _, ?_, h2, rfl⟩
  rw [List.flatMap_cons, List.flatMap_nil, List.append_nil]
  exact doPar_list _ _

theorem shadow_ok (h : c.Ok) : (shadow c).Ok where
  nd_le := h.nd_le
  fold_pos := h.fold_pos
  halo_nonneg := h.halo_nonneg
  rank_pos := h.rank_pos
  mega_pos := h.mega_pos
  block_pos := h.block_pos
  block_ge := h.block_ge
  micro_pos := h.micro_pos
  mega_steps := h.mega_steps
  block_steps := h.block_steps
  dom_bb st p x hx j hj := by
    rcases p with _ | p
    · exact ((of_decide_eq_true hx) j hj).1
    · exact h.dom_bb st p x hx j hj
  dom_ext st p x hx j hj := by
    rcases p with _ | p
    · exact ((of_decide_eq_true hx) j hj).2
    · exact h.dom_ext st p x hx j hj
  ext_ranks := h.ext_ranks

theorem shadow_rem (h : c.tbSteps = 0 ∨ c.NoShortRemainder) : (shadow c).tbSteps = 0 ∨ (shadow c).NoShortRemainder := by
  rcases h with h | h
  · exact Or.inl ((tbSteps_withParts c _ _ _).trans h)
  · refine Or.inr fun j hj => ?_
    have := h j hj
    show _ ∨ _ ∨ _ ∨ (_ ∨ 2 * (c.tbAngle j * (shadow c).numTbShifts) ≤ _)
    rw [show (shadow c).numTbShifts = c.numTbShifts from numTbShifts_withParts c _ _ _]
    exact this

/-- In a trace that keeps the order with the additional part, micro-blocks are not disturbed. -/
theorem quiet_of_shadow (h : c.Ok) {dir : Int} {tr : List STask} (hr : ∀ x ∈ tr, X.Regular c x) (hn : (tr.flatMap STask.mains).Nodup)
    (hp : (tr.flatMap (shadowOf c)).Pairwise fun a b => ¬ c.MustPrecede dir b a) : Quiet c dir tr := by
  rintro u1 u2 u3 u4 bx a bx' b rfl
  have hra : X.Regular c (.main bx a) := hr _ (by simp)
  obtain ⟨⟨-, -, hdom, -⟩, -, hap⟩ := hra
  have hin : inStage c a.stage a.pt = true := decide_eq_true fun j hj => ⟨h.dom_bb _ _ _ hdom j hj, h.dom_ext _ _ _ hdom j hj⟩
  simp only [List.flatMap_append, List.flatMap_cons, shadowOf, List.append_assoc] at hp
  simp only [List.flatMap_append, List.flatMap_cons, STask.mains, List.append_assoc, List.nil_append] at hn
  rw [List.pairwise_append] at hp
  have hp2 := hp.2.1
  rw [List.pairwise_append] at hp2
  obtain ⟨-, hp3, hp4⟩ := hp2
  have hstart : (⟨a.step, a.stage, 0, a.pt⟩ : Task) ∈ ((boxPoints bx).filter (inStage c a.stage)).map fun x => (⟨a.step, a.stage, 0, x⟩ : Task) :=
    List.mem_map.2 ⟨a.pt, List.mem_filter.2 ⟨hap, hin⟩, rfl⟩
  have k1 : ¬ c.MustPrecede dir (lift b) ⟨a.step, a.stage, 0, a.pt⟩ := hp4 _ hstart _ (by simp)
  rw [List.pairwise_append] at hp3
  have hp5 := hp3.2.1
  rw [List.singleton_append, List.pairwise_cons] at hp5
  have k2 : ¬ c.MustPrecede dir (lift a) (lift b) := hp5.1 _ (by simp)
  refine ⟨?_, k1, k2⟩
  rintro rfl
  have := hn.sublist (List.sublist_append_right _ _)
  have := this.sublist (List.sublist_append_right _ _)
  rw [List.singleton_append, List.nodup_cons] at this
  exact this.1 (by simp)

/-- The facts about a run with scratch vars. -/
theorem run_facts (h : c.Ok) (hrem : c.tbSteps = 0 ∨ c.NoShortRemainder) (hs : X.Supplied c) {first last : Int} {tr : List STask}
    (ht : X.runSolution c first last tr) :
    X.Closed tr ∧ (∀ x ∈ tr, X.Regular c x) ∧ Quiet c (stepDir first last) tr ∧ c.runSolution first last (tr.flatMap STask.mains) := by
  have h1 : X.Closed tr := always_runSolution h.nd_le mixes_closed (fun t st bx hb => by
    rw [evBox_pieces]
    exact closed_seq _ (items_spec hs st t).1) first last tr ht
  have h2 : ∀ x ∈ tr, X.Regular c x := always_runSolution h.nd_le (mixes_all _) (fun t st bx hb => by
    rw [evBox_pieces]
    exact regular_seq hb _ (items_spec hs st t).1) first last tr ht
  have h3 : c.runSolution first last (tr.flatMap STask.mains) :=
    becomes_runSolution STask.mains (becomes_evalBox hs) first last tr ht
  have h4 : (shadow c).runSolution first last (tr.flatMap (shadowOf c)) := by
    have := becomes_runSolution (c := c) (shadowOf c) (becomes_shadow hs) first last tr ht
    rw [← runSolutionWith_withParts c (fun st => c.nparts st + 1) (fun st p x => match p with | 0 => inStage c st x | p + 1 => c.dom st p x)
      (fun st p t => match p with | 0 => true | p + 1 => c.stepOk st p t)] at this
    exact this
  obtain ⟨-, -, g3⟩ := good_runSolution (en := true) (shadow_ok h) (fun _ => shadow_rem hrem) first last _ h4
  obtain ⟨g1, -, -⟩ := good_runSolution (en := true) h (fun _ => hrem) first last _ h3
  exact ⟨h1, h2, quiet_of_shadow h h2 g1 (g3.imp fun h => h rfl), h3⟩

end Scr
end Yask
