import Verif.Common.VecSetModel
import Mathlib.Tactic.Tauto
import Mathlib.Data.List.Basic
import Mathlib.Data.List.Induction

/-!
# Insertion-ordered set: property C42

The specification is a duplicate-free list: insert appends a new item, erase removes the item, swap exchanges
two positions.
-/

namespace Yask

/-- One operation on the abstract ordered set; `none` for an index outside the set. -/
def vecSetSpecStep {T : Type*} [DecidableEq T] (l : List T) : VecSetOp T → Option (List T)
  | .insert x => some (if x ∈ l then l else l ++ [x])
  | .erase x => some (l.filter (· ≠ x))
  | .clear => some []
  | .swap i j =>
    match l[i]?, l[j]? with
    | some a, some b => some ((l.set i b).set j a)
    | _, _ => if i = j then some l else none

/-- The abstract ordered set after a sequence of operations. -/
def vecSetSpec {T : Type*} [DecidableEq T] (ops : List (VecSetOp T)) : Option (List T) :=
  ops.foldlM vecSetSpecStep []

/-- Every erase in the sequence names an item not in the set or the last item of the set. -/
def EraseOnlyLast {T : Type*} [DecidableEq T] (ops : List (VecSetOp T)) : Prop :=
  ∀ pre x post l, ops = pre ++ .erase x :: post → vecSetSpec pre = some l → x ∈ l → l.getLast? = some x

section
variable {T : Type*} [DecidableEq T]

/-- The vector and the map agree. -/
def VecSet.Ok (s : VecSet T) : Prop := ∀ x i, s.posn x = some i ↔ s.items[i]? = some x

theorem VecSet.Ok.mem {s : VecSet T} (h : s.Ok) (x : T) : (s.posn x).isSome ↔ x ∈ s.items := by
  rw [Option.isSome_iff_exists, List.mem_iff_getElem?]
  exact exists_congr fun i => h x i

theorem VecSet.Ok.nodup {s : VecSet T} (h : s.Ok) : s.items.Nodup := by
  rw [List.nodup_iff_getElem?_ne_getElem?]
  intro i j hij hj he
  have h1 := (h _ j).2 (List.getElem?_eq_getElem hj)
  have h2 := (h _ i).2 (he.trans (List.getElem?_eq_getElem hj))
  rw [h1] at h2
  have := Option.some.inj h2
  omega

theorem vecset_insert_ok {s : VecSet T} (h : s.Ok) (x : T) :
    (s.insert x).Ok ∧ (s.insert x).items = if x ∈ s.items then s.items else s.items ++ [x] := by
  unfold VecSet.insert VecSet.count
  have hm := h.mem x
  by_cases hx : x ∈ s.items
  · rw [if_pos (hm.2 hx), if_neg (by decide), if_pos hx]
    exact ⟨h, rfl⟩
  · rw [if_neg (fun hc => hx (hm.1 hc)), if_pos rfl, if_neg hx]
    refine ⟨fun y i => ?_, rfl⟩
    show Function.update s.posn x (some s.items.length) y = some i ↔ (s.items ++ [x])[i]? = some y
    rw [List.getElem?_append]
    by_cases hy : y = x
    · subst hy
      rw [Function.update_self]
      constructor
      · intro e
        have := Option.some.inj e
        subst this
        simp
      · intro e
        split at e
        · exact absurd (List.mem_of_getElem? e) hx
        · next hi =>
          have := (List.getElem?_eq_some_iff.1 e).1
          simp only [List.length_cons, List.length_nil] at this
          congr 1; omega
    · rw [Function.update_of_ne hy]
      rw [h y i]
      split
      · rfl
      · next hi =>
        constructor
        · intro e
          exact absurd (List.getElem?_eq_some_iff.1 e).1 hi
        · intro e
          have := List.mem_of_getElem? e
          simp only [List.mem_singleton] at this
          exact absurd this hy

theorem filter_ne_eraseIdx {l : List T} (hn : l.Nodup) (x : T) (i : Nat) (h : l[i]? = some x) :
    l.filter (· ≠ x) = l.eraseIdx i := by
  induction l generalizing i with
  | nil => simp at h
  | cons a l ih =>
    rw [List.nodup_cons] at hn
    cases i with
    | zero =>
      simp only [List.getElem?_cons_zero, Option.some.injEq] at h
      subst h
      simp only [ne_eq, not_true_eq_false, decide_false, Bool.false_eq_true, not_false_eq_true,
        List.filter_cons_of_neg, List.eraseIdx_cons_zero]
      rw [List.filter_eq_self]
      intro y hy
      simp only [decide_eq_true_eq]
      rintro rfl; exact hn.1 hy
    | succ i =>
      simp only [List.getElem?_cons_succ] at h
      have hne : a ≠ x := by rintro rfl; exact hn.1 (List.mem_of_getElem? h)
      rw [List.filter_cons_of_pos (by simpa using hne), List.eraseIdx_cons_succ, ih hn.2 i h]

theorem vecset_erase_items {s : VecSet T} (h : s.Ok) (x : T) :
    ∃ s', s.erase x = some s' ∧ s'.items = s.items.filter (· ≠ x) ∧
      (x ∈ s.items → s.items.getLast? ≠ some x ∨ s'.Ok) ∧ (x ∉ s.items → s'.Ok) := by
  unfold VecSet.erase
  cases hp : s.posn x with
  | none =>
    have hx : x ∉ s.items := by rw [← h.mem x, hp]; simp
    refine ⟨s, rfl, ?_, fun hm => absurd hm hx, fun _ => h⟩
    symm
    rw [List.filter_eq_self]
    intro y hy
    simp only [ne_eq, decide_eq_true_eq]
    rintro rfl; exact hx hy
  | some op =>
    have hi := (h x op).1 hp
    obtain ⟨hlt, hval⟩ := List.getElem?_eq_some_iff.1 hi
    simp only [if_pos hlt]
    refine ⟨_, rfl, (filter_ne_eraseIdx h.nodup x op hi).symm, fun _ => ?_, fun hm => absurd (List.mem_of_getElem? hi) hm⟩
    by_cases hl : s.items.getLast? = some x
    · right
      have hop : op = s.items.length - 1 := by
        rw [List.getLast?_eq_getElem?] at hl
        have h1 := (h x _).2 hl
        rw [hp] at h1
        exact Option.some.inj h1
      intro y i
      show Function.update (VecSet.repair s.posn op) x none y = some i ↔ (s.items.eraseIdx op)[i]? = some y
      unfold VecSet.repair
      rw [List.getElem?_eraseIdx]
      by_cases hy : y = x
      · subst hy
        rw [Function.update_self]
        constructor
        · intro e; simp at e
        · intro e
          split at e
          · have := (h _ _).2 e
            rw [hp] at this
            have := Option.some.inj this
            omega
          · have := (h _ _).2 e
            rw [hp] at this
            have := Option.some.inj this
            omega
      · rw [Function.update_of_ne hy, h y i]
        split
        · rfl
        · next hge =>
          constructor
          · intro e
            obtain ⟨h1, h2⟩ := List.getElem?_eq_some_iff.1 e
            obtain rfl : i = op := by omega
            exact absurd (h2.symm.trans hval) hy
          · intro e
            have := (List.getElem?_eq_some_iff.1 e).1
            omega
    · left; exact hl

theorem vecset_swap_ok {s : VecSet T} (h : s.Ok) (i j : Nat) :
    (s.swap i j).map VecSet.items = vecSetSpecStep s.items (.swap i j) ∧
      ∀ s', s.swap i j = some s' → s'.Ok := by
  unfold VecSet.swap vecSetSpecStep
  by_cases hij : i = j
  · subst hij
    simp only [if_true, Option.map_some]
    refine ⟨?_, fun s' e => by have := Option.some.inj e; subst this; exact h⟩
    cases hi : s.items[i]? with
    | none => rfl
    | some a =>
      obtain ⟨h1, h2⟩ := List.getElem?_eq_some_iff.1 hi
      simp [← h2]
  · simp only [if_neg hij]
    cases hi : s.items[i]? with
    | none => simp
    | some a =>
      cases hj : s.items[j]? with
      | none => simp
      | some b =>
        refine ⟨rfl, fun s' e => ?_⟩
        have := Option.some.inj e
        subst this
        obtain ⟨hil, hiv⟩ := List.getElem?_eq_some_iff.1 hi
        obtain ⟨hjl, hjv⟩ := List.getElem?_eq_some_iff.1 hj
        have hab : a ≠ b := by
          rintro rfl
          have h1 := (h _ _).2 hi
          rw [(h _ _).2 hj] at h1
          exact hij (Option.some.inj h1).symm
        intro y k
        show Function.update (Function.update s.posn b (some i)) a (some j) y = some k ↔
          ((s.items.set i b).set j a)[k]? = some y
        rw [List.getElem?_set, List.getElem?_set]
        simp only [List.length_set]
        by_cases hya : y = a
        · subst hya
          rw [Function.update_self]
          constructor
          · intro e
            have := Option.some.inj e; subst this
            simp [hjl]
          · intro e
            by_cases hjk : j = k
            · rw [hjk]
            · rw [if_neg hjk] at e
              by_cases hik : i = k
              · rw [if_pos hik, if_pos hil] at e
                exact absurd (Option.some.inj e).symm hab
              · rw [if_neg hik, ← hi] at e
                have h1 := (h _ _).2 (e.trans hi)
                rw [(h _ _).2 hi] at h1
                exact absurd (Option.some.inj h1) hik
        · rw [Function.update_of_ne hya]
          by_cases hyb : y = b
          · subst hyb
            rw [Function.update_self]
            constructor
            · intro e
              have := Option.some.inj e; subst this
              rw [if_neg (fun hh => hij hh.symm), if_pos rfl, if_pos hil]
            · intro e
              by_cases hjk : j = k
              · rw [if_pos hjk, if_pos hjl] at e
                exact absurd (Option.some.inj e) hab
              · rw [if_neg hjk] at e
                by_cases hik : i = k
                · rw [hik]
                · rw [if_neg hik, ← hj] at e
                  have h1 := (h _ _).2 (e.trans hj)
                  rw [(h _ _).2 hj] at h1
                  exact absurd (Option.some.inj h1) hjk
          · rw [Function.update_of_ne hyb, h y k]
            by_cases hjk : j = k
            · subst hjk
              rw [if_pos rfl, if_pos hjl, hj]
              constructor
              · intro e; exact absurd (Option.some.inj e).symm hyb
              · intro e; exact absurd (Option.some.inj e).symm hya
            · rw [if_neg hjk]
              by_cases hik : i = k
              · subst hik
                rw [if_pos rfl, if_pos hil, hi]
                constructor
                · intro e; exact absurd (Option.some.inj e).symm hya
                · intro e; exact absurd (Option.some.inj e).symm hyb
              · rw [if_neg hik]

theorem vecset_run_ok (ops : List (VecSetOp T)) (hl : EraseOnlyLast ops) :
    (VecSet.run ops).map VecSet.items = vecSetSpec ops ∧ ∀ s, VecSet.run ops = some s → s.Ok := by
  induction ops using List.reverseRecOn with
  | nil =>
    refine ⟨rfl, fun s e => ?_⟩
    have : VecSet.empty = s := Option.some.inj e
    subst this
    intro x i
    simp [VecSet.empty]
  | append_singleton ops op ih =>
    have hpre : EraseOnlyLast ops := by
      intro pre x post l he
      exact hl pre x (post ++ [op]) l (by rw [he]; simp)
    obtain ⟨h1, h2⟩ := ih hpre
    have er : VecSet.run (ops ++ [op]) = (VecSet.run ops).bind fun s => s.apply op := by
      unfold VecSet.run; rw [List.foldlM_append]; simp
    have es : vecSetSpec (ops ++ [op]) = (vecSetSpec ops).bind fun l => vecSetSpecStep l op := by
      unfold vecSetSpec; rw [List.foldlM_append]; simp
    rw [er, es, ← h1]
    cases hr : VecSet.run ops with
    | none => simp
    | some s =>
      have hok := h2 s hr
      simp only [Option.bind_some, Option.map_some]
      cases op with
      | insert x =>
        obtain ⟨a, b⟩ := vecset_insert_ok hok x
        refine ⟨by simp [VecSet.apply, vecSetSpecStep, b], fun s' e => ?_⟩
        have := Option.some.inj e; subst this; exact a
      | erase x =>
        obtain ⟨s', e, hi, hlast, hnot⟩ := vecset_erase_items hok x
        have e' : VecSet.apply s (.erase x) = some s' := e
        rw [e']
        refine ⟨by simp only [Option.map_some, hi]; rfl, fun s'' e'' => ?_⟩
        have := Option.some.inj e''; subst this
        by_cases hx : x ∈ s.items
        · rcases hlast hx with hh | hh
          · exact absurd (hl ops x [] s.items rfl (by rw [← h1, hr]; rfl) hx) hh
          · exact hh
        · exact hnot hx
      | clear =>
        refine ⟨rfl, fun s' e => ?_⟩
        have : VecSet.empty = s' := Option.some.inj e
        subst this
        intro x i
        simp [VecSet.empty]
      | swap i j => exact vecset_swap_ok hok i j

end

/-- C42 (part): for every sequence of insert, clear, swap and erase operations in which each erase names the
last item or an absent one, the container holds what the ordered set holds; `size`, `count` and indexing agree
with it and no item occurs twice.  Missing for the full property: erasing other items
(`C42_first_erase_correct_partial`, `C42_second_erase_wrong`). -/
theorem C42_ordered_set_partial {T : Type*} [DecidableEq T] (ops : List (VecSetOp T)) (hl : EraseOnlyLast ops) :
    (VecSet.run ops).map VecSet.items = vecSetSpec ops ∧
    ∀ s, VecSet.run ops = some s →
      s.items.Nodup ∧ (∀ x, s.count x = if x ∈ s.items then 1 else 0) ∧ s.size = s.items.length ∧
      ∀ i, s.at? i = s.items[i]? := by
  obtain ⟨h1, h2⟩ := vecset_run_ok ops hl
  refine ⟨h1, fun s hs => ⟨(h2 s hs).nodup, fun x => ?_, rfl, fun _ => rfl⟩⟩
  unfold VecSet.count
  have := (h2 s hs).mem x
  by_cases hx : x ∈ s.items
  · rw [if_pos hx, if_pos (this.2 hx)]
  · rw [if_neg hx, if_neg (fun hc => hx (this.1 hc))]

/-- C42 (part): after such a sequence, one erase of any item removes exactly that item. -/
theorem C42_first_erase_correct_partial {T : Type*} [DecidableEq T] (ops : List (VecSetOp T))
    (hl : EraseOnlyLast ops) (x : T) :
    (VecSet.run (ops ++ [.erase x])).map VecSet.items = vecSetSpec (ops ++ [.erase x]) := by
  obtain ⟨h1, h2⟩ := vecset_run_ok ops hl
  have er : VecSet.run (ops ++ [.erase x]) = (VecSet.run ops).bind fun s => s.apply (.erase x) := by
    unfold VecSet.run; rw [List.foldlM_append]; simp
  have es : vecSetSpec (ops ++ [.erase x]) = (vecSetSpec ops).bind fun l => vecSetSpecStep l (.erase x) := by
    unfold vecSetSpec; rw [List.foldlM_append]; simp
  rw [er, es, ← h1]
  cases hr : VecSet.run ops with
  | none => rfl
  | some s =>
    obtain ⟨s', e, hi, -⟩ := vecset_erase_items (h2 s hr) x
    simp only [Option.bind_some, Option.map_some]
    have e' : VecSet.apply s (.erase x) = some s' := e
    rw [e']
    simp only [Option.map_some, hi]
    rfl

/-- C42, finding: the positions are not repaired after an erase, so the second erase removes another item. -/
theorem C42_second_erase_wrong :
    (VecSet.run [.insert 1, .insert 2, .insert 3, .insert 4, .erase 1, .erase 2]).map VecSet.items =
      some [2, 4] ∧
    vecSetSpec [.insert 1, .insert 2, .insert 3, .insert 4, .erase 1, .erase 2] = some [3, 4] := by
  decide

/-- C42, finding: inserting two new items and erasing them again in the order of insertion, which is what the
compiler does when a candidate part with two equations is taken out of a stage, erases past the end of the
vector. -/
theorem C42_add_remove_two_undefined {T : Type*} [DecidableEq T] (ops : List (VecSetOp T)) (l : List T)
    (hl : EraseOnlyLast ops) (hs : vecSetSpec ops = some l) (a b : T) (ha : a ∉ l) (hb : b ∉ l) (hab : a ≠ b) :
    VecSet.run (ops ++ [.insert a, .insert b, .erase a, .erase b]) = none ∧
    vecSetSpec (ops ++ [.insert a, .insert b, .erase a, .erase b]) = some l := by
  obtain ⟨h1, h2⟩ := vecset_run_ok ops hl
  constructor
  · rw [hs] at h1
    obtain ⟨s, hr, hit⟩ : ∃ s, VecSet.run ops = some s ∧ s.items = l := by
      cases hr : VecSet.run ops with
      | none => rw [hr] at h1; simp at h1
      | some s => rw [hr] at h1; exact ⟨s, rfl, by simpa using h1⟩
    have hok := h2 s hr
    unfold VecSet.run at hr ⊢
    rw [List.foldlM_append, hr]
    have pa : s.posn a = none := by
      have := hok.mem a
      rw [hit] at this
      cases hp : s.posn a with
      | none => rfl
      | some i => exact absurd (this.1 (by simp [hp])) ha
    have pb : s.posn b = none := by
      have := hok.mem b
      rw [hit] at this
      cases hp : s.posn b with
      | none => rfl
      | some i => exact absurd (this.1 (by simp [hp])) hb
    simp [VecSet.apply, VecSet.insert, VecSet.count, VecSet.erase, VecSet.repair, pa, pb, hab, Ne.symm hab,
      List.eraseIdx_append_of_length_le]
  · unfold vecSetSpec at hs ⊢
    rw [List.foldlM_append, hs]
    simp only [Option.bind_eq_bind, Option.bind_some, List.foldlM_cons, List.foldlM_nil, vecSetSpecStep,
      Option.pure_def]
    have hb' : b ∉ l ++ [a] := by simp [hb, Ne.symm hab]
    rw [if_neg ha, if_neg hb', Option.some.injEq]
    have f1 : l.filter (fun y => decide (y ≠ a)) = l := by
      rw [List.filter_eq_self]; intro y hy; simp only [decide_eq_true_eq]; rintro rfl; exact ha hy
    have f2 : l.filter (fun y => decide (y ≠ b)) = l := by
      rw [List.filter_eq_self]; intro y hy; simp only [decide_eq_true_eq]; rintro rfl; exact hb hy
    simp only [List.filter_append, f1, f2]
    simp [hab]

/-- Not vacuous: a sequence with insertions, a swap and an erase of the last item. -/
example : EraseOnlyLast [VecSetOp.insert 5, .insert 7, .swap 0 1, .erase 5, .insert 5, .insert 7] := by
  intro pre x post l he hl hx
  have h0 : pre = [.insert 5, .insert 7, .swap 0 1] ∧ x = 5 := by
    rcases pre with _ | ⟨a, pre⟩
    · simp at he
    rcases pre with _ | ⟨b, pre⟩
    · simp at he
    rcases pre with _ | ⟨c, pre⟩
    · simp at he
    rcases pre with _ | ⟨d, pre⟩
    · simp at he; obtain ⟨rfl, rfl, rfl, rfl, _⟩ := he; exact ⟨rfl, rfl⟩
    rcases pre with _ | ⟨e, pre⟩
    · simp at he
    rcases pre with _ | ⟨f, pre⟩
    · simp at he
    · simp at he
  obtain ⟨rfl, rfl⟩ := h0
  have h3 : vecSetSpec [VecSetOp.insert 5, .insert 7, .swap 0 1] = some [7, 5] := by decide
  rw [h3] at hl
  have := Option.some.inj hl
  subst this
  rfl
example : (VecSet.run [VecSetOp.insert 5, .insert 7, .swap 0 1, .erase 5, .insert 5, .insert 7]).map
    VecSet.items = some [7, 5] := by decide

end Yask
