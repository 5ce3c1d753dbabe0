import Verif.Compiler.DimsModel
import Mathlib.Data.List.Basic

/-!
# Lemmas about the choice of dims and their layout order
-/

namespace Yask.Dims

variable {D : Type*} [DecidableEq D]

/-- The names of dims of the given kind, in order of appearance. -/
def namesOf (k : Kind) (l : List (Bool × D × Kind)) : List D := (l.filter fun e => decide (e.2.2 = k)).map fun e => e.2.1

theorem addDims_eq (l : List (Bool × D × Kind)) : ∀ f : Found D,
    ((∀ e ∈ l, e.2.2 = .step → e.1 = false) ∧
      (∀ d ∈ namesOf .step l, ∀ e ∈ f.step.toList ++ namesOf .step l, e = d) ∧
      addDims f l = .ok ⟨(f.step.toList ++ namesOf .step l).head?, (namesOf .domain l).foldl addBack f.domain,
        (namesOf .misc l).foldl addBack f.misc⟩) ∨
    (¬ ((∀ e ∈ l, e.2.2 = .step → e.1 = false) ∧
      (∀ d ∈ namesOf .step l, ∀ e ∈ f.step.toList ++ namesOf .step l, e = d)) ∧ addDims f l = .throws) := by
  induction l with
  | nil =>
    intro f
    left
    refine ⟨by simp, by simp [namesOf], ?_⟩
    simp [addDims, namesOf]
  | cons x l ih =>
    intro f
    obtain ⟨s, d, k⟩ := x
    cases k with
    | domain =>
      have h1 : ∀ k, k ≠ Kind.domain → namesOf k ((s, d, Kind.domain) :: l) = namesOf k l := by
        intro k hk; simp [namesOf, Ne.symm hk]
      have h2 : namesOf .domain ((s, d, Kind.domain) :: l) = d :: namesOf .domain l := by simp [namesOf]
      have h3 : addDims f ((s, d, Kind.domain) :: l) = addDims { f with domain := addBack f.domain d } l := rfl
      rw [h1 .step (by decide), h1 .misc (by decide), h2, h3]
      simpa using ih { f with domain := addBack f.domain d }
    | misc =>
      have h1 : ∀ k, k ≠ Kind.misc → namesOf k ((s, d, Kind.misc) :: l) = namesOf k l := by
        intro k hk; simp [namesOf, Ne.symm hk]
      have h2 : namesOf .misc ((s, d, Kind.misc) :: l) = d :: namesOf .misc l := by simp [namesOf]
      have h3 : addDims f ((s, d, Kind.misc) :: l) = addDims { f with misc := addBack f.misc d } l := rfl
      rw [h1 .step (by decide), h1 .domain (by decide), h2, h3]
      simpa using ih { f with misc := addBack f.misc d }
    | step =>
      have h1 : ∀ k, k ≠ Kind.step → namesOf k ((s, d, Kind.step) :: l) = namesOf k l := by
        intro k hk; simp [namesOf, Ne.symm hk]
      have h2 : namesOf .step ((s, d, Kind.step) :: l) = d :: namesOf .step l := by simp [namesOf]
      rw [h1 .misc (by decide), h1 .domain (by decide), h2]
      by_cases ha : f.step.any (· ≠ d) = true
      · right
        refine ⟨?_, ?_⟩
        · rintro ⟨_, h⟩
          cases hfs : f.step with
          | none => rw [hfs] at ha; simp at ha
          | some e =>
            have := h d (by simp) e (by rw [hfs]; simp)
            rw [hfs, this] at ha
            simp at ha
        · simp only [addDims, addDim, ha, if_true]
          rfl
      · have ha' : ∀ e ∈ f.step.toList, e = d := by
          intro e he
          by_contra hc
          apply ha
          cases hfs : f.step with
          | none => rw [hfs] at he; simp at he
          | some e' =>
            rw [hfs] at he
            simp at he
            subst he
            simp [hc]
        cases s with
        | true =>
          right
          refine ⟨fun h => ?_, ?_⟩
          · have := h.1 (true, d, .step) (by simp) rfl
            cases this
          · simp only [addDims, addDim, ha, if_true]
            rfl
        | false =>
          have h3 : addDims f ((false, d, Kind.step) :: l) = addDims { f with step := some d } l := by
            simp only [addDims, addDim, ha]
            rfl
          have hhead : (f.step.toList ++ d :: namesOf .step l).head? = some d := by
            cases hfs : f.step with
            | none => rfl
            | some e => simp [ha' e (by simp [hfs])]
          rw [h3, hhead]
          rcases ih { f with step := some d } with ⟨i1, i2, i3⟩ | ⟨i1, i2⟩
          · left
            refine ⟨?_, ?_, ?_⟩
            · intro e he hs
              rcases List.mem_cons.1 he with rfl | he
              · rfl
              · exact i1 e he hs
            · have hall : ∀ e ∈ namesOf .step l, e = d := fun e he => by
                have := i2 e he d (by simp)
                exact this.symm
              have hall2 : ∀ e ∈ f.step.toList ++ d :: namesOf .step l, e = d := by
                intro e he
                rcases List.mem_append.1 he with he | he
                · exact ha' e he
                · rcases List.mem_cons.1 he with rfl | he
                  · rfl
                  · exact hall e he
              intro a h1 b h2
              rw [hall2 a (by simp; right; simpa using h1), hall2 b h2]
            · rw [i3]; simp
          · right
            refine ⟨fun h => i1 ⟨fun e he => h.1 e (by simp [he]), ?_⟩, i2⟩
            intro a h1 b h2
            apply h.2 a (by simp [h1]) b
            simp at h2 ⊢
            right
            exact h2

/-- The names of a list once each, in order of first appearance. -/
theorem foldl_addBack (l : List D) : ∀ acc : List D, acc.Nodup →
    (l.foldl addBack acc).Nodup ∧ (∀ d, d ∈ l.foldl addBack acc ↔ d ∈ acc ∨ d ∈ l) ∧
    (∀ pre : List D, (∀ d, d ∈ pre ↔ d ∈ acc) → acc.Pairwise (fun a b => pre.idxOf a < pre.idxOf b) →
      (l.foldl addBack acc).Pairwise fun a b => (pre ++ l).idxOf a < (pre ++ l).idxOf b) := by
  induction l with
  | nil => intro acc h; simp [h]
  | cons x l ih =>
    intro acc h
    rw [List.foldl_cons]
    have hn : (addBack acc x).Nodup := by
      unfold addBack
      split_ifs with hx
      · exact h
      · rw [List.nodup_append]
        refine ⟨h, by simp, ?_⟩
        intro a ha b hb
        simp at hb
        subst hb
        rintro rfl
        exact hx ha
    have hm : ∀ d, d ∈ addBack acc x ↔ d ∈ acc ∨ d = x := by
      intro d
      unfold addBack
      split_ifs with hx
      · constructor
        · exact .inl
        · rintro (hd | rfl)
          · exact hd
          · exact hx
      · simp
    obtain ⟨i1, i2, i3⟩ := ih _ hn
    refine ⟨i1, ?_, ?_⟩
    · intro d
      rw [i2, hm]
      simp [or_assoc]
    · intro pre hpre hpw
      have := i3 (pre ++ [x]) (by intro d; rw [hm]; simp [hpre]) ?_
      · simpa using this
      · have hext : ∀ a ∈ acc, (pre ++ [x]).idxOf a = pre.idxOf a := by
          intro a ha
          rw [List.idxOf_append, if_pos ((hpre a).2 ha)]
        have hpw' : acc.Pairwise (fun a b => (pre ++ [x]).idxOf a < (pre ++ [x]).idxOf b) := by
          refine hpw.imp_of_mem ?_
          intro a b ha hb hab
          rw [hext a ha, hext b hb]
          exact hab
        unfold addBack
        split_ifs with hx
        · exact hpw'
        · rw [List.pairwise_append]
          refine ⟨hpw', by simp, ?_⟩
          intro a ha b hb
          simp at hb
          subst hb
          rw [hext a ha, List.idxOf_append, if_neg (fun h => hx ((hpre _).1 h))]
          have := List.idxOf_lt_length_of_mem ((hpre a).2 ha)
          omega

theorem foldl_addBack_append (l : List D) : ∀ acc : List D, l.Nodup → (∀ d ∈ l, d ∉ acc) →
    l.foldl addBack acc = acc ++ l := by
  induction l with
  | nil => intro acc _ _; simp
  | cons x l ih =>
    intro acc hn hd
    rw [List.foldl_cons]
    have h1 : addBack acc x = acc ++ [x] := by unfold addBack; rw [if_neg (hd x (by simp))]
    rw [h1, ih _ (List.nodup_cons.1 hn).2]
    · simp
    · intro d hdl hm
      rcases List.mem_append.1 hm with hm | hm
      · exact hd d (by simp [hdl]) hm
      · simp at hm
        subst hm
        exact (List.nodup_cons.1 hn).1 hdl

theorem foldl_addAt (l : List D) : ∀ (pre base : List D), l.Nodup → (∀ d ∈ l, d ∉ pre ++ base) →
    (l.zipIdx pre.length).foldl (fun a mi => addAt a mi.2 mi.1) (pre ++ base) = pre ++ l ++ base := by
  induction l with
  | nil => intro pre base _ _; simp
  | cons x l ih =>
    intro pre base hn hd
    rw [List.zipIdx_cons, List.foldl_cons]
    have h1 : addAt (pre ++ base) pre.length x = (pre ++ [x]) ++ base := by
      unfold addAt
      rw [if_neg (hd x (by simp))]
      clear ih hd
      induction pre with
      | nil => simp
      | cons y pre ih => simpa using ih
    simp only [h1]
    have := ih (pre ++ [x]) base (List.nodup_cons.1 hn).2 ?_
    · rw [List.length_append, List.length_singleton] at this
      rw [this]
      simp
    · intro d hdl hm
      rcases List.mem_append.1 hm with hm | hm
      · rcases List.mem_append.1 hm with hm | hm
        · exact hd d (by simp [hdl]) (by simp [hm])
        · simp at hm
          subst hm
          exact (List.nodup_cons.1 hn).1 hdl
      · exact hd d (by simp [hdl]) (by simp [hm])

end Yask.Dims
