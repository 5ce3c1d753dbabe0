import Mathlib.Data.List.Perm.Subperm
import Verif.Compiler.HaloLemmas

/-! Helper lemmas: halos of the outputs and inputs of a scratch part, if no scratch var is updated in two parts. -/

namespace Yask.Comp
open Spec

theorem raise_mem {κ : Type} [DecidableEq κ] {h : List (κ × Int)} {k k' : κ} {v x : Int}
    (hm : (k, x) ∈ raise h k' v) : (k, x) ∈ h ∨ (k = k' ∧ x = v) := by
  unfold raise at hm
  by_cases hc : h.any (fun e => decide (e.1 = k')) = true
  · rw [if_pos hc] at hm
    obtain ⟨e, he, hk⟩ := List.mem_map.1 hm
    by_cases h1 : e.1 = k'
    · rw [if_pos h1] at hk
      simp only [Prod.mk.injEq] at hk
      by_cases h2 : v > e.2
      · rw [if_pos h2] at hk
        exact .inr ⟨by rw [← hk.1, h1], hk.2.symm⟩
      · rw [if_neg h2] at hk
        left
        rw [← hk.1, ← hk.2]; exact he
    · rw [if_neg h1] at hk
      left; rw [← hk]; exact he
  · rw [if_neg hc] at hm
    rcases List.mem_append.1 hm with h | h
    · exact .inl h
    · simp only [List.mem_singleton, Prod.mk.injEq] at h
      exact .inr h

theorem foldl_raise_mem {κ β : Type} [DecidableEq κ] (l : List β) (f : β → κ) (g : β → Int) :
    ∀ {h : List (κ × Int)} {k : κ} {x : Int}, (k, x) ∈ l.foldl (fun h b => raise h (f b) (g b)) h →
      (k, x) ∈ h ∨ ∃ b ∈ l, k = f b ∧ x = g b := by
  induction l with
  | nil => intro h k x hm; exact .inl hm
  | cons b l ih =>
    intro h k x hm
    rcases ih hm with h1 | ⟨c, hc, h1⟩
    · rcases raise_mem h1 with h2 | h2
      · exact .inl h2
      · exact .inr ⟨b, List.mem_cons_self, h2⟩
    · exact .inr ⟨c, List.mem_cons_of_mem _ hc, h1⟩

theorem updateVar_mem {a b : HVar} {k : HKey} {x : Int} (h : (k, x) ∈ (a.updateVar b).halos) :
    (k, x) ∈ a.halos ∨ (k, x) ∈ b.halos := by
  unfold HVar.updateVar HVar.updateL1 at h
  rcases foldl_raise_mem b.halos (fun e => e.1) (fun e => e.2) h with h1 | ⟨e, he, h1, h2⟩
  · exact .inl h1
  · right; rw [h1, h2]; exact he

theorem updateOfs_mem {a : HVar} {st : Nat} {s : Option Int} {dom : List (String × Int)} {k : HKey} {x : Int}
    (h : (k, x) ∈ (a.updateOfs st s dom).halos) : (k, x) ∈ a.halos ∨ k.stage = st := by
  unfold HVar.updateOfs HVar.updateL1 at h
  rcases foldl_raise_mem dom (fun d => (⟨st, decide (d.2 ≤ 0), s.getD 0, d.1⟩ : HKey))
    (fun d => if d.2 < 0 then - d.2 else d.2) h with h1 | ⟨e, he, h1, h2⟩
  · exact .inl h1
  · right; rw [h1]

theorem le_of_mem {a b : HVar} (h : ∀ k x, (k, x) ∈ a.halos → Cov b.halos k x) : a.Le b := by
  rintro k x ⟨y, hy, hx⟩
  exact (h k y hy).weaken hx

theorem updateVar_lub {a b c : HVar} (h1 : a.Le c) (h2 : b.Le c) : (a.updateVar b).Le c := by
  apply le_of_mem
  intro k x hm
  rcases updateVar_mem hm with h | h
  · exact h1 k x ⟨x, h, le_refl _⟩
  · exact h2 k x ⟨x, h, le_refl _⟩

/-- Vars that are not changed by a loop. -/
theorem foldl_same {β : Type} (f : (Nat → HVar) → β → Nat → HVar) (v : Nat) (l : List β)
    (hf : ∀ b ∈ l, ∀ m, f m b v = m v) : ∀ m, l.foldl f m v = m v := by
  induction l with
  | nil => intro m; rfl
  | cons b l ih =>
    intro m
    rw [List.foldl_cons, ih (fun b hb => hf b (List.mem_cons_of_mem _ hb)), hf b List.mem_cons_self]

theorem phase2Pt_other {st : Nat} {lo ro : List (String × Int)} {l1 : Int} {m : Nat → HVar} {p : Pt} {v : Nat}
    (h : v ≠ p.var) : phase2Pt st lo ro l1 m p v = m v := by
  unfold phase2Pt setAt
  rw [if_neg h]

theorem phase2Part_untouched {st : Nat} {P : List PEq} {v : Nat} (ho : ∀ e ∈ P, e.lhs.var ≠ v)
    (hi : ∀ e ∈ P, ∀ p ∈ e.rhs, p.var ≠ v) (m : Nat → HVar) : phase2Part st m P v = m v := by
  cases P with
  | nil => rfl
  | cons e1 rest =>
    unfold phase2Part
    simp only
    have h1 : v ≠ e1.lhs.var := fun h => ho e1 List.mem_cons_self h.symm
    rw [foldl_same _ v _ (fun p hp m => ?_), foldl_same _ v _ (fun e he m => ?_), foldl_same _ v _ (fun e he m => ?_)]
    · simp only [setAt, if_neg h1]
    · have h2 : v ≠ e.lhs.var := fun h => ho e (List.mem_cons_of_mem _ he) h.symm
      simp only [setAt, if_neg h2]
    · obtain ⟨e, he, hpe⟩ := List.mem_flatMap.1 hp
      exact phase2Pt_other fun h => hi e he p hpe h.symm

/-- A var that is not an output: only entries of the stage change. -/
theorem phase2Part_in {st : Nat} {P : List PEq} {v : Nat} (ho : ∀ e ∈ P, e.lhs.var ≠ v) (m : Nat → HVar) {k : HKey} {x : Int}
    (h : (k, x) ∈ (phase2Part st m P v).halos) : (k, x) ∈ (m v).halos ∨ k.stage = st := by
  cases P with
  | nil => exact .inl h
  | cons e1 rest =>
    unfold phase2Part at h
    simp only at h
    have h1 : v ≠ e1.lhs.var := fun h => ho e1 List.mem_cons_self h.symm
    have key : ∀ (lo ro : List (String × Int)) (l1 : Int) (l : List Pt) (m : Nat → HVar),
        (k, x) ∈ (l.foldl (phase2Pt st lo ro l1) m v).halos → (k, x) ∈ (m v).halos ∨ k.stage = st := by
      intro lo ro l1 l
      induction l with
      | nil => intro m h; exact .inl h
      | cons p l ih =>
        intro m h
        rcases ih _ h with h | h
        · by_cases hv : v = p.var
          · subst hv
            unfold phase2Pt setAt at h
            rw [if_pos rfl] at h
            rcases updateOfs_mem h with h | h
            · rcases updateOfs_mem h with h | h
              · exact .inl h
              · exact .inr h
            · exact .inr h
          · rw [phase2Pt_other hv] at h
            exact .inl h
        · exact .inr h
    have h' := key _ _ _ _ _ h
    rw [foldl_same _ v _ (fun e he m => ?_), foldl_same _ v _ (fun e he m => ?_)] at h'
    · exact h'
    · simp only [setAt, if_neg h1]
    · have h2 : v ≠ e.lhs.var := fun h => ho e (List.mem_cons_of_mem _ he) h.symm
      simp only [setAt, if_neg h2]

/-- The outputs after the first part of `phase2Part`. -/
def evened (m : Nat → HVar) (e1 : PEq) (rest : List PEq) : Nat → HVar :=
  rest.foldl (fun m e2 => setAt m e2.lhs.var ((m e2.lhs.var).updateVar (m e1.lhs.var)))
    (rest.foldl (fun m e2 => setAt m e1.lhs.var ((m e1.lhs.var).updateVar (m e2.lhs.var))) m)

theorem phase2Part_eq (st : Nat) (m : Nat → HVar) (e1 : PEq) (rest : List PEq) :
    phase2Part st m (e1 :: rest) = ((e1 :: rest).flatMap PEq.rhs).foldl
      (phase2Pt st ((evened m e1 rest e1.lhs.var).sizes st true) ((evened m e1 rest e1.lhs.var).sizes st false)
        (evened m e1 rest e1.lhs.var).l1) (evened m e1 rest) := rfl

theorem evened_le (m : Nat → HVar) (e1 : PEq) (rest : List PEq) : MLe m (evened m e1 rest) :=
  (foldl_le (fun m (e2 : PEq) => setAt m e1.lhs.var ((m e1.lhs.var).updateVar (m e2.lhs.var)))
      (fun m e => setAt_le (updateVar_le _ _)) rest m).trans
    (foldl_le (fun m (e2 : PEq) => setAt m e2.lhs.var ((m e2.lhs.var).updateVar (m e1.lhs.var)))
      (fun m e => setAt_le (updateVar_le _ _)) rest _)

/-- All outputs have the same halos, and these come from the outputs. -/
theorem evened_spec (m : Nat → HVar) (e1 : PEq) (rest : List PEq) :
    (∀ e ∈ e1 :: rest, (evened m e1 rest e.lhs.var).Le (evened m e1 rest e1.lhs.var) ∧
      (evened m e1 rest e1.lhs.var).Le (evened m e1 rest e.lhs.var)) ∧
    ∀ e ∈ e1 :: rest, ∀ k x, (k, x) ∈ (evened m e1 rest e.lhs.var).halos → ∃ f ∈ e1 :: rest, (k, x) ∈ (m f.lhs.var).halos := by
  -- first loop
  have a1 : ∀ (l : List PEq) (m : Nat → HVar), (∀ v, v ≠ e1.lhs.var →
      l.foldl (fun m e2 => setAt m e1.lhs.var ((m e1.lhs.var).updateVar (m e2.lhs.var))) m v = m v) := by
    intro l m v hv
    exact foldl_same _ v l (fun e he m => by simp only [setAt, if_neg hv]) m
  have a2 : ∀ e ∈ rest, (m e.lhs.var).Le
      (rest.foldl (fun m e2 => setAt m e1.lhs.var ((m e1.lhs.var).updateVar (m e2.lhs.var))) m e1.lhs.var) := by
    intro e he
    exact foldl_reach (fun m (e2 : PEq) => setAt m e1.lhs.var ((m e1.lhs.var).updateVar (m e2.lhs.var)))
      (fun m e => setAt_le (updateVar_le _ _)) rest (fun m' => (m e.lhs.var).Le (m' e1.lhs.var))
      (fun m m' h hr => hr.trans (h _)) e he m (fun m' hm' => by
        simp only [setAt, if_true]
        exact (hm' _).trans (updateVar_other _ _))
  have a3 : ∀ (l : List PEq) (mm : Nat → HVar), (∀ e ∈ l, e ∈ e1 :: rest) →
      (∀ e ∈ e1 :: rest, ∀ k x, (k, x) ∈ (mm e.lhs.var).halos → ∃ f ∈ e1 :: rest, (k, x) ∈ (m f.lhs.var).halos) →
      ∀ e ∈ e1 :: rest, ∀ k x, (k, x) ∈ (l.foldl (fun m e2 =>
        setAt m e1.lhs.var ((m e1.lhs.var).updateVar (m e2.lhs.var))) mm e.lhs.var).halos →
        ∃ f ∈ e1 :: rest, (k, x) ∈ (m f.lhs.var).halos := by
    intro l
    induction l with
    | nil => intro mm _ h; exact h
    | cons b l ih =>
      intro mm hl h
      apply ih _ (fun e he => hl e (List.mem_cons_of_mem _ he))
      intro e he k x hm
      by_cases hv : e.lhs.var = e1.lhs.var
      · simp only [setAt, if_pos hv] at hm
        rcases updateVar_mem hm with h1 | h1
        · exact h e1 List.mem_cons_self k x h1
        · exact h b (hl b List.mem_cons_self) k x h1
      · simp only [setAt, if_neg hv] at hm
        exact h e he k x hm
  have a3' := a3 rest m (fun e he => List.mem_cons_of_mem _ he) (fun e he k x h => ⟨e, he, h⟩)
  unfold evened
  generalize hm1 : rest.foldl (fun m e2 => setAt m e1.lhs.var ((m e1.lhs.var).updateVar (m e2.lhs.var))) m = m1 at *
  have b0 : ∀ e ∈ e1 :: rest, (m1 e.lhs.var).Le (m1 e1.lhs.var) := by
    intro e he
    rcases List.mem_cons.1 he with rfl | he
    · exact HVar.Le.refl _
    · by_cases hv : e.lhs.var = e1.lhs.var
      · rw [hv]; exact HVar.Le.refl _
      · have := a1 rest m _ hv
        rw [hm1] at this
        rw [this]
        exact a2 e he
  -- second loop: every output stays below the first one, which does not grow
  have b1 : ∀ (l : List PEq) (mm : Nat → HVar), (∀ e ∈ l, e ∈ e1 :: rest) →
      (∀ e ∈ e1 :: rest, (mm e.lhs.var).Le (m1 e1.lhs.var)) → MLe m1 mm →
      (∀ e ∈ e1 :: rest, ∀ k x, (k, x) ∈ (mm e.lhs.var).halos → ∃ f ∈ e1 :: rest, (k, x) ∈ (m f.lhs.var).halos) →
      let r := l.foldl (fun m e2 => setAt m e2.lhs.var ((m e2.lhs.var).updateVar (m e1.lhs.var))) mm
      (∀ e ∈ e1 :: rest, (r e.lhs.var).Le (m1 e1.lhs.var)) ∧
      (∀ e ∈ l, (m1 e1.lhs.var).Le (r e.lhs.var)) ∧ MLe m1 r ∧
      ∀ e ∈ e1 :: rest, ∀ k x, (k, x) ∈ (r e.lhs.var).halos → ∃ f ∈ e1 :: rest, (k, x) ∈ (m f.lhs.var).halos := by
    intro l
    induction l with
    | nil => intro mm _ h1 h2 h3; exact ⟨h1, fun e he => (by cases he), h2, h3⟩
    | cons b l ih =>
      intro mm hl h1 h2 h3
      simp only [List.foldl_cons]
      have hb := hl b List.mem_cons_self
      have hstep : MLe mm (setAt mm b.lhs.var ((mm b.lhs.var).updateVar (mm e1.lhs.var))) := setAt_le (updateVar_le _ _)
      obtain ⟨c1, c2, c3, c4⟩ := ih (setAt mm b.lhs.var ((mm b.lhs.var).updateVar (mm e1.lhs.var)))
        (fun e he => hl e (List.mem_cons_of_mem _ he))
        (by
          intro e he
          by_cases hv : e.lhs.var = b.lhs.var
          · simp only [setAt, if_pos hv]
            exact updateVar_lub (h1 b hb) (h1 e1 List.mem_cons_self)
          · simp only [setAt, if_neg hv]
            exact h1 e he)
        (h2.trans hstep)
        (by
          intro e he k x hm
          by_cases hv : e.lhs.var = b.lhs.var
          · simp only [setAt, if_pos hv] at hm
            rcases updateVar_mem hm with h | h
            · exact h3 b hb k x h
            · exact h3 e1 List.mem_cons_self k x h
          · simp only [setAt, if_neg hv] at hm
            exact h3 e he k x hm)
      refine ⟨c1, ?_, c3, c4⟩
      intro e he
      rcases List.mem_cons.1 he with rfl | he
      · have d1 : (m1 e1.lhs.var).Le (setAt mm e.lhs.var ((mm e.lhs.var).updateVar (mm e1.lhs.var)) e.lhs.var) := by
          simp only [setAt, if_true]
          exact (h2 _).trans (updateVar_other _ _)
        exact d1.trans (foldl_le (fun m (e2 : PEq) => setAt m e2.lhs.var ((m e2.lhs.var).updateVar (m e1.lhs.var)))
          (fun m e => setAt_le (updateVar_le _ _)) l _ _)
      · exact c2 e he
  obtain ⟨c1, c2, c3, c4⟩ := b1 rest m1 (fun e he => List.mem_cons_of_mem _ he) b0 (MLe.refl _) a3'
  refine ⟨?_, c4⟩
  intro e he
  have ce := c1 e he
  have c11 := c1 e1 List.mem_cons_self
  refine ⟨ce.trans (c3 _), ?_⟩
  rcases List.mem_cons.1 he with rfl | he
  · exact HVar.Le.refl _
  · exact c11.trans (c2 e he)

/-- Halos after a part has been processed, if its outputs are not touched later. -/
theorem part_final {st : Nat} {A B : List (List PEq)} {P : List PEq} (real : Nat → HVar)
    (hA : ∀ Q ∈ A, ∀ f ∈ Q, ∀ e ∈ P, f.lhs.var ≠ e.lhs.var)
    (hB : ∀ Q ∈ B, ∀ f ∈ Q, ∀ e ∈ P, f.lhs.var ≠ e.lhs.var ∧ ∀ p ∈ f.rhs, p.var ≠ e.lhs.var)
    (hP : ∀ f ∈ P, ∀ p ∈ f.rhs, ∀ e ∈ P, p.var ≠ e.lhs.var) :
    let m := (A ++ P :: B).foldl (phase2Part st) real
    (∀ e ∈ P, ∀ f ∈ P, (m e.lhs.var).Le (m f.lhs.var)) ∧
    (∀ e ∈ P, ∀ k x, (k, x) ∈ (m e.lhs.var).halos → k.stage ≠ st → ∃ f ∈ P, (k, x) ∈ (real f.lhs.var).halos) ∧
    ∀ e ∈ P, ∀ p ∈ e.rhs, ∀ k x, (k, x) ∈ (m e.lhs.var).halos → k.stage = st → k.dim ∈ p.dom.map Prod.fst →
      (k.left = true → x - p.at k.dim ≤ (m p.var).size k.dim true) ∧
      (k.left = false → x + p.at k.dim ≤ (m p.var).size k.dim false) := by
  simp only [List.foldl_append, List.foldl_cons]
  have hAk : ∀ (A : List (List PEq)), (∀ Q ∈ A, ∀ f ∈ Q, ∀ e ∈ P, f.lhs.var ≠ e.lhs.var) → ∀ real : Nat → HVar,
      ∀ e ∈ P, ∀ k x, (k, x) ∈ (A.foldl (phase2Part st) real e.lhs.var).halos → k.stage ≠ st →
      (k, x) ∈ (real e.lhs.var).halos := by
    intro A
    induction A with
    | nil => intro _ real e _ k x h _; exact h
    | cons Q A ih =>
      intro hA real e he k x h hk
      have h1 := ih (fun Q hQ => hA Q (List.mem_cons_of_mem _ hQ)) _ e he k x h hk
      rcases phase2Part_in (fun f hf => hA Q List.mem_cons_self f hf e he) real h1 with h2 | h2
      · exact h2
      · exact absurd h2 hk
  have hAk' := hAk A hA real
  generalize A.foldl (phase2Part st) real = m0 at *
  cases P with
  | nil =>
    exact ⟨fun e he => (by cases he), fun e he => (by cases he), fun e he => (by cases he)⟩
  | cons e1 rest =>
    have hfin : ∀ e ∈ e1 :: rest, B.foldl (phase2Part st) (phase2Part st m0 (e1 :: rest)) e.lhs.var
        = evened m0 e1 rest e.lhs.var := by
      intro e he
      rw [foldl_same _ _ B (fun Q hQ m => phase2Part_untouched (fun f hf => (hB Q hQ f hf e he).1)
        (fun f hf p hp => (hB Q hQ f hf e he).2 p hp) m), phase2Part_eq]
      exact foldl_same _ _ _ (fun p hp m => by
        obtain ⟨f, hf, hpf⟩ := List.mem_flatMap.1 hp
        exact phase2Pt_other fun h => hP f hf p hpf e he h.symm) _
    obtain ⟨s1, s2⟩ := evened_spec m0 e1 rest
    refine ⟨?_, ?_, ?_⟩
    · intro e he f hf
      rw [hfin e he, hfin f hf]
      exact (s1 e he).1.trans (s1 f hf).2
    · intro e he k x h hk
      rw [hfin e he] at h
      obtain ⟨f, hf, h⟩ := s2 e he k x h
      exact ⟨f, hf, hAk' f hf k x h hk⟩
    · intro e he p hp k x h hk hn
      rw [hfin e he] at h
      have hov : Cov (evened m0 e1 rest e1.lhs.var).halos k x := (s1 e he).1 k x ⟨x, h, le_refl _⟩
      have hmem := pt_mem hn
      have hup := foldl_le (phase2Part st) (fun m p => phase2Part_le _ m p) B (phase2Part st m0 (e1 :: rest)) p.var
      rw [phase2Part_eq] at hup
      have main : ∀ (P : HVar → Prop), (∀ a b : HVar, a.Le b → P a → P b) →
          (∀ m, P (phase2Pt st ((evened m0 e1 rest e1.lhs.var).sizes st true)
            ((evened m0 e1 rest e1.lhs.var).sizes st false) (evened m0 e1 rest e1.lhs.var).l1 m p p.var)) →
          P (B.foldl (phase2Part st) (phase2Part st m0 (e1 :: rest)) p.var) := by
        intro P hmono hstep
        refine hmono _ _ hup ?_
        exact foldl_reach _ (fun m p => phase2Pt_le _ _ _ _ m p) _ (fun m => P (m p.var))
          (fun m m' h hr => hmono _ _ (h _) hr) p (List.mem_flatMap.2 ⟨e, he, hp⟩) _ (fun m _ => hstep m)
      obtain ⟨kst, kl, ks, kd⟩ := k
      simp only at hk hn hmem ⊢
      subst hk
      obtain ⟨y, hy, hxy⟩ := sizes_cov hov
      refine ⟨?_, ?_⟩
      · intro hl
        subst hl
        have hr := main (fun v => Reaches v kst kd (p.at kd - y)) (fun a b h hr => hr.mono h) (by
          intro m
          unfold phase2Pt setAt
          rw [if_pos rfl]
          have := combineOfs_mem (f := fun a b => a - b) (b := (evened m0 e1 rest e1.lhs.var).sizes kst true) hmem
          rw [hy] at this
          exact ((updateOfs_reaches _ kst p.step _ kd _ this).mono (updateOfs_le _ _ _ _)).mono (updateL1_le _ _))
        have := hr.size.1
        omega
      · intro hl
        subst hl
        have hr := main (fun v => Reaches v kst kd (p.at kd + y)) (fun a b h hr => hr.mono h) (by
          intro m
          unfold phase2Pt setAt
          rw [if_pos rfl]
          have := combineOfs_mem (f := fun a b => a + b) (b := (evened m0 e1 rest e1.lhs.var).sizes kst false) hmem
          rw [hy] at this
          exact (updateOfs_reaches _ kst p.step _ kd _ this).mono (updateL1_le _ _))
        have := hr.size.2
        omega

/-! ### All stages -/

/-- The parts in the order in which they are processed for stage `st`. -/
def HSys.proc (S : HSys) (st : HStage) : List (List PEq) :=
  S.stages.reverse.flatMap fun s => if s.id ∈ S.scrDeps st.id then s.parts else []

theorem phase2_proc (S : HSys) (real : Nat → HVar) (st : HStage) :
    S.phase2 real st = (S.proc st).foldl (phase2Part st.id) real := by
  unfold HSys.phase2 HSys.proc
  rw [List.foldl_flatMap]
  congr 1
  funext m s
  by_cases h : s.id ∈ S.scrDeps st.id
  · simp only [if_pos h]
  · simp only [if_neg h, List.foldl_nil]

/-- A scratch var is updated in one stage only. -/
theorem writer_unique {S : HSys} {scr : Nat → Bool} {dims : Nat → List String} (hS : Staged S scr dims)
    (hO : OnePart S scr) {s r : HStage} (hs : s ∈ S.stages) (hr : r ∈ S.stages) {e f : PEq} (he : e ∈ s.eqs) (hf : f ∈ r.eqs)
    (hsc : s.scr = true) (h : f.lhs.var = e.lhs.var) : r = s := by
  obtain ⟨P, hP, heP⟩ := List.mem_flatten.1 he
  obtain ⟨Q, hQ, hfQ⟩ := List.mem_flatten.1 hf
  have hv : scr e.lhs.var = true := (hS.kind s hs e he).trans hsc
  by_contra hne
  obtain ⟨pre, post, hsp⟩ := List.append_of_mem hs
  unfold OnePart allParts at hO
  rw [hsp] at hr hO
  rw [List.flatMap_append, List.flatMap_cons, List.pairwise_append, List.pairwise_append] at hO
  obtain ⟨_, ⟨_, _, h1⟩, h2⟩ := hO
  rcases List.mem_append.1 hr with hr | hr
  · exact h2 Q (List.mem_flatMap.2 ⟨r, hr, hQ⟩) P (List.mem_append_left _ hP) f hfQ e heP (h ▸ hv) h
  · rcases List.mem_cons.1 hr with rfl | hr
    · exact hne rfl
    · exact h1 P hP Q (List.mem_flatMap.2 ⟨r, hr, hQ⟩) e heP f hfQ hv h.symm

/-- The order in which the parts are processed, seen from one of them. -/
theorem proc_split {S : HSys} {scr : Nat → Bool} {dims : Nat → List String} (hS : Staged S scr dims)
    (hO : OnePart S scr) {s : HStage} (hs : s ∈ S.stages) (hsc : s.scr = true) {P : List PEq} (hP : P ∈ s.parts) (st : HStage)
    (hreq : s.id ∈ S.scrDeps st.id) : ∃ A B, S.proc st = A ++ P :: B ∧
      (∀ Q ∈ A, ∀ f ∈ Q, ∀ e ∈ P, f.lhs.var ≠ e.lhs.var) ∧
      (∀ Q ∈ B, ∀ f ∈ Q, ∀ e ∈ P, f.lhs.var ≠ e.lhs.var ∧ ∀ p ∈ f.rhs, p.var ≠ e.lhs.var) ∧
      (∀ f ∈ P, ∀ p ∈ f.rhs, ∀ e ∈ P, p.var ≠ e.lhs.var) := by
  obtain ⟨pre, post, hsp⟩ := List.append_of_mem hs
  obtain ⟨pa, pb, hpp⟩ := List.append_of_mem hP
  have heq : ∀ Q ∈ s.parts, ∀ f ∈ Q, f ∈ s.eqs := fun Q hQ f hf => List.mem_flatten.2 ⟨Q, hQ, hf⟩
  have hv : ∀ e ∈ P, scr e.lhs.var = true := fun e he => (hS.kind s hs e (heq P hP e he)).trans hsc
  have hO' := hO
  unfold OnePart allParts at hO'
  rw [hsp, List.flatMap_append, List.flatMap_cons, hpp, List.pairwise_append] at hO'
  obtain ⟨_, h1, h2⟩ := hO'
  rw [List.append_assoc, List.pairwise_append] at h1
  obtain ⟨_, h3, h4⟩ := h1
  rw [List.cons_append, List.pairwise_cons] at h3
  have hself : ∀ Q ∈ s.parts, ∀ f ∈ Q, ∀ p ∈ f.rhs, ∀ e ∈ P, p.var ≠ e.lhs.var := by
    intro Q hQ f hf p hp e he h
    exact hS.self s hs f (heq Q hQ f hf) p hp (h ▸ hv e he) e (heq P hP e he) h.symm
  refine ⟨(post.reverse.flatMap fun s => if s.id ∈ S.scrDeps st.id then s.parts else []) ++ pa,
    pb ++ pre.reverse.flatMap fun s => if s.id ∈ S.scrDeps st.id then s.parts else [], ?_, ?_, ?_, hself P hP⟩
  · unfold HSys.proc
    rw [hsp, List.reverse_append, List.reverse_cons, List.flatMap_append, List.flatMap_append, List.flatMap_singleton,
      if_pos hreq, hpp]
    simp only [List.append_assoc, List.cons_append]
  · intro Q hQ f hf e he h
    rcases List.mem_append.1 hQ with hQ | hQ
    · obtain ⟨r, hr, hQr⟩ := List.mem_flatMap.1 hQ
      by_cases hc : r.id ∈ S.scrDeps st.id
      · rw [if_pos hc] at hQr
        exact h3.1 Q (List.mem_append_right _ (List.mem_flatMap.2 ⟨r, List.mem_reverse.1 hr, hQr⟩)) e he f hf (hv e he) h.symm
      · rw [if_neg hc] at hQr; cases hQr
    · exact h4 Q hQ P (by simp) f hf e he (h ▸ hv e he) h
  · intro Q hQ f hf e he
    rcases List.mem_append.1 hQ with hQ | hQ
    · refine ⟨fun h => h3.1 Q (List.mem_append_left _ hQ) e he f hf (hv e he) h.symm, fun p hp => ?_⟩
      exact hself Q (by rw [hpp]; simp [hQ]) f hf p hp e he
    · obtain ⟨r, hr, hQr⟩ := List.mem_flatMap.1 hQ
      by_cases hc : r.id ∈ S.scrDeps st.id
      · rw [if_pos hc] at hQr
        have hr' := List.mem_reverse.1 hr
        refine ⟨fun h => h2 Q (List.mem_flatMap.2 ⟨r, hr', hQr⟩) P (by simp) f hf e he (h ▸ hv e he) h, fun p hp h => ?_⟩
        have hord := hS.order
        rw [hsp, List.pairwise_append] at hord
        exact hord.2.2 r hr' s (by simp) f (List.mem_flatten.2 ⟨Q, hQr, hf⟩) p hp (h ▸ hv e he) e (heq P hP e he) h.symm
      · rw [if_neg hc] at hQr; cases hQr

/-- The outputs of stages that are not required are not changed. -/
theorem phase2_untouched {S : HSys} {scr : Nat → Bool} {dims : Nat → List String} (hS : Staged S scr dims)
    (hO : OnePart S scr) {s : HStage} (hs : s ∈ S.stages) (hsc : s.scr = true) {e : PEq} (he : e ∈ s.eqs) {st : HStage}
    (hst : st ∈ S.stages) (hk : st.scr = false) (hreq : s.id ∉ S.scrDeps st.id) (real : Nat → HVar) :
    S.phase2 real st e.lhs.var = real e.lhs.var := by
  have hv : scr e.lhs.var = true := (hS.kind s hs e he).trans hsc
  rw [phase2_proc]
  refine foldl_same _ _ _ (fun Q hQ m => ?_) _
  obtain ⟨r, hr, hQr⟩ := List.mem_flatMap.1 hQ
  by_cases hc : r.id ∈ S.scrDeps st.id
  · rw [if_pos hc] at hQr
    have hr' := List.mem_reverse.1 hr
    refine phase2Part_untouched (fun f hf h => ?_) (fun f hf p hp h => ?_) m
    · have := writer_unique hS hO hs hr' he (List.mem_flatten.2 ⟨Q, hQr, hf⟩) hsc h
      exact hreq (this ▸ hc)
    · exact hreq (hS.closed st hst hk r hr' (.inr hc) f (List.mem_flatten.2 ⟨Q, hQr, hf⟩) p hp (h ▸ hv) s hs e he h.symm)
  · rw [if_neg hc] at hQr; cases hQr

/-- Where an entry of phase 1 comes from. -/
theorem phase1_mem {S : HSys} {v : Nat} {k : HKey} {x : Int} (h : (k, x) ∈ (S.phase1 v).halos) :
    ∃ st ∈ S.stages, st.scr = false ∧ k.stage = st.id ∧ ∃ r ∈ S.stages, (r = st ∨ r.id ∈ S.scrDeps st.id) ∧
      ∃ e ∈ r.eqs, ∃ p ∈ e.lhs :: e.rhs, p.var = v := by
  have hgen : ∀ {β : Type} (f : (Nat → HVar) → β → Nat → HVar) (l : List β) (G : Prop),
      (∀ b ∈ l, ∀ m, (k, x) ∈ (f m b v).halos → (k, x) ∈ (m v).halos ∨ G) → ∀ m, (k, x) ∈ (l.foldl f m v).halos →
      (k, x) ∈ (m v).halos ∨ G := by
    intro β f l G
    induction l with
    | nil => intro _ m h; exact .inl h
    | cons b l ih =>
      intro hf m h
      rcases ih (fun b hb => hf b (List.mem_cons_of_mem _ hb)) _ h with h | h
      · exact hf b List.mem_cons_self m h
      · exact .inr h
  unfold HSys.phase1 at h
  refine Or.resolve_left (hgen _ _ _ (fun st hst m h => ?_) _ h) (fun h => (by cases h))
  · have hst1 := (List.mem_filter.1 hst).1
    have hst2 : st.scr = false := by simpa using (List.mem_filter.1 hst).2
    refine hgen (fun m r => r.eqs.foldl (phase1Eq st.id) m) (S.reqd st) _ (fun r hr m h => ?_) m h
    have hr' : r ∈ S.stages ∧ (r = st ∨ r.id ∈ S.scrDeps st.id) := by
      unfold HSys.reqd at hr
      rcases List.mem_cons.1 hr with rfl | hr
      · exact ⟨hst1, .inl rfl⟩
      · exact ⟨(List.mem_filter.1 hr).1, .inr (by simpa using (List.mem_filter.1 hr).2)⟩
    refine hgen (phase1Eq st.id) r.eqs _ (fun e he m h => ?_) m h
    unfold phase1Eq at h
    have h' : (k, x) ∈ ((e.lhs :: e.rhs).foldl (fun m p => setAt m p.var ((m p.var).updateOfs st.id p.step p.dom)) m v).halos := by
      generalize (e.lhs :: e.rhs).foldl (fun m p => setAt m p.var ((m p.var).updateOfs st.id p.step p.dom)) m = m1 at *
      unfold setAt at h
      by_cases hv : v = e.lhs.var
      · rw [if_pos hv] at h
        have : ((m1 e.lhs.var).updateWrite st.id e.lhs.step).halos = (m1 e.lhs.var).halos := by
          unfold HVar.updateWrite
          cases e.lhs.step <;> rfl
        rw [this] at h
        rw [hv]; exact h
      · rw [if_neg hv] at h; exact h
    refine hgen (fun m p => setAt m p.var ((m p.var).updateOfs st.id p.step p.dom)) (e.lhs :: e.rhs) _ (fun p hp m h => ?_) m h'
    by_cases hv : v = p.var
    · simp only [setAt, if_pos hv] at h
      rcases updateOfs_mem h with h | h
      · rw [hv]; exact .inl h
      · exact .inr ⟨st, hst1, hst2, h, r, hr'.1, hr'.2, e, he, p, hp, hv.symm⟩
    · simp only [setAt, if_neg hv] at h
      exact .inl h

theorem calcHalos_mem {S : HSys} {v : Nat} {k : HKey} {x : Int} (h : (k, x) ∈ (S.calcHalos v).halos) :
    (k, x) ∈ (S.phase1 v).halos ∨ ∃ st ∈ S.stages, st.scr = false ∧ (k, x) ∈ (S.phase2 S.phase1 st v).halos := by
  unfold HSys.calcHalos at h
  have key : ∀ (l : List HStage) (m : Nat → HVar),
      (k, x) ∈ (l.foldl (fun m st => fun v => (m v).updateVar (S.phase2 S.phase1 st v)) m v).halos →
      (k, x) ∈ (m v).halos ∨ ∃ st ∈ l, (k, x) ∈ (S.phase2 S.phase1 st v).halos := by
    intro l
    induction l with
    | nil => intro m h; exact .inl h
    | cons st l ih =>
      intro m h
      rcases ih _ h with h | ⟨t, ht, h⟩
      · rcases updateVar_mem h with h | h
        · exact .inl h
        · exact .inr ⟨st, List.mem_cons_self, h⟩
      · exact .inr ⟨t, List.mem_cons_of_mem _ ht, h⟩
  rcases key _ _ h with h | ⟨st, hst, h⟩
  · exact .inl h
  · exact .inr ⟨st, (List.mem_filter.1 hst).1, by simpa using (List.mem_filter.1 hst).2, h⟩

theorem phase2_ge (S : HSys) (real : Nat → HVar) (st : HStage) : MLe real (S.phase2 real st) := by
  rw [phase2_eq]; exact foldr_scrStep_le S st _ _

theorem size_mem (v : HVar) (n : String) (l : Bool) :
    v.size n l = 0 ∨ ∃ k x, (k, x) ∈ v.halos ∧ k.dim = n ∧ k.left = l ∧ x = v.size n l := by
  unfold HVar.size
  have key : ∀ (hs : List (HKey × Int)) (a : Int),
      hs.foldl (fun h e => if e.1.dim = n ∧ e.1.left = l then max h e.2 else h) a = a ∨
      ∃ k x, (k, x) ∈ hs ∧ k.dim = n ∧ k.left = l ∧
        x = hs.foldl (fun h e => if e.1.dim = n ∧ e.1.left = l then max h e.2 else h) a := by
    intro hs
    induction hs with
    | nil => intro a; exact .inl rfl
    | cons e hs ih =>
      intro a
      rw [List.foldl_cons]
      rcases ih (if e.1.dim = n ∧ e.1.left = l then max a e.2 else a) with h | ⟨k, x, hk, h1, h2, h3⟩
      · rw [h]
        by_cases hc : e.1.dim = n ∧ e.1.left = l
        · rw [if_pos hc]
          rcases le_total a e.2 with h1 | h1
          · rw [max_eq_right h1]
            exact .inr ⟨e.1, e.2, List.mem_cons_self, hc.1, hc.2, rfl⟩
          · rw [max_eq_left h1]; exact .inl rfl
        · rw [if_neg hc]; exact .inl rfl
      · exact .inr ⟨k, x, List.mem_cons_of_mem _ hk, h1, h2, h3⟩
  exact key _ 0

theorem size_le_of_le {a b : HVar} (h : a.Le b) (n : String) (l : Bool) : a.size n l ≤ b.size n l := by
  rcases size_mem a n l with h0 | ⟨k, x, hk, h1, h2, h3⟩
  · rw [h0]; exact size_nonneg _ _ _
  · rw [← h3]
    have := size_cov (h k x ⟨x, hk, le_refl _⟩)
    rw [h1, h2] at this
    exact this

section
variable {S : HSys} {scr : Nat → Bool} {dims : Nat → List String} (hS : Staged S scr dims) (hO : OnePart S scr)
  {s : HStage} (hs : s ∈ S.stages) (hsc : s.scr = true) {P : List PEq} (hP : P ∈ s.parts)
include hS hO hs hsc hP

theorem outputs_le {st : HStage} (hst : st ∈ S.stages) (hk : st.scr = false) (hreq : s.id ∈ S.scrDeps st.id) :
    ∀ e ∈ P, ∀ f ∈ P, (S.calcHalos e.lhs.var).Le (S.calcHalos f.lhs.var) := by
  intro e he f hf
  have hev : ∀ e ∈ P, e ∈ s.eqs := fun e he => List.mem_flatten.2 ⟨P, hP, he⟩
  have one : ∀ st ∈ S.stages, st.scr = false → s.id ∈ S.scrDeps st.id →
      (S.phase2 S.phase1 st e.lhs.var).Le (S.calcHalos f.lhs.var) := by
    intro st hst hk hreq
    obtain ⟨A, B, hp, hA, hB, hPP⟩ := proc_split hS hO hs hsc hP st hreq
    have h := (part_final (st := st.id) S.phase1 hA hB hPP).1 e he f hf
    rw [← hp, ← phase2_proc] at h
    exact h.trans (calcHalos_ge S st hst hk _)
  have real : (S.phase1 e.lhs.var).Le (S.calcHalos f.lhs.var) := (phase2_ge S _ st _).trans (one st hst hk hreq)
  apply le_of_mem
  intro k x hm
  rcases calcHalos_mem hm with h | ⟨st', hst', hk', h⟩
  · exact real k x ⟨x, h, le_refl _⟩
  · by_cases hr : s.id ∈ S.scrDeps st'.id
    · exact one st' hst' hk' hr k x ⟨x, h, le_refl _⟩
    · rw [phase2_untouched hS hO hs hsc (hev e he) hst' hk' hr] at h
      exact real k x ⟨x, h, le_refl _⟩

theorem inputs_cov : ∀ e ∈ P, ∀ p ∈ e.rhs, ∀ k x, (k, x) ∈ (S.calcHalos e.lhs.var).halos → k.dim ∈ dims p.var →
    (k.left = true → x - p.at k.dim ≤ (S.calcHalos p.var).size k.dim true) ∧
    (k.left = false → x + p.at k.dim ≤ (S.calcHalos p.var).size k.dim false) := by
  intro e he p hp k x hm hn
  have hev : ∀ e ∈ P, e ∈ s.eqs := fun e he => List.mem_flatten.2 ⟨P, hP, he⟩
  have hn' : k.dim ∈ p.dom.map Prod.fst :=
    (hS.used e (List.mem_flatMap.2 ⟨s, hs, hev e he⟩) p (List.mem_cons_of_mem _ hp) _).2 hn
  -- an entry of the stage itself
  have own : ∀ st ∈ S.stages, st.scr = false → s.id ∈ S.scrDeps st.id → k.stage = st.id →
      Cov (S.phase2 S.phase1 st e.lhs.var).halos k x →
      (k.left = true → x - p.at k.dim ≤ (S.calcHalos p.var).size k.dim true) ∧
      (k.left = false → x + p.at k.dim ≤ (S.calcHalos p.var).size k.dim false) := by
    rintro st hst hk hreq hks ⟨y, hy, hxy⟩
    obtain ⟨A, B, hpr, hA, hB, hPP⟩ := proc_split hS hO hs hsc hP st hreq
    have h := (part_final (st := st.id) S.phase1 hA hB hPP).2.2 e he p hp k y
    rw [← hpr, ← phase2_proc] at h
    have h := h hy hks hn'
    have hsz := size_le_of_le (calcHalos_ge S st hst hk p.var) k.dim
    refine ⟨fun hl => ?_, fun hl => ?_⟩
    · have := h.1 hl; have := hsz true; omega
    · have := h.2 hl; have := hsz false; omega
  -- an entry from phase 1
  have first : ∀ f ∈ P, (k, x) ∈ (S.phase1 f.lhs.var).halos →
      (k.left = true → x - p.at k.dim ≤ (S.calcHalos p.var).size k.dim true) ∧
      (k.left = false → x + p.at k.dim ≤ (S.calcHalos p.var).size k.dim false) := by
    intro f hf h
    obtain ⟨st, hst, hk, hks, r, hr, hrd, e', he', q, hq, hqv⟩ := phase1_mem h
    have hv : scr f.lhs.var = true := (hS.kind s hs f (hev f hf)).trans hsc
    have hreq : s.id ∈ S.scrDeps st.id := by
      rcases List.mem_cons.1 hq with rfl | hq
      · have := writer_unique hS hO hs hr (hev f hf) he' hsc hqv
        rcases hrd with rfl | hrd
        · rw [this, hsc] at hk; cases hk
        · rw [← this]; exact hrd
      · exact hS.closed st hst hk r hr hrd e' he' q hq (hqv ▸ hv) s hs f (hev f hf) hqv.symm
    refine own st hst hk hreq hks ?_
    obtain ⟨A, B, hpr, hA, hB, hPP⟩ := proc_split hS hO hs hsc hP st hreq
    have h1 := (part_final (st := st.id) S.phase1 hA hB hPP).1 f hf e he
    rw [← hpr, ← phase2_proc] at h1
    exact h1 k x (phase2_ge S _ st _ k x ⟨x, h, le_refl _⟩)
  rcases calcHalos_mem hm with h | ⟨st, hst, hk, h⟩
  · exact first e he h
  · by_cases hr : s.id ∈ S.scrDeps st.id
    · by_cases hks : k.stage = st.id
      · exact own st hst hk hr hks ⟨x, h, le_refl _⟩
      · obtain ⟨A, B, hpr, hA, hB, hPP⟩ := proc_split hS hO hs hsc hP st hr
        have h1 := (part_final (st := st.id) S.phase1 hA hB hPP).2.1 e he k x
        rw [← hpr, ← phase2_proc] at h1
        obtain ⟨f, hf, h2⟩ := h1 h hks
        exact first f hf h2
    · rw [phase2_untouched hS hO hs hsc (hev e he) hst hk hr] at h
      exact first e he h

/-- The halo over which a scratch part is evaluated is that of each of its outputs, and its reads are covered. -/
theorem scratch_part {st : HStage} (hst : st ∈ S.stages) (hk : st.scr = false) (hreq : s.id ∈ S.scrDeps st.id) :
    (∀ e ∈ P, ∀ n l, writeHalo S.calcHalos P n l = (S.calcHalos e.lhs.var).size n l) ∧
    ∀ e ∈ P, ∀ p ∈ e.rhs, ∀ n ∈ dims p.var,
      writeHalo S.calcHalos P n true - p.at n ≤ (S.calcHalos p.var).size n true ∧
      writeHalo S.calcHalos P n false + p.at n ≤ (S.calcHalos p.var).size n false := by
  have hle := outputs_le hS hO hs hsc hP hst hk hreq
  have hw : ∀ e ∈ P, ∀ n l, writeHalo S.calcHalos P n l = (S.calcHalos e.lhs.var).size n l := by
    intro e he n l
    have hall : ∀ f ∈ P, (S.calcHalos f.lhs.var).size n l = (S.calcHalos e.lhs.var).size n l := fun f hf =>
      le_antisymm (size_le_of_le (hle f hf e he) n l) (size_le_of_le (hle e he f hf) n l)
    have h0 := size_nonneg (S.calcHalos e.lhs.var) n l
    unfold writeHalo
    have key : ∀ (L : List PEq), (∀ f ∈ L, f ∈ P) → ∀ a : Int, a = (S.calcHalos e.lhs.var).size n l →
        L.foldl (fun h f => max h ((S.calcHalos f.lhs.var).size n l)) a = (S.calcHalos e.lhs.var).size n l := by
      intro L
      induction L with
      | nil => intro _ a ha; exact ha
      | cons f L ih =>
        intro hL a ha
        refine ih (fun g hg => hL g (List.mem_cons_of_mem _ hg)) _ ?_
        simp only
        rw [ha, hall f (hL f List.mem_cons_self), max_self]
    cases P with
    | nil => cases he
    | cons f L =>
      rw [List.foldl_cons]
      refine key L (fun g hg => List.mem_cons_of_mem _ hg) _ ?_
      rw [hall f List.mem_cons_self, max_eq_right h0]
  refine ⟨hw, ?_⟩
  intro e he p hp n hn
  have he' : e ∈ s.eqs := List.mem_flatten.2 ⟨P, hP, he⟩
  have hn' : n ∈ p.dom.map Prod.fst :=
    (hS.used e (List.mem_flatMap.2 ⟨s, hs, he'⟩) p (List.mem_cons_of_mem _ hp) _).2 hn
  have hr := ((phase1_reaches S st hst hk s hs (.inr hreq) e he' p (List.mem_cons_of_mem _ hp) n hn').mono
    (((phase2_ge S S.phase1 st).trans (calcHalos_ge S st hst hk)) p.var)).size
  rw [hw e he n true, hw e he n false]
  refine ⟨?_, ?_⟩
  · rcases size_mem (S.calcHalos e.lhs.var) n true with h0 | ⟨k, x, hk, h1, h2, h3⟩
    · rw [h0]; have := hr.1; omega
    · have := (inputs_cov hS hO hs hsc hP e he p hp k x hk (h1 ▸ hn)).1 h2
      rw [h1] at this
      rw [← h3]; exact this
  · rcases size_mem (S.calcHalos e.lhs.var) n false with h0 | ⟨k, x, hk, h1, h2, h3⟩
    · rw [h0]; have := hr.2; omega
    · have := (inputs_cov hS hO hs hsc hP e he p hp k x hk (h1 ▸ hn)).2 h2
      rw [h1] at this
      rw [← h3]; exact this
end

/-! ### Exchange distance -/

theorem count_eq (dom : List (String × Int)) : ∀ n : Int,
    dom.foldl (fun n d => if d.2 ≠ 0 then n + 1 else n) n = n + ((dom.filter fun d => d.2 ≠ 0).length : Int) := by
  induction dom with
  | nil => intro n; simp
  | cons d dom ih =>
    intro n
    rw [List.foldl_cons, ih]
    by_cases h : d.2 = 0
    · simp [h]
    · simp [h]; omega

theorem updateOfs_l1 (v : HVar) (st : Nat) (s : Option Int) (dom : List (String × Int)) :
    v.l1 ≤ (v.updateOfs st s dom).l1 ∧ ((dom.filter fun d => d.2 ≠ 0).length : Int) ≤ (v.updateOfs st s dom).l1 := by
  unfold HVar.updateOfs HVar.updateL1
  simp only [count_eq, zero_add]
  exact ⟨le_max_left _ _, le_max_right _ _⟩

theorem updateVar_l1 (v o : HVar) : v.l1 ≤ (v.updateVar o).l1 := by
  unfold HVar.updateVar HVar.updateL1
  exact le_max_left _ _

theorem updateWrite_l1 (v : HVar) (st : Nat) (s : Option Int) : (v.updateWrite st s).l1 = v.l1 := by
  unfold HVar.updateWrite
  cases s <;> rfl

/-- A bound on `l1` of one var is kept and reached by a loop. -/
theorem foldl_l1 {β : Type} (f : (Nat → HVar) → β → Nat → HVar) (v : Nat) (hf : ∀ m b, (m v).l1 ≤ (f m b v).l1)
    (l : List β) : ∀ m, (m v).l1 ≤ (l.foldl f m v).l1 := by
  induction l with
  | nil => intro m; exact le_refl _
  | cons b l ih => intro m; exact le_trans (hf m b) (ih _)

theorem foldl_l1_reach {β : Type} (f : (Nat → HVar) → β → Nat → HVar) (v : Nat) (hf : ∀ m b, (m v).l1 ≤ (f m b v).l1)
    (c : Int) (l : List β) (b : β) (hb : b ∈ l) (h : ∀ m, c ≤ (f m b v).l1) : ∀ m, c ≤ (l.foldl f m v).l1 := by
  induction l with
  | nil => cases hb
  | cons a l ih =>
    intro m
    rcases List.mem_cons.1 hb with rfl | hb
    · exact le_trans (h m) (foldl_l1 f v hf l _)
    · exact ih hb _

theorem setAt_l1 {m : Nat → HVar} {i v : Nat} {b : HVar} (h : (m i).l1 ≤ b.l1) : (m v).l1 ≤ (setAt m i b v).l1 := by
  unfold setAt
  by_cases hv : v = i
  · rw [if_pos hv, hv]; exact h
  · rw [if_neg hv]

theorem phase1_l1 (S : HSys) (st : HStage) (hst : st ∈ S.stages) (hk : st.scr = false) (e : PEq) (he : e ∈ st.eqs) (p : Pt)
    (hp : p ∈ e.lhs :: e.rhs) : ((p.dom.filter fun d => d.2 ≠ 0).length : Int) ≤ (S.phase1 p.var).l1 := by
  have h1 : ∀ (i : Nat) (m : Nat → HVar) (q : Pt),
      (m p.var).l1 ≤ (setAt m q.var ((m q.var).updateOfs i q.step q.dom) p.var).l1 := fun i m q => setAt_l1 (updateOfs_l1 _ _ _ _).1
  have h2 : ∀ (i : Nat) (m : Nat → HVar) (e : PEq), (m p.var).l1 ≤ (phase1Eq i m e p.var).l1 := by
    intro i m e
    unfold phase1Eq
    refine le_trans (foldl_l1 (fun m (q : Pt) => setAt m q.var ((m q.var).updateOfs i q.step q.dom)) p.var (h1 i) (e.lhs :: e.rhs) m) ?_
    exact setAt_l1 (by rw [updateWrite_l1])
  have h3 : ∀ (i : Nat) (m : Nat → HVar) (r : HStage), (m p.var).l1 ≤ (r.eqs.foldl (phase1Eq i) m p.var).l1 :=
    fun i m r => foldl_l1 _ _ (h2 i) _ _
  have h4 : ∀ (m : Nat → HVar) (s : HStage),
      (m p.var).l1 ≤ ((S.reqd s).foldl (fun m (r : HStage) => r.eqs.foldl (phase1Eq s.id) m) m p.var).l1 :=
    fun m s => foldl_l1 (fun m (r : HStage) => r.eqs.foldl (phase1Eq s.id) m) _ (h3 s.id) _ _
  have g1 : ∀ m : Nat → HVar, ((p.dom.filter fun d => d.2 ≠ 0).length : Int) ≤ (phase1Eq st.id m e p.var).l1 := by
    intro m
    unfold phase1Eq
    refine le_trans ?_ (setAt_l1 (by rw [updateWrite_l1]))
    refine foldl_l1_reach (fun m (q : Pt) => setAt m q.var ((m q.var).updateOfs st.id q.step q.dom)) p.var (h1 st.id) _ _ p hp
      (fun m => ?_) m
    simp only [setAt, if_true]
    exact (updateOfs_l1 _ _ _ _).2
  have g2 : ∀ m : Nat → HVar, ((p.dom.filter fun d => d.2 ≠ 0).length : Int) ≤ (st.eqs.foldl (phase1Eq st.id) m p.var).l1 :=
    foldl_l1_reach (phase1Eq st.id) p.var (h2 st.id) _ _ e he g1
  have g3 : ∀ m : Nat → HVar, ((p.dom.filter fun d => d.2 ≠ 0).length : Int) ≤
      ((S.reqd st).foldl (fun m (r : HStage) => r.eqs.foldl (phase1Eq st.id) m) m p.var).l1 :=
    foldl_l1_reach (fun m (r : HStage) => r.eqs.foldl (phase1Eq st.id) m) p.var (h3 st.id) _ _ st List.mem_cons_self g2
  exact foldl_l1_reach (fun m (s : HStage) => (S.reqd s).foldl (fun m (r : HStage) => r.eqs.foldl (phase1Eq s.id) m) m) p.var h4 _ _ st
    (List.mem_filter.2 ⟨hst, by simp [hk]⟩) g3 _

theorem calcHalos_l1 (S : HSys) (v : Nat) : (S.phase1 v).l1 ≤ (S.calcHalos v).l1 := by
  unfold HSys.calcHalos
  exact foldl_l1 (fun (m : Nat → HVar) (st : HStage) => fun v => (m v).updateVar (S.phase2 S.phase1 st v)) v
    (fun m st => updateVar_l1 _ _) _ _

/-- The number of dims with an offset. -/
theorem rankDist_le (p : Pt) (dims : List String) (hd : dims.Nodup) (h : ∀ n ∈ dims, n ∈ p.dom.map Prod.fst) :
    rankDist dims p.at ≤ (p.dom.filter fun d => d.2 ≠ 0).length := by
  unfold rankDist
  have : (dims.filter fun n => p.at n ≠ 0) ⊆ (p.dom.filter fun d => d.2 ≠ 0).map Prod.fst := by
    intro n hn
    obtain ⟨h1, h2⟩ := List.mem_filter.1 hn
    exact List.mem_map.2 ⟨(n, p.at n), List.mem_filter.2 ⟨pt_mem (h n h1), by simpa using h2⟩, rfl⟩
  have := (List.subperm_of_subset (hd.filter _) this).length_le
  rwa [List.length_map] at this

end Yask.Comp
