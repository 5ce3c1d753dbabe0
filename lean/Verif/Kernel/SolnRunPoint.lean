import Verif.Spec.CodeRunSpec

/-! Helper lemmas: evaluation of the equations of a part at points, one after the other. -/

namespace Yask.Nano
open Spec Var Comp Spec.Cpp

section
variable {V : Type}

/-- Evaluation of one equation at a point. -/
def PartAt.evalEq (p : PartAt) (u : V) (A : Arith V) (x : List Int) (m : Nat → Int → V) (e : LPt × Ex LPt) : Nat → Int → V :=
  match (p.c.vars e.1.1).g.addrOf (p.elemAt e.1 x) with
  | .ok a => fun i b => if i = e.1.1 ∧ b = a then e.2.value A (p.valAt u m x) else m i b
  | _ => m

/-- Evaluation of the equations at a point, in order. -/
def PartAt.evalPt (p : PartAt) (u : V) (A : Arith V) (m : Nat → Int → V) (x : List Int) : Nat → Int → V :=
  p.c.eqs.foldl (p.evalEq u A x) m

variable {p : PartAt} {inner : String}

theorem evalEq_at {u : V} {A : Arith V} {x : List Int} {m : Nat → Int → V} {e : LPt × Ex LPt} {a : Int}
    (h : (p.c.vars e.1.1).g.addrOf (p.elemAt e.1 x) = .ok a) (i : Nat) (b : Int) :
    p.evalEq u A x m e i b = if i = e.1.1 ∧ b = a then e.2.value A (p.valAt u m x) else m i b := by
  unfold PartAt.evalEq
  rw [h]

theorem evals_point (hc : p.c.Ok V inner fun _ => p.t) (hl : (p.c.eqs.map (·.1)).Nodup) (u : V) (A : Arith V) {x : List Int}
    (hi : p.Indep (· = x)) (m : Nat → Int → V) : p.Evals u A (· = x) m (p.evalPt u A m x) := by
  have hadr : ∀ q, q ∈ p.c.eqs.map (·.1) ∨ p.c.IsRead q → ∃ a, (p.c.vars q.1).g.addrOf (p.elemAt q x) = .ok a := by
    intro q hq
    obtain ⟨hv, _⟩ := hc.var q hq
    exact ⟨_, addrOf_eq hv.ok (hi.range q hq x rfl) hv.steps⟩
  have key : ∀ n ≤ p.c.eqs.length, let m' := (p.c.eqs.take n).foldl (p.evalEq u A x) m
      (∀ e ∈ p.c.eqs.take n, ∃ a, (p.c.vars e.1.1).g.addrOf (p.elemAt e.1 x) = .ok a ∧ m' e.1.1 a = e.2.value A (p.valAt u m x)) ∧
      ∀ i b, (∀ e ∈ p.c.eqs.take n, e.1.1 = i → (p.c.vars i).g.addrOf (p.elemAt e.1 x) ≠ .ok b) → m' i b = m i b := by
    intro n
    induction n with
    | zero => intro _; simp
    | succ n ih =>
      intro hn
      obtain ⟨h1, h2⟩ := ih (by omega)
      have hn' : n < p.c.eqs.length := by omega
      have htake : p.c.eqs.take (n + 1) = p.c.eqs.take n ++ [p.c.eqs[n]] := by simp
      simp only [htake, List.foldl_append, List.foldl_cons, List.foldl_nil]
      set m1 := (p.c.eqs.take n).foldl (p.evalEq u A x) m with hm1
      set e := p.c.eqs[n] with he
      have hemem : e ∈ p.c.eqs := List.getElem_mem hn'
      obtain ⟨a, ha⟩ := hadr e.1 (.inl (List.mem_map_of_mem hemem))
      have hval : e.2.value A (p.valAt u m1 x) = e.2.value A (p.valAt u m x) := by
        refine value_congr A _ _ e.2 fun q hq => ?_
        have hrd : p.c.IsRead q := ⟨e, hemem, hq⟩
        obtain ⟨b, hb⟩ := hadr q (.inr hrd)
        unfold PartAt.valAt
        rw [hb]
        simp only
        apply h2
        intro e' he' hee hb'
        obtain ⟨r', hr', rfl⟩ := List.mem_iff_getElem.1 he'
        have hr2 : r' < n ∧ r' < p.c.eqs.length := by simpa using hr'
        rw [List.getElem_take] at hee hb'
        have hs := same_of_addr hc (.inr hrd) hee.symm (hi.range q (.inr hrd) x rfl)
          (hi.range _ (.inl (List.mem_map_of_mem (List.getElem_mem hr2.2))) x rfl) hb (by rw [hee]; exact hb') rfl
        have := (hi.reads n hn' r' hr2.2 q hq hee.symm x x rfl rfl hs).2
        omega
      refine ⟨?_, ?_⟩
      · intro e' he'
        rw [List.mem_append, List.mem_singleton] at he'
        rcases he' with he' | rfl
        · obtain ⟨a', a1, a2⟩ := h1 e' he'
          refine ⟨a', a1, ?_⟩
          rw [evalEq_at ha, if_neg, a2]
          rintro ⟨hee, rfl⟩
          have he2 : e' ∈ p.c.eqs := List.mem_of_mem_take he'
          have hs := same_of_addr hc (.inl (List.mem_map_of_mem he2)) hee (hi.range e'.1 (.inl (List.mem_map_of_mem he2)) x rfl)
            (hi.range e.1 (.inl (List.mem_map_of_mem hemem)) x rfl) a1 ha rfl
          have hq := (hi.writes e'.1 (List.mem_map_of_mem he2) e.1 (List.mem_map_of_mem hemem) hee x x rfl rfl hs).1
          obtain ⟨r', hr', rfl⟩ := List.mem_iff_getElem.1 he'
          have hr2 : r' < n ∧ r' < p.c.eqs.length := by simpa using hr'
          rw [List.getElem_take] at hq
          have h3 := hl.getElem_inj_iff (i := r') (hi := by simpa using hr2.2) (j := n) (hj := by simpa using hn')
          simp only [List.getElem_map] at h3
          have := h3.1 hq
          omega
        · refine ⟨a, ha, ?_⟩
          rw [evalEq_at ha, if_pos ⟨rfl, rfl⟩, hval]
      · intro i b hb
        rw [evalEq_at ha, if_neg]
        · exact h2 i b fun e' he' => hb e' (List.mem_append_left _ he')
        · rintro ⟨rfl, rfl⟩
          exact hb e (by simp) rfl ha
  obtain ⟨h1, h2⟩ := key p.c.eqs.length le_rfl
  rw [List.take_length] at h1 h2
  refine ⟨?_, ?_⟩
  · rintro e he _ rfl
    exact h1 e he
  · intro i b hb
    exact h2 i b fun e he hei => hb e he hei x rfl

theorem evals_points (hc : p.c.Ok V inner fun _ => p.t) (hl : (p.c.eqs.map (·.1)).Nodup) (u : V) (A : Arith V) :
    ∀ (xs : List (List Int)), xs.Nodup → p.Indep (· ∈ xs) → ∀ m : Nat → Int → V, p.Evals u A (· ∈ xs) m (xs.foldl (p.evalPt u A) m)
  | [], _, _, m => Evals.nil u A (by simp) m
  | x :: xs, hn, hi, m => by
    rw [List.nodup_cons] at hn
    have hsub : ∀ y, y = x ∨ y ∈ xs ↔ y ∈ x :: xs := by intro y; simp
    rw [List.foldl_cons]
    refine Evals.congr hsub (Evals.comp hc (hi.mono fun y hy => (hsub y).1 hy) ?_
      (evals_point hc hl u A (hi.mono fun y hy => (hsub y).1 (.inl hy)) m)
      (evals_points hc hl u A xs hn.2 (hi.mono fun y hy => (hsub y).1 (.inr hy)) _))
    rintro y rfl h
    exact hn.1 h

theorem Evals.unique {u : V} {A : Arith V} {P : List Int → Prop} {m m1 m2 : Nat → Int → V} (h1 : p.Evals u A P m m1)
    (h2 : p.Evals u A P m m2) : m1 = m2 := by
  funext i b
  by_cases h : ∃ e ∈ p.c.eqs, e.1.1 = i ∧ ∃ x, P x ∧ (p.c.vars i).g.addrOf (p.elemAt e.1 x) = .ok b
  · obtain ⟨e, he, rfl, x, hx, hb⟩ := h
    obtain ⟨a, a1, a2⟩ := h1.1 e he x hx
    obtain ⟨a', b1, b2⟩ := h2.1 e he x hx
    rw [hb] at a1 b1
    injection a1 with a1
    injection b1 with b1
    subst a1 b1
    rw [a2, b2]
  · have hb : ∀ e ∈ p.c.eqs, e.1.1 = i → ∀ x, P x → (p.c.vars i).g.addrOf (p.elemAt e.1 x) ≠ .ok b :=
      fun e he hei x hx hb => h ⟨e, he, hei, x, hx, hb⟩
    rw [h1.2 i b hb, h2.2 i b hb]

/-- One run of the inner loop evaluates its points, one after the other. -/
theorem runInner_points {fi : Bool} {ds : List NanoDim} (h : p.Fits inner fi (ds.map NanoDim.fold) (ds.map NanoDim.rofs))
    (hc : p.c.Ok V inner fun _ => p.t)
    (hf : ∀ d ∈ ds, 0 < d.fold) (u : V) (A : Arith V) (node : Nat → Ex LPt) (hd : (p.c.eqs.map (·.1)).Nodup)
    (hn : ∀ m, ∀ e ∈ p.c.eqs, e.2.All (Ex.NodeOk A m node (p.c.eqs.map (·.1)))) (hp : ∀ e ∈ p.c.eqs, e.2.Plain A)
    (r : InnerRun) (hm : MaskOk (foldPts (ds.map NanoDim.fold)) r.mask) (hl : 0 < r.n → r.first.length = ds.length)
    (hnd : (runPoints fi ds r).Nodup) (hi : p.Indep (· ∈ runPoints fi ds r)) (mem : Nat → Int → V) :
    p.runInner u A r mem = .ok ((runPoints fi ds r).foldl (p.evalPt u A) mem) := by
  obtain ⟨mem', m1, m2⟩ := runInner_evals h hc hf u A node hd hn hp r hm hl hi mem
  rw [m1, Evals.unique m2 (evals_points hc hd u A _ hnd hi mem)]

/-! ### The reference -/

theorem readAt_eq {g : Geom} (hg : g.Ok) (hs : StepsAlloc g.api) {idx : List Int} (hr : InRangeButStep g.api idx) (m : Int → V) :
    ∃ a, g.addrOf idx = .ok a ∧ readAt g m idx = .ok (m a) ∧ ∀ w, writeAt g m w idx = .ok fun b => if b = a then w else m b := by
  obtain ⟨ti, h1, _⟩ := allocStepIndex_eq hg (inRangeButStep_length hr) hs
  have h2 := addrOf_eq hg hr hs
  have h3 := addrOfSlots_range hg (slots_inSpace hg hr hs)
  refine ⟨_, h2, ?_, fun w => ?_⟩
  · unfold readAt Var.readElem rdMem
    unfold Geom.addrOf at h2
    rw [h1] at h2 ⊢
    simp only [Outcome.bind_ok] at h2 ⊢
    rw [h2]
    simp only [Outcome.bind_ok]
    rw [if_pos h3]
  · unfold writeAt Var.writeElem wrMem
    unfold Geom.addrOf at h2
    rw [h1] at h2 ⊢
    simp only [Outcome.bind_ok] at h2 ⊢
    rw [h2]
    simp only [Outcome.bind_ok]
    rw [if_pos h3]

theorem refEq_eq (hc : p.c.Ok V inner fun _ => p.t) (u : V) (A : Arith V) {x : List Int}
    (hr : ∀ q, q ∈ p.c.eqs.map (·.1) ∨ p.c.IsRead q → InRangeButStep (p.c.vars q.1).g.api (p.elemAt q x)) (m : Nat → Int → V)
    {e : LPt × Ex LPt} (he : e ∈ p.c.eqs) :
    refEq (fun i => (p.c.vars i).g) (p.elemAt · x) u A m e = .ok (p.evalEq u A x m e) := by
  have hread : ∀ q ∈ e.2.points, ∃ a, (p.c.vars q.1).g.addrOf (p.elemAt q x) = .ok a ∧
      readAt (p.c.vars q.1).g (m q.1) (p.elemAt q x) = .ok (m q.1 a) := by
    intro q hq
    have hrd : p.c.IsRead q := ⟨e, he, hq⟩
    obtain ⟨hv, _⟩ := hc.var q (.inr hrd)
    obtain ⟨a, h1, h2, _⟩ := readAt_eq hv.ok hv.steps (hr q (.inr hrd)) (m q.1)
    exact ⟨a, h1, h2⟩
  obtain ⟨hv, _⟩ := hc.var e.1 (.inl (List.mem_map_of_mem he))
  obtain ⟨a, h1, _, h2⟩ := readAt_eq hv.ok hv.steps (hr e.1 (.inl (List.mem_map_of_mem he))) (m e.1.1)
  unfold refEq
  rw [if_pos]
  · rw [h2]
    simp only [Outcome.bind_ok]
    congr 1
    funext i b
    rw [evalEq_at h1]
    have hv : (e.2.value A fun q => match readAt (p.c.vars q.1).g (m q.1) (p.elemAt q x) with
        | .ok w => w
        | _ => u) = e.2.value A (p.valAt u m x) := by
      refine value_congr A _ _ e.2 fun q hq => ?_
      obtain ⟨b, b1, b2⟩ := hread q hq
      unfold PartAt.valAt
      rw [b1, b2]
    by_cases hi : i = e.1.1
    · subst hi
      by_cases hb : b = a
      · simp only [hb, if_true, and_self]
        exact hv
      · simp [hb]
    · simp [hi]
  · rw [List.all_eq_true]
    intro q hq
    obtain ⟨b, b1, b2⟩ := hread q hq
    rw [b2]
    rfl

theorem refEqs_eq (hc : p.c.Ok V inner fun _ => p.t) (u : V) (A : Arith V) {x : List Int}
    (hr : ∀ q, q ∈ p.c.eqs.map (·.1) ∨ p.c.IsRead q → InRangeButStep (p.c.vars q.1).g.api (p.elemAt q x)) :
    ∀ (l : List (LPt × Ex LPt)), (∀ e ∈ l, e ∈ p.c.eqs) → ∀ (m : Nat → Int → V),
      l.foldlM (refEq (fun i => (p.c.vars i).g) (p.elemAt · x) u A) m = .ok (l.foldl (p.evalEq u A x) m)
  | [], _, _ => rfl
  | e :: l, h, m => by
    rw [List.foldlM_cons, refEq_eq hc u A hr m (h e (by simp))]
    simp only [Outcome.bind_ok, List.foldl_cons]
    exact refEqs_eq hc u A hr l (fun e he => h e (List.mem_cons_of_mem _ he)) _

end
end Yask.Nano
