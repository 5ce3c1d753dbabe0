import Mathlib.Data.List.Nodup
import Mathlib.Data.List.Basic
import Mathlib.Tactic.Linarith
import Mathlib.Tactic.SplitIfs
import Verif.Spec.SlotSpec

/-! Helper lemmas: greedy slot assignment. -/

namespace Yask.Comp
open Spec

theorem put_self {β : Type} (f : Nat → β) (i : Nat) (b : β) : put f i b i = b := by simp [put]
theorem put_ne {β : Type} {f : Nat → β} {i j : Nat} {b : β} (h : j ≠ i) : put f i b j = f j := by simp [put, h]

/-! ### Spans -/

theorem touch_self (s : Nat) (m : Spans) (v : Nat) : touch s m v v = match m v with
    | none => some (s, s)
    | some (f, _) => some (f, s) := by
  unfold touch; rw [if_pos rfl]; cases m v <;> rfl

theorem touch_ne {s : Nat} {m : Spans} {v u : Nat} (h : u ≠ v) : touch s m v u = m u := by
  unfold touch; rw [if_neg h]

/-- Spans after the accesses of stages before `n`. -/
def SpanInv (stages : List LStage) (n : Nat) (m : Spans) : Prop :=
  (∀ v s, s < n → UsedIn stages v s → ∃ f l, m v = some (f, l) ∧ f ≤ s ∧ s ≤ l) ∧
  ∀ v f l, m v = some (f, l) → f ≤ l ∧ l < n

theorem touch_list (s : Nat) (vs : List Nat) : ∀ (m : Spans),
    (∀ v f l, m v = some (f, l) → f ≤ l ∧ l ≤ s) →
    (∀ v f l, m v = some (f, l) → ∃ l', vs.foldl (touch s) m v = some (f, l') ∧ l ≤ l') ∧
    (∀ v ∈ vs, ∃ f, vs.foldl (touch s) m v = some (f, s)) ∧
    ∀ v f l, vs.foldl (touch s) m v = some (f, l) → f ≤ l ∧ l ≤ s := by
  induction vs with
  | nil => intro m hm; exact ⟨fun v f l h => ⟨l, h, le_refl _⟩, fun v hv => (by cases hv), hm⟩
  | cons a vs ih =>
    intro m hm
    have hm' : ∀ v f l, touch s m a v = some (f, l) → f ≤ l ∧ l ≤ s := by
      intro v f l h
      by_cases hv : v = a
      · subst hv
        rw [touch_self] at h
        cases hmv : m v with
        | none => rw [hmv] at h; simp only [Option.some.injEq, Prod.mk.injEq] at h; omega
        | some fl =>
          obtain ⟨f0, l0⟩ := fl
          rw [hmv] at h; simp only [Option.some.injEq, Prod.mk.injEq] at h
          have := hm v f0 l0 hmv
          omega
      · rw [touch_ne hv] at h; exact hm v f l h
    obtain ⟨h1, h2, h3⟩ := ih (touch s m a) hm'
    refine ⟨?_, ?_, h3⟩
    · intro v f l h
      by_cases hv : v = a
      · subst hv
        have ht : touch s m v v = some (f, s) := by rw [touch_self, h]
        obtain ⟨l', h4, h5⟩ := h1 v f s ht
        have := hm v f l h
        exact ⟨l', h4, by omega⟩
      · exact h1 v f l (by rw [touch_ne hv]; exact h)
    · intro v hv
      rcases List.mem_cons.1 hv with rfl | hv
      · have ht : ∃ f, touch s m v v = some (f, s) := by
          rw [touch_self]
          cases m v with
          | none => exact ⟨s, rfl⟩
          | some fl => exact ⟨fl.1, rfl⟩
        obtain ⟨f, ht⟩ := ht
        obtain ⟨l', h4, h5⟩ := h1 v f s ht
        have := h3 v f l' h4
        exact ⟨f, by rw [List.foldl_cons, h4]; congr 2; omega⟩
      · exact h2 v hv

theorem firstLast_inv (stages : List LStage) : SpanInv stages stages.length (firstLast stages) := by
  unfold firstLast
  have key : ∀ (pre post : List LStage), stages = pre ++ post → ∀ m, SpanInv stages pre.length m →
      SpanInv stages stages.length ((post.zipIdx pre.length).foldl (fun m s => (s.1.outs ++ s.1.ins).foldl (touch s.2) m) m) := by
    intro pre post
    induction post generalizing pre with
    | nil => intro h m hm; simp only [List.append_nil] at h; subst h; exact hm
    | cons a post ih =>
      intro h m hm
      rw [List.zipIdx_cons, List.foldl_cons]
      have h' : stages = (pre ++ [a]) ++ post := by rw [h]; simp
      have := ih (pre ++ [a]) h' ((a.outs ++ a.ins).foldl (touch pre.length) m) (by
        obtain ⟨g1, g2⟩ := hm
        obtain ⟨t1, t2, t3⟩ := touch_list pre.length (a.outs ++ a.ins) m (fun v f l hv => by have := g2 v f l hv; omega)
        simp only [SpanInv, List.length_append, List.length_cons, List.length_nil]
        refine ⟨?_, ?_⟩
        · intro v s hs hu
          by_cases hsl : s < pre.length
          · obtain ⟨f, l, h1, h2, h3⟩ := g1 v s hsl hu
            obtain ⟨l', h4, h5⟩ := t1 v f l h1
            exact ⟨f, l', h4, h2, by omega⟩
          · have hse : s = pre.length := by omega
            subst hse
            obtain ⟨st, hst, hv⟩ := hu
            rw [h, List.getElem?_append_right (le_refl _)] at hst
            simp only [Nat.sub_self, List.getElem?_cons_zero, Option.some.injEq] at hst
            subst hst
            obtain ⟨f, hf⟩ := t2 v hv
            exact ⟨f, pre.length, hf, (t3 v f _ hf).1, le_refl _⟩
        · intro v f l hv
          have := t3 v f l hv
          omega)
      simpa using this
  have := key [] stages rfl (fun _ => none) ⟨fun v s hs => by simp at hs, fun v f l h => by cases h⟩
  simpa using this

/-- The first and the last stage of a span are stages in which the var is accessed. -/
theorem firstLast_used (stages : List LStage) : ∀ v f l, firstLast stages v = some (f, l) →
    UsedIn stages v f ∧ UsedIn stages v l := by
  unfold firstLast
  have hin : ∀ (i : Nat) (st : LStage), stages[i]? = some st → ∀ (vs : List Nat), (∀ v ∈ vs, v ∈ st.outs ++ st.ins) →
      ∀ (m : Spans), (∀ v f l, m v = some (f, l) → UsedIn stages v f ∧ UsedIn stages v l) →
      ∀ v f l, vs.foldl (touch i) m v = some (f, l) → UsedIn stages v f ∧ UsedIn stages v l := by
    intro i st hst vs
    induction vs with
    | nil => intro _ m hm; exact hm
    | cons a vs ih =>
      intro hvs m hm
      rw [List.foldl_cons]
      refine ih (fun v hv => hvs v (List.mem_cons_of_mem _ hv)) _ ?_
      have ha : UsedIn stages a i := ⟨st, hst, hvs a List.mem_cons_self⟩
      intro v f l h
      by_cases hv : v = a
      · subst hv
        rw [touch_self] at h
        cases hmv : m v with
        | none =>
          rw [hmv] at h; simp only [Option.some.injEq, Prod.mk.injEq] at h
          obtain ⟨rfl, rfl⟩ := h; exact ⟨ha, ha⟩
        | some fl =>
          obtain ⟨f0, l0⟩ := fl
          rw [hmv] at h; simp only [Option.some.injEq, Prod.mk.injEq] at h
          obtain ⟨rfl, rfl⟩ := h; exact ⟨(hm v _ _ hmv).1, ha⟩
      · rw [touch_ne hv] at h; exact hm v f l h
  have key : ∀ (post : List LStage) (n : Nat), (∀ i st, post[i]? = some st → stages[n + i]? = some st) → ∀ (m : Spans),
      (∀ v f l, m v = some (f, l) → UsedIn stages v f ∧ UsedIn stages v l) →
      ∀ v f l, (post.zipIdx n).foldl (fun m s => (s.1.outs ++ s.1.ins).foldl (touch s.2) m) m v = some (f, l) →
        UsedIn stages v f ∧ UsedIn stages v l := by
    intro post
    induction post with
    | nil => intro n _ m hm; exact hm
    | cons a post ih =>
      intro n hpost m hm
      rw [List.zipIdx_cons, List.foldl_cons]
      refine ih (n + 1) ?_ _ (hin n a (by simpa using hpost 0 a rfl) _ (fun v hv => hv) m hm)
      intro i st h
      have := hpost (i + 1) st (by simpa using h)
      rw [← this]; congr 1; omega
  exact key stages 0 (fun i st h => by simpa using h) _ (fun v f l h => by cases h)

/-! ### Greedy assignment -/

/-- Two vars are live at the same time. -/
def Overlap (spans : Spans) (v w : Nat) : Prop :=
  ∃ fv lv fw lw, spans v = some (fv, lv) ∧ spans w = some (fw, lw) ∧ fv ≤ lw ∧ fw ≤ lv

/-- Invariant: `D` has got slots, those in `D` that end at `si` or later and satisfy `keep` have not been freed. -/
structure SlotInv (size : Nat → Nat) (spans : Spans) (si : Nat) (D : Nat → Prop) (keep : Nat → Prop) (s : SlotSt) : Prop where
  has : ∀ v, D v → ∃ n, s.slots v = some n ∧ n < s.nmems (size v)
  started : ∀ v, D v → ∃ f l, spans v = some (f, l) ∧ f ≤ si
  diff : ∀ v w, D v → D w → v ≠ w → size v = size w → Overlap spans v w → s.slots v ≠ s.slots w
  live : ∀ v f l, D v → keep v → spans v = some (f, l) → si ≤ l → ∀ n, s.slots v = some n → n ∉ s.free (size v)
  nodup : ∀ z, (s.free z).Nodup
  below : ∀ z, ∀ n ∈ s.free z, n < s.nmems z

variable {size : Nat → Nat} {spans : Spans}

theorem alloc_inv {si : Nat} {D : Nat → Prop} {s : SlotSt} (h : SlotInv size spans si D (fun _ => True) s) {v l : Nat}
    (hv : spans v = some (si, l)) (hD : ¬ D v) :
    SlotInv size spans si (fun w => D w ∨ w = v) (fun _ => True) (allocVar size s v) := by
  obtain ⟨has, started, diff, live, nodup, below⟩ := h
  -- the slot is not used by a live var
  obtain ⟨n, hn, hnot, hnm, hfree⟩ : ∃ n, (allocVar size s v).slots = put s.slots v (some n) ∧
      (∀ w f l, D w → size w = size v → spans w = some (f, l) → si ≤ l → s.slots w ≠ some n) ∧
      (∀ z, s.nmems z ≤ (allocVar size s v).nmems z) ∧ n < (allocVar size s v).nmems (size v) ∧
      (∀ z, ((allocVar size s v).free z).Nodup) ∧ (∀ z, ∀ m ∈ (allocVar size s v).free z, m ∈ s.free z) ∧
      n ∉ (allocVar size s v).free (size v) := by
    unfold allocVar
    cases hf : s.free (size v) with
    | cons n rest =>
      have hnd := nodup (size v)
      rw [hf] at hnd
      refine ⟨n, rfl, ?_, fun z => le_refl _, below _ n (by rw [hf]; exact List.mem_cons_self), ?_, ?_, ?_⟩
      · intro w f l hw hsz hsp hl hc
        refine live w f l hw trivial hsp hl n hc ?_
        rw [hsz, hf]; exact List.mem_cons_self
      · intro z
        by_cases hz : z = size v
        · subst hz; simp only [put_self]; exact (List.nodup_cons.1 hnd).2
        · simp only [put_ne hz]; exact nodup z
      · intro z m hm
        by_cases hz : z = size v
        · subst hz; simp only [put_self] at hm; rw [hf]; exact List.mem_cons_of_mem _ hm
        · simp only [put_ne hz] at hm; exact hm
      · simp only [put_self]; exact (List.nodup_cons.1 hnd).1
    | nil =>
      refine ⟨s.nmems (size v), rfl, ?_, ?_, ?_, nodup, fun z m hm => hm, ?_⟩
      · intro w f l hw hsz hsp hl hc
        obtain ⟨n, h1, h2⟩ := has w hw
        rw [hc] at h1; cases h1
        rw [hsz] at h2; omega
      · intro z
        by_cases hz : z = size v
        · subst hz; simp only [put_self]; omega
        · simp only [put_ne hz]; exact le_refl _
      · simp only [put_self]; omega
      · intro hc; rw [hf] at hc; cases hc
  obtain ⟨hlt, hnd, hsub, hnin⟩ := hfree
  have hov : ∀ w, D w → Overlap spans v w → ∃ f l, spans w = some (f, l) ∧ si ≤ l := by
    rintro w hw ⟨fv, lv, fw, lw, h1, h2, h3, h4⟩
    rw [hv] at h1; cases h1
    exact ⟨fw, lw, h2, h3⟩
  have hsym : ∀ a b, Overlap spans a b → Overlap spans b a := by
    rintro a b ⟨fv, lv, fw, lw, h1, h2, h3, h4⟩
    exact ⟨fw, lw, fv, lv, h2, h1, h4, h3⟩
  have hne : ∀ w, D w → w ≠ v := fun w hw h => hD (h ▸ hw)
  refine ⟨?_, ?_, ?_, ?_, hnd, fun z m hm => lt_of_lt_of_le (below z m (hsub z m hm)) (hnm z)⟩
  · rintro w (hw | rfl)
    · obtain ⟨m, h1, h2⟩ := has w hw
      refine ⟨m, ?_, lt_of_lt_of_le h2 (hnm _)⟩
      rw [hn, put_ne (hne w hw)]; exact h1
    · exact ⟨n, by rw [hn, put_self], hlt⟩
  · rintro w (hw | rfl)
    · exact started w hw
    · exact ⟨si, l, hv, le_refl _⟩
  · rintro a b (ha | rfl) (hb | rfl) hab hsz hO
    · rw [hn, put_ne (hne a ha), put_ne (hne b hb)]
      exact diff a b ha hb hab hsz hO
    · rw [hn, put_ne (hne a ha), put_self]
      obtain ⟨f, l', h1, h2⟩ := hov a ha (hsym _ _ hO)
      exact hnot a f l' ha hsz h1 h2
    · rw [hn, put_ne (hne b hb), put_self]
      obtain ⟨f, l', h1, h2⟩ := hov b hb hO
      exact fun h => hnot b f l' hb hsz.symm h1 h2 h.symm
    · exact absurd rfl hab
  · rintro w f l' (hw | rfl) _ hsp hl m hm
    · rw [hn, put_ne (hne w hw)] at hm
      exact fun hc => live w f l' hw trivial hsp hl m hm (hsub _ m hc)
    · rw [hn, put_self] at hm
      cases hm
      exact hnin

theorem alloc_loop {si : Nat} : ∀ (vs : List Nat), vs.Nodup → ∀ (D : Nat → Prop) (s : SlotSt),
    (∀ v ∈ vs, ∀ l, spans v = some (si, l) → ¬ D v) →
    SlotInv size spans si D (fun _ => True) s →
    let r := vs.foldl (fun s v => match spans v with
      | some (f, _) => if f = si then allocVar size s v else s
      | none => s) s
    SlotInv size spans si (fun w => D w ∨ (w ∈ vs ∧ ∃ l, spans w = some (si, l))) (fun _ => True) r ∧
    ∀ w, D w → r.slots w = s.slots w := by
  intro vs
  induction vs with
  | nil =>
    intro _ D s _ h
    refine ⟨?_, fun w _ => rfl⟩
    have : (fun w => D w ∨ (w ∈ ([] : List Nat) ∧ ∃ l, spans w = some (si, l))) = D := by
      funext w; simp
    rw [this]; exact h
  | cons v vs ih =>
    intro hnd D s hD h
    simp only [List.foldl_cons]
    obtain ⟨hv, hnd'⟩ := List.nodup_cons.1 hnd
    by_cases hc : ∃ l, spans v = some (si, l)
    · obtain ⟨l, hl⟩ := hc
      have hstep : (match spans v with
        | some (f, _) => if f = si then allocVar size s v else s
        | none => s) = allocVar size s v := by rw [hl]; simp
      rw [hstep]
      have hDv := hD v List.mem_cons_self l hl
      obtain ⟨h1, h2⟩ := ih hnd' (fun w => D w ∨ w = v) (allocVar size s v) (by
        rintro w hw l' hl' (hc | rfl)
        · exact hD w (List.mem_cons_of_mem _ hw) l' hl' hc
        · exact hv hw) (alloc_inv h hl hDv)
      refine ⟨?_, ?_⟩
      · have : (fun w => D w ∨ (w ∈ v :: vs ∧ ∃ l, spans w = some (si, l)))
            = fun w => (D w ∨ w = v) ∨ (w ∈ vs ∧ ∃ l, spans w = some (si, l)) := by
          funext w
          simp only [List.mem_cons, eq_iff_iff]
          constructor
          · rintro (h | ⟨rfl | h, hl⟩)
            · exact .inl (.inl h)
            · exact .inl (.inr rfl)
            · exact .inr ⟨h, hl⟩
          · rintro ((h | rfl) | ⟨h, hl⟩)
            · exact .inl h
            · exact .inr ⟨.inl rfl, l, by assumption⟩
            · exact .inr ⟨.inr h, hl⟩
        rw [this]; exact h1
      · intro w hw
        rw [h2 w (.inl hw)]
        have hwv : w ≠ v := fun e => hDv (e ▸ hw)
        unfold allocVar
        cases s.free (size v) with
        | nil => simp only [put_ne hwv]
        | cons n rest => simp only [put_ne hwv]
    · have hstep : (match spans v with
        | some (f, _) => if f = si then allocVar size s v else s
        | none => s) = s := by
        cases hs : spans v with
        | none => rfl
        | some fl =>
          obtain ⟨f, l⟩ := fl
          simp only
          rw [if_neg]
          rintro rfl
          exact hc ⟨l, hs⟩
      rw [hstep]
      obtain ⟨h1, h2⟩ := ih hnd' D s (fun w hw => hD w (List.mem_cons_of_mem _ hw)) h
      refine ⟨?_, h2⟩
      have : (fun w => D w ∨ (w ∈ v :: vs ∧ ∃ l, spans w = some (si, l)))
          = fun w => D w ∨ (w ∈ vs ∧ ∃ l, spans w = some (si, l)) := by
        funext w
        simp only [List.mem_cons, eq_iff_iff]
        constructor
        · rintro (h | ⟨rfl | h, hl⟩)
          · exact .inl h
          · exact absurd hl hc
          · exact .inr ⟨h, hl⟩
        · rintro (h | ⟨h, hl⟩)
          · exact .inl h
          · exact .inr ⟨.inr h, hl⟩
      rw [this]; exact h1

theorem free_inv {si : Nat} {D K : Nat → Prop} {s : SlotSt} (h : SlotInv size spans si D K s) {v f : Nat}
    (hv : spans v = some (f, si)) (hD : D v) (hK : K v) :
    ∃ s', freeVar size s v = .ok s' ∧ s'.slots = s.slots ∧ SlotInv size spans si D (fun w => K w ∧ w ≠ v) s' := by
  obtain ⟨has, started, diff, live, nodup, below⟩ := h
  obtain ⟨n, hn, hlt⟩ := has v hD
  have hnin := live v f si hD hK hv (le_refl _) n hn
  refine ⟨{ s with free := put s.free (size v) (n :: s.free (size v)) }, by simp only [freeVar, hn], rfl, has, started, diff, ?_, ?_, ?_⟩
  · intro w f' l hw hk hsp hl m hm
    simp only
    by_cases hz : size w = size v
    · rw [hz, put_self]
      intro hc
      rcases List.mem_cons.1 hc with rfl | hc
      · obtain ⟨fw, lw, g1, g2⟩ := started w hw
        obtain ⟨fv, lv, g3, g4⟩ := started v hD
        rw [hsp] at g1; cases g1
        rw [hv] at g3; cases g3
        refine diff w v hw hD hk.2 hz ⟨_, _, _, _, hsp, hv, g2, ?_⟩ (by rw [hm, hn])
        omega
      · exact live w f' l hw hk.1 hsp hl m hm (by rw [hz]; exact hc)
    · rw [put_ne hz]
      exact live w f' l hw hk.1 hsp hl m hm
  · intro z
    simp only
    by_cases hz : z = size v
    · subst hz; rw [put_self]; exact List.nodup_cons.2 ⟨hnin, nodup _⟩
    · rw [put_ne hz]; exact nodup z
  · intro z m hm
    simp only at hm ⊢
    by_cases hz : z = size v
    · subst hz; rw [put_self] at hm
      rcases List.mem_cons.1 hm with rfl | hm
      · exact hlt
      · exact below _ m hm
    · rw [put_ne hz] at hm; exact below z m hm

theorem free_loop {si : Nat} {D : Nat → Prop} : ∀ (vs : List Nat), vs.Nodup → (∀ v ∈ vs, ∀ f, spans v = some (f, si) → D v) →
    ∀ (K : Nat → Prop) (s : SlotSt), (∀ v ∈ vs, K v) → SlotInv size spans si D K s →
    ∃ s', vs.foldlM (fun s v => match spans v with
      | some (_, l) => if l = si then freeVar size s v else .ok s
      | none => .ok s) s = .ok s' ∧ s'.slots = s.slots ∧
      SlotInv size spans si D (fun w => K w ∧ ¬ (w ∈ vs ∧ ∃ f, spans w = some (f, si))) s' := by
  intro vs
  induction vs with
  | nil =>
    intro _ _ K s _ h
    refine ⟨s, rfl, rfl, ?_⟩
    have : (fun w => K w ∧ ¬ (w ∈ ([] : List Nat) ∧ ∃ f, spans w = some (f, si))) = K := by funext w; simp
    rw [this]; exact h
  | cons v vs ih =>
    intro hnd hD K s hK h
    obtain ⟨hv, hnd'⟩ := List.nodup_cons.1 hnd
    rw [List.foldlM_cons]
    by_cases hc : ∃ f, spans v = some (f, si)
    · obtain ⟨f, hf⟩ := hc
      obtain ⟨s1, h1, h2, h3⟩ := free_inv h hf (hD v List.mem_cons_self f hf) (hK v List.mem_cons_self)
      have hstep : (match spans v with
        | some (_, l) => if l = si then freeVar size s v else .ok s
        | none => .ok s) = .ok s1 := by rw [hf]; simp only [if_true]; exact h1
      rw [hstep, Outcome.bind_ok]
      obtain ⟨s2, g1, g2, g3⟩ := ih hnd' (fun w hw => hD w (List.mem_cons_of_mem _ hw)) (fun w => K w ∧ w ≠ v) s1
        (fun w hw => ⟨hK w (List.mem_cons_of_mem _ hw), fun e => hv (e ▸ hw)⟩) h3
      refine ⟨s2, g1, by rw [g2, h2], ?_⟩
      have : (fun w => K w ∧ ¬ (w ∈ v :: vs ∧ ∃ f, spans w = some (f, si)))
          = fun w => (K w ∧ w ≠ v) ∧ ¬ (w ∈ vs ∧ ∃ f, spans w = some (f, si)) := by
        funext w
        simp only [List.mem_cons, eq_iff_iff]
        constructor
        · rintro ⟨h1, h2⟩
          exact ⟨⟨h1, fun e => h2 ⟨.inl e, f, e ▸ hf⟩⟩, fun h => h2 ⟨.inr h.1, h.2⟩⟩
        · rintro ⟨⟨h1, h2⟩, h3⟩
          refine ⟨h1, ?_⟩
          rintro ⟨rfl | h, hl⟩
          · exact h2 rfl
          · exact h3 ⟨h, hl⟩
      rw [this]; exact g3
    · have hstep : (match spans v with
        | some (_, l) => if l = si then freeVar size s v else .ok s
        | none => .ok s) = (.ok s : Outcome SlotSt) := by
        cases hs : spans v with
        | none => rfl
        | some fl =>
          obtain ⟨f, l⟩ := fl
          simp only
          rw [if_neg]
          rintro rfl
          exact hc ⟨f, hs⟩
      rw [hstep, Outcome.bind_ok]
      obtain ⟨s2, g1, g2, g3⟩ := ih hnd' (fun w hw => hD w (List.mem_cons_of_mem _ hw)) K s
        (fun w hw => hK w (List.mem_cons_of_mem _ hw)) h
      refine ⟨s2, g1, g2, ?_⟩
      have : (fun w => K w ∧ ¬ (w ∈ v :: vs ∧ ∃ f, spans w = some (f, si)))
          = fun w => K w ∧ ¬ (w ∈ vs ∧ ∃ f, spans w = some (f, si)) := by
        funext w
        simp only [List.mem_cons, eq_iff_iff]
        constructor
        · rintro ⟨h1, h2⟩
          exact ⟨h1, fun h => h2 ⟨.inr h.1, h.2⟩⟩
        · rintro ⟨h1, h2⟩
          refine ⟨h1, ?_⟩
          rintro ⟨rfl | h, hl⟩
          · exact hc hl
          · exact h2 ⟨h, hl⟩
      rw [this]; exact g3

/-- All stages. -/
theorem assign_inv (vars : List Nat) (hnd : vars.Nodup) (hle : ∀ v f l, spans v = some (f, l) → f ≤ l) : ∀ n : Nat,
    ∃ s, (List.range n).foldlM (slotStage size spans vars) {} = .ok s ∧
      SlotInv size spans n (fun v => v ∈ vars ∧ ∃ f l, spans v = some (f, l) ∧ f < n) (fun _ => True) s := by
  intro n
  induction n with
  | zero =>
    refine ⟨{}, rfl, ?_⟩
    have hno : ∀ v, ¬ (v ∈ vars ∧ ∃ f l, spans v = some (f, l) ∧ f < 0) := by
      rintro v ⟨_, f, l, _, h⟩; omega
    exact ⟨fun v h => absurd h (hno v), fun v h => absurd h (hno v), fun v w h => absurd h (hno v),
      fun v f l h => absurd h (hno v), fun z => List.nodup_nil, fun z m hm => (by cases hm)⟩
  | succ n ih =>
    obtain ⟨s, h1, h2⟩ := ih
    rw [List.range_succ, List.foldlM_append, h1]
    simp only [Outcome.bind_ok, List.foldlM_cons, List.foldlM_nil]
    obtain ⟨h3, _⟩ := alloc_loop (si := n) vars hnd (fun v => v ∈ vars ∧ ∃ f l, spans v = some (f, l) ∧ f < n) s (by
      rintro v _ l hl ⟨_, f, l', h, hlt⟩
      rw [hl] at h; cases h; omega) h2
    obtain ⟨s', h4, h5, h6⟩ := free_loop (si := n) vars hnd (by
      intro v hv f hf
      by_cases hfn : f = n
      · subst hfn; exact .inr ⟨hv, _, hf⟩
      · have := hle v f n hf
        exact .inl ⟨hv, f, n, hf, by omega⟩) (fun _ => True) _ (fun _ _ => trivial) h3
    refine ⟨s', ?_, ?_⟩
    · unfold slotStage
      simp only
      exact (congrArg (· >>= pure) h4).trans rfl
    · obtain ⟨has, started, diff, live, nodup, below⟩ := h6
      have hD : ∀ v, (v ∈ vars ∧ ∃ f l, spans v = some (f, l) ∧ f < n + 1) →
          ((v ∈ vars ∧ ∃ f l, spans v = some (f, l) ∧ f < n) ∨ (v ∈ vars ∧ ∃ l, spans v = some (n, l))) := by
        rintro v ⟨hv, f, l, h, hlt⟩
        by_cases hfn : f = n
        · subst hfn; exact .inr ⟨hv, l, h⟩
        · exact .inl ⟨hv, f, l, h, by omega⟩
      refine ⟨fun v h => has v (hD v h), ?_, fun v w hv hw => diff v w (hD v hv) (hD w hw), ?_, nodup, below⟩
      · rintro v ⟨_, f, l, h, hlt⟩
        exact ⟨f, l, h, by omega⟩
      · intro v f l hv _ hsp hl m hm
        refine live v f l (hD v hv) ⟨trivial, ?_⟩ hsp (by omega) m hm
        rintro ⟨_, f', h'⟩
        rw [hsp] at h'; cases h'; omega

/-! ### Evaluation -/

theorem put_all {V : Type} (slot : Nat → Nat) (g : Nat → V) (outs : List Nat) : ∀ (mem : Nat → V) (v : Nat),
    (∀ w ∈ outs, slot w = slot v → w = v) →
    outs.foldl (fun m w => put m (slot w) (g w)) mem (slot v) = if v ∈ outs then g v else mem (slot v) := by
  induction outs with
  | nil => intro mem v _; simp
  | cons a outs ih =>
    intro mem v h
    rw [List.foldl_cons, ih _ v (fun w hw => h w (List.mem_cons_of_mem _ hw))]
    by_cases hv : v ∈ outs
    · simp [hv]
    · rw [if_neg hv]
      by_cases ha : slot v = slot a
      · have := h a List.mem_cons_self ha.symm
        subst this
        rw [put_self, if_pos List.mem_cons_self]
      · rw [put_ne ha, if_neg]
        intro hc
        rcases List.mem_cons.1 hc with rfl | hc
        · exact ha rfl
        · exact hv hc

/-- If vars that are live together have different slots, the values read are those of the vars. -/
theorem run_eq {V : Type} (slot : Nat → Nat) (comp : Nat → List V → Nat → V) (first last : Nat → Nat) (ps : List SPart) :
    ∀ (W : Nat → Prop) (s0 : Nat) (mem val : Nat → V),
    ps.Pairwise (fun p q => p.stage ≤ q.stage) → (∀ p ∈ ps, s0 ≤ p.stage) →
    (∀ p ∈ ps, ∀ v ∈ p.ins ++ p.outs, first v ≤ p.stage ∧ p.stage ≤ last v) →
    (∀ p ∈ ps, ∀ w ∈ p.outs, ∀ v, (W v ∨ ∃ q ∈ ps, v ∈ q.outs) → v ≠ w → first v ≤ last w → first w ≤ last v → slot v ≠ slot w) →
    (∀ l p r, ps = l ++ p :: r → ∀ v ∈ p.ins, W v ∨ ∃ q ∈ l, v ∈ q.outs) →
    (∀ v, W v → first v ≤ s0) → (∀ v, W v → s0 ≤ last v → mem (slot v) = val v) →
    runSlots slot comp mem ps = runVars comp val ps := by
  induction ps with
  | nil => intro _ _ _ _ _ _ _ _ _ _ _; rfl
  | cons p ps ih =>
    intro W s0 mem val hpw hs0 huse hdiff hdef hWf hWm
    have hins : p.ins.map (fun v => mem (slot v)) = p.ins.map val := by
      apply List.map_congr_left
      intro v hv
      rcases hdef [] p ps rfl v hv with h | ⟨q, hq, _⟩
      · exact hWm v h (le_trans (hs0 p List.mem_cons_self) (huse p List.mem_cons_self v (List.mem_append_left _ hv)).2)
      · cases hq
    unfold runSlots runVars
    simp only
    rw [hins]
    congr 1
    have hp := hs0 p List.mem_cons_self
    refine ih (fun v => W v ∨ v ∈ p.outs) p.stage _ _ (List.pairwise_cons.1 hpw).2 (List.pairwise_cons.1 hpw).1
      (fun q hq => huse q (List.mem_cons_of_mem _ hq)) ?_ ?_ ?_ ?_
    · intro q hq w hw v hv
      refine hdiff q (List.mem_cons_of_mem _ hq) w hw v ?_
      rcases hv with (h | h) | ⟨q', hq', h⟩
      · exact .inl h
      · exact .inr ⟨p, List.mem_cons_self, h⟩
      · exact .inr ⟨q', List.mem_cons_of_mem _ hq', h⟩
    · intro l q r hps v hv
      rcases hdef (p :: l) q r (by rw [hps]; rfl) v hv with h | ⟨q', hq', h⟩
      · exact .inl (.inl h)
      · rcases List.mem_cons.1 hq' with rfl | hq'
        · exact .inl (.inr h)
        · exact .inr ⟨q', hq', h⟩
    · rintro v (h | h)
      · exact le_trans (hWf v h) hp
      · exact (huse p List.mem_cons_self v (List.mem_append_right _ h)).1
    · intro v hv hl
      have hfv : first v ≤ p.stage := by
        rcases hv with h | h
        · exact le_trans (hWf v h) hp
        · exact (huse p List.mem_cons_self v (List.mem_append_right _ h)).1
      rw [put_all slot (fun v => comp p.id (p.ins.map val) v) p.outs mem v (by
        intro w hw hsl
        by_contra hne
        have hu := huse p List.mem_cons_self w (List.mem_append_right _ hw)
        refine hdiff p List.mem_cons_self w hw v ?_ (fun e => hne e.symm) (le_trans hfv hu.2) (le_trans hu.1 hl) hsl.symm
        rcases hv with h | h
        · exact .inl h
        · exact .inr ⟨p, List.mem_cons_self, h⟩)]
      by_cases ho : v ∈ p.outs
      · rw [if_pos ho, if_pos ho]
      · rw [if_neg ho, if_neg ho]
        rcases hv with h | h
        · exact hWm v h (le_trans hp hl)
        · exact absurd h ho

theorem microParts_all : ∀ (ps : List SPart) (done : List Nat), (ps.map (·.id)).Nodup → (∀ p ∈ ps, p.id ∉ done) →
    (microParts done ps).1 = ps := by
  intro ps
  induction ps with
  | nil => intro _ _ _; rfl
  | cons p ps ih =>
    intro done hnd hd
    rw [List.map_cons, List.nodup_cons] at hnd
    rw [microParts, if_neg (hd p List.mem_cons_self)]
    simp only
    rw [ih _ hnd.2 (by
      intro q hq hc
      rcases List.mem_cons.1 hc with h | h
      · exact hnd.1 (h ▸ List.mem_map_of_mem hq)
      · exact hd q (List.mem_cons_of_mem _ hq) h)]

/-! ### Final numbers -/

theorem ofs_le {nm : Nat → Nat} : ∀ {szs : List Nat} {a b : Nat}, a ∈ szs → b ∈ szs → a ≠ b →
    ((szs.takeWhile fun z => decide (z ≠ a)).map nm).sum + nm a ≤ ((szs.takeWhile fun z => decide (z ≠ b)).map nm).sum ∨
    ((szs.takeWhile fun z => decide (z ≠ b)).map nm).sum + nm b ≤ ((szs.takeWhile fun z => decide (z ≠ a)).map nm).sum := by
  intro szs
  induction szs with
  | nil => intro a b ha; cases ha
  | cons z szs ih =>
    intro a b ha hb hab
    by_cases hza : z = a
    · subst hza
      left
      have : decide (z ≠ b) = true := by simpa using hab
      rw [List.takeWhile_cons, List.takeWhile_cons, this]
      simp
    · by_cases hzb : z = b
      · subst hzb
        right
        have : decide (z ≠ a) = true := by simpa using hza
        rw [List.takeWhile_cons, List.takeWhile_cons, this]
        simp
      · have ha' : a ∈ szs := by rcases List.mem_cons.1 ha with h | h; exact absurd h.symm hza; exact h
        have hb' : b ∈ szs := by rcases List.mem_cons.1 hb with h | h; exact absurd h.symm hzb; exact h
        have h1 : decide (z ≠ a) = true := by simpa using hza
        have h2 : decide (z ≠ b) = true := by simpa using hzb
        rw [List.takeWhile_cons, List.takeWhile_cons, h1, h2]
        simp only [if_true, List.map_cons, List.sum_cons]
        rcases ih ha' hb' hab with h | h
        · left; omega
        · right; omega

end Yask.Comp
