import Verif.Spec.LoopDepSpec
import Verif.Compiler.OffsetLemmas

/-!
# Lemmas for accesses in the inner loop
-/

namespace Yask.LoopDep
open Comp (NExpr IndexType)

theorem interp_usual {π : Type} (w : World) (idx : String → ℚ) (pv : π → ℚ) : (interp w idx pv).Usual :=
  ⟨fun _ => rfl, fun _ _ => rfl, fun _ _ => rfl⟩

section
variable {π : Type}

mutual
theorem mem_used (pu : π → List String) (pm : π → Prop) (d : String) (h : ∀ p, d ∈ pu p ↔ pm p) :
    ∀ e : NExpr π, d ∈ used pu e ↔ has (fun e => ∃ t, e = .index d t) pm e
  | .const _ => by simp [used, has]
  | .code _ => by simp [used, has]
  | .index d' t => by
    simp only [used, has, List.mem_singleton, NExpr.index.injEq]
    constructor
    · rintro rfl; exact ⟨t, rfl, rfl⟩
    · rintro ⟨_, h, _⟩; exact h.symm
  | .point p => by simp [used, has, h]
  | .neg a => by simp [used, has, mem_used pu pm d h a]
  | .bin _ l r => by simp [used, has, mem_used pu pm d h l, mem_used pu pm d h r]
  | .comm _ ops => by simp [used, has, mem_useds pu pm d h ops]
  | .func _ ops => by simp [used, has, mem_useds pu pm d h ops]
theorem mem_useds (pu : π → List String) (pm : π → Prop) (d : String) (h : ∀ p, d ∈ pu p ↔ pm p) :
    ∀ es : List (NExpr π), d ∈ useds pu es ↔ hasAny (fun e => ∃ t, e = .index d t) pm es
  | [] => by simp [useds, hasAny]
  | a :: as => by simp [useds, hasAny, mem_used pu pm d h a, mem_useds pu pm d h as]
end

mutual
theorem val_same (w : World) (i j : String → ℚ) (pv pv' : π → ℚ) (pm : String → π → Prop) (pc : π → Prop)
    (hp : ∀ p, (∀ d, pm d p → i d = j d) → ¬ pc p → pv p = pv' p) :
    ∀ e : NExpr π, (∀ d, has (fun e => ∃ t, e = .index d t) (pm d) e → i d = j d) →
      ¬ has (fun e => ∃ s, e = .code s) pc e → e.val (interp w i pv) = e.val (interp w j pv')
  | .const _, _, _ => rfl
  | .code s, _, h2 => absurd ⟨s, rfl⟩ h2
  | .index d t, h1, _ => by
    have := h1 d ⟨t, rfl⟩
    cases t <;> simp [NExpr.val, interp, this]
  | .point p, h1, h2 => hp p h1 h2
  | .neg a, h1, h2 => by
    simp only [NExpr.val]
    rw [val_same w i j pv pv' pm pc hp a h1 h2]
  | .bin op l r, h1, h2 => by
    have hl := val_same w i j pv pv' pm pc hp l (fun d h => h1 d (.inl h)) (fun h => h2 (.inl h))
    have hr := val_same w i j pv pv' pm pc hp r (fun d h => h1 d (.inr h)) (fun h => h2 (.inr h))
    cases op <;> simp only [NExpr.val, hl, hr] <;> rfl
  | .comm op ops, h1, h2 => by
    have h := vals_same w i j pv pv' pm pc hp ops h1 h2
    cases op <;> simp only [NExpr.val, h]
  | .func f ops, h1, h2 => by
    have h := vals_same w i j pv pv' pm pc hp ops h1 h2
    simp only [NExpr.val, h]
    rfl
theorem vals_same (w : World) (i j : String → ℚ) (pv pv' : π → ℚ) (pm : String → π → Prop) (pc : π → Prop)
    (hp : ∀ p, (∀ d, pm d p → i d = j d) → ¬ pc p → pv p = pv' p) :
    ∀ es : List (NExpr π), (∀ d, hasAny (fun e => ∃ t, e = .index d t) (pm d) es → i d = j d) →
      ¬ hasAny (fun e => ∃ s, e = .code s) pc es →
      NExpr.vals (interp w i pv) es = NExpr.vals (interp w j pv') es
  | [], _, _ => rfl
  | a :: as, h1, h2 => by
    simp only [NExpr.vals]
    rw [val_same w i j pv pv' pm pc hp a (fun d h => h1 d (.inl h)) (fun h => h2 (.inl h)),
      vals_same w i j pv pv' pm pc hp as (fun d h => h1 d (.inr h)) (fun h => h2 (.inr h))]
end

end

theorem mem_ptUsed (d : String) : ∀ (n : Nat) (p : Pt n), d ∈ ptUsed n p ↔ ptMentions d n p
  | 0, p => nomatch p
  | n + 1, (_, args) => mem_useds (ptUsed n) (ptMentions d n) d (mem_ptUsed d n) args

theorem mem_used_iff (d : String) {n : Nat} (e : NExpr (Pt n)) : d ∈ used (ptUsed n) e ↔ Mentions d e :=
  mem_used _ _ d (mem_ptUsed d n) e

theorem ptVal_same (w : World) (i j : String → ℚ) : ∀ (n : Nat) (p : Pt n),
    (∀ d, ptMentions d n p → i d = j d) → ¬ ptCode n p → ptVal w i n p = ptVal w j n p
  | 0, p => nomatch p
  | n + 1, (v, args) => by
    intro h1 h2
    have := vals_same w i j (ptVal w i n) (ptVal w j n) (fun d => ptMentions d n) (ptCode n) (ptVal_same w i j n)
      args h1 h2
    simp only [ptVal, this]

/-- The value of an arg depends only on the indices it mentions. -/
theorem argVal_same (w : World) (i j : String → ℚ) {n : Nat} (e : NExpr (Pt n))
    (h1 : ∀ d, Mentions d e → i d = j d) (h2 : ¬ HasCode e) : argVal w i e = argVal w j e :=
  val_same w i j _ _ (fun d => ptMentions d n) (ptCode n) (ptVal_same w i j n) e h1 h2

/-- The value of an arg that is an offset. -/
theorem argVal_offset (w : World) (i : String → ℚ) {n : Nat} (e : NExpr (Pt n)) (d : String) (o : ℤ)
    (h : e.offsetFrom d = .ok (some o)) : argVal w i e = i d + o :=
  Comp.offsetFrom_spec (interp_usual w i _) d (i d) rfl rfl e o h

/-- What the loop over args has found, from any state. -/
theorem depLoop_spec {n : Nat} (dom : List String) (idim : String) (args : List (String × NExpr (Pt n)))
    (lt r : Dep) (h : depLoop dom idim lt args = .ok r) (hlt : lt ≠ .complex) :
    (r = .invariant → lt = .invariant ∧ ∀ a ∈ args, ∀ d ∈ idim :: dom, ¬ Mentions d a.2) ∧
    (r = .dependent → (∀ a ∈ args, ¬ Mentions idim a.2) ∧
      (lt = .dependent ∨ lt = .invariant ∧ ∃ a ∈ args, ∃ d ∈ dom, d ≠ idim ∧ Mentions d a.2)) ∧
    (r = .offset → (∀ a ∈ args, Mentions idim a.2 → a.1 = idim ∧ ∃ o, a.2.offsetFrom idim = .ok (some o)) ∧
      (lt = .offset ∨ ∃ a ∈ args, Mentions idim a.2)) ∧
    (r = .complex → ∃ a ∈ args, Mentions idim a.2 ∧ ¬ (a.1 = idim ∧ ∃ o, a.2.offsetFrom idim = .ok (some o))) := by
  induction args generalizing lt with
  | nil =>
    simp only [depLoop, Outcome.ok.injEq] at h
    subst h
    refine ⟨fun e => ⟨e, by simp⟩, fun e => ⟨by simp, .inl e⟩, fun e => ⟨by simp, .inl e⟩, fun e => absurd e hlt⟩
  | cons x rest ih =>
    obtain ⟨g, arg⟩ := x
    unfold depLoop at h
    simp only at h
    by_cases hi : (used (ptUsed n) arg).contains idim = true
    · rw [if_pos hi] at h
      have hm : Mentions idim arg := (mem_used_iff idim arg).1 (by simpa using hi)
      by_cases hg : g = idim
      · rw [if_pos hg] at h
        cases ho : arg.offsetFrom idim with
        | ok o =>
          rw [ho] at h
          simp only [Outcome.bind_ok] at h
          cases o with
          | none =>
            simp only [Outcome.ok.injEq] at h
            subst h
            refine ⟨by simp, by simp, by simp, fun _ => ⟨_, List.mem_cons_self .., hm, ?_⟩⟩
            rintro ⟨_, o, h'⟩
            simp only at h'
            rw [ho] at h'
            cases h'
          | some o =>
            obtain ⟨i1, i2, i3, i4⟩ := ih .offset h (by simp)
            refine ⟨fun e => ?_, fun e => ?_, fun e => ?_, fun e => ?_⟩
            · exact absurd (i1 e).1 (by simp)
            · rcases (i2 e).2 with h' | ⟨h', _⟩ <;> exact absurd h' (by simp)
            · refine ⟨?_, .inr ⟨_, List.mem_cons_self .., hm⟩⟩
              intro a ha hma
              rcases List.mem_cons.1 ha with rfl | ha
              · exact ⟨hg, o, ho⟩
              · exact (i3 e).1 a ha hma
            · obtain ⟨a, ha, h1, h2⟩ := i4 e
              exact ⟨a, List.mem_cons_of_mem _ ha, h1, h2⟩
        | throws => rw [ho] at h; cases h
        | undefined => rw [ho] at h; cases h
      · rw [if_neg hg] at h
        simp only [Outcome.ok.injEq] at h
        subst h
        exact ⟨by simp, by simp, by simp, fun _ => ⟨_, List.mem_cons_self .., hm, fun h' => hg h'.1⟩⟩
    · rw [if_neg hi] at h
      have hm : ¬ Mentions idim arg := fun h' => hi (by simpa using (mem_used_iff idim arg).2 h')
      have hd : dom.any (fun d => decide (d ≠ idim) && (used (ptUsed n) arg).contains d) = true ↔
          ∃ d ∈ dom, d ≠ idim ∧ Mentions d arg := by
        simp [← mem_used_iff]
      by_cases hc : lt = .invariant ∧ ∃ d ∈ dom, d ≠ idim ∧ Mentions d arg
      · rw [if_pos ⟨hc.1, hd.2 hc.2⟩] at h
        obtain ⟨i1, i2, i3, i4⟩ := ih .dependent h (by simp)
        refine ⟨fun e => ?_, fun e => ?_, fun e => ?_, fun e => ?_⟩
        · exact absurd (i1 e).1 (by simp)
        · refine ⟨?_, .inr ⟨hc.1, _, List.mem_cons_self .., hc.2⟩⟩
          intro a ha
          rcases List.mem_cons.1 ha with rfl | ha
          · exact hm
          · exact (i2 e).1 a ha
        · refine ⟨?_, ?_⟩
          · intro a ha hma
            rcases List.mem_cons.1 ha with rfl | ha
            · exact absurd hma hm
            · exact (i3 e).1 a ha hma
          · rcases (i3 e).2 with h' | ⟨a, ha, h'⟩
            · exact absurd h' (by simp)
            · exact .inr ⟨a, List.mem_cons_of_mem _ ha, h'⟩
        · obtain ⟨a, ha, h1, h2⟩ := i4 e
          exact ⟨a, List.mem_cons_of_mem _ ha, h1, h2⟩
      · rw [if_neg fun h' => hc ⟨h'.1, hd.1 h'.2⟩] at h
        obtain ⟨i1, i2, i3, i4⟩ := ih lt h hlt
        refine ⟨fun e => ?_, fun e => ?_, fun e => ?_, fun e => ?_⟩
        · refine ⟨(i1 e).1, ?_⟩
          intro a ha d hd'
          rcases List.mem_cons.1 ha with rfl | ha
          · intro hmd
            rcases List.mem_cons.1 hd' with rfl | hd'
            · exact hm hmd
            · by_cases h' : d = idim
              · subst h'; exact hm hmd
              · exact hc ⟨(i1 e).1, d, hd', h', hmd⟩
          · exact (i1 e).2 a ha d hd'
        · refine ⟨?_, ?_⟩
          · intro a ha
            rcases List.mem_cons.1 ha with rfl | ha
            · exact hm
            · exact (i2 e).1 a ha
          · rcases (i2 e).2 with h' | ⟨h', a, ha, h''⟩
            · exact .inl h'
            · exact .inr ⟨h', a, List.mem_cons_of_mem _ ha, h''⟩
        · refine ⟨?_, ?_⟩
          · intro a ha hma
            rcases List.mem_cons.1 ha with rfl | ha
            · exact absurd hma hm
            · exact (i3 e).1 a ha hma
          · rcases (i3 e).2 with h' | ⟨a, ha, h'⟩
            · exact .inl h'
            · exact .inr ⟨a, List.mem_cons_of_mem _ ha, h'⟩
        · obtain ⟨a, ha, h1, h2⟩ := i4 e
          exact ⟨a, List.mem_cons_of_mem _ ha, h1, h2⟩

end Yask.LoopDep
