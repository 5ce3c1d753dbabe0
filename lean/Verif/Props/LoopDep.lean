import Verif.Compiler.LoopDepLemmas

/-!
# C94: values read before the loops of the generated code are those that the equations name at every point

Points of a var are args with the dims of the var.  The element that a point names is its var and the values of its args.
-/

namespace Yask
open LoopDep
open Comp (NExpr)

section
variable {n : Nat} (dom : List String) (idim : String) (args : List (String × NExpr (Pt n)))

/-- The kinds that the analysis finds: whether args mention domain indices, and whether they mention the one of the
inner loop. -/
theorem C94_kinds (hi : idim ∈ dom) (r : Dep) (h : dep dom idim args = .ok r) :
    (r = .invariant ↔ ∀ a ∈ args, ∀ d ∈ dom, ¬ Mentions d a.2) ∧
    (r = .dependent ↔ (∃ a ∈ args, ∃ d ∈ dom, Mentions d a.2) ∧ ∀ a ∈ args, ¬ Mentions idim a.2) ∧
    (r = .offset ∨ r = .complex ↔ ∃ a ∈ args, Mentions idim a.2) := by
  obtain ⟨h1, h2, h3, h4⟩ := depLoop_spec dom idim args .invariant r h (by simp)
  cases r with
  | invariant =>
    have := (h1 rfl).2
    refine ⟨⟨fun _ a ha d hd => this a ha d (List.mem_cons_of_mem _ hd), fun _ => rfl⟩, ⟨by simp, ?_⟩, ⟨by simp, ?_⟩⟩
    · rintro ⟨⟨a, ha, d, hd, hm⟩, _⟩
      exact absurd hm (this a ha d (List.mem_cons_of_mem _ hd))
    · rintro ⟨a, ha, hm⟩
      exact absurd hm (this a ha idim (List.mem_cons_self ..))
  | dependent =>
    obtain ⟨h5, h6⟩ := h2 rfl
    obtain ⟨a, ha, d, hd, _, hm⟩ : ∃ a ∈ args, ∃ d ∈ dom, d ≠ idim ∧ Mentions d a.2 := by
      rcases h6 with h6 | h6
      · cases h6
      · exact h6.2
    refine ⟨⟨by simp, fun h => absurd hm (h a ha d hd)⟩, ⟨fun _ => ⟨⟨a, ha, d, hd, hm⟩, h5⟩, fun _ => rfl⟩, ⟨by simp, ?_⟩⟩
    rintro ⟨a, ha, hm⟩
    exact absurd hm (h5 a ha)
  | offset =>
    obtain ⟨a, ha, hm⟩ : ∃ a ∈ args, Mentions idim a.2 := by
      rcases (h3 rfl).2 with h6 | h6
      · cases h6
      · exact h6
    exact ⟨⟨by simp, fun h => absurd hm (h a ha idim hi)⟩, ⟨by simp, fun h => absurd hm (h.2 a ha)⟩,
      ⟨fun _ => ⟨a, ha, hm⟩, fun _ => .inl rfl⟩⟩
  | complex =>
    obtain ⟨a, ha, hm, _⟩ := h4 rfl
    exact ⟨⟨by simp, fun h => absurd hm (h a ha idim hi)⟩, ⟨by simp, fun h => absurd hm (h.2 a ha)⟩,
      ⟨fun _ => ⟨a, ha, hm⟩, fun _ => .inr rfl⟩⟩

/-- A point found to be invariant names the same element at all points of the domain. -/
theorem C94_invariant (w : World) (i j : String → ℚ) (hij : SameBut dom i j) (hc : ∀ a ∈ args, ¬ HasCode a.2)
    (h : dep dom idim args = .ok .invariant) :
    args.map (fun a => argVal w i a.2) = args.map (fun a => argVal w j a.2) := by
  have h1 := ((depLoop_spec dom idim args .invariant _ h (by simp)).1 rfl).2
  refine List.map_congr_left fun a ha => argVal_same w i j a.2 (fun d hd => hij d ?_) (hc a ha)
  exact fun hm => h1 a ha d (List.mem_cons_of_mem _ hm) hd

/-- A point found not to depend on the inner-loop dim names the same element in all iterations of the inner loop. -/
theorem C94_dependent (w : World) (i j : String → ℚ) (hij : SameBut [idim] i j) (hc : ∀ a ∈ args, ¬ HasCode a.2)
    (h : dep dom idim args = .ok .dependent) :
    args.map (fun a => argVal w i a.2) = args.map (fun a => argVal w j a.2) := by
  have h1 := ((depLoop_spec dom idim args .invariant _ h (by simp)).2.1 rfl).1
  refine List.map_congr_left fun a ha => argVal_same w i j a.2 (fun d hd => hij d ?_) (hc a ha)
  rw [List.mem_singleton]
  rintro rfl
  exact h1 a ha hd

/-- A point found to be an offset in the inner loop: from iteration to iteration, the element named moves in the
inner-loop dim as the loop does, and in no other dim. -/
theorem C94_offset (w : World) (i j : String → ℚ) (hij : SameBut [idim] i j) (hc : ∀ a ∈ args, ¬ HasCode a.2)
    (hn : (args.map Prod.fst).Nodup) (h : dep dom idim args = .ok .offset) :
    idim ∈ args.map Prod.fst ∧
      ∀ a ∈ args, argVal w j a.2 - argVal w i a.2 = if a.1 = idim then j idim - i idim else 0 := by
  obtain ⟨h1, h2⟩ := (depLoop_spec dom idim args .invariant _ h (by simp)).2.2.1 rfl
  obtain ⟨b, hb, hm⟩ : ∃ a ∈ args, Mentions idim a.2 := by
    rcases h2 with h2 | h2
    · cases h2
    · exact h2
  obtain ⟨hb1, o, ho⟩ := h1 b hb hm
  refine ⟨List.mem_map.2 ⟨b, hb, hb1⟩, fun a ha => ?_⟩
  by_cases e : a.1 = idim
  · have : a = b := List.inj_on_of_nodup_map hn ha hb (e.trans hb1.symm)
    subst this
    rw [if_pos e, argVal_offset w j a.2 idim o ho, argVal_offset w i a.2 idim o ho]
    ring
  · rw [if_neg e, sub_eq_zero]
    refine (argVal_same w i j a.2 (fun d hd => hij d ?_) (hc a ha)).symm
    rw [List.mem_singleton]
    rintro rfl
    exact e (h1 a ha hd).1

/-- What the generated code reads of a point at indices `j` in its loops, after it may have loaded the point before the
loops, at indices `i`, from memory `m₀`: the element that the equation names at `j`, if it has not changed since then. -/
theorem C94_read {K : Type} (w : World) (i j : String → ℚ) (hij : SameBut dom i j) (hc : ∀ a ∈ args, ¬ HasCode a.2)
    (m₀ m : List ℚ → K)
    (hm : m₀ (args.map fun a => argVal w j a.2) = m (args.map fun a => argVal w j a.2)) :
    readInLoop (preload dom idim args (m₀ (args.map fun a => argVal w i a.2))) (m (args.map fun a => argVal w j a.2)) =
      m (args.map fun a => argVal w j a.2) := by
  unfold preload
  split
  · next h => rw [C94_invariant dom idim args w i j hij hc h, hm]; rfl
  · rfl

/-- Exactly the points that mention no domain index are loaded once, before the loops. -/
theorem C94_loaded_once {K : Type} (hi : idim ∈ dom) (r : Dep) (h : dep dom idim args = .ok r) (now : K) :
    preload dom idim args now = some now ↔ ∀ a ∈ args, ∀ d ∈ dom, ¬ Mentions d a.2 := by
  rw [← (C94_kinds dom idim args hi r h).1]
  unfold preload
  rw [h]
  cases r <;> simp

end

/-! ### Examples: dims `t`, `x` and `y`, inner-loop dim `y` -/

private abbrev ex0 (d : String) (ty : Comp.IndexType) : NExpr (Pt 1) := .index d ty

/-- `c(t, 3)`: invariant. -/
example : dep ["x", "y"] "y" [("t", ex0 "t" .step), ("k", .const 3)] = .ok .invariant := by decide +kernel
/-- `c(t, x + 1)`: the same in the inner loop. -/
example : dep ["x", "y"] "y" [("t", ex0 "t" .step), ("x", .comm .add [ex0 "x" .domain, .const 1])] = .ok .dependent := by
  decide +kernel
/-- `u(t, y - 2, x)`: an offset in the inner loop. -/
example : dep ["x", "y"] "y" [("t", ex0 "t" .step), ("y", .bin .sub (ex0 "y" .domain) (.const 2)), ("x", ex0 "x" .domain)] =
    .ok .offset := by decide +kernel
/-- `u(t, x, y * 2)`, and `u(t, y, y)`: complex. -/
example : dep ["x", "y"] "y" [("t", ex0 "t" .step), ("x", ex0 "x" .domain), ("y", .comm .mult [ex0 "y" .domain, .const 2])] =
      .ok .complex ∧
    dep ["x", "y"] "y" [("t", ex0 "t" .step), ("x", ex0 "y" .domain), ("y", ex0 "y" .domain)] = .ok .complex := by
  decide +kernel
/-- `c(k(x))` depends on `x` through the point in its arg. -/
example : dep (n := 1) ["x", "y"] "y" [("m", .point ("k", [.index "x" .domain]))] = .ok .dependent := by decide +kernel
/-- The args of these examples have no code in them. -/
example : ¬ HasCode (ex0 "x" .domain) := by rintro ⟨s, h⟩; cases h
/-- Code is not looked into: an arg with the text `x` would be taken for invariant, hence the premise on code. -/
example : dep (n := 0) ["x"] "x" [("x", .code "x")] = .ok .invariant := by decide +kernel

end Yask
