import Verif.Compiler.RegistryLemmas

/-!
# C99: the registry has the stencil solutions that exist
-/

namespace Yask
open Registry Spec

/-- What a program finds is an object that exists and has this name, and each object that exists is found by its name, after any
sequence of creating and deleting objects. -/
theorem C99_found (ops : List Op) (name : String) (obj : Nat) :
    (World.init.run ops).1.find name = .ok (some obj) ↔ ObjExists name obj (World.init.run ops).2 := by
  have hi : Inv _ ([] ++ _) := inv_init.run ops
  rw [List.nil_append] at hi
  generalize World.init.run ops = p at *
  obtain ⟨w, h⟩ := p
  unfold World.find
  constructor
  · intro hf
    cases hr : w.reg name with
    | none => simp [hr] at hf
    | some o =>
      simp only [hr] at hf
      split at hf
      · rename_i hl
        cases hf
        obtain ⟨n, hn⟩ := (hi.live obj).1 hl
        have := hi.inj _ _ _ (hi.created n obj hn.1) hr
        exact this ▸ hn
      · cases hf
  · intro he
    have hr := hi.created name obj he.1
    have hl := (hi.live obj).2 ⟨name, he⟩
    simp only at hr hl ⊢
    rw [hr]
    simp only [hl, if_true]

/-- Two objects that exist never have the same name. -/
theorem C99_unique (ops : List Op) (name : String) (o o' : Nat) (h : ObjExists name o (World.init.run ops).2)
    (h' : ObjExists name o' (World.init.run ops).2) : o = o' := by
  rw [← C99_found] at h h'
  rw [h] at h'
  cases h'
  rfl

/-- If no object is deleted and no constructor of a derived class throws, as in the utility `yask_compiler`: what does not exist is not
found, and creating an object throws exactly if there is one with the name. Missing: other programs, for which this is false
(`C99_deleted`, `C99_unfinished`). -/
theorem C99_not_found_partial (ops : List Op) (hd : ∀ op ∈ ops, ∃ n, op = .create n) (name : String) :
    ((World.init.run ops).1.find name = .ok none ↔ ∀ o, ¬ ObjExists name o (World.init.run ops).2) ∧
    ((World.init.run (ops ++ [.create name])).2 = (World.init.run ops).2 ++ [.refused name] ↔
      ∃ o, ObjExists name o (World.init.run ops).2) := by
  have hi : Inv _ ([] ++ _) := inv_init.run ops
  rw [List.nil_append] at hi
  have hev : ∀ (ops : List Op) (w : World), (∀ op ∈ ops, ∃ n, op = .create n) →
      (∀ o, RegEv.deleted o ∉ (w.run ops).2) ∧ ∀ n, RegEv.unfinished n ∉ (w.run ops).2 := by
    intro ops
    induction ops with
    | nil => intro w _; simp [World.run]
    | cons op ops ih =>
      intro w h
      obtain ⟨n, rfl⟩ := h op List.mem_cons_self
      have := ih (w.step (.create n)).1 fun op ho => h op (List.mem_cons_of_mem _ ho)
      have hs : (∀ o, RegEv.deleted o ∉ (w.step (.create n)).2) ∧ ∀ m, RegEv.unfinished m ∉ (w.step (.create n)).2 := by
        unfold World.step
        simp only
        split <;> simp
      simp only [World.run, List.mem_append, not_or]
      exact ⟨fun o => ⟨hs.1 o, this.1 o⟩, fun m => ⟨hs.2 m, this.2 m⟩⟩
  have he := hev ops World.init hd
  rw [run_append]
  generalize World.init.run ops = p at *
  obtain ⟨w, h⟩ := p
  simp only at hi he ⊢
  have hu : (w.reg name).isSome = true ↔ ∃ o, ObjExists name o h := by
    rw [hi.used]
    constructor
    · rintro (⟨o, ho⟩ | ho)
      · exact ⟨o, ho, he.1 o⟩
      · exact absurd ho (he.2 name)
    · rintro ⟨o, ho⟩; exact .inl ⟨o, ho.1⟩
  constructor
  · rw [← not_exists, ← hu]
    unfold World.find
    cases hr : w.reg name with
    | none => simp
    | some o =>
      simp only
      split <;> simp
  · rw [← hu]
    simp only [World.run, List.append_nil]
    unfold World.step World.construct
    by_cases hs : (w.reg name).isSome = true
    · simp [hs]
    · simp [hs]

/-- Any program: a name that has been used, also by an object that has been deleted or was never finished, is refused for ever. -/
theorem C99_refused (ops : List Op) (name : String) :
    (World.init.run (ops ++ [.create name])).2 = (World.init.run ops).2 ++ [.refused name] ↔
      (∃ o, RegEv.created name o ∈ (World.init.run ops).2) ∨ RegEv.unfinished name ∈ (World.init.run ops).2 := by
  have hi : Inv _ ([] ++ _) := inv_init.run ops
  rw [List.nil_append] at hi
  rw [run_append]
  generalize World.init.run ops = p at *
  obtain ⟨w, h⟩ := p
  simp only at hi ⊢
  rw [← hi.used]
  simp only [World.run, List.append_nil]
  unfold World.step World.construct
  by_cases hs : (w.reg name).isSome = true
  · simp [hs]
  · simp [hs]

/-- A deleted object stays in the registry: using it is undefined, and the name cannot be used again, although the documentation of the
constructor says that it throws if a solution with this name exists. -/
theorem C99_deleted : ∃ (ops : List Op) (name : String), (∀ o, ¬ ObjExists name o (World.init.run ops).2) ∧
    (World.init.run ops).1.find name = .undefined ∧
    (World.init.run (ops ++ [.create name])).2 = (World.init.run ops).2 ++ [.refused name] := by
  refine ⟨[.create "iso3dfd", .delete 0], "iso3dfd", ?_, by decide +kernel, by decide +kernel⟩
  intro o
  have : (World.init.run [.create "iso3dfd", .delete 0]).2 = [.created "iso3dfd" 0, .deleted 0] := by decide +kernel
  rw [this]
  rintro ⟨h1, h2⟩
  simp at h1 h2
  exact h2 h1

/-- The same for an object that never came to exist, because the constructor of its class threw. -/
theorem C99_unfinished : ∃ (ops : List Op) (name : String), (∀ n o, ¬ ObjExists n o (World.init.run ops).2) ∧
    (World.init.run ops).1.find name = .undefined ∧
    (World.init.run (ops ++ [.create name])).2 = (World.init.run ops).2 ++ [.refused name] := by
  refine ⟨[.createThrows "awp"], "awp", ?_, by decide +kernel, by decide +kernel⟩
  intro n o
  have : (World.init.run [.createThrows "awp"]).2 = [.unfinished "awp"] := by decide +kernel
  rw [this]
  rintro ⟨h1, -⟩
  simp at h1

/-- Three objects; the second one with the name of the first is refused. -/
example : (World.init.run [.create "awp", .create "cube", .create "awp", .create "3axis"]).2 =
      [.created "awp" 0, .created "cube" 1, .refused "awp", .created "3axis" 2] ∧
    (World.init.run [.create "awp", .create "cube", .create "awp", .create "3axis"]).1.find "cube" = .ok (some 1) ∧
    (World.init.run [.create "awp", .create "cube", .create "awp", .create "3axis"]).1.find "x" = .ok none :=
  ⟨by decide +kernel, by decide +kernel, by decide +kernel⟩

end Yask
