import Verif.Var.SizeGetLemmas
import Verif.Props.Calls
import Verif.Props.VarAccess

/-!
# C97: the functions that report sizes agree with each other
-/

namespace Yask
open Var

/-- As many names as dims, and no name twice. -/
structure Var.NamedVar.Named (v : NamedVar) : Prop where
  len : v.g.dims.length = v.names.length
  nodup : v.names.Nodup

/-- The dims for which a function is documented (`include/aux/yk_var_api.hpp`), by their names: all for the sizes and indices of the
allocation, misc dims for the misc indices, and domain dims for all others. The step dim is neither a domain dim nor a misc dim. -/
def Spec.Meant (D : SolnDims) : SizeGet → String → Prop
  | .allocSize, _ | .firstLocal, _ | .lastLocal, _ => True
  | .firstMisc, n | .lastMisc, n => n ≠ D.step ∧ n ∉ D.domain
  | _, n => n ≠ D.step ∧ n ∈ D.domain

theorem okKind_meant (D : SolnDims) (f : SizeGet) (n : String) : f.okKind (D.kind n) = true ↔ Spec.Meant D f n := by
  unfold SolnDims.kind
  by_cases h1 : n = D.step
  · rw [if_pos h1]; cases f <;> simp [SizeGet.okKind, Spec.Meant, h1]
  · rw [if_neg h1]
    by_cases h2 : n ∈ D.domain
    · rw [if_pos h2]; cases f <;> simp [SizeGet.okKind, Spec.Meant, h1, h2]
    · rw [if_neg h2]; cases f <;> simp [SizeGet.okKind, Spec.Meant, h1, h2]

instance (D : SolnDims) (f : SizeGet) : DecidablePred (Spec.Meant D f) := fun n => decidable_of_iff _ (okKind_meant D f n)

/-- The function for a dim returns a value exactly if the var has a dim of this name and this is of a kind for which the function is
meant; the value is then that of the dim at the position of the name, as the function with a position returns it. Missing: vars with a
dim given twice, for which this is false (`C97_repeated_dim`). -/
theorem C97_by_name_partial (v : NamedVar) (hv : v.Named) (f : SizeGet) (dim : String) (x : Int) :
    v.getBy f dim = .ok x ↔ Spec.Meant v.soln f dim ∧ ∃ i : Nat, v.names[i]? = some dim ∧ v.getAt f i = .ok x := by
  rw [← okKind_meant]
  unfold NamedVar.getBy
  rw [checkType_eq]
  by_cases hk : f.okKind (v.soln.kind dim) = true
  · rw [if_pos hk, Outcome.bind_ok]
    cases hf : v.names.findIdx? fun n => decide (n = dim) with
    | none =>
      simp only
      constructor
      · intro h; cases h
      · rintro ⟨_, i, hi, _⟩
        have := List.findIdx?_eq_none_iff.1 hf dim (List.mem_of_getElem? hi)
        simp at this
    | some j =>
      simp only
      obtain ⟨hj, hp, _⟩ := List.findIdx?_eq_some_iff_getElem.1 hf
      have hj' : v.names[j]? = some dim := by rw [List.getElem?_eq_getElem hj, of_decide_eq_true hp]
      constructor
      · exact fun h => ⟨hk, j, hj', h⟩
      · rintro ⟨_, i, hi, h⟩
        have : i = j := by
          have hi' := (List.getElem?_eq_some_iff.1 hi).1
          have := (List.getElem_inj (h₀ := hi') (h₁ := hj) hv.nodup).1 (by
            have a := (List.getElem?_eq_some_iff.1 hi).2
            have b := (List.getElem?_eq_some_iff.1 hj').2
            rw [a, b])
          exact this
        rw [← this]
        exact h
  · rw [if_neg hk]
    constructor
    · intro h; cases h
    · rintro ⟨h, _⟩; exact absurd h hk

/-- Otherwise it throws. This holds also for a dim given twice. -/
theorem C97_by_name_throws (v : NamedVar) (f : SizeGet) (dim : String) :
    v.getBy f dim = .throws ↔ ¬ Spec.Meant v.soln f dim ∨ dim ∉ v.names := by
  rw [← okKind_meant, Bool.not_eq_true]
  unfold NamedVar.getBy
  rw [checkType_eq]
  by_cases hk : f.okKind (v.soln.kind dim) = true
  · rw [if_pos hk, Outcome.bind_ok]
    cases hf : v.names.findIdx? fun n => decide (n = dim) with
    | none =>
      refine ⟨fun _ => .inr fun hm => ?_, fun _ => rfl⟩
      have := List.findIdx?_eq_none_iff.1 hf dim hm
      simp at this
    | some j =>
      simp only
      obtain ⟨hj, hp, _⟩ := List.findIdx?_eq_some_iff_getElem.1 hf
      constructor
      · intro h
        unfold NamedVar.getAt at h
        split at h <;> cases h
      · rintro (h | h)
        · rw [hk] at h; cases h
        · exact absurd (of_decide_eq_true hp ▸ List.getElem_mem hj) h
  · rw [if_neg hk]
    exact ⟨fun _ => .inl (by simpa using hk), fun _ => rfl⟩

/-- The function for all dims returns the values for the dims of the kinds for which the function is meant, in the order of the dims
of the var, each as the function with a name returns it. Missing: vars with a dim given twice (`C97_repeated_dim`). -/
theorem C97_vec_partial (v : NamedVar) (hv : v.Named) (f : SizeGet) : ∃ r, v.getVec f = .ok r ∧
    List.Forall₂ (fun n x => v.getBy f n = .ok x) (v.names.filter fun n => Spec.Meant v.soln f n) r := by
  have hm : (fun n => decide (Spec.Meant v.soln f n)) = fun n => f.okKind (v.soln.kind n) := by
    funext n
    rw [Bool.eq_iff_iff, decide_eq_true_eq, okKind_meant]
  rw [hm]
  refine ⟨_, getVec_eq v f hv.len, ?_⟩
  have key : ∀ (ns : List String) (ds : List DimG), ds.length = ns.length →
      (∀ x ∈ ns.zip ds, f.okKind (v.soln.kind x.1) = true → v.getBy f x.1 = .ok (f.expr x.2)) →
      List.Forall₂ (fun n x => v.getBy f n = .ok x) (ns.filter fun n => f.okKind (v.soln.kind n))
        (((ns.zip ds).filter fun x => f.okKind (v.soln.kind x.1)).map fun x => f.expr x.2) := by
    intro ns
    induction ns with
    | nil => intro ds _ _; simp
    | cons n ns ih =>
      intro ds hl h
      cases ds with
      | nil => simp at hl
      | cons d ds =>
        have hi := ih ds (by simpa using hl) (fun x hx => h x (by rw [List.zip_cons_cons]; exact List.mem_cons_of_mem _ hx))
        rw [List.zip_cons_cons]
        by_cases hk : f.okKind (v.soln.kind n) = true
        · rw [List.filter_cons_of_pos (by exact hk), List.filter_cons_of_pos (by exact hk), List.map_cons]
          exact .cons (h (n, d) (by simp) hk) hi
        · rw [List.filter_cons_of_neg (by exact hk), List.filter_cons_of_neg (by exact hk)]
          exact hi
  apply key v.names v.g.dims hv.len
  intro x hx hk
  rw [C97_by_name_partial v hv]
  obtain ⟨i, hi⟩ := List.getElem?_of_mem hx
  rw [List.getElem?_zip_eq_some] at hi
  refine ⟨(okKind_meant _ _ _).1 hk, i, hi.1, ?_⟩
  unfold NamedVar.getAt
  rw [hi.2]

/-- The relations between the values for a dim, for every var that calls can make: `last - first + 1` is the size, for the allocation,
the rank domain and misc dims; the halos and the pads are what is between the indices. -/
theorem C97_relations {V : Type} (v : YVar V) (hr : Reachable v) (d : DimG) (hd : d ∈ v.g.dims) :
    SizeGet.expr d .allocSize = SizeGet.expr d .lastLocal - SizeGet.expr d .firstLocal + 1 ∧
    SizeGet.expr d .rankSize = SizeGet.expr d .lastRank - SizeGet.expr d .firstRank + 1 ∧
    SizeGet.expr d .leftHalo = SizeGet.expr d .firstRank - SizeGet.expr d .firstHalo ∧
    SizeGet.expr d .rightHalo = SizeGet.expr d .lastHalo - SizeGet.expr d .lastRank ∧
    SizeGet.expr d .leftPad = SizeGet.expr d .leftHalo + SizeGet.expr d .leftExtraPad ∧
    SizeGet.expr d .rightPad = SizeGet.expr d .rightHalo + SizeGet.expr d .rightExtraPad ∧
    (d.kind = .misc → SizeGet.expr d .firstMisc = SizeGet.expr d .firstLocal ∧ SizeGet.expr d .lastMisc = SizeGet.expr d .lastLocal) ∧
    (d.kind = .domain → 0 ≤ SizeGet.expr d .leftExtraPad ∧ 0 ≤ SizeGet.expr d .rightExtraPad) := by
  have h := hr.ok.dims d hd
  have ha := h.alloc_eq
  simp only [SizeGet.expr]
  refine ⟨by omega, by omega, by omega, by omega, by omega, by omega, fun hm => ?_, fun hm => ?_⟩
  · have h1 := (h.nd_halo (by rw [hm]; decide)).2.2.2.2
    have h2 := h.nd_pad (by rw [hm]; decide)
    omega
  · have h1 := (h.lpad hm).1
    have h2 := (h.rpad hm).1
    have h3 := h.set_ok
    unfold DimG.settingsOk at h3
    simp only [Bool.and_eq_true, decide_eq_true_eq] at h3
    omega

/-- The functions for the step dim, as documented: they return the first and last local index in the step dim, or throw if the var has
no step dim. -/
theorem C97_steps {V : Type} (D : SolnDims) (names : List String) (v : YVar V) (hr : Reachable v)
    (hlen : v.g.dims.length = names.length)
    (hk : v.g.dims.map (·.kind) = names.map fun n => if n = D.step then DimKind.step else if n ∈ D.domain then .domain else .misc)
    (hfirst : D.step ∉ names.tail) :
    v.g.firstValidStep = (⟨D, names, v.g⟩ : NamedVar).getBy .firstLocal D.step ∧
    v.g.lastValidStep = (⟨D, names, v.g⟩ : NamedVar).getBy .lastLocal D.step := by
  have hok := hr.ok.dims
  generalize v.g = g at *
  unfold Geom.firstValidStep Geom.lastValidStep NamedVar.getBy
  rw [checkType_eq, checkType_eq]
  rw [if_pos (by rfl), if_pos (by rfl), Outcome.bind_ok, Outcome.bind_ok]
  have hno : ∀ l : List String, D.step ∉ l → (l.findIdx? fun n => decide (n = D.step)) = none := by
    intro l hl
    rw [List.findIdx?_eq_none_iff]
    intro x hx
    simp only [decide_eq_false_iff_not]
    rintro rfl
    exact hl hx
  cases names with
  | nil =>
    have h0 : g.dims = [] := by simpa using hlen
    simp [h0]
  | cons n ns =>
    match hg : g.dims with
    | [] => rw [hg] at hlen; simp at hlen
    | d :: ds =>
      rw [hg] at hk hok
      simp only [List.map_cons, List.cons.injEq] at hk
      simp only [List.findIdx?_cons]
      by_cases hn : n = D.step
      · have hks : d.kind = .step := by rw [hk.1, if_pos hn]
        have h := hok d List.mem_cons_self
        have h1 := (h.nd_halo (by rw [hks]; decide)).2.2.2.2
        have h2 := h.nd_pad (by rw [hks]; decide)
        simp only [hn, decide_true, if_true, NamedVar.getAt, hg, List.getElem?_cons_zero, SizeGet.expr, hks]
        refine ⟨congrArg _ (by omega), congrArg _ (by omega)⟩
      · have hks : d.kind ≠ .step := by
          rw [hk.1, if_neg hn]
          split <;> decide
        have := hno ns hfirst
        simp [hn, hks, this]

namespace SizeGetExample

/-- The var of C90 with names. -/
def var : NamedVar := ⟨⟨"t", ["x", "y", "z"]⟩, ["x", "y"], (callAll (⟨CallsExample.geom0, none⟩ : YVar Int) CallsExample.calls1).g⟩

/-- A var with all three kinds of dims; the misc dim is between the others. -/
def var3 : NamedVar := ⟨⟨"t", ["x", "y", "z"]⟩, ["t", "m", "x"], { CallsExample.geom0 with dims := [
  { kind := .step, domain := 2, alloc := 2 }, { kind := .misc, domain := 5, localOfs := 7, alloc := 5 },
  { kind := .domain, domain := 16, lPad := 4, rPad := 4, lHalo := 3, rHalo := 1, rankOfs := 32, alloc := 24 }] }⟩

end SizeGetExample

open SizeGetExample in
example : var.Named ∧ var.getVec .firstLocal = .ok [-8, -3] ∧ var.getBy .firstLocal "y" = .ok (-3) ∧
    var.getBy .firstLocal "z" = .throws ∧ var.getBy .firstMisc "x" = .throws ∧ var.getVec .firstMisc = .ok [] :=
  ⟨⟨by decide +kernel, by decide⟩, by decide +kernel, by decide +kernel, by decide +kernel, by decide +kernel, by decide +kernel⟩

open SizeGetExample in
example : var3.Named ∧ var3.getVec .firstLocal = .ok [0, 7, 28] ∧ var3.getVec .leftExtraPad = .ok [1] ∧ var3.getVec .lastMisc = .ok [11] ∧
    var3.getBy .lastMisc "m" = .ok 11 ∧ var3.getBy .leftExtraPad "m" = .throws ∧ var3.getAt .leftExtraPad 1 = .ok 0 :=
  ⟨⟨by decide +kernel, by decide⟩, by decide +kernel⟩

example : Reachable (⟨CallsExample.geom0, none⟩ : YVar Int) ∧ CallsExample.geom0.dims.length = 2 :=
  ⟨.construct _ _ CallsExample.constructed CallsExample.resized, by decide +kernel⟩

example : Reachable exVar ∧ (exVar.g.dims.map (·.kind) = ["t", "x", "y", "m"].map fun n =>
      if n = "t" then DimKind.step else if n ∈ ["x", "y"] then .domain else .misc) ∧ exVar.g.lastValidStep = .ok 2 ∧
    (⟨⟨"t", ["x", "y"]⟩, ["t", "x", "y", "m"], exVar.g⟩ : NamedVar).getBy .lastLocal "t" = .ok 2 ∧
    CallsExample.geom0.lastValidStep = .throws :=
  ⟨exVar_reachable, by decide +kernel, by decide +kernel, by decide +kernel, by decide +kernel⟩

/-- `new_var()` of the kernel accepts a dim given twice, because nothing is added to `seen_dims` (`src/kernel/lib/new_var.cpp:65-74`).
Then `get_alloc_size_vec()` returns both sizes, but `get_alloc_size()` returns the first one for both. -/
theorem C97_repeated_dim : ∃ (v : NamedVar) (a b : Int), v.g.dims.length = v.names.length ∧ v.names = ["x", "x"] ∧ a ≠ b ∧
    v.getVec .allocSize = .ok [a, b] ∧ v.getAt .allocSize 1 = .ok b ∧ v.getBy .allocSize "x" = .ok a :=
  ⟨{ SizeGetExample.var with names := ["x", "x"] }, 44, 13, by decide +kernel, rfl, by decide, by decide +kernel, by decide +kernel,
    by decide +kernel⟩

end Yask
