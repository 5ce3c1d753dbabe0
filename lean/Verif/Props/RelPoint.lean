import Verif.Compiler.RelPointLemmas
import Verif.Props.Expr

/-!
# C96: the points made by `new_var_point()` and `new_relative_var_point()` name the elements asked for
-/

namespace Yask
open Comp

variable {π : Type} [DecidableEq π]

/-- `new_relative_var_point()` throws exactly if the number of offsets is not that of the dims or the var has a misc dim. -/
theorem C96_throws (v : EqVar) (ofs : List ℤ) : (newRelPoint v ofs : Outcome (CPt π)) = .throws ↔
    v.dims.length ≠ ofs.length ∨ ∃ g ∈ v.dims, g.2 = .misc := by
  obtain ⟨q, hq⟩ := newPoint_index (π := π) v
  unfold newRelPoint
  by_cases h1 : v.dims.length ≠ ofs.length
  · rw [if_pos h1]; exact ⟨fun _ => .inl h1, fun _ => rfl⟩
  · rw [if_neg h1]
    by_cases h2 : (v.dims.any fun g => decide (g.2 = .misc)) = true
    · rw [if_pos h2]
      refine ⟨fun _ => .inr ?_, fun _ => rfl⟩
      obtain ⟨g, hg, h⟩ := List.any_eq_true.1 h2
      exact ⟨g, hg, of_decide_eq_true h⟩
    · rw [if_neg h2, hq, Outcome.bind_ok]
      constructor
      · intro h
        split at h <;> cases h
      · rintro (h | ⟨g, hg, h⟩)
        · exact absurd h h1
        · exact absurd (List.any_eq_true.2 ⟨g, hg, decide_eq_true h⟩) h2

/-- It has no other result than a point or an exception, unless an offset is the least `int`. -/
theorem C96_undefined (v : EqVar) (ofs : List ℤ) : (newRelPoint v ofs : Outcome (CPt π)) = .undefined →
    -2147483648 ∈ ofs := by
  obtain ⟨q, hq⟩ := newPoint_index (π := π) v
  unfold newRelPoint
  intro h
  split_ifs at h with h1 h2 h3
  · obtain ⟨k, hk, e⟩ := List.any_eq_true.1 h3
    exact of_decide_eq_true e ▸ hk
  · rw [hq] at h
    cases h

omit [DecidableEq π] in
/-- The value of the arg that is made for an offset. -/
theorem Comp.normOffset_val {I : Interp π ℚ} (hI : I.Usual) (d : String) (ty : IndexType) (k : ℤ) :
    (normOffset d ty k : NExpr π).val I = I.index d ty + k := by
  unfold normOffset
  split_ifs with h1 h2
  · rw [NExpr.val_comm]; simp [NExpr.val, hI.const]
  · simp [NExpr.val, hI.const]
  · have : k = 0 := by omega
    subst this
    simp [NExpr.val]

/-- In a var whose dims have different names, the point that `new_relative_var_point()` makes is in this var, and its index in each
dim is the index of the point where the equation is evaluated plus the offset given for this dim. -/
theorem C96_relative {I : Interp π ℚ} (hI : I.Usual) (v : EqVar) (hnd : (v.dims.map Prod.fst).Nodup) (ofs : List ℤ) (p : CPt π)
    (h : newRelPoint v ofs = .ok p) : p.var = v ∧
    p.args.map (fun a => a.val I) = List.zipWith (fun g (k : ℤ) => I.index g.1 g.2 + (k : ℚ)) v.dims ofs ∧ p.args.length = v.dims.length := by
  have hnt : (newRelPoint v ofs : Outcome (CPt π)) ≠ .throws := by rw [h]; intro h; cases h
  rw [Ne, C96_throws, not_or] at hnt
  have hl : v.dims.length = ofs.length := not_not.1 hnt.1
  have hmin : -2147483648 ∉ ofs := by
    intro hm
    obtain ⟨q, hq⟩ := newPoint_index (π := π) v
    unfold newRelPoint at h
    split_ifs at h with _ _ h3
    · rw [hq] at h
      cases h
    · exact h3 (List.any_eq_true.2 ⟨_, hm, decide_eq_true rfl⟩)
  obtain ⟨q, h1, h2, h3, _⟩ := newRelPoint_ok (π := π) hnd hl (fun g hg e => hnt.2 ⟨g, hg, e⟩) hmin
  rw [h] at h1
  cases h1
  refine ⟨h2, ?_, by rw [h3]; simp [hl]⟩
  rw [h3, List.map_zipWith]
  congr 1
  funext g k
  exact normOffset_val hI _ _ _

/-- The same point is made if each index is written out as `d`, `d + k`, `k + d` or `d - k`: the same args, and the same offsets and
constants are recorded for the analysis of dependences and of vectors. -/
theorem C96_written (v : EqVar) (hnd : (v.dims.map Prod.fst).Nodup) (hty : ∀ g ∈ v.dims, g.2 = .step ∨ g.2 = .domain)
    (ofs : List ℤ) (args : List (NExpr π)) (hl : v.dims.length = ofs.length) (hl' : v.dims.length = args.length)
    (hw : ∀ (i : Nat) (g : String × IndexType) (k : ℤ) (a : NExpr π), v.dims[i]? = some g → ofs[i]? = some k → args[i]? = some a →
      PlainOffset g.1 g.2 k a) :
    ∃ p q : CPt π, newVarPoint v args = .ok p ∧ newRelPoint v ofs = .ok q ∧ p.var = q.var ∧ p.args = q.args ∧
      ∀ d, p.offsets.lookup d = q.offsets.lookup d ∧ p.consts.lookup d = q.consts.lookup d := by
  have hm : ∀ g ∈ v.dims, g.2 ≠ .misc := fun g hg e => by rcases hty g hg with h | h <;> rw [h] at e <;> cases e
  have hthree : ∀ (i : Nat) (g : String × IndexType), v.dims[i]? = some g → ∃ k a, ofs[i]? = some k ∧ args[i]? = some a := by
    intro i g hg
    have hi := (List.getElem?_eq_some_iff.1 hg).1
    exact ⟨ofs[i], args[i], List.getElem?_eq_getElem (by omega), List.getElem?_eq_getElem (by omega)⟩
  have hmin : -2147483648 ∉ ofs := by
    intro hmem
    obtain ⟨i, hi, e⟩ := List.getElem_of_mem hmem
    have := (hw i v.dims[i] _ args[i] (List.getElem?_eq_getElem (by omega)) (List.getElem?_eq_getElem hi)
      (List.getElem?_eq_getElem (by omega))).1
    rw [e] at this
    unfold SmallInt at this
    omega
  obtain ⟨q, q1, q2, q3, q4, q5⟩ := newRelPoint_ok (π := π) hnd hl hm hmin
  have hkind : ∀ (i : Nat) (g : String × IndexType) (k : ℤ) (a : NExpr π), v.dims[i]? = some g → ofs[i]? = some k → args[i]? = some a →
      argKind g.1 a = .ok (.offset k) := fun i g k a h1 h2 h3 =>
    plainOffset_kind (hty g (List.mem_of_getElem? h1)) (hw i g k a h1 h2 h3)
  obtain ⟨p, hp⟩ := newPoint_exists (v := v) (args := args) hl'.symm (by
    intro x hx
    obtain ⟨i, hi⟩ := List.getElem?_of_mem hx
    rw [List.getElem?_zip_eq_some] at hi
    obtain ⟨k, a, h1, h2⟩ := hthree i x.1 hi.1
    rw [hi.2] at h2
    cases h2
    exact ⟨_, hkind i x.1 k x.2 hi.1 h1 hi.2⟩)
  have hb := newPoint_ok hnd hp
  have hat : ∀ (i : Nat) (g : String × IndexType) (k : ℤ), v.dims[i]? = some g → ofs[i]? = some k →
      p.args[i]? = some (normOffset g.1 g.2 k) ∧ p.offsets.lookup g.1 = some k ∧ p.consts.lookup g.1 = none := by
    intro i g k h1 h2
    obtain ⟨_, a, _, h3⟩ := hthree i g h1
    obtain ⟨k', e1, e2, e3, e4⟩ := hb.at_ i g.1 g.2 a h1 h3
    rw [hkind i g k a h1 h2 h3] at e1
    cases e1
    have := hm g (List.mem_of_getElem? h1)
    simp only [outArg, outOfs, outConst, if_neg this] at e2 e3 e4
    exact ⟨e2, e3, e4⟩
  refine ⟨p, q, ?_, q1, by rw [hb.var, q2], ?_, fun d => ?_⟩
  · unfold newVarPoint
    rw [if_neg (by simp [hl']), hp]
  · apply List.ext_getElem?
    intro i
    rw [q3]
    by_cases hi : i < v.dims.length
    · rw [(hat i v.dims[i] ofs[i] (List.getElem?_eq_getElem hi) (List.getElem?_eq_getElem (by omega))).1,
        List.getElem?_zipWith, List.getElem?_eq_getElem hi, List.getElem?_eq_getElem (show i < ofs.length by omega)]
    · rw [List.getElem?_eq_none (by rw [hb.len']; omega), List.getElem?_eq_none (by simp; omega)]
  · by_cases hd : d ∈ v.dims.map Prod.fst
    · obtain ⟨g, hg, rfl⟩ := List.mem_map.1 hd
      obtain ⟨i, hi⟩ := List.getElem?_of_mem hg
      obtain ⟨k, _, h1, _⟩ := hthree i g hi
      obtain ⟨_, e1, e2⟩ := hat i g k hi h1
      obtain ⟨f1, f2⟩ := q5 i g k hi h1
      exact ⟨by rw [e1, f1], by rw [e2, f2]⟩
    · obtain ⟨e1, e2⟩ := newPoint_none hnd hp d hd
      obtain ⟨f1, f2⟩ := q4 d hd
      exact ⟨by rw [e1, f1], by rw [e2, f2]⟩

/-- In a var whose dims have different names, a point made by `new_var_point()` has in each dim an index with the same value as the
expression given, wherever it is evaluated. -/
theorem C96_point {I : Interp π ℚ} (hI : I.Usual) (hx : ∀ d, I.index d .step = I.index d .domain) (v : EqVar)
    (hnd : (v.dims.map Prod.fst).Nodup) (hty : ∀ g ∈ v.dims, g.2 = .step ∨ g.2 = .domain ∨ g.2 = .misc) (args : List (NExpr π))
    (p : CPt π) (h : newVarPoint v args = .ok p) : p.var = v ∧ p.args.map (fun a => a.val I) = args.map fun a => a.val I := by
  unfold newVarPoint at h
  split_ifs at h with hl
  have hb := newPoint_ok hnd h
  refine ⟨hb.var, List.ext_getElem? fun i => ?_⟩
  rw [List.getElem?_map, List.getElem?_map]
  by_cases hi : i < v.dims.length
  · have hi' : i < args.length := by rw [← hb.len]; exact hi
    obtain ⟨k, h1, h2, _⟩ := hb.at_ i v.dims[i].1 v.dims[i].2 args[i] (List.getElem?_eq_getElem hi) (List.getElem?_eq_getElem hi')
    rw [h2, List.getElem?_eq_getElem hi', Option.map_some, Option.map_some, Option.some.injEq]
    cases k with
    | const c =>
      rw [C51_const hI _ _ c h1]
      simp [outArg, NExpr.val, hI.const]
    | offset o =>
      unfold outArg
      simp only
      split_ifs with hm
      · rfl
      · rw [C51_offset hI _ _ (hx _) rfl _ o h1, normOffset_val hI]
        rcases hty _ (List.getElem_mem hi) with e | e | e
        · rw [e, hx]
        · rw [e]
        · exact absurd e hm
    | other => rfl
  · rw [List.getElem?_eq_none (by rw [hb.len', ← hb.len]; omega), List.getElem?_eq_none (by rw [← hb.len]; omega)]

namespace RelPointExample

def A : EqVar := ⟨"A", false, [("t", .step), ("x", .domain), ("y", .domain)]⟩

/-- A var with a dim given twice, which `new_var()` accepts. -/
def B : EqVar := ⟨"B", false, [("x", .domain), ("x", .domain)]⟩

end RelPointExample

open RelPointExample in
/-- If a dim is given twice, the point is another one: with offsets 1 and 2 the indices are `x + 2` and `x`; and for `x + 1` and `x + 2`
they are `x + 2` and `x + 2`. -/
theorem C96_repeated_dim {I : Interp π ℚ} (hI : I.Usual) : (∃ p : CPt π, newRelPoint B [1, 2] = .ok p ∧
      p.args.map (fun a => a.val I) = [I.index "x" .domain + 2, I.index "x" .domain]) ∧
    ∃ p : CPt π, newVarPoint B [.comm .add [.index "x" .domain, .const 1], .comm .add [.index "x" .domain, .const 2]] = .ok p ∧
      p.args.map (fun a => a.val I) = [I.index "x" .domain + 2, I.index "x" .domain + 2] := by
  refine ⟨⟨⟨B, [normOffset "x" .domain 2, .index "x" .domain], [("x", 2)], []⟩, rfl, ?_⟩,
    ⟨⟨B, [normOffset "x" .domain 2, .comm .add [.index "x" .domain, .const 2]], [("x", 2)], []⟩, ?_, ?_⟩⟩
  · simp only [List.map_cons, List.map_nil, normOffset_val hI]
    simp [NExpr.val]
  · have k1 : argKind (π := π) "x" (.comm .add [.index "x" .domain, .const 1]) = .ok (.offset 1) :=
      plainOffset_kind (ty := .domain) (.inr rfl) ⟨by unfold SmallInt; decide, .inr (.inl (by norm_num))⟩
    have k2 : argKind (π := π) "x" (.comm .add [.index "x" .domain, .const 2]) = .ok (.offset 2) :=
      plainOffset_kind (ty := .domain) (.inr rfl) ⟨by unfold SmallInt; decide, .inr (.inl (by norm_num))⟩
    unfold newVarPoint newPoint
    rw [if_neg (by simp [B]), if_neg (by simp [B])]
    simp only [B, List.zip_cons_cons, List.zip_nil_right, List.foldlM_cons, List.foldlM_nil, ctorArg, k1, k2, Outcome.bind_ok]
    rfl
  · simp only [List.map_cons, List.map_nil, normOffset_val hI, NExpr.val_comm]
    simp [NExpr.val, hI.const]

open RelPointExample in
/-- The offsets 1, -3 and 0. -/
example : ∃ p : CPt String, newRelPoint A [1, -3, 0] = .ok p ∧ p.offsets = [("t", 1), ("x", -3), ("y", 0)] := ⟨_, rfl, rfl⟩

open RelPointExample in
/-- The hypotheses on the dims hold, and `A(t + 1, x - 3, y)` is such a way to write it. -/
example : (A.dims.map Prod.fst).Nodup ∧ (∀ g ∈ A.dims, g.2 = .step ∨ g.2 = .domain) ∧
    PlainOffset (π := String) "t" .step 1 (.comm .add [.index "t" .step, .const (1 : ℤ)]) ∧
    PlainOffset (π := String) "x" .domain (-3) (.bin .sub (.index "x" .domain) (.const (3 : ℤ))) ∧
    PlainOffset (π := String) "y" .domain 0 (.index "y" .domain) := by
  refine ⟨by decide, by decide, ⟨by unfold SmallInt; decide, .inr (.inl rfl)⟩, ⟨by unfold SmallInt; decide, .inr (.inr (.inr rfl))⟩,
    ⟨by unfold SmallInt; decide, .inl ⟨rfl, rfl⟩⟩⟩

end Yask
