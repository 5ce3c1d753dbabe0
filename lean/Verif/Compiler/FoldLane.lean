import Verif.Compiler.PtrElem
import Verif.Compiler.VecElemLemmas
import Verif.Spec.LoopSpec

/-! Helper lemmas: lanes of the vectors of a var and points of the fold of the solution. -/

namespace Yask.Comp
open Var Spec

/-- The dims of a var and the fold of the solution: in each domain dim, the var has the vector length of the fold, and the folded dims are
in the same order. -/
structure FoldOf (fold : Tup) (names : List String) (g : Geom) : Prop where
  len : names.length = g.dims.length
  nodup : names.Nodup
  pos : ∀ d ∈ fold.vals, 0 < d
  foldNodup : fold.names.Nodup
  vl : ∀ x ∈ names.zip g.dims, x.2.kind = .domain → x.2.varVL = (fold.q.lookup x.1).getD 1
  other : ∀ x ∈ names.zip g.dims, x.2.kind ≠ .domain → fold.q.lookup x.1 = none
  posns : g.foldPosns.map (names.getD · "") = (fold.q.filter fun s => decide (s.2 ≠ 1)).map Prod.fst
  first : g.foldFirstInner = fold.firstInner

theorem zip_lookup_self : ∀ {ns : List String} {vs : List Int}, ns.Nodup → vs.length = ns.length →
    ns.map (fun n => ((ns.zip vs).lookup n).getD 0) = vs
  | [], [], _, _ => rfl
  | n :: ns, v :: vs, hn, hl => by
    simp only [List.map_cons, List.zip_cons_cons, List.lookup_cons, beq_self_eq_true, Option.getD_some, List.cons.injEq, true_and]
    have h := zip_lookup_self (List.nodup_cons.1 hn).2 (by simpa using hl : vs.length = ns.length)
    refine Eq.trans (List.map_congr_left ?_) h
    intro m hm
    have hne : (m == n) = false := by
      simp only [beq_eq_false_iff_ne]
      rintro rfl
      exact (List.nodup_cons.1 hn).1 hm
    rw [hne]
  | [], _ :: _, _, h => by simp at h
  | _ :: _, [], _, h => by simp at h

theorem linFirst_drop (l : List (Int × Int)) (h : ∀ x ∈ l, x.1 = 1 → x.2 = 0) :
    linFirst ((l.filter fun x => decide (x.1 ≠ 1)).map Prod.fst) ((l.filter fun x => decide (x.1 ≠ 1)).map Prod.snd) =
      linFirst (l.map Prod.fst) (l.map Prod.snd) := by
  induction l with
  | nil => rfl
  | cons a l ih =>
    have ih := ih fun x hx => h x (by simp [hx])
    by_cases ha : a.1 = 1
    · have h1 : decide (a.1 ≠ 1) = false := by simp [ha]
      rw [List.filter_cons_of_neg (by simp [ha]), ih]
      simp only [List.map_cons, linFirst]
      rw [h a (by simp) ha, ha]; simp
    · rw [List.filter_cons_of_pos (by simp [ha])]
      simp only [List.map_cons, linFirst]
      rw [ih]

theorem lin_drop (f : Bool) (l : List (Int × Int)) (h : ∀ x ∈ l, x.1 = 1 → x.2 = 0) :
    lin f ((l.filter fun x => decide (x.1 ≠ 1)).map Prod.fst) ((l.filter fun x => decide (x.1 ≠ 1)).map Prod.snd) =
      lin f (l.map Prod.fst) (l.map Prod.snd) := by
  unfold lin
  cases f with
  | true => exact linFirst_drop l h
  | false =>
    simp only [Bool.false_eq_true, if_false, linLast]
    rw [← List.map_reverse, ← List.map_reverse, ← List.map_reverse, ← List.map_reverse, ← List.filter_reverse]
    exact linFirst_drop l.reverse (by simpa using h)

theorem prod_drop (l : List Int) : prodVals (l.filter fun d => decide (d ≠ 1)) = prodVals l := by
  rw [prodVals_eq, prodVals_eq]
  induction l with
  | nil => rfl
  | cons a l ih =>
    by_cases ha : a = 1
    · rw [List.filter_cons_of_neg (by simp [ha]), ih, List.prod_cons, ha, one_mul]
    · rw [List.filter_cons_of_pos (by simp [ha]), List.prod_cons, List.prod_cons, ih]

theorem map_getD_range {l : List Int} : (List.range l.length).map (fun k => l.getD k 0) = l := by
  apply List.ext_getElem (by simp)
  intro k h1 h2
  simp [List.getD, h2]

theorem layoutPerm_fold (f : Bool) (sizes j : List Int) (h : InSpace sizes j) :
    layoutPerm (if f then (List.range sizes.length).reverse else List.range sizes.length) sizes j = lin f sizes j := by
  have hl := (inSpace_nonneg h).2.2
  cases f with
  | true =>
    simp only [if_true]
    rw [(C13_layout_value _ sizes j (List.reverse_perm _) h).1, List.map_reverse, List.map_reverse, map_getD_range]
    rw [show (List.range sizes.length).map (fun k => j.getD k 0) = j by rw [← hl]; exact map_getD_range]
    simp [lin, linLast]
  | false =>
    simp only [Bool.false_eq_true, if_false]
    rw [(C13_layout_value _ sizes j (List.Perm.refl _) h).1, map_getD_range]
    rw [show (List.range sizes.length).map (fun k => j.getD k 0) = j by rw [← hl]; exact map_getD_range]

section
variable {fold : Tup} {names : List String} {g : Geom}

theorem FoldOf.point_vals (h : FoldOf fold names g) (k : Nat) :
    fold.q.map (fun s => (foldPoint fold k).at s.1) = unlayoutVals fold.firstInner fold.vals k := by
  have hl := (inSpace_nonneg (unlayout_inSpace fold.firstInner fold.vals h.pos k)).2.2
  have h1 := zip_lookup_self (vs := unlayoutVals fold.firstInner fold.vals k) h.foldNodup (by rw [hl]; simp [Tup.vals, Tup.names])
  rw [Tup.names, List.map_map] at h1
  exact h1

theorem FoldOf.point_lookup (h : FoldOf fold names g) (k : Nat) (n : String) :
    (fold.q.lookup n = none ∧ (foldPoint fold k).at n = 0) ∨
      ∃ len, fold.q.lookup n = some len ∧ 0 ≤ (foldPoint fold k).at n ∧ (foldPoint fold k).at n < len := by
  have hs := unlayout_inSpace fold.firstInner fold.vals h.pos k
  rcases zip_lookup fold.q _ hs n with ⟨h1, h2⟩ | ⟨len, v, h1, h2, h3, h4, _⟩
  · refine .inl ⟨h1, ?_⟩
    unfold Loc.at foldPoint Tup.unlayout
    simp only
    rw [show (fold.names.zip (unlayoutVals fold.firstInner fold.vals k)).lookup n = none from h2]; rfl
  · refine .inr ⟨len, h1, ?_⟩
    unfold Loc.at foldPoint Tup.unlayout
    simp only
    rw [show (fold.names.zip (unlayoutVals fold.firstInner fold.vals k)).lookup n = some v from h2]
    exact ⟨h3, h4⟩

/-- Lanes exist. -/
theorem FoldOf.isLane (h : FoldOf fold names g) (k : Nat) : IsLane (g.dims.map accessDim) (names.map (foldPoint fold k).at) := by
  refine ⟨by simp [h.len], ?_⟩
  intro x hx
  obtain ⟨i, hi, rfl⟩ := List.mem_iff_getElem.1 hx
  have hi1 : i < g.dims.length := by simp at hi; omega
  have hi2 : i < names.length := by rw [h.len]; exact hi1
  have hm : (names[i], g.dims[i]) ∈ names.zip g.dims := by
    rw [List.mem_iff_getElem]
    exact ⟨i, by simp; omega, by simp⟩
  have hv := h.vl _ hm
  have ho := h.other _ hm
  have hp := h.point_lookup k names[i]
  simp only [List.getElem_zip, List.getElem_map, accessDim]
  simp only at hv ho
  cases hk : g.dims[i].kind with
  | domain =>
    rw [hv hk]
    rcases hp with ⟨h1, h2⟩ | ⟨len, h1, h2, h3⟩
    · rw [h1, h2]; simp
    · rw [h1]; exact ⟨h2, h3⟩
  | step =>
    have h1 := ho (by rw [hk]; decide)
    rcases hp with ⟨_, h2⟩ | ⟨len, h2, _⟩
    · exact h2
    · rw [h1] at h2; cases h2
  | misc =>
    have h1 := ho (by rw [hk]; decide)
    rcases hp with ⟨_, h2⟩ | ⟨len, h2, _⟩
    · exact h2
    · rw [h1] at h2; cases h2

theorem FoldOf.lens (h : FoldOf fold names g) (hok : g.Ok) : g.foldLens = (fold.q.filter fun s => decide (s.2 ≠ 1)).map Prod.snd := by
  have h1 : ∀ j ∈ g.foldPosns, (g.dims.map DimG.varVL).getD j 0 = (fold.q.lookup (names.getD j "")).getD 1 := by
    intro j hj
    have hj1 := foldPosn_lt hok hj
    have hj2 : j < names.length := by rw [h.len]; exact hj1
    have hm : (names[j], g.dims[j]) ∈ names.zip g.dims := by
      rw [List.mem_iff_getElem]
      exact ⟨j, by simp; omega, by simp⟩
    have hn : names.getD j "" = names[j] := by simp [List.getD, hj2]
    have hf : names[j] ∈ fold.q.map Prod.fst := by
      have : names.getD j "" ∈ g.foldPosns.map (names.getD · "") := List.mem_map_of_mem hj
      rw [h.posns, hn] at this
      obtain ⟨s, hs, hse⟩ := List.mem_map.1 this
      rw [← hse]
      exact List.mem_map_of_mem (List.mem_filter.1 hs).1
    have hd : g.dims[j].kind = .domain := by
      by_contra hc
      exact not_mem_lookup (h.other _ hm hc) hf
    rw [hn]
    have := h.vl _ hm hd
    simp only at this
    rw [← this]
    simp [List.getD, hj1]
  rw [hok.foldLens, List.map_congr_left h1]
  rw [show g.foldPosns.map (fun j => (fold.q.lookup (names.getD j "")).getD 1) =
    (g.foldPosns.map (names.getD · "")).map fun n => (fold.q.lookup n).getD 1 by rw [List.map_map]; rfl]
  rw [h.posns, List.map_map]
  apply List.map_congr_left
  intro s hs
  have := mem_lookup h.foldNodup (List.mem_filter.1 hs).1
  simp only [Function.comp]
  rw [this]; rfl

/-- The number of elements of a vector. -/
theorem FoldOf.elemReals (h : FoldOf fold names g) (hok : g.Ok) : g.elemReals = prodVals fold.vals := by
  have h1 : prodVals g.foldLens = prodVals fold.vals := by
    rw [h.lens hok, Tup.vals, ← prod_drop (fold.q.map Prod.snd), List.filter_map]
    rfl
  unfold Geom.elemReals
  cases hv : g.isVec with
  | true => simpa using h1
  | false =>
    have h2 : g.foldLens = [] := by rw [hok.foldLens, hok.foldNone hv]; rfl
    rw [h2] at h1
    simpa [prodVals] using h1

/-- The number of the lane. -/
theorem FoldOf.laneNo (h : FoldOf fold names g) (hok : g.Ok) {k : Nat} (hk : (k : Int) < prodVals fold.vals) :
    laneNo g (names.map (foldPoint fold k).at) = k := by
  have hs := unlayout_inSpace fold.firstInner fold.vals h.pos k
  have hd : ∀ x ∈ fold.q.map (fun s => (s.2, (foldPoint fold k).at s.1)), x.1 = 1 → x.2 = 0 := by
    intro x hx h1
    obtain ⟨s, hsq, rfl⟩ := List.mem_map.1 hx
    rcases h.point_lookup k s.1 with ⟨_, h2⟩ | ⟨len, h2, h3, h4⟩
    · exact h2
    · rw [mem_lookup h.foldNodup hsq] at h2
      simp only [Option.some.injEq] at h2
      simp only at h1 ⊢
      omega
  have e1 : g.foldPosns.map (fun j => (names.map (foldPoint fold k).at).getD j 0) =
      (fold.q.filter fun s => decide (s.2 ≠ 1)).map fun s => (foldPoint fold k).at s.1 := by
    rw [show (fold.q.filter fun s => decide (s.2 ≠ 1)).map (fun s => (foldPoint fold k).at s.1) =
      ((fold.q.filter fun s => decide (s.2 ≠ 1)).map Prod.fst).map (foldPoint fold k).at by rw [List.map_map]; rfl]
    rw [← h.posns, List.map_map]
    apply List.map_congr_left
    intro j hj
    have hj2 : j < names.length := by rw [h.len]; exact foldPosn_lt hok hj
    simp [List.getD, hj2]
  have e2 : ((fold.q.map fun s => (s.2, (foldPoint fold k).at s.1)).filter fun x => decide (x.1 ≠ 1)) =
      (fold.q.filter fun s => decide (s.2 ≠ 1)).map fun s => (s.2, (foldPoint fold k).at s.1) := by
    rw [List.filter_map]; rfl
  have e3 := lin_drop fold.firstInner _ hd
  rw [e2, List.map_map, List.map_map, List.map_map, List.map_map] at e3
  have hsp : InSpace ((fold.q.filter fun s => decide (s.2 ≠ 1)).map Prod.snd)
      ((fold.q.filter fun s => decide (s.2 ≠ 1)).map fun s => (foldPoint fold k).at s.1) := by
    unfold InSpace
    rw [List.forall₂_map_left_iff, List.forall₂_map_right_iff, List.forall₂_same]
    intro s hsq
    rcases h.point_lookup k s.1 with ⟨h1, _⟩ | ⟨len, h2, h3, h4⟩
    · rw [mem_lookup h.foldNodup (List.mem_filter.1 hsq).1] at h1; cases h1
    · rw [mem_lookup h.foldNodup (List.mem_filter.1 hsq).1] at h2
      simp only [Option.some.injEq] at h2
      omega
  unfold Comp.laneNo Geom.foldPerm
  rw [e1, h.lens hok, h.first, layoutPerm_fold fold.firstInner _ _ hsp]
  refine Eq.trans e3 ?_
  rw [show fold.q.map (Prod.snd ∘ fun s => (s.2, (foldPoint fold k).at s.1)) = unlayoutVals fold.firstInner fold.vals k from h.point_vals k]
  rw [show fold.q.map (Prod.fst ∘ fun s => (s.2, (foldPoint fold k).at s.1)) = fold.vals from rfl]
  rw [← layoutVals_lin _ _ _ hs, layout_unlayout _ _ h.pos _ hk]

end
end Yask.Comp
