import Mathlib.Tactic.Linarith
import Mathlib.Tactic.ByContra
import Mathlib.Data.List.Forall2
import Verif.Common.TupleLemmas
import Verif.Props.Tuple
import Verif.Spec.VecSpec

/-! Helper lemmas: the elements of an unaligned vector. -/

namespace Yask.Comp
open Spec

theorem fixIndexOffset_eq (o len : Int) (hl : 0 < len) : fixIndexOffset 0 o len = (o / len, o % len) := by
  unfold fixIndexOffset
  simp only [Int.zero_mul, Int.zero_add]
  have h0 := Int.tmod_add_mul_tdiv o len
  have h3 := Int.emod_add_mul_ediv o len
  have h4 := Int.emod_nonneg o (by omega : len ≠ 0)
  have h5 := Int.emod_lt_of_pos o hl
  by_cases h : o.tmod len < 0
  · obtain ⟨n, hn⟩ : ∃ n, (o.tmod len).natAbs = n + 1 := ⟨(o.tmod len).natAbs - 1, by omega⟩
    rw [hn]
    have h1 : -len < o.tmod len := by
      have := Int.lt_tmod_of_pos o hl
      omega
    have key : fixLoop len n (o.tdiv len - 1) (o.tmod len + len) = (o.tdiv len - 1, o.tmod len + len) := by
      cases n with
      | zero => rfl
      | succ n => unfold fixLoop; rw [if_neg (by omega)]
    unfold fixLoop
    rw [if_pos h, key]
    have := (Int.ediv_emod_unique hl (a := o) (q := o.tdiv len - 1) (r := o.tmod len + len)).2
      ⟨by linarith [Int.mul_sub len (o.tdiv len) 1, Int.mul_one len], by omega, by omega⟩
    rw [this.1, this.2]
  · have hlt : o.tmod len < len := Int.tmod_lt_of_pos o hl
    have key : ∀ n, fixLoop len n (o.tdiv len) (o.tmod len) = (o.tdiv len, o.tmod len) := by
      intro n
      cases n with
      | zero => rfl
      | succ n => unfold fixLoop; rw [if_neg h]
    rw [key]
    have := (Int.ediv_emod_unique hl (a := o) (q := o.tdiv len) (r := o.tmod len)).2
      ⟨by linarith, by omega, by omega⟩
    rw [this.1, this.2]

theorem lookup_map (l : Loc) (g : String → Int → Int) (n : String) :
    (l.map fun o => (o.1, g o.1 o.2)).lookup n = (l.lookup n).map (g n) := by
  induction l with
  | nil => rfl
  | cons a l ih =>
    obtain ⟨k, v⟩ := a
    simp only [List.map_cons, List.lookup_cons]
    by_cases h : n = k
    · subst h; simp
    · have : (n == k) = false := by simpa using h
      simp only [this, ih]

theorem tup_lookup (t : Tup) (n : String) : t.lookup n = t.q.lookup n := by
  unfold Tup.lookup
  induction t.q with
  | nil => rfl
  | cons a l ih =>
    obtain ⟨k, v⟩ := a
    simp only [List.find?_cons, List.lookup_cons]
    by_cases h : n = k
    · subst h; simp
    · have h1 : (n == k) = false := by simpa using h
      have h2 : (k == n) = false := by simpa using fun h' => h (Eq.symm h')
      simp only [h1, h2, ih]

/-- A point of the fold, dimension by dimension. -/
theorem zip_lookup (q : Loc) (pt : List Int) (h : InSpace (q.map Prod.snd) pt) (n : String) :
    (q.lookup n = none ∧ ((q.map Prod.fst).zip pt).lookup n = none) ∨
    ∃ len v, q.lookup n = some len ∧ ((q.map Prod.fst).zip pt).lookup n = some v ∧ 0 ≤ v ∧ v < len ∧ (n, len) ∈ q := by
  unfold InSpace at h
  induction q generalizing pt with
  | nil => exact .inl ⟨rfl, by simp⟩
  | cons a q ih =>
    obtain ⟨k, d⟩ := a
    cases h with
    | cons hv hrest =>
      rename_i v pt
      simp only [List.map_cons, List.zip_cons_cons, List.lookup_cons]
      by_cases hk : n = k
      · subst hk
        exact .inr ⟨d, v, by simp, by simp, hv.1, hv.2, by simp⟩
      · have h1 : (n == k) = false := by simpa using hk
        simp only [h1]
        rcases ih pt hrest with h | ⟨len, w, h2, h3, h4, h5, h6⟩
        · exact .inl h
        · exact .inr ⟨len, w, h2, h3, h4, h5, List.mem_cons_of_mem _ h6⟩

theorem zip_map_self (q : Loc) (f : String × Int → Int) : (q.map Prod.fst).zip (q.map f) = q.map fun s => (s.1, f s) := by
  induction q with
  | nil => rfl
  | cons a q ih => simp [ih]

theorem not_mem_lookup {l : Loc} {n : String} (h : l.lookup n = none) : n ∉ l.map Prod.fst := by
  induction l with
  | nil => simp
  | cons a l ih =>
    obtain ⟨k, v⟩ := a
    rw [List.lookup_cons] at h
    by_cases hk : n = k
    · subst hk; simp at h
    · have h1 : (n == k) = false := by simpa using hk
      simp only [h1] at h
      simp only [List.map_cons, List.mem_cons, not_or]
      exact ⟨hk, ih h⟩

theorem mem_lookup {q : Loc} (hn : (q.map Prod.fst).Nodup) {s : String × Int} (hs : s ∈ q) : q.lookup s.1 = some s.2 := by
  induction q with
  | nil => cases hs
  | cons a q ih =>
    obtain ⟨k, v⟩ := a
    rw [List.lookup_cons]
    simp only [List.map_cons, List.nodup_cons] at hn
    rcases List.mem_cons.1 hs with rfl | hs'
    · simp
    · have : (s.1 == k) = false := by
        simp only [beq_eq_false_iff_ne]
        rintro rfl
        exact hn.1 (List.mem_map_of_mem hs')
      simp only [this]
      exact ih hn.2 hs'

/-- One element. -/
theorem elemAt_spec {fold : Tup} {ofs : Loc} (h : VecRead fold ofs) (k : Nat) (pt : List Int)
    (hpt : unlayoutVals fold.firstInner fold.vals k = pt) (ve : VecElem) (hve : ve = elemAt fold ofs pt) :
    (ve.offset : Int) < numPoints fold.vals ∧ ve.vec.map Prod.fst = ofs.map Prod.fst ∧
    (∀ n len, fold.lookup n = some len → len ∣ ve.vec.at n) ∧
    ∀ n, ve.vec.at n + (foldPoint fold ve.offset).at n = ofs.at n + (foldPoint fold k).at n := by
  have hin := unlayout_inSpace fold.firstInner fold.vals h.pos k
  rw [hpt] at hin
  -- position of the element in its dimension
  set x : String → Int → Int := fun n o => addOfs o ((fold.names.zip pt).lookup n) with hx
  set len : String → Int := fun n => (fold.lookup n).getD 1 with hlen
  have hlenpos : ∀ n, 0 < len n := by
    intro n
    rw [hlen]
    simp only [tup_lookup]
    rcases zip_lookup fold.q pt hin n with ⟨h1, _⟩ | ⟨l, v, h1, _, h2, h3, _⟩
    · rw [h1]; decide
    · rw [h1]; simp; omega
  have hvec : ve.vec = ofs.map fun o => (o.1, x o.1 o.2 / len o.1 * len o.1) := by
    rw [hve]
    unfold elemAt
    simp only [List.map_map]
    apply List.map_congr_left
    intro o _
    simp only [Function.comp]
    rw [fixIndexOffset_eq _ _ (hlenpos o.1)]
  set c : String × Int → Int := fun s => ((ofs.lookup s.1).map fun o => x s.1 o % len s.1).getD 0 with hc
  have hofs : ve.offset = layoutVals fold.firstInner fold.vals (fold.q.map c) := by
    rw [hve]
    unfold elemAt Tup.layout
    simp only [Bool.false_eq_true, if_false]
    congr 1
    apply List.map_congr_left
    intro s _
    rw [tup_lookup]
    simp only [List.map_map]
    have e : (List.map ((fun f => (f.1, f.2.1.2)) ∘ (fun o => (o.1, fixIndexOffset 0 o.2 ((fold.lookup o.1).getD 1),
        (fold.lookup o.1).getD 1)) ∘ fun o => (o.1, addOfs o.2 (List.lookup o.1 (fold.names.zip pt)))) ofs) = ofs.map fun o => (o.1, x o.1 o.2 % len o.1) := by
      apply List.map_congr_left
      intro o _
      simp only [Function.comp]
      rw [fixIndexOffset_eq _ _ (hlenpos o.1)]
    rw [e, lookup_map ofs (fun n o => x n o % len n)]
  have hcin : InSpace fold.vals (fold.q.map c) := by
    unfold InSpace Tup.vals
    rw [List.forall₂_map_left_iff, List.forall₂_map_right_iff, List.forall₂_same]
    intro s hs
    have hl : len s.1 = s.2 := by
      rw [hlen]
      simp only [tup_lookup, mem_lookup h.nodup hs, Option.getD_some]
    rw [hc]
    simp only
    cases ofs.lookup s.1 with
    | none => simp only [Option.map_none, Option.getD_none]; have := hlenpos s.1; omega
    | some o =>
      simp only [Option.map_some, Option.getD_some]
      rw [← hl]
      have := hlenpos s.1
      exact ⟨Int.emod_nonneg _ (by omega), Int.emod_lt_of_pos _ this⟩
  have hback : foldPoint fold ve.offset = fold.q.map fun s => (s.1, c s) := by
    unfold foldPoint Tup.unlayout
    simp only
    rw [hofs, unlayout_layout _ _ _ hcin]
    exact zip_map_self fold.q c
  have hpts : foldPoint fold k = fold.names.zip pt := by
    unfold foldPoint Tup.unlayout
    simp only [hpt]
  refine ⟨?_, ?_, ?_, ?_⟩
  · rw [hofs]
    have := layout_lt fold.firstInner _ _ hcin
    rwa [prodVals_eq] at this
  · rw [hvec, List.map_map]; rfl
  · intro n l hn
    have : len n = l := by rw [hlen]; simp only [hn, Option.getD_some]
    unfold Loc.at
    rw [hvec, lookup_map ofs (fun n o => x n o / len n * len n), ← this]
    cases ofs.lookup n with
    | none => simp
    | some o => simp
  · intro n
    rw [hpts, hback]
    unfold Loc.at
    rw [hvec, lookup_map ofs (fun n o => x n o / len n * len n)]
    have hcc : (fold.q.map fun s => (s.1, c s)).lookup n =
        (fold.q.lookup n).map fun _ => ((ofs.lookup n).map fun o => x n o % len n).getD 0 :=
      lookup_map fold.q (fun n _ => ((ofs.lookup n).map fun o => x n o % len n).getD 0) n
    rw [hcc]
    rcases zip_lookup fold.q pt hin n with ⟨h1, h2⟩ | ⟨l, v, h1, h2, h3, h4, h5⟩
    · have hl1 : len n = 1 := by rw [hlen]; simp only [tup_lookup, h1, Option.getD_none]
      have hx1 : ∀ o, x n o = o := by
        intro o
        rw [hx]
        simp only [Tup.names, h2, addOfs]
      unfold Tup.names
      rw [h1, h2]
      cases ofs.lookup n with
      | none => simp
      | some o => simp [hl1, hx1]
    · have hl1 : len n = l := by rw [hlen]; simp only [tup_lookup, h1, Option.getD_some]
      have hx1 : ∀ o, x n o = o + v := by
        intro o
        rw [hx]
        simp only [Tup.names, h2, addOfs]
      unfold Tup.names
      rw [h1, h2]
      cases ho : ofs.lookup n with
      | none =>
        have hl2 : l = 1 := by
          by_contra hne
          exact not_mem_lookup ho (h.full _ h5 hne)
        simp
        omega
      | some o =>
        simp only [Option.map_some, Option.getD_some, hl1, hx1]
        have := Int.emod_add_mul_ediv (o + v) l
        rw [Int.mul_comm] at this
        omega

theorem foldUntil_push {β γ : Type} (f : β → γ) (l : List β) (acc : List γ) :
    foldUntil (fun s k => (s ++ [f k], true)) l acc = (acc ++ l.map f, true) := by
  induction l generalizing acc with
  | nil => simp [foldUntil]
  | cons a l ih => simp [foldUntil, ih]

theorem vecElems_eq {fold : Tup} (ofs : Loc) (hpos : ∀ d ∈ fold.vals, 0 < d) :
    vecElems fold ofs = (List.range (numPoints fold.vals).toNat).map fun k =>
      elemAt fold ofs (unlayoutVals fold.firstInner fold.vals k) := by
  unfold vecElems
  rw [C38_visit_tuple_partial _ _ hpos,
    foldUntil_push (fun k => elemAt fold ofs (unlayoutVals fold.firstInner fold.vals k))]
  simp

end Yask.Comp
