import Verif.Loops.LayoutModel
import Verif.Loops.LoopLemmas
import Mathlib.Data.List.Perm.Basic
import Mathlib.Data.List.GetD

namespace Yask
open Spec

theorem layoutSum_range (ds js : List Int) (h : InSpace ds js) :
    0 ≤ layoutSum ds js ∧ layoutSum ds js < prodVals ds := by
  unfold InSpace at h
  induction h with
  | nil => simp [layoutSum, prodVals]
  | @cons j d js ds h1 h2 ih =>
    simp only [layoutSum, prodVals_cons]
    have hP : 0 < prodVals ds := prodVals_pos _ (inSpace_nonneg (show InSpace ds js from h2)).2.1
    constructor
    · have : 0 ≤ j * prodVals ds := mul_nonneg h1.1 (by omega)
      omega
    · have : (j + 1) * prodVals ds ≤ d * prodVals ds := by
        apply mul_le_mul_of_nonneg_right <;> omega
      nlinarith

theorem flatIndices_layoutSum (ds js : List Int) (h : InSpace ds js) :
    flatIndices true ds (layoutSum ds js) = js := by
  induction ds generalizing js with
  | nil => cases h; rfl
  | cons d ds ih =>
    cases h with
    | @cons j _ js _ h1 h2 =>
      have h2' : InSpace ds js := h2
      have hpos := (inSpace_nonneg h2').2.1
      have hP : 0 < prodVals ds := prodVals_pos _ hpos
      obtain ⟨r1, r2⟩ := layoutSum_range ds js h2'
      have h0 : 0 ≤ j * prodVals ds := mul_nonneg h1.1 (by omega)
      simp only [layoutSum, flatIndices, if_true]
      rw [tdiv_nonneg_eq (by omega), Int.add_comm, Int.add_mul_ediv_right _ _ (by omega),
        Int.ediv_eq_zero_of_lt r1 r2, Int.zero_add, Int.add_comm,
        flatIndices_add_mul ds hpos j _ h1.1 r1, ← flatIndices_outer ds hpos _ r1 r2, ih js h2']

theorem layoutSum_flatIndices (ds : List Int) (hpos : ∀ d ∈ ds, 0 < d) (a : Int) (h0 : 0 ≤ a)
    (h1 : a < prodVals ds) : layoutSum ds (flatIndices true ds a) = a := by
  have hin := flatIndices_inSpace ds hpos a h0 h1
  obtain ⟨r1, r2⟩ := layoutSum_range _ _ hin
  exact flatIndices_inj ds hpos _ _ r1 r2 h0 h1 (flatIndices_layoutSum _ _ hin)

theorem linFirst_append (l is : List Int) (d i : Int) (h : is.length = l.length) :
    linFirst (l ++ [d]) (is ++ [i]) = linFirst l is + l.prod * i := by
  induction l generalizing is with
  | nil =>
    have : is = [] := by simpa using h
    subst this
    simp [linFirst]
  | cons a l ih =>
    match is, h with
    | b :: is, h =>
      simp only [List.cons_append, linFirst, List.prod_cons]
      rw [ih is (by simpa using h)]
      ring

theorem layoutSum_eq_linLast (ds js : List Int) (h : js.length = ds.length) :
    layoutSum ds js = linLast ds js := by
  unfold linLast
  induction ds generalizing js with
  | nil => simp [layoutSum, linFirst]
  | cons d ds ih =>
    match js, h with
    | j :: js, h =>
      simp only [layoutSum, List.reverse_cons]
      rw [linFirst_append _ _ _ _ (by simpa using h), ih js (by simpa using h), prodVals_eq,
        List.prod_reverse]
      ring

theorem gather_inSpace (p : List Nat) (sizes j : List Int) (hp : ∀ k ∈ p, k < sizes.length)
    (h : InSpace sizes j) : InSpace (gather p sizes) (gather p j) := by
  have hlen := (inSpace_nonneg h).2.2
  have hget := List.forall₂_iff_get.1 h
  unfold gather InSpace
  induction p with
  | nil => simp
  | cons k p ih =>
    simp only [List.map_cons]
    refine List.Forall₂.cons ?_ (ih (fun x hx => hp x (List.mem_cons_of_mem _ hx)))
    have hk := hp k List.mem_cons_self
    have := hget.2 k (by omega) hk
    rw [List.getD_eq_getElem _ _ (by omega), List.getD_eq_getElem _ _ hk]
    simpa using this

theorem scatter_length (p : List Nat) (v j : List Int) : (scatter p v j).length = j.length := by
  induction p generalizing v j with
  | nil => rfl
  | cons k p ih =>
    cases v with
    | nil => rfl
    | cons x v => simp [scatter, ih]

theorem scatter_getElem?_notMem (p : List Nat) (v j : List Int) (i : Nat) (hi : i ∉ p) :
    (scatter p v j)[i]? = j[i]? := by
  induction p generalizing v j with
  | nil => rfl
  | cons k p ih =>
    cases v with
    | nil => rfl
    | cons x v =>
      simp only [scatter]
      rw [ih _ _ (fun h => hi (List.mem_cons_of_mem _ h)), List.getElem?_set_ne]
      intro h; exact hi (h ▸ List.mem_cons_self)

theorem gather_scatter (p : List Nat) (hnd : p.Nodup) (v j : List Int)
    (hlen : v.length = p.length) (hp : ∀ k ∈ p, k < j.length) : gather p (scatter p v j) = v := by
  induction p generalizing v j with
  | nil => simp at hlen; subst hlen; rfl
  | cons k p ih =>
    match v, hlen with
    | x :: v, hlen =>
      simp only [scatter, gather, List.map_cons]
      have hnd' := List.nodup_cons.1 hnd
      congr 1
      · rw [List.getD_eq_getElem?_getD, scatter_getElem?_notMem _ _ _ _ hnd'.1,
          List.getElem?_set_self (hp k List.mem_cons_self)]
        rfl
      · exact ih hnd'.2 v _ (by simpa using hlen) (by
          intro y hy; rw [List.length_set]; exact hp y (List.mem_cons_of_mem _ hy))

/-- Gathering at every position of the list determines the list. -/
theorem gather_injective (p : List Nat) (n : Nat) (hp : p.Perm (List.range n)) (a b : List Int)
    (ha : a.length = n) (hb : b.length = n) (h : gather p a = gather p b) : a = b := by
  apply List.ext_getElem (by omega)
  intro i h1 h2
  have hi : i ∈ p := hp.mem_iff.2 (List.mem_range.2 (by omega))
  unfold gather at h
  have := (List.map_inj_left.1 h) i hi
  rwa [List.getD_eq_getElem _ _ h1, List.getD_eq_getElem _ _ h2] at this

theorem prodVals_gather (p : List Nat) (sizes : List Int) (hp : p.Perm (List.range sizes.length)) :
    prodVals (gather p sizes) = prodVals sizes := by
  rw [prodVals_eq, prodVals_eq]
  have h1 : (gather p sizes).Perm (gather (List.range sizes.length) sizes) := hp.map _
  rw [h1.prod_eq]
  congr 1
  apply List.ext_getElem (by simp [gather])
  intro i h1 h2
  simp [gather, List.getElem?_eq_getElem h2]

theorem gather_pos (p : List Nat) (sizes : List Int) (hp : ∀ k ∈ p, k < sizes.length)
    (hpos : ∀ d ∈ sizes, 0 < d) : ∀ d ∈ gather p sizes, 0 < d := by
  intro d hd
  obtain ⟨k, hk, rfl⟩ := List.mem_map.1 hd
  rw [List.getD_eq_getElem _ _ (hp k hk)]
  exact hpos _ (List.getElem_mem _)

theorem inSpace_of_gather (p : List Nat) (sizes j : List Int)
    (hp : p.Perm (List.range sizes.length)) (hlen : j.length = sizes.length)
    (h : InSpace (gather p sizes) (gather p j)) : InSpace sizes j := by
  unfold InSpace
  rw [List.forall₂_iff_get]
  refine ⟨hlen, ?_⟩
  intro i h1 h2
  have hi : i ∈ p := hp.mem_iff.2 (List.mem_range.2 h2)
  obtain ⟨k, hk, he⟩ := List.mem_iff_getElem.1 hi
  have hget := (List.forall₂_iff_get.1 h).2 k (by simpa [gather] using hk) (by simpa [gather] using hk)
  simp only [gather, List.get_eq_getElem, List.getElem_map, he] at hget
  rw [List.getD_eq_getElem _ _ h1, List.getD_eq_getElem _ _ h2] at hget
  simpa using hget

end Yask
