import Verif.Loops.LoopModel
import Verif.Common.CoverLemmas
import Verif.Common.IdivLemmas
import Verif.Common.TupleLemmas
import Verif.Spec.Radix
import Mathlib.Data.List.Nodup
import Mathlib.Data.List.Lex
import Mathlib.Algebra.BigOperators.Ring.List
import Mathlib.Data.List.Perm.Subperm
import Mathlib.Tactic.Linarith
import Mathlib.Tactic.Ring

namespace Yask
open Spec

/-! ### One dimension -/

theorem LoopDim.alignedBegin_spec (a : Bool) (d : LoopDim) (hs : 0 < d.stride) (ha : 0 < d.align) :
    d.alignedBegin a ≤ d.begin_ ∧ d.begin_ < d.alignedBegin a + d.stride := by
  unfold LoopDim.alignedBegin LoopDim.adjAlign
  cases a
  · simp only [Bool.false_eq_true, if_false]; omega
  · have := roundDownFlr_spec (d.begin_ - d.alignOfs) (b := min d.align d.stride) (by omega)
    simp only [if_true]
    omega

theorem LoopDim.numIters_nonneg (a : Bool) (d : LoopDim) (hs : 0 < d.stride) (ha : 0 < d.align)
    (hbe : d.begin_ ≤ d.end_) : 0 ≤ d.numIters a := by
  have h1 := LoopDim.alignedBegin_spec a d hs ha
  unfold LoopDim.numIters
  rw [ceilIdivFlr_eq _ _ hs]
  apply Int.ediv_nonneg <;> omega

theorem LoopDim.cover (a : Bool) (d : LoopDim) (hs : 0 < d.stride) (ha : 0 < d.align)
    (hbe : d.begin_ ≤ d.end_) :
    ExactCover ((List.range (d.numIters a).toNat).map fun (i : Nat) => d.range a i) d.begin_ d.end_ := by
  have h1 := LoopDim.alignedBegin_spec a d hs ha
  have h2 := ceilIdivFlr_spec (d.end_ - d.alignedBegin a) hs
  have h3 := LoopDim.numIters_nonneg a d hs ha hbe
  have hn : ((d.numIters a).toNat : Int) = d.numIters a := Int.toNat_of_nonneg h3
  have hc := exactCover_chain_clip (fun i => d.alignedBegin a + (i : Int) * d.stride)
    (d.numIters a).toNat d.begin_ d.end_ (by
      intro i _
      push_cast
      nlinarith) (by simpa using h1.1) (by
      show d.end_ ≤ d.alignedBegin a + ((d.numIters a).toNat : Int) * d.stride
      rw [hn]
      unfold LoopDim.numIters
      linarith [h2.1])
  cases a
  · have e : ((List.range (d.numIters false).toNat).map fun (i : Nat) => d.range false i) =
        ((List.range (d.numIters false).toNat).map fun (i : Nat) =>
          (max (d.alignedBegin false + (i : Int) * d.stride) d.begin_,
            min (d.alignedBegin false + ((i + 1 : Nat) : Int) * d.stride) d.end_)) := by
      apply List.map_congr_left
      intro i _
      have : 0 ≤ (i : Int) * d.stride := by positivity
      simp only [LoopDim.range, LoopDim.alignedBegin, Bool.false_eq_true, if_false]
      push_cast
      congr 1
      omega
    rw [e]; exact hc
  · have e : ((List.range (d.numIters true).toNat).map fun (i : Nat) => d.range true i) =
        ((List.range (d.numIters true).toNat).map fun (i : Nat) =>
          (max (d.alignedBegin true + (i : Int) * d.stride) d.begin_,
            min (d.alignedBegin true + ((i + 1 : Nat) : Int) * d.stride) d.end_)) := by
      apply List.map_congr_left
      intro i _
      simp only [LoopDim.range, if_true]
      push_cast
      rfl
    rw [e]; exact hc

/-! ### Index vectors of nested loops -/

theorem mem_nestedIndices (ns : List Int) (pt : List Int) :
    pt ∈ nestedIndices ns ↔ InSpace ns pt := by
  unfold InSpace
  induction ns generalizing pt with
  | nil => simp [nestedIndices]
  | cons n ns ih =>
    simp only [nestedIndices, List.mem_flatMap, List.mem_range, List.mem_map, ih]
    constructor
    · rintro ⟨i, hi, pt', hpt', rfl⟩
      exact List.Forall₂.cons (by omega) hpt'
    · intro h
      cases h with
      | @cons x _ xs _ h1 h2 =>
        exact ⟨x.toNat, by omega, xs, h2, by rw [Int.toNat_of_nonneg h1.1]⟩

theorem nestedIndices_length (ns : List Int) :
    (nestedIndices ns).length = (ns.map Int.toNat).prod := by
  induction ns with
  | nil => rfl
  | cons n ns ih => simp [nestedIndices, ih, List.length_flatMap]

/-- Nested loops visit the index vectors in strictly increasing lexicographic order. -/
theorem nestedIndices_sorted (ns : List Int) : (nestedIndices ns).Pairwise (· < ·) := by
  induction ns with
  | nil => simp [nestedIndices]
  | cons n ns ih =>
    unfold nestedIndices
    rw [List.pairwise_flatMap]
    constructor
    · intro i _
      rw [List.pairwise_map]
      exact ih.imp (fun {a b} h => by simpa using h)
    · apply List.Pairwise.imp _ List.pairwise_lt_range
      intro i j hij x hx y hy
      obtain ⟨x', _, rfl⟩ := List.mem_map.1 hx
      obtain ⟨y', _, rfl⟩ := List.mem_map.1 hy
      rw [List.cons_lt_cons_iff]
      left; omega

theorem nestedIndices_nodup (ns : List Int) : (nestedIndices ns).Nodup :=
  (nestedIndices_sorted ns).imp (fun {a b} h => ne_of_lt h)

theorem nestedIndices_append (ns ms : List Int) :
    nestedIndices (ns ++ ms) =
      (nestedIndices ns).flatMap fun i => (nestedIndices ms).map (i ++ ·) := by
  induction ns with
  | nil => simp [nestedIndices]
  | cons n ns ih =>
    simp only [List.cons_append, nestedIndices, ih, List.flatMap_assoc, List.map_flatMap,
      List.flatMap_map, List.map_map]
    rfl

/-- Boxes of the full index space are the product of the one-dimensional ranges. -/
theorem boxes_nested (a : Bool) (ds : List LoopDim) :
    (nestedIndices (ds.map (LoopDim.numIters a))).map (bodyBox a ds) =
      boxProduct (ds.map fun d => (List.range (d.numIters a).toNat).map fun (i : Nat) => d.range a i) := by
  induction ds with
  | nil => rfl
  | cons d ds ih =>
    simp only [List.map_cons, nestedIndices, boxProduct, List.map_flatMap, List.flatMap_map,
      List.map_map, ← ih]
    rfl

theorem boxes_cover (a : Bool) (ds : List LoopDim)
    (h : ∀ d ∈ ds, 0 < d.stride ∧ 0 < d.align ∧ d.begin_ ≤ d.end_) :
    ExactBoxCover ((nestedIndices (ds.map (LoopDim.numIters a))).map (bodyBox a ds))
      (ds.map fun d => (d.begin_, d.end_)) := by
  rw [boxes_nested]
  apply exactBoxCover_product
  induction ds with
  | nil => exact List.Forall₂.nil
  | cons d ds ih =>
    simp only [List.map_cons]
    refine List.Forall₂.cons ?_ (ih (fun x hx => h x (List.mem_cons_of_mem _ hx)))
    obtain ⟨h1, h2, h3⟩ := h d (List.mem_cons_self)
    exact LoopDim.cover a d h1 h2 h3

/-! ### Flattened loops -/

theorem prodVals_cons (n : Int) (ns : List Int) : prodVals (n :: ns) = n * prodVals ns := by
  simp [prodVals_eq]

theorem prodVals_nonneg (l : List Int) (h : ∀ d ∈ l, 0 ≤ d) : 0 ≤ prodVals l := by
  rw [prodVals_eq, ← prod_toNat l h]; positivity

theorem range_mul_flatMap (n P : Nat) :
    List.range (n * P) = (List.range n).flatMap fun i => (List.range P).map fun r => i * P + r := by
  induction n with
  | zero => simp
  | succ n ih =>
    rw [Nat.succ_mul, List.range_add, ih, List.range_succ, List.flatMap_append]
    simp

theorem flatIndices_add_mul (ns : List Int) (h : ∀ d ∈ ns, 0 < d) (q r : Int) (hq : 0 ≤ q)
    (hr : 0 ≤ r) :
    flatIndices false ns (q * prodVals ns + r) = flatIndices false ns r := by
  induction ns generalizing q with
  | nil => rfl
  | cons n ns ih =>
    have hP := prodVals_pos ns (fun d hd => h d (List.mem_cons_of_mem _ hd))
    have hn := h n List.mem_cons_self
    have h0 : 0 ≤ q * (n * prodVals ns) := by positivity
    simp only [flatIndices, Bool.false_eq_true, if_false, prodVals_cons]
    congr 1
    · rw [tdiv_nonneg_eq (by omega), tdiv_nonneg_eq hr]
      have e : (q * (n * prodVals ns) + r) / prodVals ns = r / prodVals ns + n * q := by
        rw [show q * (n * prodVals ns) + r = r + prodVals ns * (n * q) by ring,
          Int.add_mul_ediv_left _ _ (by omega)]
      rw [e]
      have hr' : 0 ≤ r / prodVals ns := Int.ediv_nonneg hr (by omega)
      have : 0 ≤ n * q := by positivity
      rw [tmod_nonneg_eq (by omega), tmod_nonneg_eq hr', Int.add_mul_emod_self_left]
    · rw [show q * (n * prodVals ns) = (q * n) * prodVals ns by ring]
      exact ih (fun d hd => h d (List.mem_cons_of_mem _ hd)) (q * n) (by positivity)

theorem flatIndices_outer (ns : List Int) (h : ∀ d ∈ ns, 0 < d) (li : Int) (h0 : 0 ≤ li)
    (hlt : li < prodVals ns) : flatIndices true ns li = flatIndices false ns li := by
  cases ns with
  | nil => rfl
  | cons n ns =>
    have hP := prodVals_pos ns (fun d hd => h d (List.mem_cons_of_mem _ hd))
    rw [prodVals_cons] at hlt
    simp only [flatIndices, if_true, Bool.false_eq_true, if_false]
    congr 1
    rw [tdiv_nonneg_eq h0]
    have h1 : 0 ≤ li / prodVals ns := Int.ediv_nonneg h0 (by omega)
    rw [tmod_nonneg_eq h1, Int.emod_eq_of_lt h1 (Int.ediv_lt_of_lt_mul hP hlt)]

theorem flatIndices_map_false (ns : List Int) (h : ∀ d ∈ ns, 0 < d) :
    (List.range (prodVals ns).toNat).map (fun (li : Nat) => flatIndices false ns li) =
      nestedIndices ns := by
  induction ns with
  | nil => rfl
  | cons n ns ih =>
    have hP := prodVals_pos ns (fun d hd => h d (List.mem_cons_of_mem _ hd))
    have hn := h n List.mem_cons_self
    have ih' := ih (fun d hd => h d (List.mem_cons_of_mem _ hd))
    have e : (prodVals (n :: ns)).toNat = n.toNat * (prodVals ns).toNat := by
      rw [prodVals_cons, Int.toNat_mul (by omega) (by omega)]
    rw [e, range_mul_flatMap, List.map_flatMap]
    unfold nestedIndices
    rw [← ih']
    apply List.flatMap_congr
    intro i hi
    rw [List.mem_range] at hi
    rw [List.map_map, List.map_map]
    apply List.map_congr_left
    intro r hr
    rw [List.mem_range] at hr
    have hPc : ((prodVals ns).toNat : Int) = prodVals ns := Int.toNat_of_nonneg (by omega)
    simp only [Function.comp, flatIndices, Bool.false_eq_true, if_false]
    push_cast
    rw [hPc, flatIndices_add_mul ns (fun d hd => h d (List.mem_cons_of_mem _ hd)) i r (by omega)
      (by omega)]
    congr 1
    have h0 : (0 : Int) ≤ i * prodVals ns := by positivity
    rw [tdiv_nonneg_eq (by omega), Int.add_comm, Int.add_mul_ediv_right _ _ (by omega),
      Int.ediv_eq_zero_of_lt (by omega) (by omega), Int.zero_add,
      tmod_nonneg_eq (by omega), Int.emod_eq_of_lt (by omega) (by omega)]

theorem nestedIndices_of_zero (ns : List Int) (h : ∃ d ∈ ns, d ≤ 0) : nestedIndices ns = [] := by
  rw [List.eq_nil_iff_forall_not_mem]
  intro pt hpt
  rw [mem_nestedIndices] at hpt
  obtain ⟨d, hd, h0⟩ := h
  have := (inSpace_nonneg hpt).2.1 d hd
  omega

/-- The flattened loop runs the same iterations in the same order as nested loops. -/
theorem flatIndices_map (ns : List Int) (h : ∀ d ∈ ns, 0 ≤ d) :
    (List.range (prodVals ns).toNat).map (fun (li : Nat) => flatIndices true ns li) =
      nestedIndices ns := by
  by_cases hz : ∃ d ∈ ns, d ≤ 0
  · rw [nestedIndices_of_zero ns hz]
    obtain ⟨d, hd, h0⟩ := hz
    have : d = 0 := le_antisymm h0 (h d hd)
    have hp : prodVals ns = 0 := by
      rw [prodVals_eq]
      have := List.prod_eq_zero_iff.2 (this ▸ hd)
      exact this
    rw [hp]; rfl
  · have hpos : ∀ d ∈ ns, 0 < d := by
      intro d hd
      by_contra hc
      exact hz ⟨d, hd, by omega⟩
    rw [← flatIndices_map_false ns hpos]
    apply List.map_congr_left
    intro li hli
    rw [List.mem_range] at hli
    exact flatIndices_outer ns hpos li (by omega) (by omega)

/-! ### Re-ordered paths -/

theorem perm_of_injOn_mapsTo {α : Type} (l : List α) (hl : l.Nodup) (g : α → α)
    (hmaps : ∀ x ∈ l, g x ∈ l) (hinj : ∀ x ∈ l, ∀ y ∈ l, g x = g y → x = y) : (l.map g).Perm l := by
  have hnd : (l.map g).Nodup := (List.nodup_map_iff_inj_on hl).2 hinj
  have hsub : l.map g ⊆ l := by
    intro x hx
    obtain ⟨y, hy, rfl⟩ := List.mem_map.1 hx
    exact hmaps y hy
  exact (List.subperm_of_subset hnd hsub).perm_of_length_le (by simp)

theorem perm_of_maps {α β : Type} (l : List α) (hl : l.Nodup) (m : List β) (g : α → β)
    (hmaps : ∀ x ∈ l, g x ∈ m) (hinj : ∀ x ∈ l, ∀ y ∈ l, g x = g y → x = y)
    (hlen : m.length ≤ l.length) : (l.map g).Perm m := by
  have hnd : (l.map g).Nodup := (List.nodup_map_iff_inj_on hl).2 hinj
  have hsub : l.map g ⊆ m := by
    intro x hx
    obtain ⟨y, hy, rfl⟩ := List.mem_map.1 hx
    exact hmaps y hy
  exact (List.subperm_of_subset hnd hsub).perm_of_length_le (by simpa using hlen)

theorem serpFlip_range (s : Bool) (p : Option Int) (r n : Int) (h : 0 ≤ r ∧ r < n) :
    0 ≤ serpFlip s p r n ∧ serpFlip s p r n < n := by
  unfold serpFlip
  split
  · split <;> omega
  · exact h

theorem serpFlip_inj (s : Bool) (p : Option Int) (r r' n : Int)
    (h : serpFlip s p r n = serpFlip s p r' n) : r = r' := by
  unfold serpFlip at h
  split at h
  · split at h <;> omega
  · exact h

theorem squareWave_range (p np r n : Int) (hp : 0 ≤ p ∧ p < np) (hr : 0 ≤ r ∧ r < n) :
    (0 ≤ (squareWave p np r n).1 ∧ (squareWave p np r n).1 < np) ∧
    (0 ≤ (squareWave p np r n).2 ∧ (squareWave p np r n).2 < n) := by
  unfold squareWave
  split
  · next h =>
    have h2 := h.2
    rw [tdiv_nonneg_eq hp.1, tdiv_nonneg_eq (by omega)] at h2
    simp only
    rcases Int.emod_two_eq p with hp2 | hp2
    · rw [hp2]; simp only [mul_zero, add_zero]
      rw [tdiv_nonneg_eq hr.1]
      omega
    · rw [hp2]; simp only [mul_one]
      rw [tdiv_nonneg_eq (by omega)]
      omega
  · exact ⟨hp, hr⟩

theorem squareWave_inj (p p' np r r' n : Int) (hp : 0 ≤ p ∧ p < np) (hr : 0 ≤ r ∧ r < n)
    (hp' : 0 ≤ p' ∧ p' < np) (hr' : 0 ≤ r' ∧ r' < n)
    (h : squareWave p np r n = squareWave p' np r' n) : p = p' ∧ r = r' := by
  unfold squareWave at h
  rw [tdiv_nonneg_eq hp.1, tdiv_nonneg_eq hp'.1, tdiv_nonneg_eq (show 0 ≤ np by omega)] at h
  have hcase : ∀ q : Int, q % 2 = 0 ∨ q % 2 = 1 := Int.emod_two_eq
  split at h
  · next h1 =>
    split at h
    · next h2 =>
      simp only [Prod.mk.injEq] at h
      obtain ⟨ha, hb⟩ := h
      rcases hcase p with hp2 | hp2 <;> rcases hcase p' with hp2' | hp2' <;>
        rw [hp2, hp2'] at ha hb <;> simp only [mul_zero, mul_one, add_zero] at ha hb <;>
        rw [tdiv_nonneg_eq (by omega), tdiv_nonneg_eq (by omega)] at hb <;> omega
    · next h2 =>
      exfalso
      simp only [Prod.mk.injEq] at h
      obtain ⟨ha, hb⟩ := h
      rcases hcase p with hp2 | hp2 <;> rw [hp2] at ha hb <;>
        simp only [mul_zero, mul_one, add_zero] at ha hb <;> omega
  · next h1 =>
    split at h
    · next h2 =>
      exfalso
      simp only [Prod.mk.injEq] at h
      obtain ⟨ha, hb⟩ := h
      rcases hcase p' with hp2 | hp2 <;> rw [hp2] at ha hb <;>
        simp only [mul_zero, mul_one, add_zero] at ha hb <;> omega
    · simpa using h

theorem pathAdjust_range (serp sq : Bool) (prev : Option Int) (ns pt : List Int)
    (h : InSpace ns pt) : InSpace ns (pathAdjust serp sq prev (pt.zip ns)) := by
  unfold InSpace at *
  induction h generalizing prev with
  | nil => simp [pathAdjust]
  | @cons r n rs ns' h1 h2 ih =>
    cases h2 with
    | nil => exact List.Forall₂.cons (serpFlip_range serp prev r n h1) List.Forall₂.nil
    | @cons r2 n2 rs2 ns2 h3 h4 =>
      cases h4 with
      | nil =>
        simp only [List.zip_cons_cons, List.zip_nil_left, pathAdjust]
        have hp := serpFlip_range serp prev r n h1
        split
        · have hs := squareWave_range (serpFlip serp prev r n) n r2 n2 hp h3
          refine List.Forall₂.cons hs.1 (List.Forall₂.cons ?_ List.Forall₂.nil)
          split <;> omega
        · exact List.Forall₂.cons hp (List.Forall₂.cons (serpFlip_range _ _ _ _ h3) List.Forall₂.nil)
      | @cons r3 n3 rs3 ns3 h5 h6 =>
        simp only [List.zip_cons_cons, pathAdjust]
        exact List.Forall₂.cons (serpFlip_range serp prev r n h1) (ih _)

theorem pathAdjust_inj (serp sq : Bool) (prev : Option Int) (ns pt pt' : List Int)
    (h : InSpace ns pt) (h' : InSpace ns pt')
    (he : pathAdjust serp sq prev (pt.zip ns) = pathAdjust serp sq prev (pt'.zip ns)) : pt = pt' := by
  unfold InSpace at *
  induction h generalizing prev pt' with
  | nil => cases h'; rfl
  | @cons r n rs ns' h1 h2 ih =>
    cases h' with
    | @cons r' _ rs' _ h1' h2' =>
    cases h2 with
    | nil =>
      cases h2'
      simp only [List.zip_cons_cons, List.zip_nil_left, pathAdjust, List.cons.injEq, and_true] at he
      rw [serpFlip_inj _ _ _ _ _ he]
    | @cons r2 n2 rs2 ns2 h3 h4 =>
      cases h2' with
      | @cons r2' _ rs2' _ h3' h4' =>
      cases h4 with
      | nil =>
        cases h4'
        simp only [List.zip_cons_cons, List.zip_nil_left, pathAdjust] at he
        have hp := serpFlip_range serp prev r n h1
        have hp' := serpFlip_range serp prev r' n h1'
        split at he
        · simp only [List.cons.injEq, and_true] at he
          obtain ⟨ha, hb⟩ := he
          rw [ha] at hb
          have hq : (squareWave (serpFlip serp prev r n) n r2 n2).2 =
              (squareWave (serpFlip serp prev r' n) n r2' n2).2 := by
            split at hb <;> omega
          have := squareWave_inj _ _ _ _ _ _ hp h3 hp' h3' (Prod.ext ha hq)
          rw [serpFlip_inj _ _ _ _ _ this.1, this.2]
        · simp only [List.cons.injEq, and_true] at he
          obtain ⟨ha, hb⟩ := he
          have e1 := serpFlip_inj _ _ _ _ _ ha
          rw [e1] at hb
          rw [e1, serpFlip_inj _ _ _ _ _ hb]
      | @cons r3 n3 rs3 ns3 h5 h6 =>
        cases h4' with
        | @cons r3' _ rs3' _ h5' h6' =>
        simp only [List.zip_cons_cons, pathAdjust, List.cons.injEq] at he
        obtain ⟨ha, hb⟩ := he
        have e1 := serpFlip_inj _ _ _ _ _ ha
        subst e1
        rw [ih _ _ (List.Forall₂.cons h3' (List.Forall₂.cons h5' h6')) hb]

/-! ### Tiled loops -/

/-- Local size of a tile as a function of its index. -/
def localTile (n f ti : Int) : Int := if ti ≥ n / f then n - n / f * f else f

theorem tileGo_step (P o n f R : Int) (hP : 0 < P) (hR : 0 < R) (hf : 0 < f) (hfn : f ≤ n)
    (h0 : 0 ≤ o) (ho : o < P * (n * R)) :
    let ti := o / (P * f * R)
    let lt := localTile n f ti
    0 ≤ ti ∧ 0 < lt ∧ lt ≤ f ∧ f * ti + lt ≤ n ∧ 0 ≤ o % (P * f * R) ∧
      o % (P * f * R) < P * lt * R := by
  intro ti lt
  have hT : 0 < P * f * R := by positivity
  have h1 : 0 ≤ ti := Int.ediv_nonneg h0 (by omega)
  have hm0 := Int.emod_nonneg o (show P * f * R ≠ 0 by omega)
  have hm1 := Int.emod_lt_of_pos o hT
  have hdiv : P * f * R * ti + o % (P * f * R) = o := Int.mul_ediv_add_emod o (P * f * R)
  have hn1 := Int.mul_ediv_add_emod n f
  have hn2 := Int.emod_nonneg n (show f ≠ 0 by omega)
  have hn3 := Int.emod_lt_of_pos n hf
  have hPR : 0 < P * R := by positivity
  -- f * ti < n
  have h2 : f * ti < n := by
    by_contra hc
    push Not at hc
    have : P * R * n ≤ P * R * (f * ti) := by
      apply mul_le_mul_of_nonneg_left hc (by omega)
    nlinarith
  have h3 : ti ≤ n / f := by
    rw [Int.le_ediv_iff_mul_le hf]
    linarith [mul_comm ti f]
  show 0 ≤ ti ∧ 0 < (localTile n f ti) ∧ _
  refine ⟨h1, ?_⟩
  simp only [lt, localTile]
  split
  · next hge =>
    have heq : ti = n / f := by omega
    have e : n - n / f * f = n % f := by linarith [mul_comm (n / f) f]
    have hlt : 0 < n - f * ti := by omega
    rw [heq] at hlt
    refine ⟨by linarith [mul_comm (n / f) f], by omega, ?_, hm0, ?_⟩
    · rw [heq]; linarith [mul_comm (n / f) f]
    · have : o % (P * f * R) = o - P * f * R * (n / f) := by rw [← heq]; linarith
      rw [this]
      nlinarith
  · next hlt =>
    push Not at hlt
    refine ⟨hf, le_refl _, ?_, hm0, hm1⟩
    have : f * (ti + 1) ≤ f * (n / f) := by
      apply mul_le_mul_of_nonneg_left _ (by omega); omega
    nlinarith

theorem tileGo_eq (P o n f : Int) (rest : List (Int × Int)) (h0 : 0 ≤ o) (hf : 0 < f) (hn : 0 ≤ n)
    (hT : 0 < P * f * prodVals (rest.map Prod.fst)) :
    tileGo P o ((n, f) :: rest) =
      let T := P * f * prodVals (rest.map Prod.fst)
      let lt := localTile n f (o / T)
      ((o / T, lt) :: (tileGo (P * lt) (o % T) rest).1, (tileGo (P * lt) (o % T) rest).2) := by
  simp only [tileGo, localTile]
  rw [if_pos (show P * f * prodVals (rest.map Prod.fst) ≠ 0 by omega),
    if_pos (show f ≠ 0 by omega), tdiv_nonneg_eq h0, tmod_nonneg_eq h0, tdiv_nonneg_eq hn]

/-- Invariant of the tile computation: tile indices and local sizes are in range, local sizes are a
function of the tile index, and the remaining offset fits in the tile. -/
theorem tileGo_inv (nfs : List (Int × Int)) (h : ∀ x ∈ nfs, 0 < x.2 ∧ x.2 ≤ x.1) (P o : Int)
    (hP : 0 < P) (h0 : 0 ≤ o) (ho : o < P * prodVals (nfs.map Prod.fst)) :
    List.Forall₂ (fun (tl : Int × Int) (nf : Int × Int) =>
      0 ≤ tl.1 ∧ 0 < tl.2 ∧ tl.2 ≤ nf.2 ∧ nf.2 * tl.1 + tl.2 ≤ nf.1 ∧
        tl.2 = localTile nf.1 nf.2 tl.1) (tileGo P o nfs).1 nfs ∧
    0 ≤ (tileGo P o nfs).2 ∧
      (tileGo P o nfs).2 < P * prodVals ((tileGo P o nfs).1.map Prod.snd) := by
  induction nfs generalizing P o with
  | nil => simpa [tileGo, prodVals] using And.intro h0 (by simpa [prodVals] using ho)
  | cons x rest ih =>
    obtain ⟨n, f⟩ := x
    obtain ⟨hf, hfn⟩ := h (n, f) List.mem_cons_self
    simp only at hf hfn
    have hrest : ∀ y ∈ rest, 0 < y.2 ∧ y.2 ≤ y.1 := fun y hy => h y (List.mem_cons_of_mem _ hy)
    have hR : 0 < prodVals (rest.map Prod.fst) := by
      apply prodVals_pos
      intro d hd
      obtain ⟨y, hy, rfl⟩ := List.mem_map.1 hd
      have := hrest y hy
      omega
    rw [List.map_cons, prodVals_cons] at ho
    have hT : 0 < P * f * prodVals (rest.map Prod.fst) := by positivity
    rw [tileGo_eq P o n f rest h0 hf (by omega) hT]
    obtain ⟨a1, a2, a3, a4, a5, a6⟩ := tileGo_step P o n f _ hP hR hf hfn h0 ho
    have hI := ih hrest (P * localTile n f (o / (P * f * prodVals (rest.map Prod.fst))))
      (o % (P * f * prodVals (rest.map Prod.fst))) (by positivity) a5 a6
    refine ⟨List.Forall₂.cons ⟨a1, a2, a3, a4, rfl⟩ hI.1, hI.2.1, ?_⟩
    simp only [List.map_cons, prodVals_cons]
    rw [← mul_assoc]
    exact hI.2.2

/-- The tile computation loses no information. -/
theorem tileGo_inj (nfs : List (Int × Int)) (h : ∀ x ∈ nfs, 0 < x.2 ∧ x.2 ≤ x.1) (P o o' : Int)
    (hP : 0 < P) (h0 : 0 ≤ o) (ho : o < P * prodVals (nfs.map Prod.fst))
    (h0' : 0 ≤ o') (ho' : o' < P * prodVals (nfs.map Prod.fst))
    (e1 : (tileGo P o nfs).1 = (tileGo P o' nfs).1) (e2 : (tileGo P o nfs).2 = (tileGo P o' nfs).2) :
    o = o' := by
  induction nfs generalizing P o o' with
  | nil => simpa [tileGo] using e2
  | cons x rest ih =>
    obtain ⟨n, f⟩ := x
    obtain ⟨hf, hfn⟩ := h (n, f) List.mem_cons_self
    simp only at hf hfn
    have hrest : ∀ y ∈ rest, 0 < y.2 ∧ y.2 ≤ y.1 := fun y hy => h y (List.mem_cons_of_mem _ hy)
    have hR : 0 < prodVals (rest.map Prod.fst) := by
      apply prodVals_pos
      intro d hd
      obtain ⟨y, hy, rfl⟩ := List.mem_map.1 hd
      have := hrest y hy
      omega
    rw [List.map_cons, prodVals_cons] at ho ho'
    have hT : 0 < P * f * prodVals (rest.map Prod.fst) := by positivity
    rw [tileGo_eq P o n f rest h0 hf (by omega) hT, tileGo_eq P o' n f rest h0' hf (by omega) hT] at e1 e2
    simp only [List.cons.injEq, Prod.mk.injEq] at e1 e2
    obtain ⟨⟨ht, _⟩, e1⟩ := e1
    obtain ⟨a1, a2, a3, a4, a5, a6⟩ := tileGo_step P o n f _ hP hR hf hfn h0 ho
    obtain ⟨b1, b2, b3, b4, b5, b6⟩ := tileGo_step P o' n f _ hP hR hf hfn h0' ho'
    rw [← ht] at e1 e2 b6 b2
    have := ih hrest _ _ _ (by positivity) a5 a6 b5 b6 e1 e2
    have d1 := Int.mul_ediv_add_emod o (P * f * prodVals (rest.map Prod.fst))
    have d2 := Int.mul_ediv_add_emod o' (P * f * prodVals (rest.map Prod.fst))
    rw [← d1, ← d2, ht, this]

theorem flatIndices_inSpace (ns : List Int) (h : ∀ d ∈ ns, 0 < d) (li : Int) (h0 : 0 ≤ li)
    (hlt : li < prodVals ns) : InSpace ns (flatIndices true ns li) := by
  rw [← mem_nestedIndices, ← flatIndices_map ns (fun d hd => le_of_lt (h d hd)), List.mem_map]
  exact ⟨li.toNat, List.mem_range.2 (by omega), by rw [Int.toNat_of_nonneg h0]⟩

theorem flatIndices_inj (ns : List Int) (h : ∀ d ∈ ns, 0 < d) (a b : Int) (ha : 0 ≤ a)
    (ha' : a < prodVals ns) (hb : 0 ≤ b) (hb' : b < prodVals ns)
    (he : flatIndices true ns a = flatIndices true ns b) : a = b := by
  have hnd := nestedIndices_nodup ns
  rw [← flatIndices_map ns (fun d hd => le_of_lt (h d hd)), List.nodup_map_iff_inj_on List.nodup_range] at hnd
  have := hnd a.toNat (List.mem_range.2 (by omega)) b.toNat (List.mem_range.2 (by omega)) (by
    simpa only [Int.toNat_of_nonneg ha, Int.toNat_of_nonneg hb] using he)
  omega

theorem tiled_zip_aux (nfs tls : List (Int × Int)) (offs : List Int)
    (hF : List.Forall₂ (fun (tl : Int × Int) (nf : Int × Int) =>
      0 ≤ tl.1 ∧ 0 < tl.2 ∧ tl.2 ≤ nf.2 ∧ nf.2 * tl.1 + tl.2 ≤ nf.1 ∧
        tl.2 = localTile nf.1 nf.2 tl.1) tls nfs)
    (hO : InSpace (tls.map Prod.snd) offs) (hf : ∀ x ∈ nfs, 0 < x.2 ∧ x.2 ≤ x.1) :
    InSpace (nfs.map Prod.fst)
      (List.zipWith (fun (x : (Int × Int) × Int) d => x.1.2 * x.2 + d)
        (nfs.zip (tls.map Prod.fst)) offs) := by
  unfold InSpace at *
  induction hF generalizing offs with
  | nil => cases hO; simp
  | @cons tl nf tls nfs h1 h2 ih =>
    cases hO with
    | @cons o _ os _ h3 h4 =>
      simp only [List.map_cons, List.zip_cons_cons, List.zipWith_cons_cons]
      obtain ⟨b1, b2, b3, b4, b5⟩ := h1
      have hnf := hf nf List.mem_cons_self
      refine List.Forall₂.cons ?_ (ih os h4 (fun x hx => hf x (List.mem_cons_of_mem _ hx)))
      have : 0 ≤ nf.2 * tl.1 := by
        apply mul_nonneg <;> omega
      omega

theorem tiled_zip_inj (nfs tls tls' : List (Int × Int)) (offs offs' : List Int)
    (hF : List.Forall₂ (fun (tl : Int × Int) (nf : Int × Int) =>
      0 ≤ tl.1 ∧ 0 < tl.2 ∧ tl.2 ≤ nf.2 ∧ nf.2 * tl.1 + tl.2 ≤ nf.1 ∧
        tl.2 = localTile nf.1 nf.2 tl.1) tls nfs)
    (hF' : List.Forall₂ (fun (tl : Int × Int) (nf : Int × Int) =>
      0 ≤ tl.1 ∧ 0 < tl.2 ∧ tl.2 ≤ nf.2 ∧ nf.2 * tl.1 + tl.2 ≤ nf.1 ∧
        tl.2 = localTile nf.1 nf.2 tl.1) tls' nfs)
    (hO : InSpace (tls.map Prod.snd) offs) (hO' : InSpace (tls'.map Prod.snd) offs')
    (he : List.zipWith (fun (x : (Int × Int) × Int) d => x.1.2 * x.2 + d)
        (nfs.zip (tls.map Prod.fst)) offs =
      List.zipWith (fun (x : (Int × Int) × Int) d => x.1.2 * x.2 + d)
        (nfs.zip (tls'.map Prod.fst)) offs') : tls = tls' ∧ offs = offs' := by
  unfold InSpace at *
  induction hF generalizing offs tls' offs' with
  | nil => cases hF'; cases hO; cases hO'; simp
  | @cons tl nf tls nfs h1 h2 ih =>
    cases hF' with
    | @cons tl' _ tls' _ h1' h2' =>
    cases hO with
    | @cons o _ os _ h3 h4 =>
    cases hO' with
    | @cons o' _ os' _ h3' h4' =>
      simp only [List.map_cons, List.zip_cons_cons, List.zipWith_cons_cons, List.cons.injEq] at he
      obtain ⟨he1, he2⟩ := he
      obtain ⟨r1, r2⟩ := ih tls' os os' h2' h4 h4' he2
      obtain ⟨b1, b2, b3, b4, b5⟩ := h1
      obtain ⟨c1, c2, c3, c4, c5⟩ := h1'
      have ht : tl.1 = tl'.1 := by
        have e1 : (nf.2 * tl.1 + o) / nf.2 = tl.1 := by
          rw [Int.add_comm, Int.add_mul_ediv_left _ _ (by omega),
            Int.ediv_eq_zero_of_lt (by omega) (by omega)]; omega
        have e2 : (nf.2 * tl'.1 + o') / nf.2 = tl'.1 := by
          rw [Int.add_comm, Int.add_mul_ediv_left _ _ (by omega),
            Int.ediv_eq_zero_of_lt (by omega) (by omega)]; omega
        rw [← e1, he1, e2]
      have hl : tl.2 = tl'.2 := by rw [b5, c5, ht]
      have ho : o = o' := by rw [ht] at he1; omega
      rw [r1, r2, ho, Prod.ext ht hl]
      simp

theorem tiledIndices_perm (nfs : List (Int × Int)) (h : ∀ x ∈ nfs, 0 < x.2 ∧ x.2 ≤ x.1) :
    ((List.range (prodVals (nfs.map Prod.fst)).toNat).map fun (li : Nat) => tiledIndices nfs li).Perm
      (nestedIndices (nfs.map Prod.fst)) := by
  have hns : ∀ d ∈ nfs.map Prod.fst, 0 < d := by
    intro d hd
    obtain ⟨y, hy, rfl⟩ := List.mem_map.1 hd
    have := h y hy
    omega
  have key : ∀ li : Nat, li ∈ List.range (prodVals (nfs.map Prod.fst)).toNat →
      (0 : Int) ≤ li ∧ (li : Int) < 1 * prodVals (nfs.map Prod.fst) := by
    intro li hli
    rw [List.mem_range] at hli
    omega
  have hlts : ∀ li : Nat, li ∈ List.range (prodVals (nfs.map Prod.fst)).toNat →
      InSpace ((tileGo 1 li nfs).1.map Prod.snd)
        (flatIndices true ((tileGo 1 li nfs).1.map Prod.snd) (tileGo 1 li nfs).2) ∧
      (∀ d ∈ (tileGo 1 li nfs).1.map Prod.snd, 0 < d) := by
    intro li hli
    obtain ⟨k1, k2⟩ := key li hli
    obtain ⟨i1, i2, i3⟩ := tileGo_inv nfs h 1 li (by omega) k1 k2
    have hp : ∀ d ∈ (tileGo 1 li nfs).1.map Prod.snd, 0 < d := by
      intro d hd
      obtain ⟨tl, htl, rfl⟩ := List.mem_map.1 hd
      obtain ⟨i, hi, rfl⟩ := List.mem_iff_getElem.1 htl
      have := (List.forall₂_iff_get.1 i1).2 i hi (by rw [← (List.forall₂_iff_get.1 i1).1]; exact hi)
      exact this.2.1
    exact ⟨flatIndices_inSpace _ hp _ i2 (by omega), hp⟩
  apply perm_of_maps _ List.nodup_range
  · intro li hli
    rw [mem_nestedIndices]
    obtain ⟨k1, k2⟩ := key li hli
    obtain ⟨i1, _⟩ := tileGo_inv nfs h 1 li (by omega) k1 k2
    exact tiled_zip_aux nfs _ _ i1 (hlts li hli).1 h
  · intro a ha b hb hab
    obtain ⟨k1, k2⟩ := key a ha
    obtain ⟨k3, k4⟩ := key b hb
    obtain ⟨i1, i2, i3⟩ := tileGo_inv nfs h 1 a (by omega) k1 k2
    obtain ⟨j1, j2, j3⟩ := tileGo_inv nfs h 1 b (by omega) k3 k4
    obtain ⟨r1, r2⟩ := tiled_zip_inj nfs _ _ _ _ i1 j1 (hlts a ha).1 (hlts b hb).1 hab
    have r3 := (hlts a ha).2
    rw [← r1] at r2 j3
    have r4 := flatIndices_inj _ r3 _ _ i2 (by omega) j2 (by omega) r2
    have := tileGo_inj nfs h 1 a b (by omega) k1 k2 k3 k4 r1 r4
    omega
  · rw [nestedIndices_length, List.length_range]
    have := prod_toNat (nfs.map Prod.fst) (fun d hd => le_of_lt (hns d hd))
    rw [← prodVals_eq] at this
    omega

end Yask
