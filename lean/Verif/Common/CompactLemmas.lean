import Verif.Common.CompactModel
import Verif.Props.Tuple
import Mathlib.Data.List.GetD

/-! Helper lemmas about `get_compact_factors`. -/

namespace Yask
open Spec

theorem foldUntil_true {σ α : Type} (f : σ → α → σ) (l : List α) (s : σ) :
    foldUntil (fun s a => (f s a, true)) l s = (l.foldl f s, true) := by
  induction l generalizing s with
  | nil => rfl
  | cons a l ih => exact ih _

theorem mem_factsOf (N x : Int) (hN : 0 < N) : x ∈ factsOf N ↔ 0 < x ∧ x ∣ N := by
  unfold factsOf
  simp only [List.mem_filter, List.mem_map, List.mem_range, decide_eq_true_eq]
  constructor
  · rintro ⟨⟨n, hn, rfl⟩, h⟩
    exact ⟨by omega, Int.dvd_of_tmod_eq_zero h⟩
  · rintro ⟨h0, h1⟩
    have := Int.le_of_dvd hN h1
    exact ⟨⟨(x - 1).toNat, by omega, by omega⟩, Int.tmod_eq_zero_of_dvd h1⟩

/-- The value kept, or chosen. -/
theorem prod_pos_of {l : List Int} (h : ∀ x ∈ l, 0 < x) : 0 < l.prod := by
  induction l with
  | nil => simp
  | cons a l ih =>
    rw [List.prod_cons]
    exact mul_pos (h a List.mem_cons_self) (ih fun x hx => h x (List.mem_cons_of_mem _ hx))

theorem dvd_prod_of_mem {l : List Int} {x : Int} (h : x ∈ l) : x ∣ l.prod := by
  induction l with
  | nil => simp at h
  | cons a l ih =>
    rw [List.prod_cons]
    rcases List.mem_cons.1 h with rfl | h
    · exact dvd_mul_right _ _
    · exact (ih h).mul_left _

/-- What candidates are: factorisations that keep the given values. -/
def Keeps (keep : Bool) (vals w : List Int) : Prop :=
  List.Forall₂ (fun v x => keep = true → 0 < v → x = v) vals w

theorem rest_of_point (keep : Bool) (N : Int) (hN : 0 < N) (vs ps : List Int)
    (h : InSpace (vs.map fun v => if keep && decide (v > 0) then 1 else ((factsOf N).length : Int)) ps) :
    let rest := List.zipWith
      (fun v p => if keep && decide (v > 0) then v else (factsOf N).getD (Int.toNat p) 0) vs ps
    Keeps keep vs rest ∧ ∀ x ∈ rest, 0 < x := by
  induction vs generalizing ps with
  | nil =>
    cases h
    exact ⟨List.Forall₂.nil, by simp⟩
  | cons v vs ih =>
    rw [List.map_cons] at h
    cases h with
    | cons hp hps =>
      obtain ⟨h1, h2⟩ := ih _ hps
      refine ⟨List.Forall₂.cons ?_ h1, ?_⟩
      · intro hk hv
        simp [hk, hv]
      · intro x hx
        rw [List.zipWith_cons_cons, List.mem_cons] at hx
        rcases hx with rfl | hx
        · split
          · rename_i hc
            simp only [Bool.and_eq_true, decide_eq_true_eq] at hc
            exact hc.2
          · rename_i hc
            rw [if_neg hc] at hp
            have hlt := (Int.toNat_lt hp.1).2 hp.2
            rw [List.getD_eq_getElem _ _ hlt]
            exact ((mem_factsOf N _ hN).1 (List.getElem_mem hlt)).1
        · exact h2 x hx

theorem point_of_rest (keep : Bool) (N : Int) (hN : 0 < N) (vs ws : List Int)
    (hk : Keeps keep vs ws) (hw : ∀ x ∈ ws, x ∈ factsOf N) :
    ∃ ps, InSpace (vs.map fun v => if keep && decide (v > 0) then 1 else ((factsOf N).length : Int)) ps ∧
      List.zipWith
        (fun v p => if keep && decide (v > 0) then v else (factsOf N).getD (Int.toNat p) 0) vs ps = ws := by
  induction hk with
  | nil => exact ⟨[], List.Forall₂.nil, rfl⟩
  | @cons v w vs ws h1 _ ih =>
    obtain ⟨ps, h2, h3⟩ := ih fun x hx => hw x (List.mem_cons_of_mem _ hx)
    by_cases hc : (keep && decide (v > 0)) = true
    · refine ⟨0 :: ps, List.Forall₂.cons ?_ h2, ?_⟩
      · simp [hc]
      · rw [List.zipWith_cons_cons, h3, if_pos hc]
        simp only [Bool.and_eq_true, decide_eq_true_eq] at hc
        rw [h1 hc.1 hc.2]
    · obtain ⟨i, hi, he⟩ := List.mem_iff_getElem.1 (hw w List.mem_cons_self)
      refine ⟨(i : Int) :: ps, List.Forall₂.cons ?_ h2, ?_⟩
      · simp only [hc]; simp; omega
      · rw [List.zipWith_cons_cons, h3, if_neg hc, Int.toNat_natCast, List.getD_eq_getElem _ _ hi, he]

/-- The candidates whose product is `N`, over all points of the search space, are exactly the
factorisations of `N` into positive values that keep what must be kept. -/
theorem mem_candidates (keep : Bool) (N : Int) (hN : 0 < N) (v : Int) (vs : List Int) (w : List Int) :
    (∃ pt, InSpace (comboSizes keep (factsOf N).length (v :: vs)) pt ∧
      candidate keep (factsOf N) N (v :: vs) pt = w ∧ w.prod = N) ↔
    (Keeps keep (v :: vs) w ∧ (∀ x ∈ w, 0 < x) ∧ w.prod = N) := by
  constructor
  · rintro ⟨pt, hpt, rfl, hprod⟩
    unfold comboSizes at hpt
    cases hpt with
    | cons hp hps =>
      obtain ⟨h1, h2⟩ := rest_of_point keep N hN vs _ hps
      simp only [candidate] at hprod ⊢
      refine ⟨List.Forall₂.cons ?_ h1, ?_, hprod⟩
      · intro hk hv; simp [hk, hv]
      · rw [List.prod_cons] at hprod
        intro x hx
        rw [List.mem_cons] at hx
        rcases hx with rfl | hx
        · exact pos_of_mul_pos_left (by rw [hprod]; exact hN) (prod_pos_of h2).le
        · exact h2 x hx
  · rintro ⟨hk, hpos, hprod⟩
    cases hk with
    | @cons _ w0 _ ws h0 hks =>
      have hws : ∀ x ∈ ws, x ∈ factsOf N := by
        intro x hx
        rw [mem_factsOf N x hN]
        refine ⟨hpos x (List.mem_cons_of_mem _ hx), ?_⟩
        rw [← hprod]
        exact dvd_prod_of_mem (List.mem_cons_of_mem _ hx)
      obtain ⟨ps, hps, he⟩ := point_of_rest keep N hN vs ws hks hws
      refine ⟨0 :: ps, ?_, ?_, hprod⟩
      · unfold comboSizes
        exact List.Forall₂.cons (by omega) hps
      · simp only [candidate]
        rw [he]
        congr 1
        split
        · rename_i hc
          simp only [Bool.and_eq_true, decide_eq_true_eq] at hc
          exact (h0 hc.1 hc.2).symm
        · have hp : 0 < ws.prod := prod_pos_of fun x hx => hpos x (List.mem_cons_of_mem _ hx)
          rw [prodVals_eq, List.prod_cons, one_mul, ← hprod, List.prod_cons]
          exact Int.mul_tdiv_cancel _ (by omega)

/-- The search keeps the first best candidate. -/
theorem compact_fold {α : Type} (N : Int) (cand : α → List Int) (hlen : ∀ a, cand a ≠ [])
    (l : List α) (best : List Int)
    (hb : best = [] ∨ best.prod = N) :
    let r := l.foldl (fun best a => if prodVals (cand a) = N then
      (if best.length = 0 ∨ maxVals (cand a) < maxVals best then cand a else best) else best) best
    (r = [] ↔ best = [] ∧ ∀ a ∈ l, (cand a).prod ≠ N) ∧
    (r ≠ [] → r.prod = N ∧ (r = best ∨ ∃ a ∈ l, cand a = r) ∧
      (best ≠ [] → maxVals r ≤ maxVals best) ∧
      ∀ a ∈ l, (cand a).prod = N → maxVals r ≤ maxVals (cand a)) := by
  induction l generalizing best with
  | nil =>
    simp only [List.foldl_nil, List.not_mem_nil, false_imp_iff, implies_true, and_true, ne_eq]
    refine ⟨trivial, fun h => ?_⟩
    rcases hb with hb | hb
    · exact absurd hb h
    · exact ⟨hb, Or.inl trivial, fun _ => le_refl _⟩
  | cons a l ih =>
    simp only [List.foldl_cons]
    rw [prodVals_eq]
    by_cases hp : (cand a).prod = N
    · rw [if_pos hp]
      by_cases hc : best.length = 0 ∨ maxVals (cand a) < maxVals best
      · rw [if_pos hc]
        obtain ⟨i1, i2⟩ := ih (cand a) (Or.inr hp)
        constructor
        · rw [i1]
          constructor
          · rintro ⟨h, _⟩; exact absurd h (hlen a)
          · rintro ⟨_, h⟩; exact absurd hp (h a List.mem_cons_self)
        · intro hr
          obtain ⟨j1, j2, j3, j4⟩ := i2 hr
          refine ⟨j1, ?_, ?_, ?_⟩
          · rcases j2 with j2 | ⟨b, hb1, hb2⟩
            · exact Or.inr ⟨a, List.mem_cons_self, j2.symm⟩
            · exact Or.inr ⟨b, List.mem_cons_of_mem _ hb1, hb2⟩
          · intro hne
            rcases hc with hc | hc
            · exact absurd (List.length_eq_zero_iff.1 hc) hne
            · have := j3 (hlen a); omega
          · intro b hb1 hb2
            rcases List.mem_cons.1 hb1 with rfl | hb1
            · exact j3 (hlen b)
            · exact j4 b hb1 hb2
      · rw [if_neg hc]
        push Not at hc
        obtain ⟨i1, i2⟩ := ih best hb
        have hbne : best ≠ [] := fun h => hc.1 (by rw [h]; rfl)
        constructor
        · rw [i1]
          constructor
          · rintro ⟨h, _⟩; exact absurd h hbne
          · rintro ⟨h, _⟩; exact absurd h hbne
        · intro hr
          obtain ⟨j1, j2, j3, j4⟩ := i2 hr
          refine ⟨j1, ?_, j3, ?_⟩
          · rcases j2 with j2 | ⟨b, hb1, hb2⟩
            · exact Or.inl j2
            · exact Or.inr ⟨b, List.mem_cons_of_mem _ hb1, hb2⟩
          · intro b hb1 hb2
            rcases List.mem_cons.1 hb1 with rfl | hb1
            · have := j3 hbne; omega
            · exact j4 b hb1 hb2
    · rw [if_neg hp]
      obtain ⟨i1, i2⟩ := ih best hb
      constructor
      · rw [i1]
        constructor
        · rintro ⟨h1, h2⟩
          refine ⟨h1, fun b hb => ?_⟩
          rcases List.mem_cons.1 hb with rfl | hb
          · exact hp
          · exact h2 b hb
        · rintro ⟨h1, h2⟩
          exact ⟨h1, fun b hb => h2 b (List.mem_cons_of_mem _ hb)⟩
      · intro hr
        obtain ⟨j1, j2, j3, j4⟩ := i2 hr
        refine ⟨j1, ?_, j3, ?_⟩
        · rcases j2 with j2 | ⟨b, hb1, hb2⟩
          · exact Or.inl j2
          · exact Or.inr ⟨b, List.mem_cons_of_mem _ hb1, hb2⟩
        · intro b hb1 hb2
          rcases List.mem_cons.1 hb1 with rfl | hb1
          · exact absurd hb2 hp
          · exact j4 b hb1 hb2

/-- One pass finds a best factorisation that keeps the given values, or nothing if there is none. -/
theorem compactPass_spec (keep : Bool) (N : Int) (hN : 0 < N) (v : Int) (vs : List Int) :
    let r := compactPass keep N (v :: vs) []
    (r = [] → ∀ w, ¬ (Keeps keep (v :: vs) w ∧ (∀ x ∈ w, 0 < x) ∧ w.prod = N)) ∧
    (r ≠ [] → (Keeps keep (v :: vs) r ∧ (∀ x ∈ r, 0 < x) ∧ r.prod = N) ∧
      ∀ w, (Keeps keep (v :: vs) w ∧ (∀ x ∈ w, 0 < x) ∧ w.prod = N) → maxVals r ≤ maxVals w) := by
  have hf1 : (1 : Int) ∈ factsOf N := (mem_factsOf N 1 hN).2 ⟨by omega, one_dvd _⟩
  have hfl : 0 < (factsOf N).length := List.length_pos_of_mem hf1
  have hpos : ∀ d ∈ comboSizes keep (factsOf N).length (v :: vs), 0 < d := by
    intro d hd
    unfold comboSizes at hd
    rw [List.mem_cons, List.mem_map] at hd
    rcases hd with rfl | ⟨x, _, rfl⟩
    · omega
    · split <;> omega
  set sizes := comboSizes keep (factsOf N).length (v :: vs) with hsz
  have hpts := (C38_points_complete true sizes hpos).2
  have e : compactPass keep N (v :: vs) [] =
      ((List.range (numPoints sizes).toNat).map (unlayoutVals true sizes)).foldl
        (fun best a => if prodVals (candidate keep (factsOf N) N (v :: vs) a) = N then
      (if best.length = 0 ∨ maxVals (candidate keep (factsOf N) N (v :: vs) a) < maxVals best then
        candidate keep (factsOf N) N (v :: vs) a else best) else best) [] := by
    unfold compactPass
    simp only []
    rw [C38_visit_tuple_partial true _ hpos, foldUntil_true, List.foldl_map]
    rfl
  intro r
  have hr : r = _ := e
  -- every point of the space gives a nonempty candidate
  have hcl : ∀ pt, InSpace sizes pt → candidate keep (factsOf N) N (v :: vs) pt ≠ [] := by
    intro pt hpt
    unfold comboSizes at hsz
    rw [hsz] at hpt
    cases hpt
    simp [candidate]
  -- make the candidate total
  let cand : List Int → List Int := fun a =>
    if candidate keep (factsOf N) N (v :: vs) a = [] then [0] else candidate keep (factsOf N) N (v :: vs) a
  have hcand : ∀ a ∈ (List.range (numPoints sizes).toNat).map (unlayoutVals true sizes),
      candidate keep (factsOf N) N (v :: vs) a = cand a := by
    intro a ha
    have := hcl a ((hpts a).1 ha)
    simp only [cand]
    rw [if_neg this]
  have hr2 : r = ((List.range (numPoints sizes).toNat).map (unlayoutVals true sizes)).foldl
        (fun best a => if prodVals (cand a) = N then
      (if best.length = 0 ∨ maxVals (cand a) < maxVals best then cand a else best) else best) [] := by
    rw [hr]
    apply List.foldl_ext
    intro b a ha
    rw [hcand a ha]
  have hspec := compact_fold N cand (by
    intro a; simp only [cand]; split
    · simp
    · assumption) ((List.range (numPoints sizes).toNat).map (unlayoutVals true sizes)) [] (Or.inl rfl)
  rw [← hr2] at hspec
  obtain ⟨s1, s2⟩ := hspec
  constructor
  · intro h0 w hw
    obtain ⟨pt, p1, p2, p3⟩ := (mem_candidates keep N hN v vs w).2 hw
    have hm := (hpts pt).2 p1
    exact (s1.1 h0).2 pt hm (by rw [← hcand pt hm, p2]; exact p3)
  · intro h0
    obtain ⟨t1, t2, _, t4⟩ := s2 h0
    constructor
    · rcases t2 with t2 | ⟨pt, hm, t2⟩
      · exact absurd t2 h0
      · rw [← hcand pt hm] at t2
        exact (mem_candidates keep N hN v vs r).1 ⟨pt, (hpts pt).1 hm, t2, t1⟩
    · intro w hw
      obtain ⟨pt, p1, p2, p3⟩ := (mem_candidates keep N hN v vs w).2 hw
      have hm := (hpts pt).2 p1
      have := t4 pt hm (by rw [← hcand pt hm, p2]; exact p3)
      rwa [← hcand pt hm, p2] at this

end Yask
