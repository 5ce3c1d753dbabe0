import Verif.Loops.LoopLemmas
import Verif.Common.ParForLemmas

namespace Yask
open Spec

/-- The integers `a, a+1, …, b-1`. -/
def ivlList (a b : Int) : List Int := (List.range (b - a).toNat).map fun (k : Nat) => a + k

theorem ivlList_nil {a b : Int} (h : b ≤ a) : ivlList a b = [] := by
  unfold ivlList; rw [show (b - a).toNat = 0 by omega]; rfl

theorem ivlList_append {a b c : Int} (h1 : a ≤ b) (h2 : b ≤ c) :
    ivlList a b ++ ivlList b c = ivlList a c := by
  unfold ivlList
  have : (c - a).toNat = (b - a).toNat + (c - b).toNat := by omega
  rw [this, List.range_add, List.map_append, List.map_map]
  congr 1
  apply List.map_congr_left
  intro k _
  simp only [Function.comp]
  omega

theorem mem_ivlList {a b x : Int} : x ∈ ivlList a b ↔ a ≤ x ∧ x < b := by
  unfold ivlList
  simp only [List.mem_map, List.mem_range]
  constructor
  · rintro ⟨k, hk, rfl⟩; omega
  · intro h; exact ⟨(x - a).toNat, by omega, by omega⟩

theorem ivlList_cons {a b : Int} (h : a < b) : ivlList a b = a :: ivlList (a + 1) b := by
  rw [← ivlList_append (show a ≤ a + 1 by omega) (show a + 1 ≤ b by omega)]
  have : ivlList a (a + 1) = [a] := by
    unfold ivlList; rw [show (a + 1 - a).toNat = 1 by omega]; simp [List.range_succ]
  rw [this]; rfl

theorem manualGo_stop (stop : Int) (ns is : List Int) (iv : Int) (fuel : Nat) (h : stop ≤ iv) :
    manualGo stop ns is iv fuel = ([], is, iv) := by
  cases ns with
  | nil => unfold manualGo; rfl
  | cons n ns =>
    cases is with
    | nil => unfold manualGo; rfl
    | cons i is =>
      cases fuel with
      | zero => unfold manualGo; rfl
      | succ fuel =>
        cases ns with
        | nil => unfold manualGo; rw [if_neg (by omega)]
        | cons m ns => unfold manualGo; rw [if_neg (by omega)]

theorem flatIndices_length (b : Bool) (ns : List Int) (li : Int) :
    (flatIndices b ns li).length = ns.length := by
  induction ns generalizing b with
  | nil => rfl
  | cons n ns ih => simp [flatIndices, ih]

theorem flatIndices_zero (ns : List Int) : flatIndices false ns 0 = ns.map fun _ => (0 : Int) := by
  induction ns with
  | nil => rfl
  | cons n ns ih => simp [flatIndices, ih]

theorem flatIndices_mul (ns : List Int) (h : ∀ d ∈ ns, 0 < d) (q : Int) (hq : 0 ≤ q) :
    flatIndices false ns (q * prodVals ns) = ns.map fun _ => (0 : Int) := by
  have := flatIndices_add_mul ns h q 0 hq (by omega)
  rw [Int.add_zero] at this
  rw [this, flatIndices_zero]

theorem manualGo_spec (stop : Int) (n : Int) (ns : List Int) (h : ∀ d ∈ n :: ns, 0 < d) :
    ∀ (fuel : Nat) (q i r iv : Int), 0 ≤ q → 0 ≤ i → i ≤ n → 0 ≤ r → r < prodVals ns →
      (i = n → r = 0) → iv = (q * n + i) * prodVals ns + r → iv ≤ stop → (n - i).toNat + 1 ≤ fuel →
      (manualGo stop (n :: ns) (i :: flatIndices false ns iv) iv fuel).1 =
        (ivlList iv (min stop ((q + 1) * n * prodVals ns))).map (flatIndices false (n :: ns)) ∧
      (manualGo stop (n :: ns) (i :: flatIndices false ns iv) iv fuel).2.2 =
        min stop ((q + 1) * n * prodVals ns) ∧
      ((q + 1) * n * prodVals ns < stop →
        (manualGo stop (n :: ns) (i :: flatIndices false ns iv) iv fuel).2.1.tail =
          ns.map fun _ => (0 : Int)) := by
  induction ns generalizing n with
  | nil =>
    intro fuel
    induction fuel with
    | zero => intro q i r iv _ _ _ _ _ _ _ _ hf; omega
    | succ fuel ih =>
      intro q i r iv hq hi0 hin hr0 hr1 hir hiv hst hf
      simp only [prodVals, mul_one] at *
      have hr : r = 0 := by omega
      have hn := h n List.mem_cons_self
      have hE : (q + 1) * n = q * n + n := by ring
      unfold manualGo
      split
      · next hc =>
        have hrec := ih q (i + 1) 0 (iv + 1) hq (by omega) (by omega) (by omega) (by omega)
          (by omega) (by omega) (by omega) (by omega)
        obtain ⟨r1, r2, r3⟩ := hrec
        simp only [flatIndices] at r1 r2 r3 ⊢
        rw [r1, r2]
        refine ⟨?_, rfl, ?_⟩
        · rw [ivlList_cons (show iv < min stop ((q + 1) * n) by omega), List.map_cons]
          congr 1
          simp only [flatIndices, Bool.false_eq_true, if_false, prodVals, Int.tdiv_one]
          have : 0 ≤ iv := by
            have : 0 ≤ q * n := by positivity
            omega
          rw [tmod_nonneg_eq this, hiv, hr, Int.add_zero, Int.add_comm, Int.add_mul_emod_self_right,
            Int.emod_eq_of_lt hi0 (by omega)]
        · exact r3
      · next hc =>
        simp only [flatIndices]
        have : min stop ((q + 1) * n) = iv := by omega
        rw [this, ivlList_nil (le_refl _)]
        simp
  | cons m ns ihns =>
    intro fuel
    have hn := h n List.mem_cons_self
    have hm := h m (by simp)
    have hpos' : ∀ d ∈ m :: ns, 0 < d := fun d hd => h d (List.mem_cons_of_mem _ hd)
    have hPm : 0 < prodVals (m :: ns) := prodVals_pos _ hpos'
    have hP : 0 < prodVals ns := prodVals_pos _ (fun d hd => hpos' d (List.mem_cons_of_mem _ hd))
    induction fuel with
    | zero => intro q i r iv _ _ _ _ _ _ _ _ hf; omega
    | succ fuel ih =>
      intro q i r iv hq hi0 hin hr0 hr1 hir hiv hst hf
      have hqn : 0 ≤ q * n := by positivity
      have hiv0 : 0 ≤ iv := by rw [hiv]; positivity
      have hdivP : iv / prodVals (m :: ns) = q * n + i := by
        rw [hiv, Int.add_comm, Int.add_mul_ediv_right _ _ (by omega),
          Int.ediv_eq_zero_of_lt hr0 hr1, Int.zero_add]
      have hE : (q + 1) * n * prodVals (m :: ns) = (q * n + n) * prodVals (m :: ns) := by ring
      have hun : manualGo stop (n :: m :: ns) (i :: flatIndices false (m :: ns) iv) iv (fuel + 1) =
          if i < n ∧ iv < stop then
            let inner := manualGo stop (m :: ns) (flatIndices false (m :: ns) iv) iv
              ((m - (flatIndices false (m :: ns) iv).headD 0).toNat + 1)
            let r := manualGo stop (n :: m :: ns) ((i + 1) :: 0 :: inner.2.1.tail) inner.2.2 fuel
            ((inner.1.map (i :: ·)) ++ r.1, r.2)
          else ([], i :: flatIndices false (m :: ns) iv, iv) := by
        conv_lhs => unfold manualGo
      rw [hun]
      by_cases hc : i < n ∧ iv < stop
      · -- inner loops
        have hinner := ihns m hpos' ((m - (flatIndices false (m :: ns) iv).headD 0).toNat + 1)
          (iv / prodVals ns / m) ((iv / prodVals ns) % m) (iv % prodVals ns) iv
          (Int.ediv_nonneg (Int.ediv_nonneg hiv0 (by omega)) (by omega))
          (Int.emod_nonneg _ (by omega)) (le_of_lt (Int.emod_lt_of_pos _ hm))
          (Int.emod_nonneg _ (by omega)) (Int.emod_lt_of_pos _ hP)
          (fun e => by have := Int.emod_lt_of_pos (iv / prodVals ns) hm; omega)
          (by
            have e1 := Int.mul_ediv_add_emod iv (prodVals ns)
            have e2 := Int.mul_ediv_add_emod (iv / prodVals ns) m
            calc iv = prodVals ns * (iv / prodVals ns) + iv % prodVals ns := e1.symm
              _ = prodVals ns * (m * (iv / prodVals ns / m) + iv / prodVals ns % m) + iv % prodVals ns := by
                rw [e2]
              _ = _ := by ring)
          hst (by
            simp only [flatIndices, List.headD_cons, Bool.false_eq_true, if_false]
            rw [tdiv_nonneg_eq hiv0, tmod_nonneg_eq (Int.ediv_nonneg hiv0 (by omega))])
        have hD : flatIndices false (m :: ns) iv =
            ((iv / prodVals ns) % m) :: flatIndices false ns iv := by
          simp only [flatIndices, Bool.false_eq_true, if_false]
          rw [tdiv_nonneg_eq hiv0, tmod_nonneg_eq (Int.ediv_nonneg hiv0 (by omega))]
        rw [← hD] at hinner
        have hEi : (iv / prodVals ns / m + 1) * m * prodVals ns =
            (q * n + i + 1) * prodVals (m :: ns) := by
          have : iv / prodVals ns / m = q * n + i := by
            rw [Int.ediv_ediv_of_nonneg (by omega), mul_comm, ← prodVals_cons, hdivP]
          rw [this, prodVals_cons]; ring
        rw [hEi] at hinner
        obtain ⟨k1, k2, k3⟩ := hinner
        rw [if_pos hc]
        simp only
        rw [k1, k2]
        have hmapeq : ((ivlList iv (min stop ((q * n + i + 1) * prodVals (m :: ns)))).map
              (flatIndices false (m :: ns))).map (i :: ·) =
            (ivlList iv (min stop ((q * n + i + 1) * prodVals (m :: ns)))).map
              (flatIndices false (n :: m :: ns)) := by
          rw [List.map_map]
          apply List.map_congr_left
          intro v hv
          rw [mem_ivlList] at hv
          have hv0 : 0 ≤ v := by omega
          have hvd : v / prodVals (m :: ns) = q * n + i := by
            apply le_antisymm
            · have : v / prodVals (m :: ns) < q * n + i + 1 :=
                Int.ediv_lt_of_lt_mul hPm (by omega)
              omega
            · rw [← hdivP]; exact Int.ediv_le_ediv hPm hv.1
          show i :: flatIndices false (m :: ns) v = flatIndices false (n :: m :: ns) v
          conv_rhs => unfold flatIndices
          simp only [Bool.false_eq_true, if_false]
          rw [tdiv_nonneg_eq hv0, hvd, tmod_nonneg_eq (by omega), Int.add_comm,
            Int.add_mul_emod_self_right, Int.emod_eq_of_lt hi0 hc.1]
        rw [hmapeq]
        have hle1 : (q * n + i + 1) * prodVals (m :: ns) ≤ (q + 1) * n * prodVals (m :: ns) := by
          rw [hE]; apply mul_le_mul_of_nonneg_right <;> omega
        have hiv1 : iv ≤ (q * n + i + 1) * prodVals (m :: ns) := by
          rw [hiv]; nlinarith
        by_cases hs : stop ≤ (q * n + i + 1) * prodVals (m :: ns)
        · -- stopped inside
          rw [min_eq_left hs, min_eq_left (le_trans hs hle1)]
          rw [manualGo_stop _ _ _ _ _ (le_refl _)]
          refine ⟨by simp, rfl, ?_⟩
          intro hcon; omega
        · push Not at hs
          rw [min_eq_right (le_of_lt hs)]
          rw [k3 hs]
          have hz : (0 : Int) :: ns.map (fun _ => (0 : Int)) =
              flatIndices false (m :: ns) ((q * n + i + 1) * prodVals (m :: ns)) := by
            rw [flatIndices_mul _ hpos' _ (by omega)]; rfl
          rw [hz]
          obtain ⟨r1, r2, r3⟩ := ih q (i + 1) 0 ((q * n + i + 1) * prodVals (m :: ns)) hq (by omega)
            (by omega) (by omega) hPm (by omega) (by ring) (le_of_lt hs) (by omega)
          rw [r1, r2]
          refine ⟨?_, rfl, r3⟩
          rw [← List.map_append, ivlList_append hiv1 (by omega)]
      · rw [if_neg hc]
        have hmin : min stop ((q + 1) * n * prodVals (m :: ns)) = iv := by
          by_cases hlt : i < n
          · have : iv = stop := by omega
            rw [this]
            apply min_eq_left
            rw [← this, hE, hiv]
            have : (q * n + i + 1) * prodVals (m :: ns) ≤ (q * n + n) * prodVals (m :: ns) := by
              apply mul_le_mul_of_nonneg_right <;> omega
            nlinarith
          · have hi : i = n := by omega
            have := hir hi
            rw [hE, hiv, hi, this, Int.add_zero]
            rw [hiv, hi, this, Int.add_zero] at hst
            exact min_eq_right hst
        rw [hmin, ivlList_nil (le_refl _)]
        refine ⟨rfl, rfl, ?_⟩
        intro hlt
        have hi : iv = (q + 1) * n * prodVals (m :: ns) := by omega
        show flatIndices false (m :: ns) iv = _
        rw [hi, flatIndices_mul _ hpos' _ (by positivity)]

/-- One thread of a manual loop runs the flattened iterations of its part, in order. -/
theorem manualThread_eq (n : Int) (ns : List Int) (h : ∀ d ∈ n :: ns, 0 < d) (nthr thr : Nat)
    (hthr : thr < nthr) :
    manualThread (n :: ns) nthr thr =
      some ((ivlList (divEquallyCumuSizeN (prodVals (n :: ns)) nthr ((thr : Int) - 1))
        (divEquallyCumuSizeN (prodVals (n :: ns)) nthr thr)).map (flatIndices false (n :: ns))) := by
  have hP : 0 < prodVals ns := prodVals_pos _ (fun d hd => h d (List.mem_cons_of_mem _ hd))
  have hT : 0 < prodVals (n :: ns) := prodVals_pos _ h
  have hn := h n List.mem_cons_self
  set total := prodVals (n :: ns) with htotal
  have hmono := divEquallyCumu_mono (num := total) (np := nthr) (by omega) (by omega)
  have hlast : divEquallyCumuSizeN total nthr ((nthr : Int) - 1) = total :=
    divEquallyCumu_last (by omega) (by omega)
  have hmono' : ∀ k j : Nat, k ≤ j → divEquallyCumuSizeN total nthr ((k : Int) - 1) ≤
      divEquallyCumuSizeN total nthr ((j : Int) - 1) := by
    intro k j hkj
    induction hkj with
    | refl => exact le_refl _
    | @step j _ ih =>
      refine le_trans ih ?_
      have := hmono j
      push_cast
      simpa using this
  have hb0 : 0 ≤ divEquallyCumuSizeN total nthr ((thr : Int) - 1) := by
    have := hmono' 0 thr (by omega)
    simpa [divEquallyCumuSizeN] using this
  have hbe : divEquallyCumuSizeN total nthr ((thr : Int) - 1) ≤ divEquallyCumuSizeN total nthr thr := by
    have := hmono' thr (thr + 1) (by omega)
    push_cast at this
    simpa using this
  have heT : divEquallyCumuSizeN total nthr thr ≤ total := by
    have := hmono' (thr + 1) nthr (by omega)
    push_cast at this
    rw [hlast] at this
    simpa using this
  set b := divEquallyCumuSizeN total nthr ((thr : Int) - 1)
  set e := divEquallyCumuSizeN total nthr (thr : Int)
  unfold manualThread
  simp only
  have hany : ((n :: ns).tail.any fun n => decide (n = 0)) = false := by
    rw [List.any_eq_false]
    intro d hd
    have := h d (List.mem_cons_of_mem _ hd)
    simp; omega
  rw [hany]
  simp only [Bool.false_eq_true, if_false, Option.some.injEq]
  show (manualGo e (n :: ns) (flatIndices true (n :: ns) b) b _).1 = _
  by_cases hbeq : b = e
  · rw [manualGo_stop _ _ _ _ _ (by omega), ivlList_nil (by omega)]; rfl
  · have hbT : b < total := by omega
    have hD : flatIndices true (n :: ns) b = b / prodVals ns :: flatIndices false ns b := by
      simp only [flatIndices, if_true]
      rw [tdiv_nonneg_eq hb0]
    have hlt : b / prodVals ns < n := by
      apply Int.ediv_lt_of_lt_mul hP
      rw [htotal, prodVals_cons] at hbT; exact hbT
    rw [hD]
    have := (manualGo_spec e n ns h ((n - b / prodVals ns).toNat + 1) 0 (b / prodVals ns)
      (b % prodVals ns) b (by omega) (Int.ediv_nonneg hb0 (by omega)) (by omega)
      (Int.emod_nonneg _ (by omega)) (Int.emod_lt_of_pos _ hP) (by omega)
      (by rw [zero_mul, zero_add, mul_comm]; exact (Int.mul_ediv_add_emod b (prodVals ns)).symm)
      hbe (le_refl _)).1
    simp only [List.headD_cons]
    rw [this, zero_add, one_mul, ← prodVals_cons, ← htotal, min_eq_left heT]

theorem flatMap_ivlList_chain {α : Type} (c : Nat → Int) (n : Nat) (hc : ∀ i, i < n → c i ≤ c (i + 1))
    (g : Int → α) :
    ((List.range n).flatMap fun i => (ivlList (c i) (c (i + 1))).map g) =
      (ivlList (c 0) (c n)).map g ∧ c 0 ≤ c n := by
  induction n with
  | zero => simp [ivlList_nil]
  | succ n ih =>
    obtain ⟨h1, h2⟩ := ih (fun i hi => hc i (by omega))
    have h3 := hc n (by omega)
    refine ⟨?_, by omega⟩
    rw [List.range_succ, List.flatMap_append, h1]
    simp only [List.flatMap_cons, List.flatMap_nil, List.append_nil]
    rw [← List.map_append, ivlList_append h2 h3]

end Yask
