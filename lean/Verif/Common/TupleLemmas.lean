import Verif.Common.TupleModel
import Verif.Common.ParForLemmas
import Verif.Spec.Radix

namespace Yask
open Spec

/-! ### Mixed-radix numbers on `Nat` lists, least significant digit first -/

/-- Value of a digit list. -/
def mixedVal : List Nat → List Nat → Nat
  | d :: ds, o :: os => o + d * mixedVal ds os
  | _, _ => 0

/-- Digits of a number. -/
def digits : List Nat → Nat → List Nat
  | [], _ => []
  | d :: ds, n => n % d :: digits ds (n / d)

theorem digits_length (ds : List Nat) (n : Nat) : (digits ds n).length = ds.length := by
  induction ds generalizing n with
  | nil => rfl
  | cons d ds ih => simp [digits, ih]

theorem layoutLoop_eq (ds os : List Nat) (idx prev : Nat) :
    layoutLoop (ds.zip os) idx prev = idx + prev * mixedVal ds os := by
  induction ds generalizing os idx prev with
  | nil => simp [layoutLoop, mixedVal]
  | cons d ds ih =>
    cases os with
    | nil => simp [layoutLoop, mixedVal]
    | cons o os => simp only [List.zip_cons_cons, layoutLoop, mixedVal, ih]; ring

theorem unlayoutLoop_eq (ds : List Nat) (off prev : Nat) :
    unlayoutLoop ds off prev = digits ds (off / prev) := by
  induction ds generalizing prev with
  | nil => rfl
  | cons d ds ih => simp [unlayoutLoop, digits, ih, Nat.div_div_eq_div_mul]

theorem digits_valid (ds : List Nat) (h : ∀ d ∈ ds, 0 < d) (n : Nat) :
    List.Forall₂ (fun o d => o < d) (digits ds n) ds := by
  induction ds generalizing n with
  | nil => simp [digits]
  | cons d ds ih =>
    simp only [digits, List.forall₂_cons]
    exact ⟨Nat.mod_lt _ (h d (by simp)), ih (fun d' hd => h d' (by simp [hd])) _⟩

theorem mixedVal_lt (ds os : List Nat) (h : List.Forall₂ (fun o d => o < d) os ds) :
    mixedVal ds os < ds.prod := by
  induction h with
  | nil => simp [mixedVal]
  | @cons o d os ds h1 _ ih =>
    simp only [mixedVal, List.prod_cons]
    calc o + d * mixedVal ds os < d + d * mixedVal ds os := by omega
      _ = d * (mixedVal ds os + 1) := by ring
      _ ≤ d * ds.prod := Nat.mul_le_mul_left _ ih

theorem digits_mixedVal (ds os : List Nat) (h : List.Forall₂ (fun o d => o < d) os ds) :
    digits ds (mixedVal ds os) = os := by
  induction h with
  | nil => rfl
  | @cons o d os ds h1 _ ih =>
    simp only [mixedVal, digits]
    have h2 : (o + d * mixedVal ds os) % d = o := by
      rw [Nat.add_mul_mod_self_left, Nat.mod_eq_of_lt h1]
    have h3 : (o + d * mixedVal ds os) / d = mixedVal ds os := by
      rw [Nat.add_mul_div_left _ _ (by omega), Nat.div_eq_of_lt h1, Nat.zero_add]
    rw [h2, h3, ih]

theorem mixedVal_digits (ds : List Nat) (n : Nat) (h : n < ds.prod) :
    mixedVal ds (digits ds n) = n := by
  induction ds generalizing n with
  | nil => simp at h; simp [mixedVal, digits, h]
  | cons d ds ih =>
    simp only [List.prod_cons] at h
    simp only [digits, mixedVal]
    rw [ih (n / d) (Nat.div_lt_of_lt_mul h), Nat.mod_add_div]

/-! ### The odometer -/

theorem carryLoop_digits (ds : List Nat) (h : ∀ d ∈ ds, 0 < d) (n : Nat) :
    carryLoop (ds.map Int.ofNat) (incHead ((digits ds n).map Int.ofNat)) =
      (digits ds (n + 1)).map Int.ofNat := by
  induction ds generalizing n with
  | nil => simp [carryLoop, digits, incHead]
  | cons d ds ih =>
    have hd : 0 < d := h d (by simp)
    show (if Int.ofNat (n % d) + 1 ≥ Int.ofNat d then
        0 :: carryLoop (ds.map Int.ofNat) (incHead ((digits ds (n / d)).map Int.ofNat))
      else (Int.ofNat (n % d) + 1) :: (digits ds (n / d)).map Int.ofNat) =
      Int.ofNat ((n + 1) % d) :: (digits ds ((n + 1) / d)).map Int.ofNat
    have ih' := ih (fun d' hd => h d' (by simp [hd])) (n / d)
    have e1 := Nat.div_add_mod n d
    have e2 := Nat.mod_lt n hd
    split
    · next hge =>
      have hmod : n % d = d - 1 := by
        have : (d : Int) ≤ (n % d : Nat) + 1 := hge
        omega
      have hn1 : n + 1 = d * (n / d + 1) := by rw [Nat.mul_add]; omega
      have h1 : (n + 1) % d = 0 := by rw [hn1, Nat.mul_mod_right]
      have h2 : (n + 1) / d = n / d + 1 := by rw [hn1, Nat.mul_div_cancel_left _ hd]
      rw [ih', h1, h2]
      rfl
    · next hlt =>
      have hlt' : n % d + 1 < d := by
        have : ¬ ((d : Int) ≤ (n % d : Nat) + 1) := hlt
        omega
      have h1 : (n + 1) % d = n % d + 1 := by
        rw [Nat.add_mod, Nat.mod_eq_of_lt (show 1 < d by omega), Nat.mod_eq_of_lt hlt']
      have h2 : (n + 1) / d = n / d := by
        apply Nat.div_eq_of_lt_le
        · rw [Nat.mul_comm]; omega
        · rw [Nat.add_mul, Nat.mul_comm]; omega
      rw [h1, h2]
      simp

theorem nextIndexLoop_eq_carry (ds : List Int) (is : List Int) (hlen : is.length = ds.length) :
    nextIndexLoop ds is = carryLoop ds (incHead is) := by
  unfold nextIndexLoop
  cases ds with
  | nil => simp [carryLoop]
  | cons d ds =>
    cases is with
    | nil => simp at hlen
    | cons i is =>
      simp only [incHead, carryLoop]
      split
      · rfl
      · next h => simp_all

/-! ### Dimension order -/

theorem innerFirst_involutive {α : Type} (f : Bool) (l : List α) :
    innerFirst f (innerFirst f l) = l := by
  unfold innerFirst; cases f <;> simp

theorem innerFirst_map {α β : Type} (f : Bool) (g : α → β) (l : List α) :
    innerFirst f (l.map g) = (innerFirst f l).map g := by
  unfold innerFirst; cases f <;> simp

theorem innerFirst_length {α : Type} (f : Bool) (l : List α) :
    (innerFirst f l).length = l.length := by
  unfold innerFirst; cases f <;> simp

theorem innerFirst_mem {α : Type} (f : Bool) (l : List α) (a : α) :
    a ∈ innerFirst f l ↔ a ∈ l := by
  unfold innerFirst; cases f <;> simp

theorem reverse_zip_of_length_eq {α β : Type} {l : List α} {m : List β}
    (h : l.length = m.length) : (l.zip m).reverse = l.reverse.zip m.reverse := by
  induction l generalizing m with
  | nil => simp
  | cons a l ih =>
    cases m with
    | nil => simp at h
    | cons b m =>
      simp only [List.zip_cons_cons, List.reverse_cons]
      rw [ih (by simpa using h), List.zip_append (by simpa using h)]
      rfl

theorem innerFirst_zip {α β : Type} (f : Bool) (l : List α) (m : List β)
    (h : l.length = m.length) :
    innerFirst f (l.zip m) = (innerFirst f l).zip (innerFirst f m) := by
  unfold innerFirst
  cases f
  · simp only [Bool.false_eq_true, if_false]
    exact (reverse_zip_of_length_eq h)
  · simp

theorem innerFirst_prod (f : Bool) (l : List Nat) : (innerFirst f l).prod = l.prod := by
  unfold innerFirst; cases f <;> simp [List.prod_reverse]

theorem innerFirst_forall₂ {α β : Type} (R : α → β → Prop) (f : Bool) {l : List α} {m : List β}
    (h : List.Forall₂ R l m) : List.Forall₂ R (innerFirst f l) (innerFirst f m) := by
  unfold innerFirst; cases f
  · simpa using h
  · simpa using h

/-! ### Positive sizes -/

theorem map_ofNat_toNat (l : List Int) (h : ∀ d ∈ l, 0 ≤ d) :
    (l.map Int.toNat).map Int.ofNat = l := by
  induction l with
  | nil => rfl
  | cons a l ih =>
    simp only [List.map_cons]
    rw [ih (fun d hd => h d (by simp [hd]))]
    have := h a (by simp)
    simp [Int.toNat_of_nonneg this]

theorem foldl_mul_eq (l : List Int) (a : Int) : l.foldl (· * ·) a = a * l.prod := by
  induction l generalizing a with
  | nil => simp
  | cons b l ih => simp [ih, mul_assoc]

theorem prodVals_eq (l : List Int) : prodVals l = l.prod := by
  cases l with
  | nil => rfl
  | cons a l => simp [prodVals, foldl_mul_eq]

theorem prod_toNat (l : List Int) (h : ∀ d ∈ l, 0 ≤ d) :
    ((l.map Int.toNat).prod : Int) = l.prod := by
  induction l with
  | nil => rfl
  | cons a l ih =>
    simp only [List.map_cons, List.prod_cons]
    push_cast
    rw [ih (fun d hd => h d (by simp [hd])), Int.toNat_of_nonneg (h a (by simp))]

theorem prodVals_pos (l : List Int) (h : ∀ d ∈ l, 0 < d) : 0 < prodVals l := by
  rw [prodVals_eq]
  induction l with
  | nil => simp
  | cons a l ih =>
    simp only [List.prod_cons]
    exact Int.mul_pos (h a (by simp)) (ih (fun d hd => h d (by simp [hd])))

theorem unlayoutVals_eq (f : Bool) (sizes : List Int) (n : Nat) :
    unlayoutVals f sizes n =
      innerFirst f ((digits (innerFirst f (sizes.map Int.toNat)) n).map Int.ofNat) := by
  unfold unlayoutVals; rw [unlayoutLoop_eq, Nat.div_one]

/-- Advancing the point with linear index `n` gives the point with linear index `n + 1`
(wrapping around at the end). -/
theorem nextIndex_unlayout (f : Bool) (sizes : List Int) (h : ∀ d ∈ sizes, 0 < d) (n : Nat) :
    nextIndex f sizes (unlayoutVals f sizes n) = unlayoutVals f sizes (n + 1) := by
  unfold nextIndex
  rw [unlayoutVals_eq, unlayoutVals_eq, innerFirst_involutive]
  congr 1
  rw [nextIndexLoop_eq_carry]
  · have hs : innerFirst f sizes = (innerFirst f (sizes.map Int.toNat)).map Int.ofNat := by
      rw [← innerFirst_map, map_ofNat_toNat _ (fun d hd => le_of_lt (h d hd))]
    rw [hs]
    apply carryLoop_digits
    intro d hd
    rw [innerFirst_mem] at hd
    obtain ⟨a, ha, rfl⟩ := List.mem_map.1 hd
    have := h a ha
    omega
  · simp [digits_length, innerFirst_length]

theorem unlayoutVals_zero (f : Bool) (sizes : List Int) :
    unlayoutVals f sizes 0 = sizes.map fun _ => (0 : Int) := by
  rw [unlayoutVals_eq]
  have : ∀ ds : List Nat, (digits ds 0).map Int.ofNat = ds.map fun _ => (0 : Int) := by
    intro ds
    induction ds with
    | nil => rfl
    | cons d ds ih => simp [digits]; simpa using ih
  rw [this, ← innerFirst_map, innerFirst_involutive, List.map_map]
  rfl

theorem threadVisits_eq (f : Bool) (sizes : List Int) (h : ∀ d ∈ sizes, 0 < d) (n i : Nat) :
    threadVisits f sizes n i (unlayoutVals f sizes i) =
      (List.range' i n).map fun k => (unlayoutVals f sizes k, k) := by
  induction n generalizing i with
  | zero => rfl
  | succ n ih =>
    simp only [threadVisits, List.range'_succ, List.map_cons]
    rw [nextIndex_unlayout f sizes h, ih]

/-- Fold over a list, stopping when the function says so. -/
def foldUntil {σ α : Type} (f : σ → α → σ × Bool) : List α → σ → σ × Bool
  | [], s => (s, true)
  | a :: l, s =>
    match f s a with
    | (s', true) => foldUntil f l s'
    | (s', false) => (s', false)

theorem visitLoop_eq {σ : Type} (f : Bool) (sizes : List Int) (h : ∀ d ∈ sizes, 0 < d)
    (visitor : σ → List Int → Nat → σ × Bool) (n i : Nat) (s : σ) :
    visitLoop f sizes visitor n i (unlayoutVals f sizes i) s =
      foldUntil (fun s k => visitor s (unlayoutVals f sizes k) k) (List.range' i n) s := by
  induction n generalizing i s with
  | zero => rfl
  | succ n ih =>
    simp only [visitLoop, List.range'_succ, foldUntil]
    rw [nextIndex_unlayout f sizes h]
    rcases visitor s (unlayoutVals f sizes i) i with ⟨s', b⟩
    cases b
    · rfl
    · exact ih (i + 1) s'

/-! ### Relation to the specification -/

theorem linFirst_eq_mixedVal (ds os : List Nat) :
    linFirst (ds.map Int.ofNat) (os.map Int.ofNat) = mixedVal ds os := by
  induction ds generalizing os with
  | nil => simp [linFirst, mixedVal]
  | cons d ds ih =>
    cases os with
    | nil => simp [linFirst, mixedVal]
    | cons o os => simp only [List.map_cons, linFirst, mixedVal, ih]; push_cast; rfl

theorem lin_eq (f : Bool) (sizes pt : List Int) :
    lin f sizes pt = linFirst (innerFirst f sizes) (innerFirst f pt) := by
  unfold lin linLast innerFirst; cases f <;> simp

theorem inSpace_nonneg {sizes pt : List Int} (h : InSpace sizes pt) :
    (∀ i ∈ pt, 0 ≤ i) ∧ (∀ d ∈ sizes, 0 < d) ∧ pt.length = sizes.length := by
  unfold InSpace at h
  induction h with
  | nil => simp
  | @cons i d is ds h1 _ ih =>
    obtain ⟨h2, h3, h4⟩ := ih
    refine ⟨?_, ?_, by simp [h4]⟩
    · intro x hx; rcases List.mem_cons.1 hx with rfl | hx
      · exact h1.1
      · exact h2 x hx
    · intro x hx; rcases List.mem_cons.1 hx with rfl | hx
      · omega
      · exact h3 x hx

theorem inSpace_toNat {sizes pt : List Int} (h : InSpace sizes pt) :
    List.Forall₂ (fun o d => o < d) (pt.map Int.toNat) (sizes.map Int.toNat) := by
  unfold InSpace at h
  induction h with
  | nil => simp
  | @cons i d is ds h1 _ ih =>
    simp only [List.map_cons, List.forall₂_cons]
    exact ⟨by omega, ih⟩

theorem layoutVals_eq (f : Bool) (sizes pt : List Int) (hlen : pt.length = sizes.length) :
    layoutVals f sizes pt =
      mixedVal (innerFirst f (sizes.map Int.toNat)) (innerFirst f (pt.map Int.toNat)) := by
  unfold layoutVals
  rw [innerFirst_zip _ _ _ (by simp [hlen]), layoutLoop_eq]
  simp

theorem layoutVals_lin (f : Bool) (sizes pt : List Int) (h : InSpace sizes pt) :
    (layoutVals f sizes pt : Int) = lin f sizes pt := by
  obtain ⟨h1, h2, h3⟩ := inSpace_nonneg h
  rw [layoutVals_eq f sizes pt h3, ← linFirst_eq_mixedVal, ← innerFirst_map, ← innerFirst_map,
    map_ofNat_toNat _ h1, map_ofNat_toNat _ (fun d hd => le_of_lt (h2 d hd)), lin_eq]

theorem unlayout_inSpace (f : Bool) (sizes : List Int) (h : ∀ d ∈ sizes, 0 < d) (n : Nat) :
    InSpace sizes (unlayoutVals f sizes n) := by
  rw [unlayoutVals_eq]
  have h1 := digits_valid (innerFirst f (sizes.map Int.toNat)) (by
    intro d hd
    rw [innerFirst_mem] at hd
    obtain ⟨a, ha, rfl⟩ := List.mem_map.1 hd
    have := h a ha
    omega) n
  have h2 := innerFirst_forall₂ _ f h1
  rw [innerFirst_involutive] at h2
  rw [innerFirst_map]
  unfold InSpace
  rw [List.forall₂_map_left_iff]
  rw [List.forall₂_map_right_iff] at h2
  refine h2.imp ?_
  intro a b hab
  simp only [Int.ofNat_eq_natCast]
  omega

theorem unlayout_layout (f : Bool) (sizes pt : List Int) (h : InSpace sizes pt) :
    unlayoutVals f sizes (layoutVals f sizes pt) = pt := by
  obtain ⟨h1, h2, h3⟩ := inSpace_nonneg h
  rw [unlayoutVals_eq, layoutVals_eq f sizes pt h3,
    digits_mixedVal _ _ (innerFirst_forall₂ _ f (inSpace_toNat h)), ← innerFirst_map,
    innerFirst_involutive, map_ofNat_toNat _ h1]

theorem layout_unlayout (f : Bool) (sizes : List Int) (h : ∀ d ∈ sizes, 0 < d) (n : Nat)
    (hn : (n : Int) < prodVals sizes) :
    layoutVals f sizes (unlayoutVals f sizes n) = n := by
  have hin := unlayout_inSpace f sizes h n
  rw [layoutVals_eq f _ _ (inSpace_nonneg hin).2.2, unlayoutVals_eq, ← innerFirst_map f Int.toNat, List.map_map]
  have : (Int.toNat ∘ Int.ofNat) = id := by funext x; simp
  rw [this, List.map_id, innerFirst_involutive]
  apply mixedVal_digits
  rw [innerFirst_prod]
  rw [prodVals_eq, ← prod_toNat _ (fun d hd => le_of_lt (h d hd))] at hn
  exact_mod_cast hn

theorem layout_lt (f : Bool) (sizes pt : List Int) (h : InSpace sizes pt) :
    (layoutVals f sizes pt : Int) < prodVals sizes := by
  obtain ⟨h1, h2, h3⟩ := inSpace_nonneg h
  rw [layoutVals_eq f sizes pt h3, prodVals_eq, ← prod_toNat _ (fun d hd => le_of_lt (h2 d hd))]
  have := mixedVal_lt _ _ (innerFirst_forall₂ _ f (inSpace_toNat h))
  rw [innerFirst_prod] at this
  exact_mod_cast this

end Yask
