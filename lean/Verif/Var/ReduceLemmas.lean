import Verif.Var.ReduceModel
import Verif.Var.SliceCore
import Mathlib.Algebra.Order.Field.Rat
import Mathlib.Tactic.Ring
import Mathlib.Tactic.Linarith

/-! Helper lemmas: reductions. -/

namespace Yask.Var
open Spec

/-- Updating one entry of an array of partial results updates their combination. -/
theorem foldl_modify {R M : Type} (op : M → M → M) (hc : ∀ a b, op a b = op b a)
    (ha : ∀ a b c, op (op a b) c = op a (op b c)) (f : R → M) (upd : R → R) (h : M)
    (hu : ∀ r, f (upd r) = op (f r) h) (rs : List R) (i : Nat) (hi : i < rs.length) (b : M) :
    ((rs.modify i upd).map f).foldl op b = op ((rs.map f).foldl op b) h := by
  have pull : ∀ (l : List M) (b c : M), l.foldl op (op b c) = op (l.foldl op b) c := by
    intro l
    induction l with
    | nil => intro b c; rfl
    | cons x l ih =>
      intro b c
      rw [List.foldl_cons, List.foldl_cons, ha, hc c x, ← ha, ih]
  induction rs generalizing i b with
  | nil => simp at hi
  | cons r rs ih =>
    cases i with
    | zero =>
      simp only [List.modify_zero_cons, List.map_cons, List.foldl_cons]
      rw [hu, ← ha, pull]
    | succ i =>
      simp only [List.modify_succ_cons, List.map_cons, List.foldl_cons]
      exact ih i (by simpa using hi) _

theorem foldl_modify_same {R M : Type} (op : M → M → M) (f : R → M) (upd : R → R)
    (hu : ∀ r, f (upd r) = f r) (rs : List R) (i : Nat) (b : M) :
    ((rs.modify i upd).map f).foldl op b = (rs.map f).foldl op b := by
  congr 1
  induction rs generalizing i with
  | nil => simp
  | cons r rs ih =>
    cases i with
    | zero => simp [hu]
    | succ i => simp [ih]

/-- Combining partial results over all visits. -/
theorem foldl_visits {R M β : Type} (op : M → M → M) (hc : ∀ a b, op a b = op b a)
    (ha : ∀ a b c, op (op a b) c = op a (op b c)) (f : R → M) (upd : R → β → R) (h : β → M)
    (hu : ∀ r x, f (upd r x) = op (f r) (h x)) (thr : β → Nat) (L : List β) (rs : List R)
    (ht : ∀ x ∈ L, thr x < rs.length) (b : M) :
    ((L.foldl (fun rs x => rs.modify (thr x) fun r => upd r x) rs).map f).foldl op b =
      (L.map h).foldl op ((rs.map f).foldl op b) := by
  induction L generalizing rs with
  | nil => rfl
  | cons x L ih =>
    rw [List.foldl_cons, ih _ (fun y hy => by
      rw [List.length_modify]; exact ht y (List.mem_cons_of_mem _ hy)), List.map_cons, List.foldl_cons,
      foldl_modify op hc ha f (fun r => upd r x) (h x) (fun r => hu r x) rs (thr x)
        (ht x List.mem_cons_self)]

theorem foldl_visits_same {R M β : Type} (op : M → M → M) (f : R → M) (upd : R → β → R)
    (hu : ∀ r x, f (upd r x) = f r) (thr : β → Nat) (L : List β) (rs : List R) (b : M) :
    ((L.foldl (fun rs x => rs.modify (thr x) fun r => upd r x) rs).map f).foldl op b =
      (rs.map f).foldl op b := by
  induction L generalizing rs with
  | nil => rfl
  | cons x L ih =>
    rw [List.foldl_cons, ih, foldl_modify_same op f (fun r => upd r x) (fun r => hu r x)]

theorem foldl_perm {M : Type} (op : M → M → M) (hc : ∀ a b, op a b = op b a)
    (ha : ∀ a b c, op (op a b) c = op a (op b c)) {l l' : List M} (h : l.Perm l') (b : M) :
    l.foldl op b = l'.foldl op b := by
  apply h.foldl_eq'
  intro x _ y _ z
  rw [ha, hc x y, ← ha]

theorem foldl_replicate_fix {M : Type} (op : M → M → M) (b : M) (h : op b b = b) (n : Nat) :
    (List.replicate n b).foldl op b = b := by
  induction n with
  | zero => rfl
  | succ n ih => rw [List.replicate_succ, List.foldl_cons, h, ih]

/-- A fold of a join, field by field. -/
theorem foldl_join (rs : List RedRes) (p : RedRes) :
    let q := rs.foldl RedRes.join p
    q.mask = p.mask ∧ q.nred = p.nred ∧ q.sum = (rs.map RedRes.sum).foldl (· + ·) p.sum ∧
      q.prod = (rs.map RedRes.prod).foldl (· * ·) p.prod ∧
      q.max = (rs.map RedRes.max).foldl max p.max ∧ q.min = (rs.map RedRes.min).foldl min p.min := by
  induction rs generalizing p with
  | nil => simp
  | cons r rs ih =>
    simp only [List.foldl_cons, List.map_cons]
    obtain ⟨h1, h2, h3, h4, h5, h6⟩ := ih (p.join r)
    exact ⟨h1, h2, h3, h4, h5, h6⟩

theorem mask_visits {β : Type} (upd : RedRes → β → RedRes) (hu : ∀ r x, (upd r x).mask = r.mask)
    (thr : β → Nat) (L : List β) (rs : List RedRes) (mk : RedMask) (h : ∀ r ∈ rs, r.mask = mk) :
    ∀ r ∈ L.foldl (fun rs x => rs.modify (thr x) fun r => upd r x) rs, r.mask = mk := by
  induction L generalizing rs with
  | nil => exact h
  | cons x L ih =>
    rw [List.foldl_cons]
    apply ih
    intro r hr
    generalize thr x = i at hr
    induction rs generalizing i with
    | nil => simp at hr
    | cons a rs ih2 =>
      cases i with
      | zero =>
        simp only [List.modify_zero_cons, List.mem_cons] at hr
        rcases hr with rfl | hr
        · rw [hu]; exact h a List.mem_cons_self
        · exact h r (List.mem_cons_of_mem _ hr)
      | succ i =>
        simp only [List.modify_succ_cons, List.mem_cons] at hr
        rcases hr with rfl | hr
        · exact h r List.mem_cons_self
        · exact ih2 (fun r hr => h r (List.mem_cons_of_mem _ hr)) i hr

/-- `add` with the mask fixed, so that its effect on a field does not depend on the state. -/
def addM (mk : RedMask) (r : RedRes) (val : ℚ) : RedRes :=
  { r with
    sum := if mk.sum then r.sum + val else r.sum
    sumSq := if mk.sumSq then r.sumSq + val * val else r.sumSq
    prod := if mk.prod then r.prod * val else r.prod
    max := if mk.max then max r.max val else r.max
    min := if mk.min then min r.min val else r.min }

/-- The effect of a reduction: `vals` are the values of the slice, in row-major order. -/
theorem reduceSlice_eq (g : Geom) (m : Int → ℚ) (hok : g.Ok) (hs : StepsAlloc g.api) (env : SliceEnv)
    (hn : 0 < env.nthr) (hord : ∀ l, (env.order l).Perm l) (thr : List Int × Int × Int → Nat)
    (hthr : ∀ x, thr x < env.nthr) (mask : RedMask) (strict : Bool) (idxMax : Int)
    (first last f l : List Int) (b1 b2 : Bool)
    (hf : g.checkIndices first strict true false = .ok (b1, f))
    (hl : g.checkIndices last strict true false = .ok (b2, l))
    (hfv : InRangeButStep g.api f) (hlv : InRangeButStep g.api l) (hne : SliceNonempty f l)
    (hbuf : prodVals (sliceSizes f l) ≤ idxMax) :
    ∃ r vals, reduceSlice ⟨g, some m⟩ env thr mask first last strict idxMax = .ok r ∧
      vals = (List.range (prodVals (sliceSizes f l)).toNat).map
        (fun k => m (g.addrOfSlots (slots g.dims (slicePt f l k)))) ∧
      r.mask = mask ∧ r.nred = prodVals (sliceSizes f l) ∧
      r.sum = (if mask.sum then vals.sum else 0) ∧
      (mask.prod = true → r.prod = vals.prod) ∧
      (mask.max = true → r.max = vals.foldl max dblMin) ∧
      r.min = (if mask.min then vals.foldl min dblMax else dblMax) := by
  obtain ⟨L, hL, hv⟩ := visitSlice_eq (⟨g, some m⟩ : YVar ℚ) rfl env hn hord strict idxMax first last
    f l b1 b2 hf hl (inRangeButStep_length hfv) (inRangeButStep_length hlv)
    (by rw [sliceRange_eq hne]; exact sliceSizes_pos hne) (by rw [sliceRange_eq hne]; exact hbuf)
    (stepSize_pos hok hs) (redBody g m thr) (List.replicate env.nthr { mask := mask })
  have hmemL : ∀ x, x ∈ L ↔ _ := fun x => (hL.mem_iff).trans (mem_sliceVisits (g := g) hne)
  let W : List Int × Int × Int → ℚ := fun x => m (g.addrOfSlots (slots g.dims x.1))
  let init : List RedRes := List.replicate env.nthr { mask := mask }
  have hlenfold : ∀ (L : List (List Int × Int × Int)) (rs : List RedRes),
      (L.foldl (fun rs x => rs.modify (thr x) fun r => addM mask r (W x)) rs).length = rs.length := by
    intro L
    induction L with
    | nil => intro rs; rfl
    | cons x L ih => intro rs; rw [List.foldl_cons, ih, List.length_modify]
  have hfold : L.foldlM (redBody g m thr) init =
      .ok (L.foldl (fun rs x => rs.modify (thr x) fun r => addM mask r (W x)) init) := by
    have : ∀ (L : List (List Int × Int × Int)) (rs : List RedRes),
        (∀ x ∈ L, ∃ k : Nat, (k : Int) < prodVals (sliceSizes f l) ∧
          x = (slicePt f l k, if g.hasStep then (slicePt f l k).getD 0 0 % g.stepSize else 0, (k : Int))) →
        rs.length = env.nthr → (∀ r ∈ rs, r.mask = mask) →
        L.foldlM (redBody g m thr) rs =
          .ok (L.foldl (fun rs x => rs.modify (thr x) fun r => addM mask r (W x)) rs) := by
      intro L
      induction L with
      | nil => intro rs _ _ _; rfl
      | cons x L ih =>
        intro rs hx hlen hmk
        rw [List.foldlM_cons, List.foldl_cons]
        obtain ⟨k, hk, hxe⟩ := hx x List.mem_cons_self
        have hb : redBody g m thr rs x = .ok (rs.modify (thr x) fun r => addM mask r (W x)) := by
          unfold redBody
          have : readElem g m x.1 x.2.1 = .ok (W x) := by
            subst hxe
            exact readElem_visit hok hs (inSlice_valid hfv hlv (slicePt_spec hne hk).1) m
          rw [this]
          simp only [Outcome.bind_ok]
          rw [if_pos (by rw [hlen]; exact hthr x)]
          show Outcome.ok _ = _
          congr 1
          rw [List.modify_eq_set_getElem?, List.modify_eq_set_getElem?]
          cases hg : rs[thr x]? with
          | none => rfl
          | some r =>
            have := hmk r (List.mem_of_getElem? hg)
            have e : r.add (W x) = addM mask r (W x) := by
              unfold RedRes.add addM
              rw [this]
            show rs.set (thr x) (r.add (W x)) = rs.set (thr x) (addM mask r (W x))
            rw [e]
        rw [hb]
        simp only [Outcome.bind_ok]
        apply ih _ (fun y hy => hx y (List.mem_cons_of_mem _ hy)) (by rw [List.length_modify, hlen])
        exact mask_visits (fun r (x : List Int × Int × Int) => addM mask r (W x)) (fun _ _ => rfl) thr [x] rs
          mask hmk
    apply this L init (fun x hx => (hmemL x).1 hx)
    · simp [init]
    · intro r hr
      rw [List.eq_of_mem_replicate hr]
  have hvals : (L.map W).Perm ((List.range (prodVals (sliceSizes f l)).toNat).map
        (fun k => m (g.addrOfSlots (slots g.dims (slicePt f l k))))) := by
    refine (hL.map W).trans ?_
    rw [sliceRange_eq hne]
    unfold sliceVisits
    rw [List.map_map]
    exact List.Perm.refl _
  have hthr' : ∀ x ∈ L, thr x < init.length := fun x _ => by simpa [init] using hthr x
  refine ⟨(L.foldl (fun rs x => rs.modify (thr x) fun r => addM mask r (W x)) init).foldl RedRes.join
    { mask := mask, nred := prodVals (sliceRange f l) }, _, ?_, rfl, ?_⟩
  · unfold reduceSlice
    simp only
    rw [hv, hfold]
    rfl
  · obtain ⟨h1, h2, h3, h4, h5, h6⟩ := foldl_join
      (L.foldl (fun rs x => rs.modify (thr x) fun r => addM mask r (W x)) init)
      { mask := mask, nred := prodVals (sliceRange f l) }
    refine ⟨h1, by rw [h2, sliceRange_eq hne], ?_, ?_, ?_, ?_⟩
    · rw [h3]
      by_cases hm : mask.sum = true
      · rw [if_pos hm, foldl_visits (· + ·) (fun a b => add_comm a b) (fun a b c => add_assoc a b c)
          RedRes.sum (fun r x => addM mask r (W x)) W (fun r x => by simp [addM, hm]) thr L init hthr']
        rw [show init.map RedRes.sum = List.replicate env.nthr 0 by simp [init],
          foldl_replicate_fix _ _ (by simp), List.sum_eq_foldl]
        exact foldl_perm _ (fun a b => add_comm a b) (fun a b c => add_assoc a b c) hvals 0
      · rw [if_neg hm, foldl_visits_same (· + ·) RedRes.sum (fun r x => addM mask r (W x))
          (fun r x => by simp [addM, hm]) thr L init,
          show init.map RedRes.sum = List.replicate env.nthr 0 by simp [init],
          foldl_replicate_fix _ _ (by simp)]
    · intro hm
      rw [h4, foldl_visits (· * ·) (fun a b => mul_comm a b) (fun a b c => mul_assoc a b c)
          RedRes.prod (fun r x => addM mask r (W x)) W (fun r x => by simp [addM, hm]) thr L init hthr']
      rw [show init.map RedRes.prod = List.replicate env.nthr 1 by simp [init],
          foldl_replicate_fix _ _ (by simp), List.prod_eq_foldl]
      exact foldl_perm _ (fun a b => mul_comm a b) (fun a b c => mul_assoc a b c) hvals 1
    · intro hm
      rw [h5, foldl_visits max (fun a b => max_comm a b) (fun a b c => max_assoc a b c)
          RedRes.max (fun r x => addM mask r (W x)) W (fun r x => by simp [addM, hm]) thr L init hthr']
      rw [show init.map RedRes.max = List.replicate env.nthr dblMin by simp [init],
          foldl_replicate_fix _ _ (by simp)]
      exact foldl_perm _ (fun a b => max_comm a b) (fun a b c => max_assoc a b c) hvals dblMin
    · rw [h6]
      by_cases hm : mask.min = true
      · rw [if_pos hm, foldl_visits min (fun a b => min_comm a b) (fun a b c => min_assoc a b c)
          RedRes.min (fun r x => addM mask r (W x)) W (fun r x => by simp [addM, hm]) thr L init hthr']
        rw [show init.map RedRes.min = List.replicate env.nthr dblMax by simp [init],
          foldl_replicate_fix _ _ (by simp)]
        exact foldl_perm _ (fun a b => min_comm a b) (fun a b c => min_assoc a b c) hvals dblMax
      · rw [if_neg hm, foldl_visits_same min RedRes.min (fun r x => addM mask r (W x))
          (fun r x => by simp [addM, hm]) thr L init,
          show init.map RedRes.min = List.replicate env.nthr dblMax by simp [init],
          foldl_replicate_fix _ _ (by simp)]

theorem foldl_min_spec (l : List ℚ) (b : ℚ) :
    (l.foldl min b = b ∨ l.foldl min b ∈ l) ∧ l.foldl min b ≤ b ∧ ∀ x ∈ l, l.foldl min b ≤ x := by
  induction l generalizing b with
  | nil => simp
  | cons a l ih =>
    obtain ⟨h1, h2, h3⟩ := ih (min b a)
    rw [List.foldl_cons]
    refine ⟨?_, le_trans h2 (min_le_left _ _), ?_⟩
    · rcases h1 with h | h
      · rw [h]
        rcases min_choice b a with h' | h'
        · exact Or.inl h'
        · right; rw [h']; exact List.mem_cons_self
      · exact Or.inr (List.mem_cons_of_mem _ h)
    · intro x hx
      rcases List.mem_cons.1 hx with rfl | hx
      · exact le_trans h2 (min_le_right _ _)
      · exact h3 x hx

theorem foldl_max_spec (l : List ℚ) (b : ℚ) :
    (l.foldl max b = b ∨ l.foldl max b ∈ l) ∧ b ≤ l.foldl max b ∧ ∀ x ∈ l, x ≤ l.foldl max b := by
  induction l generalizing b with
  | nil => simp
  | cons a l ih =>
    obtain ⟨h1, h2, h3⟩ := ih (max b a)
    rw [List.foldl_cons]
    refine ⟨?_, le_trans (le_max_left _ _) h2, ?_⟩
    · rcases h1 with h | h
      · rw [h]
        rcases max_choice b a with h' | h'
        · exact Or.inl h'
        · right; rw [h']; exact List.mem_cons_self
      · exact Or.inr (List.mem_cons_of_mem _ h)
    · intro x hx
      rcases List.mem_cons.1 hx with rfl | hx
      · exact le_trans (le_max_right _ _) h2
      · exact h3 x hx

end Yask.Var
