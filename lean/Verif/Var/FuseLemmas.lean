import Verif.Spec.FuseSpec

namespace Yask.Var
open Spec

variable {V : Type}

theorem VBase.In.len {C : Classes} {x : VBase V} (h : x.In C) : x.v.g.dims.length = x.names.length := by
  have := congrArg List.length h.kinds
  simpa using this

theorem sameDim_iff (cs : Bool) (x y : String × DimG) : sameDim cs x y = true ↔ x.1 = y.1 ∧ x.2.varVL = y.2.varVL ∧
    (cs = true → x.2.domain = y.2.domain ∧ x.2.lPad = y.2.lPad ∧ x.2.rPad = y.2.rPad) := by
  unfold sameDim
  split_ifs <;> simp_all

theorem map_eq_iff_getElem {α β : Type} (f : α → β) (a b : List α) : a.map f = b.map f ↔
    a.length = b.length ∧ ∀ (i : Nat) x y, a[i]? = some x → b[i]? = some y → f x = f y := by
  constructor
  · intro h
    refine ⟨by simpa using congrArg List.length h, fun i x y h1 h2 => ?_⟩
    have := congrArg (fun l => l[i]?) h
    simpa [h1, h2] using this
  · rintro ⟨hl, h⟩
    refine List.ext_getElem (by simpa using hl) fun i h1 h2 => ?_
    simp only [List.getElem_map]
    simp only [List.length_map] at h1 h2
    exact h i _ _ (List.getElem?_eq_getElem h1) (List.getElem?_eq_getElem h2)

theorem zip_getElem {α β : Type} {a : List α} {b : List β} {i : Nat} {x : α} {y : β} (h1 : a[i]? = some x) (h2 : b[i]? = some y) :
    (a.zip b)[i]? = some (x, y) := by
  rw [List.getElem?_zip_eq_some]; exact ⟨h1, h2⟩

theorem sameLayout_iff (cs : Bool) {x y : VBase V} (hx : x.v.g.dims.length = x.names.length) (hy : y.v.g.dims.length = y.names.length) :
    sameLayout cs x y = true ↔ (cs = true → x.v.g.numReals = y.v.g.numReals) ∧ x.names = y.names ∧
      x.v.g.dims.map DimG.varVL = y.v.g.dims.map DimG.varVL ∧
      (cs = true → x.v.g.dims.map (fun d => (d.domain, d.lPad, d.rPad)) = y.v.g.dims.map (fun d => (d.domain, d.lPad, d.rPad))) := by
  have key : ((List.range x.v.g.dims.length).all fun (i : Nat) =>
      match (x.names.zip x.v.g.dims)[i]?, (y.names.zip y.v.g.dims)[i]? with
      | some a, some b => sameDim cs a b
      | _, _ => false) = true ∧ x.v.g.dims.length = y.v.g.dims.length ↔ x.names = y.names ∧
      x.v.g.dims.map DimG.varVL = y.v.g.dims.map DimG.varVL ∧
      (cs = true → x.v.g.dims.map (fun d => (d.domain, d.lPad, d.rPad)) = y.v.g.dims.map (fun d => (d.domain, d.lPad, d.rPad))) := by
    constructor
    · rintro ⟨h, hl⟩
      have hn : x.names.length = y.names.length := by omega
      have h' : ∀ (i : Nat), i < x.v.g.dims.length → ∀ a b d e, x.names[i]? = some a → y.names[i]? = some b → x.v.g.dims[i]? = some d →
          y.v.g.dims[i]? = some e → sameDim cs (a, d) (b, e) = true := by
        intro i hi a b d e h1 h2 h3 h4
        have := List.all_eq_true.1 h i (List.mem_range.2 hi)
        rw [zip_getElem h1 h3, zip_getElem h2 h4] at this
        exact this
      have h'' : ∀ (i : Nat) (d e : DimG), x.v.g.dims[i]? = some d → y.v.g.dims[i]? = some e → ∃ a b, x.names[i]? = some a ∧ y.names[i]? = some b ∧
          sameDim cs (a, d) (b, e) = true := by
        intro i d e h1 h2
        have hi := (List.getElem?_eq_some_iff.1 h1).1
        refine ⟨x.names[i]'(by omega), y.names[i]'(by omega), List.getElem?_eq_getElem _, List.getElem?_eq_getElem _, ?_⟩
        exact h' i hi _ _ d e (List.getElem?_eq_getElem _) (List.getElem?_eq_getElem _) h1 h2
      refine ⟨?_, ?_, ?_⟩
      · refine List.ext_getElem hn fun i h1 h2 => ?_
        exact ((sameDim_iff _ _ _).1 (h' i (by omega) _ _ _ _ (List.getElem?_eq_getElem h1) (List.getElem?_eq_getElem h2)
          (List.getElem?_eq_getElem (by omega)) (List.getElem?_eq_getElem (by omega)))).1
      · rw [map_eq_iff_getElem]
        refine ⟨hl, fun i d e h1 h2 => ?_⟩
        obtain ⟨a, b, _, _, h3⟩ := h'' i d e h1 h2
        exact ((sameDim_iff _ _ _).1 h3).2.1
      · intro hc
        rw [map_eq_iff_getElem]
        refine ⟨hl, fun i d e h1 h2 => ?_⟩
        obtain ⟨a, b, _, _, h3⟩ := h'' i d e h1 h2
        obtain ⟨q1, q2, q3⟩ := ((sameDim_iff _ _ _).1 h3).2.2 hc
        simp only at q1 q2 q3
        rw [q1, q2, q3]
    · rintro ⟨hn, hv, hs⟩
      obtain ⟨hl, hv⟩ := (map_eq_iff_getElem _ _ _).1 hv
      refine ⟨List.all_eq_true.2 fun i hi => ?_, hl⟩
      have hi := List.mem_range.1 hi
      have e1 := zip_getElem (List.getElem?_eq_getElem (show i < x.names.length by omega)) (List.getElem?_eq_getElem hi)
      have e2 := zip_getElem (List.getElem?_eq_getElem (show i < y.names.length by omega))
        (List.getElem?_eq_getElem (show i < y.v.g.dims.length by omega))
      rw [e1, e2]
      simp only
      rw [sameDim_iff]
      refine ⟨by simp only [hn], hv i _ _ (List.getElem?_eq_getElem _) (List.getElem?_eq_getElem _), fun hc => ?_⟩
      have := ((map_eq_iff_getElem _ _ _).1 (hs hc)).2 i _ _ (List.getElem?_eq_getElem hi) (List.getElem?_eq_getElem (by omega))
      simpa using this
  unfold sameLayout
  split_ifs with h1 h2
  · simp only [Bool.and_eq_true, decide_eq_true_eq] at h1
    simp only [Bool.false_eq_true, false_iff]
    rintro ⟨q, _⟩
    exact h1.2 (q h1.1)
  · simp only [Bool.false_eq_true, false_iff]
    rintro ⟨_, q⟩
    exact h2 (key.2 q).2
  · rw [← key]
    simp only [Bool.and_eq_true, decide_eq_true_eq, not_and, Classical.not_not] at h1 h2
    tauto

/-- Same names, folds and sizes: everything that the address depends on is the same but the offsets. -/
theorem same_storage {C : Classes} {x y : VBase V} (hx : x.In C) (hy : y.In C) (hn : x.names = y.names)
    (hv : x.v.g.dims.map DimG.varVL = y.v.g.dims.map DimG.varVL) (ha : x.v.g.dims.map DimG.alloc = y.v.g.dims.map DimG.alloc) :
    x.v.g.vecAllocs = y.v.g.vecAllocs ∧ x.v.g.numReals = y.v.g.numReals ∧ x.v.g.elemReals = y.v.g.elemReals ∧
      ∀ s, x.v.g.addrOfSlots s = y.v.g.addrOfSlots s := by
  have hva : x.v.g.vecAllocs = y.v.g.vecAllocs := by
    unfold Geom.vecAllocs
    rw [map_eq_iff_getElem] at hv ha ⊢
    refine ⟨hv.1, fun i d e h1 h2 => ?_⟩
    have q1 := hv.2 i d e h1 h2
    have q2 := ha.2 i d e h1 h2
    have o1 := hx.reach.ok.dims d (List.mem_of_getElem? h1)
    have o2 := hy.reach.ok.dims e (List.mem_of_getElem? h2)
    have := o1.valloc
    rw [q1, q2, ← o2.valloc] at this
    exact Int.eq_of_mul_eq_mul_right (by have := o2.vvl_pos; omega) this
  have he : x.v.g.elemReals = y.v.g.elemReals := by
    unfold Geom.elemReals
    rw [hx.isVec, hy.isVec, hn, hx.foldLens, hy.foldLens, hn]
  refine ⟨hva, by unfold Geom.numReals; rw [hva, he], he, fun s => ?_⟩
  have hvi : ∀ (f : Int → Int → Int), List.zipWith (fun (d : DimG) v => f d.varVL v) x.v.g.dims s = List.zipWith (fun (d : DimG) v => f d.varVL v) y.v.g.dims s := by
    intro f
    have : ∀ (ds : List DimG), List.zipWith (fun (d : DimG) v => f d.varVL v) ds s = List.zipWith f (ds.map DimG.varVL) s := by
      intro ds; rw [List.zipWith_map_left]
    rw [this, this, hv]
  unfold Geom.addrOfSlots
  rw [hva, he, hx.layout, hy.layout, hn]
  have h1 : vecIdxOf x.v.g.dims s = vecIdxOf y.v.g.dims s := hvi fun v a => a / v
  have h2 : vecOfsOf x.v.g.dims s = vecOfsOf y.v.g.dims s := hvi fun v a => a % v
  rw [h1, h2]
  unfold Geom.foldPerm
  rw [hx.firstInner, hy.firstInner, hx.foldLens, hy.foldLens, hx.foldPosns, hy.foldPosns, hn]

end Yask.Var
