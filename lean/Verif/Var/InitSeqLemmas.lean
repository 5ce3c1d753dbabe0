import Verif.Var.InitSeqModel
import Verif.Var.AccessLemmas
import Verif.Props.Arith

/-!
# Lemmas for setting all elements
-/

namespace Yask.Var
open Spec

variable {V : Type}

theorem mem_intRange (r : Ivl) (x : Int) : x ∈ intRange r ↔ r.1 ≤ x ∧ x < r.2 := by
  unfold intRange
  rw [List.mem_map]
  constructor
  · rintro ⟨n, hn, rfl⟩
    rw [List.mem_range] at hn
    omega
  · rintro ⟨h1, h2⟩
    refine ⟨(x - r.1).toNat, ?_, by omega⟩
    rw [List.mem_range]
    omega

/-- The iterations are those from 0 to the number of elements. -/
theorem mem_fillWrites (env : ParForEnv) (g : Geom) (x : Int) :
    x ∈ fillWrites env g ↔ 0 ≤ x ∧ x < g.storageElems := by
  have hc := C36_parallel_for_partial env 0 g.storageElems 1024 (by decide) (.inr rfl) x
  unfold fillWrites
  rw [List.mem_flatMap]
  have : (∃ r ∈ parallelFor env 0 g.storageElems 1024, x ∈ intRange r) ↔
      0 < visits (parallelFor env 0 g.storageElems 1024) x := by
    unfold visits
    rw [List.countP_pos_iff]
    simp [mem_intRange, InIvl]
  rw [this, hc]
  split <;> simp_all

theorem fill_eq (g : Geom) (her : 0 < g.elemReals) (val : Int → Int → V) (order : List Int)
    (h : ∀ i ∈ order, 0 ≤ i ∧ i < g.storageElems) (m : Int → V) :
    ∃ m', fill g val order m = .ok m' ∧ ∀ a, m' a =
      if a / g.elemReals ∈ order then val (a / g.elemReals) (a % g.elemReals) else m a := by
  induction order generalizing m with
  | nil => exact ⟨m, rfl, fun a => by simp⟩
  | cons i is ih =>
    unfold fill wrElem
    rw [if_pos (h i (List.mem_cons_self ..)), Outcome.bind_ok]
    obtain ⟨m', h1, h2⟩ := ih (fun j hj => h j (List.mem_cons_of_mem _ hj))
      (fun a => if i * g.elemReals ≤ a ∧ a < (i + 1) * g.elemReals then val i (a - i * g.elemReals) else m a)
    refine ⟨m', h1, fun a => ?_⟩
    rw [h2]
    have hiff : (i * g.elemReals ≤ a ∧ a < (i + 1) * g.elemReals) ↔ a / g.elemReals = i := by
      rw [← Int.le_ediv_iff_mul_le her, ← Int.ediv_lt_iff_lt_mul her]
      omega
    by_cases h3 : a / g.elemReals ∈ is
    · rw [if_pos h3, if_pos (List.mem_cons_of_mem _ h3)]
    · rw [if_neg h3]
      by_cases h4 : a / g.elemReals = i
      · rw [if_pos (hiff.2 h4), if_pos (by rw [h4]; exact List.mem_cons_self ..), h4]
        congr 1
        have := Int.mul_ediv_add_emod a g.elemReals
        rw [h4] at this
        linarith [mul_comm i g.elemReals]
      · rw [if_neg (fun h' => h4 (hiff.1 h')), if_neg]
        rw [List.mem_cons, not_or]
        exact ⟨h4, h3⟩

/-- All reals of the storage are written, and no others. -/
theorem fill_all (env : ParForEnv) (g : Geom) (her : 0 < g.elemReals) (val : Int → Int → V) (order : List Int)
    (h : order.Perm (fillWrites env g)) (m : Int → V) :
    ∃ m', fill g val order m = .ok m' ∧ ∀ a, m' a =
      if 0 ≤ a ∧ a < g.numReals then val (a / g.elemReals) (a % g.elemReals) else m a := by
  obtain ⟨m', h1, h2⟩ := fill_eq g her val order (fun i hi => (mem_fillWrites env g i).1 (h.mem_iff.1 hi)) m
  refine ⟨m', h1, fun a => ?_⟩
  rw [h2]
  have hiff : a / g.elemReals ∈ order ↔ 0 ≤ a ∧ a < g.numReals := by
    rw [h.mem_iff, mem_fillWrites]
    unfold Geom.storageElems Geom.numReals
    rw [Int.ediv_lt_iff_lt_mul her, Int.le_ediv_iff_mul_le her, zero_mul]
  by_cases h3 : 0 ≤ a ∧ a < g.numReals
  · rw [if_pos h3, if_pos (hiff.2 h3)]
  · rw [if_neg h3, if_neg (fun h' => h3 (hiff.1 h'))]

theorem Geom.Ok.elemReals_pos {g : Geom} (hok : g.Ok) : 0 < g.elemReals := by
  rw [elemReals_eq hok, foldLens_prod hok, ← prodVals_eq]
  apply prodVals_pos
  intro d hd
  obtain ⟨e, he, rfl⟩ := List.mem_map.1 hd
  exact (hok.dims e he).vvl_pos

/-- The address of readable indices is in the storage. -/
theorem readable_addr {g : Geom} (hok : g.Ok) (hs : StepsAlloc g.api) {idx : List Int} (h : Readable g.stepWrap g.api idx) :
    0 ≤ g.addrOfSlots (slots g.dims idx) ∧ g.addrOfSlots (slots g.dims idx) < g.numReals :=
  addrOfSlots_range hok (slots_inSpace hok h.butStep hs)

theorem setAllSameLoop_eq (env : ParForEnv) {g : Geom} (hok : g.Ok) (order : List Int) (h : order.Perm (fillWrites env g))
    (m : Int → V) (val : V) : setAllSameLoop order ⟨g, some m⟩ val = .ok (setAllSame ⟨g, some m⟩ val) := by
  obtain ⟨m', h1, h2⟩ := fill_all env g hok.elemReals_pos (fun _ _ => val) order h m
  unfold setAllSameLoop setAllSame
  simp only
  rw [h1, Outcome.bind_ok, show m' = _ from funext h2]

theorem setAllInSeq_eq [Mul V] [IntCast V] (env : ParForEnv) {g : Geom} (hok : g.Ok) (order : List Int)
    (h : order.Perm (fillWrites env g)) (m : Int → V) (seed : V) : setAllInSeq order ⟨g, some m⟩ seed = .ok ⟨g, some fun a =>
      if 0 ≤ a ∧ a < g.numReals then seqVal g seed (a / g.elemReals) (a % g.elemReals) else m a⟩ := by
  obtain ⟨m', h1, h2⟩ := fill_all env g hok.elemReals_pos (seqVal g seed) order h m
  unfold setAllInSeq
  simp only
  rw [h1, Outcome.bind_ok, show m' = _ from funext h2]

end Yask.Var
