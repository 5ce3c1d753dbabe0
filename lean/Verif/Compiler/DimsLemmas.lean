import Verif.Compiler.DimsModel
import Verif.Props.Factors

/-!
# Lemmas about the choice of fold lengths
-/

namespace Yask.Dims

variable {D : Type*} [DecidableEq D]

theorem reqLen_pos {req : D → Option Int} {d : D} {p : Int} (h : reqLen req d = some p) : 1 ≤ p := by
  unfold reqLen at h
  rw [Option.filter_eq_some_iff] at h
  have := h.2
  simp only [decide_eq_true_eq] at this
  omega

theorem getD_one_pos {req : D → Option Int} (d : D) : 1 ≤ (reqLen req d).getD 1 := by
  cases h : reqLen req d with
  | none => simp
  | some p => simpa using reqLen_pos h

theorem prod_pos {l : List Int} (h : ∀ x ∈ l, 1 ≤ x) : 1 ≤ l.prod := by
  induction l with
  | nil => simp
  | cons a l ih =>
    rw [List.prod_cons]
    have h1 := h a (by simp)
    have h2 := ih fun x hx => h x (by simp [hx])
    nlinarith

theorem le_prod {l : List Int} (h : ∀ x ∈ l, 1 ≤ x) {x : Int} (hx : x ∈ l) : x ≤ l.prod := by
  induction l with
  | nil => cases hx
  | cons a l ih =>
    rw [List.prod_cons]
    have h1 := h a (by simp)
    have h2 := prod_pos fun x hx => h x (List.mem_cons_of_mem _ hx)
    rcases List.mem_cons.1 hx with rfl | h3
    · nlinarith
    · have := ih (fun x hx => h x (by simp [hx])) h3
      nlinarith

/-- The product of the requested lengths, with 1 elsewhere. -/
theorem prod_requested (req : D → Option Int) (domain : List D) :
    (domain.map fun d => (reqLen req d).getD 1).prod = (domain.filterMap (reqLen req)).prod := by
  induction domain with
  | nil => rfl
  | cons d l ih =>
    rw [List.map_cons, List.prod_cons, ih]
    cases h : reqLen req d with
    | none => rw [List.filterMap_cons_none h]; simp
    | some p => rw [List.filterMap_cons_some h]; simp

/-- The length used for the inner-loop dim (`src/compiler/lib/Settings.cpp:194-205`). -/
def innerSz (domain : List D) (req : D → Option Int) (inner : D) (vlen : Int) : Int :=
  if prodVals (domain.filterMap (reqLen req)) < vlen then
    match reqLen req inner with
    | some p => if vlen.tmod p = 0 then p else 1
    | none => 1
  else 1

theorem innerSz_spec {domain : List D} {req : D → Option Int} {inner : D} {vlen : Int} (hin : inner ∈ domain) (hv : 1 < vlen) :
    1 ≤ innerSz domain req inner vlen ∧ innerSz domain req inner vlen < vlen ∧
    vlen = innerSz domain req inner vlen * vlen.tdiv (innerSz domain req inner vlen) ∧
    1 < vlen.tdiv (innerSz domain req inner vlen) := by
  have key : ∀ s : Int, 1 ≤ s → s < vlen → vlen.tmod s = 0 → vlen = s * vlen.tdiv s ∧ 1 < vlen.tdiv s := by
    intro s h1 h2 h3
    have h4 := Int.mul_tdiv_add_tmod vlen s
    rw [h3] at h4
    refine ⟨by omega, ?_⟩
    by_contra hc
    have h5 : vlen.tdiv s ≤ 1 := by omega
    nlinarith
  have h : 1 ≤ innerSz domain req inner vlen ∧ innerSz domain req inner vlen < vlen ∧
      vlen.tmod (innerSz domain req inner vlen) = 0 := by
    unfold innerSz
    rw [prodVals_eq]
    split_ifs with h1
    · cases hr : reqLen req inner with
      | none => simp only; exact ⟨by omega, hv, by simp⟩
      | some p =>
        simp only
        split_ifs with h2
        · refine ⟨reqLen_pos hr, lt_of_le_of_lt (le_prod ?_ (List.mem_filterMap.2 ⟨inner, hin, hr⟩)) h1, h2⟩
          intro x hx
          obtain ⟨d, _, hd⟩ := List.mem_filterMap.1 hx
          exact reqLen_pos hd
        · exact ⟨by omega, hv, by simp⟩
    · exact ⟨by omega, hv, by simp⟩
  exact ⟨h.1, h.2.1, key _ h.1 h.2.1 h.2.2⟩

/-- Splitting the inner-loop dim off. -/
theorem prod_split {domain : List D} (hnd : domain.Nodup) {inner : D} (hin : inner ∈ domain) (f : D → Int) :
    (domain.map f).prod = f inner * ((domain.filter fun d => decide (d ≠ inner)).map f).prod := by
  have hp : domain.Perm (inner :: domain.erase inner) := List.perm_cons_erase hin
  rw [(hp.map f).prod_eq, List.map_cons, List.prod_cons, hnd.erase_eq_filter]
  congr 3
  apply List.filter_congr
  intro d _
  by_cases h : d = inner <;> simp [h]

theorem lookup_zip : ∀ {names : List D} {sizes : List Int}, names.Nodup → names.length = sizes.length →
    (names.map fun d => ((names.zip sizes).lookup d).getD 1) = sizes := by
  intro names
  induction names with
  | nil => intro sizes _ h; simp at h; simp [List.eq_nil_of_length_eq_zero h.symm]
  | cons n names ih =>
    intro sizes hnd h
    cases sizes with
    | nil => simp at h
    | cons s sizes =>
      rw [List.nodup_cons] at hnd
      rw [List.zip_cons_cons, List.map_cons]
      rw [List.lookup_cons_self, Option.getD_some]
      congr 1
      have := ih hnd.2 (by simpa using h)
      refine Eq.trans (List.map_congr_left fun d hd => ?_) this
      have : d ≠ n := fun e => hnd.1 (e ▸ hd)
      rw [List.lookup_cons, beq_false_of_ne this]

variable [Inhabited D]

/-- Lengths of the dims other than the inner-loop dim (`src/compiler/lib/Settings.cpp:207-236`). -/
def otherFolds (domain : List D) (req : D → Option Int) (inner : D) (upper : Int) (eff : Bool) : D → Option Int :=
  if eff then
    let names := (domain.filter fun d => decide (d ≠ inner)).reverse
    fun d => (names.zip (compactFactors (names.map fun d => (reqLen req d).getD 0) upper)).lookup d
  else fun d => if d = nearInner domain then some upper else none

theorem setFold_eq (domain : List D) (req : D → Option Int) (inner : D) (vlen : Int) (eff : Bool) :
    setFold domain req inner vlen eff =
      if vlen > 1 ∧ (domain.map fun d => (reqLen req d).getD 1).prod ≠ vlen then
        if domain.length = 1 then .ok [vlen]
        else
          if (domain.map fun d => if d = inner then innerSz domain req inner vlen else
            (otherFolds domain req inner (vlen.tdiv (innerSz domain req inner vlen)) eff d).getD 1).prod ≠ vlen then .throws
          else .ok (domain.map fun d => if d = inner then innerSz domain req inner vlen else
            (otherFolds domain req inner (vlen.tdiv (innerSz domain req inner vlen)) eff d).getD 1)
      else .ok (domain.map fun d => (reqLen req d).getD 1) := by
  unfold setFold innerSz
  simp only [prodVals_eq]
  rfl

/-- The numbers of points in the dims other than the inner-loop dim, if folding is efficient. -/
theorem others_eff {domain : List D} (hnd : domain.Nodup) {req : D → Option Int} {inner : D} {upper : Int} (hu : 1 < upper)
    (h2 : ∃ d ∈ domain, d ≠ inner) :
    let names := (domain.filter fun d => decide (d ≠ inner)).reverse
    let vals := names.map fun d => (reqLen req d).getD 0
    (names.map fun d => (otherFolds domain req inner upper true d).getD 1) = compactFactors vals upper ∧
    IsGrid vals upper (compactFactors vals upper) := by
  intro names vals
  have hv0 : ∀ v ∈ vals, 0 ≤ v := by
    intro v hv
    obtain ⟨d, _, rfl⟩ := List.mem_map.1 hv
    cases h : reqLen req d with
    | none => simp
    | some p => have := reqLen_pos h; simp; omega
  have hne : vals ≠ [] := by
    obtain ⟨d, hd, hdi⟩ := h2
    have : d ∈ names := by simp [names, hd, hdi]
    exact List.ne_nil_of_mem (List.mem_map.2 ⟨d, this, rfl⟩)
  have hg := (C33_valid_grid_partial vals upper hu hne hv0).1
  refine ⟨?_, hg⟩
  have : names.Nodup := List.nodup_reverse.2 (hnd.filter _)
  exact lookup_zip this (by rw [hg.1]; exact (List.length_map _).symm)

end Yask.Dims
