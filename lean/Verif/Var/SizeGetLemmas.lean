import Verif.Var.SizeGetModel
import Verif.Var.ResizeLemmas
import Mathlib.Data.Nat.Bitwise
import Mathlib.Data.List.Forall2

/-!
# Lemmas for the functions that report sizes
-/

namespace Yask.Var

theorem maskLoop_bit (D : SolnDims) (k : DimKind) (p : Nat) : ∀ (ns : List String) (i : Nat) (M : DimMasks),
    ((maskLoop D ns i M).mask k).testBit p = ((M.mask k).testBit p || (decide (i ≤ p) && decide ((ns[p - i]?).map D.kind = some k)))
  | [], i, M => by simp [maskLoop]
  | n :: ns, i, M => by
    rw [maskLoop, maskLoop_bit D k p ns (i + 1)]
    simp only
    have hbit : (1 <<< i).testBit p = decide (i = p) := by rw [Nat.one_shiftLeft, Nat.testBit_two_pow]
    rcases Nat.lt_trichotomy p i with h | h | h
    · have h1 : ¬ i + 1 ≤ p := by omega
      have h2 : ¬ i ≤ p := by omega
      have h3 : ¬ i = p := by omega
      split <;> simp [h1, h2, h3, hbit]
    · subst h
      have h1 : ¬ p + 1 ≤ p := by omega
      split
      · rename_i e; simp [hbit, e]
      · rename_i e; simp [e]
    · have h1 : i + 1 ≤ p := by omega
      have h2 : i ≤ p := by omega
      have h3 : ¬ i = p := by omega
      have e : p - i = (p - (i + 1)) + 1 := by omega
      rw [e, List.getElem?_cons_succ]
      split <;> simp [h1, h2, h3, hbit]

theorem maskLoop_num (D : SolnDims) (k : DimKind) : ∀ (ns : List String) (i : Nat) (M : DimMasks),
    (maskLoop D ns i M).num k = M.num k + ns.countP fun n => decide (D.kind n = k)
  | [], i, M => by simp [maskLoop]
  | n :: ns, i, M => by
    rw [maskLoop, maskLoop_num D k ns (i + 1), List.countP_cons]
    by_cases h : D.kind n = k
    · simp [h]; omega
    · simp [h]

theorem shift_and (p m : Nat) : decide ((1 <<< p) &&& m ≠ 0) = m.testBit p := by
  rw [Nat.one_shiftLeft, Nat.and_comm, Nat.and_two_pow]
  cases m.testBit p <;> simp

/-- A dim is selected if its kind is one of those allowed. -/
theorem selects_eq (v : NamedVar) (okk : DimKind → Bool) (p : Nat) (n : String) (h : v.names[p]? = some n) :
    v.masks.selects okk p = okk (v.soln.kind n) := by
  unfold DimMasks.selects
  simp only [shift_and]
  unfold NamedVar.masks
  simp only [maskLoop_bit, Nat.zero_testBit, Bool.false_or, Nat.zero_le, decide_true, Bool.true_and, Nat.sub_zero, h, Option.map_some,
    Option.some.injEq]
  cases v.soln.kind n <;> simp

theorem vecLoop_eq (v : NamedVar) (f : SizeGet) : ∀ (ds : List DimG) (ns : List String) (p : Nat) (done zeros : List Int),
    ds.length = ns.length → (∀ i, ns[i]? = v.names[p + i]?) →
    zeros.length = (ns.countP fun n => f.okKind (v.soln.kind n)) →
    vecLoop f v.masks ds p done.length (done ++ zeros) =
      .ok (done ++ ((ns.zip ds).filter fun x => f.okKind (v.soln.kind x.1)).map fun x => f.expr x.2)
  | [], ns, p, done, zeros, hl, _, hz => by
    have : ns = [] := List.length_eq_zero_iff.1 hl.symm
    subst this
    have : zeros = [] := List.length_eq_zero_iff.1 (by simpa using hz)
    subst this
    simp [vecLoop]
  | d :: ds, [], p, done, zeros, hl, _, _ => by simp at hl
  | d :: ds, n :: ns, p, done, zeros, hl, hn, hz => by
    have h0 : v.names[p]? = some n := by simpa using (hn 0).symm
    have hn' : ∀ i, ns[i]? = v.names[p + 1 + i]? := by
      intro i
      have := hn (i + 1)
      rw [List.getElem?_cons_succ] at this
      rw [this]
      congr 1
      omega
    rw [vecLoop, selects_eq v f.okKind p n h0]
    rw [List.countP_cons] at hz
    by_cases hk : f.okKind (v.soln.kind n) = true
    · rw [if_pos hk]
      rw [if_pos hk] at hz
      cases zeros with
      | nil => simp at hz
      | cons z zeros =>
        rw [if_pos (by simp)]
        have hset : (done ++ z :: zeros).set done.length (f.expr d) = (done ++ [f.expr d]) ++ zeros := by simp
        have hlen : done.length + 1 = (done ++ [f.expr d]).length := by simp
        rw [hset, hlen, vecLoop_eq v f ds ns (p + 1) (done ++ [f.expr d]) zeros (by simpa using hl) hn' (by simpa using hz)]
        simp [hk]
    · rw [if_neg hk]
      rw [if_neg hk] at hz
      rw [vecLoop_eq v f ds ns (p + 1) done zeros (by simpa using hl) hn' hz]
      simp [hk]

theorem countP_kinds (D : SolnDims) (okk : DimKind → Bool) (ns : List String) :
    (if okk .step then ns.countP (fun n => decide (D.kind n = .step)) else 0) +
      (if okk .domain then ns.countP (fun n => decide (D.kind n = .domain)) else 0) +
      (if okk .misc then ns.countP (fun n => decide (D.kind n = .misc)) else 0) = ns.countP fun n => okk (D.kind n) := by
  induction ns with
  | nil => simp
  | cons n ns ih =>
    simp only [List.countP_cons]
    rw [← ih]
    cases D.kind n <;> cases okk .step <;> cases okk .domain <;> cases okk .misc <;> simp <;> omega

theorem getVec_eq (v : NamedVar) (f : SizeGet) (hl : v.g.dims.length = v.names.length) :
    v.getVec f = .ok (((v.names.zip v.g.dims).filter fun x => f.okKind (v.soln.kind x.1)).map fun x => f.expr x.2) := by
  unfold NamedVar.getVec
  have := vecLoop_eq v f v.g.dims v.names 0 [] (List.replicate (v.names.countP fun n => f.okKind (v.soln.kind n)) 0) hl
    (fun i => by simp) (by simp)
  simp only [List.length_nil, List.nil_append] at this
  rw [← this]
  have hc := countP_kinds v.soln f.okKind v.names
  unfold NamedVar.masks
  simp only [maskLoop_num, Nat.zero_add]
  rw [hc]

theorem checkType_eq (D : SolnDims) (dim : String) (okk : DimKind → Bool) :
    D.checkType dim okk = if okk (D.kind dim) then .ok () else .throws := by
  unfold SolnDims.checkType
  cases h : D.kind dim <;> cases h1 : okk .step <;> cases h2 : okk .domain <;> cases h3 : okk .misc <;> simp [h1, h2, h3]

end Yask.Var
