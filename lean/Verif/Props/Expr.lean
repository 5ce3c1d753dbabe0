import Verif.Compiler.CseLemmas
import Verif.Compiler.OffsetLemmas

/-!
# Properties of the expression transformations of the compiler (C50, C51)

`Interp` gives a meaning to constants, var points, indices, functions, division and modulus; `+`, `-` and `*` are
those of any commutative ring `K`, i.e., the arithmetic is exact.
-/

namespace Yask
open Comp

section
variable {π K : Type} [DecidableEq π] [CommRing K]

/-! ### C50: flattening, merging and reordering of commutative operators -/

/-- Flattening nested commutative operators always ends and never changes the value. -/
theorem C50_combine (I : Interp π K) (e : NExpr π) : ∃ e', e.combine = .ok e' ∧ e'.val I = e.val I :=
  combine_spec I e

omit [DecidableEq π] in
/-- Adding two expressions with the API makes an expression with the sum as its value, although the operands of
sums are merged. -/
theorem C50_new_add_node (I : Interp π K) (l r : NExpr π) : (mergeNode .add l r).val I = l.val I + r.val I := by
  have key : ∀ e : NExpr π, (((commOps .add e).getD [e]).map (·.val I)).sum = e.val I := by
    intro e
    cases h : commOps .add e with
    | none => simp
    | some bs => rw [commOps_some h, NExpr.val_comm]; rfl
  rw [mergeNode, NExpr.val_comm]
  simp only [List.map_append, List.sum_append, key]

omit [DecidableEq π] in
/-- Likewise for the product. -/
theorem C50_new_multiply_node (I : Interp π K) (l r : NExpr π) :
    (mergeNode .mult l r).val I = l.val I * r.val I := by
  have key : ∀ e : NExpr π, (((commOps .mult e).getD [e]).map (·.val I)).prod = e.val I := by
    intro e
    cases h : commOps .mult e with
    | none => simp
    | some bs => rw [commOps_some h, NExpr.val_comm]; rfl
  rw [mergeNode, NExpr.val_comm]
  simp only [List.map_append, List.prod_append, key]

omit [DecidableEq π] in
/-- Reordering the operands of a commutative operator by the vectors they need always ends, keeps every operand
exactly once, and hence never changes the value. -/
theorem C50_reorder {ρ : Type} [DecidableEq ρ] (I : Interp π K) (need : NExpr π → List ρ) (op : CommOp)
    (ops : List (NExpr π)) :
    ∃ ops', reorder need ops = .ok ops' ∧ ops'.Perm ops ∧ (NExpr.comm op ops').val I = (NExpr.comm op ops).val I := by
  obtain ⟨ops', e, hp⟩ := reorder_spec need ops
  refine ⟨ops', e, hp, ?_⟩
  rw [NExpr.val_comm, NExpr.val_comm]
  cases op
  · exact (hp.map _).sum_eq
  · exact (hp.map _).prod_eq

/-! ### C50: equality of expressions and common-subexpression elimination -/

/-- Two expressions that the compiler considers to be the same have the same value, provided that they contain no
negation or no subtraction. Missing: expressions with both; see `C50_same_wrong`. -/
theorem C50_same_partial (I : Interp π K) (b : Bool) (e1 e2 : NExpr π) (h1 : e1.free b = true) (h2 : e2.free b = true)
    (h : e1.same e2 = true) : e1.val I = e2.val I :=
  (same_sim I b e1 e2 h1 h2 h).2

/-- CSE over all equations always ends and leaves the value of every RHS as it was, in whatever order the nodes
already seen are searched, provided that there is no negation or no subtraction in the equations. Missing:
equations with both; see `C50_cse_wrong`, `C50_cse_cycle`. -/
theorem C50_cse_partial (I : Interp π K) (N : Nat) (h : Heap π) (hw : h.WellFormed N)
    (hns : (∀ id < N, (h id).1 ≠ .neg) ∨ (∀ id < N, (h id).1 ≠ .bin .sub))
    (ord : List Nat → List Nat) (hord : ∀ l, (ord l).Perm l)
    (eqns : List Nat) (he : ∀ id ∈ eqns, id < N ∧ (h id).1 = .eqn) :
    ∃ h', cse N ord h eqns = .ok h' ∧
      ∀ id ∈ eqns, ∃ v, h.rhsValue I N id = some v ∧ h'.rhsValue I N id = some v := by
  obtain ⟨b, hb⟩ : ∃ b : Bool, ∀ id < N, (h id).1.okFor b := by
    rcases hns with hn | hn
    · refine ⟨true, fun id hid => ?_⟩
      have := hn id hid
      cases hh : (h id).1 with
      | bin op => cases op <;> simp [Head.okFor]
      | neg => exact absurd hh this
      | _ => simp [Head.okFor]
    · refine ⟨false, fun id hid => ?_⟩
      have := hn id hid
      cases hh : (h id).1 with
      | bin op =>
        cases op with
        | sub => exact absurd hh this
        | _ => simp [Head.okFor]
      | _ => simp [Head.okFor]
  have h0 := heapOk_of_order I N b h hw.arity hw.order hw.noEqn hb
  obtain ⟨h', e, h1, hhead, hlen⟩ := cse_spec hord h0 eqns fun id hid => (he id hid).1
  refine ⟨h', e, fun id hid => ⟨nodeVal I h N id, ?_⟩⟩
  obtain ⟨hid, heq⟩ := he id hid
  have key : ∀ g : Heap π, HeapOk I N b g (nodeDepth h N) (nodeVal I h N) → (g id).1 = .eqn →
      g.rhsValue I N id = some (nodeVal I h N id) := by
    intro g hg hge
    have ha := hg.arity id hid
    rw [hge] at ha
    obtain ⟨c, hc⟩ := List.length_eq_one_iff.1 ha
    have hcc := hg.child id hid c (by simp [hc])
    obtain ⟨t, ht, htok⟩ := tree_spec hg N c hcc.1 (hg.lt c hcc.1) hcc.2
    have hv := hg.val id hid
    rw [hge, hc] at hv
    unfold Heap.rhsValue Heap.valueAt
    rw [hc]
    simp only [List.head?_cons, Option.bind_some, ht, Option.map_some, htok.2.1, hv]
    rfl
  exact ⟨key h h0 heq, key h' h1 ((hhead id).trans heq)⟩

end

/-! The meaning of the examples: numbers are themselves, `a` is 5 and every other var point is 3. -/

/-- Rational arithmetic; indices are 10, var points as given. -/
def ratInterp (ix : String → IndexType → ℚ) (pt : String → ℚ) : Interp String ℚ where
  const := id
  code _ := 0
  index := ix
  point := pt
  div := (· / ·)
  mod := modVal
  func _ _ := 0

/-- The values used in the examples. -/
def exInterp : Interp String ℚ := ratInterp (fun _ _ => 10) fun p => if p = "a" then 5 else 3

/-- `(a + b) * c + (b + a) * c` with all nodes distinct, and a second equation with the RHS `a + b`. -/
def exHeap : Heap String := fun id =>
  ([(.point "a", []), (.point "b", []), (.comm .add, [0, 1]), (.point "c", []), (.comm .mult, [2, 3]),
    (.point "b", []), (.point "a", []), (.comm .add, [5, 6]), (.point "c", []), (.comm .mult, [7, 8]),
    (.comm .add, [4, 9]), (.eqn, [10]), (.point "a", []), (.point "b", []), (.comm .add, [12, 13]),
    (.eqn, [14])] : List (Head String × List Nat)).getD id (.point "", [])

example : exHeap.WellFormed 16 ∧ ∀ id < 16, (exHeap id).1 ≠ .neg :=
  ⟨⟨by decide +kernel, by decide +kernel, by decide +kernel⟩, by decide +kernel⟩

/-- The second product and the second RHS become references to the first ones. -/
example : (cse 16 id exHeap [11, 15] >>= fun h => .ok ((h 10).2, (h 15).2,
      exHeap.rhsValue exInterp 16 11, h.rhsValue exInterp 16 11, h.rhsValue exInterp 16 15))
    = .ok ([4, 4], [2], some 48, some 48, some 8) := by decide +kernel

/-- `-b` is considered to be the same as `a - b` (but not the other way round). -/
theorem C50_same_wrong : ∃ (e1 e2 : NExpr String) (I : Interp String ℚ),
    e1.same e2 = true ∧ e2.same e1 = false ∧ e1.val I ≠ e2.val I :=
  ⟨.neg (.point "b"), .bin .sub (.point "a") (.point "b"), exInterp, by decide +kernel⟩

/-- `a - b` in one equation and `-b` in another one. -/
def exNeg : Heap String := fun id =>
  ([(.point "a", []), (.point "b", []), (.bin .sub, [0, 1]), (.eqn, [2]), (.point "b", []), (.neg, [4]),
    (.eqn, [5])] : List (Head String × List Nat)).getD id (.point "", [])

/-- C50 fails for CSE: of the two equations with the RHS `a - b` and `-b`, the second one is changed to `a - b`. -/
theorem C50_cse_wrong : ∃ (N : Nat) (h : Heap String) (eqns : List Nat) (id : Nat) (I : Interp String ℚ)
    (h' : Heap String) (v v' : ℚ), h.WellFormed N ∧ (∀ id ∈ eqns, id < N ∧ (h id).1 = .eqn) ∧ id ∈ eqns ∧
    cse N (fun l => l) h eqns = .ok h' ∧ h.rhsValue I N id = some v ∧ h'.rhsValue I N id = some v' ∧ v ≠ v' := by
  have e : (cse 7 (fun l => l) exNeg [3, 6] >>= fun h' => .ok (exNeg.rhsValue exInterp 7 6, h'.rhsValue exInterp 7 6))
      = .ok (some (-3), some 2) := by decide +kernel
  have hw : exNeg.WellFormed 7 := ⟨by decide +kernel, by decide +kernel, by decide +kernel⟩
  revert e
  cases hc : cse 7 (fun l => l) exNeg [3, 6] with
  | ok h' =>
    intro e
    simp only [Outcome.bind_ok, Outcome.ok.injEq, Prod.mk.injEq] at e
    exact ⟨7, exNeg, [3, 6], 6, exInterp, h', -3, 2, hw, by decide +kernel, by decide, hc, e.1, e.2, by norm_num⟩
  | throws => intro e; cases e
  | undefined => intro e; cases e

/-- `(b + -b) - b`. -/
def exCycle : Heap String := fun id =>
  ([(.point "b", []), (.neg, [0]), (.comm .add, [0, 1]), (.bin .sub, [2, 0]), (.eqn, [3])]
    : List (Head String × List Nat)).getD id (.point "", [])

/-- C50 fails for CSE in another way: in `(b + -b) - b` the `-b` is replaced by the whole expression, which then
contains itself, so that the visitors that follow never return. -/
theorem C50_cse_cycle : ∃ (N : Nat) (h : Heap String) (eqns : List Nat) (h' : Heap String) (id c : Nat),
    h.WellFormed N ∧ (∀ id ∈ eqns, id < N ∧ (h id).1 = .eqn) ∧ cse N (fun l => l) h eqns = .ok h' ∧
    c ∈ (h' id).2 ∧ id ∈ (h' c).2 ∧ ∀ n, h'.tree n id = none := by
  have e : (cse 5 (fun l => l) exCycle [4] >>= fun h' => .ok ((h' 3).2, (h' 2).2)) = .ok ([2, 0], [0, 3]) := by
    decide +kernel
  have hw : exCycle.WellFormed 5 := ⟨by decide +kernel, by decide +kernel, by decide +kernel⟩
  revert e
  cases hc : cse 5 (fun l => l) exCycle [4] with
  | ok h' =>
    intro e
    simp only [Outcome.bind_ok, Outcome.ok.injEq, Prod.mk.injEq] at e
    refine ⟨5, exCycle, [4], h', 3, 2, hw, by decide +kernel, hc, by simp [e.1], by simp [e.2], ?_⟩
    have key : ∀ n, h'.tree n 3 = none ∧ h'.tree n 2 = none := by
      intro n
      induction n with
      | zero => exact ⟨rfl, rfl⟩
      | succ n ih =>
        constructor
        · simp only [Heap.tree, e.1, List.map_cons, ih.2, allSome]
        · simp only [Heap.tree, e.2, List.map_cons, List.map_nil, ih.1]
          cases h'.tree n 0 <;> simp [allSome]
    exact fun n => (key n).1
  | throws => intro e; cases e
  | undefined => intro e; cases e

/-- `1 + (a + (2 * 3 + b))` is flattened to a sum of four operands. -/
example : ((NExpr.comm .add [.const 1, .comm .add [.point "a", .comm .add [.comm .mult [.const 2, .const 3],
      .point "b"]]]).combine >>= fun e => .ok ((commOps .add e).map List.length, e.val exInterp))
    = .ok (some 4, 15) := by decide +kernel

/-- Operands are reordered so that those with the same vectors come together. -/
example : (reorder (π := String) (fun e => match e with | .point p => [p.take 1 |>.toString] | _ => [])
      [.point "a1", .point "b1", .point "a2"] >>= fun l =>
        .ok (l.map fun e => match e with | .point p => p | _ => ""))
    = .ok ["a1", "a2", "b1"] := by decide +kernel

/-! ### C51: offsets of index expressions -/

section
variable {π : Type}

/-- If the index expression of a var access is accepted as an offset from a dimension, then its value is the index
in this dimension plus the offset, for every value `x` of the index and all values of everything else. -/
theorem C51_offset {I : Interp π ℚ} (hI : I.Usual) (dim : String) (x : ℚ) (hs : I.index dim .step = x)
    (hd : I.index dim .domain = x) (e : NExpr π) (o : ℤ) (h : argKind dim e = .ok (.offset o)) :
    e.val I = x + o := by
  unfold argKind at h
  split_ifs at h
  · revert h
    cases e.intVal <;> intro h <;> cases h
  · revert h
    cases ho : e.offsetFrom dim with
    | ok oo =>
      intro h
      simp only [Outcome.bind_ok] at h
      cases oo with
      | none => cases h
      | some i =>
        simp only [Outcome.ok.injEq, ArgKind.offset.injEq] at h
        exact offsetFrom_spec hI dim x hs hd e o (by rw [ho, h])
    | _ => intro h; cases h

/-- If it is accepted as a constant, then it has this value always. -/
theorem C51_const {I : Interp π ℚ} (hI : I.Usual) (dim : String) (e : NExpr π) (c : ℤ)
    (h : argKind dim e = .ok (.const c)) : e.val I = c := by
  unfold argKind at h
  split_ifs at h
  · revert h
    cases hi : e.intVal with
    | ok i =>
      intro h
      simp only [Outcome.bind_ok, Outcome.ok.injEq, ArgKind.const.injEq] at h
      rw [← h]
      exact intVal_spec hI e i hi
    | _ => intro h; cases h
  · revert h
    cases ho : e.offsetFrom dim with
    | ok oo => intro h; simp only [Outcome.bind_ok] at h; cases oo <;> cases h
    | _ => intro h; cases h

/-- The expression that replaces an accepted one has the same value and is itself accepted with the same offset. -/
theorem C51_normal_form {I : Interp π ℚ} (hI : I.Usual) (dim : String) (ty : IndexType)
    (hty : ty = .step ∨ ty = .domain) (o : ℤ) (ho : -2147483648 < o ∧ o ≤ 2147483647) :
    (normOffset dim ty o : NExpr π).val I = I.index dim ty + o ∧
      argKind dim (normOffset dim ty o : NExpr π) = .ok (.offset o) := by
  have hix : (NExpr.index dim ty : NExpr π).offsetFrom dim = .ok (some 0) := by
    rcases hty with rfl | rfl <;> simp [NExpr.offsetFrom]
  have hi : ∀ i : ℤ, -2147483648 ≤ i → i ≤ 2147483647 → toInt i = .ok i := by
    intro i h1 h2
    simp [toInt, isInt, h1, h2]
  have htr : ∀ i : ℤ, trunc (i : ℚ) = i := by
    intro i
    unfold trunc
    split_ifs <;> simp
  have hci : ∀ i : ℤ, -2147483648 ≤ i → i ≤ 2147483647 → (NExpr.const (i : ℚ) : NExpr π).intVal = .ok i := by
    intro i h1 h2
    simp [NExpr.intVal, NExpr.numVal, htr, hi i h1 h2]
  unfold normOffset
  split_ifs with h1 h2
  · constructor
    · rw [NExpr.val_comm]; simp [NExpr.val, hI.const]
    · simp [argKind, NExpr.isConst, NExpr.allConst, NExpr.offsetFrom, NExpr.addOffset, hty.symm,
        hci o (by omega) (by omega), hi o (by omega) (by omega)]
  · constructor
    · simp [NExpr.val, hI.const]
    · have := hci (-o) (by omega) (by omega)
      push_cast at this
      simp [argKind, NExpr.isConst, NExpr.offsetFrom, hty.symm, this, hi o (by omega) (by omega)]
  · have : o = 0 := by omega
    subst this
    constructor
    · simp [NExpr.val]
    · simp only [argKind, NExpr.isConst, hix]; rfl

end

example : exInterp.Usual := ⟨fun _ => rfl, fun _ _ => rfl, fun _ _ => rfl⟩

/-- `(3 + x) - 2 * 4` is accepted as an offset of -5, `7 - 4` as the constant 3, `x * 1`, `x + y` and `x + x` are
neither, and `x + 1/2` is rejected. -/
example :
    argKind (π := String) "x" (.bin .sub (.comm .add [.const 3, .index "x" .domain]) (.comm .mult [.const 2, .const 4]))
      = .ok (.offset (-5)) ∧
    argKind (π := String) "x" (.bin .sub (.const 7) (.const 4)) = .ok (.const 3) ∧
    argKind (π := String) "x" (.comm .mult [.index "x" .domain, .const 1]) = .ok .other ∧
    argKind (π := String) "x" (.comm .add [.index "x" .domain, .index "y" .domain]) = .ok .other ∧
    argKind (π := String) "x" (.comm .add [.index "x" .domain, .index "x" .domain]) = .ok .other ∧
    argKind (π := String) "x" (.comm .add [.index "x" .domain, .bin .div (.const 1) (.const 2)]) = .throws := by
  decide +kernel

end Yask
