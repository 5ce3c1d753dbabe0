import Verif.Compiler.AstRun
import Verif.Compiler.PrintEval

/-! Helper lemmas: values of variables after any calls. -/

namespace Yask.Comp
open Spec

variable {π K : Type} [CommRing K] (I : Interp π K)

omit [CommRing K] in
theorem inv_nil : ({} : Ast π).Inv fun _ => False :=
  ⟨NodesOk.nil, by simp, by simp, by simp⟩

/-- Some values of conditions, where they do not matter. -/
def noCmp : CmpInterp K := fun _ _ _ => false

theorem reach_inv {cs : List (Call π)} {s : Ast π} (h : Ast.run {} cs = .ok s) : ∃ priv, s.Inv priv := by
  obtain ⟨p, h1, _⟩ := run_later (K := ℚ) ⟨fun q => q, fun _ => 0, fun _ _ => 0, fun _ => 0, fun _ _ => 0, fun _ _ => 0, fun _ _ => 0⟩ noCmp
    (inv_nil (π := π)) h
  exact ⟨p, h1⟩

theorem valueAt_of {ns : List (Head π × List Nat)} {priv : Nat → Prop} (h : NodesOk ns priv) {a : Nat} (ha : a < ns.length) :
    (heapOf ns).valueAt I ns.length a = some (nodeValue I ns a) := by
  obtain ⟨t, ht⟩ := Option.isSome_iff_exists.1 (h.total a ha)
  unfold nodeValue Heap.valueAt
  rw [ht]
  rfl

omit [CommRing K] in
theorem ptr_iff {s : Ast π} {r : Nat} {p : Option Nat} : s.ptr r = .ok p ↔ s.ptrs[r]? = some p := by
  unfold Ast.ptr
  cases s.ptrs[r]? <;> simp

theorem varVal_of {s : Ast π} {priv : Nat → Prop} (h : s.Inv priv) {r a : Nat} (e : s.ptr r = .ok (some a)) :
    varVal I s r = some (nodeValue I s.nodes a) := by
  unfold varVal
  rw [ptr_iff.1 e]
  exact valueAt_of I h.nodes (ptrOk_of h e a rfl).1

theorem varVal_some {s : Ast π} {priv : Nat → Prop} (h : s.Inv priv) {r : Nat} {v : K} (e : varVal I s r = some v) :
    ∃ a, s.ptr r = .ok (some a) ∧ a < s.nodes.length ∧ ¬ priv a ∧ v = nodeValue I s.nodes a := by
  have e' := e
  unfold varVal at e
  cases hp : s.ptrs[r]? with
  | none => rw [hp] at e; cases e
  | some p =>
    rw [hp] at e
    cases p with
    | none => cases e
    | some a =>
      have hr := ptr_iff.2 hp
      rw [varVal_of I h hr] at e'
      injection e' with e'
      obtain ⟨h1, h2⟩ := ptrOk_of h hr a rfl
      exact ⟨a, hr, h1, h2, e'.symm⟩

omit [CommRing K] in
/-- A variable that was used had its pointer then. -/
theorem ptr_back {s s' : Ast π} (h : ∃ l, s'.ptrs = s.ptrs ++ l) {r : Nat} {p q : Option Nat} (e : s.ptr r = .ok p) (e' : s'.ptr r = .ok q) :
    s.ptr r = .ok q := by
  rw [ptr_later h e] at e'
  injection e' with e'
  rw [← e']
  exact e

/-- Values of nodes that are not shared stay. -/
theorem priv_val {s s' : Ast π} {priv priv' M : Nat → Prop} (h : s.Inv priv) (h' : s'.Inv priv') (hl : Later s priv s' priv' M) {id : Nat}
    (hid : priv id) : nodeValue I s'.nodes id = nodeValue I s.nodes id :=
  nodeValue_congr I (P := priv) (fun i hi => hl.node i (h.nodes.lt i hi) fun hm => hl.kept i hm hi)
    (fun i hi c hc => h.nodes.closed i (h.nodes.lt i hi) (.inl hi) c hc) hid (h.nodes.total id (h.nodes.lt id hid))
    (h'.nodes.total id (h'.nodes.lt id (hl.priv_mono id hid)))

/-- A node with operands that are not shared keeps its value. -/
theorem frozen_val {s s' : Ast π} {priv priv' M : Nat → Prop} (h : s.Inv priv) (h' : s'.Inv priv') (hl : Later s priv s' priv' M) {a : Nat}
    (ha : a < s.nodes.length) (hc : ∀ c ∈ (heapOf s.nodes a).2, priv c) (hm : ¬ M a) :
    nodeValue I s'.nodes a = nodeValue I s.nodes a := by
  rw [h'.nodes.value I (by have := hl.len; omega), h.nodes.value I ha, hl.node a ha hm]
  congr 1
  exact List.map_congr_left fun c hcc => priv_val I h h' hl (hc c hcc)

omit [CommRing K] in
theorem run_cons {s s' : Ast π} {c : Call π} {cs : List (Call π)} (e : s.run (c :: cs) = .ok s') :
    ∃ s1, s.step c = .ok s1 ∧ s1.run cs = .ok s' := by
  rw [Ast.run] at e
  cases e1 : s.step c with
  | ok s1 => rw [e1] at e; exact ⟨s1, rfl, e⟩
  | throws => rw [e1] at e; cases e
  | undefined => rw [e1] at e; cases e

omit [CommRing K] in
theorem run_append {s : Ast π} {cs cs' : List (Call π)} : s.run (cs ++ cs') = (s.run cs).bind (·.run cs') := by
  induction cs generalizing s with
  | nil => rfl
  | cons c cs ih =>
    simp only [List.cons_append, Ast.run]
    cases s.step c with
    | ok s1 => exact ih
    | throws => rfl
    | undefined => rfl

/-- The node of a negation or binary operator is never changed. -/
theorem fixed_node {s s' : Ast π} {priv : Nat → Prop} (h : s.Inv priv) {cs : List (Call π)} (e : s.run cs = .ok s') {a : Nat}
    (ha : a < s.nodes.length) (hn : (heapOf s.nodes a).1 = .neg ∨ ∃ op, (heapOf s.nodes a).1 = .bin op) :
    heapOf s'.nodes a = heapOf s.nodes a := by
  induction cs generalizing s priv with
  | nil =>
    injection e with e
    rw [e]
  | cons c cs ih =>
    obtain ⟨s1, e1, e2⟩ := run_cons e
    have key : heapOf s1.nodes a = heapOf s.nodes a ∧ s.nodes.length ≤ s1.nodes.length ∧ ∃ p, s1.Inv p := by
      let J : Interp π ℚ := ⟨fun q => q, fun _ => 0, fun _ _ => 0, fun _ => 0, fun _ _ => 0, fun _ _ => 0, fun _ _ => 0⟩
      obtain ⟨p1, h1, l1⟩ := step_later J noCmp h e1
      refine ⟨l1.node a ha fun hm => ?_, l1.len, p1, h1⟩
      cases c with
      | setValue r q =>
        obtain ⟨b, _, hb, ⟨q', hq⟩, _⟩ := set_step h e1
        have hm : s.ptr r = .ok (some a) := hm
        rw [hb] at hm
        injection hm with hm
        injection hm with hm
        subst hm
        rw [hq] at hn
        simp at hn
      | addOperand r x =>
        obtain ⟨b, _, op, _, hb, _, hq, _⟩ := add_step J h e1
        have hm : s.ptr r = .ok (some a) := hm
        rw [hb] at hm
        injection hm with hm
        injection hm with hm
        subst hm
        rw [hq] at hn
        simp at hn
      | _ => exact hm.elim
    obtain ⟨k1, k2, p, k3⟩ := key
    rw [ih k3 e2 (by omega) (by rw [k1]; exact hn), k1]

/-- After a call that makes a node with shared operands. -/
theorem shared_val {s s1 s' : Ast π} {priv : Nat → Prop} (h : s.Inv priv) {cs : List (Call π)} (e1 : ∃ c, s.step c = .ok s1) (e : s1.run cs = .ok s')
    {hd : Head π} {l : List Nat} (hs1 : s1 = s.push (s.nodes ++ [(hd, l)], some s.nodes.length)) (hn : hd = .neg ∨ ∃ op, hd = .bin op) :
    varVal I s' s.ptrs.length = some (hd.val I (l.map (nodeValue I s'.nodes))) := by
  obtain ⟨c, e1⟩ := e1
  obtain ⟨p1, h1, l1⟩ := step_later I noCmp h e1
  obtain ⟨p2, h2, l2⟩ := run_later I noCmp h1 e
  have hlen : s.nodes.length < s1.nodes.length := by rw [hs1]; simp [Ast.push]
  have hh : heapOf s1.nodes s.nodes.length = (hd, l) := by
    rw [hs1]
    exact heapOf_append_right (ns := s.nodes) (l := [(hd, l)]) (i := 0) (by simp)
  have hf := fixed_node h1 e hlen (by rw [hh]; exact hn)
  have hp : s1.ptr s.ptrs.length = .ok (some s.nodes.length) := by
    rw [ptr_iff, hs1]
    simp [Ast.push]
  rw [varVal_of I h2 (ptr_later l2.ptrs hp), h2.nodes.value I (by have := l2.len; omega), hf, hh]

/-- After a call that makes a node with copied operands. -/
theorem copied_val {s1 s' : Ast π} {priv : Nat → Prop} (h1 : s1.Inv priv) {cs : List (Call π)} (e : s1.run cs = .ok s') {r a : Nat}
    (hp : s1.ptr r = .ok (some a)) (hc : ∀ c ∈ (heapOf s1.nodes a).2, priv c) (hu : Untouched s' r cs) : varVal I s' r = varVal I s1 r := by
  obtain ⟨p2, h2, l2⟩ := run_later I noCmp h1 e
  have hp2 := ptr_later l2.ptrs hp
  rw [varVal_of I h2 hp2, varVal_of I h1 hp]
  congr 1
  refine frozen_val I h1 h2 l2 (ptrOk_of h1 hp a rfl).1 hc ?_
  rintro ⟨c, hcc, hch⟩
  rw [ptr_iff] at hp2
  cases c with
  | setValue r' q => exact hu.1 r' q hcc (by rw [hp2]; exact ptr_iff.1 hch)
  | addOperand r' x => exact hu.2 r' x hcc (by rw [hp2]; exact ptr_iff.1 hch)
  | _ => exact hch.elim

theorem varVal_plain (cmp : CmpInterp K) {s : Ast π} {priv : Nat → Prop} (h : s.Inv priv) (r : Nat) (v : K) :
    varVal I s r = some v ↔ ∃ k, (plainOf I cmp s).vars[r]? = some (some (k, v)) := by
  have : (plainOf I cmp s).vars[r]? = s.ptrs[r]?.map (Option.map (nodeItem I s.nodes)) := by simp [plainOf]
  rw [this]
  constructor
  · intro e
    obtain ⟨a, hp, _, _, rfl⟩ := varVal_some I h e
    rw [ptr_iff.1 hp]
    exact ⟨_, rfl⟩
  · rintro ⟨k, e⟩
    cases hp : s.ptrs[r]? with
    | none => rw [hp] at e; cases e
    | some p =>
      cases p with
      | none => rw [hp] at e; cases e
      | some a =>
        rw [hp] at e
        rw [varVal_of I h (ptr_iff.2 hp)]
        injection e with e
        injection e with e
        rw [nodeItem] at e
        injection e with e1 e2
        rw [e2]

/-- A step whose meaning is a new variable with a value. -/
theorem new_val (cmp : CmpInterp K) {s s1 : Ast π} {priv : Nat → Prop} (h : s.Inv priv) {c : Call π} (hc : c.changes = false)
    (e1 : s.step c = .ok s1) {k : Kind π} {v : K} (hs : (plainOf I cmp s).step I cmp c = (plainOf I cmp s).new (some (k, v))) :
    varVal I s1 s.ptrs.length = some v := by
  have h1 := step_ok I cmp h c hc
  rw [hs] at h1
  obtain ⟨s2, p2, e2, i2, _, q2⟩ := h1
  rw [e1] at e2
  injection e2 with e2
  subst e2
  rw [varVal_plain I cmp i2]
  refine ⟨k, ?_⟩
  rw [q2]
  have : (plainOf I cmp s).vars.length = s.ptrs.length := by simp [plainOf]
  simp [← this]

theorem var_of_val (cmp : CmpInterp K) {s : Ast π} {priv : Nat → Prop} (h : s.Inv priv) {r : Nat} {v : K} (e : varVal I s r = some v) :
    ∃ k, (plainOf I cmp s).var r = .ok (some (k, v)) ∧ (plainOf I cmp s).item r = .ok (k, v) := by
  obtain ⟨k, hk⟩ := (varVal_plain I cmp h r v).1 e
  refine ⟨k, ?_, ?_⟩
  · unfold Plain.var
    rw [hk]
  · unfold Plain.item
    rw [hk]

theorem items_of_val (cmp : CmpInterp K) {s : Ast π} {priv : Nat → Prop} (h : s.Inv priv) {rs : List Nat} {vs : List K}
    (e : rs.map (varVal I s) = vs.map some) : ∃ xs, (plainOf I cmp s).items rs = .ok xs ∧ xs.map (·.2) = vs := by
  induction rs generalizing vs with
  | nil =>
    cases vs with
    | nil => exact ⟨[], rfl, rfl⟩
    | cons v vs => cases e
  | cons r rs ih =>
    cases vs with
    | nil => cases e
    | cons v vs =>
      simp only [List.map_cons, List.cons.injEq] at e
      obtain ⟨k, _, hk⟩ := var_of_val I cmp h e.1
      obtain ⟨xs, hx, hv⟩ := ih e.2
      refine ⟨(k, v) :: xs, ?_, by simp [hv]⟩
      unfold Plain.items
      rw [hk, hx]
      rfl

/-- A call that makes a node of a sum, product or function. -/
theorem copies_frozen {s1 : Ast π} {priv : Nat → Prop} (h1 : s1.Inv priv) {ns : List (Head π × List Nat)} {hd : Head π} {cs : List Nat}
    (hn : s1.nodes = ns ++ [(hd, cs)]) (hd' : hd.copies) : ∀ c ∈ (heapOf s1.nodes ns.length).2, priv c := by
  have hh : heapOf s1.nodes ns.length = (hd, cs) := by
    rw [hn]
    exact heapOf_append_right (ns := ns) (l := [(hd, cs)]) (i := 0) (by simp)
  exact h1.nodes.closed ns.length (by rw [hn]; simp) (.inr (by rw [hh]; exact hd'))

/-! ### The heap for common-subexpression elimination -/

/-- Operands are made before the node. -/
theorem order_run {s s' : Ast π} {priv : Nat → Prop} (h : s.Inv priv) (ho : ∀ id < s.nodes.length, ∀ c ∈ (heapOf s.nodes id).2, c < id)
    {cs : List (Call π)} (hcs : ∀ r x, .addOperand r x ∉ cs) (e : s.run cs = .ok s') :
    ∀ id < s'.nodes.length, ∀ c ∈ (heapOf s'.nodes id).2, c < id := by
  let J : Interp π ℚ := ⟨fun q => q, fun _ => 0, fun _ _ => 0, fun _ => 0, fun _ _ => 0, fun _ _ => 0, fun _ _ => 0⟩
  induction cs generalizing s priv with
  | nil =>
    injection e with e
    rw [← e]
    exact ho
  | cons c cs ih =>
    obtain ⟨s1, e1, e2⟩ := run_cons e
    obtain ⟨p1, h1, l1⟩ := step_later J noCmp h e1
    refine ih h1 ?_ (fun r x hx => hcs r x (List.mem_cons_of_mem _ hx)) e2
    intro id hid d hd
    by_cases hm : s.changed c id
    · cases c with
      | setValue r q =>
        obtain ⟨b, _, hb, _, hq, _⟩ := set_step h e1
        have hm : s.ptr r = .ok (some id) := hm
        rw [hb] at hm
        injection hm with hm
        injection hm with hm
        subst hm
        rw [hq] at hd
        simp at hd
      | addOperand r x => exact (hcs r x List.mem_cons_self).elim
      | _ => exact hm.elim
    · by_cases hl : id < s.nodes.length
      · rw [l1.node id hl hm] at hd
        exact ho id hl d hd
      · exact l1.fresh id hid (by omega) hm d hd

/-! ### Integers -/

omit [CommRing K] in
theorem nearestEven_int (i : ℤ) : nearestEven (i : ℚ) = i := by
  unfold nearestEven
  simp

omit [CommRing K] in
theorem toDouble_near (i : Int) : |toDouble i - i| * 2 ^ 53 ≤ |i| := by
  by_cases hi : i = 0
  · subst hi
    decide +kernel
  unfold toDouble
  simp only
  by_cases hb : Nat.log2 i.natAbs ≤ 52
  · rw [Nat.sub_eq_zero_of_le hb]
    simp only [pow_zero, div_one, mul_one, nearestEven_int]
    simp
  · set e := Nat.log2 i.natAbs - 52 with he
    obtain ⟨k, hk⟩ : ∃ k, e = k + 1 := ⟨e - 1, by omega⟩
    have h1 : 2 ^ (e + 52) ≤ i.natAbs := by
      have : e + 52 = Nat.log2 i.natAbs := by omega
      rw [this]
      exact Nat.log2_self_le (by omega)
    obtain ⟨_, _, h2⟩ := nearestEven_spec ((i : ℚ) / 2 ^ e)
    have h3 : |((nearestEven ((i : ℚ) / 2 ^ e) * 2 ^ e - i : ℤ) : ℚ)| ≤ 2 ^ k := by
      have hpos : (0 : ℚ) < 2 ^ e := by positivity
      have : ((nearestEven ((i : ℚ) / 2 ^ e) * 2 ^ e - i : ℤ) : ℚ) = -(((i : ℚ) / 2 ^ e - nearestEven ((i : ℚ) / 2 ^ e)) * 2 ^ e) := by
        push_cast
        field_simp
        ring
      rw [this, abs_neg, abs_mul, abs_of_pos hpos, hk, pow_succ]
      rw [hk, pow_succ] at h2
      have hk0 : (0 : ℚ) < 2 ^ k := by positivity
      nlinarith
    have h4 : |nearestEven ((i : ℚ) / 2 ^ e) * 2 ^ e - i| ≤ 2 ^ k := by exact_mod_cast h3
    have h5 : (2 : ℤ) ^ (e + 52) ≤ |i| := by
      rw [Int.abs_eq_natAbs]
      exact_mod_cast h1
    rw [hk, show k + 1 + 52 = k + 53 by omega, pow_add] at h5
    rw [hk] at h4 ⊢
    nlinarith

omit [CommRing K] in
theorem toDouble_small {i : Int} (h : |i| ≤ 2 ^ 53) : toDouble i = i := by
  have h1 := toDouble_near i
  by_cases he : |i| = 2 ^ 53
  · rcases abs_eq (by norm_num : (0 : ℤ) ≤ 2 ^ 53) |>.1 he with rfl | rfl <;> decide +kernel
  · have h2 : |i| < 2 ^ 53 := lt_of_le_of_ne h he
    have h3 : |toDouble i - i| * 2 ^ 53 < 2 ^ 53 := lt_of_le_of_lt h1 h2
    have h4 : |toDouble i - i| < 1 := by nlinarith
    have := Int.abs_lt_one_iff.1 h4
    omega

end Yask.Comp
