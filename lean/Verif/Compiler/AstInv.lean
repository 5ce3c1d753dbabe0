import Verif.Compiler.AstSteps

/-! Helper lemmas: what holds after every call that builds expressions or equations. -/

namespace Yask.Comp
open Spec

variable {π K : Type}

/-- The operands of a condition exist: `n` is the number of nodes, `i` that of the conditions before. -/
def BNode.Ok (n i : Nat) : BNode → Prop
  | .not a => a < i
  | .and a b => a < i ∧ b < i
  | .or a b => a < i ∧ b < i
  | .cmp _ l r => l < n ∧ r < n

/-- The condition of an equation exists. -/
def CondOk (n : Nat) (c : Option Nat) : Prop := ∀ b, c = some b → b < n

/-- All pointers are valid. -/
structure Ast.Inv (s : Ast π) (priv : Nat → Prop) : Prop where
  nodes : NodesOk s.nodes priv
  ptr : ∀ p ∈ s.ptrs, PtrOk s.nodes priv p
  bool : ∀ i (h : i < s.bools.length), (s.bools[i]).Ok s.nodes.length i
  eq : ∀ e ∈ s.eqs, e.rhs < s.nodes.length ∧ CondOk s.bools.length e.cond ∧ CondOk s.bools.length e.step

/-- `s'` is a later state than `s`, in which only the nodes in `M` have changed. -/
structure Later (s : Ast π) (priv : Nat → Prop) (s' : Ast π) (priv' : Nat → Prop) (M : Nat → Prop) : Prop where
  len : s.nodes.length ≤ s'.nodes.length
  priv_mono : ∀ id, priv id → priv' id
  ptrs : ∃ l, s'.ptrs = s.ptrs ++ l
  bools : ∃ l, s'.bools = s.bools ++ l
  node : ∀ id < s.nodes.length, ¬ M id → heapOf s'.nodes id = heapOf s.nodes id
  fresh : ∀ id < s'.nodes.length, s.nodes.length ≤ id → ¬ M id → ∀ c ∈ (heapOf s'.nodes id).2, c < id
  kept : ∀ id, M id → ¬ priv id
  eqn : ∀ i (h : i < s.eqs.length), ∃ e, s'.eqs[i]? = some e ∧ e.lhs = s.eqs[i].lhs ∧ e.rhs = s.eqs[i].rhs

theorem BNode.Ok.mono {n n' i : Nat} (hn : n ≤ n') {b : BNode} (h : b.Ok n i) : b.Ok n' i := by
  cases b <;> simp only [BNode.Ok] at h ⊢ <;> omega

section
variable [CommRing K] (I : Interp π K) (cmp : CmpInterp K)

theorem condVals_append (v : Nat → K) (bs : List BNode) (b : BNode) :
    condVals cmp v (bs ++ [b]) = condVals cmp v bs ++ [condVal cmp v (condVals cmp v bs) b] := by
  simp [condVals]

theorem condVals_congr {v v' : Nat → K} {n : Nat} (hv : ∀ id < n, v' id = v id) :
    ∀ bs : List BNode, (∀ i (h : i < bs.length), (bs[i]).Ok n i) → condVals cmp v' bs = condVals cmp v bs := by
  intro bs
  induction bs using List.reverseRecOn with
  | nil => intro _; rfl
  | append_singleton bs b ih =>
    intro h
    have h1 := ih fun i hi => by
      have := h i (by simp; omega)
      rwa [List.getElem_append_left hi] at this
    have h2 := h bs.length (by simp)
    simp only [List.getElem_append_right (le_refl _), Nat.sub_self, List.getElem_cons_zero] at h2
    rw [condVals_append, condVals_append, h1]
    congr 2
    cases b with
    | cmp op l r =>
      obtain ⟨a, b⟩ := h2
      simp only [condVal]
      rw [hv l a, hv r b]
    | _ => rfl

theorem condVals_length (v : Nat → K) (bs : List BNode) : (condVals cmp v bs).length = bs.length := by
  induction bs using List.reverseRecOn with
  | nil => rfl
  | append_singleton bs b ih => rw [condVals_append]; simp [ih]

/-- More nodes and one more pointer. -/
theorem plain_push {s : Ast π} {priv priv' : Nat → Prop} (h : s.Inv priv) {l : List (Head π × List Nat)} (h' : NodesOk (s.nodes ++ l) priv')
    (x : Option Nat) : plainOf I cmp (s.push (s.nodes ++ l, x)) =
      { plainOf I cmp s with vars := (plainOf I cmp s).vars ++ [x.map (nodeItem I (s.nodes ++ l))] } := by
  have hv : ∀ id < s.nodes.length, nodeValue I (s.nodes ++ l) id = nodeValue I s.nodes id := fun id hid => h.nodes.value_append I h' hid
  have hc := condVals_congr cmp hv s.bools h.bool
  simp only [plainOf, Ast.push, hc, List.map_append, List.map_cons, List.map_nil]
  congr 1
  · congr 1
    refine List.map_congr_left fun p hp => ?_
    cases p with
    | none => rfl
    | some a =>
      have ha := (h.ptr _ hp a rfl).1
      simp only [Option.map_some, nodeItem]
      rw [hv a ha, heapOf_append_left ha]
  · refine List.map_congr_left fun e he => ?_
    rw [hv _ (h.eq e he).1]

theorem inv_push {s : Ast π} {priv priv' : Nat → Prop} (h : s.Inv priv) {l : List (Head π × List Nat)} (h' : NodesOk (s.nodes ++ l) priv')
    (hp : ∀ id < s.nodes.length, priv' id → priv id) {x : Option Nat} (hx : PtrOk (s.nodes ++ l) priv' x) :
    (s.push (s.nodes ++ l, x)).Inv priv' where
  nodes := h'
  ptr p hpp := by
    rcases List.mem_append.1 hpp with hpp | hpp
    · intro a e
      obtain ⟨h1, h2⟩ := h.ptr p hpp a e
      exact ⟨by simp [Ast.push]; omega, fun h3 => h2 (hp a h1 h3)⟩
    · rw [List.mem_singleton.1 hpp]
      exact hx
  bool i hi := (h.bool i hi).mono (by simp [Ast.push])
  eq e he := by
    obtain ⟨h1, h2⟩ := h.eq e he
    exact ⟨by simp [Ast.push]; omega, h2⟩

theorem later_push {s : Ast π} {priv priv' : Nat → Prop} {l : List (Head π × List Nat)} (hs : Seg 0 s.nodes.length l) (hp : ∀ id, priv id → priv' id) (x : Option Nat) :
    Later s priv (s.push (s.nodes ++ l, x)) priv' (fun _ => False) where
  len := by simp [Ast.push]
  priv_mono := hp
  ptrs := ⟨_, rfl⟩
  bools := ⟨[], by simp [Ast.push]⟩
  node id hid _ := heapOf_append_left hid
  fresh id hid hn _ c hc := by
    obtain ⟨i, rfl⟩ : ∃ i, id = s.nodes.length + i := ⟨id - s.nodes.length, by omega⟩
    have hi : i < l.length := by simp [Ast.push] at hid; omega
    simp only [Ast.push] at hc
    rw [heapOf_append_right hi] at hc
    exact ((hs i hi).1 c hc).2
  kept _ hh := hh.elim
  eqn i hi := ⟨s.eqs[i], by simp [Ast.push, hi], rfl, rfl⟩

/-- The outcome of a call: `o` in the model and `p` in the specification. -/
def StepOk (s : Ast π) (priv : Nat → Prop) (o : Outcome (Ast π)) : Outcome (Plain π K) → Prop
  | .ok q => ∃ s' priv', o = .ok s' ∧ s'.Inv priv' ∧ Later s priv s' priv' (fun _ => False) ∧ plainOf I cmp s' = q
  | .throws => o = .throws
  | .undefined => o = .undefined

theorem built_step {s : Ast π} {priv : Nat → Prop} (h : s.Inv priv) {o : Outcome (List (Head π × List Nat) × Option Nat)}
    {k : Outcome (Option (Item π K))} (hb : AstBuilt I s.nodes priv o k) :
    StepOk I cmp s priv (do let x ← o; .ok (s.push x)) (do let k ← k; (plainOf I cmp s).new k) := by
  cases k with
  | ok k =>
    obtain ⟨l, x, priv', rfl, a0, a1, a2, a3, a4, rfl⟩ := hb
    exact ⟨_, priv', rfl, inv_push h a1 a3 a4, later_push a0 a2 x, plain_push I cmp h a1 x⟩
  | throws => rw [show o = .throws from hb]; rfl
  | undefined => rw [show o = .undefined from hb]; rfl

/-- A variable in the model and in the specification. -/
theorem ptr_cases {s : Ast π} {priv : Nat → Prop} (h : s.Inv priv) (r : Nat) :
    (s.ptr r = .undefined ∧ (plainOf I cmp s).var r = .undefined ∧ (plainOf I cmp s).item r = .undefined) ∨
    (s.ptr r = .ok none ∧ (plainOf I cmp s).var r = .ok none ∧ (plainOf I cmp s).item r = .undefined) ∨
    ∃ a, s.ptr r = .ok (some a) ∧ a < s.nodes.length ∧ ¬ priv a ∧ (plainOf I cmp s).var r = .ok (some (nodeItem I s.nodes a)) ∧
      (plainOf I cmp s).item r = .ok (nodeItem I s.nodes a) := by
  unfold Ast.ptr Plain.var Plain.item
  have : (plainOf I cmp s).vars[r]? = s.ptrs[r]?.map (Option.map (nodeItem I s.nodes)) := by
    simp [plainOf]
  rw [this]
  cases e : s.ptrs[r]? with
  | none => exact .inl ⟨rfl, rfl, rfl⟩
  | some p =>
    have hp := h.ptr p (List.mem_of_getElem? e)
    cases p with
    | none => exact .inr (.inl ⟨rfl, rfl, rfl⟩)
    | some a => exact .inr (.inr ⟨a, rfl, (hp a rfl).1, (hp a rfl).2, rfl, rfl⟩)

theorem var_eq {s : Ast π} {priv : Nat → Prop} (h : s.Inv priv) (r : Nat) :
    (s.ptr r = .undefined ∧ (plainOf I cmp s).var r = .undefined) ∨
    ∃ p, s.ptr r = .ok p ∧ PtrOk s.nodes priv p ∧ (plainOf I cmp s).var r = .ok (p.map (nodeItem I s.nodes)) := by
  rcases ptr_cases I cmp h r with ⟨e1, e2, _⟩ | ⟨e1, e2, _⟩ | ⟨a, e1, h1, h2, e2, _⟩
  · exact .inl ⟨e1, e2⟩
  · exact .inr ⟨none, e1, fun _ hh => (by simp at hh), e2⟩
  · exact .inr ⟨some a, e1, fun p hp => by injection hp with hp; subst hp; exact ⟨h1, h2⟩, e2⟩

theorem items_eq {s : Ast π} {priv : Nat → Prop} (h : s.Inv priv) (rs : List Nat) :
    (s.ptrList rs = .undefined ∧ (plainOf I cmp s).items rs = .undefined) ∨
    ∃ ps, s.ptrList rs = .ok ps ∧ (∀ p ∈ ps, PtrOk s.nodes priv p) ∧
      (plainOf I cmp s).items rs = match allSome (ps.map (Option.map (nodeItem I s.nodes))) with
        | some xs => .ok xs
        | none => .undefined := by
  induction rs with
  | nil => exact .inr ⟨[], rfl, by simp, rfl⟩
  | cons r rs ih =>
    unfold Ast.ptrList Plain.items
    rcases ptr_cases I cmp h r with ⟨e1, _, e2⟩ | ⟨e1, _, e2⟩ | ⟨a, e1, h1, h2, _, e2⟩
    · rw [e1, e2]
      exact .inl ⟨rfl, rfl⟩
    · rw [e1, e2]
      rcases ih with ⟨e3, e4⟩ | ⟨ps, e3, h3, e4⟩
      · rw [e3]
        exact .inl ⟨rfl, rfl⟩
      · rw [e3]
        refine .inr ⟨none :: ps, rfl, ?_, rfl⟩
        intro p hp
        rcases List.mem_cons.1 hp with rfl | hp
        · intro _ hh
          simp at hh
        · exact h3 p hp
    · rw [e1, e2]
      rcases ih with ⟨e3, e4⟩ | ⟨ps, e3, h3, e4⟩
      · rw [e3, e4]
        exact .inl ⟨rfl, rfl⟩
      · rw [e3, e4]
        refine .inr ⟨some a :: ps, rfl, ?_, ?_⟩
        · intro p hp
          rcases List.mem_cons.1 hp with rfl | hp
          · intro p hp
            injection hp with hp
            subst hp
            exact ⟨h1, h2⟩
          · exact h3 p hp
        · simp only [List.map_cons, Option.map_some, allSome, Outcome.bind_ok]
          cases allSome (ps.map (Option.map (nodeItem I s.nodes))) <;> rfl

theorem cond_cases {s : Ast π} (c : Option Nat) : (s.hasCond c = false ∧ (plainOf I cmp s).cond c = .undefined) ∨
    (s.hasCond c = true ∧ CondOk s.bools.length c ∧ (plainOf I cmp s).cond c = .ok (c.map ((plainOf I cmp s).conds.getD · false))) := by
  have hl : (plainOf I cmp s).conds.length = s.bools.length := condVals_length cmp _ _
  cases c with
  | none => exact .inr ⟨rfl, fun _ hh => by simp at hh, rfl⟩
  | some b =>
    unfold Ast.hasCond Plain.cond
    by_cases hb : b < s.bools.length
    · refine .inr ⟨by simpa using hb, fun x hx => by injection hx with hx; omega, ?_⟩
      simp only
      rw [List.getElem?_eq_getElem (by omega)]
      simp [hl, hb]
    · refine .inl ⟨by simpa using hb, ?_⟩
      simp only
      rw [List.getElem?_eq_none (by omega)]

/-- One more condition. -/
theorem bool_step {s : Ast π} {priv : Nat → Prop} (h : s.Inv priv) {b : BNode} (hb : b.Ok s.nodes.length s.bools.length) :
    StepOk I cmp s priv (.ok { s with bools := s.bools ++ [b] })
      ((plainOf I cmp s).newCond (condVal cmp (nodeValue I s.nodes) (plainOf I cmp s).conds b)) := by
  refine ⟨_, priv, rfl, ⟨h.nodes, h.ptr, ?_, ?_⟩, ⟨le_rfl, fun _ a => a, ⟨[], by simp⟩, ⟨_, rfl⟩, fun _ _ _ => rfl,
    fun id h1 h2 _ => absurd h1 (Nat.not_lt.2 h2), fun _ hh => hh.elim, fun i hi => ⟨s.eqs[i], by simp [hi], rfl, rfl⟩⟩, ?_⟩
  · intro i hi
    by_cases e : i < s.bools.length
    · simp only [List.getElem_append_left e]
      exact h.bool i e
    · have : i = s.bools.length := by simp at hi; omega
      subst this
      simpa using hb
  · intro e he
    obtain ⟨h1, h2, h3⟩ := h.eq e he
    refine ⟨h1, fun b hb => ?_, fun b hb => ?_⟩
    · have := h2 b hb
      simp
      omega
    · have := h3 b hb
      simp
      omega
  · have hl := condVals_length cmp (nodeValue I s.nodes) s.bools
    simp only [plainOf, condVals_append]
    congr 1
    refine List.map_congr_left fun e he => ?_
    obtain ⟨h1, h2, h3⟩ := h.eq e he
    congr 3
    · cases hc : e.cond with
      | none => rfl
      | some b =>
        have := h2 b hc
        simp only [Option.map_some]
        rw [List.getD_append _ _ _ _ (by omega)]
    · cases hc : e.step with
      | none => rfl
      | some b =>
        have := h3 b hc
        simp only [Option.map_some]
        rw [List.getD_append _ _ _ _ (by omega)]

end
end Yask.Comp
