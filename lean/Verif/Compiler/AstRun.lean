import Verif.Compiler.AstInv

/-! Helper lemmas: programs that build expressions and equations. -/

namespace Yask.Comp
open Spec

variable {π K : Type} [CommRing K] (I : Interp π K) (cmp : CmpInterp K)

theorem stepOk_undef {s : Ast π} {priv : Nat → Prop} : StepOk I cmp s priv (.undefined) (.undefined : Outcome (Plain π K)) := rfl

theorem stepOk_throws {s : Ast π} {priv : Nat → Prop} : StepOk I cmp s priv (.throws) (.throws : Outcome (Plain π K)) := rfl

/-- A condition is set. -/
theorem eqs_step {s : Ast π} {priv : Nat → Prop} (h : s.Inv priv) (e : Nat) (f : EqNode π → EqNode π)
    (g : π × K × Option Bool × Option Bool → π × K × Option Bool × Option Bool)
    (h1 : ∀ x, (f x).lhs = x.lhs ∧ (f x).rhs = x.rhs)
    (h2 : ∀ x : EqNode π, CondOk s.bools.length x.cond → CondOk s.bools.length x.step →
      CondOk s.bools.length (f x).cond ∧ CondOk s.bools.length (f x).step)
    (h3 : ∀ x : EqNode π, ((f x).lhs, nodeValue I s.nodes (f x).rhs, (f x).cond.map ((plainOf I cmp s).conds.getD · false),
      (f x).step.map ((plainOf I cmp s).conds.getD · false)) = g (x.lhs, nodeValue I s.nodes x.rhs,
        x.cond.map ((plainOf I cmp s).conds.getD · false), x.step.map ((plainOf I cmp s).conds.getD · false))) :
    StepOk I cmp s priv (.ok { s with eqs := s.eqs.modify e f })
      (.ok { plainOf I cmp s with eqs := (plainOf I cmp s).eqs.modify e g }) := by
  refine ⟨_, priv, rfl, ⟨h.nodes, h.ptr, h.bool, ?_⟩, ⟨le_rfl, fun _ a => a, ⟨[], by simp⟩, ⟨[], by simp⟩, fun _ _ _ => rfl,
    fun id h1 h2 _ => absurd h1 (Nat.not_lt.2 h2), fun _ hh => hh.elim, ?_⟩, ?_⟩
  · intro x hx
    obtain ⟨i, hi, rfl⟩ := List.mem_iff_getElem.1 hx
    simp only [List.getElem_modify]
    simp only [List.length_modify] at hi
    obtain ⟨a1, a2, a3⟩ := h.eq _ (List.getElem_mem hi)
    split
    · exact ⟨by rw [(h1 _).2]; exact a1, h2 _ a2 a3⟩
    · exact ⟨a1, a2, a3⟩
  · intro i hi
    refine ⟨if e = i then f s.eqs[i] else s.eqs[i], ?_, ?_⟩
    · simp only [List.getElem?_modify, List.getElem?_eq_getElem hi, Option.map_eq_map, Option.map_some]
    · split
      · exact h1 _
      · exact ⟨rfl, rfl⟩
  · simp only [plainOf]
    congr 1
    refine List.ext_getElem? fun i => ?_
    simp only [List.getElem?_map, List.getElem?_modify, Option.map_eq_map, Option.map_map]
    congr 1
    funext x
    simp only [Function.comp]
    by_cases hi : e = i
    · simp only [if_pos hi]
      exact h3 x
    · simp only [if_neg hi]

/-- Each call that does not change an expression does what it should. -/
theorem step_ok {s : Ast π} {priv : Nat → Prop} (h : s.Inv priv) (c : Call π) (hc : c.changes = false) :
    StepOk I cmp s priv (s.step c) ((plainOf I cmp s).step I cmp c) := by
  have leaf : ∀ hd : Head π, hd.arity 0 → hd ≠ .eqn → ¬ hd.copies → StepOk I cmp s priv
      (do .ok (s.push (← newNode s.nodes hd []))) ((plainOf I cmp s).new (some (headKind hd, hd.val I []))) :=
    fun hd h1 h2 h3 => built_step I cmp h (built_new I h.nodes (hd := hd) (cs := []) (by simp) h1 h2 (fun hh => (h3 hh).elim))
  have ends : ∀ ty r, StepOk I cmp s priv (do .ok (s.push (← newEnd s.nodes ty (← s.ptr r))))
      (do let x ← endKind ty ((← (plainOf I cmp s).var r).map (·.1)); (plainOf I cmp s).new (some (.index x.1 x.2, I.index x.1 x.2))) := by
    intro ty r
    rcases var_eq I cmp h r with ⟨e1, e2⟩ | ⟨p, e1, hp, e2⟩
    · rw [e1, e2]
      exact stepOk_undef I cmp
    · rw [e1, e2]
      have := built_step I cmp h (newEnd_built I h.nodes ty (r := p))
      simp only [Outcome.bind_ok, Option.map_map]
      simp only [Function.comp_def]
      revert this
      cases (endKind ty (Option.map (fun x => (nodeItem I s.nodes x).1) p)) <;> exact fun this => this
  have comms : ∀ op l r, StepOk I cmp s priv (do .ok (s.push (← newComm s.nodes op (← s.ptr l) (← s.ptr r))))
      (do
        match ← (plainOf I cmp s).var l, ← (plainOf I cmp s).var r with
        | none, y => (plainOf I cmp s).new y
        | x, none => (plainOf I cmp s).new x
        | some x, some y => (plainOf I cmp s).new (some (commItem op x y))) := by
    intro op l r
    rcases var_eq I cmp h l with ⟨e1, e2⟩ | ⟨p, e1, hp, e2⟩
    · rw [e1, e2]
      exact stepOk_undef I cmp
    · rcases var_eq I cmp h r with ⟨e3, e4⟩ | ⟨q, e3, hq, e4⟩
      · rw [e1, e2, e3, e4]
        exact stepOk_undef I cmp
      · rw [e1, e2, e3, e4]
        have := built_step I cmp h (newComm_built I h.nodes op hp hq)
        cases p <;> cases q <;> exact this
  cases c with
  | null => exact built_step I cmp h (built_same I h.nodes (x := none) (fun _ hh => by simp at hh))
  | const q => exact leaf (.const q) rfl (by simp) (fun hh => hh)
  | constIdx i =>
    simp only [Ast.step, Plain.step]
    cases constIdx i with
    | ok q => exact leaf (.const q) rfl (by simp) (fun hh => hh)
    | throws => exact stepOk_throws I cmp
    | undefined => exact stepOk_undef I cmp
  | operand i => exact leaf (.const _) rfl (by simp) (fun hh => hh)
  | index d ty => exact leaf (.index d ty) rfl (by simp) (fun hh => hh)
  | firstOf r => exact ends .first r
  | lastOf r => exact ends .last r
  | point p => exact leaf (.point p) rfl (by simp) (fun hh => hh)
  | neg r =>
    simp only [Ast.step, Plain.step]
    rcases ptr_cases I cmp h r with ⟨e1, _, e2⟩ | ⟨e1, _, e2⟩ | ⟨a, e1, h1, h2, _, e2⟩
    · rw [e1, e2]
      exact stepOk_undef I cmp
    · rw [e1, e2]
      exact stepOk_undef I cmp
    · rw [e1, e2]
      exact built_step I cmp h (newNeg_built I h.nodes (r := some a) (fun p hp => by injection hp with hp; subst hp; exact ⟨h1, h2⟩))
  | add l r => exact comms .add l r
  | mul l r => exact comms .mult l r
  | sub l r =>
    simp only [Ast.step, Plain.step]
    rcases var_eq I cmp h l with ⟨e1, e2⟩ | ⟨p, e1, hp, e2⟩
    · rw [e1, e2]
      exact stepOk_undef I cmp
    · rcases var_eq I cmp h r with ⟨e3, e4⟩ | ⟨q, e3, hq, e4⟩
      · rw [e1, e2, e3, e4]
        exact stepOk_undef I cmp
      · rw [e1, e2, e3, e4]
        have := built_step I cmp h (newSub_built I h.nodes hp hq)
        cases p <;> cases q <;> exact this
  | div l r =>
    simp only [Ast.step, Plain.step]
    rcases var_eq I cmp h l with ⟨e1, e2⟩ | ⟨p, e1, hp, e2⟩
    · rw [e1, e2]
      exact stepOk_undef I cmp
    · rcases var_eq I cmp h r with ⟨e3, e4⟩ | ⟨q, e3, hq, e4⟩
      · rw [e1, e2, e3, e4]
        exact stepOk_undef I cmp
      · rw [e1, e2, e3, e4]
        have := built_step I cmp h (newDiv_built I h.nodes hp hq)
        cases p <;> cases q <;> exact this
  | mod l r =>
    simp only [Ast.step, Plain.step]
    rcases ptr_cases I cmp h l with ⟨e1, _, e2⟩ | ⟨e1, _, e2⟩ | ⟨a, e1, h1, h2, _, e2⟩
    · rw [e1, e2]
      exact stepOk_undef I cmp
    · rw [e1, e2]
      rcases var_eq I cmp h r with ⟨e3, e4⟩ | ⟨q, e3, hq, e4⟩
      · rw [e3]
        exact stepOk_undef I cmp
      · rw [e3]
        exact stepOk_undef I cmp
    · rcases ptr_cases I cmp h r with ⟨e3, _, e4⟩ | ⟨e3, _, e4⟩ | ⟨b, e3, h3, h4, _, e4⟩
      · rw [e1, e2, e3, e4]
        exact stepOk_undef I cmp
      · rw [e1, e2, e3, e4]
        exact stepOk_undef I cmp
      · rw [e1, e2, e3, e4]
        exact built_step I cmp h (newBin_built I h.nodes .mod h1 h3)
  | func f rs =>
    simp only [Ast.step, Plain.step]
    rcases items_eq I cmp h rs with ⟨e1, e2⟩ | ⟨ps, e1, hp, e2⟩
    · rw [e1, e2]
      exact stepOk_undef I cmp
    · rw [e1, e2]
      have := built_step I cmp h (newFunc_built I h.nodes f hp)
      revert this
      cases allSome (ps.map (Option.map (nodeItem I s.nodes))) <;> exact fun this => this
  | clone r =>
    simp only [Ast.step, Plain.step]
    rcases ptr_cases I cmp h r with ⟨e1, _, e2⟩ | ⟨e1, _, e2⟩ | ⟨a, e1, h1, h2, _, e2⟩
    · rw [e1, e2]
      exact stepOk_undef I cmp
    · rw [e1, e2]
      exact stepOk_undef I cmp
    · rw [e1, e2]
      have := built_step I cmp h (clone_built I h.nodes h1).1
      simp only [Outcome.bind_ok, nonNull] at this ⊢
      revert this
      cases cloneNode s.nodes a <;> exact fun this => this
  | cmp op l r =>
    simp only [Ast.step, Plain.step]
    rcases ptr_cases I cmp h l with ⟨e1, _, e2⟩ | ⟨e1, _, e2⟩ | ⟨a, e1, h1, h2, _, e2⟩
    · rw [e1, e2]
      exact stepOk_undef I cmp
    · rw [e1, e2]
      exact stepOk_undef I cmp
    · rcases ptr_cases I cmp h r with ⟨e3, _, e4⟩ | ⟨e3, _, e4⟩ | ⟨b, e3, h3, h4, _, e4⟩
      · rw [e1, e2, e3, e4]
        exact stepOk_undef I cmp
      · rw [e1, e2, e3, e4]
        exact stepOk_undef I cmp
      · rw [e1, e2, e3, e4]
        exact bool_step I cmp h (b := .cmp op a b) ⟨h1, h3⟩
  | not a =>
    have hl : (plainOf I cmp s).conds.length = s.bools.length := condVals_length cmp _ _
    simp only [Ast.step, Plain.step]
    by_cases ha : a < s.bools.length
    · rw [if_pos ha, List.getElem?_eq_getElem (by omega)]
      have := bool_step I cmp h (b := .not a) ha
      simpa only [condVal, List.getD_eq_getElem _ _ (show a < (plainOf I cmp s).conds.length by omega)] using this
    · rw [if_neg ha, List.getElem?_eq_none (by omega)]
      exact stepOk_undef I cmp
  | and a b =>
    have hl : (plainOf I cmp s).conds.length = s.bools.length := condVals_length cmp _ _
    simp only [Ast.step, Plain.step]
    by_cases ha : a < s.bools.length
    · by_cases hb : b < s.bools.length
      · rw [if_pos ⟨ha, hb⟩, List.getElem?_eq_getElem (by omega), List.getElem?_eq_getElem (by omega)]
        have := bool_step I cmp h (b := .and a b) ⟨ha, hb⟩
        simpa only [condVal, List.getD_eq_getElem _ _ (show a < (plainOf I cmp s).conds.length by omega),
          List.getD_eq_getElem _ _ (show b < (plainOf I cmp s).conds.length by omega)] using this
      · rw [if_neg (fun hh => hb hh.2), List.getElem?_eq_none (l := (plainOf I cmp s).conds) (i := b) (by omega)]
        cases (plainOf I cmp s).conds[a]? <;> exact stepOk_undef I cmp
    · rw [if_neg (fun hh => ha hh.1), List.getElem?_eq_none (l := (plainOf I cmp s).conds) (i := a) (by omega)]
      exact stepOk_undef I cmp
  | or a b =>
    have hl : (plainOf I cmp s).conds.length = s.bools.length := condVals_length cmp _ _
    simp only [Ast.step, Plain.step]
    by_cases ha : a < s.bools.length
    · by_cases hb : b < s.bools.length
      · rw [if_pos ⟨ha, hb⟩, List.getElem?_eq_getElem (by omega), List.getElem?_eq_getElem (by omega)]
        have := bool_step I cmp h (b := .or a b) ⟨ha, hb⟩
        simpa only [condVal, List.getD_eq_getElem _ _ (show a < (plainOf I cmp s).conds.length by omega),
          List.getD_eq_getElem _ _ (show b < (plainOf I cmp s).conds.length by omega)] using this
      · rw [if_neg (fun hh => hb hh.2), List.getElem?_eq_none (l := (plainOf I cmp s).conds) (i := b) (by omega)]
        cases (plainOf I cmp s).conds[a]? <;> exact stepOk_undef I cmp
    · rw [if_neg (fun hh => ha hh.1), List.getElem?_eq_none (l := (plainOf I cmp s).conds) (i := a) (by omega)]
      exact stepOk_undef I cmp
  | eqn l r c =>
    simp only [Ast.step, Plain.step]
    rcases ptr_cases I cmp h l with ⟨e1, e2, _⟩ | ⟨e1, e2, _⟩ | ⟨a, e1, h1, h2, e2, _⟩
    · rw [e1, e2]
      exact stepOk_undef I cmp
    · rw [e1, e2]
      exact stepOk_throws I cmp
    · rw [e1, e2]
      simp only [Outcome.bind_ok, nodeItem]
      cases hd : (heapOf s.nodes a).1 with
      | point p =>
        simp only [headKind]
        rcases ptr_cases I cmp h r with ⟨e3, e4, _⟩ | ⟨e3, e4, _⟩ | ⟨b, e3, h3, h4, e4, _⟩
        · rw [e3, e4]
          exact stepOk_undef I cmp
        · rw [e3, e4]
          exact stepOk_throws I cmp
        · rw [e3, e4]
          simp only [Outcome.bind_ok]
          rcases cond_cases I cmp (s := s) c with ⟨e5, e6⟩ | ⟨e5, h5, e6⟩
          · rw [e5, e6]
            exact stepOk_undef I cmp
          · rw [e5, e6]
            simp only [if_true, Outcome.bind_ok]
            refine ⟨_, priv, rfl, ⟨h.nodes, h.ptr, h.bool, ?_⟩, ⟨le_rfl, fun _ a => a, ⟨[], by simp⟩, ⟨[], by simp⟩, fun _ _ _ => rfl,
              fun id h1 h2 _ => absurd h1 (Nat.not_lt.2 h2), fun _ hh => hh.elim, fun i hi => ⟨s.eqs[i], ?_, rfl, rfl⟩⟩, ?_⟩
            · intro e he
              rcases List.mem_append.1 he with he | he
              · exact h.eq e he
              · rw [List.mem_singleton.1 he]
                exact ⟨h3, h5, fun _ hh => by simp at hh⟩
            · simp only
              rw [List.getElem?_append_left hi, List.getElem?_eq_getElem hi]
            · simp only [plainOf, List.map_append, List.map_cons, List.map_nil, Option.map_none, nodeItem]
      | _ => exact stepOk_undef I cmp
  | setCond e c =>
    have hl : (plainOf I cmp s).eqs.length = s.eqs.length := by simp [plainOf]
    simp only [Ast.step, Plain.step, hl]
    by_cases he : e < s.eqs.length
    · rcases cond_cases I cmp (s := s) c with ⟨e5, e6⟩ | ⟨e5, h5, e6⟩
      · rw [if_pos he, e5, e6, if_neg (by simp)]
        exact stepOk_undef I cmp
      · rw [if_pos he, e5, e6, if_pos ⟨he, rfl⟩]
        exact eqs_step I cmp h e _ _ (fun x => ⟨rfl, rfl⟩) (fun x _ h7 => ⟨h5, h7⟩) (fun x => rfl)
    · rw [if_neg he, if_neg (fun hh => he hh.1)]
      exact stepOk_undef I cmp
  | setStepCond e c =>
    have hl : (plainOf I cmp s).eqs.length = s.eqs.length := by simp [plainOf]
    simp only [Ast.step, Plain.step, hl]
    by_cases he : e < s.eqs.length
    · rcases cond_cases I cmp (s := s) c with ⟨e5, e6⟩ | ⟨e5, h5, e6⟩
      · rw [if_pos he, e5, e6, if_neg (by simp)]
        exact stepOk_undef I cmp
      · rw [if_pos he, e5, e6, if_pos ⟨he, rfl⟩]
        exact eqs_step I cmp h e _ _ (fun x => ⟨rfl, rfl⟩) (fun x h7 _ => ⟨h7, h5⟩) (fun x => rfl)
    · rw [if_neg he, if_neg (fun hh => he hh.1)]
      exact stepOk_undef I cmp
  | setValue r q => simp [Call.changes] at hc
  | addOperand r x => simp [Call.changes] at hc

/-! ### Calls that change expressions -/

/-- The node that a call changes. -/
def Ast.changed (s : Ast π) (c : Call π) (id : Nat) : Prop :=
  match c with
  | .setValue r _ => s.ptr r = .ok (some id)
  | .addOperand r _ => s.ptr r = .ok (some id)
  | _ => False

omit [CommRing K] in
theorem ptrOk_of {s : Ast π} {priv : Nat → Prop} (h : s.Inv priv) {r : Nat} {p : Option Nat} (e : s.ptr r = .ok p) : PtrOk s.nodes priv p := by
  unfold Ast.ptr at e
  cases hp : s.ptrs[r]? with
  | none => rw [hp] at e; cases e
  | some x =>
    rw [hp] at e
    injection e with e
    subst e
    exact h.ptr x (List.mem_of_getElem? hp)

omit [CommRing K] in
theorem NodesOk.arity {ns : List (Head π × List Nat)} {priv : Nat → Prop} (h : NodesOk ns priv) {id : Nat} (hid : id < ns.length) :
    (heapOf ns id).1.arity (heapOf ns id).2.length ∧ (heapOf ns id).1 ≠ .eqn := by
  have h1 := h.total id hid
  obtain ⟨n, hn⟩ : ∃ n, ns.length = n + 1 := ⟨ns.length - 1, by omega⟩
  rw [hn, tree_succ_isSome] at h1
  exact h1.1

omit [CommRing K] in
/-- A node is replaced and others are added. -/
theorem inv_set {s : Ast π} {priv : Nat → Prop} (h : s.Inv priv) {l : List (Head π × List Nat)} (hs : Seg s.nodes.length s.nodes.length l)
    {a : Nat} (ha : a < s.nodes.length) {hd : Head π} {cs : List Nat} (h2 : hd.arity cs.length) (h3 : hd ≠ .eqn) (hp : ¬ priv a)
    (hpc : ∀ c ∈ (heapOf s.nodes a).2, priv c)
    (hcs : ∀ c ∈ cs, c ∈ (heapOf s.nodes a).2 ∨ (s.nodes.length ≤ c ∧ c < s.nodes.length + l.length)) {M : Nat → Prop} (hM : ∀ id, M id ↔ id = a) :
    let s' : Ast π := { s with nodes := (s.nodes ++ l).set a (hd, cs) }
    let priv' := fun id => priv id ∨ (s.nodes.length ≤ id ∧ id < s.nodes.length + l.length)
    s'.Inv priv' ∧ Later s priv s' priv' M := by
  intro s' priv'
  have hlen : s'.nodes.length = s.nodes.length + l.length := by simp [s']
  refine ⟨⟨h.nodes.set hs ha h2 h3 hp hpc hcs, fun p hpp x e => ?_, fun i hi => (h.bool i hi).mono (by omega), fun e he => ?_⟩,
    ⟨by omega, fun _ hh => .inl hh, ⟨[], by simp [s']⟩, ⟨[], by simp [s']⟩, fun id hid hM' => ?_, fun id hid hn hM' c hc => ?_, fun id hM' => ?_,
      fun i hi => ⟨s.eqs[i], by simp [s', hi], rfl, rfl⟩⟩⟩
  · obtain ⟨h4, h5⟩ := h.ptr p hpp x e
    refine ⟨by omega, fun hh => ?_⟩
    rcases hh with hh | hh
    · exact h5 hh
    · omega
  · obtain ⟨h4, h5⟩ := h.eq e he
    exact ⟨by omega, h5⟩
  · have hne : id ≠ a := fun e => hM' ((hM id).2 e)
    exact (heapOf_set_ne hne).trans (heapOf_append_left hid)
  · have hne : id ≠ a := fun e => hM' ((hM id).2 e)
    simp only [s'] at hc
    rw [heapOf_set_ne hne] at hc
    obtain ⟨i, rfl⟩ : ∃ i, id = s.nodes.length + i := ⟨id - s.nodes.length, by omega⟩
    have hi : i < l.length := by omega
    rw [heapOf_append_right hi] at hc
    exact ((hs i hi).1 c hc).2
  · rw [(hM id).1 hM']
    exact hp

/-- `set_value`. -/
theorem set_step {s s' : Ast π} {priv : Nat → Prop} (h : s.Inv priv) {r : Nat} {q : ℚ} (e : s.step (.setValue r q) = .ok s') :
    ∃ a priv', s.ptr r = .ok (some a) ∧ (∃ q', (heapOf s.nodes a).1 = .const q') ∧ (heapOf s'.nodes a) = (.const q, []) ∧ s'.Inv priv' ∧
      Later s priv s' priv' (s.changed (.setValue r q)) := by
  simp only [Ast.step] at e
  cases e1 : s.ptr r with
  | throws => rw [e1] at e; cases e
  | undefined => rw [e1] at e; cases e
  | ok p =>
    rw [e1] at e
    cases p with
    | none => cases e
    | some a =>
      obtain ⟨ha, hp⟩ := ptrOk_of h e1 a rfl
      have har := (h.nodes.arity ha).1
      simp only [Outcome.bind_ok, nonNull] at e
      cases hh : heapOf s.nodes a with
      | mk hd cs =>
        rw [hh] at e har
        cases hd with
        | const q' =>
          have hcs : cs = [] := List.eq_nil_of_length_eq_zero har
          subst hcs
          simp only at e
          injection e with e
          subst e
          have := inv_set h (l := []) (Seg.nil _ _) ha (hd := .const q) (cs := []) rfl (by simp) hp (by rw [hh]; simp) (by simp)
            (M := s.changed (.setValue r q)) (fun id => by
              simp only [Ast.changed, e1]
              constructor
              · intro hx
                injection hx with hx
                injection hx with hx
                exact hx.symm
              · rintro rfl
                rfl)
          simp only [List.append_nil] at this
          exact ⟨a, _, rfl, ⟨q', by rw [hh]⟩, heapOf_set_self ha, this.1, this.2⟩
        | _ => cases e

/-- `add_operand`. -/
theorem add_step {s s' : Ast π} {priv : Nat → Prop} (h : s.Inv priv) {r x : Nat} (e : s.step (.addOperand r x) = .ok s') :
    ∃ a b op priv', s.ptr r = .ok (some a) ∧ s.ptr x = .ok (some b) ∧ (heapOf s.nodes a).1 = .comm op ∧ (heapOf s'.nodes a).1 = .comm op ∧
      nodeValue I s'.nodes a = (match op with
        | .add => nodeValue I s.nodes a + nodeValue I s.nodes b
        | .mult => nodeValue I s.nodes a * nodeValue I s.nodes b) ∧ s'.Inv priv' ∧
      Later s priv s' priv' (s.changed (.addOperand r x)) := by
  simp only [Ast.step] at e
  cases e1 : s.ptr r with
  | throws => rw [e1] at e; cases e
  | undefined => rw [e1] at e; cases e
  | ok p =>
    rw [e1] at e
    cases p with
    | none => cases e
    | some a =>
      obtain ⟨ha, hp⟩ := ptrOk_of h e1 a rfl
      simp only [Outcome.bind_ok, nonNull] at e
      cases hh : (heapOf s.nodes a).1 with
      | comm op =>
        rw [hh] at e
        simp only at e
        cases e2 : s.ptr x with
        | throws => rw [e2] at e; cases e
        | undefined => rw [e2] at e; cases e
        | ok p2 =>
          rw [e2] at e
          cases p2 with
          | none => cases e
          | some b =>
            obtain ⟨hb, hpb⟩ := ptrOk_of h e2 b rfl
            simp only [Outcome.bind_ok, nonNull] at e
            obtain ⟨l, e3, s1, s2, s3, _⟩ := cloneNode_ok I h.nodes hb
            rw [e3] at e
            simp only [Outcome.bind_ok] at e
            injection e with e
            rw [heapOf_append_left ha] at e
            have hclosed := h.nodes.closed a ha (.inr (by rw [hh]; trivial))
            have hal : a < (s.nodes ++ l).length := by simp; omega
            obtain ⟨h1, h2⟩ := inv_set h s1 ha (hd := .comm op) (cs := (heapOf s.nodes a).2 ++ [s.nodes.length + l.length - 1]) trivial (by simp) hp
              hclosed (by
                intro c hc
                rcases List.mem_append.1 hc with hc | hc
                · exact .inl hc
                · rw [List.mem_singleton.1 hc]
                  exact .inr ⟨by omega, by omega⟩)
              (M := s.changed (.addOperand r x)) (fun id => by
                simp only [Ast.changed, e1]
                constructor
                · intro hx
                  injection hx with hx
                  injection hx with hx
                  exact hx.symm
                · rintro rfl
                  rfl)
            have hn1 := h.nodes.append_priv s1
            have hkeep : ∀ c, (priv c ∨ (s.nodes.length ≤ c ∧ c < s.nodes.length + l.length)) →
                nodeValue I ((s.nodes ++ l).set a (.comm op, (heapOf s.nodes a).2 ++ [s.nodes.length + l.length - 1])) c =
                  nodeValue I (s.nodes ++ l) c := by
              intro c hc
              refine nodeValue_congr I (P := fun c => priv c ∨ (s.nodes.length ≤ c ∧ c < s.nodes.length + l.length)) ?_ ?_ hc
                (hn1.total c (hn1.lt c hc)) (h1.nodes.total c (h1.nodes.lt c hc))
              · intro id hid
                refine heapOf_set_ne fun e => ?_
                subst e
                rcases hid with hid | hid
                · exact hp hid
                · omega
              · intro id hid c hc
                exact hn1.closed id (hn1.lt id hid) (.inl hid) c hc
            subst e
            refine ⟨a, b, op, _, rfl, rfl, hh, ?_, ?_, h1, h2⟩
            · simp only
              rw [heapOf_set_self hal]
            · have hv := h1.nodes.value I (id := a) (by simp; omega)
              simp only at hv ⊢
              rw [hv, heapOf_set_self hal]
              simp only [List.map_append, List.map_cons, List.map_nil]
              rw [comm_val_append, hkeep _ (.inr ⟨by omega, by omega⟩), s3]
              have h5 : (heapOf s.nodes a).2.map (nodeValue I ((s.nodes ++ l).set a
                  (.comm op, (heapOf s.nodes a).2 ++ [s.nodes.length + l.length - 1]))) = (heapOf s.nodes a).2.map (nodeValue I s.nodes) := by
                refine List.map_congr_left fun c hc => ?_
                rw [hkeep c (.inl (hclosed c hc))]
                exact h.nodes.value_append I hn1 (h.nodes.child a ha c hc)
              rw [h5]
              have h6 := h.nodes.value I ha
              rw [hh] at h6
              rw [← h6]
              cases op <;> simp [Head.val]
      | _ => rw [hh] at e; cases e

/-! ### What holds after any calls -/

include I cmp in
theorem step_later {s s' : Ast π} {priv : Nat → Prop} (h : s.Inv priv) {c : Call π} (e : s.step c = .ok s') :
    ∃ priv', s'.Inv priv' ∧ Later s priv s' priv' (s.changed c) := by
  by_cases hc : c.changes = false
  · have hs := step_ok I cmp h c hc
    rw [e] at hs
    have hM : s.changed c = fun _ => False := by
      funext id
      cases c <;> first | rfl | (simp [Call.changes] at hc)
    rw [hM]
    revert hs
    cases (plainOf I cmp s).step I cmp c with
    | ok q =>
      rintro ⟨s1, priv', e1, h1, h2, _⟩
      injection e1 with e1
      subst e1
      exact ⟨priv', h1, h2⟩
    | throws => intro hs; cases hs
    | undefined => intro hs; cases hs
  · cases c with
    | setValue r q =>
      obtain ⟨a, priv', _, _, _, h1, h2⟩ := set_step h e
      exact ⟨priv', h1, h2⟩
    | addOperand r x =>
      obtain ⟨a, b, op, priv', _, _, _, _, _, h1, h2⟩ := add_step I h e
      exact ⟨priv', h1, h2⟩
    | _ => exact (hc rfl).elim

theorem ptr_later {s s' : Ast π} (h : ∃ l, s'.ptrs = s.ptrs ++ l) {r : Nat} {p : Option Nat} (e : s.ptr r = .ok p) : s'.ptr r = .ok p := by
  obtain ⟨l, h⟩ := h
  unfold Ast.ptr at e ⊢
  rw [h]
  cases hp : s.ptrs[r]? with
  | none => rw [hp] at e; cases e
  | some x =>
    rw [List.getElem?_append_left (List.getElem?_eq_some_iff.1 hp).1, hp]
    rw [hp] at e
    exact e

theorem changed_later {s s' : Ast π} (h : ∃ l, s'.ptrs = s.ptrs ++ l) {c : Call π} {id : Nat} (e : s.changed c id) : s'.changed c id := by
  cases c <;> first | exact ptr_later h e | exact e

theorem Later.refl (s : Ast π) (priv : Nat → Prop) : Later s priv s priv (fun _ => False) where
  len := le_rfl
  priv_mono _ h := h
  ptrs := ⟨[], by simp⟩
  bools := ⟨[], by simp⟩
  node _ _ _ := rfl
  fresh id h1 h2 _ := absurd h1 (Nat.not_lt.2 h2)
  kept _ h := h.elim
  eqn i hi := ⟨s.eqs[i], by simp [hi], rfl, rfl⟩

theorem Later.trans {s s1 s2 : Ast π} {p p1 p2 M M1 M2 : Nat → Prop} (h1 : Later s p s1 p1 M) (h2 : Later s1 p1 s2 p2 M1)
    (hM : ∀ id, M id ∨ M1 id → M2 id) (hk : ∀ id, M2 id → ¬ p id) : Later s p s2 p2 M2 where
  len := h1.len.trans h2.len
  priv_mono id h := h2.priv_mono id (h1.priv_mono id h)
  ptrs := by
    obtain ⟨l1, e1⟩ := h1.ptrs
    obtain ⟨l2, e2⟩ := h2.ptrs
    exact ⟨l1 ++ l2, by rw [e2, e1, List.append_assoc]⟩
  bools := by
    obtain ⟨l1, e1⟩ := h1.bools
    obtain ⟨l2, e2⟩ := h2.bools
    exact ⟨l1 ++ l2, by rw [e2, e1, List.append_assoc]⟩
  node id hid hm := by
    rw [h2.node id (by have := h1.len; omega) (fun h => hm (hM id (.inr h))), h1.node id hid (fun h => hm (hM id (.inl h)))]
  fresh id hid hn hm c hc := by
    by_cases h : id < s1.nodes.length
    · rw [h2.node id h (fun h => hm (hM id (.inr h)))] at hc
      exact h1.fresh id h hn (fun h => hm (hM id (.inl h))) c hc
    · exact h2.fresh id hid (by omega) (fun h => hm (hM id (.inr h))) c hc
  kept := hk
  eqn i hi := by
    obtain ⟨e1, a1, a2, a3⟩ := h1.eqn i hi
    obtain ⟨hi1, a1⟩ := List.getElem?_eq_some_iff.1 a1
    obtain ⟨e2, b1, b2, b3⟩ := h2.eqn i hi1
    exact ⟨e2, b1, by rw [b2, a1, a2], by rw [b3, a1, a3]⟩

theorem changed_pub {s : Ast π} {priv : Nat → Prop} (h : s.Inv priv) {c : Call π} {id : Nat} (e : s.changed c id) : ¬ priv id := by
  cases c <;> first | exact (ptrOk_of h e id rfl).2 | exact e.elim

include I cmp in
theorem run_later {s s' : Ast π} {priv : Nat → Prop} (h : s.Inv priv) {cs : List (Call π)} (e : s.run cs = .ok s') :
    ∃ priv', s'.Inv priv' ∧ Later s priv s' priv' fun id => ∃ c ∈ cs, s'.changed c id := by
  induction cs generalizing s priv with
  | nil =>
    injection e with e
    subst e
    refine ⟨priv, h, ?_⟩
    have := Later.refl s priv
    simpa using this
  | cons c cs ih =>
    rw [Ast.run] at e
    cases e1 : s.step c with
    | throws => rw [e1] at e; cases e
    | undefined => rw [e1] at e; cases e
    | ok s1 =>
      rw [e1] at e
      obtain ⟨p1, h1, l1⟩ := step_later I cmp h e1
      obtain ⟨p2, h2, l2⟩ := ih h1 e
      refine ⟨p2, h2, l1.trans l2 ?_ ?_⟩
      · rintro id (hid | ⟨c', hc', hid⟩)
        · exact ⟨c, List.mem_cons_self, changed_later l2.ptrs (changed_later l1.ptrs hid)⟩
        · exact ⟨c', List.mem_cons_of_mem _ hc', hid⟩
      · rintro id ⟨c', _, hid⟩ hp
        exact changed_pub h2 hid (l2.priv_mono id (l1.priv_mono id hp))

end Yask.Comp
