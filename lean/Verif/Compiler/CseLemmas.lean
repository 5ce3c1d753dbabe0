import Verif.Compiler.ExprLemmas

/-! Helper lemmas: common-subexpression elimination. -/

namespace Yask.Comp

variable {π K : Type} [DecidableEq π] [CommRing K]

/-- The value of a node from the values of its children. -/
def Head.val (I : Interp π K) : Head π → List K → K
  | .const q, _ => I.const q
  | .code s, _ => I.code s
  | .index d t, _ => I.index d t
  | .point p, _ => I.point p
  | .neg, l => - l.getD 0 0
  | .bin .sub, l => l.getD 0 0 - l.getD 1 0
  | .bin .div, l => I.div (l.getD 0 0) (l.getD 1 0)
  | .bin .mod, l => I.mod (l.getD 0 0) (l.getD 1 0)
  | .comm .add, l => l.sum
  | .comm .mult, l => l.prod
  | .func f, l => I.func f l
  | .eqn, l => l.getD 0 0

/-- No negation, or no subtraction. -/
def Head.okFor (b : Bool) : Head π → Prop
  | .neg => b = false
  | .bin .sub => b = true
  | _ => True

/-- The heap is well-formed, with depth `d` and value `v` of each node. -/
structure HeapOk (I : Interp π K) (N : Nat) (b : Bool) (h : Heap π) (d : Nat → Nat) (v : Nat → K) : Prop where
  arity : ∀ id < N, (h id).1.arity (h id).2.length
  child : ∀ id < N, ∀ c ∈ (h id).2, c < N ∧ (h c).1 ≠ .eqn
  depth : ∀ id < N, d id = maxDepth ((h id).2.map d)
  lt : ∀ id < N, d id < N
  val : ∀ id < N, v id = (h id).1.val I ((h id).2.map v)
  ok : ∀ id < N, (h id).1.okFor b

theorem allSome_map {α β : Type} (l : List α) (f : α → Option β) (g : α → β → Prop)
    (h : ∀ a ∈ l, ∃ b, f a = some b ∧ g a b) :
    ∃ bs, allSome (l.map f) = some bs ∧ List.Forall₂ g l bs := by
  induction l with
  | nil => exact ⟨[], rfl, .nil⟩
  | cons a l ih =>
    obtain ⟨b, hb, hg⟩ := h a List.mem_cons_self
    obtain ⟨bs, hbs, hgs⟩ := ih fun a ha => h a (List.mem_cons_of_mem _ ha)
    refine ⟨b :: bs, ?_, .cons hg hgs⟩
    rw [List.map_cons, hb]
    simp only [allSome, hbs, Option.map_some]

/-- What is known about the expression at a node. -/
def TreeOk (I : Interp π K) (b : Bool) (d : Nat → Nat) (v : Nat → K) (id : Nat) (t : NExpr π) : Prop :=
  t.depth = d id ∧ t.val I = v id ∧ t.free b = true

theorem treesOk {I : Interp π K} {b : Bool} {d : Nat → Nat} {v : Nat → K} {cs : List Nat} {ts : List (NExpr π)}
    (hts : List.Forall₂ (TreeOk I b d v) cs ts) :
    ts.map (·.depth) = cs.map d ∧ ts.map (·.val I) = cs.map v ∧ (∀ t ∈ ts, t.free b = true) ∧
      ts.length = cs.length := by
  induction hts with
  | nil => simp
  | cons h _ ih =>
    obtain ⟨h1, h2, h3, h4⟩ := ih
    refine ⟨by simp [h.1, h1], by simp [h.2.1, h2], ?_, by simp [h4]⟩
    intro t ht
    rcases List.mem_cons.1 ht with rfl | ht
    · exact h.2.2
    · exact h3 t ht

theorem mk_spec (I : Interp π K) (b : Bool) (d : Nat → Nat) (v : Nat → K) (hd : Head π) (cs : List Nat)
    (ts : List (NExpr π)) (ha : hd.arity cs.length) (hne : hd ≠ .eqn) (hok : hd.okFor b)
    (hts : List.Forall₂ (TreeOk I b d v) cs ts) :
    ∃ t, hd.mk ts = some t ∧ t.depth = maxDepth (cs.map d) ∧ t.val I = hd.val I (cs.map v) ∧ t.free b = true := by
  obtain ⟨h1, h2, h3, h4⟩ := treesOk hts
  rw [← h1, ← h2]
  rw [← h4] at ha
  cases hd with
  | const q =>
    have : ts = [] := List.length_eq_zero_iff.1 ha
    subst this
    exact ⟨_, rfl, rfl, rfl, rfl⟩
  | code q =>
    have : ts = [] := List.length_eq_zero_iff.1 ha
    subst this
    exact ⟨_, rfl, rfl, rfl, rfl⟩
  | index q t =>
    have : ts = [] := List.length_eq_zero_iff.1 ha
    subst this
    exact ⟨_, rfl, rfl, rfl, rfl⟩
  | point q =>
    have : ts = [] := List.length_eq_zero_iff.1 ha
    subst this
    exact ⟨_, rfl, rfl, rfl, rfl⟩
  | neg =>
    obtain ⟨a, rfl⟩ := List.length_eq_one_iff.1 ha
    refine ⟨.neg a, rfl, by simp [NExpr.depth], by simp [NExpr.val, Head.val], ?_⟩
    have : b = false := hok
    simp [NExpr.free, this]
    simpa [this] using h3 a (by simp)
  | bin op =>
    obtain ⟨l, r, rfl⟩ := List.length_eq_two.1 ha
    refine ⟨.bin op l r, rfl, by simp [NExpr.depth], by cases op <;> simp [NExpr.val, Head.val], ?_⟩
    simp only [NExpr.free, h3 l (by simp), h3 r (by simp)]
    cases op with
    | sub =>
      have : b = true := hok
      simp [this]
    | div => simp
    | mod => simp
  | comm op =>
    refine ⟨.comm op ts, rfl, by simp [NExpr.depth, NExpr.depths_eq], ?_, ?_⟩
    · rw [NExpr.val_comm]; cases op <;> rfl
    · simp only [NExpr.free]
      exact (NExpr.frees_eq b ts).2 h3
  | func f =>
    refine ⟨.func f ts, rfl, by simp [NExpr.depth, NExpr.depths_eq], by rw [NExpr.val_func]; rfl, ?_⟩
    simp only [NExpr.free]
    exact (NExpr.frees_eq b ts).2 h3
  | eqn => exact absurd rfl hne

theorem tree_spec {I : Interp π K} {N : Nat} {b : Bool} {h : Heap π} {d : Nat → Nat} {v : Nat → K}
    (hh : HeapOk I N b h d v) (n : Nat) : ∀ id < N, d id < n → (h id).1 ≠ .eqn →
    ∃ t, h.tree n id = some t ∧ TreeOk I b d v id t := by
  induction n with
  | zero => intro id _ hn; omega
  | succ n ih =>
    intro id hid hn hne
    obtain ⟨ts, hts, hf⟩ := allSome_map (h id).2 (fun c => h.tree n c) (TreeOk I b d v) (by
      intro c hc
      have hc' := hh.child id hid c hc
      have : d c < d id := by
        rw [hh.depth id hid]
        exact lt_maxDepth (List.mem_map_of_mem hc)
      exact ih c hc'.1 (by omega) hc'.2)
    obtain ⟨t, ht, h1, h2, h3⟩ := mk_spec I b d v (h id).1 (h id).2 ts (hh.arity id hid) hne (hh.ok id hid) hf
    refine ⟨t, ?_, h1.trans (hh.depth id hid).symm, h2.trans (hh.val id hid).symm, h3⟩
    simp only [Heap.tree, hts, ht]

theorem findMatch_spec {I : Interp π K} {N : Nat} {b : Bool} {h : Heap π} {d : Nat → Nat} {v : Nat → K}
    (hh : HeapOk I N b h d v) (c : Nat) (hc : c < N) (hce : (h c).1 ≠ .eqn) (os : List Nat)
    (hos : ∀ o ∈ os, o < N ∧ (h o).1 ≠ .eqn) :
    h.findMatch N c os = .ok none ∨
    ∃ o ∈ os, h.findMatch N c os = .ok (some o) ∧ d o = d c ∧ v o = v c := by
  induction os with
  | nil => exact .inl rfl
  | cons o os ih =>
    obtain ⟨a, ea, ha⟩ := tree_spec hh N c hc (hh.lt c hc) hce
    have ho := hos o List.mem_cons_self
    obtain ⟨b', eb, hb⟩ := tree_spec hh N o ho.1 (hh.lt o ho.1) ho.2
    simp only [Heap.findMatch, ea, eb]
    by_cases hs : a.same b' = true
    · rw [if_pos hs]
      obtain ⟨s1, s2⟩ := same_sim I b a b' ha.2.2 hb.2.2 hs
      refine .inr ⟨o, List.mem_cons_self, rfl, ?_, ?_⟩
      · rw [← hb.1, ← ha.1, s1]
      · rw [← hb.2.1, ← ha.2.1, s2]
    · rw [if_neg hs]
      rcases ih fun o ho => hos o (List.mem_cons_of_mem _ ho) with h' | ⟨q, hq, h'⟩
      · exact .inl h'
      · exact .inr ⟨q, List.mem_cons_of_mem _ hq, h'⟩

theorem map_set_eq {α : Type} (f : Nat → α) (l : List Nat) (i o c : Nat) (hc : l[i]? = some c) (h : f o = f c) :
    (l.set i o).map f = l.map f := by
  rw [List.map_set, h]
  apply List.ext_getElem?
  intro j
  rw [List.getElem?_set]
  by_cases hij : i = j
  · subst hij
    rw [if_pos rfl]
    obtain ⟨hi, hi'⟩ := List.getElem?_eq_some_iff.1 hc
    simp [hi, hi']
  · rw [if_neg hij]

theorem setChild_head (h : Heap π) (id i o x : Nat) : ((h.setChild id i o) x).1 = (h x).1 := by
  unfold Heap.setChild
  split_ifs with hx
  · rw [hx]
  · rfl

theorem setChild_len (h : Heap π) (id i o x : Nat) : ((h.setChild id i o) x).2.length = (h x).2.length := by
  unfold Heap.setChild
  split_ifs with hx
  · simp [hx]
  · rfl

theorem setChild_ok {I : Interp π K} {N : Nat} {b : Bool} {h : Heap π} {d : Nat → Nat} {v : Nat → K}
    (hh : HeapOk I N b h d v) (id i o c : Nat) (hc : (h id).2[i]? = some c)
    (ho : o < N ∧ (h o).1 ≠ .eqn) (hd : d o = d c) (hv : v o = v c) :
    HeapOk I N b (h.setChild id i o) d v := by
  have hmd : ∀ {α : Type} (f : Nat → α), f o = f c → ∀ x, ((h.setChild id i o) x).2.map f = (h x).2.map f := by
    intro α f hf x
    unfold Heap.setChild
    split_ifs with hx
    · rw [hx]
      exact map_set_eq f _ i o c hc hf
    · rfl
  refine ⟨?_, ?_, ?_, hh.lt, ?_, ?_⟩
  · intro x hx
    rw [setChild_head, setChild_len]
    exact hh.arity x hx
  · intro x hx y hy
    rw [setChild_head]
    unfold Heap.setChild at hy
    split_ifs at hy with hxi
    · rcases List.mem_or_eq_of_mem_set hy with hy | rfl
      · exact hh.child id (hxi ▸ hx) y hy
      · exact ho
    · exact hh.child x hx y hy
  · intro x hx
    rw [hmd d hd]
    exact hh.depth x hx
  · intro x hx
    rw [setChild_head, hmd v hv]
    exact hh.val x hx
  · intro x hx
    rw [setChild_head]
    exact hh.ok x hx

/-- What is invariant during the visit. -/
structure CseOk (I : Interp π K) (N : Nat) (b : Bool) (h0 : Heap π) (d : Nat → Nat) (v : Nat → K) (s : Cse π) :
    Prop where
  heap : HeapOk I N b s.h d v
  seen : ∀ o ∈ s.seen, o < N ∧ (s.h o).1 ≠ .eqn
  head : ∀ x, (s.h x).1 = (h0 x).1
  len : ∀ x, (s.h x).2.length = (h0 x).2.length

theorem cseVisit_spec {I : Interp π K} {N : Nat} {b : Bool} {h0 : Heap π} {d : Nat → Nat} {v : Nat → K}
    {ord : List Nat → List Nat} (hord : ∀ l, (ord l).Perm l) (n : Nat) :
    ∀ (id : Nat) (s : Cse π), CseOk I N b h0 d v s → id < N → d id < n →
    ∃ s', cseVisit N ord n id s = .ok s' ∧ CseOk I N b h0 d v s' := by
  induction n with
  | zero => intro id s _ _ hn; omega
  | succ n ih =>
    intro id s hs hid hn
    simp only [cseVisit]
    have key : ∀ (l : List Nat), (∀ i ∈ l, i < (s.h id).2.length) → ∀ s1 : Cse π, CseOk I N b h0 d v s1 →
        ∃ s', l.foldlM (fun (s : Cse π) i =>
          match (s.h id).2[i]? with
          | none => Outcome.undefined
          | some c =>
            if c ∈ s.seen then .ok s
            else match s.h.findMatch N c (ord s.seen) with
              | .ok (some o) => .ok { s with h := s.h.setChild id i o }
              | .ok none => cseVisit N ord n c { s with seen := c :: s.seen }
              | .throws => .throws
              | .undefined => .undefined) s1 = .ok s' ∧ CseOk I N b h0 d v s' := by
      intro l
      induction l with
      | nil => intro _ s1 h1; exact ⟨s1, rfl, h1⟩
      | cons i l ih' =>
        intro hl s1 h1
        rw [List.foldlM_cons]
        have hi : i < (s1.h id).2.length := by
          rw [h1.len, ← hs.len]
          exact hl i List.mem_cons_self
        rw [List.getElem?_eq_getElem hi]
        simp only
        generalize hcd : (s1.h id).2[i] = c
        have hc? : (s1.h id).2[i]? = some c := by rw [List.getElem?_eq_getElem hi, hcd]
        have hc := h1.heap.child id hid c (List.mem_of_getElem? hc?)
        have hdc : d c < d id := by
          rw [h1.heap.depth id hid]
          exact lt_maxDepth (List.mem_map_of_mem (List.mem_of_getElem? hc?))
        have step : ∃ s2, (if c ∈ s1.seen then Outcome.ok s1
            else match s1.h.findMatch N c (ord s1.seen) with
              | .ok (some o) => .ok { s1 with h := s1.h.setChild id i o }
              | .ok none => cseVisit N ord n c { s1 with seen := c :: s1.seen }
              | .throws => .throws
              | .undefined => .undefined) = .ok s2 ∧ CseOk I N b h0 d v s2 := by
          by_cases hsn : c ∈ s1.seen
          · rw [if_pos hsn]; exact ⟨s1, rfl, h1⟩
          rw [if_neg hsn]
          rcases findMatch_spec h1.heap c hc.1 hc.2 (ord s1.seen)
            (fun o ho => h1.seen o ((hord _).subset ho)) with e | ⟨o, ho, e, hd, hv⟩
          · rw [e]
            simp only
            refine ih c _ ⟨h1.heap, ?_, h1.head, h1.len⟩ hc.1 (by omega)
            intro o ho
            rcases List.mem_cons.1 ho with rfl | ho
            · exact hc
            · exact h1.seen o ho
          · rw [e]
            simp only
            have ho' := h1.seen o ((hord _).subset ho)
            refine ⟨_, rfl, setChild_ok h1.heap id i o c hc? ho' hd hv, ?_, ?_, ?_⟩
            · intro q hq
              simp only [setChild_head]
              exact h1.seen q hq
            · intro x; simp only [setChild_head]; exact h1.head x
            · intro x; simp only [setChild_len]; exact h1.len x
        obtain ⟨s2, e2, h2⟩ := step
        rw [e2]
        exact ih' (fun j hj => hl j (List.mem_cons_of_mem _ hj)) s2 h2
    exact key _ (by simp) s hs

theorem cse_spec {I : Interp π K} {N : Nat} {b : Bool} {h : Heap π} {d : Nat → Nat} {v : Nat → K}
    {ord : List Nat → List Nat} (hord : ∀ l, (ord l).Perm l) (hh : HeapOk I N b h d v) (eqns : List Nat)
    (he : ∀ id ∈ eqns, id < N) :
    ∃ h', cse N ord h eqns = .ok h' ∧ HeapOk I N b h' d v ∧ (∀ x, (h' x).1 = (h x).1) ∧
      ∀ x, (h' x).2.length = (h x).2.length := by
  unfold cse
  have key : ∀ (l : List Nat), (∀ id ∈ l, id < N) → ∀ s : Cse π, CseOk I N b h d v s →
      ∃ s', l.foldlM (fun s id => cseVisit N ord (N + 1) id s) s = .ok s' ∧ CseOk I N b h d v s' := by
    intro l
    induction l with
    | nil => intro _ s hs; exact ⟨s, rfl, hs⟩
    | cons id l ih =>
      intro hl s hs
      have hid := hl id List.mem_cons_self
      obtain ⟨s1, e1, h1⟩ := cseVisit_spec hord (N + 1) id s hs hid (by have := hs.heap.lt id hid; omega)
      rw [List.foldlM_cons, e1]
      exact ih (fun j hj => hl j (List.mem_cons_of_mem _ hj)) s1 h1
  obtain ⟨s', e, hs⟩ := key eqns he { h := h } ⟨hh, by simp, fun _ => rfl, fun _ => rfl⟩
  rw [e]
  exact ⟨s'.h, rfl, hs.heap, hs.head, hs.len⟩

/-! ### Depth and value of the nodes of a heap in which children have smaller numbers -/

/-- Depth of a node. -/
def nodeDepth (h : Heap π) : Nat → Nat → Nat
  | 0, _ => 0
  | n + 1, id => maxDepth ((h id).2.map (nodeDepth h n))

/-- Value of a node. -/
def nodeVal (I : Interp π K) (h : Heap π) : Nat → Nat → K
  | 0, _ => 0
  | n + 1, id => (h id).1.val I ((h id).2.map (nodeVal I h n))

theorem maxDepth_le {l : List Nat} {n : Nat} (h : ∀ c ∈ l, c < n) : maxDepth l ≤ n := by
  induction l with
  | nil => simp [maxDepth]
  | cons a l ih =>
    unfold maxDepth at *
    rw [List.foldr_cons]
    have := h a List.mem_cons_self
    have := ih fun c hc => h c (List.mem_cons_of_mem _ hc)
    omega

theorem nodeDepth_le (h : Heap π) (N : Nat) (hac : ∀ id < N, ∀ c ∈ (h id).2, c < id) (n : Nat) :
    ∀ id < N, nodeDepth h n id ≤ id := by
  induction n with
  | zero => intro id _; simp [nodeDepth]
  | succ n ih =>
    intro id hid
    simp only [nodeDepth]
    apply maxDepth_le
    intro c hc
    obtain ⟨x, hx, rfl⟩ := List.mem_map.1 hc
    have := hac id hid x hx
    have := ih x (by omega)
    omega

theorem node_stable {α : Type} (h : Heap π) (N : Nat) (hac : ∀ id < N, ∀ c ∈ (h id).2, c < id)
    (f : Nat → Nat → α) (g : Head π → List α → α) (hf : ∀ n id, f (n + 1) id = g (h id).1 ((h id).2.map (f n)))
    (n : Nat) : ∀ m id, id < N → id < n → id < m → f n id = f m id := by
  induction n with
  | zero => intro m id _ h0; omega
  | succ n ih =>
    intro m id hid hn hm
    cases m with
    | zero => omega
    | succ m =>
      rw [hf, hf]
      congr 1
      apply List.map_congr_left
      intro c hc
      have := hac id hid c hc
      exact ih m c (by omega) (by omega) (by omega)

theorem heapOk_of_order (I : Interp π K) (N : Nat) (b : Bool) (h : Heap π)
    (har : ∀ id < N, (h id).1.arity (h id).2.length) (hac : ∀ id < N, ∀ c ∈ (h id).2, c < id)
    (hne : ∀ id < N, ∀ c ∈ (h id).2, (h c).1 ≠ .eqn) (hok : ∀ id < N, (h id).1.okFor b) :
    HeapOk I N b h (nodeDepth h N) (nodeVal I h N) := by
  refine ⟨har, fun id hid c hc => ⟨by have := hac id hid c hc; omega, hne id hid c hc⟩, ?_, ?_, ?_, hok⟩
  · intro id hid
    rw [node_stable h N hac (nodeDepth h) (fun _ l => maxDepth l) (fun _ _ => rfl) N (N + 1) id hid hid (by omega)]
    rfl
  · intro id hid
    have := nodeDepth_le h N hac N id hid
    omega
  · intro id hid
    rw [node_stable h N hac (nodeVal I h) (fun hd l => hd.val I l) (fun _ _ => rfl) N (N + 1) id hid hid (by omega)]
    rfl

end Yask.Comp
