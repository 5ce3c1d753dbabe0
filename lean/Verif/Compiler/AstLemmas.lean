import Verif.Compiler.CseLemmas
import Verif.Spec.AstSpec
import Mathlib.Data.List.GetD

/-! Helper lemmas: nodes of expressions and copies of them. -/

namespace Yask.Comp
open Spec

section
variable {π : Type}

/-! ### Expressions at nodes -/

theorem allSome_eq_some {α : Type} {l : List (Option α)} {r : List α} : allSome l = some r ↔ l = r.map some := by
  induction l generalizing r with
  | nil => cases r <;> simp [allSome]
  | cons a l ih =>
    cases a with
    | none => cases r <;> simp [allSome]
    | some a =>
      cases r with
      | nil => simp [allSome]
      | cons b r => simp [allSome, ih, and_comm]

theorem allSome_isSome {α : Type} (l : List (Option α)) : (allSome l).isSome ↔ ∀ x ∈ l, x.isSome := by
  induction l with
  | nil => simp [allSome]
  | cons a l ih => cases a <;> simp [allSome, ih]

theorem mk_isSome (hd : Head π) (ts : List (NExpr π)) : (hd.mk ts).isSome ↔ hd.arity ts.length ∧ hd ≠ .eqn := by
  cases hd <;> rcases ts with _ | ⟨a, _ | ⟨b, _ | ⟨c, ts⟩⟩⟩ <;> simp [Head.mk, Head.arity]

theorem tree_succ_isSome (h : Heap π) (n id : Nat) :
    (h.tree (n + 1) id).isSome ↔ ((h id).1.arity (h id).2.length ∧ (h id).1 ≠ .eqn) ∧ ∀ c ∈ (h id).2, (h.tree n c).isSome := by
  rw [Heap.tree]
  cases e : allSome ((h id).2.map fun c => h.tree n c) with
  | none =>
    have : ¬ ∀ c ∈ (h id).2, (h.tree n c).isSome := by
      intro hall
      have := (allSome_isSome ((h id).2.map fun c => h.tree n c)).2 (by
        intro x hx
        obtain ⟨c, hc, rfl⟩ := List.mem_map.1 hx
        exact hall c hc)
      rw [e] at this
      cases this
    simp [this]
  | some ts =>
    have h1 := allSome_eq_some.1 e
    have hl : ts.length = (h id).2.length := by
      have := congrArg List.length h1
      simpa using this.symm
    have h2 : ∀ c ∈ (h id).2, (h.tree n c).isSome := by
      intro c hc
      have := (allSome_isSome _).1 (by rw [e]; rfl) (h.tree n c) (List.mem_map.2 ⟨c, hc, rfl⟩)
      exact this
    simp only
    rw [mk_isSome, hl]
    exact ⟨fun a => ⟨a, h2⟩, fun a => a.1⟩

theorem tree_succ (h : Heap π) {n id : Nat} {t : NExpr π} (ht : h.tree (n + 1) id = some t) :
    ∃ ts, (h id).2.map (fun c => h.tree n c) = ts.map some ∧ (h id).1.mk ts = some t := by
  rw [Heap.tree] at ht
  cases e : allSome ((h id).2.map fun c => h.tree n c) with
  | none => rw [e] at ht; cases ht
  | some ts =>
    rw [e] at ht
    exact ⟨ts, allSome_eq_some.1 e, ht⟩

theorem tree_of (h : Heap π) {n id : Nat} {t : NExpr π} {ts : List (NExpr π)}
    (h1 : (h id).2.map (fun c => h.tree n c) = ts.map some) (h2 : (h id).1.mk ts = some t) : h.tree (n + 1) id = some t := by
  rw [Heap.tree, allSome_eq_some.2 h1]
  exact h2

theorem tree_mono (h : Heap π) : ∀ {n m id : Nat} {t : NExpr π}, n ≤ m → h.tree n id = some t → h.tree m id = some t := by
  intro n
  induction n with
  | zero => intro m id t _ ht; cases ht
  | succ n ih =>
    intro m id t hm ht
    obtain ⟨k, rfl⟩ : ∃ k, m = k + 1 := ⟨m - 1, by omega⟩
    obtain ⟨ts, h1, h2⟩ := tree_succ h ht
    refine tree_of h ?_ h2
    rw [← h1]
    refine List.map_congr_left fun c hc => ?_
    have : h.tree n c ∈ ts.map some := by rw [← h1]; exact List.mem_map.2 ⟨c, hc, rfl⟩
    obtain ⟨tc, _, hc2⟩ := List.mem_map.1 this
    rw [← hc2]
    exact ih (by omega) hc2.symm

theorem tree_isSome_mono (h : Heap π) {n m id : Nat} (hnm : n ≤ m) (ht : (h.tree n id).isSome) : (h.tree m id).isSome := by
  obtain ⟨t, e⟩ := Option.isSome_iff_exists.1 ht
  rw [tree_mono h hnm e]
  rfl

/-- The expression at a node depends only on the nodes below it. -/
theorem tree_congr {h h' : Heap π} {P : Nat → Prop} (he : ∀ id, P id → h' id = h id) (hc : ∀ id, P id → ∀ c ∈ (h id).2, P c)
    (n : Nat) : ∀ {id}, P id → h'.tree n id = h.tree n id := by
  induction n with
  | zero => intros; rfl
  | succ n ih =>
    intro id hid
    rw [Heap.tree, Heap.tree, he id hid]
    have : (h id).2.map (fun c => h'.tree n c) = (h id).2.map fun c => h.tree n c :=
      List.map_congr_left fun c hcc => ih (hc id hid c hcc)
    rw [this]

/-- One node is replaced: the expressions exist as before, if those at the new operands do. -/
theorem tree_set {h h' : Heap π} {a m : Nat} (he : ∀ id, id ≠ a → h' id = h id)
    (ha : (h' a).1.arity (h' a).2.length ∧ (h' a).1 ≠ .eqn) (hc : ∀ c ∈ (h' a).2, c ∈ (h a).2 ∨ (h'.tree m c).isSome) (n : Nat) :
    ∀ {id}, (h.tree n id).isSome → (h'.tree (n + m) id).isSome := by
  induction n with
  | zero => intro id hs; cases hs
  | succ n ih =>
    intro id hs
    obtain ⟨h1, h2⟩ := (tree_succ_isSome h n id).1 hs
    rw [Nat.add_right_comm, tree_succ_isSome]
    by_cases hid : id = a
    · subst hid
      refine ⟨ha, fun c hcc => ?_⟩
      rcases hc c hcc with h3 | h3
      · exact ih (h2 c h3)
      · exact tree_isSome_mono _ (by omega) h3
    · rw [he id hid]
      exact ⟨h1, fun c hcc => ih (h2 c hcc)⟩

/-! ### Nodes in a list -/

theorem heapOf_append_left {ns l : List (Head π × List Nat)} {id : Nat} (h : id < ns.length) : heapOf (ns ++ l) id = heapOf ns id := by
  unfold heapOf
  rw [List.getD_append _ _ _ _ h]

theorem heapOf_append_right {ns l : List (Head π × List Nat)} {i : Nat} (h : i < l.length) : heapOf (ns ++ l) (ns.length + i) = l[i] := by
  unfold heapOf
  rw [List.getD_append_right _ _ _ _ (by omega), Nat.add_sub_cancel_left, List.getD_eq_getElem _ _ h]

theorem heapOf_eq {ns : List (Head π × List Nat)} {id : Nat} (h : id < ns.length) : heapOf ns id = ns[id] := by
  unfold heapOf
  exact List.getD_eq_getElem _ _ h

theorem heapOf_set_self {ns : List (Head π × List Nat)} {a : Nat} {x : Head π × List Nat} (h : a < ns.length) :
    heapOf (ns.set a x) a = x := by
  unfold heapOf
  rw [List.getD_eq_getElem _ _ (by simpa using h)]
  simp

theorem heapOf_set_ne {ns : List (Head π × List Nat)} {a id : Nat} {x : Head π × List Nat} (h : id ≠ a) :
    heapOf (ns.set a x) id = heapOf ns id := by
  unfold heapOf
  rw [List.getD_eq_getElem?_getD, List.getD_eq_getElem?_getD, List.getElem?_set_ne (Ne.symm h)]

/-- The head is that of a sum, product or function. -/
def Head.copies : Head π → Prop
  | .comm _ => True
  | .func _ => True
  | _ => False

/-- Each node has an expression; `priv` are the nodes to which only copied expressions refer. -/
structure NodesOk (ns : List (Head π × List Nat)) (priv : Nat → Prop) : Prop where
  total : ∀ id < ns.length, ((heapOf ns).tree ns.length id).isSome
  child : ∀ id < ns.length, ∀ c ∈ (heapOf ns id).2, c < ns.length
  lt : ∀ id, priv id → id < ns.length
  closed : ∀ id < ns.length, priv id ∨ (heapOf ns id).1.copies → ∀ c ∈ (heapOf ns id).2, priv c

theorem NodesOk.nil : NodesOk ([] : List (Head π × List Nat)) fun _ => False where
  total id h := by simp at h
  child id h := by simp at h
  lt id h := h.elim
  closed id h := by simp at h

/-- Nodes that are added one after the other: operands have smaller numbers, but at least `lo`. -/
def Seg (lo n : Nat) (l : List (Head π × List Nat)) : Prop :=
  ∀ i (h : i < l.length), (∀ c ∈ l[i].2, lo ≤ c ∧ c < n + i) ∧ l[i].1.arity l[i].2.length ∧ l[i].1 ≠ .eqn

theorem Seg.nil (lo n : Nat) : Seg lo n ([] : List (Head π × List Nat)) := by
  intro i h
  simp at h

theorem Seg.append {lo n : Nat} {l r : List (Head π × List Nat)} (h1 : Seg lo n l) (h2 : Seg lo (n + l.length) r) : Seg lo n (l ++ r) := by
  intro i h
  by_cases hi : i < l.length
  · rw [List.getElem_append_left hi]
    exact h1 i hi
  · rw [List.getElem_append_right (by omega)]
    obtain ⟨a, b⟩ := h2 (i - l.length) (by simp at h; omega)
    refine ⟨fun c hc => ?_, b⟩
    have := a c hc
    omega

theorem Seg.weaken {lo lo' n : Nat} {l : List (Head π × List Nat)} (h : Seg lo n l) (hl : lo' ≤ lo) : Seg lo' n l := by
  intro i hi
  obtain ⟨a, b⟩ := h i hi
  exact ⟨fun c hc => ⟨by have := a c hc; omega, (a c hc).2⟩, b⟩

theorem Seg.one {lo n : Nat} {hd : Head π} {cs : List Nat} (h1 : ∀ c ∈ cs, lo ≤ c ∧ c < n) (h2 : hd.arity cs.length) (h3 : hd ≠ .eqn) :
    Seg lo n [(hd, cs)] := by
  intro i hi
  have : i = 0 := by simpa using hi
  subst this
  exact ⟨h1, h2, h3⟩

theorem Seg.left {lo n : Nat} {l r : List (Head π × List Nat)} (h : Seg lo n (l ++ r)) : Seg lo n l := by
  intro i hi
  have := h i (by simp; omega)
  rwa [List.getElem_append_left hi] at this

/-- Each node of a list to which nodes have been added still has an expression. -/
theorem total_append {ns l : List (Head π × List Nat)} (hc : ∀ id < ns.length, ∀ c ∈ (heapOf ns id).2, c < ns.length)
    (ht : ∀ id < ns.length, ((heapOf ns).tree ns.length id).isSome) (hs : Seg 0 ns.length l) :
    ∀ id < ns.length + l.length, ((heapOf (ns ++ l)).tree (ns.length + l.length) id).isSome := by
  have old : ∀ id < ns.length, ((heapOf (ns ++ l)).tree ns.length id).isSome := by
    intro id hid
    rw [tree_congr (P := (· < ns.length)) (h := heapOf ns) (fun i hi => heapOf_append_left hi) hc _ hid]
    exact ht id hid
  have new : ∀ i ≤ l.length, ∀ id < ns.length + i, ((heapOf (ns ++ l)).tree (ns.length + i) id).isSome := by
    intro i
    induction i with
    | zero => intro _ id hid; exact old id hid
    | succ i ih =>
      intro hi id hid
      by_cases h : id < ns.length + i
      · exact tree_isSome_mono _ (by omega) (ih (by omega) id h)
      · obtain rfl : id = ns.length + i := by omega
        obtain ⟨h1, h2⟩ := hs i (by omega)
        rw [← Nat.add_assoc, tree_succ_isSome, heapOf_append_right (by omega)]
        exact ⟨h2, fun c hcc => ih (by omega) c (h1 c hcc).2⟩
  exact new l.length le_rfl

theorem child_append {ns l : List (Head π × List Nat)} (hc : ∀ id < ns.length, ∀ c ∈ (heapOf ns id).2, c < ns.length)
    (hs : Seg 0 ns.length l) : ∀ id < (ns ++ l).length, ∀ c ∈ (heapOf (ns ++ l) id).2, c < (ns ++ l).length := by
  intro id hid c hcc
  rw [List.length_append] at hid ⊢
  by_cases h : id < ns.length
  · rw [heapOf_append_left h] at hcc
    have := hc id h c hcc
    omega
  · obtain ⟨i, rfl⟩ : ∃ i, id = ns.length + i := ⟨id - ns.length, by omega⟩
    rw [heapOf_append_right (by omega)] at hcc
    have := ((hs i (by omega)).1 c hcc).2
    omega

/-- Copied expressions are added. -/
theorem NodesOk.append_priv {ns l : List (Head π × List Nat)} {priv : Nat → Prop} (h : NodesOk ns priv) (hs : Seg ns.length ns.length l) :
    NodesOk (ns ++ l) fun id => priv id ∨ (ns.length ≤ id ∧ id < ns.length + l.length) where
  total := by
    rw [List.length_append]
    exact total_append h.child h.total (hs.weaken (Nat.zero_le _))
  child := child_append h.child (hs.weaken (Nat.zero_le _))
  lt id hid := by
    rw [List.length_append]
    rcases hid with hid | hid
    · have := h.lt id hid
      omega
    · omega
  closed id hid hp c hc := by
    rw [List.length_append] at hid
    by_cases hl : id < ns.length
    · rw [heapOf_append_left hl] at hc hp
      refine .inl (h.closed id hl ?_ c hc)
      rcases hp with (hp | hp) | hp
      · exact .inl hp
      · omega
      · exact .inr hp
    · obtain ⟨i, rfl⟩ : ∃ i, id = ns.length + i := ⟨id - ns.length, by omega⟩
      rw [heapOf_append_right (by omega)] at hc
      have := (hs i (by omega)).1 c hc
      exact .inr (by omega)

/-- Another node is added. -/
theorem NodesOk.append_pub {ns : List (Head π × List Nat)} {priv : Nat → Prop} (h : NodesOk ns priv) {hd : Head π} {cs : List Nat}
    (h1 : ∀ c ∈ cs, c < ns.length) (h2 : hd.arity cs.length) (h3 : hd ≠ .eqn) (h4 : hd.copies → ∀ c ∈ cs, priv c) :
    NodesOk (ns ++ [(hd, cs)]) priv := by
  have hs : Seg 0 ns.length [(hd, cs)] := Seg.one (fun c hc => ⟨Nat.zero_le _, h1 c hc⟩) h2 h3
  refine ⟨?_, child_append h.child hs, fun id hid => ?_, fun id hid hp c hc => ?_⟩
  · have := total_append h.child h.total hs
    simpa using this
  · have := h.lt id hid
    simp
    omega
  · by_cases hl : id < ns.length
    · rw [heapOf_append_left hl] at hc hp
      exact h.closed id hl hp c hc
    · obtain rfl : id = ns.length + 0 := by simp at hid; omega
      rw [heapOf_append_right (by simp)] at hc hp
      rcases hp with hp | hp
      · have := h.lt _ hp
        omega
      · exact h4 hp c hc

/-- New nodes have expressions of limited depth. -/
theorem seg_tree {h : Heap π} {n : Nat} {l : List (Head π × List Nat)} (hs : Seg n n l) (he : ∀ i (hi : i < l.length), h (n + i) = l[i]) :
    ∀ k i, i < k → i < l.length → (h.tree k (n + i)).isSome := by
  intro k
  induction k with
  | zero => intro i h; omega
  | succ k ih =>
    intro i hk hi
    rw [tree_succ_isSome, he i hi]
    obtain ⟨h1, h2⟩ := hs i hi
    refine ⟨h2, fun c hc => ?_⟩
    have := h1 c hc
    obtain ⟨j, rfl⟩ : ∃ j, c = n + j := ⟨c - n, by omega⟩
    exact ih j (by omega) (by omega)

/-- Nodes are added, and a node that was there before is replaced. -/
theorem total_set {ns l : List (Head π × List Nat)} {priv : Nat → Prop} (h : NodesOk ns priv) (hs : Seg ns.length ns.length l) {a : Nat}
    (ha : a < ns.length) {hd : Head π} {cs : List Nat} (h2 : hd.arity cs.length) (h3 : hd ≠ .eqn)
    (hcs : ∀ c ∈ cs, c ∈ (heapOf ns a).2 ∨ (ns.length ≤ c ∧ c < ns.length + l.length)) :
    ∀ id < ns.length + l.length, ((heapOf ((ns ++ l).set a (hd, cs))).tree (ns.length + l.length) id).isSome := by
  have hal : a < (ns ++ l).length := by simp; omega
  have new : ∀ i < l.length, ((heapOf ((ns ++ l).set a (hd, cs))).tree l.length (ns.length + i)).isSome := by
    intro i hi
    refine seg_tree hs (fun j hj => ?_) l.length i hi hi
    rw [heapOf_set_ne (by omega), heapOf_append_right hj]
  intro id hid
  by_cases hl : id < ns.length
  · refine tree_set (h := heapOf (ns ++ l)) (a := a) (fun i hi => heapOf_set_ne hi) ?_ ?_ ns.length ?_
    · rw [heapOf_set_self hal]
      exact ⟨h2, h3⟩
    · rw [heapOf_set_self hal, heapOf_append_left ha]
      intro c hc
      rcases hcs c hc with hc | hc
      · exact .inl hc
      · obtain ⟨i, rfl⟩ : ∃ i, c = ns.length + i := ⟨c - ns.length, by omega⟩
        exact .inr (new i (by omega))
    · rw [tree_congr (P := (· < ns.length)) (h := heapOf ns) (fun i hi => heapOf_append_left hi) h.child _ hl]
      exact h.total id hl
  · obtain ⟨i, rfl⟩ : ∃ i, id = ns.length + i := ⟨id - ns.length, by omega⟩
    exact tree_isSome_mono _ (by omega) (new i (by omega))

/-- Copied expressions are added, and a node that is not copied is replaced. -/
theorem NodesOk.set {ns l : List (Head π × List Nat)} {priv : Nat → Prop} (h : NodesOk ns priv) (hs : Seg ns.length ns.length l) {a : Nat}
    (ha : a < ns.length) {hd : Head π} {cs : List Nat} (h2 : hd.arity cs.length) (h3 : hd ≠ .eqn) (hp : ¬ priv a)
    (hpc : ∀ c ∈ (heapOf ns a).2, priv c)
    (hcs : ∀ c ∈ cs, c ∈ (heapOf ns a).2 ∨ (ns.length ≤ c ∧ c < ns.length + l.length)) :
    NodesOk ((ns ++ l).set a (hd, cs)) fun id => priv id ∨ (ns.length ≤ id ∧ id < ns.length + l.length) := by
  have h1 := h.append_priv hs
  have hal : a < (ns ++ l).length := by simp; omega
  have hcs' : ∀ c ∈ cs, priv c ∨ (ns.length ≤ c ∧ c < ns.length + l.length) := fun c hc => (hcs c hc).imp (hpc c) id
  have hlen : ((ns ++ l).set a (hd, cs)).length = (ns ++ l).length := List.length_set ..
  refine ⟨?_, ?_, ?_, ?_⟩
  · rw [hlen, List.length_append]
    exact total_set h hs ha h2 h3 hcs
  · intro id hid c hc
    rw [hlen] at hid ⊢
    by_cases e : id = a
    · subst e
      rw [heapOf_set_self hal] at hc
      exact h1.lt c (hcs' c hc)
    · rw [heapOf_set_ne e] at hc
      exact h1.child id hid c hc
  · intro id hid
    rw [hlen]
    exact h1.lt id hid
  · intro id hid hpp c hc
    rw [hlen] at hid
    by_cases e : id = a
    · subst e
      rw [heapOf_set_self hal] at hc
      exact hcs' c hc
    · rw [heapOf_set_ne e] at hc hpp
      exact h1.closed id hid hpp c hc

/-! ### Copies -/

mutual
theorem copyNodes_seg (n : Nat) : ∀ t : NExpr π, Seg n n (copyNodes n t) ∧ 0 < (copyNodes n t).length
  | .const q => by
    rw [copyNodes]
    exact ⟨Seg.one (by simp) rfl (by simp), by simp⟩
  | .code q => by
    rw [copyNodes]
    exact ⟨Seg.one (by simp) rfl (by simp), by simp⟩
  | .index d t => by
    rw [copyNodes]
    exact ⟨Seg.one (by simp) rfl (by simp), by simp⟩
  | .point p => by
    rw [copyNodes]
    exact ⟨Seg.one (by simp) rfl (by simp), by simp⟩
  | .neg a => by
    obtain ⟨h1, h2⟩ := copyNodes_seg n a
    rw [copyNodes]
    refine ⟨h1.append (Seg.one ?_ rfl (by simp)), by simp⟩
    intro c hc
    simp at hc
    omega
  | .bin op a b => by
    obtain ⟨h1, h2⟩ := copyNodes_seg n a
    obtain ⟨h3, h4⟩ := copyNodes_seg (n + (copyNodes n a).length) b
    rw [copyNodes]
    refine ⟨(h1.append (h3.weaken (by omega))).append (Seg.one ?_ rfl (by simp)), by simp⟩
    intro c hc
    simp at hc ⊢
    omega
  | .comm op as => by
    obtain ⟨h1, h2⟩ := copyList_seg n as
    rw [copyNodes]
    exact ⟨h1.append (Seg.one h2 trivial (by simp)), by simp⟩
  | .func f as => by
    obtain ⟨h1, h2⟩ := copyList_seg n as
    rw [copyNodes]
    exact ⟨h1.append (Seg.one h2 trivial (by simp)), by simp⟩
theorem copyList_seg (n : Nat) : ∀ ts : List (NExpr π), Seg n n (copyList n ts).1 ∧
    ∀ c ∈ (copyList n ts).2, n ≤ c ∧ c < n + (copyList n ts).1.length
  | [] => by
    rw [copyList]
    exact ⟨Seg.nil _ _, by simp⟩
  | a :: as => by
    obtain ⟨h1, h2⟩ := copyNodes_seg n a
    obtain ⟨h3, h4⟩ := copyList_seg (n + (copyNodes n a).length) as
    rw [copyList]
    refine ⟨h1.append (h3.weaken (by omega)), ?_⟩
    intro c hc
    rw [List.length_append]
    rcases List.mem_cons.1 hc with rfl | hc
    · omega
    · have := h4 c hc
      omega
end

/-- The head of an expression. -/
def NExpr.head : NExpr π → Head π
  | .const q => .const q
  | .code s => .code s
  | .index d t => .index d t
  | .point p => .point p
  | .neg _ => .neg
  | .bin op _ _ => .bin op
  | .comm op _ => .comm op
  | .func f _ => .func f

theorem mk_head {hd : Head π} {ts : List (NExpr π)} {t : NExpr π} (h : hd.mk ts = some t) : t.head = hd := by
  cases hd <;> rcases ts with _ | ⟨a, _ | ⟨b, _ | ⟨c, ts⟩⟩⟩ <;> simp [Head.mk] at h <;> rw [← h] <;> rfl

/-- The last node of a copy is its top. -/
theorem copyNodes_last (n : Nat) (t : NExpr π) : ∃ l cs, copyNodes n t = l ++ [(t.head, cs)] := by
  cases t <;> rw [copyNodes] <;> first | exact ⟨_, _, rfl⟩ | exact ⟨[], _, rfl⟩

end

section
variable {π K : Type} [CommRing K]

theorem Head.val_mk (I : Interp π K) {hd : Head π} {ts : List (NExpr π)} {t : NExpr π} (h : hd.mk ts = some t) :
    t.val I = hd.val I (ts.map (·.val I)) := by
  cases hd with
  | comm op =>
    simp only [Head.mk, Option.some.injEq] at h
    rw [← h, NExpr.val_comm]
    cases op <;> rfl
  | func f =>
    simp only [Head.mk, Option.some.injEq] at h
    rw [← h, NExpr.val_func]
    rfl
  | bin op =>
    rcases ts with _ | ⟨a, _ | ⟨b, _ | ⟨c, ts⟩⟩⟩ <;> simp [Head.mk] at h
    rw [← h]
    cases op <;> simp [NExpr.val, Head.val]
  | _ => rcases ts with _ | ⟨a, _ | ⟨b, _ | ⟨c, ts⟩⟩⟩ <;> simp [Head.mk] at h <;> rw [← h] <;> simp [NExpr.val, Head.val]

mutual
/-- Values of the nodes of a copy. -/
theorem copyNodes_val (I : Interp π K) (v : Nat → K) (n : Nat) : ∀ t : NExpr π,
    (∀ i (h : i < (copyNodes n t).length), v (n + i) = (copyNodes n t)[i].1.val I ((copyNodes n t)[i].2.map v)) →
      v (n + (copyNodes n t).length - 1) = t.val I
  | .const q, h => by simpa [copyNodes, NExpr.val, Head.val] using h 0 (by simp [copyNodes])
  | .code q, h => by simpa [copyNodes, NExpr.val, Head.val] using h 0 (by simp [copyNodes])
  | .index d t, h => by simpa [copyNodes, NExpr.val, Head.val] using h 0 (by simp [copyNodes])
  | .point p, h => by simpa [copyNodes, NExpr.val, Head.val] using h 0 (by simp [copyNodes])
  | .neg a, h => by
    simp only [copyNodes] at h ⊢
    have h1 := copyNodes_val I v n a (fun i hi => by
      have := h i (by simp; omega)
      rwa [List.getElem_append_left hi] at this)
    have h2 := h (copyNodes n a).length (by simp)
    simp at h2 ⊢
    rw [h2]
    simp [Head.val, h1, NExpr.val]
  | .bin op a b, h => by
    simp only [copyNodes] at h ⊢
    have h1 := copyNodes_val I v n a (fun i hi => by
      have := h i (by simp; omega)
      rwa [List.getElem_append_left (by simp; omega), List.getElem_append_left hi] at this)
    have h2 := copyNodes_val I v (n + (copyNodes n a).length) b (fun i hi => by
      have := h ((copyNodes n a).length + i) (by simp; omega)
      rw [List.getElem_append_left (by simp; omega), List.getElem_append_right (by omega)] at this
      simpa [Nat.add_assoc] using this)
    have h3 := h ((copyNodes n a).length + (copyNodes (n + (copyNodes n a).length) b).length) (by simp)
    rw [List.getElem_append_right (by simp)] at h3
    simp at h3
    have : n + (copyNodes n a ++ copyNodes (n + (copyNodes n a).length) b ++ [(Head.bin op,
        [n + (copyNodes n a).length - 1, n + (copyNodes n a).length + (copyNodes (n + (copyNodes n a).length) b).length - 1])]).length - 1 =
        n + ((copyNodes n a).length + (copyNodes (n + (copyNodes n a).length) b).length) := by
      simp
      omega
    rw [this, h3, h1, h2]
    cases op <;> simp [Head.val, NExpr.val]
  | .comm op as, h => by
    simp only [copyNodes] at h ⊢
    have h1 := copyList_val I v n as (fun i hi => by
      have := h i (by simp; omega)
      rwa [List.getElem_append_left hi] at this)
    have h2 := h (copyList n as).1.length (by simp)
    simp at h2 ⊢
    rw [h2, h1, NExpr.val_comm, NExpr.vals_eq]
    cases op <;> rfl
  | .func f as, h => by
    simp only [copyNodes] at h ⊢
    have h1 := copyList_val I v n as (fun i hi => by
      have := h i (by simp; omega)
      rwa [List.getElem_append_left hi] at this)
    have h2 := h (copyList n as).1.length (by simp)
    simp at h2 ⊢
    rw [h2, h1, NExpr.val_func, NExpr.vals_eq]
    rfl
theorem copyList_val (I : Interp π K) (v : Nat → K) (n : Nat) : ∀ ts : List (NExpr π),
    (∀ i (h : i < (copyList n ts).1.length), v (n + i) = (copyList n ts).1[i].1.val I ((copyList n ts).1[i].2.map v)) →
      (copyList n ts).2.map v = NExpr.vals I ts
  | [], _ => by simp [copyList, NExpr.vals]
  | a :: as, h => by
    simp only [copyList] at h ⊢
    have h1 := copyNodes_val I v n a (fun i hi => by
      have := h i (by simp; omega)
      rwa [List.getElem_append_left hi] at this)
    have h2 := copyList_val I v (n + (copyNodes n a).length) as (fun i hi => by
      have := h ((copyNodes n a).length + i) (by simp; omega)
      rw [List.getElem_append_right (by omega)] at this
      simpa [Nat.add_assoc] using this)
    simp [NExpr.vals, h1, h2]
end

/-! ### Values of nodes -/

theorem nodeValue_of (I : Interp π K) {ns : List (Head π × List Nat)} {id : Nat} {t : NExpr π} {n : Nat}
    (ht : ((heapOf ns).tree ns.length id).isSome) (h : (heapOf ns).tree n id = some t) : nodeValue I ns id = t.val I := by
  obtain ⟨t', e⟩ := Option.isSome_iff_exists.1 ht
  have e1 := tree_mono _ (Nat.le_max_left n ns.length) h
  have e2 := tree_mono _ (Nat.le_max_right n ns.length) e
  rw [e1] at e2
  injection e2 with e2
  unfold nodeValue Heap.valueAt
  rw [e, ← e2]
  rfl

theorem NodesOk.value (I : Interp π K) {ns : List (Head π × List Nat)} {priv : Nat → Prop} (h : NodesOk ns priv) {id : Nat}
    (hid : id < ns.length) : nodeValue I ns id = (heapOf ns id).1.val I ((heapOf ns id).2.map (nodeValue I ns)) := by
  obtain ⟨t, ht⟩ := Option.isSome_iff_exists.1 (h.total id hid)
  obtain ⟨n, hn⟩ : ∃ n, ns.length = n + 1 := ⟨ns.length - 1, by omega⟩
  have ht' := ht
  rw [hn] at ht'
  obtain ⟨ts, h1, h2⟩ := tree_succ _ ht'
  rw [nodeValue_of I (h.total id hid) ht, Head.val_mk I h2]
  congr 1
  have : (heapOf ns id).2.map (fun c => (heapOf ns).tree n c) = ts.map some := h1
  have h3 : ((heapOf ns id).2.map fun c => (heapOf ns).tree n c).map (fun x => (x.map (·.val I)).getD 0) = ts.map (·.val I) := by
    rw [this]
    simp
  rw [← h3, List.map_map]
  refine List.map_congr_left fun c hc => ?_
  have hc2 : (heapOf ns).tree n c ∈ ts.map some := by rw [← h1]; exact List.mem_map.2 ⟨c, hc, rfl⟩
  obtain ⟨tc, _, hc3⟩ := List.mem_map.1 hc2
  simp only [Function.comp]
  rw [← hc3, nodeValue_of I (h.total c (h.child id hid c hc)) hc3.symm]
  rfl

/-- Values of nodes that are not changed. -/
theorem nodeValue_congr (I : Interp π K) {ns ns' : List (Head π × List Nat)} {P : Nat → Prop}
    (he : ∀ id, P id → heapOf ns' id = heapOf ns id) (hc : ∀ id, P id → ∀ c ∈ (heapOf ns id).2, P c) {id : Nat} (hid : P id)
    (h1 : ((heapOf ns).tree ns.length id).isSome) (h2 : ((heapOf ns').tree ns'.length id).isSome) :
    nodeValue I ns' id = nodeValue I ns id := by
  obtain ⟨t, ht⟩ := Option.isSome_iff_exists.1 h1
  rw [nodeValue_of I h1 ht]
  refine nodeValue_of I h2 (n := ns.length) ?_
  rw [tree_congr he hc _ hid]
  exact ht

theorem NodesOk.value_append (I : Interp π K) {ns l : List (Head π × List Nat)} {priv priv' : Nat → Prop} (h : NodesOk ns priv)
    (h' : NodesOk (ns ++ l) priv') {id : Nat} (hid : id < ns.length) : nodeValue I (ns ++ l) id = nodeValue I ns id :=
  nodeValue_congr I (P := (· < ns.length)) (fun _ hi => heapOf_append_left hi) h.child hid (h.total id hid)
    (h'.total id (by simp; omega))

/-- The value of a copy. -/
theorem NodesOk.value_copy (I : Interp π K) {ns : List (Head π × List Nat)} {priv priv' : Nat → Prop} {t : NExpr π} {l : List (Head π × List Nat)}
    (h' : NodesOk (ns ++ copyNodes ns.length t ++ l) priv') :
    nodeValue I (ns ++ copyNodes ns.length t ++ l) (ns.length + (copyNodes ns.length t).length - 1) = t.val I := by
  refine copyNodes_val I _ ns.length t fun i hi => ?_
  have := h'.value I (id := ns.length + i) (by simp; omega)
  rw [heapOf_append_left (by simp; omega), heapOf_append_right hi] at this
  exact this

end
end Yask.Comp
