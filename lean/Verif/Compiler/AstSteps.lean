import Verif.Compiler.AstLemmas

/-! Helper lemmas: the calls that build expressions. -/

namespace Yask.Comp
open Spec

variable {π K : Type} [CommRing K]

theorem cloneNode_ok (I : Interp π K) {ns : List (Head π × List Nat)} {priv : Nat → Prop} (h : NodesOk ns priv) {id : Nat}
    (hid : id < ns.length) : ∃ l, cloneNode ns id = .ok (ns ++ l, ns.length + l.length - 1) ∧ Seg ns.length ns.length l ∧ 0 < l.length ∧
      nodeValue I (ns ++ l) (ns.length + l.length - 1) = nodeValue I ns id ∧
      ∃ l' cs, l = l' ++ [((heapOf ns id).1, cs)] := by
  obtain ⟨t, ht⟩ := Option.isSome_iff_exists.1 (h.total id hid)
  obtain ⟨h1, h2⟩ := copyNodes_seg ns.length t
  refine ⟨copyNodes ns.length t, ?_, h1, h2, ?_, ?_⟩
  · rw [cloneNode, ht]
  · have := NodesOk.value_copy I (ns := ns) (t := t) (l := []) (priv := priv) (by rw [List.append_nil]; exact h.append_priv h1)
    rw [List.append_nil] at this
    rw [this, nodeValue_of I (h.total id hid) ht]
  · obtain ⟨n, hn⟩ : ∃ n, ns.length = n + 1 := ⟨ns.length - 1, by omega⟩
    have ht' := ht
    rw [hn] at ht'
    obtain ⟨ts, _, h4⟩ := tree_succ _ ht'
    rw [← mk_head h4]
    exact copyNodes_last _ _

theorem cloneNodes_ok (I : Interp π K) : ∀ {ns : List (Head π × List Nat)} {priv : Nat → Prop} (_ : NodesOk ns priv) {ids : List Nat}
    (_ : ∀ id ∈ ids, id < ns.length), ∃ l cs, cloneNodes ns ids = .ok (ns ++ l, cs) ∧ Seg ns.length ns.length l ∧
      (∀ c ∈ cs, ns.length ≤ c ∧ c < ns.length + l.length) ∧ cs.map (nodeValue I (ns ++ l)) = ids.map (nodeValue I ns) := by
  intro ns priv h ids
  induction ids generalizing ns priv with
  | nil =>
    intro _
    exact ⟨[], [], by rw [cloneNodes, List.append_nil], Seg.nil _ _, by simp, rfl⟩
  | cons id ids ih =>
    intro hids
    obtain ⟨l, e, s1, s2, s3, _⟩ := cloneNode_ok I h (hids id List.mem_cons_self)
    have hn := h.append_priv s1
    obtain ⟨l2, cs, e2, t1, t2, t3⟩ := ih hn (fun i hi => by
      have := hids i (List.mem_cons_of_mem _ hi)
      simp
      omega)
    have hn2 := hn.append_priv t1
    rw [List.length_append] at t1 t2
    refine ⟨l ++ l2, (ns.length + l.length - 1) :: cs, ?_, s1.append (t1.weaken (by omega)), ?_, ?_⟩
    · rw [cloneNodes, e]
      simp only [Outcome.bind_ok]
      rw [e2]
      simp only [Outcome.bind_ok, List.append_assoc]
    · intro c hc
      rw [List.length_append]
      rcases List.mem_cons.1 hc with rfl | hc
      · omega
      · have := t2 c hc
        omega
    · rw [← List.append_assoc, List.map_cons, List.map_cons, t3, hn.value_append I hn2 (by simp; omega), s3]
      congr 1
      refine List.map_congr_left fun i hi => ?_
      exact h.value_append I hn (hids i (List.mem_cons_of_mem _ hi))

/-- The result of a call that makes nodes: `o` in the model and `k` in the specification. -/
def AstBuilt (I : Interp π K) (ns : List (Head π × List Nat)) (priv : Nat → Prop) (o : Outcome (List (Head π × List Nat) × Option Nat)) :
    Outcome (Option (Item π K)) → Prop
  | .ok k => ∃ l x priv', o = .ok (ns ++ l, x) ∧ Seg 0 ns.length l ∧ NodesOk (ns ++ l) priv' ∧ (∀ id, priv id → priv' id) ∧
      (∀ id < ns.length, priv' id → priv id) ∧ (∀ p, x = some p → p < (ns ++ l).length ∧ ¬ priv' p) ∧ x.map (nodeItem I (ns ++ l)) = k
  | .throws => o = .throws
  | .undefined => o = .undefined

/-- A pointer to a node that is not copied, or null. -/
def PtrOk (ns : List (Head π × List Nat)) (priv : Nat → Prop) (x : Option Nat) : Prop := ∀ p, x = some p → p < ns.length ∧ ¬ priv p

theorem built_same (I : Interp π K) {ns : List (Head π × List Nat)} {priv : Nat → Prop} (h : NodesOk ns priv) {x : Option Nat}
    (hx : PtrOk ns priv x) : AstBuilt I ns priv (.ok (ns, x)) (.ok (x.map (nodeItem I ns))) :=
  ⟨[], x, priv, by rw [List.append_nil], Seg.nil _ _, by rw [List.append_nil]; exact h, fun _ a => a, fun _ _ a => a, by rw [List.append_nil]; exact hx,
    by rw [List.append_nil]⟩

theorem nodeValue_new (I : Interp π K) {ns : List (Head π × List Nat)} {priv priv' : Nat → Prop} (h : NodesOk ns priv) {hd : Head π} {cs : List Nat}
    (h' : NodesOk (ns ++ [(hd, cs)]) priv') (hc : ∀ c ∈ cs, c < ns.length) :
    nodeItem I (ns ++ [(hd, cs)]) ns.length = (headKind hd, hd.val I (cs.map (nodeValue I ns))) := by
  have e := heapOf_append_right (ns := ns) (l := [(hd, cs)]) (i := 0) (by simp)
  simp only [Nat.add_zero, List.getElem_cons_zero] at e
  have := h'.value I (id := ns.length) (by simp)
  rw [e] at this
  unfold nodeItem
  rw [e, this]
  congr 2
  exact List.map_congr_left fun c hcc => h.value_append I h' (hc c hcc)

theorem built_new (I : Interp π K) {ns : List (Head π × List Nat)} {priv : Nat → Prop} (h : NodesOk ns priv) {hd : Head π} {cs : List Nat}
    (hc : ∀ c ∈ cs, c < ns.length) (ha : hd.arity cs.length) (he : hd ≠ .eqn) (hp : hd.copies → ∀ c ∈ cs, priv c) :
    AstBuilt I ns priv (newNode ns hd cs) (.ok (some (headKind hd, hd.val I (cs.map (nodeValue I ns))))) := by
  have h' := h.append_pub hc ha he hp
  refine ⟨[(hd, cs)], some ns.length, priv, rfl, Seg.one (fun c hcc => ⟨Nat.zero_le _, hc c hcc⟩) ha he, h', fun _ a => a, fun _ _ a => a, ?_, ?_⟩
  · intro p e
    injection e with e
    subst e
    refine ⟨by simp, fun hh => ?_⟩
    have := h.lt _ hh
    omega
  · rw [Option.map_some, nodeValue_new I h h' hc]

/-- Nodes of copies first, then the node that has them as operands. -/
theorem built_copies (I : Interp π K) {ns l : List (Head π × List Nat)} {priv : Nat → Prop} (h : NodesOk ns priv)
    (hs : Seg ns.length ns.length l) {hd : Head π} {cs : List Nat} (hc : ∀ c ∈ cs, ns.length ≤ c ∧ c < ns.length + l.length)
    (ha : hd.arity cs.length) (he : hd ≠ .eqn) :
    AstBuilt I ns priv (newNode (ns ++ l) hd cs) (.ok (some (headKind hd, hd.val I (cs.map (nodeValue I (ns ++ l)))))) := by
  have h1 := h.append_priv hs
  have hc1 : ∀ c ∈ cs, c < (ns ++ l).length := fun c hcc => by
    rw [List.length_append]
    exact (hc c hcc).2
  obtain ⟨l2, x, priv', e, a0, a1, a2, a3, a4, a5⟩ := built_new I h1 hc1 ha he (fun _ c hcc => .inr (hc c hcc))
  rw [List.length_append] at a0
  refine ⟨l ++ l2, x, priv', ?_, (hs.weaken (Nat.zero_le _)).append a0, ?_, fun id hid => a2 id (.inl hid), fun id hid hp => ?_, ?_, ?_⟩
  · rw [e, List.append_assoc]
  · rw [← List.append_assoc]
    exact a1
  · rcases a3 id (by simp; omega) hp with h5 | h5
    · exact h5
    · omega
  · rw [← List.append_assoc]
    exact a4
  · rw [← List.append_assoc]
    exact a5

theorem mergeIds_ok {ns : List (Head π × List Nat)} {priv : Nat → Prop} (h : NodesOk ns priv) (op : CommOp) {id : Nat} (hid : id < ns.length) :
    ∀ c ∈ mergeIds ns op id, c < ns.length := by
  intro c hc
  rw [mergeIds] at hc
  have hch := h.child id hid
  revert hc hch
  cases heapOf ns id with
  | mk hd cs =>
    intro hc hch
    cases hd with
    | comm op' =>
      simp only at hc
      split at hc
      · exact hch c hc
      · simp at hc; omega
    | _ => simp at hc; omega

theorem mergeIds_val (I : Interp π K) {ns : List (Head π × List Nat)} {priv : Nat → Prop} (h : NodesOk ns priv) (op : CommOp) {id : Nat}
    (hid : id < ns.length) : (Head.comm op).val I ((mergeIds ns op id).map (nodeValue I ns)) = nodeValue I ns id := by
  have one : ∀ k : K, (Head.comm (π := π) op).val I [k] = k := by intro k; cases op <;> simp [Head.val]
  have hv := h.value I hid
  rw [mergeIds]
  revert hv
  cases heapOf ns id with
  | mk hd cs =>
    intro hv
    cases hd with
    | comm op' =>
      simp only
      split
      · next e => rw [hv, e]
      · exact one _
    | _ => exact one _

theorem comm_val_append (I : Interp π K) (op : CommOp) (a b : List K) : (Head.comm (π := π) op).val I (a ++ b) =
    match op with
    | .add => (Head.comm (π := π) op).val I a + (Head.comm (π := π) op).val I b
    | .mult => (Head.comm (π := π) op).val I a * (Head.comm (π := π) op).val I b := by
  cases op <;> simp [Head.val]

/-- The sum or product of two expressions. -/
def commItem (op : CommOp) (x y : Item π K) : Item π K := (.comm op, match op with | .add => x.2 + y.2 | .mult => x.2 * y.2)

theorem newComm_built (I : Interp π K) {ns : List (Head π × List Nat)} {priv : Nat → Prop} (h : NodesOk ns priv) (op : CommOp)
    {l r : Option Nat} (hl : PtrOk ns priv l) (hr : PtrOk ns priv r) :
    AstBuilt I ns priv (newComm ns op l r) (.ok (match l.map (nodeItem I ns), r.map (nodeItem I ns) with
      | none, y => y
      | x, none => x
      | some x, some y => some (commItem op x y))) := by
  cases l with
  | none =>
    cases r with
    | none => exact built_same I h hr
    | some b => exact built_same I h hr
  | some a =>
    cases r with
    | none => exact built_same I h hl
    | some b =>
      obtain ⟨ha, _⟩ := hl a rfl
      obtain ⟨hb, _⟩ := hr b rfl
      obtain ⟨l1, c1, e1, s1, s2, s3⟩ := cloneNodes_ok I h (mergeIds_ok h op ha)
      have h1 := h.append_priv s1
      have hb1 : b < (ns ++ l1).length := by simp; omega
      obtain ⟨l2, c2, e2, t1, t2, t3⟩ := cloneNodes_ok I h1 (mergeIds_ok h1 op hb1)
      have h2 := h1.append_priv t1
      rw [List.length_append] at t1 t2
      have hb2 := built_copies I h (s1.append (t1.weaken (by omega))) (hd := .comm op) (cs := c1 ++ c2) (by
        intro c hc
        rw [List.length_append]
        rcases List.mem_append.1 hc with hc | hc
        · have := s2 c hc
          omega
        · have := t2 c hc
          omega) trivial (by simp)
      simp only [newComm, e1, Outcome.bind_ok, e2, Option.map_some]
      rw [← List.append_assoc] at hb2
      have hv1 : c1.map (nodeValue I (ns ++ l1 ++ l2)) = c1.map (nodeValue I (ns ++ l1)) :=
        List.map_congr_left fun c hc => h1.value_append I h2 (by
          have := s2 c hc
          rw [List.length_append]
          omega)
      rw [List.map_append, comm_val_append, hv1, s3, t3, mergeIds_val I h op ha, mergeIds_val I h1 op hb1, h.value_append I h1 hb] at hb2
      exact hb2

theorem newNeg_built (I : Interp π K) {ns : List (Head π × List Nat)} {priv : Nat → Prop} (h : NodesOk ns priv) {r : Option Nat}
    (hr : PtrOk ns priv r) : AstBuilt I ns priv (newNeg ns r) (match r.map (nodeItem I ns) with
      | none => .undefined
      | some y => .ok (some (.other, - y.2))) := by
  cases r with
  | none => rfl
  | some b => exact built_new I h (hd := .neg) (cs := [b]) (by simpa using (hr b rfl).1) rfl (by simp) (fun hh => hh.elim)

theorem newBin_built (I : Interp π K) {ns : List (Head π × List Nat)} {priv : Nat → Prop} (h : NodesOk ns priv) (op : BinOp) {a b : Nat}
    (ha : a < ns.length) (hb : b < ns.length) : AstBuilt I ns priv (newNode ns (.bin op) [a, b])
      (.ok (some (.other, (Head.bin (π := π) op).val I [nodeValue I ns a, nodeValue I ns b]))) :=
  built_new I h (hd := .bin op) (cs := [a, b]) (by simp; omega) rfl (by simp) (fun hh => hh.elim)

theorem newSub_built (I : Interp π K) {ns : List (Head π × List Nat)} {priv : Nat → Prop} (h : NodesOk ns priv) {l r : Option Nat}
    (hl : PtrOk ns priv l) (hr : PtrOk ns priv r) : AstBuilt I ns priv (newSub ns l r) (match l.map (nodeItem I ns), r.map (nodeItem I ns) with
      | none, none => .undefined
      | none, some y => .ok (some (.other, - y.2))
      | some x, none => .ok (some x)
      | some x, some y => .ok (some (.other, x.2 - y.2))) := by
  cases l with
  | none =>
    have := newNeg_built I h hr
    cases r with
    | none => exact this
    | some b => exact this
  | some a =>
    cases r with
    | none => exact built_same I h hl
    | some b => exact newBin_built I h .sub (hl a rfl).1 (hr b rfl).1

theorem newDiv_built (I : Interp π K) {ns : List (Head π × List Nat)} {priv : Nat → Prop} (h : NodesOk ns priv) {l r : Option Nat}
    (hl : PtrOk ns priv l) (hr : PtrOk ns priv r) : AstBuilt I ns priv (newDiv ns l r) (match l.map (nodeItem I ns), r.map (nodeItem I ns) with
      | none, none => .ok (some (.const, I.const 1))
      | none, some y => .ok (some (.other, I.div (I.const 1) y.2))
      | some x, none => .ok (some x)
      | some x, some y => .ok (some (.other, I.div x.2 y.2))) := by
  cases l with
  | none =>
    cases r with
    | none => exact built_new I h (hd := .const 1) (cs := []) (by simp) rfl (by simp) (fun hh => hh.elim)
    | some b =>
      have h1 := h.append_pub (hd := .const 1) (cs := []) (by simp) rfl (by simp) (fun hh => hh.elim)
      have hb := (hr b rfl).1
      have hv := nodeValue_new I h h1 (by simp)
      obtain ⟨l2, x, priv', e, a0, a1, a2, a3, a4, a5⟩ := newBin_built I h1 .div (a := ns.length) (b := b) (by simp) (by simp; omega)
      rw [List.length_append] at a0
      refine ⟨[(.const 1, [])] ++ l2, x, priv', ?_, (Seg.one (hd := .const 1) (cs := []) (by simp) rfl (by simp)).append a0, ?_, a2, fun id hid hp => a3 id (by simp; omega) hp, ?_, ?_⟩
      · rw [← List.append_assoc]
        exact e
      · rw [← List.append_assoc]
        exact a1
      · rw [← List.append_assoc]
        exact a4
      · rw [← List.append_assoc, a5, h.value_append I h1 hb]
        have : nodeValue I (ns ++ [(Head.const 1, [])]) ns.length = I.const 1 := congrArg Prod.snd hv
        rw [this]
        rfl
  | some a =>
    cases r with
    | none => exact built_same I h hl
    | some b => exact newBin_built I h .div (hl a rfl).1 (hr b rfl).1

theorem newMod_built (I : Interp π K) {ns : List (Head π × List Nat)} {priv : Nat → Prop} (h : NodesOk ns priv) {l r : Option Nat}
    (hl : PtrOk ns priv l) (hr : PtrOk ns priv r) : AstBuilt I ns priv (newMod ns l r) (match l.map (nodeItem I ns), r.map (nodeItem I ns) with
      | some x, some y => .ok (some (.other, I.mod x.2 y.2))
      | _, _ => .undefined) := by
  cases l with
  | none => cases r <;> rfl
  | some a =>
    cases r with
    | none => rfl
    | some b => exact newBin_built I h .mod (hl a rfl).1 (hr b rfl).1

theorem newFunc_built (I : Interp π K) {ns : List (Head π × List Nat)} {priv : Nat → Prop} (h : NodesOk ns priv) (f : String)
    {as : List (Option Nat)} (ha : ∀ a ∈ as, PtrOk ns priv a) : AstBuilt I ns priv (newFunc ns f as)
      (match allSome (as.map (Option.map (nodeItem I ns))) with
      | some xs => .ok (some (.other, I.func f (xs.map (·.2))))
      | none => .undefined) := by
  unfold newFunc
  cases e : allSome as with
  | none =>
    have : allSome (as.map (Option.map (nodeItem I ns))) = none := by
      by_contra hne
      obtain ⟨xs, e2⟩ := Option.ne_none_iff_exists'.1 hne
      have h1 : (allSome (as.map (Option.map (nodeItem I ns)))).isSome := by rw [e2]; rfl
      rw [allSome_isSome] at h1
      have h2 : (allSome as).isSome := (allSome_isSome as).2 fun x hx => by
        have := h1 _ (List.mem_map_of_mem hx)
        simpa using this
      rw [e] at h2
      cases h2
    rw [this]
    rfl
  | some ids =>
    have e1 := allSome_eq_some.1 e
    have e2 : allSome (as.map (Option.map (nodeItem I ns))) = some (ids.map (nodeItem I ns)) := by
      rw [allSome_eq_some, e1]
      simp
    rw [e2]
    simp only
    have hids : ∀ id ∈ ids, id < ns.length := fun id hid => (ha (some id) (by rw [e1]; exact List.mem_map_of_mem hid) id rfl).1
    obtain ⟨l, cs, c1, c2, c3, c4⟩ := cloneNodes_ok I h hids
    rw [c1]
    simp only [Outcome.bind_ok]
    have := built_copies I h c2 (hd := .func f) c3 trivial (by simp)
    rw [c4] at this
    rw [List.map_map]
    exact this

theorem newEnd_built (I : Interp π K) {ns : List (Head π × List Nat)} {priv : Nat → Prop} (h : NodesOk ns priv) (ty : IndexType) {r : Option Nat} :
    AstBuilt I ns priv (newEnd ns ty r)
      (do let x ← endKind ty (r.map fun a => (nodeItem I ns a).1); .ok (some (.index x.1 x.2, I.index x.1 x.2))) := by
  cases r with
  | none => rfl
  | some a =>
    simp only [newEnd, Option.map_some, nodeItem]
    cases e : (heapOf ns a).1 with
    | index d t =>
      cases t with
      | domain => exact built_new I h (hd := .index d ty) (cs := []) (by simp) rfl (by simp) (fun hh => hh.elim)
      | _ => rfl
    | _ => rfl

theorem clone_built (I : Interp π K) {ns : List (Head π × List Nat)} {priv : Nat → Prop} (h : NodesOk ns priv) {a : Nat}
    (ha : a < ns.length) : AstBuilt I ns priv (do let x ← cloneNode ns a; .ok (x.1, some x.2)) (.ok (some (nodeItem I ns a))) ∧
      ∃ l cs priv', cloneNode ns a = .ok (ns ++ l ++ [((heapOf ns a).1, cs)], (ns ++ l).length) ∧
        NodesOk (ns ++ l ++ [((heapOf ns a).1, cs)]) priv' ∧ (∀ c ∈ cs, priv' c) ∧ (∀ id < ns.length, priv' id → priv id) ∧
        ¬ priv' (ns ++ l).length := by
  obtain ⟨l, e, s1, s2, s3, l', cs, rfl⟩ := cloneNode_ok I h ha
  have hs := s1.left
  have hlast := s1 l'.length (by simp)
  simp only [List.getElem_append_right (le_refl _), Nat.sub_self, List.getElem_cons_zero] at hlast
  obtain ⟨b1, b2, b3⟩ := hlast
  have hn : ns.length + (l' ++ [((heapOf ns a).1, cs)]).length - 1 = (ns ++ l').length := by
    simp
  rw [hn, ← List.append_assoc] at s3 e
  have hb := built_copies I h hs b1 b2 b3
  have h1 := (h.append_priv hs).append_pub (hd := (heapOf ns a).1) (cs := cs) (by
    intro c hc
    rw [List.length_append]
    exact (b1 c hc).2) b2 b3 (fun _ c hc => .inr (b1 c hc))
  refine ⟨?_, l', cs, _, e, h1, fun c hc => .inr (b1 c hc), fun id hid hp => ?_, fun hp => ?_⟩
  rotate_left
  · rcases hp with hp | hp
    · exact hp
    · omega
  · rw [List.length_append] at hp
    rcases hp with hp | hp
    · have := h.lt _ hp
      omega
    · omega
  have hv := nodeValue_new I (h.append_priv hs) h1 (by
    intro c hc
    rw [List.length_append]
    exact (b1 c hc).2)
  rw [e]
  simp only [Outcome.bind_ok]
  have h2 : (Head.val I (heapOf ns a).1 (cs.map (nodeValue I (ns ++ l')))) = nodeValue I ns a := by
    rw [← s3]
    exact (congrArg Prod.snd hv).symm
  rw [h2] at hb
  exact hb

end Yask.Comp
