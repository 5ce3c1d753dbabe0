import Mathlib.Data.Nat.Bitwise
import Mathlib.Data.List.Nodup
import Mathlib.Data.List.Perm.Subperm
import Mathlib.Tactic.Tauto
import Verif.Compiler.VecModel

/-! Helper lemmas: assembly of unaligned vectors by the printed code. -/

namespace Yask.Comp

variable {α : Type}

/-- What element i should be. -/
def Want (blk : Loc → Nat → α) (elems : List VecElem) (i : Nat) (x : α) : Prop :=
  ∃ ve, elems[i]? = some ve ∧ x = blk ve.vec ve.offset

/-- The elements that are done are right, whatever the vector held before. -/
structure GenOk (selBit : Nat) (elems : List VecElem) (s : Gen) : Prop where
  nodup : s.done.Nodup
  lt : ∀ i ∈ s.done, i < elems.length
  ok : ∀ {α : Type} (blk : Loc → Nat → α) (v : Nat → α), ∀ i ∈ s.done,
    Want blk elems i (execAll elems.length selBit blk s.code v i)

theorem maskOf_testBit (found : List Nat) (i : Nat) : (maskOf found).testBit i = decide (i ∈ found) := by
  have key : ∀ (l : List Nat) (m : Nat), (l.foldl (fun m i => m ||| (1 <<< i)) m).testBit i
      = (m.testBit i || decide (i ∈ l)) := by
    intro l
    induction l with
    | nil => intro m; simp
    | cons a l ih =>
      intro m
      rw [List.foldl_cons, ih, Nat.testBit_or, Nat.one_shiftLeft, Nat.testBit_two_pow]
      simp only [List.mem_cons]
      by_cases h1 : i = a
      · subst h1; simp
      · have : ¬ a = i := fun h => h1 h.symm
        simp [h1, this]
  unfold maskOf
  rw [key]
  simp

theorem execAll_append (vlen selBit : Nat) (blk : Loc → Nat → α) (code : List Instr) (c : Instr) (v : Nat → α) :
    execAll vlen selBit blk (code ++ [c]) v = c.exec vlen selBit blk (execAll vlen selBit blk code v) := by
  unfold execAll
  rw [List.foldl_append]
  rfl

/-- One more statement that is right for the elements found and does not change those already done. -/
theorem emit_ok {selBit : Nat} {elems : List VecElem} {s : Gen} (hs : GenOk selBit elems s) (c : Instr)
    (found : List Nat) (defined : List (List Tok)) (stop : Bool) (hnd : found.Nodup)
    (hf : ∀ i ∈ found, i < elems.length ∧ i ∉ s.done)
    (hnew : ∀ {α : Type} (blk : Loc → Nat → α) (v : Nat → α), ∀ i ∈ found,
      Want blk elems i (c.exec elems.length selBit blk v i))
    (hold : ∀ {α : Type} (blk : Loc → Nat → α) (v : Nat → α), ∀ i ∈ s.done, c.exec elems.length selBit blk v i = v i) :
    GenOk selBit elems ⟨s.done ++ found, s.code ++ [c], defined, stop⟩ := by
  refine ⟨?_, ?_, ?_⟩
  · rw [List.nodup_append]
    refine ⟨hs.nodup, hnd, ?_⟩
    intro a ha b hb hab
    subst hab
    exact (hf a hb).2 ha
  · intro i hi
    rcases List.mem_append.1 hi with h | h
    · exact hs.lt i h
    · exact (hf i h).1
  · intro α blk v i hi
    simp only [execAll_append]
    rcases List.mem_append.1 hi with h | h
    · rw [hold blk _ i h]
      exact hs.ok blk v i h
    · exact hnew blk _ i h

theorem isFrom_iff {elems : List VecElem} {i : Nat} {m : Loc} {p : Nat} :
    isFrom elems i m p = true ↔ ∃ ve, elems[i]? = some ve ∧ ve.vec = m ∧ ve.offset = p := by
  unfold isFrom
  cases elems[i]? with
  | none => simp
  | some ve => simp

theorem masked_old {blkv : Nat → α} {s : Gen} {found : List Nat} (hf : ∀ i ∈ found, i ∉ s.done) (v : Nat → α)
    (i : Nat) (hi : i ∈ s.done) : masked (maskFor s found) blkv v i = v i := by
  have hlen : s.done.length > 0 := List.length_pos_of_mem hi
  have : (maskOf found).testBit i = false := by
    rw [maskOf_testBit]
    simp only [decide_eq_false_iff_not]
    exact fun h => hf i h hi
  simp only [masked, maskFor, if_pos hlen, this]
  rfl

theorem masked_new {blkv : Nat → α} {s : Gen} {found : List Nat} (v : Nat → α) (i : Nat) (hi : i ∈ found) :
    masked (maskFor s found) blkv v i = blkv i := by
  have : (maskOf found).testBit i = true := by
    rw [maskOf_testBit]
    simpa using hi
  unfold masked maskFor
  by_cases hl : s.done.length > 0
  · simp only [if_pos hl, this]
    rfl
  · simp only [if_neg hl]

theorem alignStep_ok {selBit : Nat} {elems : List VecElem} {s : Gen} (target : Nat) (maskOk : Bool)
    (t : Loc × Loc × Nat) (hs : GenOk selBit elems s) : GenOk selBit elems (alignStep elems target maskOk s t) := by
  obtain ⟨m1, m2, count⟩ := t
  unfold alignStep
  simp only
  by_cases h1 : (s.stop || decide (s.done.length ≥ elems.length)) = true
  · rw [if_pos h1]; exact hs
  rw [if_neg h1]
  by_cases h2 : (alignFound elems s.done m1 m2 count).length = target
  swap
  · rw [if_neg h2]; exact hs
  rw [if_pos h2]
  by_cases h3 : (decide (s.done.length > 0) && !maskOk) = true
  · rw [if_pos h3]; exact ⟨hs.nodup, hs.lt, hs.ok⟩
  · rw [if_neg h3]
    generalize hfd : alignFound elems s.done m1 m2 count = found at *
    have hmem : ∀ i, i ∈ found ↔ i < elems.length ∧ i ∉ s.done ∧
        (if i ≥ elems.length - count then isFrom elems i m1 (i + count - elems.length)
          else isFrom elems i m2 (i + count)) = true := by
      intro i
      rw [← hfd]
      simp [alignFound, List.mem_filter]
    have hnd : found.Nodup := by
      rw [← hfd]
      exact List.nodup_range.filter _
    have main : ∀ a b, (∀ i ∈ found, i ≥ elems.length - count → a = m1) → (∀ i ∈ found, i < elems.length - count → b = m2) →
        GenOk selBit elems ⟨s.done ++ found, s.code ++ [.align count a b (maskFor s found)], s.defined, s.stop⟩ := by
      intro a b ha hb
      apply emit_ok hs _ found _ _ hnd
      · intro i hi
        exact ⟨((hmem i).1 hi).1, ((hmem i).1 hi).2.1⟩
      · intro α blk v i hi
        simp only [Instr.exec]
        rw [masked_new v i hi]
        have hi' := ((hmem i).1 hi).2.2
        unfold realVecAlign
        by_cases hc : i ≥ elems.length - count
        · rw [if_pos hc] at hi'
          rw [if_neg (by omega)]
          obtain ⟨ve, hve, h1, h2⟩ := isFrom_iff.1 hi'
          exact ⟨ve, hve, by rw [ha i hi hc, h1, h2]⟩
        · rw [if_neg hc] at hi'
          rw [if_pos (by omega)]
          obtain ⟨ve, hve, h1, h2⟩ := isFrom_iff.1 hi'
          exact ⟨ve, hve, by rw [hb i hi (by omega), h1, h2]⟩
      · intro α blk v i hi
        simp only [Instr.exec]
        exact masked_old (fun j hj => ((hmem j).1 hj).2.1) v i hi
    have hu1 : ∀ i ∈ found, i ≥ elems.length - count → found.filter (fun i => decide (i ≥ elems.length - count)) ≠ [] := by
      intro i hi hc h
      have : i ∈ found.filter (fun i => decide (i ≥ elems.length - count)) := List.mem_filter.2 ⟨hi, by simpa using hc⟩
      rw [h] at this
      cases this
    have hu2 : ∀ i ∈ found, i < elems.length - count → found.filter (fun i => decide (i < elems.length - count)) ≠ [] := by
      intro i hi hc h
      have : i ∈ found.filter (fun i => decide (i < elems.length - count)) := List.mem_filter.2 ⟨hi, by simpa using hc⟩
      rw [h] at this
      cases this
    by_cases c1 : found.filter (fun i => decide (i ≥ elems.length - count)) ≠ []
    · by_cases c2 : found.filter (fun i => decide (i < elems.length - count)) ≠ []
      · rw [if_pos ⟨c1, c2⟩]
        exact main m1 m2 (fun _ _ _ => rfl) (fun _ _ _ => rfl)
      · rw [if_neg (by tauto), if_pos c1]
        exact main m1 m1 (fun _ _ _ => rfl) (fun i hi hc => absurd (hu2 i hi hc) c2)
    · rw [if_neg (by tauto), if_neg c1]
      exact main m2 m2 (fun i hi hc => absurd (hu1 i hi hc) c1) (fun _ _ _ => rfl)

theorem foldl_ok {β : Type} {selBit : Nat} {elems : List VecElem} (f : Gen → β → Gen)
    (hf : ∀ s b, GenOk selBit elems s → GenOk selBit elems (f s b)) (l : List β) :
    ∀ s, GenOk selBit elems s → GenOk selBit elems (l.foldl f s) := by
  induction l with
  | nil => intro s hs; exact hs
  | cons a l ih => intro s hs; exact ih _ (hf s a hs)

theorem stop_ok {selBit : Nat} {elems : List VecElem} {s : Gen} (b : Bool) (hs : GenOk selBit elems s) :
    GenOk selBit elems { s with stop := b } := ⟨hs.nodup, hs.lt, hs.ok⟩

theorem tryAlign_ok {selBit : Nat} {elems : List VecElem} {s : Gen} (vecs : List Loc) (target : Nat) (maskOk : Bool)
    (hs : GenOk selBit elems s) : GenOk selBit elems (tryAlign elems vecs target maskOk s) :=
  stop_ok _ (foldl_ok _ (fun s t hs => alignStep_ok target maskOk t hs) _ _ (stop_ok _ hs))

theorem needs_some {elems : List VecElem} {done : List Nat} {i j : Nat} {m : Loc} (h : needs elems done i m = some j) :
    i < elems.length ∧ i ∉ done ∧ ∃ ve, elems[i]? = some ve ∧ ve.vec = m ∧ ve.offset = j := by
  unfold needs at h
  cases hve : elems[i]? with
  | none => rw [hve] at h; cases h
  | some ve =>
    rw [hve] at h
    simp only at h
    split_ifs at h with hc
    simp only [Option.some.injEq] at h
    obtain ⟨hlt, _⟩ := List.getElem?_eq_some_iff.1 hve
    exact ⟨hlt, hc.1, ve, rfl, hc.2, h⟩

theorem perm1Step_ok {selBit : Nat} {elems : List VecElem} {s : Gen} (target : Nat) (m : Loc)
    (hs : GenOk selBit elems s) : GenOk selBit elems (perm1Step elems target s m) := by
  unfold perm1Step
  simp only
  split_ifs with h1
  · have hmem : ∀ i, i ∈ (List.range elems.length).filter (fun i => (needs elems s.done i m).isSome) ↔
        i < elems.length ∧ (needs elems s.done i m).isSome := by
      intro i
      simp [List.mem_filter]
    apply emit_ok hs _ _ _ _ (List.nodup_range.filter _)
    · intro i hi
      obtain ⟨hlt, hn⟩ := (hmem i).1 hi
      obtain ⟨j, hj⟩ := Option.isSome_iff_exists.1 hn
      exact ⟨hlt, (needs_some hj).2.1⟩
    · intro α blk v i hi
      simp only [Instr.exec]
      rw [masked_new v i hi]
      obtain ⟨hlt, hn⟩ := (hmem i).1 hi
      obtain ⟨j, hj⟩ := Option.isSome_iff_exists.1 hn
      obtain ⟨_, _, ve, hve, e1, e2⟩ := needs_some hj
      refine ⟨ve, hve, ?_⟩
      rw [List.getD_eq_getElem _ _ (by simpa using hlt)]
      simp only [List.getElem_map, List.getElem_range, hj, Tok.ctrl, e1, e2]
    · intro α blk v i hi
      simp only [Instr.exec]
      apply masked_old _ v i hi
      intro j hj
      obtain ⟨k, hk⟩ := Option.isSome_iff_exists.1 ((hmem j).1 hj).2
      exact (needs_some hk).2.1
  · exact hs

theorem tok2_exec {selBit : Nat} (b : Nat) (hb : selBit = 2 ^ b) (j : Nat) (hj : j < selBit) (isB : Bool) (x y : Nat → α) :
    (let ci := (Tok.sel isB j).ctrl selBit
     let idx := ci &&& (selBit - 1)
     if ci &&& selBit ≠ 0 then y idx else x idx) = if isB then y j else x j := by
  subst hb
  have hlow : j &&& (2 ^ b - 1) = j := by
    rw [Nat.and_two_pow_sub_one_eq_mod]
    exact Nat.mod_eq_of_lt hj
  have hz : j &&& 2 ^ b = 0 := by
    apply Nat.eq_of_testBit_eq
    intro i
    rw [Nat.testBit_and, Nat.testBit_two_pow, Nat.zero_testBit]
    by_cases hi : b = i
    · subst hi
      rw [Nat.testBit_lt_two_pow hj]; simp
    · simp [hi]
  cases isB with
  | false => simp [Tok.ctrl, hlow, hz]
  | true =>
    have h1 : (2 ^ b ||| j) &&& 2 ^ b ≠ 0 := by
      intro h
      have := congrArg (fun n => n.testBit b) h
      simp [Nat.testBit_and, Nat.testBit_or, Nat.testBit_two_pow] at this
    have h2 : (2 ^ b ||| j) &&& (2 ^ b - 1) = j := by
      rw [Nat.and_or_distrib_right, hlow]
      have : 2 ^ b &&& (2 ^ b - 1) = 0 := by
        rw [Nat.and_two_pow_sub_one_eq_mod]; simp
      rw [this]; simp
    simp [Tok.ctrl, h1, h2]

theorem perm2Step_ok {selBit : Nat} (b : Nat) (hb : selBit = 2 ^ b) {elems : List VecElem}
    (hofs : ∀ ve ∈ elems, ve.offset < selBit) {s : Gen} (target : Nat) (t : Loc × Loc)
    (hs : GenOk selBit elems s) (hd : s.stop = false → s.done = []) :
    GenOk selBit elems (perm2Step elems target s t) ∧
      ((perm2Step elems target s t).stop = false → (perm2Step elems target s t).done = []) := by
  obtain ⟨m1, m2⟩ := t
  unfold perm2Step
  simp only
  by_cases h1 : (s.stop || decide (m1 = m2)) = true
  · rw [if_pos h1]; exact ⟨hs, hd⟩
  rw [if_neg h1]
  by_cases h2 : ((List.range elems.length).filter (fun i => (needs elems s.done i m1).isSome ||
      (needs elems s.done i m2).isSome)).length = target
  swap
  · rw [if_neg h2]; exact ⟨hs, hd⟩
  · rw [if_pos h2]
    have hst : s.stop = false := by
      cases hh : s.stop <;> simp_all
    have hd0 := hd hst
    have hmem : ∀ i, i ∈ (List.range elems.length).filter (fun i => (needs elems s.done i m1).isSome ||
        (needs elems s.done i m2).isSome) ↔ i < elems.length ∧ ((needs elems s.done i m1).isSome ∨
        (needs elems s.done i m2).isSome) := by
      intro i
      simp [List.mem_filter]
    have htok : ∀ i, i < elems.length → ((needs elems s.done i m1).isSome ∨ (needs elems s.done i m2).isSome) →
        ∃ ve isB, elems[i]? = some ve ∧ ve.offset < selBit ∧ (ve.vec = if isB then m2 else m1) ∧
          ∀ swap, tok2 elems s.done m1 m2 swap i = .sel (xor isB swap) ve.offset := by
      intro i hi hor
      unfold tok2
      cases hn1 : needs elems s.done i m1 with
      | some j =>
        obtain ⟨_, _, ve, hve, e1, e2⟩ := needs_some hn1
        exact ⟨ve, false, hve, hofs ve (List.mem_of_getElem? hve), by simp [e1], by intro swap; simp [e2]⟩
      | none =>
        cases hn2 : needs elems s.done i m2 with
        | some j =>
          obtain ⟨_, _, ve, hve, e1, e2⟩ := needs_some hn2
          exact ⟨ve, true, hve, hofs ve (List.mem_of_getElem? hve), by simp [e1], by intro swap; cases swap <;> simp [e2]⟩
        | none => rw [hn1, hn2] at hor; simp at hor
    refine ⟨?_, by intro h; cases h⟩
    apply emit_ok hs _ _ _ _ (List.nodup_range.filter _)
    · intro i hi
      rw [hd0]
      exact ⟨((hmem i).1 hi).1, by simp⟩
    · intro α blk v i hi
      obtain ⟨hlt, hor⟩ := (hmem i).1 hi
      obtain ⟨ve, isB, hve, hlt2, hv, htk⟩ := htok i hlt hor
      refine ⟨ve, hve, ?_⟩
      have hget : ∀ swap, ((List.range elems.length).map (tok2 elems s.done m1 m2 swap)).getD i .na
          = .sel (xor isB swap) ve.offset := by
        intro swap
        rw [List.getD_eq_getElem _ _ (by simpa using hlt)]
        simp only [List.getElem_map, List.getElem_range, htk]
      split_ifs
      · simp only [Instr.exec]
        rw [hget]
        rw [tok2_exec b hb ve.offset hlt2 (xor isB false) (blk m1) (blk m2), hv]
        cases isB <;> simp
      · simp only [Instr.exec]
        rw [hget]
        rw [tok2_exec b hb ve.offset hlt2 (xor isB true) (blk m2) (blk m1), hv]
        cases isB <;> simp
    · intro α blk v i hi
      rw [hd0] at hi
      cases hi

theorem tryPerm2_ok {selBit : Nat} (b : Nat) (hb : selBit = 2 ^ b) {elems : List VecElem}
    (hofs : ∀ ve ∈ elems, ve.offset < selBit) {s : Gen} (vecs : List Loc) (target : Nat)
    (hs : GenOk selBit elems s) : GenOk selBit elems (tryPerm2 elems vecs target s) := by
  unfold tryPerm2
  split_ifs with h
  · exact hs
  · have hd0 : s.done = [] := by
      cases hh : s.done with
      | nil => rfl
      | cons a l => rw [hh] at h; simp at h
    apply stop_ok
    have key : ∀ (l : List (Loc × Loc)) (s : Gen), GenOk selBit elems s → (s.stop = false → s.done = []) →
        GenOk selBit elems (l.foldl (perm2Step elems target) s) := by
      intro l
      induction l with
      | nil => intro s hs _; exact hs
      | cons t l ih =>
        intro s hs hd
        obtain ⟨h1, h2⟩ := perm2Step_ok b hb hofs target t hs hd
        exact ih _ h1 h2
    exact key _ _ (stop_ok _ hs) (fun _ => hd0)

theorem tryStrategies_ok {selBit : Nat} (b : Nat) (hb : selBit = 2 ^ b) {elems : List VecElem}
    (hofs : ∀ ve ∈ elems, ve.offset < selBit) {s : Gen} (isa : Isa) (vecs : List Loc) (target : Nat)
    (hs : GenOk selBit elems s) : GenOk selBit elems (tryStrategies isa elems vecs target s) := by
  cases isa with
  | cpp => exact hs
  | avx2 => exact tryAlign_ok vecs target false hs
  | avx512 =>
    exact foldl_ok _ (fun s m hs => perm1Step_ok target m hs) _ _
      (tryPerm2_ok b hb hofs vecs target (tryAlign_ok vecs target true hs))

theorem targetLoop_ok {selBit : Nat} (b : Nat) (hb : selBit = 2 ^ b) {elems : List VecElem}
    (hofs : ∀ ve ∈ elems, ve.offset < selBit) (isa : Isa) (vecs : List Loc) (n : Nat) :
    ∀ s, GenOk selBit elems s → GenOk selBit elems (targetLoop isa elems vecs n s) := by
  induction n with
  | zero => intro s hs; exact hs
  | succ n ih =>
    intro s hs
    unfold targetLoop
    split_ifs
    · exact ih _ (tryStrategies_ok b hb hofs isa vecs (n + 1) hs)
    · exact hs

theorem simple_ok (vlen selBit : Nat) (blk : Loc → Nat → α) (elems : List VecElem) (done : List Nat) (code : List Instr)
    (v : Nat → α) (hdone : ∀ i ∈ done, Want blk elems i (execAll vlen selBit blk code v i)) (i : Nat)
    (hi : i < elems.length) : Want blk elems i (execAll vlen selBit blk (code ++ simpleCode elems done) v i) := by
  have key : ∀ (l : List Nat), (∀ k ∈ l, k < elems.length) → ∀ w : Nat → α,
      (∀ k, (k ∈ done ∨ k ∉ l) → execAll vlen selBit blk (l.filterMap fun i =>
        if i ∈ done then none else (elems[i]?).map fun ve => Instr.set i ve.vec ve.offset) w k = w k) ∧
      (∀ k ∈ l, k ∉ done → Want blk elems k (execAll vlen selBit blk (l.filterMap fun i =>
        if i ∈ done then none else (elems[i]?).map fun ve => Instr.set i ve.vec ve.offset) w k)) := by
    intro l
    induction l with
    | nil => intro _ w; exact ⟨fun _ _ => rfl, fun _ hk => by cases hk⟩
    | cons a l ih =>
      intro hl w
      have hl' : ∀ k ∈ l, k < elems.length := fun k hk => hl k (List.mem_cons_of_mem _ hk)
      by_cases ha : a ∈ done
      · have e : (a :: l).filterMap (fun i => if i ∈ done then none else (elems[i]?).map fun ve => Instr.set i ve.vec ve.offset)
            = l.filterMap (fun i => if i ∈ done then none else (elems[i]?).map fun ve => Instr.set i ve.vec ve.offset) := by
          rw [List.filterMap_cons]; simp [ha]
        rw [e]
        obtain ⟨h1, h2⟩ := ih hl' w
        refine ⟨fun k hk => h1 k ?_, fun k hk hkd => ?_⟩
        · rcases hk with h | h
          · exact .inl h
          · exact .inr fun h' => h (List.mem_cons_of_mem _ h')
        · rcases List.mem_cons.1 hk with rfl | hk
          · exact absurd ha hkd
          · exact h2 k hk hkd
      · have hal := hl a List.mem_cons_self
        have e : (a :: l).filterMap (fun i => if i ∈ done then none else (elems[i]?).map fun ve => Instr.set i ve.vec ve.offset)
            = Instr.set a elems[a].vec elems[a].offset ::
              l.filterMap (fun i => if i ∈ done then none else (elems[i]?).map fun ve => Instr.set i ve.vec ve.offset) := by
          rw [List.filterMap_cons]; simp [ha, List.getElem?_eq_getElem hal]
        rw [e]
        have hcons : ∀ rest, execAll vlen selBit blk (Instr.set a elems[a].vec elems[a].offset :: rest) w
            = execAll vlen selBit blk rest (fun k => if k = a then blk elems[a].vec elems[a].offset else w k) := by
          intro rest; rfl
        rw [hcons]
        obtain ⟨h1, h2⟩ := ih hl' (fun k => if k = a then blk elems[a].vec elems[a].offset else w k)
        refine ⟨fun k hk => ?_, fun k hk hkd => ?_⟩
        · have hka : k ≠ a := by
            rintro rfl
            rcases hk with h | h
            · exact ha h
            · exact h List.mem_cons_self
          rw [h1 k ?_]
          · simp [hka]
          · rcases hk with h | h
            · exact .inl h
            · exact .inr fun h' => h (List.mem_cons_of_mem _ h')
        · by_cases hkl : k ∈ l
          · exact h2 k hkl hkd
          · rcases List.mem_cons.1 hk with rfl | hk
            · rw [h1 k (.inr hkl)]
              exact ⟨elems[k], List.getElem?_eq_getElem hal, by simp⟩
            · exact absurd hk hkl
  have hsplit : execAll vlen selBit blk (code ++ simpleCode elems done) v
      = execAll vlen selBit blk (simpleCode elems done) (execAll vlen selBit blk code v) := by
    unfold execAll
    rw [List.foldl_append]
  rw [hsplit]
  obtain ⟨h1, h2⟩ := key (List.range elems.length) (by simp) (execAll vlen selBit blk code v)
  by_cases hd : i ∈ done
  · unfold simpleCode
    rw [h1 i (.inl hd)]
    exact hdone i hd
  · exact h2 i (by simpa using hi) hd

theorem unalignedCtor_ok {selBit : Nat} (b : Nat) (hb : selBit = 2 ^ b) (elems : List VecElem)
    (hofs : ∀ ve ∈ elems, ve.offset < selBit) (isa : Isa) (vecs : List Loc) (defined : List (List Tok))
    (blk : Loc → Nat → α) (v : Nat → α) (i : Nat) (hi : i < elems.length) :
    Want blk elems i (execAll elems.length selBit blk (unalignedCtor isa elems vecs defined).1 v i) := by
  have hs := targetLoop_ok b hb hofs isa vecs elems.length { defined := defined }
    ⟨List.nodup_nil, by simp, by simp⟩
  have main : Want blk elems i (execAll elems.length selBit blk
      (let s := targetLoop isa elems vecs elems.length { defined := defined }
       if s.done.length ≠ elems.length then s.code ++ simpleCode elems s.done else s.code) v i) := by
    simp only
    split_ifs with hl
    · exact simple_ok _ _ blk elems _ _ v (fun j hj => hs.ok blk v j hj) i hi
    · apply hs.ok blk v i
      have hsub : (targetLoop isa elems vecs elems.length { defined := defined }).done.Subperm (List.range elems.length) :=
        List.subperm_of_subset hs.nodup fun j hj => by simpa using hs.lt j hj
      have hp := hsub.perm_of_length_le (by simp; omega)
      exact hp.mem_iff.2 (by simpa using hi)
  cases isa with
  | cpp =>
    unfold unalignedCtor
    have := simple_ok elems.length selBit blk elems [] [] v (by simp) i hi
    simpa using this
  | avx2 => exact main
  | avx512 => exact main

/-- All statements read only blocks of the list. -/
def Reads (vecs : List Loc) (code : List Instr) : Prop := ∀ c ∈ code, ∀ m ∈ c.inputs, m ∈ vecs

theorem Reads.snoc {vecs : List Loc} {code : List Instr} (h : Reads vecs code) (c : Instr)
    (hc : ∀ m ∈ c.inputs, m ∈ vecs) : Reads vecs (code ++ [c]) := by
  intro d hd
  rcases List.mem_append.1 hd with h1 | h1
  · exact h d h1
  · rw [List.mem_singleton.1 h1]; exact hc

theorem foldl_reads {β : Type} {vecs : List Loc} (f : Gen → β → Gen) (l : List β)
    (hf : ∀ s, ∀ b ∈ l, Reads vecs s.code → Reads vecs (f s b).code) :
    ∀ s : Gen, Reads vecs s.code → Reads vecs (l.foldl f s).code := by
  induction l with
  | nil => intro s hs; exact hs
  | cons a l ih =>
    intro s hs
    exact ih (fun s b hb => hf s b (List.mem_cons_of_mem _ hb)) _ (hf s a List.mem_cons_self hs)

theorem tryStrategies_reads (isa : Isa) (elems : List VecElem) (vecs : List Loc) (target : Nat) (s : Gen)
    (hs : Reads vecs s.code) : Reads vecs (tryStrategies isa elems vecs target s).code := by
  have ha : ∀ maskOk (s : Gen), Reads vecs s.code → Reads vecs (tryAlign elems vecs target maskOk s).code := by
    intro maskOk s hs
    unfold tryAlign
    simp only
    refine foldl_reads _ _ ?_ _ (by exact hs)
    rintro s ⟨m1, m2, count⟩ hb hs
    obtain ⟨h1, h2⟩ : m1 ∈ vecs ∧ m2 ∈ vecs := by
      simp only [List.mem_flatMap, List.mem_map, Prod.mk.injEq] at hb
      obtain ⟨a, ha, b, hb, c, _, rfl, rfl, _⟩ := hb
      exact ⟨ha, hb⟩
    unfold alignStep
    simp only
    by_cases c1 : (s.stop || decide (s.done.length ≥ elems.length)) = true
    · rw [if_pos c1]; exact hs
    rw [if_neg c1]
    split
    · split
      · exact hs
      · apply hs.snoc
        simp only [Instr.inputs]
        intro m hm
        split_ifs at hm <;> simp at hm <;> rcases hm with rfl | rfl <;> assumption
    · exact hs
  have hp2 : ∀ (s : Gen), Reads vecs s.code → Reads vecs (tryPerm2 elems vecs target s).code := by
    intro s hs
    unfold tryPerm2
    split_ifs
    · exact hs
    · simp only
      refine foldl_reads _ _ ?_ _ (by exact hs)
      rintro s ⟨m1, m2⟩ hb hs
      obtain ⟨h1, h2⟩ : m1 ∈ vecs ∧ m2 ∈ vecs := by
        simp only [List.mem_flatMap, List.mem_map, Prod.mk.injEq] at hb
        obtain ⟨a, ha, b, hb, rfl, rfl⟩ := hb
        exact ⟨ha, hb⟩
      unfold perm2Step
      simp only
      by_cases c1 : (s.stop || decide (m1 = m2)) = true
      · rw [if_pos c1]; exact hs
      rw [if_neg c1]
      split
      · apply hs.snoc
        intro m hm
        split_ifs at hm <;> simp [Instr.inputs] at hm <;> rcases hm with rfl | rfl <;> assumption
      · exact hs
  have hp1 : ∀ (s : Gen), Reads vecs s.code → Reads vecs (tryPerm1 elems vecs target s).code := by
    intro s hs
    unfold tryPerm1
    apply foldl_reads _ _ _ _ hs
    intro s m hm hs
    unfold perm1Step
    simp only
    split
    · apply hs.snoc
      intro x hx
      simp [Instr.inputs] at hx
      rw [hx]; exact hm
    · exact hs
  cases isa with
  | cpp => exact hs
  | avx2 => exact ha _ _ hs
  | avx512 => exact hp1 _ (hp2 _ (ha _ _ hs))

theorem targetLoop_reads (isa : Isa) (elems : List VecElem) (vecs : List Loc) (n : Nat) :
    ∀ s : Gen, Reads vecs s.code → Reads vecs (targetLoop isa elems vecs n s).code := by
  induction n with
  | zero => intro s hs; exact hs
  | succ n ih =>
    intro s hs
    unfold targetLoop
    split_ifs
    · exact ih _ (tryStrategies_reads isa elems vecs (n + 1) s hs)
    · exact hs

theorem simpleCode_reads (elems : List VecElem) (vecs : List Loc) (hv : ∀ ve ∈ elems, ve.vec ∈ vecs) (done : List Nat) :
    Reads vecs (simpleCode elems done) := by
  intro c hc m hm
  unfold simpleCode at hc
  obtain ⟨i, _, hi⟩ := List.mem_filterMap.1 hc
  split_ifs at hi
  obtain ⟨ve, hve, rfl⟩ := Option.map_eq_some_iff.1 hi
  simp [Instr.inputs] at hm
  rw [hm]
  exact hv ve (List.mem_of_getElem? hve)

theorem unalignedCtor_reads (isa : Isa) (elems : List VecElem) (vecs : List Loc) (hv : ∀ ve ∈ elems, ve.vec ∈ vecs)
    (defined : List (List Tok)) : Reads vecs (unalignedCtor isa elems vecs defined).1 := by
  have main : Reads vecs (let s := targetLoop isa elems vecs elems.length { defined := defined }
       if s.done.length ≠ elems.length then s.code ++ simpleCode elems s.done else s.code) := by
    have h0 := targetLoop_reads isa elems vecs elems.length { defined := defined } (by intro c hc; cases hc)
    simp only
    split_ifs
    · intro c hc
      rcases List.mem_append.1 hc with h | h
      · exact h0 c h
      · exact simpleCode_reads elems vecs hv _ c h
    · exact h0
  cases isa with
  | cpp => exact simpleCode_reads elems vecs hv []
  | avx2 => exact main
  | avx512 => exact main

end Yask.Comp
