import Verif.Mpi.WinModel
import Verif.Common.IdivLemmas
import Mathlib.Data.List.FinRange
import Mathlib.Tactic.Ring

/-!
# Lemmas about the steps of halo exchanges
-/

namespace Yask.Win
open Yask.Dirty

variable {R P V : Type} {n : Nat} [NeZero n]

theorem npos : 0 < n := Nat.pos_of_ne_zero (NeZero.ne n)

theorem slot_val (t : Int) : ((slot n t).val : Int) = t % (n : Int) := by
  have hn : 0 < n := npos
  have hn' : (0 : Int) < (n : Int) := by exact_mod_cast hn
  unfold slot
  rw [imodFlr_eq t n hn']
  have h0 := Int.emod_nonneg t (by omega : (n : Int) ≠ 0)
  have h1 := Int.emod_lt_of_pos t hn'
  simp only [Fin.ofNat]
  rw [Nat.mod_eq_of_lt (by omega)]
  omega

theorem slot_eq_iff (t u : Int) : slot n t = slot n u ↔ t % (n : Int) = u % (n : Int) := by
  rw [← slot_val t, ← slot_val u]
  constructor
  · intro h; rw [h]
  · intro h; exact Fin.ext (by exact_mod_cast h)

/-- Different steps of `n` consecutive ones are in different slots. -/
theorem slot_inj (f : Int) (j k : Nat) (hj : j < n) (hk : k < n) (h : slot n (f + j) = slot n (f + k)) :
    j = k := by
  rw [slot_eq_iff] at h
  have h1 := Int.emod_emod_of_dvd
  have := Int.emod_eq_emod_iff_emod_sub_eq_zero.mp h
  have hd := Int.dvd_of_emod_eq_zero this
  have e : f + (j : Int) - (f + k) = (j : Int) - k := by ring
  rw [e] at hd
  obtain ⟨c, hc⟩ := hd
  have hn : 0 < n := npos
  have hc0 : c = 0 := by
    rcases lt_trichotomy c 0 with h | h | h
    · have : (n : Int) * c ≤ (n : Int) * (-1) := Int.mul_le_mul_of_nonneg_left (by omega) (by omega)
      omega
    · exact h
    · have : (n : Int) * 1 ≤ (n : Int) * c := Int.mul_le_mul_of_nonneg_left (by omega) (by omega)
      omega
  rw [hc0] at hc
  omega

/-- Each slot holds one of `n` consecutive steps. -/
theorem slot_surj (f : Int) (u : Fin n) : ∃ k : Nat, k < n ∧ slot n (f + k) = u := by
  have hn : 0 < n := npos
  have hn' : (0 : Int) < n := by exact_mod_cast hn
  have h0 := Int.emod_nonneg ((u.val : Int) - f) (by omega : (n : Int) ≠ 0)
  have h1 := Int.emod_lt_of_pos ((u.val : Int) - f) hn'
  refine ⟨(((u.val : Int) - f) % (n : Int)).toNat, by omega, ?_⟩
  apply Fin.ext
  have hv := slot_val (n := n) (f + ((((u.val : Int) - f) % (n : Int)).toNat : Nat))
  have e : ((((u.val : Int) - f) % (n : Int)).toNat : Int) = ((u.val : Int) - f) % (n : Int) := by omega
  have hu : (u.val : Int) % (n : Int) = u.val :=
    Int.emod_eq_of_lt (Int.natCast_nonneg _) (by have := u.isLt; omega)
  rw [e, Int.add_emod, Int.emod_emod_of_dvd _ (dvd_refl _), ← Int.add_emod,
    show f + ((u.val : Int) - f) = (u.val : Int) by ring, hu] at hv
  rw [e]
  exact_mod_cast hv

theorem find_zip_map {β : Type} (l : List Int) (f : Int → β) (p : Int → Bool)
    (hu : ∀ t ∈ l, ∀ t' ∈ l, p t = true → p t' = true → t = t') (t : Int) (ht : t ∈ l)
    (hp : p t = true) : (l.zip (l.map f)).find? (fun e => p e.1) = some (t, f t) := by
  induction l with
  | nil => cases ht
  | cons a l ih =>
    rw [List.map_cons, List.zip_cons_cons]
    by_cases ha : p a = true
    · rw [List.find?_cons_of_pos (by exact ha)]
      rw [hu a (by simp) t ht ha hp]
    · rw [List.find?_cons_of_neg (by exact ha)]
      apply ih
      · intro b hb c hc
        exact hu b (by simp [hb]) c (by simp [hc])
      · rcases List.mem_cons.mp ht with h | h
        · subst h; exact absurd hp ha
        · exact h

theorem find_zip_none {β : Type} (l : List Int) (m : List β) (p : Int → Bool)
    (hp : ∀ t ∈ l, p t = false) : (l.zip m).find? (fun e => p e.1) = none := by
  rw [List.find?_eq_none]
  intro e he
  have := hp e.1 (List.of_mem_zip he).1
  simp [this]

theorem mem_swapSteps {first : R → Int} {others : R → Fin n → Bool} {r : R} {t : Int} :
    t ∈ swapSteps first others r ↔ (∃ k : Nat, k < n ∧ t = first r + k) ∧ others r (slot n t) = true := by
  unfold swapSteps
  rw [List.mem_filter, List.mem_map]
  constructor
  · rintro ⟨⟨k, hk, e⟩, h⟩
    exact ⟨⟨k, by simpa using hk, e.symm⟩, h⟩
  · rintro ⟨⟨k, hk, e⟩, h⟩
    exact ⟨⟨k, by simpa using hk, e.symm⟩, h⟩

theorem swap_unique {first : R → Int} {others : R → Fin n → Bool} {r : R} {t t' : Int}
    (ht : t ∈ swapSteps first others r) (ht' : t' ∈ swapSteps first others r)
    (h : slot n t = slot n t') : t = t' := by
  obtain ⟨⟨j, hj, rfl⟩, -⟩ := mem_swapSteps.mp ht
  obtain ⟨⟨k, hk, rfl⟩, -⟩ := mem_swapSteps.mp ht'
  rw [slot_inj (first r) j k hj hk h]

/-- Each slot that may be dirty is the slot of one of the steps to exchange. -/
theorem exists_swap {first : R → Int} {others : R → Fin n → Bool} {r : R} {u : Fin n}
    (h : others r u = true) : ∃ t ∈ swapSteps first others r, slot n t = u := by
  obtain ⟨k, hk, e⟩ := slot_surj (first r) u
  exact ⟨first r + k, mem_swapSteps.mpr ⟨⟨k, hk, rfl⟩, by rw [e]; exact h⟩, e⟩

theorem swap_same {first : R → Int} {others : R → Fin n → Bool} (hf : ∀ r r', first r = first r')
    (ho : ∀ r r' u, others r u = others r' u) (r r' : R) :
    swapSteps first others r = swapSteps first others r' := by
  unfold swapSteps
  rw [hf r r']
  congr 1
  funext t
  exact ho r r' _

theorem upd_mem (f t : Int) : upd n f t ≤ t ∧ t ≤ upd n f t + n - 1 := by
  have hn : 0 < n := npos
  unfold upd
  split
  · omega
  · split <;> omega

theorem upd_again (f t : Int) : upd n (upd n f t) t = upd n f t := by
  have := upd_mem (n := n) f t
  generalize upd n f t = g at this
  unfold upd
  rw [if_neg (by omega), if_neg (by omega)]

variable [DecidableEq R] [DecidableEq P]

/-- The slots by which `Mpi/DirtyModel.lean` sees the exchange. -/
def slotTopo (topo : Topo R (Fin n) P) : Topo R (Fin n) P := { topo with slots := List.finRange n }

theorem mem_toSwap (topo : Topo R (Fin n) P) (st : State R (Fin n) P V) (r : R) (u : Fin n) :
    u ∈ toSwap (slotTopo topo) st r ↔ st.others r u = true := by
  unfold toSwap slotTopo
  rw [List.mem_filter]
  exact ⟨fun h => h.2, fun h => ⟨List.mem_finRange u, h⟩⟩

theorem any_dirty (topo : Topo R (Fin n) P) (s : WState n R P V) (q : R) :
    ((swapSteps s.first s.st.others q).any fun t => s.st.self q (slot n t)) =
      mineDirty (slotTopo topo) s.st q := by
  rw [Bool.eq_iff_iff, List.any_eq_true]
  unfold mineDirty
  rw [List.any_eq_true]
  constructor
  · rintro ⟨t, ht, h⟩
    exact ⟨slot n t, (mem_toSwap topo _ _ _).mpr (mem_swapSteps.mp ht).2, h⟩
  · rintro ⟨u, hu, h⟩
    obtain ⟨t, ht, e⟩ := exists_swap (first := s.first) ((mem_toSwap topo _ _ _).mp hu)
    exact ⟨t, ht, by rw [e]; exact h⟩

/-- With the same valid steps on all ranks, unpacking by steps is unpacking by slots. -/
theorem unpack_eq (topo : Topo R (Fin n) P) (src cur : WState n R P V) (hf : ∀ r r', src.first r = src.first r')
    (hfc : cur.first = src.first) (hoc : cur.st.others = src.st.others)
    (ho : ∀ r r' u, src.st.others r u = src.st.others r' u) (r : R) :
    unpack topo src cur r = Dirty.unpack (slotTopo topo) src.st cur.st r := by
  funext u p
  unfold unpack Dirty.unpack
  rw [hfc, hoc]
  have hh : (slotTopo topo).halo = topo.halo := rfl
  have hw : (slotTopo topo).owner = topo.owner := rfl
  rw [hh, hw]
  by_cases h1 : topo.halo r p = true
  · rw [if_pos h1]
    unfold message
    rw [any_dirty topo]
    by_cases h2 : mineDirty (slotTopo topo) src.st (topo.owner p) = true
    · rw [if_pos h2]
      by_cases h3 : src.st.others r u = true
      · obtain ⟨t, ht, e⟩ := exists_swap (first := src.first) h3
        rw [swap_same hf ho (topo.owner p) r]
        rw [find_zip_map _ _ (fun a => decide (slot n a = u)) ?_ t ht (by simp [e])]
        · rw [if_pos ⟨(mem_toSwap topo _ _ _).mpr h3, h1, h2⟩]
          simp only
          rw [e]
        · intro a ha b hb e1 e2
          exact swap_unique ha hb ((of_decide_eq_true e1).trans (of_decide_eq_true e2).symm)
      · rw [find_zip_none _ _ (fun a => decide (slot n a = u))]
        · rw [if_neg (fun h => h3 ((mem_toSwap topo _ _ _).mp h.1))]
        · intro t ht
          apply decide_eq_false
          intro e
          have := (mem_swapSteps.mp ht).2
          rw [e] at this
          exact h3 this
    · rw [if_neg h2, if_neg (fun h => h2 h.2.2)]
      simp
  · rw [if_neg h1, if_neg (fun h => h1 h.2.1)]

theorem exchange_eq (topo : Topo R (Fin n) P) (src cur : WState n R P V)
    (hf : ∀ r r', src.first r = src.first r') (hfc : cur.first = src.first)
    (hoc : cur.st.others = src.st.others) (ho : ∀ r r' u, src.st.others r u = src.st.others r' u) :
    ∃ st, Dirty.exchangeFrom (slotTopo topo) src.st cur.st = .ok st ∧
      exchangeFrom topo src cur = .ok ⟨cur.first, st⟩ := by
  refine ⟨{ copy := fun r => Dirty.unpack (slotTopo topo) src.st cur.st r, self := fun _ _ => false,
            others := fun _ _ => false }, ?_, ?_⟩
  · unfold Dirty.exchangeFrom
    rw [if_pos]
    intro r _ r' _
    unfold toSwap
    congr 1
    funext u
    exact ho r r' u
  · unfold exchangeFrom
    rw [if_pos]
    · congr 3
      funext r
      exact unpack_eq topo src cur hf hfc hoc ho r
    · intro r _ q _
      unfold message
      split
      · right
        rw [List.length_map, hfc, hoc, swap_same hf ho q r]
      · exact .inl rfl

theorem writeAll_fold (topo : Topo R (Fin n) P) (vals : Fin n → R → List (P × V)) (us : List (Fin n))
    (st : State R (Fin n) P V) :
    (us.map fun u => Op.writeAll u (vals u)).foldlM (Dirty.step topo) st =
      .ok (us.foldl (fun st u => writeAll st u (vals u)) st) := by
  induction us generalizing st with
  | nil => rfl
  | cons u us ih =>
    rw [List.map_cons, List.foldlM_cons, List.foldl_cons]
    exact ih _

theorem others_fold (vals : Fin n → R → List (P × V)) (us : List (Fin n)) (st : State R (Fin n) P V) :
    (us.foldl (fun st u => writeAll st u (vals u)) st).others = st.others := by
  induction us generalizing st with
  | nil => rfl
  | cons u us ih => rw [List.foldl_cons, ih]; rfl

/-- What all ranks have in common. -/
structure Agree (s : WState n R P V) : Prop where
  first : ∀ r r', s.first r = s.first r'
  others : ∀ r r' u, s.st.others r u = s.st.others r' u

theorem agree_eval {s : WState n R P V} (h : Agree s) (t : Int) (ws : R → List (P × V)) :
    Agree (evalAll s t ws) :=
  ⟨fun r r' => by show upd n _ _ = upd n _ _; rw [h.first r r'],
   fun r r' u => by
    show (if _ then _ else _) = (if _ then _ else _)
    rw [h.others r r' u]⟩

/-- A common operation by steps is the operation by slots. -/
theorem step_eq (topo : Topo R (Fin n) P) (s : WState n R P V) (h : Agree s) (o : WOp n R P V)
    (hc : Common o) : ∃ s', step topo s o = .ok s' ∧ Agree s' ∧
      (toDirty o).foldlM (Dirty.step (slotTopo topo)) s.st = .ok s'.st := by
  cases o with
  | set r t ws => exact ⟨_, rfl, ⟨h.first, h.others⟩, rfl⟩
  | slice t ws =>
    exact ⟨_, rfl, ⟨fun r r' => by show upd n _ _ = upd n _ _; rw [h.first r r'], h.others⟩, rfl⟩
  | setAll vals =>
    refine ⟨_, rfl, ⟨h.first, ?_⟩, writeAll_fold _ _ _ _⟩
    intro r r' u
    simp only [others_fold]
    exact h.others r r' u
  | start => exact ⟨_, rfl, ⟨h.first, fun _ _ _ => rfl⟩, rfl⟩
  | eval t ws => exact ⟨_, rfl, agree_eval h t ws, rfl⟩
  | exchange =>
    obtain ⟨st, e1, e2⟩ := exchange_eq topo s s h.first rfl rfl h.others
    refine ⟨_, e2, ⟨h.first, ?_⟩, ?_⟩
    · unfold Dirty.exchangeFrom at e1
      split at e1
      · cases e1; intro _ _ _; rfl
      · cases e1
    · show (Dirty.exchangeFrom _ _ _ >>= fun s => List.foldlM _ s []) = _
      rw [e1]; rfl
  | overlap t ext int =>
    have h1 := agree_eval h t ext
    have hfc : (fun r => upd n ((evalAll s t ext).first r) t) = (evalAll s t ext).first := by
      funext r
      exact upd_again _ _
    obtain ⟨st, e1, e2⟩ := exchange_eq topo (evalAll s t ext)
      { first := fun r => upd n ((evalAll s t ext).first r) t
        st := { (evalAll s t ext).st with
          copy := fun r => pokes ((evalAll s t ext).st.copy r) (slot n t) (int r) } }
      h1.first hfc rfl h1.others
    refine ⟨_, e2, ⟨?_, ?_⟩, ?_⟩
    · rw [hfc]; exact h1.first
    · unfold Dirty.exchangeFrom at e1
      split at e1
      · cases e1; intro _ _ _; rfl
      · cases e1
    · show (Dirty.exchangeFrom (slotTopo topo) (evalAll s t ext).st
        { (evalAll s t ext).st with
          copy := fun r => pokes ((evalAll s t ext).st.copy r) (slot n t) (int r) } >>=
            fun s => List.foldlM (Dirty.step (slotTopo topo)) s []) = _
      rw [e1]; rfl
  | sliceOne r t ws => exact absurd hc id
  | tune r ts => exact absurd hc id

theorem run_eq (topo : Topo R (Fin n) P) (os : List (WOp n R P V)) (s : WState n R P V) (h : Agree s)
    (hc : ∀ o ∈ os, Common o) : ∃ s', run topo s os = .ok s' ∧ Agree s' ∧
      Dirty.run (slotTopo topo) s.st (os.flatMap toDirty) = .ok s'.st := by
  induction os generalizing s with
  | nil => exact ⟨s, rfl, h, rfl⟩
  | cons o os ih =>
    obtain ⟨s1, e1, h1, d1⟩ := step_eq topo s h o (hc o (by simp))
    obtain ⟨s2, e2, h2, d2⟩ := ih s1 h1 (fun o ho => hc o (by simp [ho]))
    refine ⟨s2, ?_, h2, ?_⟩
    · unfold run at e2 ⊢
      rw [List.foldlM_cons, e1]
      exact e2
    · unfold Dirty.run at d2 ⊢
      rw [List.flatMap_cons, List.foldlM_append, d1]
      exact d2

/-- Consecutive steps, upwards. -/
theorem upd_up (f t : Int) (k : Nat) :
    let f' := ((List.range (k + 1)).map fun j : Nat => t + (j : Int)).foldl (upd n) f
    f' ≤ t + k ∧ t + k ≤ f' + n - 1 ∧ (n ≤ k + 1 → f' = t + k - n + 1) ∧
      (f' ≤ t ∨ f' = t + k - n + 1) := by
  have hn : 0 < n := npos
  induction k with
  | zero =>
    have := upd_mem (n := n) f t
    simp only [Nat.zero_add, List.range_one, List.map_cons, List.map_nil, List.foldl_cons, List.foldl_nil,
      Nat.cast_zero, add_zero]
    refine ⟨this.1, this.2, ?_, .inl this.1⟩
    intro h
    have : n = 1 := by omega
    omega
  | succ k ih =>
    simp only at ih ⊢
    rw [List.range_succ, List.map_append, List.foldl_append]
    simp only [List.map_cons, List.map_nil, List.foldl_cons, List.foldl_nil]
    generalize ((List.range (k + 1)).map fun j : Nat => t + (j : Int)).foldl (upd n) f = g at ih
    unfold upd
    push_cast
    rcases ih with ⟨h1, h2, h3, h4⟩
    rw [if_neg (by omega)]
    split
    · refine ⟨by omega, by omega, by intro _; omega, .inr (by omega)⟩
    · rename_i h5
      refine ⟨by omega, by omega, ?_, ?_⟩
      · intro h
        by_cases h6 : n ≤ k + 1
        · have := h3 h6; omega
        · rcases h4 with h4 | h4 <;> omega
      · rcases h4 with h4 | h4
        · exact .inl h4
        · omega

/-- Consecutive steps, downwards. -/
theorem upd_down (f t : Int) (k : Nat) :
    let f' := ((List.range (k + 1)).map fun j : Nat => t - (j : Int)).foldl (upd n) f
    f' ≤ t - k ∧ t - k ≤ f' + n - 1 ∧ (n ≤ k + 1 → f' = t - k) ∧ (t - n + 1 ≤ f' ∨ f' = t - k) := by
  have hn : 0 < n := npos
  induction k with
  | zero =>
    have := upd_mem (n := n) f t
    simp only [Nat.zero_add, List.range_one, List.map_cons, List.map_nil, List.foldl_cons, List.foldl_nil,
      Nat.cast_zero, sub_zero]
    refine ⟨this.1, this.2, ?_, .inl (by omega)⟩
    intro h
    have : n = 1 := by omega
    omega
  | succ k ih =>
    simp only at ih ⊢
    rw [List.range_succ, List.map_append, List.foldl_append]
    simp only [List.map_cons, List.map_nil, List.foldl_cons, List.foldl_nil]
    generalize ((List.range (k + 1)).map fun j : Nat => t - (j : Int)).foldl (upd n) f = g at ih
    unfold upd
    push_cast
    rcases ih with ⟨h1, h2, h3, h4⟩
    split
    · refine ⟨by omega, by omega, by intro _; omega, .inr (by omega)⟩
    · rename_i h5
      rw [if_neg (by omega)]
      refine ⟨by omega, by omega, ?_, ?_⟩
      · intro h
        by_cases h6 : n ≤ k + 1
        · have := h3 h6; omega
        · rcases h4 with h4 | h4 <;> omega
      · rcases h4 with h4 | h4
        · exact .inl h4
        · omega

end Yask.Win
