import Verif.Setup.AllocModel
import Verif.Spec.StoreSpec
import Mathlib.Tactic.SplitIfs
import Mathlib.Tactic.ByContra
import Mathlib.Data.List.Nodup
import Mathlib.Order.Basic

/-! Helper lemmas: allocation of storage. -/

namespace Yask.Setup
open Spec

theorem resBytes_ge (n : Nat) : n + bufPad ≤ resBytes n := by unfold resBytes bufPad cacheLine; omega

theorem resBytes_pos (n : Nat) : 0 < resBytes n := by
  have := resBytes_ge n; unfold bufPad cacheLine at this; omega

theorem resBytes_dvd (n : Nat) : cacheLine ∣ resBytes n := Nat.dvd_mul_left _ _

theorem addReq_self (r : AKey → Nat) (k : AKey) (n : Nat) : addReq r k n k = r k + n := by simp [addReq]

theorem addReq_ge (r : AKey → Nat) (k k' : AKey) (n : Nat) : r k' ≤ addReq r k n k' := by
  unfold addReq; split <;> omega

theorem addReq_mono {r r' : AKey → Nat} (h : ∀ k, r k ≤ r' k) (k : AKey) (n : Nat) (k' : AKey) :
    addReq r k n k' ≤ addReq r' k n k' := by
  have := h k'
  unfold addReq; split <;> omega

/-- The area of a var of `n` bytes with a following pad. -/
def Place.area (p : Place) (n : Nat) : Area AKey := ⟨p.chunk, p.ofs, n⟩

/-! ### Vars -/

theorem mem_done (l : List Nat) (x y : Nat) : x ∈ (if y ∈ l then l else l ++ [y]) ↔ x ∈ l ∨ x = y := by
  split
  · rename_i h
    constructor
    · exact .inl
    · rintro (h1 | rfl)
      · exact h1
      · exact h
  · simp

theorem mem_doneAll (m l : List Nat) (x : Nat) :
    x ∈ m.foldl (fun l gp => if gp ∈ l then l else l ++ [gp]) l ↔ x ∈ l ∨ x ∈ m := by
  induction m generalizing l with
  | nil => simp
  | cons y m ih => rw [List.foldl_cons, ih, mem_done, List.mem_cons, or_assoc]

theorem nodup_doneAll (m l : List Nat) (h : l.Nodup) : (m.foldl (fun l gp => if gp ∈ l then l else l ++ [gp]) l).Nodup := by
  induction m generalizing l with
  | nil => exact h
  | cons y m ih =>
    rw [List.foldl_cons]
    apply ih
    split
    · exact h
    · rename_i hy
      rw [List.nodup_append]
      refine ⟨h, by simp, ?_⟩
      intro a ha b hb
      simp only [List.mem_singleton] at hb
      rintro rfl
      exact hy (hb ▸ ha)

theorem mem_sortVars (outs orig all : List Nat) (x : Nat) : x ∈ sortVars outs orig all ↔ (x ∈ outs ∨ x ∈ orig) ∨ x ∈ all := by
  unfold sortVars
  rw [mem_doneAll, mem_doneAll]

theorem nodup_sortVars (outs orig all : List Nat) (h : outs.Nodup) : (sortVars outs orig all).Nodup :=
  nodup_doneAll _ _ (nodup_doneAll _ _ h)

theorem varStep_reqs_ge (bundle : Bool) (v : AVars) (sz : Option (AKey → Nat)) (s : AState) (gp : Nat) (k : AKey) :
    s.reqs k ≤ (varStep bundle v sz s gp).reqs k := by
  unfold varStep
  dsimp only
  split
  · exact Nat.le_refl _
  · exact addReq_ge _ _ _ _

theorem varFold_reqs_ge (bundle : Bool) (v : AVars) (sz : Option (AKey → Nat)) (l : List Nat) (s : AState) (k : AKey) :
    s.reqs k ≤ (l.foldl (varStep bundle v sz) s).reqs k := by
  induction l generalizing s with
  | nil => exact Nat.le_refl _
  | cons x l ih => exact Nat.le_trans (varStep_reqs_ge bundle v sz s x k) (ih _)

/-- Storage handed out so far. -/
structure Handed (v : AVars) (s : AState) : Prop where
  inside : ∀ c p, s.store c = some p → p.ofs + resBytes (v.bytes c) ≤ s.reqs p.chunk
  apart : ∀ c c' p p', s.store c = some p → s.store c' = some p' → c ≠ c' → p.chunk = p'.chunk →
    p.ofs + resBytes (v.bytes c) ≤ p'.ofs ∨ p'.ofs + resBytes (v.bytes c') ≤ p.ofs
  line : ∀ c p, s.store c = some p → cacheLine ∣ p.ofs
  reqs : ∀ k, cacheLine ∣ s.reqs k
  fresh : ∀ c p, s.store c = some p → v.old c = false

/-- The state `s1` of pass 1 against the state `s0` of pass 0 after the same vars. -/
structure Along (bundle : Bool) (s0 s1 : AState) : Prop where
  le : ∀ k, s1.reqs k ≤ s0.reqs k
  seq : s1.seq = s0.seq
  zero : bundle = true → s0.seq = 0
  none : ∀ c, s0.store c = .none

theorem Handed.step {v : AVars} {s : AState} (h : Handed v s) {c : Nat} {k : AKey} (ho : v.old c = false)
    (hc : s.store c = none) (seq : Nat) :
    Handed v { reqs := addReq s.reqs k (resBytes (v.bytes c)), seq := seq
               store := fun c' => if c' = c then some ⟨k, s.reqs k⟩ else s.store c' } := by
  refine ⟨?_, ?_, ?_, ?_, ?_⟩
  · intro a p hp
    dsimp only at hp ⊢
    split_ifs at hp with h1
    · subst h1
      simp only [Option.some.injEq] at hp
      subst hp
      dsimp only
      rw [addReq_self]
    · exact Nat.le_trans (h.inside a p hp) (addReq_ge _ _ _ _)
  · intro a b p q hp hq hab hk
    dsimp only at hp hq
    split_ifs at hp hq with h1 h2 h2
    · exact absurd (h1.trans h2.symm) hab
    · simp only [Option.some.injEq] at hp
      subst hp
      right
      have := h.inside b q hq
      rw [← hk] at this
      exact this
    · simp only [Option.some.injEq] at hq
      subst hq
      left
      have := h.inside a p hp
      rw [hk] at this
      exact this
    · exact h.apart a b p q hp hq hab hk
  · intro a p hp
    dsimp only at hp
    split_ifs at hp with h1
    · simp only [Option.some.injEq] at hp
      subst hp
      exact h.reqs k
    · exact h.line a p hp
  · intro k'
    dsimp only
    unfold addReq
    split
    · exact Nat.dvd_add (h.reqs k') (resBytes_dvd _)
    · exact h.reqs k'
  · intro a p hp
    dsimp only at hp
    split_ifs at hp with h1
    · rw [h1]; exact ho
    · exact h.fresh a p hp

/-- Passes 0 and 1 over the rest `l` of the list of vars. -/
theorem passes (bundle : Bool) (v : AVars) (sizes : AKey → Nat) (l : List Nat) (s0 s1 : AState)
    (hd : bundle = true ∨ ((l.map v.core).Nodup ∧ ∀ x ∈ l, s1.store (v.core x) = none))
    (ha : Along bundle s0 s1) (hh : Handed v s1)
    (hsz : ∀ k, (l.foldl (varStep bundle v none) s0).reqs k ≤ sizes k) :
    Handed v (l.foldl (varStep bundle v (some sizes)) s1) ∧
    (∀ k, (l.foldl (varStep bundle v (some sizes)) s1).reqs k ≤ sizes k) ∧
    (∀ c p, s1.store c = some p → (l.foldl (varStep bundle v (some sizes)) s1).store c = some p) ∧
    ∀ x ∈ l, v.old (v.core x) = false → ∃ p, (l.foldl (varStep bundle v (some sizes)) s1).store (v.core x) = some p := by
  induction l generalizing s0 s1 with
  | nil =>
    refine ⟨hh, fun k => Nat.le_trans (ha.le k) (hsz k), fun _ _ h => h, ?_⟩
    intro x hx; cases hx
  | cons x l ih =>
    rw [List.foldl_cons] at hsz
    rw [List.foldl_cons]
    have hd' : ∀ s' : AState, (∀ c, c ≠ v.core x → s'.store c = s1.store c) →
        (bundle = true ∨ ((l.map v.core).Nodup ∧ ∀ y ∈ l, s'.store (v.core y) = none)) := by
      intro s' hs
      rcases hd with h | ⟨h1, h2⟩
      · exact .inl h
      · right
        rw [List.map_cons, List.nodup_cons] at h1
        refine ⟨h1.2, fun y hy => ?_⟩
        rw [hs _ (fun e => h1.1 (by rw [← e]; exact List.mem_map_of_mem hy))]
        exact h2 y (List.mem_cons_of_mem _ hy)
    by_cases ho : v.old (v.core x) = true
    · have e0 : varStep bundle v none s0 x = s0 := by simp [varStep, ho]
      have e1 : varStep bundle v (some sizes) s1 x = s1 := by simp [varStep, ho]
      rw [e0] at hsz
      rw [e1]
      obtain ⟨r1, r2, r3, r4⟩ := ih s0 s1 (hd' s1 fun _ _ => rfl) ha hh hsz
      refine ⟨r1, r2, r3, ?_⟩
      intro y hy hyo
      rcases List.mem_cons.1 hy with rfl | hy
      · rw [ho] at hyo; cases hyo
      · exact r4 y hy hyo
    · have ho' : v.old (v.core x) = false := by simpa using ho
      -- pass 0 takes the var
      have e0 : varStep bundle v none s0 x =
          { reqs := addReq s0.reqs (v.numa (v.core x), if bundle then s0.seq else s0.seq + 1) (resBytes (v.bytes (v.core x))),
            seq := if bundle then s0.seq else s0.seq + 1, store := s0.store } := by
        simp [varStep, ho', ha.none]
      generalize hk : ((v.numa (v.core x), if bundle then s0.seq else s0.seq + 1) : AKey) = k at e0
      cases hst : s1.store (v.core x) with
      | some p =>
        have hb : bundle = true := by
          rcases hd with h | ⟨_, h2⟩
          · exact h
          · rw [h2 x (List.mem_cons_self ..)] at hst; cases hst
        have e1 : varStep bundle v (some sizes) s1 x = s1 := by simp [varStep, hst]
        rw [e1]
        have hA : Along bundle (varStep bundle v none s0 x) s1 := by
          rw [e0]
          refine ⟨fun k' => Nat.le_trans (ha.le k') (addReq_ge _ _ _ _), ?_, ?_, ha.none⟩
          · simp [hb, ha.seq]
          · intro; simp only [hb, if_true]; exact ha.zero hb
        obtain ⟨r1, r2, r3, r4⟩ := ih _ s1 (hd' s1 fun _ _ => rfl) hA hh hsz
        refine ⟨r1, r2, r3, ?_⟩
        intro y hy hyo
        rcases List.mem_cons.1 hy with rfl | hy
        · exact ⟨p, r3 _ p hst⟩
        · exact r4 y hy hyo
      | none =>
        have hkz : sizes k ≠ 0 := by
          have h1 := varFold_reqs_ge bundle v none l (varStep bundle v none s0 x) k
          have h2 := hsz k
          have h3 : (varStep bundle v none s0 x).reqs k = s0.reqs k + resBytes (v.bytes (v.core x)) := by
            rw [e0]; exact addReq_self _ _ _
          have := resBytes_pos (v.bytes (v.core x))
          omega
        have e1 : varStep bundle v (some sizes) s1 x =
            { reqs := addReq s1.reqs k (resBytes (v.bytes (v.core x))),
              seq := if bundle then s0.seq else s0.seq + 1,
              store := fun c' => if c' = v.core x then some ⟨k, s1.reqs k⟩ else s1.store c' } := by
          simp only [varStep, ho', hst, ha.seq, Option.isSome_none, Bool.or_self, Bool.false_eq_true, if_false, hk]
          rw [if_neg hkz]
        have hA : Along bundle (varStep bundle v none s0 x) (varStep bundle v (some sizes) s1 x) := by
          rw [e0, e1]
          refine ⟨fun k' => addReq_mono ha.le _ _ _, rfl, ?_, ha.none⟩
          intro hb; simp only [hb, if_true]; exact ha.zero hb
        have hH : Handed v (varStep bundle v (some sizes) s1 x) := by
          rw [e1]; exact hh.step ho' hst _
        obtain ⟨r1, r2, r3, r4⟩ := ih _ _ (hd' _ fun c hc => by rw [e1]; simp [hc]) hA hH hsz
        refine ⟨r1, r2, ?_, ?_⟩
        · intro c p hp
          apply r3
          rw [e1]
          dsimp only
          rw [if_neg]
          · exact hp
          · rintro rfl; rw [hst] at hp; cases hp
        · intro y hy hyo
          rcases List.mem_cons.1 hy with rfl | hy
          · exact ⟨_, r3 _ ⟨k, s1.reqs k⟩ (by rw [e1]; simp)⟩
          · exact r4 y hy hyo

/-! ### Scratch vars -/

/-- What the passes over scratch vars keep: each (thread, slot) has an area as large as its first var needs. -/
structure SHanded (v : AScratch) (room : Nat → Nat → Nat) (s : SState) : Prop where
  inside : ∀ t m p, s.slots t m = some p → p.ofs + resBytes (room t m) ≤ s.reqs p.chunk
  apart : ∀ t m p t' m' p', s.slots t m = some p → s.slots t' m' = some p' → (t, m) ≠ (t', m') → p.chunk = p'.chunk →
    p.ofs + resBytes (room t m) ≤ p'.ofs ∨ p'.ofs + resBytes (room t' m') ≤ p.ofs
  store : ∀ g t p, s.store g t = some p → s.slots t (v.slot g) = some p

/-- The first var of a slot. -/
def IsFirst (v : AScratch) (nvars g : Nat) : Prop := g < nvars ∧ ∀ g' < g, v.slot g' ≠ v.slot g

/-- The bytes of the first var with slot `m`. -/
def firstBytes (v : AScratch) (nvars m : Nat) : Nat :=
  match (List.range nvars).find? fun g => v.slot g = m with
  | some g => v.bytes g
  | none => 0

theorem scratch_step {v : AScratch} {room : Nat → Nat → Nat} {bundle : Bool} {s : SState} (h : SHanded v room s) (g t : Nat)
    (hr : s.slots t (v.slot g) = none → room t (v.slot g) = v.bytes g) :
    SHanded v room (scratchStep bundle v s (g, t)) ∧
    (∀ t' m p, s.slots t' m = some p → (scratchStep bundle v s (g, t)).slots t' m = some p) ∧
    (∀ t' m, (t', m) ≠ (t, v.slot g) → (scratchStep bundle v s (g, t)).slots t' m = s.slots t' m) ∧
    (∃ p, (scratchStep bundle v s (g, t)).store g t = some p) ∧
    ∀ g' t' p, s.store g' t' = some p → ∃ p', (scratchStep bundle v s (g, t)).store g' t' = some p' := by
  cases hs : s.slots t (v.slot g) with
  | some p =>
    have e : scratchStep bundle v s (g, t) =
        { s with store := fun g' t' => if g' = g ∧ t' = t then some p else s.store g' t' } := by
      simp [scratchStep, hs]
    rw [e]
    refine ⟨⟨h.inside, h.apart, ?_⟩, fun _ _ _ h => h, fun _ _ _ => rfl, ⟨p, by simp⟩, ?_⟩
    · intro g' t' q hq
      dsimp only at hq ⊢
      split_ifs at hq with h1
      · obtain ⟨rfl, rfl⟩ := h1
        rw [hs]; exact hq
      · exact h.store g' t' q hq
    · intro g' t' q hq
      dsimp only
      split_ifs
      · exact ⟨_, rfl⟩
      · exact ⟨q, hq⟩
  | none =>
    have hroom := hr hs
    generalize hk : ((v.numa g, if bundle then s.seq else s.seq + 1) : AKey) = k
    have e : scratchStep bundle v s (g, t) =
        { reqs := addReq s.reqs k (resBytes (v.bytes g)), seq := if bundle then s.seq else s.seq + 1,
          slots := fun t' m => if t' = t ∧ m = v.slot g then some ⟨k, s.reqs k⟩ else s.slots t' m,
          store := fun g' t' => if g' = g ∧ t' = t then some ⟨k, s.reqs k⟩ else s.store g' t' } := by
      simp [scratchStep, hs, hk]
    rw [e]
    refine ⟨⟨?_, ?_, ?_⟩, ?_, ?_, ⟨⟨k, s.reqs k⟩, by simp⟩, ?_⟩
    · intro t' m p hp
      dsimp only at hp ⊢
      split_ifs at hp with h1
      · obtain ⟨rfl, rfl⟩ := h1
        simp only [Option.some.injEq] at hp
        subst hp
        dsimp only
        rw [addReq_self, hroom]
      · exact Nat.le_trans (h.inside t' m p hp) (addReq_ge _ _ _ _)
    · intro a m p b m' q hp hq hne hck
      dsimp only at hp hq
      split_ifs at hp hq with h1 h2 h2
      · exact absurd (by rw [h1.1, h1.2, h2.1, h2.2]) hne
      · simp only [Option.some.injEq] at hp
        subst hp
        right
        have := h.inside b m' q hq
        rw [← hck] at this
        exact this
      · simp only [Option.some.injEq] at hq
        subst hq
        left
        have := h.inside a m p hp
        rw [hck] at this
        exact this
      · exact h.apart a m p b m' q hp hq hne hck
    · intro g' t' q hq
      dsimp only at hq ⊢
      split_ifs at hq with h1
      · obtain ⟨rfl, rfl⟩ := h1
        simp only [and_self, if_true]
        exact hq
      · have h2 := h.store g' t' q hq
        rw [if_neg]
        · exact h2
        · rintro ⟨rfl, h3⟩
          rw [h3, hs] at h2
          cases h2
    · intro t' m p hp
      dsimp only
      rw [if_neg]
      · exact hp
      · rintro ⟨rfl, rfl⟩; rw [hs] at hp; cases hp
    · intro t' m hne
      dsimp only
      rw [if_neg]
      rintro ⟨rfl, rfl⟩
      exact hne rfl
    · intro g' t' q hq
      dsimp only
      split_ifs
      · exact ⟨_, rfl⟩
      · exact ⟨q, hq⟩

/-- The fold over a list of scratch vars and threads. -/
theorem scratch_fold {v : AScratch} {room : Nat → Nat → Nat} {bundle : Bool} (l pre : List (Nat × Nat)) (s : SState)
    (h : SHanded v room s) (hseen : ∀ x ∈ pre, ∃ p, s.slots x.2 (v.slot x.1) = some p)
    (hst : ∀ x ∈ pre, ∃ p, s.store x.1 x.2 = some p)
    (hroom : ∀ l1 g t l2, pre ++ l = l1 ++ (g, t) :: l2 → (∀ x ∈ l1, x.2 = t → v.slot x.1 ≠ v.slot g) →
      room t (v.slot g) = v.bytes g) :
    SHanded v room (l.foldl (scratchStep bundle v) s) ∧
    ∀ x ∈ pre ++ l, ∃ p, (l.foldl (scratchStep bundle v) s).store x.1 x.2 = some p := by
  induction l generalizing pre s with
  | nil => exact ⟨h, by simpa using hst⟩
  | cons x l ih =>
    obtain ⟨g, t⟩ := x
    obtain ⟨a1, a2, a3, a4, a5⟩ := scratch_step (bundle := bundle) h g t (fun hn => hroom pre g t l rfl (by
      intro x hx ht he
      obtain ⟨p, hp⟩ := hseen x hx
      rw [ht, he, hn] at hp
      cases hp))
    have := ih (pre ++ [(g, t)]) (scratchStep bundle v s (g, t)) a1 ?_ ?_ (by simpa using hroom)
    · simpa using this
    · intro y hy
      rcases List.mem_append.1 hy with hy | hy
      · obtain ⟨p, hp⟩ := hseen y hy
        exact ⟨p, a2 _ _ _ hp⟩
      · simp only [List.mem_singleton] at hy
        subst hy
        obtain ⟨p, hp⟩ := a4
        exact ⟨p, a1.store _ _ _ hp⟩
    · intro y hy
      rcases List.mem_append.1 hy with hy | hy
      · obtain ⟨p, hp⟩ := hst y hy
        exact a5 _ _ _ hp
      · simp only [List.mem_singleton] at hy
        subst hy
        exact a4

theorem mem_scratchOrder {nv nt : Nat} {x : Nat × Nat} : x ∈ scratchOrder nv nt ↔ x.1 < nv ∧ x.2 < nt := by
  obtain ⟨g, t⟩ := x
  simp [scratchOrder]

theorem scratchOrder_sorted (nv nt : Nat) : (scratchOrder nv nt).Pairwise fun a b => a.1 ≤ b.1 := by
  unfold scratchOrder
  rw [List.pairwise_flatMap]
  constructor
  · intro g _
    rw [List.pairwise_map]
    exact List.pairwise_lt_range.imp fun _ => Nat.le_refl _
  · apply List.Pairwise.imp _ List.pairwise_lt_range
    intro a b hab x hx y hy
    simp only [List.mem_map, List.mem_range] at hx hy
    obtain ⟨_, _, rfl⟩ := hx
    obtain ⟨_, _, rfl⟩ := hy
    exact Nat.le_of_lt hab

theorem firstBytes_eq {v : AScratch} {nv g : Nat} (hg : g < nv) (hf : ∀ g' < g, v.slot g' ≠ v.slot g) :
    firstBytes v nv (v.slot g) = v.bytes g := by
  unfold firstBytes
  have : (List.range nv).find? (fun g' => v.slot g' = v.slot g) = some g := by
    rw [List.find?_range_eq_some]
    refine ⟨by simp, by simpa using hg, ?_⟩
    intro j hj
    simpa using hf j hj
  rw [this]

theorem allocScratch_spec (bundle : Bool) (v : AScratch) (nv nt : Nat) :
    SHanded v (fun _ m => firstBytes v nv m) ((scratchOrder nv nt).foldl (scratchStep bundle v) {}) ∧
    ∀ g < nv, ∀ t < nt, ∃ p, (allocScratch bundle v nv nt).2 g t = some p := by
  have := scratch_fold (bundle := bundle) (v := v) (room := fun _ m => firstBytes v nv m) (scratchOrder nv nt) [] {}
    ⟨(by intro _ _ _ h; cases h), (by intro _ _ _ _ _ _ h; cases h), (by intro _ _ _ h; cases h)⟩ (by simp) (by simp) ?_
  · refine ⟨this.1, fun g hg t ht => ?_⟩
    exact this.2 (g, t) (by simpa [mem_scratchOrder] using ⟨hg, ht⟩)
  · intro l1 g t l2 he hno
    rw [List.nil_append] at he
    have hm : (g, t) ∈ scratchOrder nv nt := by rw [he]; simp
    rw [mem_scratchOrder] at hm
    apply firstBytes_eq hm.1
    intro g' hg' hs
    have hm' : (g', t) ∈ scratchOrder nv nt := mem_scratchOrder.2 ⟨Nat.lt_trans hg' hm.1, hm.2⟩
    have hso := scratchOrder_sorted nv nt
    rw [he] at hm' hso
    rcases List.mem_append.1 hm' with h1 | h1
    · exact hno _ h1 rfl hs
    · rw [List.pairwise_append] at hso
      rcases List.mem_cons.1 h1 with h2 | h2
      · simp only [Prod.mk.injEq] at h2; omega
      · have := (List.pairwise_cons.1 hso.2.1).1 _ h2
        simp only at this
        omega

/-! ### MPI buffers -/

/-- Storage of buffers handed out so far. -/
structure MHanded (s : MState) : Prop where
  inside : ∀ x ∈ s.store, x.2.ofs + resBytes x.1.bytes ≤ s.reqs x.2.chunk
  apart : s.store.Pairwise fun x y => x.2.chunk = y.2.chunk → x.2.ofs + resBytes x.1.bytes ≤ y.2.ofs

theorem MHanded.step {s : MState} (h : MHanded s) (n : Int) (b : ABuf) : MHanded (bufStep n s b) := by
  unfold bufStep
  dsimp only
  split_ifs with h1 h2
  · exact h
  · refine ⟨?_, ?_⟩
    · intro x hx
      rcases List.mem_append.1 hx with hx | hx
      · exact Nat.le_trans (h.inside x hx) (addReq_ge _ _ _ _)
      · simp only [List.mem_singleton] at hx
        subst hx
        dsimp only
        rw [addReq_self]
    · dsimp only
      rw [List.pairwise_append]
      refine ⟨h.apart, by simp, ?_⟩
      intro x hx y hy hk
      simp only [List.mem_singleton] at hy
      subst hy
      have := h.inside x hx
      rw [hk] at this
      exact this
  · exact h

theorem allocBufs_handed (n : Int) (bufs : List ABuf) (s : MState) (h : MHanded s) : MHanded (bufs.foldl (bufStep n) s) := by
  induction bufs generalizing s with
  | nil => exact h
  | cons b bufs ih => exact ih _ (h.step n b)

theorem allocBufs_store (n : Int) (bufs : List ABuf) (s : MState) :
    (bufs.foldl (bufStep n) s).store.map Prod.fst = s.store.map Prod.fst ++ bufs.filter fun b => b.bytes ≠ 0 && b.mine := by
  induction bufs generalizing s with
  | nil => simp
  | cons b bufs ih =>
    rw [List.foldl_cons, ih]
    unfold bufStep
    dsimp only
    split_ifs with h1 h2 <;> simp [h1] <;> simp_all

/-- The offsets sent to the other ranks are those of the send buffers: the last one for each var and rank. -/
theorem allocBufs_sbOfs (n : Int) (bufs : List ABuf) (s : MState) (b : ABuf) (r : Nat) (hb : b ∈ bufs) (hs : b.send = true)
    (hr : b.shm = some r) (h0 : b.bytes ≠ 0)
    (hu : ∀ b' ∈ bufs, b'.send = true → b'.shm = some r → b'.var = b.var → b' = b) (hnd : bufs.Nodup) :
    ∃ p, (b, p) ∈ (bufs.foldl (bufStep n) s).store ∧ p.chunk = (shmemKey, 0) ∧
      p.ofs = (bufs.foldl (bufStep n) s).sbOfs b.var r := by
  induction bufs generalizing s with
  | nil => cases hb
  | cons x l ih =>
    rw [List.foldl_cons]
    rw [List.nodup_cons] at hnd
    rcases List.mem_cons.1 hb with rfl | hb
    · -- later buffers change neither the storage nor the table entry
      have key : ∀ (l : List ABuf) (s : MState), (∀ b' ∈ l, b'.send = true → b'.shm = some r → b'.var ≠ b.var) →
          (l.foldl (bufStep n) s).sbOfs b.var r = s.sbOfs b.var r ∧
          ∀ y ∈ s.store, y ∈ (l.foldl (bufStep n) s).store := by
        intro l
        induction l with
        | nil => intro s _; exact ⟨rfl, fun _ h => h⟩
        | cons y l ihl =>
          intro s hy
          rw [List.foldl_cons]
          obtain ⟨k1, k2⟩ := ihl (bufStep n s y) (fun b' hb' => hy b' (List.mem_cons_of_mem _ hb'))
          rw [k1]
          constructor
          · unfold bufStep
            dsimp only
            split_ifs with c1 c2
            · rfl
            · dsimp only
              rw [if_neg]
              rintro ⟨e1, e2, e3⟩
              exact hy y (List.mem_cons_self ..) e1 e2 e3.symm
            · rfl
          · intro z hz
            apply k2
            unfold bufStep
            dsimp only
            split_ifs
            · exact hz
            · exact List.mem_append_left _ hz
            · exact hz
      have hl : ∀ b' ∈ l, b'.send = true → b'.shm = some r → b'.var ≠ b.var := by
        intro b' hb' h1 h2 h3
        have := hu b' (List.mem_cons_of_mem _ hb') h1 h2 h3
        exact hnd.1 (this ▸ hb')
      obtain ⟨k1, k2⟩ := key l (bufStep n s b) hl
      have hm : b.mine = true := by simp [ABuf.mine, hs]
      have hkey : b.key n = (shmemKey, 0) := by simp [ABuf.key, hr]
      refine ⟨⟨b.key n, s.reqs (b.key n)⟩, k2 _ ?_, hkey, ?_⟩
      · simp [bufStep, h0, hm]
      · rw [k1]
        simp [bufStep, h0, hm, hs, hr]
    · exact ih _ hb (fun b' hb' => hu b' (List.mem_cons_of_mem _ hb')) hnd.2

end Yask.Setup
