import Verif.Sched.SchedModel
import Verif.Sched.ChainLemmas

/-! Helper lemmas: blocks and micro-blocks in one dimension. -/

namespace Yask
open Spec
namespace RunCfg

variable (c : RunCfg) (j : Nat)

/-! ### Blocks with temporal blocking -/

theorem blockShape_eq {B E n : Int} {cut : Int → Int} (h : Chain B E n cut) {K : Int} (hK0 : 0 ≤ K)
    (hKn : K < n) (idxs : Ivl) (s : Int) (bridge : Bool) :
    c.blockShape j (B, E) (cut K, cut (K + 1)) idxs s true bridge =
      (let start := if K = 0 then idxs.1 else cut K + c.tbAngle j * s
       let stop := if n = 1 then idxs.2 else min (cut K + c.tbWidth j) (cut (K + 1)) - c.tbAngle j * s
       let next := if K = n - 1 then idxs.2 else cut (K + 1) + c.tbAngle j * s
       if bridge then (max stop start, next) else (start, stop)) := by
  have h1 := h.first_iff hK0 hKn
  have h2 := h.last_iff hK0 hKn
  have d1 : decide (cut K ≤ B) = decide (K = 0) := decide_eq_decide.2 h1
  have d2 : decide (cut (K + 1) ≥ E) = decide (K = n - 1) := decide_eq_decide.2 h2
  unfold blockShape
  simp only [d1, d2]
  by_cases hn : n = 1
  · have e1 : K = 0 := by omega
    have e2 : K = n - 1 := by omega
    subst e1
    simp [hn]
  · by_cases e1 : K = 0
    · have e2 : ¬ (0 = n - 1) := by omega
      subst e1
      simp [hn, e2]
    · by_cases e2 : K = n - 1
      · simp only [decide_eq_true_eq, decide_eq_false_iff_not, e1, e2, hn]
        simp
        have : ¬ (n - 1 = 0) := by omega
        simp [this]
      · simp [e1, e2, hn]

/-- A point of the trimmed mega-block is in one shape of one block. -/
theorem blockShape_exists {B E n : Int} {cut : Int → Int} (h : Chain B E n cut) (idxs : Ivl) (s x : Int)
    (hx : InIvl x idxs) :
    ∃ K bridge, 0 ≤ K ∧ K < n ∧
      InIvl x (c.blockShape j (B, E) (cut K, cut (K + 1)) idxs s true bridge) := by
  have hBE : B < E := by
    have := h.lt (le_refl 0) h.pos (le_refl n)
    rwa [h.zero, h.last] at this
  obtain ⟨K, k1, k2, k3, k4⟩ := h.exists_idx (x := max B (min (x - c.tbAngle j * s) (E - 1)))
    (by omega) (by omega)
  have kz : K ≠ 0 → B < cut K := fun hne => by
    have := h.lt (le_refl 0) (by omega : 0 < K) (by omega)
    rwa [h.zero] at this
  have kl : K ≠ n - 1 → cut (K + 1) < E := fun hne => by
    have := h.lt (by omega : 0 ≤ K + 1) (by omega : K + 1 < n) (le_refl n)
    rwa [h.last] at this
  have hstart : (if K = 0 then idxs.1 else cut K + c.tbAngle j * s) ≤ x := by
    split
    · exact hx.1
    · next hne => have := kz hne; omega
  have hnext : x < (if K = n - 1 then idxs.2 else cut (K + 1) + c.tbAngle j * s) := by
    split
    · exact hx.2
    · next hne => have := kl hne; omega
  by_cases hst : x < (if n = 1 then idxs.2 else
      min (cut K + c.tbWidth j) (cut (K + 1)) - c.tbAngle j * s)
  · refine ⟨K, false, k1, k2, ?_⟩
    rw [blockShape_eq c j h k1 k2]
    exact ⟨hstart, hst⟩
  · refine ⟨K, true, k1, k2, ?_⟩
    rw [blockShape_eq c j h k1 k2]
    simp only [if_true]
    exact ⟨max_le (by omega) hstart, hnext⟩

/-- … and in only one. -/
theorem blockShape_unique {B E n : Int} {cut : Int → Int} (h : Chain B E n cut) (idxs : Ivl) (s x : Int)
    (has : 0 ≤ c.tbAngle j * s)
    {K K' : Int} {b b' : Bool} (k0 : 0 ≤ K) (kn : K < n) (k0' : 0 ≤ K') (kn' : K' < n)
    (h1 : InIvl x (c.blockShape j (B, E) (cut K, cut (K + 1)) idxs s true b))
    (h2 : InIvl x (c.blockShape j (B, E) (cut K', cut (K' + 1)) idxs s true b')) :
    K = K' ∧ b = b' := by
  rw [blockShape_eq c j h k0 kn] at h1
  rw [blockShape_eq c j h k0' kn'] at h2
  have key : ∀ (K K' : Int) (b b' : Bool), 0 ≤ K → K' < n → K < K' →
      InIvl x (let start := if K = 0 then idxs.1 else cut K + c.tbAngle j * s
       let stop := if n = 1 then idxs.2 else min (cut K + c.tbWidth j) (cut (K + 1)) - c.tbAngle j * s
       let next := if K = n - 1 then idxs.2 else cut (K + 1) + c.tbAngle j * s
       if b then (max stop start, next) else (start, stop)) →
      InIvl x (let start := if K' = 0 then idxs.1 else cut K' + c.tbAngle j * s
       let stop := if n = 1 then idxs.2 else min (cut K' + c.tbWidth j) (cut (K' + 1)) - c.tbAngle j * s
       let next := if K' = n - 1 then idxs.2 else cut (K' + 1) + c.tbAngle j * s
       if b' then (max stop start, next) else (start, stop)) → False := by
    intro K K' b b' h0 hn hlt g1 g2
    have hle := h.le (by omega : 0 ≤ K + 1) (by omega : K + 1 ≤ K') (by omega)
    rw [if_neg (by omega : ¬ n = 1), if_neg (by omega : ¬ K = n - 1)] at g1
    rw [if_neg (by omega : ¬ n = 1), if_neg (by omega : ¬ K' = 0)] at g2
    have u1 : x < cut (K + 1) + c.tbAngle j * s := by
      cases b
      · have := g1.2; simp only [Bool.false_eq_true, if_false] at this; omega
      · exact g1.2
    have u2 : cut K' + c.tbAngle j * s ≤ x := by
      cases b'
      · exact g2.1
      · have := g2.1; simp only [if_true] at this; omega
    omega
  rcases lt_trichotomy K K' with hlt | heq | hgt
  · exact (key K K' b b' k0 kn' hlt h1 h2).elim
  · subst heq
    refine ⟨rfl, ?_⟩
    cases b <;> cases b'
    · rfl
    · have a1 := h1.2; have a2 := h2.1
      simp only [Bool.false_eq_true, if_false, if_true] at a1 a2; omega
    · have a1 := h1.1; have a2 := h2.2
      simp only [Bool.false_eq_true, if_false, if_true] at a1 a2; omega
    · rfl
  · exact (key K' K b' b k0' kn hgt h2 h1).elim

/-- Conditions under which the block shapes of one dimension respect dependencies of distance `hal` over
the shifts `0, …, S`: all blocks but the first and last are long enough, and so is the last one unless the
end of the mega-block moves left at least as fast as the block sides. -/
structure TbOk (hal S : Int) (E n : Int) (cut : Int → Int) (w : Int) : Prop where
  angle : n ≠ 1 → hal ≤ c.tbAngle j
  nonneg : 0 ≤ c.tbAngle j
  width : n ≠ 1 → 2 * (c.tbAngle j * S) ≤ c.tbWidth j
  full : ∀ K, 0 < K → K + 1 < n → 2 * (c.tbAngle j * S) ≤ cut (K + 1) - cut K
  last : n ≠ 1 → 2 * (c.tbAngle j * S) ≤ E - cut (n - 1) ∨ c.tbAngle j ≤ w

/-- Dependencies between blocks: an evaluation at an earlier shift that is near one at a later shift is
either in an earlier phase in this dimension, or in the same block and shape. -/
theorem blockShape_order {B E n : Int} {cut : Int → Int} (h : Chain B E n cut) {hal S w : Int}
    (ok : c.TbOk j hal S E n cut w) (idxs1 idxs2 : Ivl) {s1 s2 x1 x2 : Int}
    (hs1 : 0 ≤ s1) (hs : s1 < s2) (hS : s2 ≤ S)
    (hi1 : InIvl x1 idxs1) (he1 : idxs1.2 ≤ E - w * s1)
    (hnear : x1 - x2 ≤ hal ∧ x2 - x1 ≤ hal)
    {K1 K2 : Int} {b1 b2 : Bool} (k0 : 0 ≤ K1) (kn : K1 < n) (k0' : 0 ≤ K2) (kn' : K2 < n)
    (h1 : InIvl x1 (c.blockShape j (B, E) (cut K1, cut (K1 + 1)) idxs1 s1 true b1))
    (h2 : InIvl x2 (c.blockShape j (B, E) (cut K2, cut (K2 + 1)) idxs2 s2 true b2)) :
    (b1 = true → b2 = true) ∧ (b1 = b2 → K1 = K2) := by
  have ha := ok.nonneg
  have p1 : 0 ≤ c.tbAngle j * s1 := mul_nonneg ha hs1
  have p2 : c.tbAngle j * s1 + c.tbAngle j ≤ c.tbAngle j * s2 := by nlinarith
  have p3 : c.tbAngle j * s2 ≤ c.tbAngle j * S := mul_le_mul_of_nonneg_left hS ha
  -- If the later point is in an unbridged shape, so is the earlier one, in the same block.
  have hfalse : b2 = false → b1 = false ∧ K1 = K2 := by
    rintro rfl
    have hx : InIvl x1 (c.blockShape j (B, E) (cut K2, cut (K2 + 1)) idxs1 s1 true false) := by
      rw [blockShape_eq c j h k0' kn'] at h2 ⊢
      simp only [Bool.false_eq_true, if_false] at h2 ⊢
      by_cases hn : n = 1
      · have : K2 = 0 := by omega
        simp only [this, hn, if_true]
        exact hi1
      · have hang := ok.angle hn
        simp only [hn, if_false] at h2 ⊢
        obtain ⟨h2a, h2b⟩ := h2
        refine ⟨?_, by omega⟩
        by_cases hz : K2 = 0
        · simp only [hz, if_true]; exact hi1.1
        · simp only [hz, if_false] at h2a ⊢; omega
    have := blockShape_unique c j h idxs1 s1 x1 p1 k0 kn k0' kn' h1 hx
    exact ⟨this.2, this.1⟩
  refine ⟨fun hb1 => ?_, fun hb => ?_⟩
  · by_contra hb2
    have := (hfalse (by simpa using hb2)).1
    rw [hb1] at this; exact Bool.noConfusion this
  · cases b2 with
    | false => exact (hfalse rfl).2
    | true =>
      subst hb
      by_cases hn : n = 1
      · omega
      have hang := ok.angle hn
      have hw := ok.width hn
      rw [blockShape_eq c j h k0 kn] at h1
      rw [blockShape_eq c j h k0' kn'] at h2
      simp only [if_true, hn, if_false] at h1 h2
      obtain ⟨h1a, h1b⟩ := h1
      obtain ⟨h2a, h2b⟩ := h2
      rcases lt_trichotomy K1 K2 with hlt | heq | hgt
      · exfalso
        have hle := h.le (by omega : 0 ≤ K1 + 1) (by omega : K1 + 1 ≤ K2) (by omega)
        simp only [show ¬ K1 = n - 1 by omega, if_false] at h1b
        simp only [show ¬ K2 = 0 by omega, if_false] at h2a
        omega
      · exact heq
      · exfalso
        have hle := h.le (by omega : 0 ≤ K2 + 1) (by omega : K2 + 1 ≤ K1) (by omega)
        simp only [show ¬ K2 = n - 1 by omega, if_false] at h2b
        simp only [show ¬ K1 = 0 by omega, if_false] at h1a
        by_cases hl : K1 = n - 1
        · rcases ok.last hn with hl2 | hl2
          · rw [← hl] at hl2
            have : cut (K1 + 1) = E := by rw [hl, show n - 1 + 1 = n by ring, h.last]
            omega
          · have : cut (K1 + 1) = E := by rw [hl, show n - 1 + 1 = n by ring, h.last]
            have q : c.tbAngle j * s1 ≤ w * s1 := mul_le_mul_of_nonneg_right hl2 hs1
            have := hi1.2
            omega
        · have := ok.full K1 (by omega) (by omega)
          omega

/-! ### Micro-blocks -/

theorem microTrim_eq {B E n : Int} {cut : Int → Int} (h : Chain B E n cut) {M : Int} (hM0 : 0 ≤ M)
    (hMn : M < n) (idxs shape : Ivl) (s x : Int) :
    InIvl x (c.microTrim j (B, E) (cut M, cut (M + 1)) idxs shape s) ↔
      InIvl x idxs ∧ InIvl x shape ∧ (M ≠ 0 → cut M - c.mbAngle j * s ≤ x) ∧
        (M ≠ n - 1 → x < cut (M + 1) - c.mbAngle j * s) := by
  have h1 := h.first_iff hM0 hMn
  have h2 := h.last_iff hM0 hMn
  have d1 : decide (cut M ≤ B) = decide (M = 0) := decide_eq_decide.2 h1
  have d2 : decide (cut (M + 1) ≥ E) = decide (M = n - 1) := decide_eq_decide.2 h2
  unfold microTrim
  simp only [d1, d2]
  by_cases e1 : M = 0 <;> by_cases e2 : M = n - 1 <;> simp [e1, e2] <;> omega

theorem microTrim_exists {B E n : Int} {cut : Int → Int} (h : Chain B E n cut) (idxs shape : Ivl)
    (s x : Int) (hx : InIvl x idxs) (hsh : InIvl x shape) :
    ∃ M, 0 ≤ M ∧ M < n ∧ InIvl x (c.microTrim j (B, E) (cut M, cut (M + 1)) idxs shape s) := by
  have hBE : B < E := by
    have := h.lt (le_refl 0) h.pos (le_refl n)
    rwa [h.zero, h.last] at this
  obtain ⟨K, k1, k2, k3, k4⟩ := h.exists_idx (x := max B (min (x + c.mbAngle j * s) (E - 1)))
    (by omega) (by omega)
  refine ⟨K, k1, k2, (microTrim_eq c j h k1 k2 idxs shape s x).2 ⟨hx, hsh, ?_, ?_⟩⟩
  · intro hne
    have := h.lt (le_refl 0) (by omega : 0 < K) (by omega)
    rw [h.zero] at this
    omega
  · intro hne
    have := h.lt (by omega : 0 ≤ K + 1) (by omega : K + 1 < n) (le_refl n)
    rw [h.last] at this
    omega

theorem microTrim_order {B E n : Int} {cut : Int → Int} (h : Chain B E n cut) {hal : Int}
    (hmb : n = 1 ∨ hal ≤ c.mbAngle j) (h0 : 0 ≤ c.mbAngle j)
    (idxs1 idxs2 shape1 shape2 : Ivl) {s1 s2 x1 x2 : Int} (hs : s1 < s2)
    (hnear : x1 - x2 ≤ hal)
    {M1 M2 : Int} (k0 : 0 ≤ M1) (kn : M1 < n) (k0' : 0 ≤ M2) (kn' : M2 < n)
    (h1 : InIvl x1 (c.microTrim j (B, E) (cut M1, cut (M1 + 1)) idxs1 shape1 s1))
    (h2 : InIvl x2 (c.microTrim j (B, E) (cut M2, cut (M2 + 1)) idxs2 shape2 s2)) : M1 ≤ M2 := by
  by_contra hc
  rw [microTrim_eq c j h k0 kn] at h1
  rw [microTrim_eq c j h k0' kn'] at h2
  have u1 := h1.2.2.1 (by omega)
  have u2 := h2.2.2.2 (by omega)
  have hle := h.le (by omega : 0 ≤ M2 + 1) (by omega : M2 + 1 ≤ M1) (by omega)
  rcases hmb with rfl | hmb
  · omega
  · have : c.mbAngle j * s1 + c.mbAngle j ≤ c.mbAngle j * s2 := by nlinarith
    omega

theorem microTrim_unique {B E n : Int} {cut : Int → Int} (h : Chain B E n cut)
    (idxs shape : Ivl) {s x : Int}
    {M1 M2 : Int} (k0 : 0 ≤ M1) (kn : M1 < n) (k0' : 0 ≤ M2) (kn' : M2 < n)
    (h1 : InIvl x (c.microTrim j (B, E) (cut M1, cut (M1 + 1)) idxs shape s))
    (h2 : InIvl x (c.microTrim j (B, E) (cut M2, cut (M2 + 1)) idxs shape s)) : M1 = M2 := by
  rw [microTrim_eq c j h k0 kn] at h1
  rw [microTrim_eq c j h k0' kn'] at h2
  have key : ∀ a b, 0 ≤ a → b < n → a < b → (a ≠ n - 1 → x < cut (a + 1) - c.mbAngle j * s) →
      (b ≠ 0 → cut b - c.mbAngle j * s ≤ x) → False := by
    intro a b h0 hn hlt g1 g2
    have := g1 (by omega); have := g2 (by omega)
    have := h.le (by omega : 0 ≤ a + 1) (by omega : a + 1 ≤ b) (by omega)
    omega
  rcases lt_trichotomy M1 M2 with hlt | heq | hgt
  · exact (key _ _ k0 kn' hlt h1.2.2.2 h2.2.2.1).elim
  · exact heq
  · exact (key _ _ k0' kn hgt h2.2.2.2 h1.2.2.1).elim

/-! ### Blocks without temporal blocking -/

theorem blockShape_single {B E n : Int} {cut : Int → Int} (h : Chain B E n cut) {K : Int} (hK0 : 0 ≤ K)
    (hKn : K < n) :
    c.blockShape j (B, E) (cut K, cut (K + 1)) (B, E) 0 false false = (cut K, cut (K + 1)) := by
  have h1 := h.first_iff hK0 hKn
  have h2 := h.last_iff hK0 hKn
  have d1 : decide (cut K ≤ B) = decide (K = 0) := decide_eq_decide.2 h1
  have d2 : decide (cut (K + 1) ≥ E) = decide (K = n - 1) := decide_eq_decide.2 h2
  unfold blockShape
  simp only [d1, d2]
  have z : K = 0 → cut K = B := by rintro rfl; exact h.zero
  have l : K = n - 1 → cut (K + 1) = E := by
    rintro rfl; rw [show n - 1 + 1 = n by ring, h.last]
  by_cases e1 : K = 0
  · by_cases e2 : K = n - 1
    · rw [z e1, l e2]; simp [e1, ← e2]
    · rw [z e1]; subst e1; simp [e2]
  · by_cases e2 : K = n - 1
    · rw [l e2]; simp [e1, ← e2]
    · simp [e1, e2]

end RunCfg
end Yask
