import Verif.Sched.SeqTrace
import Verif.Mpi.NetLemmas

/-! Helper lemmas: the passes of `run_solution`, halo exchanges between them, and the whole run on several ranks. -/

namespace Yask
open Spec Mpi RunCfg

/-! ### Traces of a pass -/

theorem doSeq_append {α : Type*} (A B : List (Traces α)) (t : List α) :
    doSeq (A ++ B) t ↔ ∃ u v, doSeq A u ∧ doSeq B v ∧ t = u ++ v := by
  induction A generalizing t with
  | nil =>
    constructor
    · intro h; exact ⟨[], t, rfl, h, rfl⟩
    · rintro ⟨u, v, h1, h2, rfl⟩
      have h1 : u = [] := h1
      subst h1; exact h2
  | cons L A ih =>
    constructor
    · rintro ⟨u, v, h1, h2, rfl⟩
      obtain ⟨u', v', h3, h4, rfl⟩ := (ih v).1 h2
      exact ⟨u ++ u', v', ⟨u, u', h1, h3, rfl⟩, h4, by simp⟩
    · rintro ⟨_, v, ⟨u, u', h1, h2, rfl⟩, h3, rfl⟩
      exact ⟨u, u' ++ v, h1, (ih _).2 ⟨u', v, h2, h3, rfl⟩, by simp⟩

theorem mem_doSeq {ι α : Type*} (xs : List ι) (f : ι → Traces α) (t : List α) (h : doSeq (xs.map f) t) {a : α} (ha : a ∈ t) :
    ∃ x ∈ xs, ∃ t', f x t' ∧ a ∈ t' := by
  induction xs generalizing t with
  | nil =>
    have : t = [] := h
    subst this; simp at ha
  | cons x xs ih =>
    obtain ⟨u, v, h1, h2, rfl⟩ := h
    rcases List.mem_append.1 ha with ha | ha
    · exact ⟨x, by simp, u, h1, ha⟩
    · obtain ⟨y, hy, t', h3, h4⟩ := ih v h2 ha
      exact ⟨y, by simp [hy], t', h3, h4⟩

variable {c : RunCfg} {dir : Int}

theorem sections_split (c : RunCfg) :
    c.sections = (c.sections.filter fun s => decide (s ≠ .interior)) ++ (c.sections.filter fun s => decide (s = .interior)) := by
  unfold sections
  cases c.overlap
  · simp
  · simp only [if_true, List.filter_append]
    have h1 : ∀ (L : List Sect), (∀ s ∈ L, s ≠ .interior) →
        L.filter (fun s => decide (s ≠ .interior)) = L ∧ L.filter (fun s => decide (s = .interior)) = [] := by
      intro L hL
      constructor
      · rw [List.filter_eq_self]; intro s hs; simpa using hL s hs
      · rw [List.filter_eq_nil_iff]; intro s hs; simpa using hL s hs
    have := h1 ((List.range c.nd).flatMap fun (j : Nat) =>
      [true, false].filterMap fun left => if c.exteriorExists j left then some (Sect.ext j left) else none) (by
        intro s hs
        simp only [List.mem_flatMap, List.mem_filterMap] at hs
        obtain ⟨j, _, l, _, h⟩ := hs
        split at h
        · simp only [Option.some.injEq] at h; rw [← h]; simp
        · cases h)
    rw [this.1, this.2]
    simp

theorem pass_doSeq {p : Pass} {u v : List Task} (hu : packedPass c dir p u) (hv : laterPass c dir p v) :
    doSeq (c.sections.map (sectPass c dir p)) (u ++ v) := by
  rw [sections_split c, List.map_append, doSeq_append]
  exact ⟨u, v, hu, hv, rfl⟩

/-- What the mega-blocks of one section evaluate. -/
theorem good_mega (h : c.Ok) (hrem : c.tbSteps = 0 ∨ c.NoShortRemainder) (hdir : dir = 1 ∨ dir = -1) (p : Pass)
    (hp : (c.wfSteps = 0 ∧ ∃ st, p.stages = [st]) ∨ (0 < c.wfSteps ∧ p.stages = List.range c.nst ∧ (p.nt : Int) ≤ c.wfSteps))
    (sect : Sect) (m : List Int) (hm : IsIdx c.nd c.rankD m) :
    Good (c.okOrd dir true) (c.calcMega dir p.stages sect (pieceBox c.nd c.rankD m) p.t0 p.nt)
      (c.InBase dir p.stages p.t0 p.nt sect m) := by
  rcases hp with ⟨hw, st, hst⟩ | ⟨hw, hst, hnt⟩
  · have htb : c.tbSteps = 0 := by
      have h1 := h.mega_steps
      have h2 := h.block_steps
      have : c.blockSteps = 0 := by unfold wfSteps at hw; omega
      unfold tbSteps; rw [if_neg (by omega), this]
    rw [hst]
    exact good_calcMega_noTb h hdir htb [st] (List.pairwise_singleton _ _) sect _ _ _
  · rw [hst]
    by_cases htb : c.tbSteps = 0
    · exact good_calcMega_noTb h hdir htb (List.range c.nst) List.pairwise_lt_range sect _ _ _
    · refine (good_calcMega_tb h (fun _ => hrem.resolve_left htb) hdir htb sect hm
        (isPiece_bodyBox (rankD_ok h) hm) _ _ hnt).congr ?_
      intro a
      unfold InBase
      rw [List.length_range]

/-- The pairs of a pass. -/
structure PassAt (c : RunCfg) (first dir : Int) (p : Pass) (m0 cnt : Nat) : Prop where
  form : (c.wfSteps = 0 ∧ ∃ st, p.stages = [st]) ∨ (0 < c.wfSteps ∧ p.stages = List.range c.nst ∧ (p.nt : Int) ≤ c.wfSteps)
  one : c.wfSteps = 0 → p.nt ≤ 1
  cnt : cnt = p.nt * p.stages.length
  pair : ∀ i < p.nt, ∀ q < p.stages.length, p.t0 + dir * i = first + dir * ((m0 + (i * p.stages.length + q)) / c.nst : Nat) ∧
    p.stages.getD q 0 = (m0 + (i * p.stages.length + q)) % c.nst

theorem PassAt.bound (h : c.Ok) {first : Int} {p : Pass} {m0 cnt : Nat} (hp : PassAt c first dir p m0 cnt) :
    ∀ s < cnt, (s : Int) ≤ c.numWfShifts := by
  intro s hs
  rw [hp.cnt] at hs
  have hw := wfSteps_nonneg h
  rcases hp.form with ⟨h1, st, h2⟩ | ⟨h1, h2, h3⟩
  · have := hp.one h1
    rw [h2] at hs
    simp only [List.length_singleton, Nat.mul_one] at hs
    have : s = 0 := by omega
    subst this
    unfold numWfShifts; rw [if_neg (by omega)]; simp
  · rw [h2, List.length_range] at hs
    have hn : (0 : Int) < c.nst := by
      rcases Nat.eq_zero_or_pos c.nst with e | e
      · rw [e] at hs; simp at hs
      · exact_mod_cast e
    unfold numWfShifts
    rw [if_pos h1, if_pos (mul_pos hn h1)]
    have e : (c.nst : Int) * p.nt ≤ (c.nst : Int) * c.wfSteps := mul_le_mul_of_nonneg_left h3 hn.le
    have : (s : Int) < (p.nt * c.nst : Nat) := by exact_mod_cast hs
    push_cast at this
    have e2 : (c.nst : Int) * p.nt = p.nt * c.nst := mul_comm _ _
    omega

theorem PassAt.isPass (h : c.Ok) (hrem : c.tbSteps = 0 ∨ c.NoShortRemainder) (hdir : dir = 1 ∨ dir = -1) {first : Int} {p : Pass}
    {m0 cnt : Nat} (hp : PassAt c first dir p m0 cnt) {u v : List Task} (hu : packedPass c dir p u) (hv : laterPass c dir p v) :
    IsPass c first dir m0 cnt (u ++ v) := by
  have hb := hp.bound h
  have hidx : ∀ i < p.nt, ∀ q < p.stages.length, i * p.stages.length + q < cnt := by
    intro i hi q hq
    rw [hp.cnt]
    have : (i + 1) * p.stages.length ≤ p.nt * p.stages.length := Nat.mul_le_mul_right _ hi
    have e : (i + 1) * p.stages.length = i * p.stages.length + p.stages.length := by ring
    omega
  have hg := good_pass (en := true) h hdir p.stages p.t0 p.nt (fun i hi q hq => hb _ (hidx i hi q hq))
    (by
      rcases hp.form with ⟨h1, st, h2⟩ | ⟨h1, _⟩
      · exact Or.inr ⟨hp.one h1, by rw [h2]; simp⟩
      · exact Or.inl h1)
    (by
      rcases hp.form with ⟨h1, st, h2⟩ | ⟨_, h1, _⟩
      · exact Or.inr (by rw [h2]; simp)
      · exact Or.inl h1)
    (fun sect m hm => good_mega h hrem hdir p hp.form sect m hm)
  obtain ⟨g1, g2, g3⟩ := hg (u ++ v) (pass_doSeq hu hv)
  refine ⟨g1, fun a => (g2 a).trans ?_, g3.imp fun hab => hab rfl⟩
  constructor
  · rintro ⟨i, hi, q, hq, a1, a2, a3, a4⟩
    obtain ⟨e1, e2⟩ := hp.pair i hi q hq
    exact ⟨_, hidx i hi q hq, a1.trans e1, a2.trans e2, a3, a4⟩
  · rintro ⟨s, hs, a1, a2, a3, a4⟩
    rw [hp.cnt] at hs
    have hl : 0 < p.stages.length := by
      rcases Nat.eq_zero_or_pos p.stages.length with e | e
      · rw [e] at hs; simp at hs
      · exact e
    have hi : s / p.stages.length < p.nt := by rw [Nat.div_lt_iff_lt_mul hl]; exact hs
    have hq := Nat.mod_lt s hl
    have hd : s / p.stages.length * p.stages.length + s % p.stages.length = s := by
      rw [Nat.mul_comm]; exact Nat.div_add_mod s _
    obtain ⟨e1, e2⟩ := hp.pair _ hi _ hq
    rw [hd] at e1 e2
    exact ⟨_, hi, _, hq, a1.trans e1.symm, a2.trans e2.symm, a3, by rw [hd]; exact a4⟩

/-- What is computed after packing lies in the MPI interior. -/
theorem PassAt.later (h : c.Ok) (hrem : c.tbSteps = 0 ∨ c.NoShortRemainder) (hdir : dir = 1 ∨ dir = -1) {first : Int} {p : Pass}
    {m0 cnt : Nat} (hp : PassAt c first dir p m0 cnt) {v : List Task} (hv : laterPass c dir p v) {a : Task} (ha : a ∈ v) :
    c.overlap = true ∧ ∀ j < c.nd, (c.dim j).intBeg ≤ at_ a.pt j ∧ at_ a.pt j < (c.dim j).intEnd := by
  obtain ⟨sect, hsect, t', ht', ha⟩ := mem_doSeq _ _ _ hv ha
  rw [List.mem_filter] at hsect
  obtain ⟨hs1, hs2⟩ := hsect
  have hs2 : sect = .interior := by simpa using hs2
  subst hs2
  refine ⟨?_, ?_⟩
  · by_contra hc
    unfold sections at hs1
    simp [hc] at hs1
  · unfold sectPass at ht'
    rw [rankLoop_eq, scan_eq, List.map_map] at ht'
    obtain ⟨m, hm, t, ht, ha⟩ := mem_doSeq _ _ _ ht' ha
    rw [mem_scanIdx] at hm
    have hgm := (good_mega h hrem hdir p hp.form .interior m hm t ht).2.1 a
    obtain ⟨i, hi, q, hq, hin⟩ := hgm.1 ha
    have hb : ((i * p.stages.length + q : Nat) : Int) ≤ c.numWfShifts := by
      apply hp.bound h
      rw [hp.cnt]
      have : (i + 1) * p.stages.length ≤ p.nt * p.stages.length := Nat.mul_le_mul_right _ hi
      have e : (i + 1) * p.stages.length = i * p.stages.length + p.stages.length := by ring
      omega
    have hsx := ((inMega_iff h hm (by positivity) hb _ .interior hin.2.2.1 hin.2.1).1 hin.2.2.2.2).2.2
    intro j hj
    have hj1 := hsx j hj
    have ha := wfAngle_nonneg h hj
    have hle : c.wfAngle j * ((i * p.stages.length + q : Nat) : Int) ≤ c.wfShiftPts j := mul_le_mul_of_nonneg_left hb ha
    unfold InSect intRange at hj1
    simp only [InIvl] at hj1
    split_ifs at hj1 <;> simp only at hj1 <;> omega

theorem passes_at (h : c.Ok) (first last : Int) (k : Nat) (hk : k < (numSteps first last + (max c.wfSteps 1).toNat - 1) / (max c.wfSteps 1).toNat) :
    (c.wfSteps = 0 → ∀ stage < c.nst, PassAt c first (stepDir first last)
      ⟨[stage], first + stepDir first last * (k * (max c.wfSteps 1).toNat : Nat),
        min (max c.wfSteps 1).toNat (numSteps first last - k * (max c.wfSteps 1).toNat)⟩ (k * c.nst + stage) 1) ∧
    (c.wfSteps ≠ 0 → PassAt c first (stepDir first last)
      ⟨List.range c.nst, first + stepDir first last * (k * (max c.wfSteps 1).toNat : Nat),
        min (max c.wfSteps 1).toNat (numSteps first last - k * (max c.wfSteps 1).toNat)⟩ (k * (max c.wfSteps 1).toNat * c.nst)
        (min (max c.wfSteps 1).toNat (numSteps first last - k * (max c.wfSteps 1).toNat) * c.nst)) := by
  have hw := wfSteps_nonneg h
  have hstp : 0 < (max c.wfSteps 1).toNat := by omega
  constructor
  · intro h0 stage hst
    have e1 : (max c.wfSteps 1).toNat = 1 := by omega
    rw [e1] at hk ⊢
    have hk' : k < numSteps first last := by
      simp only [Nat.add_sub_cancel, Nat.div_one] at hk; exact hk
    refine ⟨Or.inl ⟨h0, stage, rfl⟩, fun _ => by simp only; omega, ?_, ?_⟩
    · simp only [List.length_singleton]; omega
    · intro i hi q hq
      simp only [List.length_singleton] at hi hq ⊢
      obtain rfl : i = 0 := by omega
      obtain rfl : q = 0 := by omega
      simp only [Nat.zero_mul, Nat.add_zero, List.getD_cons_zero, Nat.mul_one]
      rw [Nat.mul_comm k, Nat.mul_add_div (by omega), Nat.div_eq_of_lt hst, Nat.mul_add_mod, Nat.mod_eq_of_lt hst]
      simp
  · intro h0
    refine ⟨Or.inr ⟨by omega, rfl, by simp only; omega⟩, fun h => absurd h h0, by simp, ?_⟩
    intro i hi q hq
    simp only [List.length_range] at hi hq ⊢
    have hn : 0 < c.nst := by omega
    have e : k * (max c.wfSteps 1).toNat * c.nst + (i * c.nst + q) = c.nst * (k * (max c.wfSteps 1).toNat + i) + q := by ring
    rw [e, Nat.mul_add_div hn, Nat.div_eq_of_lt hq, Nat.mul_add_mod, Nat.mod_eq_of_lt hq, range_getD hq]
    refine ⟨?_, rfl⟩
    push_cast; ring

/-- The passes of a list follow each other without gaps. -/
def PassChain (c : RunCfg) (first dir : Int) : List Pass → Nat → Nat → Prop
  | [], m, m' => m = m'
  | p :: ps, m, m' => ∃ cnt, PassAt c first dir p m cnt ∧ PassChain c first dir ps (m + cnt) m'

theorem PassChain.append {first : Int} {ps qs : List Pass} {m m' m'' : Nat} (h1 : PassChain c first dir ps m m')
    (h2 : PassChain c first dir qs m' m'') : PassChain c first dir (ps ++ qs) m m'' := by
  induction ps generalizing m with
  | nil => have h1 : m = m' := h1; subst h1; exact h2
  | cons p ps ih =>
    obtain ⟨cnt, h3, h4⟩ := h1
    exact ⟨cnt, h3, ih h4⟩

theorem PassChain.flatMap {first : Int} (K : Nat) (f : Nat → List Pass) (M : Nat → Nat)
    (h : ∀ k < K, PassChain c first dir (f k) (M k) (M (k + 1))) : PassChain c first dir ((List.range K).flatMap f) (M 0) (M K) := by
  induction K with
  | zero => rfl
  | succ K ih =>
    rw [List.range_succ, List.flatMap_append]
    refine (ih fun k hk => h k (by omega)).append ?_
    simp only [List.flatMap_cons, List.flatMap_nil, List.append_nil]
    exact h K (by omega)

theorem passes_chain (h : c.Ok) (first last : Int) :
    PassChain c first (stepDir first last) (passes c first last) 0 (numSteps first last * c.nst) := by
  have hw := wfSteps_nonneg h
  have hat := passes_at h first last
  unfold passes
  simp only
  have hstp : 0 < (max c.wfSteps 1).toNat := by omega
  generalize hst : (max c.wfSteps 1).toNat = st at *
  generalize numSteps first last = n at *
  have hK : ∀ k, k < (n + st - 1) / st ↔ k * st < n := by
    intro k
    rw [Nat.lt_iff_add_one_le, Nat.le_div_iff_mul_le hstp]
    have : (k + 1) * st = k * st + st := by ring
    omega
  have hend : n ≤ (n + st - 1) / st * st := by
    by_contra hc
    have := (hK _).2 (by omega : (n + st - 1) / st * st < n)
    omega
  have := PassChain.flatMap (c := c) (dir := stepDir first last) (first := first) ((n + st - 1) / st)
    (fun (k : Nat) => if c.wfSteps = 0 then (List.range c.nst).map fun stage =>
        (⟨[stage], first + stepDir first last * (k * st : Nat), min st (n - k * st)⟩ : Pass)
      else [⟨List.range c.nst, first + stepDir first last * (k * st : Nat), min st (n - k * st)⟩])
    (fun k => min (k * st) n * c.nst) ?_
  · have e0 : min (0 * st) n * c.nst = 0 := by simp
    have e1 : min ((n + st - 1) / st * st) n * c.nst = n * c.nst := by rw [Nat.min_eq_right hend]
    rw [e0, e1] at this
    exact this
  · intro k hk
    have hk' := (hK k).1 hk
    have hkk : (k + 1) * st = k * st + st := by ring
    obtain ⟨h1, h2⟩ := hat k hk
    by_cases h0 : c.wfSteps = 0
    · rw [if_pos h0]
      have e1 : st = 1 := by omega
      have h1 := h1 h0
      subst e1
      have em : min (k * 1) n * c.nst = k * c.nst := by congr 1; omega
      have em' : min ((k + 1) * 1) n * c.nst = k * c.nst + c.nst := by
        have : min ((k + 1) * 1) n = k + 1 := by omega
        rw [this]; ring
      rw [em, em']
      have : ∀ q ≤ c.nst, PassChain c first (stepDir first last) ((List.range q).map fun stage =>
          (⟨[stage], first + stepDir first last * (k * 1 : Nat), min 1 (n - k * 1)⟩ : Pass)) (k * c.nst) (k * c.nst + q) := by
        intro q
        induction q with
        | zero => intro _; rfl
        | succ q ih =>
          intro hq
          rw [List.range_succ, List.map_append]
          exact (ih (by omega)).append ⟨1, h1 q (by omega), rfl⟩
      exact this c.nst (le_refl _)
    · rw [if_neg h0]
      have em : min (k * st) n * c.nst = k * st * c.nst := by congr 1; omega
      have em' : min ((k + 1) * st) n * c.nst = k * st * c.nst + min st (n - k * st) * c.nst := by
        have : min ((k + 1) * st) n = k * st + min st (n - k * st) := by omega
        rw [this]; ring
      rw [em, em']
      exact ⟨_, h2 h0, rfl⟩

theorem passes_congr {c c' : RunCfg} (h1 : c.wfSteps = c'.wfSteps) (h2 : c.nst = c'.nst) (first last : Int) :
    passes c first last = passes c' first last := by
  unfold passes; rw [h1, h2]

theorem PassAt.congr {c c' : RunCfg} (h1 : c.wfSteps = c'.wfSteps) (h2 : c.nst = c'.nst) {first : Int} {p : Pass} {m0 cnt : Nat}
    (h : PassAt c first dir p m0 cnt) : PassAt c' first dir p m0 cnt := by
  obtain ⟨a, b, d, e⟩ := h
  rw [h1, h2] at a
  rw [h1] at b
  rw [h2] at e
  exact ⟨a, b, d, e⟩

theorem PassChain.congr {c c' : RunCfg} (h1 : c.wfSteps = c'.wfSteps) (h2 : c.nst = c'.nst) {first : Int} {ps : List Pass} {m m' : Nat}
    (h : PassChain c first dir ps m m') : PassChain c' first dir ps m m' := by
  induction ps generalizing m with
  | nil => exact h
  | cons p ps ih =>
    obtain ⟨cnt, a, b⟩ := h
    exact ⟨cnt, a.congr h1 h2, ih b⟩

/-! ### Halo exchange -/

section
variable {G : RunCfg} {Val : Type*} {N : Net} {own : Nat → Nat → List Int → Prop} {S : Stencil G Slot Val}

theorem unpack_cases (N : Net) (src : NState Val) (r : Nat) (L : List Nat) (m : Slot × List Int → Val) (l : Slot × List Int) :
    (∃ nb ∈ L, (l.1.1 < N.nvars ∧ l.1.2 ∈ N.toSwap src r l.1.1 ∧ N.box r nb l.1.1 l.2 = true ∧ N.mineDirty src nb l.1.1 = true) ∧
      L.foldl (N.unpack src r) m l = src.copy nb l) ∨
    ((∀ nb ∈ L, ¬ (l.1.1 < N.nvars ∧ l.1.2 ∈ N.toSwap src r l.1.1 ∧ N.box r nb l.1.1 l.2 = true ∧ N.mineDirty src nb l.1.1 = true)) ∧
      L.foldl (N.unpack src r) m l = m l) := by
  induction L generalizing m with
  | nil => right; simp
  | cons nb L ih =>
    rw [List.foldl_cons]
    rcases ih (N.unpack src r m nb) with ⟨nb', h1, h2, h3⟩ | ⟨h1, h2⟩
    · exact Or.inl ⟨nb', List.mem_cons_of_mem _ h1, h2, h3⟩
    · by_cases hc : l.1.1 < N.nvars ∧ l.1.2 ∈ N.toSwap src r l.1.1 ∧ N.box r nb l.1.1 l.2 = true ∧ N.mineDirty src nb l.1.1 = true
      · refine Or.inl ⟨nb, List.mem_cons_self, hc, ?_⟩
        rw [h2]; unfold Net.unpack; rw [if_pos hc]
      · refine Or.inr ⟨fun nb' hnb => ?_, ?_⟩
        · rcases List.mem_cons.1 hnb with rfl | hnb
          · exact hc
          · exact h1 nb' hnb
        · rw [h2]; unfold Net.unpack; rw [if_neg hc]

/-- All flags of the vars that are exchanged are clear. -/
def Clean (N : Net) (s : NState Val) : Prop :=
  ∀ r < N.n, ∀ β : Slot, β.1 < N.nvars → β.2 < N.nslots β.1 → N.hasBuf r β.1 = true → s.self r β = false ∧ s.others r β = false

/-- A halo exchange: `src` and `cur` are the states when packing and unpacking, `oth` the slots exchanged. -/
theorem exchange_current (hl : Linked S N own) (src cur : NState Val) (oth : Slot → Bool) (g : Slot × List Int → Val)
    (hoth : ∀ r < N.n, ∀ β : Slot, β.1 < N.nvars → β.2 < N.nslots β.1 → N.hasBuf r β.1 = true → src.others r β = oth β)
    (hself : ∀ r < N.n, ∀ β : Slot, β.1 < N.nvars → β.2 < N.nslots β.1 → N.hasBuf r β.1 = true → src.self r β = true → oth β = true)
    (hcs : cur.self = src.self) (hco : cur.others = src.others)
    (hown : OwnCurrent N own cur g)
    (hpack : ∀ r < N.n, ∀ nb β x, Gets N r nb β x → src.copy nb (β, x) = g (β, x))
    (hclean : ∀ r < N.n, ∀ nb β x, Gets N r nb β x → (oth β = false ∨ src.self nb β = false) → cur.copy r (β, x) = g (β, x)) :
    ∃ s', N.exchangeFrom src cur = .ok s' ∧ OwnCurrent N own s' g ∧ AllHalosCurrent N s' g ∧ Clean N s' := by
  have hsw : ∀ r < N.n, ∀ v < N.nvars, N.toSwap src r v =
      if N.hasBuf r v then (List.range (N.nslots v)).filter fun t => oth (v, t) else [] := by
    intro r hr v hv
    unfold Net.toSwap
    split
    · rename_i hb
      apply List.filter_congr
      intro t ht
      exact hoth r hr (v, t) hv (List.mem_range.1 ht) hb
    · rfl
  have heq : ∀ r < N.n, ∀ nb ∈ N.nbrs r, N.swapList src r = N.swapList src nb := by
    intro r hr nb hnb
    unfold Net.swapList
    apply List.filterMap_congr
    intro v hv
    rw [List.mem_range] at hv
    rw [hsw r hr v hv, hsw nb (hl.nbr_lt r hr nb hnb) v hv, hl.bufs r hr nb hnb v hv]
  have hgets : ∀ r < N.n, ∀ nb ∈ N.nbrs r, ∀ l : Slot × List Int, l.1.1 < N.nvars → l.1.2 ∈ N.toSwap src r l.1.1 →
      N.box r nb l.1.1 l.2 = true → Gets N r nb l.1 l.2 := by
    intro r hr nb hnb l h1 h2 h3
    rw [hsw r hr _ h1] at h2
    split at h2
    · rw [List.mem_filter, List.mem_range] at h2
      exact ⟨hnb, h3, h1, h2.1⟩
    · simp at h2
  refine ⟨_, by unfold Net.exchangeFrom; rw [if_pos heq], ?_, ?_, ?_⟩
  · intro r hr β x ho
    simp only
    rcases unpack_cases N src r (N.nbrs r) (cur.copy r) (β, x) with ⟨nb, hnb, ⟨h1, h2, h3, _⟩, h⟩ | ⟨_, h⟩
    · rw [h]; exact hpack r hr nb β x (hgets r hr nb hnb (β, x) h1 h2 h3)
    · rw [h]; exact hown r hr β x ho
  · intro r hr nb β x hg
    simp only
    rcases unpack_cases N src r (N.nbrs r) (cur.copy r) (β, x) with ⟨nb, hnb, ⟨h1, h2, h3, _⟩, h⟩ | ⟨hno, h⟩
    · rw [h]; exact hpack r hr nb β x (hgets r hr nb hnb (β, x) h1 h2 h3)
    · rw [h]
      apply hclean r hr nb β x hg
      obtain ⟨g1, g2, g3, g4⟩ := hg
      have hb := hl.has_buf r hr nb β x ⟨g1, g2, g3, g4⟩
      have hn := hl.nbr_lt r hr nb g1
      have hbn : N.hasBuf nb β.1 = true := by rw [← hl.bufs r hr nb g1 _ g3]; exact hb
      cases ho : oth β with
      | false => exact Or.inl rfl
      | true =>
        refine Or.inr ?_
        by_contra hc
        have hc : src.self nb β = true := by simpa using hc
        apply hno nb g1
        refine ⟨g3, ?_, g2, ?_⟩
        · rw [hsw r hr _ g3, if_pos hb, List.mem_filter, List.mem_range]
          exact ⟨g4, ho⟩
        · unfold Net.mineDirty
          rw [List.any_eq_true]
          refine ⟨β.2, ?_, hc⟩
          rw [hsw nb hn _ g3, if_pos hbn, List.mem_filter, List.mem_range]
          exact ⟨g4, ho⟩
  · intro r hr β h1 h2 h3
    simp only
    by_cases hz : N.toSwap src r β.1 = []
    · have ho : oth β = false := by
        rw [hsw r hr _ h1, if_pos h3, List.filter_eq_nil_iff] at hz
        have := hz β.2 (List.mem_range.2 h2)
        simpa using this
      rw [if_neg (by tauto), if_neg (by tauto), hcs, hco]
      refine ⟨?_, (hoth r hr β h1 h2 h3).trans ho⟩
      by_contra hc
      have hc : src.self r β = true := by simpa using hc
      rw [hself r hr β h1 h2 h3 hc] at ho
      cases ho
    · rw [if_pos ⟨h1, hz⟩, if_pos ⟨h1, hz⟩]
      exact ⟨rfl, rfl⟩

/-! ### One pass on all ranks -/

/-- The slots written in a pass are among those marked as modified by other ranks. -/
theorem pass_outs (hl : Linked S N own) {c : RunCfg} {first : Int} {p : Pass} {m0 cnt : Nat}
    (hp : PassAt c first dir p m0 cnt) {t : List Task} (ht : IsPass c first dir m0 cnt t) {a : Task} (ha : a ∈ t) {β : Slot}
    (hw : S.writes a β) : N.passOuts dir p β = true := by
  obtain ⟨i, hi, h1, h2⟩ : ∃ i < p.nt, a.step = p.t0 + dir * i ∧ a.stage ∈ p.stages := by
    obtain ⟨s', hs', a1, a2, _⟩ := (ht.mem a).1 ha
    rw [hp.cnt] at hs'
    have hlen : 0 < p.stages.length := by
      rcases Nat.eq_zero_or_pos p.stages.length with e | e
      · rw [e] at hs'; simp at hs'
      · exact e
    have hi : s' / p.stages.length < p.nt := by rw [Nat.div_lt_iff_lt_mul hlen]; exact hs'
    have hq := Nat.mod_lt s' hlen
    have hdm : s' / p.stages.length * p.stages.length + s' % p.stages.length = s' := by
      rw [Nat.mul_comm]; exact Nat.div_add_mod s' _
    obtain ⟨e1, e2⟩ := hp.pair _ hi _ hq
    rw [hdm] at e1 e2
    refine ⟨_, hi, a1.trans e1.symm, ?_⟩
    rw [a2, ← e2, List.getD_eq_getElem _ _ hq]
    exact List.getElem_mem hq
  unfold Net.passOuts
  rw [List.any_eq_true]
  refine ⟨i, List.mem_range.2 hi, ?_⟩
  rw [List.any_eq_true]
  exact ⟨a.stage, h2, by rw [← h1]; exact hl.outs a β hw⟩

theorem pass_current (hd : Divided G N) (hl : Linked S N own) {first : Int} (hdir : dir = 1 ∨ dir = -1) {p : Pass} {m0 cnt : Nat}
    (hp : ∀ r < N.n, PassAt (N.cfg r) first dir p m0 cnt) (g : Slot × List Int → Val) (s : NState Val)
    (hown : OwnCurrent N own s (gm S first dir g m0)) (hall : AllHalosCurrent N s (gm S first dir g m0)) (hcl : Clean N s)
    {o : Outcome (NState Val)} (ho : N.PassTo S dir p s o) :
    ∃ s', o = .ok s' ∧ OwnCurrent N own s' (gm S first dir g (m0 + cnt)) ∧ AllHalosCurrent N s' (gm S first dir g (m0 + cnt)) ∧
      Clean N s' := by
  obtain ⟨u, v, mk, htr, rfl⟩ := ho
  have hpass : ∀ r < N.n, IsPass (N.cfg r) first dir m0 cnt (u r ++ v r) := fun r hr =>
    (hp r hr).isPass (hd.ok r hr) (hd.rem r hr) hdir (htr r hr).1 (htr r hr).2.1
  have hexec : ∀ r, ((s.computed S N dir p u mk).further S v).copy r = S.sem.exec (u r ++ v r) (s.copy r) := by
    intro r
    rw [exec_append]; rfl
  -- evaluations are marked
  have houts : ∀ r < N.n, ∀ a ∈ u r ++ v r, ∀ β, S.writes a β → N.passOuts dir p β = true := fun r hr a ha β hw =>
    pass_outs hl (hp r hr) (hpass r hr) ha hw
  -- own points
  have hownc : OwnCurrent N own ((s.computed S N dir p u mk).further S v) (gm S first dir g (m0 + cnt)) := by
    intro r hr β x hx
    rw [hexec]
    exact lockstep hd hl hr hdir (hpass r hr) ((hp r hr).bound (hd.ok r hr)) _ _ (fun β x h => hown r hr β x h)
      (fun nb β x h => hall r hr nb β x h) β x hx
  -- points that are sent are not written after packing
  have hlater : ∀ r < N.n, ∀ nb β x, Gets N r nb β x → ∀ a ∈ v nb, ¬ S.sem.writes a (β, x) := by
    rintro r hr nb β x hg a ha ⟨_, hx⟩
    have hn := hl.nbr_lt r hr nb hg.1
    obtain ⟨hov, hin⟩ := (hp nb hn).later (hd.ok nb hn) (hd.rem nb hn) hdir (htr nb hn).2.1 ha
    obtain ⟨j, hj, h⟩ := hl.gets_outer r hr nb β x hg hov
    have hin := hin j (by rw [hd.nd nb hn]; exact hj)
    have hx : x = a.pt := hx
    rw [hx] at h
    simp only [at_] at hin
    omega
  -- ranks evaluate nothing that the reference does not evaluate
  have hsub : ∀ r < N.n, ∀ a ∈ u r ++ v r, ∃ s' < cnt, a ∈ layerG G first dir (m0 + s') := by
    intro r hr a ha
    obtain ⟨s', hs', a1, a2, _⟩ := ((hpass r hr).mem a).1 ha
    rw [hd.nst r hr] at a1 a2
    exact ⟨s', hs', layerR_sub hd hr (hpass r hr) (mem_layerR.2 ⟨ha, a1, a2⟩)⟩
  refine exchange_current hl (s.computed S N dir p u mk) ((s.computed S N dir p u mk).further S v) (fun β => N.passOuts dir p β) _
    ?_ ?_ rfl rfl hownc ?_ ?_
  · intro r hr β h1 h2 h3
    show (s.others r β || N.passOuts dir p β) = _
    rw [(hcl r hr β h1 h2 h3).2, Bool.false_or]
  · intro r hr β h1 h2 h3 h4
    have h4 : (s.self r β || mk r β) = true := h4
    rw [(hcl r hr β h1 h2 h3).1, Bool.false_or] at h4
    exact (htr r hr).2.2.2 β h4
  · intro r hr nb β x hg
    have hn := hl.nbr_lt r hr nb hg.1
    have h := hownc nb hn β x (hl.gets_own r hr nb β x hg)
    rw [← h]
    exact (exec_frame S (v nb) _ _ (hlater r hr nb β x hg)).symm
  · intro r hr nb β x hg hcl'
    have hn := hl.nbr_lt r hr nb hg.1
    -- no evaluation of the reference writes here
    have hno : ∀ s' < cnt, ∀ a ∈ layerG G first dir (m0 + s'), ¬ S.sem.writes a (β, x) := by
      rintro s' hs' a ha ⟨hw, hx⟩
      have hx : x = a.pt := hx
      subst hx
      obtain ⟨b1, b2, b3, b4⟩ := (mem_layerG _ _ _ _).1 ha
      have hin := hl.own_rank nb hn a β hw (hl.gets_own r hr nb β _ hg) b4
      have hnd := hd.nd nb hn
      have hev := rank_eval (hd.ok nb hn) ((hp nb hn).bound (hd.ok nb hn) s' hs') (x := a.pt) (fun j hj => hin j (hnd ▸ hj))
      have hext := eval_ext (hd.ok nb hn) hev
      have hmem : a ∈ u nb ++ v nb := by
        refine ((hpass nb hn).mem a).2 ⟨s', hs', ?_, ?_, ?_, hev⟩
        · rw [hd.nst nb hn]; exact b1
        · rw [hd.nst nb hn]; exact b2
        · exact (valid_iff hd hn a).2 ⟨b3, fun j hj => hext j (hnd ▸ hj)⟩
      rcases hcl' with h | h
      · rw [houts nb hn a hmem β hw] at h; cases h
      · have h : (s.self nb β || mk nb β) = false := h
        rw [Bool.or_eq_false_iff] at h
        rcases List.mem_append.1 hmem with hu | hv
        · rw [(htr nb hn).2.2.1 a hu β hw] at h; cases h.2
        · exact hlater r hr nb β _ hg a hv ⟨hw, rfl⟩
    rw [hexec, gm_frame S first dir g m0 cnt _ hno, exec_frame S _ _ _ ?_]
    · exact hall r hr nb β x hg
    · intro a ha
      obtain ⟨s', hs', h⟩ := hsub r hr a ha
      exact hno s' hs' a h

open Classical in
/-- A pass has executions. -/
theorem pass_exists (hd : Divided G N) (hl : Linked S N own) {first : Int} (hdir : dir = 1 ∨ dir = -1) {p : Pass} {m0 cnt : Nat}
    (hp : ∀ r < N.n, PassAt (N.cfg r) first dir p m0 cnt) (s : NState Val) : ∃ o, N.PassTo S dir p s o := by
  let tr : Nat → List RunCfg.Sect → List Task := fun r L =>
    L.flatMap fun sect => (scan (N.cfg r).rankLoop).flatMap fun base => (N.cfg r).calcMegaL dir p.stages sect base p.t0 p.nt
  have htr : ∀ r L, doSeq (L.map (sectPass (N.cfg r) dir p)) (tr r L) := fun r L =>
    doSeq_flatMap _ _ _ fun sect _ => doSeq_flatMap _ _ _ fun base _ => (N.cfg r).calcMegaL_trace _ _ _ _ _ _
  refine ⟨_, fun r => tr r ((N.cfg r).sections.filter fun s => decide (s ≠ .interior)),
    fun r => tr r ((N.cfg r).sections.filter fun s => decide (s = .interior)),
    fun _ β => N.passOuts dir p β, fun r hr => ⟨htr r _, htr r _, ?_, fun _ h => h⟩, rfl⟩
  intro a ha β hw
  exact pass_outs hl (hp r hr) ((hp r hr).isPass (hd.ok r hr) (hd.rem r hr) hdir (htr r _) (htr r _)) (List.mem_append_left _ ha) hw

theorem passes_current (hd : Divided G N) (hl : Linked S N own) (hdir : dir = 1 ∨ dir = -1) {first : Int}
    (g : Slot × List Int → Val) (ps : List Pass) {m m' : Nat} (hch : PassChain G first dir ps m m') (s : NState Val)
    (hown : OwnCurrent N own s (gm S first dir g m)) (hall : AllHalosCurrent N s (gm S first dir g m)) (hcl : Clean N s)
    {o : Outcome (NState Val)} (ho : N.PassesTo S dir ps s o) :
    ∃ s', o = .ok s' ∧ OwnCurrent N own s' (gm S first dir g m') ∧ AllHalosCurrent N s' (gm S first dir g m') ∧ Clean N s' := by
  induction ps generalizing m s with
  | nil =>
    have hch : m = m' := hch
    subst hch
    exact ⟨s, ho, hown, hall, hcl⟩
  | cons p ps ih =>
    obtain ⟨cnt, h1, h2⟩ := hch
    obtain ⟨o1, ho1, hrest⟩ := ho
    obtain ⟨s1, rfl, a1, a2, a3⟩ := pass_current hd hl hdir
      (fun r hr => h1.congr (hd.steps r hr).symm (hd.nst r hr).symm) g s hown hall hcl ho1
    rcases hrest with ⟨s1', e, h3⟩ | ⟨e, _⟩
    · cases e
      exact ih h2 s1 a1 a2 a3 h3
    · cases e

end

end Yask
