import Verif.Compiler.PtrLemmas

/-! Helper lemmas: pointers and buffers in the iterations of the generated inner loop. -/

namespace Yask.Comp
open Var

/-! ### Statistics of the reads -/

/-- What is known of a key after some reads. -/
def StatsOk (v : CVar) (o : PtrOpts) (key : PtArgs) (seen : List PtArgs) : Option PtStats → Prop
  | none => ∀ p ∈ seen, v.key p ≠ key
  | some s => (∃ p ∈ seen, v.key p = key ∧ v.vofs p = s.lo) ∧ (∃ p ∈ seen, v.key p = key ∧ v.vofs p = s.hi) ∧
      (∀ p ∈ seen, v.key p = key → s.lo ≤ v.vofs p ∧ v.vofs p ≤ s.hi) ∧
      s.len = if max o.minBufLen 1 ≤ s.hi - s.lo then some (s.hi - s.lo) else none

theorem addStats_ok {v : CVar} {o : PtrOpts} {key : PtArgs} {seen : List PtArgs} {s : Option PtStats} (h : StatsOk v o key seen s) (p : PtArgs) :
    StatsOk v o key (seen ++ [p]) (v.addStats o key s p) := by
  unfold CVar.addStats
  by_cases hk : v.key p = key
  · rw [if_pos hk]
    cases s with
    | none =>
      refine ⟨⟨p, by simp, hk, rfl⟩, ⟨p, by simp, hk, rfl⟩, ?_, ?_⟩
      · intro q hq hqk
        rcases List.mem_append.1 hq with h1 | h1
        · exact absurd hqk (h q h1)
        · rw [List.mem_singleton.1 h1]; exact ⟨le_refl _, le_refl _⟩
      · simp
    | some s =>
      obtain ⟨⟨pl, hpl, hplk, hplo⟩, ⟨ph, hph, hphk, hphi⟩, hb, hlen⟩ := h
      refine ⟨?_, ?_, ?_, ?_⟩
      · rcases le_total s.lo (v.vofs p) with h1 | h1
        · exact ⟨pl, by simp [hpl], hplk, by rw [hplo]; exact (min_eq_left h1).symm⟩
        · exact ⟨p, by simp, hk, (min_eq_right h1).symm⟩
      · rcases le_total (v.vofs p) s.hi with h1 | h1
        · exact ⟨ph, by simp [hph], hphk, by rw [hphi]; exact (max_eq_left h1).symm⟩
        · exact ⟨p, by simp, hk, (max_eq_right h1).symm⟩
      · intro q hq hqk
        rcases List.mem_append.1 hq with h1 | h1
        · have := hb q h1 hqk
          exact ⟨le_trans (min_le_left _ _) this.1, le_trans this.2 (le_max_left _ _)⟩
        · rw [List.mem_singleton.1 h1]; exact ⟨min_le_right _ _, le_max_right _ _⟩
      · simp only [Option.bind_some]
        by_cases h1 : max o.minBufLen 1 ≤ max s.hi (v.vofs p) - min s.lo (v.vofs p)
        · simp only [if_pos h1]
        · simp only [if_neg h1]
          rw [hlen, if_neg]
          have h2 := le_max_left s.hi (v.vofs p)
          have h3 := min_le_left s.lo (v.vofs p)
          intro h4
          exact h1 (by linarith)
  · rw [if_neg hk]
    cases s with
    | none =>
      intro q hq
      rcases List.mem_append.1 hq with h1 | h1
      · exact h q h1
      · rw [List.mem_singleton.1 h1]; exact hk
    | some s =>
      obtain ⟨⟨pl, hpl, hplk, hplo⟩, ⟨ph, hph, hphk, hphi⟩, hb, hlen⟩ := h
      refine ⟨⟨pl, by simp [hpl], hplk, hplo⟩, ⟨ph, by simp [hph], hphk, hphi⟩, ?_, hlen⟩
      intro q hq hqk
      rcases List.mem_append.1 hq with h1 | h1
      · exact hb q h1 hqk
      · rw [List.mem_singleton.1 h1] at hqk; exact absurd hqk hk

theorem stats_ok (v : CVar) (o : PtrOpts) (reads : List PtArgs) (key : PtArgs) : StatsOk v o key reads (v.stats o reads key) := by
  unfold CVar.stats
  have : ∀ (l seen : List PtArgs) (s : Option PtStats), StatsOk v o key seen s →
      StatsOk v o key (seen ++ l) (l.foldl (v.addStats o key) s) := by
    intro l
    induction l with
    | nil => intro seen s h; simpa using h
    | cons a as ih =>
      intro seen s h
      have := ih _ _ (addStats_ok h a)
      simpa using this
  simpa using this reads [] none (by intro p hp; simp at hp)

/-- A key with a buffer. -/
theorem stats_some {v : CVar} {o : PtrOpts} {reads : List PtArgs} {key : PtArgs} {lo hi len : Int}
    (h : v.stats o reads key = some ⟨lo, hi, some len⟩) :
    len = hi - lo ∧ 1 ≤ len ∧ (∃ p ∈ reads, v.key p = key ∧ v.vofs p = hi) ∧ (∃ p ∈ reads, v.key p = key ∧ v.vofs p = lo) := by
  have h1 := stats_ok v o reads key
  rw [h] at h1
  obtain ⟨a, b, _, d⟩ := h1
  simp only at d
  by_cases hm : max o.minBufLen 1 ≤ hi - lo
  · rw [if_pos hm] at d
    cases d
    exact ⟨rfl, le_trans (le_max_right _ _) hm, b, a⟩
  · rw [if_neg hm] at d; cases d

/-! ### Buffers -/

theorem foldl_fill {W : Type} (f : Nat → Option W) (b : Int → Option W) (n : Nat) (i : Int) :
    (List.range n).foldl (fun b (k : Nat) => Spec.Cpp.upd b (k : Int) (f k)) b i =
      if 0 ≤ i ∧ i < n then f i.toNat else b i := by
  induction n with
  | zero =>
    rw [if_neg (by omega)]; rfl
  | succ n ih =>
    rw [List.range_succ, List.foldl_append]
    simp only [List.foldl_cons, List.foldl_nil, Spec.Cpp.upd]
    by_cases h : i = n
    · subst h
      rw [if_pos rfl, if_pos (by omega)]; simp
    · rw [if_neg h, ih]
      by_cases h2 : 0 ≤ i ∧ i < n
      · rw [if_pos h2, if_pos (by omega)]
      · rw [if_neg h2, if_neg (by omega)]

theorem foldl_shift {W : Type} (b : Int → Option W) (n : Nat) (i : Int) :
    (List.range n).foldl (fun b (k : Nat) => Spec.Cpp.upd b (k : Int) (b (k + 1))) b i =
      if 0 ≤ i ∧ i < n then b (i + 1) else b i := by
  induction n generalizing i with
  | zero =>
    rw [if_neg (by omega)]; rfl
  | succ n ih =>
    rw [List.range_succ, List.foldl_append]
    simp only [List.foldl_cons, List.foldl_nil, Spec.Cpp.upd]
    by_cases h : i = n
    · subst h
      rw [if_pos rfl, if_pos (by omega), ih, if_neg (by omega)]
    · rw [if_neg h, ih]
      by_cases h2 : 0 ≤ i ∧ i < n
      · rw [if_pos h2, if_pos (by omega)]
      · rw [if_neg h2, if_neg (by omega)]

/-! ### The iterations -/

section
variable {W : Type} {v : CVar} {o : PtrOpts} {g : Geom} (slot : Int → Int) (reads writes : List PtArgs)

/-- All pointers point to the vectors of their points. -/
def PtrsOk (v : CVar) (g : Geom) (slot : Int → Int) (st : InnerSt W) : Prop :=
  ∀ x ∈ st.ptrs, x.2 = v.callAddr g slot st.idx x.1

theorem ptr_lookup_mem {α β : Type} [BEq α] [LawfulBEq α] {l : List (α × β)} {a : α} {b : β} (h : l.lookup a = some b) : (a, b) ∈ l := by
  induction l with
  | nil => simp at h
  | cons x xs ih =>
    obtain ⟨c, d⟩ := x
    rw [List.lookup_cons] at h
    by_cases hc : (a == c) = true
    · rw [hc] at h
      simp only [Option.some.injEq] at h
      rw [eq_of_beq hc, h]; exact List.mem_cons_self
    · simp only [Bool.not_eq_true] at hc
      rw [hc] at h
      exact List.mem_cons_of_mem _ (ih h)

variable (hv : v.Of o g) (hl : g.layout.Perm (List.range g.dims.length))
include hv hl

theorem addr_eq {st : InnerSt W} (h : PtrsOk v g slot st) (p : PtArgs) : v.addr o g slot st p = v.callAddr g slot st.idx p := by
  unfold CVar.addr
  cases hp : st.ptrs.lookup (v.basePt o p) with
  | none => rfl
  | some a =>
    simp only
    have := h _ (ptr_lookup_mem hp)
    simp only at this
    rw [this, basePt_addr hv hl]

theorem initPtrs_ok (idx : List Int) (bufs : PtArgs → Int → Option W) :
    PtrsOk v g slot ⟨idx, v.initPtrs o g slot reads writes idx, bufs⟩ := by
  unfold PtrsOk CVar.initPtrs
  simp only
  by_cases hu : o.usePtrs = true
  · rw [if_pos hu]
    have : ∀ (l : List PtArgs) (ps : List (PtArgs × Int)), (∀ x ∈ ps, x.2 = v.callAddr g slot idx x.1) →
        ∀ x ∈ l.foldl (fun ps p => match ps.lookup (v.basePt o p) with
          | some _ => ps
          | none => ps ++ [(v.basePt o p, v.varBase o g (v.slotOf slot p) + v.baseOfs o g idx (v.basePt o p))]) ps,
          x.2 = v.callAddr g slot idx x.1 := by
      intro l
      induction l with
      | nil => intro ps h; exact h
      | cons p l ih =>
        intro ps h
        rw [List.foldl_cons]
        apply ih
        cases hk : ps.lookup (v.basePt o p) with
        | some _ => exact h
        | none =>
          intro x hx
          rcases List.mem_append.1 hx with h1 | h1
          · exact h x h1
          · rw [List.mem_singleton.1 h1]
            simp only
            have hs : v.slotOf slot p = v.slotOf slot (v.basePt o p) := (basePt_slot hv slot p).symm
            rw [hs, innerPtr_eq hv hl]
    exact this _ _ (by simp)
  · rw [if_neg hu]; simp

theorem next_ptrs {st : InnerSt W} (hi : st.idx.length = g.dims.length) (mem : Int → W) (h : PtrsOk v g slot st) :
    PtrsOk v g slot (v.next o g slot reads mem st) := by
  intro x hx
  simp only [CVar.next, List.mem_map] at hx ⊢
  obtain ⟨y, hy, rfl⟩ := hx
  simp only
  rw [callAddr_step hv hl slot st.idx hi, h y hy]

/-- Contents of the buffers in iteration `n`. -/
def BufsOk (v : CVar) (o : PtrOpts) (g : Geom) (slot : Int → Int) (reads : List PtArgs) (mem : Nat → Int → W) (n : Nat) (st : InnerSt W) : Prop :=
  ∀ q ∈ reads, ∀ lo hi len, v.stats o reads (v.key q) = some ⟨lo, hi, some len⟩ → ∀ i, 0 ≤ i → i < len →
    st.bufs (v.key q) i = some (mem (n - (hi - (lo + i)).toNat)
      (v.callAddr g slot st.idx (q.set v.loopPosn ((lo + i) * (v.dim v.loopPosn).fold))))

omit hl in
/-- A read point from its key. -/
theorem key_set {p : PtArgs} (hp : p.length = g.dims.length) (hf : (v.dim v.loopPosn).fold ∣ p.getD v.loopPosn 0) :
    p.set v.loopPosn (v.vofs p * (v.dim v.loopPosn).fold) = p := by
  unfold CVar.vofs
  rw [tdiv_mul_of_dvd hf]
  apply List.ext_getElem?
  intro k
  by_cases h : k = v.loopPosn
  · subst h
    have := hv.loop.1
    simp [List.getD, hp, this]
  · rw [List.getElem?_set_ne (Ne.symm h)]

/-- The reads have whole vectors as offsets in the loop dim. -/
def ReadsOk (v : CVar) (g : Geom) (reads : List PtArgs) : Prop :=
  ∀ p ∈ reads, p.length = g.dims.length ∧ (v.dim v.loopPosn).fold ∣ p.getD v.loopPosn 0

omit hl hv in
theorem key_idem (p : PtArgs) (x : Int) : v.key (p.set v.loopPosn x) = v.key p := by
  unfold CVar.key; rw [List.set_set]

/-- Value of a read in iteration `n`. -/
theorem read_eq {mem : Nat → Int → W} {n : Nat} {st : InnerSt W} (hr : ReadsOk v g reads) (hp : PtrsOk v g slot st)
    (hb : BufsOk v o g slot reads mem n st) {p : PtArgs} (hm : p ∈ reads) :
    ∃ d : Nat, v.read o g slot reads (mem n) st p = .ok (mem (n - d) (v.callAddr g slot st.idx p)) ∧
      ∀ q ∈ reads, v.key q = v.key p → (∀ q' ∈ reads, v.key q' = v.key p → v.vofs q' ≤ v.vofs q) → (d : Int) ≤ v.vofs q - v.vofs p := by
  unfold CVar.read
  rw [if_pos hm]
  have hmem : (Outcome.ok (mem n (v.addr o g slot st p)) : Outcome W) = .ok (mem (n - 0) (v.callAddr g slot st.idx p)) := by
    rw [addr_eq slot hv hl hp]; rfl
  have h0 : ∀ q ∈ reads, v.key q = v.key p → (∀ q' ∈ reads, v.key q' = v.key p → v.vofs q' ≤ v.vofs q) →
      ((0 : Nat) : Int) ≤ v.vofs q - v.vofs p := by
    intro q _ _ h; have := h p hm rfl; simp only [Nat.cast_zero]; omega
  match hs : v.stats o reads (v.key p) with
  | none => exact ⟨0, hmem, h0⟩
  | some ⟨lo, hi, none⟩ => exact ⟨0, hmem, h0⟩
  | some ⟨lo, hi, some len⟩ =>
    simp only
    by_cases hi2 : 0 ≤ v.vofs p - lo ∧ v.vofs p - lo < len
    · rw [if_pos hi2, hb p hm lo hi len hs _ hi2.1 hi2.2]
      simp only
      rw [show lo + (v.vofs p - lo) = v.vofs p by ring, key_set hv (hr p hm).1 (hr p hm).2]
      refine ⟨_, rfl, ?_⟩
      intro q hq hqk hmax
      obtain ⟨e, _, ⟨ph, hph, hphk, hphi⟩, _⟩ := stats_some hs
      have h1 := hmax ph hph hphk
      omega
    · rw [if_neg hi2]; exact ⟨0, hmem, h0⟩

theorem init_bufs {mem : Nat → Int → W} {idx : List Int} (hr : ReadsOk v g reads) :
    BufsOk v o g slot reads mem 0 (v.initSt o g slot reads writes (mem 0) idx) := by
  intro q hq lo hi len hs i h0 hlt
  have hp := initPtrs_ok slot reads writes hv hl idx (fun _ _ => (none : Option W))
  simp only [CVar.initSt, CVar.initBuf, hs]
  rw [foldl_fill (fun k => some (mem 0 (v.addr o g slot _ ((v.key q).set v.loopPosn ((lo + k) * (v.dim v.loopPosn).fold)))))]
  rw [if_pos ⟨h0, by omega⟩, addr_eq slot hv hl hp]
  simp only [CVar.key, List.set_set, Nat.zero_sub]
  rw [Int.toNat_of_nonneg h0]

theorem next_bufs {mem : Nat → Int → W} {n : Nat} {st : InnerSt W} (hi : st.idx.length = g.dims.length) (hr : ReadsOk v g reads)
    (hf : (v.dim v.loopPosn).fold ≠ 0) (hp : PtrsOk v g slot st) (hb : BufsOk v o g slot reads mem n st) :
    BufsOk v o g slot reads mem (n + 1) (v.next o g slot reads (mem n) st) := by
  intro q hq lo hi' len hs i h0 hlt
  obtain ⟨hlen, hl1, ⟨ph, hph, hphk, hphi⟩, _⟩ := stats_some hs
  simp only [CVar.next, CVar.shiftBuf, hs]
  rw [callAddr_shift hv hl slot st.idx hi (hr q hq).1 hf]
  -- the last point is one of the reads
  have hlast : (v.key q).set v.loopPosn ((lo + len) * (v.dim v.loopPosn).fold) = ph := by
    rw [← hphk]
    unfold CVar.key
    rw [List.set_set, show lo + len = v.vofs ph by rw [hphi, hlen]; ring]
    exact key_set hv (hr ph hph).1 (hr ph hph).2
  rw [hlast]
  have hread : v.read o g slot reads (mem n) st ph = .ok (mem n (v.callAddr g slot st.idx ph)) := by
    unfold CVar.read
    rw [if_pos hph, hphk, hs]
    simp only
    rw [if_neg (by omega), addr_eq slot hv hl hp]
  rw [hread]
  simp only [Spec.Cpp.upd]
  rw [max_eq_left (by omega : (0 : Int) ≤ len - 1)]
  by_cases h : i = len - 1
  · rw [if_pos h, ← hlast]
    have e1 : (hi' - (lo + i)).toNat = 1 := by omega
    have e2 : lo + i + 1 = lo + len := by omega
    rw [e1, e2]
    simp only [CVar.key, List.set_set, Nat.add_sub_cancel]
  · rw [if_neg h, foldl_shift, if_pos ⟨h0, by omega⟩, hb q hq lo hi' len hs (i + 1) (by omega) (by omega)]
    have e1 : n + 1 - (hi' - (lo + i)).toNat = n - (hi' - (lo + (i + 1))).toNat := by omega
    rw [e1, show lo + (i + 1) = lo + i + 1 by ring]

/-- Index, pointers and buffers in iteration `n`. -/
theorem stAt_ok {mem : Nat → Int → W} {idx : List Int} (hi : idx.length = g.dims.length) (hr : ReadsOk v g reads)
    (hf : (v.dim v.loopPosn).fold ≠ 0) (n : Nat) :
    (v.stAt o g slot reads writes mem idx n).idx = idx.set v.loopPosn (idx.getD v.loopPosn 0 + n) ∧
    PtrsOk v g slot (v.stAt o g slot reads writes mem idx n) ∧
    BufsOk v o g slot reads mem n (v.stAt o g slot reads writes mem idx n) := by
  induction n with
  | zero =>
    refine ⟨?_, initPtrs_ok slot reads writes hv hl idx _, init_bufs slot reads writes hv hl hr⟩
    apply List.ext_getElem?
    intro k
    by_cases h : k = v.loopPosn
    · subst h
      have := hv.loop.1
      simp [CVar.stAt, CVar.initSt, List.getD, hi, this]
    · rw [List.getElem?_set_ne (Ne.symm h)]; rfl
  | succ n ih =>
    obtain ⟨h1, h2, h3⟩ := ih
    have hlen : (v.stAt o g slot reads writes mem idx n).idx.length = g.dims.length := by rw [h1]; simpa using hi
    refine ⟨?_, next_ptrs slot reads hv hl hlen _ h2, next_bufs slot reads hv hl hlen hr hf h2 h3⟩
    simp only [CVar.stAt, CVar.next, h1]
    rw [List.set_set]
    congr 1
    have := hv.loop.1
    simp [List.getD, hi, this]
    ring

end

end Yask.Comp
