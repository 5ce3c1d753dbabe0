import Verif.Compiler.PtrLoop
import Verif.Compiler.LaneLemmas

/-! Helper lemmas: buffers when the memory changes during an iteration, by comparison with a loop in which each vector is its own
address. -/

namespace Yask.Comp
open Var Spec.Cpp

variable {W : Type} (T : Int → W → Prop)

/-- Each vector of a buffer is as required for its address. -/
def BufRel (b : Int → Option W) (b' : Int → Option Int) : Prop := ∀ i, Option.Rel (fun w a => T a w) (b i) (b' i)

/-- Same indices and pointers, buffers as required. -/
structure StRel (st : InnerSt W) (st' : InnerSt Int) : Prop where
  idx : st.idx = st'.idx
  ptrs : st.ptrs = st'.ptrs
  bufs : ∀ key, BufRel T (st.bufs key) (st'.bufs key)

variable {T}

theorem BufRel.upd {b : Int → Option W} {b' : Int → Option Int} (h : BufRel T b b') (i : Int) {w : Option W} {a : Option Int}
    (hw : Option.Rel (fun w a => T a w) w a) : BufRel T (Spec.Cpp.upd b i w) (Spec.Cpp.upd b' i a) := by
  intro j
  unfold Spec.Cpp.upd
  by_cases hj : j = i
  · rw [if_pos hj, if_pos hj]; exact hw
  · rw [if_neg hj, if_neg hj]; exact h j

variable {v : CVar} {o : PtrOpts} {g : Geom} (slot : Int → Int) (reads writes : List PtArgs)

theorem addr_rel {st : InnerSt W} {st' : InnerSt Int} (hi : st.idx = st'.idx) (hp : st.ptrs = st'.ptrs) (p : PtArgs) :
    v.addr o g slot st p = v.addr o g slot st' p := by
  unfold CVar.addr
  rw [hi, hp]

theorem foldl_rel {mem : Int → W} {a : Nat → Int} (f : Nat → Option W) (f' : Nat → Option Int)
    (hf : ∀ i, Option.Rel (fun w a => T a w) (f i) (f' i)) : ∀ (l : List Nat) (b : Int → Option W) (b' : Int → Option Int), BufRel T b b' →
    BufRel T (l.foldl (fun b (i : Nat) => Spec.Cpp.upd b (i : Int) (f i)) b) (l.foldl (fun b (i : Nat) => Spec.Cpp.upd b (i : Int) (f' i)) b')
  | [], _, _, h => h
  | i :: l, _, _, h => foldl_rel (mem := mem) (a := a) f f' hf l _ _ (h.upd i (hf i))

theorem shift_rel : ∀ (l : List Nat) (b : Int → Option W) (b' : Int → Option Int), BufRel T b b' →
    BufRel T (l.foldl (fun b (i : Nat) => Spec.Cpp.upd b (i : Int) (b (i + 1))) b)
      (l.foldl (fun b (i : Nat) => Spec.Cpp.upd b (i : Int) (b (i + 1))) b')
  | [], _, _, h => h
  | i :: l, _, _, h => shift_rel l _ _ (h.upd i (h (i + 1)))

theorem init_rel (mem : Int → W) (hm : ∀ a, T a (mem a)) (idx : List Int) :
    StRel T (v.initSt o g slot reads writes mem idx) (v.initSt o g slot reads writes (fun a => a) idx) where
  idx := rfl
  ptrs := rfl
  bufs key := by
    have h0 : BufRel T (fun _ => none : Int → Option W) fun _ => none := fun _ => Option.Rel.none
    unfold CVar.initSt CVar.initBuf
    simp only
    cases v.stats o reads key with
    | none => exact h0
    | some s =>
      obtain ⟨lo, hi, len⟩ := s
      cases len with
      | none => exact h0
      | some len =>
        simp only
        refine foldl_rel (mem := mem) (a := fun _ => 0) _ _ (fun i => Option.Rel.some ?_) _ _ _ h0
        rw [addr_rel (st' := (⟨idx, v.initPtrs o g slot reads writes idx, fun _ _ => none⟩ : InnerSt Int)) slot rfl rfl]
        exact hm _

/-- Same outcome of reads, with the vector as required. -/
inductive ReadRel (T : Int → W → Prop) : Outcome W → Outcome Int → Prop
  | ok {w a} : T a w → ReadRel T (.ok w) (.ok a)
  | undefined : ReadRel T .undefined .undefined

theorem read_rel {mem : Int → W} (hm : ∀ a, T a (mem a)) {st : InnerSt W} {st' : InnerSt Int} (h : StRel T st st') (p : PtArgs) :
    ReadRel T (v.read o g slot reads mem st p) (v.read o g slot reads (fun a => a) st' p) := by
  have h0 : ReadRel T (.ok (mem (v.addr o g slot st p))) (.ok (v.addr o g slot st' p)) := by
    rw [addr_rel slot h.idx h.ptrs]; exact .ok (hm _)
  unfold CVar.read
  cases (if p ∈ reads then v.stats o reads (v.key p) else none) with
  | none => exact h0
  | some s =>
    obtain ⟨lo, hi, len⟩ := s
    cases len with
    | none => exact h0
    | some len =>
      simp only
      split_ifs with hc
      · have hb := h.bufs (v.key p) (v.vofs p - lo)
        cases hb1 : st.bufs (v.key p) (v.vofs p - lo) with
        | none =>
          cases hb2 : st'.bufs (v.key p) (v.vofs p - lo) with
          | none => exact .undefined
          | some a => rw [hb1, hb2] at hb; cases hb
        | some w =>
          cases hb2 : st'.bufs (v.key p) (v.vofs p - lo) with
          | none => rw [hb1, hb2] at hb; cases hb
          | some a =>
            rw [hb1, hb2] at hb
            cases hb with
            | some hb => exact .ok hb
      · exact h0

theorem next_rel {mem : Int → W} (hm : ∀ a, T a (mem a)) {st : InnerSt W} {st' : InnerSt Int} (h : StRel T st st') :
    StRel T (v.next o g slot reads mem st) (v.next o g slot reads (fun a => a) st') where
  idx := by simp only [CVar.next]; rw [h.idx]
  ptrs := by simp only [CVar.next]; rw [h.ptrs]
  bufs key := by
    simp only [CVar.next]
    unfold CVar.shiftBuf
    cases v.stats o reads key with
    | none => exact h.bufs key
    | some s =>
      obtain ⟨lo, hi, len⟩ := s
      cases len with
      | none => exact h.bufs key
      | some len =>
        simp only
        have h1 := shift_rel (List.range (len - 1).toNat) _ _ (h.bufs key)
        have h2 := read_rel (v := v) (o := o) (g := g) slot reads hm h (key.set v.loopPosn ((lo + len) * (v.dim v.loopPosn).fold))
        cases hr : v.read o g slot reads mem st (key.set v.loopPosn ((lo + len) * (v.dim v.loopPosn).fold)) with
        | ok w =>
          rw [hr] at h2
          cases hr2 : v.read o g slot reads (fun a => a) st' (key.set v.loopPosn ((lo + len) * (v.dim v.loopPosn).fold)) with
          | ok a =>
            rw [hr2] at h2
            cases h2 with
            | ok h3 => exact h1.upd _ (.some h3)
          | throws => rw [hr2] at h2; cases h2
          | undefined => rw [hr2] at h2; cases h2
        | throws => rw [hr] at h2; cases h2
        | undefined =>
          rw [hr] at h2
          cases hr2 : v.read o g slot reads (fun a => a) st' (key.set v.loopPosn ((lo + len) * (v.dim v.loopPosn).fold)) with
          | ok a => rw [hr2] at h2; cases h2
          | throws => rw [hr2] at h2; cases h2
          | undefined => exact h1

/-- The loop in which each vector is its own address. -/
def ideal (v : CVar) (o : PtrOpts) (g : Geom) (slot : Int → Int) (reads writes : List PtArgs) (idx : List Int) (n : Nat) : InnerSt Int :=
  v.stAt o g slot reads writes (fun _ a => a) idx n

/-- What a read gives: a vector as required for the address that the point means. -/
theorem read_ideal {mem : Int → W} (hm : ∀ a, T a (mem a)) {st : InnerSt W} {idx : List Int} {n : Nat}
    (h : StRel T st (ideal v o g slot reads writes idx n)) (hv : v.Of o g) (hl : g.layout.Perm (List.range g.dims.length))
    (hi : idx.length = g.dims.length) (hr : ReadsOk v g reads) (hf : (v.dim v.loopPosn).fold ≠ 0) {p : PtArgs} (hp : p ∈ reads) :
    ∃ w, v.read o g slot reads mem st p = .ok w ∧
      T (v.callAddr g slot (idx.set v.loopPosn (idx.getD v.loopPosn 0 + n)) p) w := by
  obtain ⟨h1, h2, h3⟩ := stAt_ok slot reads writes hv hl (mem := fun _ a => a) hi hr hf n
  obtain ⟨d, hd, _⟩ := read_eq slot reads hv hl (n := n) hr h2 h3 hp
  have h4 := read_rel (v := v) (o := o) (g := g) slot reads hm h p
  rw [show v.read o g slot reads (fun a => a) (ideal v o g slot reads writes idx n) p = _ from hd, h1] at h4
  cases hw : v.read o g slot reads mem st p with
  | ok w =>
    rw [hw] at h4
    cases h4 with
    | ok h5 => exact ⟨w, rfl, h5⟩
  | throws => rw [hw] at h4; cases h4
  | undefined => rw [hw] at h4; cases h4

/-- The address used for a write. -/
theorem addr_ideal {st : InnerSt W} {idx : List Int} {n : Nat}
    (h : StRel T st (ideal v o g slot reads writes idx n)) (hv : v.Of o g) (hl : g.layout.Perm (List.range g.dims.length))
    (hi : idx.length = g.dims.length) (hr : ReadsOk v g reads) (hf : (v.dim v.loopPosn).fold ≠ 0) (p : PtArgs) :
    v.addr o g slot st p = v.callAddr g slot (idx.set v.loopPosn (idx.getD v.loopPosn 0 + n)) p := by
  obtain ⟨h1, h2, _⟩ := stAt_ok slot reads writes hv hl (mem := fun _ a => a) hi hr hf n
  rw [addr_rel slot h.idx h.ptrs]
  rw [show v.addr o g slot (ideal v o g slot reads writes idx n) p = _ from addr_eq slot hv hl h2 p, h1]

end Yask.Comp
