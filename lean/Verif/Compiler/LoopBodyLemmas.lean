import Verif.Compiler.LoopReadLemmas

/-! Helper lemmas: the body of the generated inner loop, lane by lane. -/

namespace Yask.Comp
open Var Spec Spec.Cpp

section
variable {V : Type} {c : PartLoop} {inner : String} {ix : String → Int}

/-- A lane that is computed. -/
def PartLoop.Active (c : PartLoop) (k : Nat) : Prop := k < c.vlen ∧ c.mask.testBit k = true

/-- Address of lane `k` of a point that is written in iteration `j`. -/
def PartLoop.adr (c : PartLoop) (ix : String → Int) (j : Nat) (q : LPt) (k : Nat) : Int :=
  (c.vars q.1).v.callAddr (c.vars q.1).g (c.vars q.1).slot (Yask.moved (c.vars q.1).v ((c.vars q.1).names.map ix) j) q.2 * c.vlen + k

/-- The addresses in `wr`, and those which the given equations write in iteration `j`. -/
def PartLoop.After (c : PartLoop) (ix : String → Int) (j : Nat) (wr : Nat → Int → Prop) (es : List (LPt × Ex LPt)) (i : Nat) (b : Int) : Prop :=
  wr i b ∨ ∃ e ∈ es, e.1.1 = i ∧ ∃ k, c.Active k ∧ c.adr ix j e.1 k = b

/-- What is known of the accesses in iteration `j`; `wr` are the addresses that have been written before. -/
structure PartLoop.Sep (V : Type) (c : PartLoop) (inner : String) (ix : String → Int) (wr : Nat → Int → Prop) (j : Nat) : Prop where
  range : ∀ q, c.IsRead q → ∀ k, c.Active k → InRangeButStep (c.vars q.1).g.api (c.elem inner ix q j k)
  reads : ∀ pre e post, c.eqs = pre ++ e :: post → ∀ q ∈ e.2.points, ∀ k, c.Active k → ∀ a,
    (c.vars q.1).g.addrOf (c.elem inner ix q j k) = .ok a → ¬ c.After ix j wr pre q.1 a
  apart : ∀ q ∈ c.eqs.map (·.1), ∀ q' ∈ c.eqs.map (·.1), q.1 = q'.1 → ∀ k k', c.Active k → c.Active k' →
    c.adr ix j q k = c.adr ix j q' k' → q = q'
  readNe : ∀ q, c.IsRead q → q ∉ c.eqs.map (·.1)

theorem VecOf.mono {wr wr' : Int → Prop} (h : ∀ b, wr b → wr' b) {m0 : Int → V} {er a : Int} {w : Int → V} (hv : VecOf wr m0 er a w) :
    VecOf wr' m0 er a w := fun k hk hw => hv k hk fun hb => hw (h _ hb)

theorem StRel.mono {W : Type} {T T' : Int → W → Prop} (h : ∀ a w, T a w → T' a w) {st : InnerSt W} {st' : InnerSt Int} (hs : StRel T st st') :
    StRel T' st st' where
  idx := hs.idx
  ptrs := hs.ptrs
  bufs key i := by
    have := hs.bufs key i
    cases h1 : st.bufs key i <;> cases h2 : st'.bufs key i <;> rw [h1, h2] at this <;> cases this
    · exact .none
    · next h3 => exact .some (h _ _ h3)

theorem PartLoop.StOk.mono {wr wr' : Nat → Int → Prop} (h : ∀ i b, wr i b → wr' i b) {mem0 : Nat → Int → V} {j : Nat} {st : LoopSt V}
    (hs : c.StOk ix wr mem0 j st) : c.StOk ix wr' mem0 j st where
  mem i b hb := hs.mem i b fun hw => hb (h i b hw)
  elems := hs.elems
  sts i := (hs.sts i).mono fun _ _ hv => hv.mono (h i)

/-- State and the data of each lane. -/
structure PartLoop.BodyOk (c : PartLoop) (inner : String) (ix : String → Int) (wr : Nat → Int → Prop) (mem0 : Nat → Int → V) (j : Nat)
    (st : LoopSt V) (ms : Nat → LPt → V) : Prop where
  stOk : c.StOk ix wr mem0 j st
  lhs : ∀ k, c.Active k → ∀ q ∈ c.eqs.map (·.1), st.mem q.1 (c.adr ix j q k) = ms k q
  reads : ∀ k, c.Active k → ∀ q, c.IsRead q → ∀ a, (c.vars q.1).g.addrOf (c.elem inner ix q j k) = .ok a → ms k q = mem0 q.1 a

theorem exec_decl {R π : Type} [DecidableEq π] (A : Arith R) (x : Name) (t : List Piece) (env : Name → Option R) (m : π → R) :
    Stmt.exec A (.decl x t) (env, m) = (textVal A env t >>= fun v => if env x = none then .ok (upd env x (some v), m) else .throws) := rfl

/-- Store to a vector. -/
theorem vecStore_lane {g : Geom} (hg : g.elemReals = c.vlen) (w : Nat → V) (a : Int) (m : Int → V) {k : Nat}
    (hk : c.Active k) : vecStore g c.writeMask w a m (a * c.vlen + k) = w k := by
  have h1 : (a * (c.vlen : Int) + k - a * c.vlen).toNat = k := by omega
  have h2 : (k : Int) < c.vlen := by exact_mod_cast hk.1
  unfold vecStore
  rw [hg]
  simp only [h1]
  rw [if_pos]
  refine ⟨by omega, by rw [Int.add_mul, one_mul]; omega, ?_⟩
  unfold PartLoop.writeMask
  by_cases hv : c.vlen > 1
  · rw [if_pos hv]; exact hk.2
  · rw [if_neg hv]

theorem vecStore_other {k0 : Nat} (h0 : c.Active k0) {g : Geom} (hg : g.elemReals = c.vlen) (w : Nat → V) (a : Int) (m : Int → V) {b : Int}
    (hb : ∀ k, c.Active k → a * c.vlen + k ≠ b) : vecStore g c.writeMask w a m b = m b := by
  unfold vecStore
  rw [hg]
  simp only
  rw [if_neg]
  rintro ⟨h1, h2, h3⟩
  rw [Int.add_mul, one_mul] at h2
  have h4 : ((b - a * c.vlen).toNat : Int) = b - a * c.vlen := by omega
  have hlt : (b - a * c.vlen).toNat < c.vlen := by omega
  refine hb (b - a * c.vlen).toNat ⟨hlt, ?_⟩ (by omega)
  unfold PartLoop.writeMask at h3
  by_cases hv : c.vlen > 1
  · rw [if_pos hv] at h3; exact h3
  · have h5 : (b - a * c.vlen).toNat = 0 := by omega
    have h6 : k0 = 0 := by have := h0.1; omega
    rw [h5, ← h6]; exact h0.2

/-- One statement that is not a store. -/
theorem PartLoop.Ok.stmt (hc : c.Ok V inner ix) {wr : Nat → Int → Prop} {mem0 : Nat → Int → V} {j : Nat}
    (hsep : c.Sep V inner ix wr j) {wr' : Nat → Int → Prop} {rd : LPt → Prop} (hrd : ∀ q, rd q → c.IsRead q ∧ ∀ k, c.Active k → ∀ a,
      (c.vars q.1).g.addrOf (c.elem inner ix q j k) = .ok a → ¬ wr' q.1 a) (u : V) (A : Arith V) {s : Stmt LPt} (hcode : CodeIn rd [s])
    {env : Name → Option (Nat → V)} {st : LoopSt V} {ms : Nat → LPt → V} (hb : c.BodyOk inner ix wr' mem0 j st ms)
    {k0 : Nat} {r : (Name → Option V) × (LPt → V)} (hex : Stmt.exec A s (laneEnv k0 env, ms k0) = .ok r) :
    ∃ env1, c.stmt u A.lanes s (env, st) = .ok (env1, st) ∧
      (∀ k, c.Active k → Stmt.exec A s (laneEnv k env, ms k) = .ok (laneEnv k env1, ms k)) := by
  cases s with
  | decl x t =>
    obtain ⟨v, h1, h2⟩ := ok_of_bind hex
    rw [textVal_lane] at h1
    cases hw : textVal A.lanes env t with
    | throws => rw [hw] at h1; cases h1
    | undefined => rw [hw] at h1; cases h1
    | ok w =>
      by_cases hx : laneEnv k0 env x = none
      · have hx' := laneEnv_none.1 hx
        refine ⟨upd env x (some w), ?_, ?_⟩
        · show (textVal A.lanes env t >>= _) = _
          rw [hw, Outcome.bind_ok, if_pos hx']
        · intro k hk
          show (textVal A (laneEnv k env) t >>= _) = _
          rw [textVal_lane, hw]
          show (if laneEnv k env x = none then _ else _) = _
          rw [if_pos (laneEnv_none.2 hx'), laneEnv_upd]
      · rw [if_neg hx] at h2; cases h2
  | load x q =>
    obtain ⟨hq, hnw⟩ := hrd q (hcode.1 x q (by simp))
    obtain ⟨w, hw, hwk⟩ := hc.readPt hb.stOk hq u
    by_cases hx : laneEnv k0 env x = none
    · have hx' := laneEnv_none.1 hx
      refine ⟨upd env x (some w), ?_, ?_⟩
      · show (c.readPt u st q >>= _) = _
        rw [hw, Outcome.bind_ok, if_pos hx']
      · intro k hk
        show (if laneEnv k env x = none then _ else _) = _
        rw [if_pos (laneEnv_none.2 hx'), laneEnv_upd]
        obtain ⟨hv, _⟩ := hc.var q (.inr hq)
        have hr := hsep.range q hq k hk
        have ha := addrOf_eq hv.ok hr hv.steps
        rw [hwk k hk.1 hr _ ha (hnw k hk _ ha), hb.reads k hk q hq _ ha]
    · have : Stmt.exec A (.load x q) (laneEnv k0 env, ms k0) = .throws := by
        show (if laneEnv k0 env x = none then _ else _) = _
        rw [if_neg hx]
      rw [this] at hex; cases hex
  | store q x => exact absurd (by simp) (hcode.2 x q)
  | pair f g x y args =>
    obtain ⟨vs, h1, h2⟩ := ok_of_bind hex
    rw [textVals_lane] at h1
    cases hw : textVals A.lanes env args with
    | throws => rw [hw] at h1; cases h1
    | undefined => rw [hw] at h1; cases h1
    | ok ws =>
      by_cases hx : (f = "sin" ∧ g = "cos" ∨ f = "cos" ∧ g = "sin") ∧ laneEnv k0 env x ≠ none ∧ laneEnv k0 env y ≠ none ∧ x ≠ y
      · have hx' : (f = "sin" ∧ g = "cos" ∨ f = "cos" ∧ g = "sin") ∧ env x ≠ none ∧ env y ≠ none ∧ x ≠ y :=
          ⟨hx.1, fun h => hx.2.1 (laneEnv_none.2 h), fun h => hx.2.2.1 (laneEnv_none.2 h), hx.2.2.2⟩
        refine ⟨upd (upd env x (some (A.lanes.fn f ws))) y (some (A.lanes.fn g ws)), ?_, ?_⟩
        · show (textVals A.lanes env args >>= _) = _
          rw [hw, Outcome.bind_ok, if_pos hx']
        · intro k hk
          show (textVals A (laneEnv k env) args >>= _) = _
          rw [textVals_lane, hw]
          show (if _ then _ else _) = _
          rw [if_pos ⟨hx'.1, fun h => hx'.2.1 (laneEnv_none.1 h), fun h => hx'.2.2.1 (laneEnv_none.1 h), hx'.2.2.2⟩,
            laneEnv_upd, laneEnv_upd]
          rfl
      · rw [if_neg hx] at h2; cases h2

/-- A store. -/
theorem PartLoop.Ok.store (hc : c.Ok V inner ix) {wr : Nat → Int → Prop} {mem0 : Nat → Int → V} {j : Nat}
    (hsep : c.Sep V inner ix wr j) {pre post : List (LPt × Ex LPt)} {e : LPt × Ex LPt} (he : c.eqs = pre ++ e :: post)
    (u : V) (A : Arith V) {x : Name}
    {env : Name → Option (Nat → V)} {st : LoopSt V} {ms : Nat → LPt → V} (hb : c.BodyOk inner ix (c.After ix j wr pre) mem0 j st ms)
    {k0 : Nat} (hk0 : c.Active k0) {r : (Name → Option V) × (LPt → V)} (hex : Stmt.exec A (.store e.1 x) (laneEnv k0 env, ms k0) = .ok r) :
    ∃ st1 ms1, c.stmt u A.lanes (.store e.1 x) (env, st) = .ok (env, st1) ∧
      (∀ k, c.Active k → Stmt.exec A (.store e.1 x) (laneEnv k env, ms k) = .ok (laneEnv k env, ms1 k)) ∧
      c.BodyOk inner ix (c.After ix j wr (pre ++ [e])) mem0 j st1 ms1 ∧
      ∀ i b, (∀ q ∈ c.eqs.map (·.1), q.1 = i → ∀ k, c.Active k → c.adr ix j q k ≠ b) → st1.mem i b = st.mem i b := by
  have hem : e ∈ c.eqs := by rw [he]; simp
  have hq : e.1 ∈ c.eqs.map (·.1) := List.mem_map_of_mem hem
  have hv := (hc.lhs e hem).1
  generalize hqe : e.1 = q at *
  have hadr := hc.addr hb.stOk hv q.2
  cases hx : env x with
  | none =>
    have : Stmt.exec A (.store q x) (laneEnv k0 env, ms k0) = .throws := by
      show (match laneEnv k0 env x with | some v => _ | none => _) = _
      rw [laneEnv_none.2 hx]
    rw [this] at hex; cases hex
  | some w =>
    set a := (c.vars q.1).v.callAddr (c.vars q.1).g (c.vars q.1).slot (Yask.moved (c.vars q.1).v ((c.vars q.1).names.map ix) j) q.2 with ha
    have hmem : (c.writePt st q w).mem = upd st.mem q.1 (vecStore (c.vars q.1).g c.writeMask w a (st.mem q.1)) := by
      unfold PartLoop.writePt
      simp only
      rw [hadr]
    have hother : ∀ i b, (q.1 = i → ∀ k, c.Active k → c.adr ix j q k ≠ b) → (c.writePt st q w).mem i b = st.mem i b := by
      intro i b hib
      rw [hmem]
      unfold upd
      by_cases hi : i = q.1
      · rw [if_pos hi, hi]
        exact vecStore_other hk0 hv.vlen w a _ (fun k hk => hib hi.symm k hk)
      · rw [if_neg hi]
    have hmono : ∀ i b, c.After ix j wr pre i b → c.After ix j wr (pre ++ [e]) i b := by
      rintro i b (h | ⟨e', h1, h2⟩)
      · exact .inl h
      · exact .inr ⟨e', by simp [h1], h2⟩
    refine ⟨c.writePt st q w, fun k => upd (ms k) q (w k), ?_, ?_, ⟨⟨?_, hb.stOk.elems, (hb.stOk.mono hmono).sts⟩, ?_, ?_⟩, ?_⟩
    · show (match env x with | some v => _ | none => _) = _
      rw [hx]
    · intro k hk
      show (match laneEnv k env x with | some v => _ | none => _) = _
      rw [show laneEnv k env x = some (w k) by unfold laneEnv; rw [hx]; rfl]
    · intro i b hw
      rw [hother i b]
      · exact (hb.stOk.mono hmono).mem i b hw
      · intro hi k hk hee
        exact hw (.inr ⟨e, by simp, by rw [hqe]; exact hi, k, hk, by rw [hqe]; exact hee⟩)
    · intro k hk q' hq'
      by_cases hqq : q' = q
      · subst hqq
        rw [hmem]
        unfold upd
        rw [if_pos rfl, if_pos rfl]
        exact vecStore_lane hv.vlen w a _ hk
      · rw [hother]
        · rw [hb.lhs k hk q' hq']
          unfold upd
          rw [if_neg hqq]
        · intro hi k' hk' he
          exact hqq (hsep.apart q hq q' hq' hi k' k hk' hk he).symm
    · intro k hk q' hq' a' ha'
      have hne : q' ≠ q := fun e => hsep.readNe q' hq' (e ▸ hq)
      unfold upd
      rw [if_neg hne]
      exact hb.reads k hk q' hq' a' ha'
    · intro i b hib
      exact hother i b (fun hi k hk => hib q hq hi k hk)

theorem codeIn_cons {π : Type} {rd : π → Prop} {s : Stmt π} {l : List (Stmt π)} (h : CodeIn rd (s :: l)) :
    CodeIn rd [s] ∧ CodeIn rd l := by
  refine ⟨⟨fun x p hm => h.1 x p ?_, fun x p hm => h.2 x p ?_⟩, ⟨fun x p hm => h.1 x p (by simp [hm]), fun x p hm => h.2 x p (by simp [hm])⟩⟩
  · rw [List.mem_singleton] at hm; simp [hm]
  · rw [List.mem_singleton] at hm; simp [hm]

/-- The statements before a store, and then others. -/
theorem PartLoop.Ok.seg (hc : c.Ok V inner ix) {wr : Nat → Int → Prop} {mem0 : Nat → Int → V} {j : Nat}
    (hsep : c.Sep V inner ix wr j) {wr' : Nat → Int → Prop} {rd : LPt → Prop} (hrd : ∀ q, rd q → c.IsRead q ∧ ∀ k, c.Active k → ∀ a,
      (c.vars q.1).g.addrOf (c.elem inner ix q j k) = .ok a → ¬ wr' q.1 a) (u : V) (A : Arith V)
    {st : LoopSt V} {ms : Nat → LPt → V} (hb : c.BodyOk inner ix wr' mem0 j st ms) {k0 : Nat} (hk0 : c.Active k0) (rest : List (Stmt LPt)) :
    ∀ (seg : List (Stmt LPt)) (_ : CodeIn rd seg) (env : Name → Option (Nat → V))
    (r : (Name → Option V) × (LPt → V)) (_ : Cpp.execAll A (seg ++ rest) (laneEnv k0 env, ms k0) = .ok r),
    ∃ env1, c.stmts u A.lanes (seg ++ rest) (env, st) = c.stmts u A.lanes rest (env1, st) ∧
      ∀ k, c.Active k → Cpp.execAll A (seg ++ rest) (laneEnv k env, ms k) = Cpp.execAll A rest (laneEnv k env1, ms k)
  | [], _, env, _, _ => ⟨env, rfl, fun _ _ => rfl⟩
  | s :: seg, hcode, env, r, hex => by
    obtain ⟨r1, h1, h2⟩ := ok_of_bind (x := Stmt.exec A s (laneEnv k0 env, ms k0)) hex
    obtain ⟨hc1, hc2⟩ := codeIn_cons hcode
    obtain ⟨env1, h3, h4⟩ := hc.stmt hsep hrd u A hc1 hb h1
    rw [h4 k0 hk0] at h1
    injection h1 with h1
    rw [← h1] at h2
    obtain ⟨env2, h7, h8⟩ := PartLoop.Ok.seg hc hsep hrd u A hb hk0 rest seg hc2 env1 r h2
    refine ⟨env2, ?_, ?_⟩
    · rw [List.cons_append, PartLoop.stmts, h3]; exact h7
    · intro k hk
      rw [List.cons_append, Cpp.execAll, h4 k hk]; exact h8 k hk

/-- The statements of several equations. -/
theorem PartLoop.Ok.stmts (hc : c.Ok V inner ix) {wr : Nat → Int → Prop} {mem0 : Nat → Int → V} {j : Nat}
    (hsep : c.Sep V inner ix wr j) (u : V) (A : Arith V) {k0 : Nat} (hk0 : c.Active k0) {es : List (LPt × Ex LPt)} {code : List (Stmt LPt)}
    (hcode : Segs es code) : ∀ (pre : List (LPt × Ex LPt)) (_ : c.eqs = pre ++ es)
    (env : Name → Option (Nat → V)) (st : LoopSt V) (ms : Nat → LPt → V) (_ : c.BodyOk inner ix (c.After ix j wr pre) mem0 j st ms)
    (r : (Name → Option V) × (LPt → V)) (_ : Cpp.execAll A code (laneEnv k0 env, ms k0) = .ok r),
    ∃ env1 st1 ms1, c.stmts u A.lanes code (env, st) = .ok (env1, st1) ∧
      (∀ k, c.Active k → Cpp.execAll A code (laneEnv k env, ms k) = .ok (laneEnv k env1, ms1 k)) ∧
      c.BodyOk inner ix (c.After ix j wr c.eqs) mem0 j st1 ms1 ∧
      ∀ i b, (∀ q ∈ c.eqs.map (·.1), q.1 = i → ∀ k, c.Active k → c.adr ix j q k ≠ b) → st1.mem i b = st.mem i b := by
  induction hcode with
  | nil =>
    intro pre hpre env st ms hb r _
    rw [List.append_nil] at hpre
    rw [← hpre] at hb
    exact ⟨env, st, ms, rfl, fun _ _ => rfl, hb, fun _ _ _ => rfl⟩
  | @cons e es seg code x hseg _ ih =>
    intro pre hpre env st ms hb r hex
    obtain ⟨env1, h1, h2⟩ := hc.seg hsep (rd := (· ∈ e.2.points)) (fun q hq => ⟨⟨e, by rw [hpre]; simp, hq⟩, fun k hk a ha =>
      hsep.reads pre e es hpre q hq k hk a ha⟩) u A hb hk0 (.store e.1 x :: code) seg hseg env r hex
    rw [h2 k0 hk0] at hex
    obtain ⟨r1, h3, h4⟩ := ok_of_bind (x := Stmt.exec A (.store e.1 x) (laneEnv k0 env1, ms k0)) hex
    obtain ⟨st1, ms1, h5, h6, h7, h8⟩ := hc.store hsep hpre u A hb hk0 h3
    rw [h6 k0 hk0] at h3
    injection h3 with h3
    rw [← h3] at h4
    obtain ⟨env2, st2, ms2, h9, h10, h11, h12⟩ := ih (pre ++ [e]) (by rw [hpre]; simp) env1 st1 ms1 h7 r h4
    refine ⟨env2, st2, ms2, ?_, ?_, h11, fun i b hib => ?_⟩
    · rw [h1, PartLoop.stmts, h5]; exact h9
    · intro k hk
      rw [h2 k hk, Cpp.execAll, h6 k hk]; exact h10 k hk
    · rw [h12 i b hib, h8 i b hib]

end
end Yask.Comp
