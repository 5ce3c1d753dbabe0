import Verif.Compiler.MiscHistLemmas
import Verif.Props.EqForm
import Verif.Props.VecSlice
import Mathlib.Order.Bounds.Defs

/-!
# The vars of a solution have storage for all misc indices in its equations (C77)

The specification is in `Spec/MiscSpec.lean`. Misc dims are those that are neither the step dim nor domain dims; equations use
constants for them.
-/

namespace Yask
open Comp Var

variable {V : Type}

section
variable {π : Type} [DecidableEq π]

omit [DecidableEq π] in
private theorem forall₂_mem_left {α β : Type} {R : α → β → Prop} {l : List α} {r : List β} (h : List.Forall₂ R l r) {a : α} (ha : a ∈ l) :
    ∃ b ∈ r, R a b := by
  induction h with
  | nil => cases ha
  | @cons x y l r h1 _ ih =>
    rcases List.mem_cons.1 ha with rfl | ha
    · exact ⟨y, by simp, h1⟩
    · obtain ⟨b, hb, h⟩ := ih ha
      exact ⟨b, by simp [hb], h⟩

omit [DecidableEq π] in
private theorem forall₂_mem_right {α β : Type} {R : α → β → Prop} {l : List α} {r : List β} (h : List.Forall₂ R l r) {b : β} (hb : b ∈ r) :
    ∃ a ∈ l, R a b := by
  induction h with
  | nil => cases hb
  | @cons x y l r h1 _ ih =>
    rcases List.mem_cons.1 hb with rfl | hb
    · exact ⟨x, by simp, h1⟩
    · obtain ⟨a, ha, h⟩ := ih hb
      exact ⟨a, by simp [ha], h⟩

omit [DecidableEq π] in
private theorem denotes_inj {a : NExpr String} {c k : ℤ} (h1 : Denotes a (fun _ => c)) (h2 : Denotes a (fun _ => k)) : c = k := by
  have hU : (ratInterp (fun _ _ => 0) (fun _ => 0)).Usual := ⟨fun _ => rfl, fun _ _ => rfl, fun _ _ => rfl⟩
  have e1 := h1 _ (fun _ => 0) hU (fun _ => ⟨rfl, rfl⟩)
  have e2 := h2 _ (fun _ => 0) hU (fun _ => ⟨rfl, rfl⟩)
  rw [e1] at e2
  simp only at e2
  exact_mod_cast e2

private theorem checkEqs_new {D : CDims} {es : List (SrcEq π)} {dir : ℤ} {cs : List (CEq π)} (h : checkEqs D es = .ok (dir, cs)) :
    mapAll newEq es = .ok cs := by
  unfold checkEqs at h
  cases h1 : mapAll newEq es with
  | throws => rw [h1] at h; cases h
  | undefined => rw [h1] at h; cases h
  | ok cs' =>
    rw [h1] at h
    simp only [Outcome.bind_ok] at h
    cases h2 : cs'.foldlM (checkEq D) (0 : ℤ) with
    | throws => rw [h2] at h; cases h
    | undefined => rw [h2] at h; cases h
    | ok d => rw [h2] at h; cases h; rfl

omit [DecidableEq π] in
private theorem proper_names {D : CDims} {es : List (SrcEq π)} (h : Proper D es) :
    ∀ e ∈ es, DimNames e.lhs.1 ∧ ∀ q ∈ e.rhs, DimNames q.1 :=
  fun e he => ⟨(h e he _ (.inl rfl)).1, fun q hq => (h e he q (.inr hq)).1⟩

omit [DecidableEq π] in
private theorem kinds_misc {D : CDims} {v : EqVar} (hk : Kinds D v) {d : String} (hd : (d, IndexType.misc) ∈ v.dims) :
    d ≠ D.step ∧ d ∉ D.domain := by
  rcases hk _ hd with h | h | h
  · cases h.1
  · cases h.1
  · exact ⟨h.2.2, h.2.1⟩

/-- A use of a misc dim in the equations is recorded in a point. -/
private theorem used_recorded {D : CDims} {es : List (SrcEq π)} (hp : Proper D es) {dir : ℤ} {cs : List (CEq π)}
    (h : checkEqs D es = .ok (dir, cs)) {v : EqVar} {i : Nat} {a : NExpr π} (hu : UsedAs es v i a) {d : String}
    (hd : v.dims[i]? = some (d, .misc)) : ∃ k : ℤ, Denotes a (fun _ => k) ∧ ∃ p ∈ allPts cs [], p.var = v ∧ (d, k) ∈ p.consts := by
  obtain ⟨_, hm⟩ := C75_meaning_partial D es (proper_names hp) dir cs h
  obtain ⟨e, he, q, hq, rfl, ha⟩ := hu
  obtain ⟨c, hc, hw, hr, _⟩ := forall₂_mem_left hm he
  have hkd := (hp e he q hq).2
  obtain ⟨n1, n2⟩ := kinds_misc hkd (List.mem_of_getElem? hd)
  have hx : ((d, IndexType.misc), a) ∈ q.1.dims.zip q.2 := mem_zip_iff.2 ⟨i, hd, ha⟩
  rcases hq with rfl | hq
  · obtain ⟨g1, _, _, _, g5⟩ := hw
    have := g5 _ hx
    simp only [n1, n2, if_false] at this
    obtain ⟨k, k1, k2⟩ := this
    exact ⟨k, k1, c.lhs, List.mem_append_left _ (List.mem_flatMap.2 ⟨c, hc, by simp⟩), g1, constMem_of_lookup k2⟩
  · obtain ⟨p, hpm, g1, _, g3⟩ := forall₂_mem_left hr hq
    obtain ⟨k, hk⟩ := g3 _ hx
    simp only [n1, n2, or_self, if_false] at hk
    exact ⟨k, hk.1, p, List.mem_append_left _ (List.mem_flatMap.2 ⟨c, hc, by simp [hpm]⟩), g1, constMem_of_lookup hk.2⟩

/-- What is recorded is used. -/
private theorem recorded_used {D : CDims} {es : List (SrcEq π)} (hp : Proper D es) {dir : ℤ} {cs : List (CEq π)}
    (h : checkEqs D es = .ok (dir, cs)) {v : EqVar} {i : Nat} {d : String} (hd : v.dims[i]? = some (d, .misc)) {p : CPt π}
    (hpt : p ∈ allPts cs []) (hv : p.var = v) {k : ℤ} (hk : (d, k) ∈ p.consts) : ∃ a, UsedAs es v i a ∧ Denotes a (fun _ => k) := by
  have hnew := mapAll_ok _ _ _ (checkEqs_new h)
  unfold allPts at hpt
  rw [List.append_nil, List.mem_flatMap] at hpt
  obtain ⟨c, hc, hpt⟩ := hpt
  obtain ⟨e, he, hec⟩ := forall₂_mem_right hnew hc
  obtain ⟨e1, e2⟩ := newEq_ok hec
  have key : ∀ q : EqVar × List (NExpr π), (q = e.lhs ∨ q ∈ e.rhs) → newPoint q.1 q.2 = .ok p →
      ∃ a, UsedAs es v i a ∧ Denotes a (fun _ => k) := by
    intro q hq hn
    have hb := newPoint_ok (hp e he q hq).1 hn
    have hqv : q.1 = v := hb.var.symm.trans hv
    have hi : i < q.2.length := by
      rw [← hb.len, hqv]
      exact (List.getElem?_eq_some_iff.1 hd).1
    obtain ⟨kk, g1, _, _, g4⟩ := hb.at_ i d .misc q.2[i] (by rw [hqv]; exact hd) (List.getElem?_eq_getElem hi)
    rw [constLookup_of_mem (newPoint_nodup hn) hk] at g4
    refine ⟨q.2[i], ⟨e, he, q, hq, hqv, List.getElem?_eq_getElem hi⟩, ?_⟩
    cases kk with
    | const c' =>
      simp only [outConst, Option.some.injEq] at g4
      subst g4
      exact (argKind_const g1).1
    | offset o => simp [outConst] at g4
    | other => simp [outConst] at g4
  rcases List.mem_cons.1 hpt with rfl | hpt
  · exact key e.lhs (.inl rfl) e1
  · obtain ⟨q, hq, hqn⟩ := forall₂_mem_right e2 hpt
    exact key q (.inr hq) hqn

/-- The size and first index of a misc dim in the generated code, in terms of the points. -/
private theorem genMisc_range {r : ConstRange} {d : String} {n o : ℤ} (h : genMisc r d = .ok (n, o)) :
    (∃ lo hi, r.mins.lookup d = some lo ∧ r.maxs.lookup d = some hi ∧ o = lo ∧ n = hi - lo + 1) ∨
      ((r.mins.lookup d = none ∨ r.maxs.lookup d = none) ∧ n = 1 ∧ o = 0) := by
  unfold genMisc at h
  cases h1 : r.mins.lookup d with
  | none => rw [h1] at h; cases h; exact .inr ⟨.inl rfl, rfl, rfl⟩
  | some lo =>
    cases h2 : r.maxs.lookup d with
    | none => rw [h1, h2] at h; cases h; exact .inr ⟨.inr rfl, rfl, rfl⟩
    | some hi =>
      rw [h1, h2] at h
      simp only at h
      unfold toInt at h
      split_ifs at h with g1
      · simp only [Outcome.bind_ok] at h
        split_ifs at h with g2
        · simp only [Outcome.bind_ok, Outcome.ok.injEq, Prod.mk.injEq] at h
          exact .inl ⟨lo, hi, rfl, rfl, h.2.symm, h.1.symm⟩
        · cases h
      · cases h

private theorem kept_misc {c : GenSizes} {r : ConstRange} {v : EqVar} {yv yv' : YVar V} (hg : Generated c r v yv) {inner : Bool}
    (hh : KeepsSizes inner yv yv') {i : Nat} {d : String} (hd : v.dims[i]? = some (d, .misc)) : ∃ n o n' e, genMisc r d = .ok (n, o) ∧
      yv'.g.dims[i]? = some e ∧ MiscFull n' o e ∧ n ≤ n' ∧ (inner = true → n' = n) := by
  obtain ⟨_, hm⟩ := generated_misc hg
  obtain ⟨n, o, e, h1, h2, h3⟩ := hm i d hd
  have hn : (yv.g.dims.map DimG.alloc).getD i 0 = n := by
    rw [List.getD_eq_getElem?_getD, List.getElem?_map, h2]
    exact h3.alloc
  obtain ⟨n', e', g1, g2, g3, g4⟩ := hist_misc hh h2 h3 (le_of_eq hn)
  exact ⟨n, o, n', e', h1, g1, g2, by rw [← hn]; exact g3, g4⟩

/-- C77: let the equations be accepted; `kp`: points in conditions; `pts`: all points, in any order. Let a var be made by the generated
code, and let anything happen to it that can happen to a var of a solution, but that sizes are not made smaller. Then each misc index in
the equations is a fixed number which is in the range of the var's storage. That sizes are not made smaller is needed; see
`C77_shrunk_wrong`. -/
theorem C77_misc_in_storage_partial (D : CDims) (es : List (SrcEq π)) (hp : Proper D es) (dir : ℤ) (cs : List (CEq π))
    (h : checkEqs D es = .ok (dir, cs)) (kp pts : List (CPt π)) (hpts : ∀ p, p ∈ pts ↔ p ∈ allPts cs kp) (c : GenSizes) (v : EqVar)
    (yv yv' : YVar V) (hg : Generated c (varStats v pts) v yv) (inner : Bool) (hh : KeepsSizes inner yv yv')
    (i : Nat) (d : String) (hd : v.dims[i]? = some (d, .misc)) (a : NExpr π) (hu : UsedAs es v i a) :
    ∃ k : ℤ, Denotes a (fun _ => k) ∧ ∃ e, yv'.g.dims[i]? = some e ∧ e.firstLocal ≤ k ∧ k ≤ e.lastLocal := by
  obtain ⟨k, hk, p, hpm, hv, hmem⟩ := used_recorded hp h hu hd
  obtain ⟨n, o, n', e, g1, g2, g3, g4, _⟩ := kept_misc hg hh hd
  refine ⟨k, hk, e, g2, ?_⟩
  rw [g3.first, g3.last]
  have hin : ∃ p ∈ pts, p.var = v ∧ (d, k) ∈ p.consts := by
    refine ⟨p, (hpts p).2 ?_, hv, hmem⟩
    unfold allPts at hpm ⊢
    rw [List.append_nil] at hpm
    exact List.mem_append_left _ hpm
  obtain ⟨r1, r2⟩ := varStats_range v pts d
  rcases genMisc_range g1 with ⟨lo, hi, l1, l2, rfl, rfl⟩ | ⟨hn, _⟩
  · rw [l1] at r1
    rw [l2] at r2
    have := r1.2 k hin
    have := r2.2 k hin
    omega
  · rcases hn with hn | hn
    · rw [hn] at r1; exact absurd hin (r1 k)
    · rw [hn] at r2; exact absurd hin (r2 k)

/-- C77: the same for a constant index in a condition. -/
theorem C77_condition_in_storage_partial (cs : List (CEq π)) (ks : List (EqVar × List (NExpr π))) (hn : ∀ q ∈ ks, DimNames q.1)
    (kp pts : List (CPt π)) (hk : mapAll (fun q => newPoint q.1 q.2) ks = .ok kp) (hpts : ∀ p, p ∈ pts ↔ p ∈ allPts cs kp)
    (c : GenSizes) (v : EqVar) (yv yv' : YVar V) (hg : Generated c (varStats v pts) v yv) (inner : Bool) (hh : KeepsSizes inner yv yv')
    (q : EqVar × List (NExpr π)) (hq : q ∈ ks) (hqv : q.1 = v) (i : Nat) (d : String) (hd : v.dims[i]? = some (d, .misc)) (k : ℤ)
    (hs : SmallInt k) (ha : q.2[i]? = some (.const k)) :
    ∃ e, yv'.g.dims[i]? = some e ∧ e.firstLocal ≤ k ∧ k ≤ e.lastLocal := by
  obtain ⟨p, hpm, hpn⟩ := forall₂_mem_left (mapAll_ok _ _ _ hk) hq
  have hb := newPoint_ok (hn q hq) hpn
  obtain ⟨kk, b1, _, _, b4⟩ := hb.at_ i d .misc _ (by rw [hqv]; exact hd) ha
  rw [smallConst_kind d hs] at b1
  cases b1
  have hin : ∃ p ∈ pts, p.var = v ∧ (d, k) ∈ p.consts :=
    ⟨p, (hpts p).2 (List.mem_append_right _ hpm), hb.var.trans hqv, constMem_of_lookup b4⟩
  obtain ⟨n, o, n', e, g1, g2, g3, g4, _⟩ := kept_misc hg hh hd
  refine ⟨e, g2, ?_⟩
  rw [g3.first, g3.last]
  obtain ⟨r1, r2⟩ := varStats_range v pts d
  rcases genMisc_range g1 with ⟨lo, hi, l1, l2, rfl, rfl⟩ | ⟨hn, _⟩
  · rw [l1] at r1
    rw [l2] at r2
    have := r1.2 k hin
    have := r2.2 k hin
    omega
  · rcases hn with hn | hn
    · rw [hn] at r1; exact absurd hin (r1 k)
    · rw [hn] at r2; exact absurd hin (r2 k)

end

/-- C77: without points in conditions, the storage begins at the least misc index that is used; with `inner` it always ends at the
greatest one, else it does so until its size is changed. A dim for which no index is used has size 1. The position of the first index
is the same in elements and in vectors. -/
theorem C77_tight (D : CDims) (es : List (SrcEq String)) (hp : Proper D es) (dir : ℤ) (cs : List (CEq String))
    (h : checkEqs D es = .ok (dir, cs)) (pts : List (CPt String)) (hpts : ∀ p, p ∈ pts ↔ p ∈ allPts cs []) (c : GenSizes) (v : EqVar)
    (yv yv' : YVar V) (hg : Generated c (varStats v pts) v yv) (inner : Bool) (hh : KeepsSizes inner yv yv')
    (i : Nat) (d : String) (hd : v.dims[i]? = some (d, .misc)) :
    ∃ e, yv'.g.dims[i]? = some e ∧ e.kind = .misc ∧ e.vecLocalOfs = e.localOfs ∧
      (∀ a, UsedAs es v i a → IsLeast {k : ℤ | ∃ a, UsedAs es v i a ∧ Denotes a (fun _ => k)} e.firstLocal) ∧
      (inner = true ∨ yv' = yv →
        (∀ a, UsedAs es v i a → IsGreatest {k : ℤ | ∃ a, UsedAs es v i a ∧ Denotes a (fun _ => k)} e.lastLocal) ∧
        ((∀ a, ¬ UsedAs es v i a) → e.alloc = 1)) := by
  have hset : ∀ k : ℤ, (∃ p ∈ pts, p.var = v ∧ (d, k) ∈ p.consts) ↔ ∃ a, UsedAs es v i a ∧ Denotes a (fun _ => k) := by
    intro k
    constructor
    · rintro ⟨p, hpm, hv, hk⟩
      exact recorded_used hp h hd ((hpts p).1 hpm) hv hk
    · rintro ⟨a, hu, hk⟩
      obtain ⟨k', hk', p, hpm, hv, hmem⟩ := used_recorded hp h hu hd
      cases denotes_inj hk hk'
      exact ⟨p, (hpts p).2 hpm, hv, hmem⟩
  have huse : ∀ a, UsedAs es v i a → ∃ k : ℤ, ∃ p ∈ pts, p.var = v ∧ (d, k) ∈ p.consts := by
    intro a hu
    obtain ⟨k', hk', p, hpm, hv, hmem⟩ := used_recorded hp h hu hd
    exact ⟨k', p, (hpts p).2 hpm, hv, hmem⟩
  obtain ⟨n, o, n', e, g1, g2, g3, g4, g5⟩ := kept_misc hg hh hd
  obtain ⟨r1, r2⟩ := varStats_range v pts d
  have hsize : inner = true ∨ yv' = yv → n' = n := by
    rintro (hi | rfl)
    · exact g5 hi
    · obtain ⟨_, hm⟩ := generated_misc hg
      obtain ⟨n1, o1, e1, h1, h2, h3⟩ := hm i d hd
      rw [g1] at h1
      cases h1
      rw [g2] at h2
      cases h2
      rw [← g3.alloc, ← h3.alloc]
  refine ⟨e, g2, g3.kind, by rw [g3.vecLocalOfs, g3.localOfs], fun a hu => ?_, fun hin => ⟨fun a hu => ?_, fun hno => ?_⟩⟩
  · obtain ⟨k0, hk0⟩ := huse a hu
    rw [g3.first]
    rcases genMisc_range g1 with ⟨lo, hi, l1, l2, rfl, rfl⟩ | ⟨hn, _⟩
    · rw [l1] at r1
      exact ⟨(hset _).1 r1.1, fun k hk => r1.2 k ((hset k).2 hk)⟩
    · rcases hn with hn | hn
      · rw [hn] at r1; exact absurd hk0 (r1 k0)
      · rw [hn] at r2; exact absurd hk0 (r2 k0)
  · obtain ⟨k0, hk0⟩ := huse a hu
    rw [g3.last, hsize hin]
    rcases genMisc_range g1 with ⟨lo, hi, l1, l2, rfl, rfl⟩ | ⟨hn, _⟩
    · rw [l2] at r2
      have : o + (hi - o + 1) - 1 = hi := by omega
      rw [this]
      exact ⟨(hset _).1 r2.1, fun k hk => r2.2 k ((hset k).2 hk)⟩
    · rcases hn with hn | hn
      · rw [hn] at r1; exact absurd hk0 (r1 k0)
      · rw [hn] at r2; exact absurd hk0 (r2 k0)
  · rw [g3.alloc, hsize hin]
    rcases genMisc_range g1 with ⟨lo, hi, l1, l2, rfl, rfl⟩ | ⟨hn, hn1, _⟩
    · rw [l1] at r1
      obtain ⟨a, hu, _⟩ := (hset _).1 r1.1
      exact absurd hu (hno a)
    · exact hn1

/-- C77: what copying of vectors and pointers in the generated code rely on for misc dims holds for the vars of a solution. -/
theorem C77_no_misc_offset (r : ConstRange) (c : GenSizes) (v : EqVar) (hty : ∀ x ∈ v.dims, x.2 = .step ∨ x.2 = .domain ∨ x.2 = .misc)
    (yv yv' : YVar V) (hg : Generated c r v yv) (inner : Bool) (hh : KeepsSizes inner yv yv') : NoMiscOffset yv'.g := by
  have hk := (hist_kinds hh).trans (generated_misc hg).1
  intro e he hke
  obtain ⟨i, hi⟩ := List.mem_iff_getElem?.1 he
  have hm : (yv'.g.dims.map DimG.kind)[i]? = some .misc := by rw [List.getElem?_map, hi]; simp [hke]
  rw [hk, List.getElem?_map] at hm
  cases hvi : v.dims[i]? with
  | none => rw [hvi] at hm; cases hm
  | some x =>
    rw [hvi] at hm
    simp only [Option.map_some, Option.some.injEq] at hm
    obtain ⟨d, ty⟩ := x
    have hmisc : ty = .misc := by
      rcases hty _ (List.mem_of_getElem? hvi) with h | h | h <;> simp only at h <;> subst h
      · cases hm
      · cases hm
      · rfl
    subst hmisc
    obtain ⟨n, o, n', e', _, g2, g3, _⟩ := kept_misc hg hh hvi
    rw [hi] at g2
    cases g2
    rw [g3.vecLocalOfs, g3.localOfs]

/-- C77: these vars are among those that the theorems about vars are about. -/
theorem C77_reachable (r : ConstRange) (c : GenSizes) (v : EqVar) (yv yv' : YVar V) (hg : Generated c r v yv) (inner : Bool)
    (need : Nat → Int) (hh : Relation.ReflTransGen (SolnStep inner need) yv yv') : Reachable yv' := by
  obtain ⟨g, g', calls, hc, _, hr, _, hrun⟩ := hg
  have run : ∀ (calls : List (Nat × Setting × Int)) (a b : YVar V), Reachable a → runCalls a calls = (b, false) → Reachable b := by
    intro calls
    induction calls with
    | nil => intro a b ha h; cases h; exact ha
    | cons x calls ih =>
      intro a b ha h
      unfold runCalls at h
      rcases hc : callSetting a x.1 x.2.1 x.2.2 with ⟨a1, _ | _⟩
      · rw [hc] at h; exact ih a1 b (.setting a a1 _ _ _ ha hc) h
      · rw [hc] at h; cases h
  have h0 : Reachable yv := run calls _ _ (.construct g g' hc hr) hrun
  clear hrun
  induction hh with
  | refl => exact h0
  | tail _ hs ih =>
    cases hs with
    | setting _ p s n hc _ => exact .setting _ _ p s n ih hc
    | storage m => exact .storage _ m ih
    | validStep t => exact .validStep _ t ih

/-- C77: the generated code makes each var without an exception, if the distance between its misc indices can be stored. -/
theorem C77_constructs (r : ConstRange) (c : GenSizes) (hc : ∀ d, 0 ≤ c.left d ∧ 0 ≤ c.right d) (v : EqVar)
    (hty : ∀ x ∈ v.dims, x.2 = .step ∨ x.2 = .domain ∨ x.2 = .misc)
    (hr : ∀ d lo hi, r.mins.lookup d = some lo → r.maxs.lookup d = some hi → lo ≤ hi ∧ hi - lo ≤ 2147483646)
    (g : Geom) (hg : g.Constructed) (hk : g.dims.map DimG.kind = v.dims.map (fun d => kindOf d.2)) :
    ∃ (g' : Geom) (calls : List (Nat × Setting × Int)) (yv : YVar V), g.resize false = some g' ∧ genCalls c r 0 v.dims = .ok calls ∧
      runCalls ⟨g', none⟩ calls = (yv, false) := by
  obtain ⟨g', h1, h2⟩ := resize_total (constructed_settings hg)
  have hk' := (resize_kinds h1).trans hk
  obtain ⟨calls, h3, h4⟩ := genCalls_total (r := r) hc (g'.dims.map DimG.kind) v.dims 0 (by
    intro d _
    unfold genMisc
    cases e1 : r.mins.lookup d with
    | none => exact ⟨_, rfl⟩
    | some lo =>
      cases e2 : r.maxs.lookup d with
      | none => exact ⟨_, rfl⟩
      | some hi =>
        obtain ⟨b1, b2⟩ := hr d lo hi e1 e2
        have i1 : isInt (hi - lo) = true := by unfold isInt; simp; omega
        have i2 : isInt (hi - lo + 1) = true := by unfold isInt; simp; omega
        refine ⟨(hi - lo + 1, lo), ?_⟩
        simp [toInt, i1, i2]) (by
    intro j d ty hj
    refine ⟨?_, hty _ (List.mem_of_getElem? hj)⟩
    rw [hk', Nat.zero_add, List.getElem?_map, hj]
    rfl)
  obtain ⟨yv, h5⟩ := runCalls_total (v := (⟨g', none⟩ : YVar V)) rfl h2 h4
  exact ⟨g', calls, yv, h1, h3, h5⟩

/-! ### Cases that meet the hypotheses -/

namespace MiscExample

/-- `t`; `x`, not folded. -/
def D : CDims := ⟨"t", ["x"], []⟩

/-- `A(t, x, m)`. -/
def A : EqVar := ⟨"A", false, [("t", .step), ("x", .domain), ("m", .misc)]⟩

/-- `A(t+1, x, i) EQUALS A(t, x-1, j) + A(t, x+1, 0)`. -/
def eqs (i j : ℤ) : List (SrcEq String) :=
  [⟨(A, [.comm .add [.index "t" .step, .const (1 : ℤ)], .index "x" .domain, .const i]),
    [(A, [.index "t" .step, .bin .sub (.index "x" .domain) (.const (1 : ℤ)), .const j]),
     (A, [.index "t" .step, .comm .add [.index "x" .domain, .const (1 : ℤ)], .const (0 : ℤ)])]⟩]

/-- Their points. -/
def points (i j : ℤ) : List (CPt String) :=
  match checkEqs D (eqs i j) with
  | .ok r => allPts r.2 []
  | _ => []

theorem proper (i j : ℤ) : Proper D (eqs i j) := by
  intro e he q hq
  have hA : DimNames A ∧ Kinds D A := ⟨by unfold DimNames; decide, by unfold Kinds; decide⟩
  have : q.1 = A := by
    rw [List.mem_singleton.1 he] at hq
    rcases hq with rfl | hq
    · rfl
    · simp only [List.mem_cons, List.not_mem_nil, or_false] at hq
      rcases hq with rfl | rfl <;> rfl
  rw [this]
  exact hA

/-- Halos 1, two steps. -/
def sizes : GenSizes := ⟨fun _ => 1, fun _ => 1, 2⟩

def geom0 : Geom where
  dims := [{ kind := .step }, { kind := .domain, isInner := true }, { kind := .misc }]
  isVec := false
  layout := [0, 2, 1]

theorem geom0_constructed : geom0.Constructed where
  stepFirst := by decide
  fresh := by
    intro d hd
    simp only [geom0, List.mem_cons, List.not_mem_nil, or_false] at hd
    rcases hd with rfl | rfl | rfl
    · exact ⟨.step, 1, 1, false, rfl⟩
    · exact ⟨.domain, 1, 1, true, rfl⟩
    · exact ⟨.misc, 1, 1, false, rfl⟩
  vlPos := by decide
  vlDomain := by decide
  vlVar := by decide
  noDirty := rfl
  layoutPerm := by decide
  foldNodup := by decide
  foldLens := by decide
  foldAll := fun h => by cases h
  foldNone := by decide

/-- The calls in the generated code when -1 and 2 are used. -/
def calls : List (Nat × Setting × Int) := [(0, .size, 2), (1, .leftHalo, 1), (1, .rightHalo, 1), (2, .size, 4), (2, .localOfs, -1)]

def geom1 : Geom := (geom0.resize false).getD geom0

/-- The var as it is constructed. -/
def yvar : YVar Int := (runCalls ⟨geom1, none⟩ calls).1

theorem accepted : ∃ cs, checkEqs D (eqs (-1) 2) = .ok (1, cs) ∧ points (-1) 2 = allPts cs [] := ⟨_, rfl, rfl⟩

theorem generated : Generated sizes (varStats A (points (-1) 2)) A yvar := by
  refine ⟨geom0, geom1, calls, geom0_constructed, by decide, by decide +kernel, rfl, Prod.ext rfl ?_⟩
  decide +kernel

/-- The misc dim is from -1 to 2. -/
example : (yvar.g.dims.map fun d => (d.firstLocal, d.lastLocal))[2]? = some (-1, 2) := by decide +kernel

/-- Sizes of the rank are set, a misc size is made larger, then storage is allocated. -/
def later : YVar Int := { (callSetting (callSetting yvar 1 .size 8).1 2 .size 5).1 with mem := some fun _ => 0 }

theorem posn1 : ∀ d, yvar.g.dims[1]? = some d → d.kind ≠ .misc := by
  intro d hd hk
  have : (yvar.g.dims.map DimG.kind)[1]? = some .domain := by decide +kernel
  rw [List.getElem?_map, hd] at this
  simp only [Option.map_some, Option.some.injEq] at this
  rw [hk] at this
  cases this

theorem later_kept : KeepsSizes false yvar later := by
  have h1 : callSetting yvar 1 .size 8 = ((callSetting yvar 1 .size 8).1, false) := Prod.ext rfl (by decide +kernel)
  have h2 : callSetting (callSetting yvar 1 .size 8).1 2 .size 5 = ((callSetting (callSetting yvar 1 .size 8).1 2 .size 5).1, false) :=
    Prod.ext rfl (by decide +kernel)
  refine ((Relation.ReflTransGen.single (.setting _ _ 1 .size 8 h1 fun d hd hk => absurd hk (posn1 d hd))).tail (.setting _ _ 2 .size 5 h2 ?_)).tail (.storage _ _)
  intro d _ _
  exact ⟨rfl, rfl, by decide +kernel⟩

/-- All hypotheses of the theorems above are met. -/
example : ∃ k : ℤ, Denotes (NExpr.const (2 : ℤ) : NExpr String) (fun _ => k) ∧ ∃ e, later.g.dims[2]? = some e ∧ e.firstLocal ≤ k ∧
    k ≤ e.lastLocal := by
  obtain ⟨cs, h1, h2⟩ := accepted
  exact C77_misc_in_storage_partial D (eqs (-1) 2) (proper _ _) 1 cs h1 [] (points (-1) 2) (fun p => by rw [h2]) sizes A yvar later generated
    false later_kept 2 "m" rfl _ ⟨_, List.mem_singleton.2 rfl, (A, [.index "t" .step, .bin .sub (.index "x" .domain) (.const (1 : ℤ)),
      .const (2 : ℤ)]), .inr (by simp), rfl, rfl⟩

example : ∃ g' calls, ∃ yv : YVar Int, geom0.resize false = some g' ∧ genCalls sizes (varStats A (points (-1) 2)) 0 A.dims = .ok calls ∧
    runCalls ⟨g', none⟩ calls = (yv, false) :=
  C77_constructs _ sizes (fun _ => ⟨Int.one_nonneg, Int.one_nonneg⟩) A (by decide) (fun d lo hi h1 h2 => by
    have e : varStats A (points (-1) 2) = ⟨[("m", -1)], [("m", 2)]⟩ := by decide +kernel
    rw [e] at h1 h2
    simp only [List.lookup_cons, List.lookup_nil] at h1 h2
    split at h1
    · split at h2
      · cases h1; cases h2; decide
      · cases h2
    · cases h1) geom0 geom0_constructed (by decide)

/-- A condition that uses `A(t, x, 7)` makes the misc dim larger. -/
example : (mapAll (fun q => newPoint q.1 q.2) [(A, [.index "t" .step, .index "x" .domain, (.const (7 : ℤ) : NExpr String)])] >>= fun kp =>
    genCalls sizes (varStats A (points (-1) 2 ++ kp)) 0 A.dims) =
    .ok [(0, .size, 2), (1, .leftHalo, 1), (1, .rightHalo, 1), (2, .size, 9), (2, .localOfs, -1)] := rfl

/-- The var after its misc dim is made smaller. -/
def small : YVar Int := (callSetting (callSetting yvar 1 .size 8).1 2 .size 2).1

end MiscExample

open MiscExample in
/-- C77, the part that does not hold: a misc dim of a var of a solution can be made smaller, and then an index in the equations, 2, is not
in its storage: the address of an element that is read is beyond the end of it. -/
theorem C77_shrunk_wrong : ∃ cs, checkEqs D (eqs (-1) 2) = .ok (1, cs) ∧ Generated sizes (varStats A (allPts cs [])) A yvar ∧
    Relation.ReflTransGen (SolnStep false fun _ => 1) yvar small ∧ UsedAs (eqs (-1) 2) A 2 (.const (2 : ℤ)) ∧
    (small.g.dims.map DimG.lastLocal)[2]? = some 0 ∧ small.g.numReals = 40 ∧ small.g.addrOf [1, 0, 2] = .ok 51 := by
  obtain ⟨cs, h1, h2⟩ := accepted
  refine ⟨cs, h1, by rw [← h2]; exact generated, ?_, ⟨_, List.mem_singleton.2 rfl, (A, [.index "t" .step, .bin .sub (.index "x" .domain)
    (.const (1 : ℤ)), .const (2 : ℤ)]), .inr (by simp), rfl, rfl⟩, by decide +kernel, by decide +kernel, by decide +kernel⟩
  have h1 : callSetting yvar 1 .size 8 = ((callSetting yvar 1 .size 8).1, false) := Prod.ext rfl (by decide +kernel)
  have h2 : callSetting (callSetting yvar 1 .size 8).1 2 .size 2 = ((callSetting (callSetting yvar 1 .size 8).1 2 .size 2).1, false) :=
    Prod.ext rfl (by decide +kernel)
  refine (Relation.ReflTransGen.single (.setting _ _ 1 .size 8 h1 fun d hd hk => absurd hk (posn1 d hd))).tail (.setting _ _ 2 .size 2 h2 ?_)
  intro d _ _
  exact ⟨rfl, rfl, by decide⟩

open MiscExample in
/-- C77, the part that does not hold: if the least and the greatest `int` are used as misc indices, the equations are accepted, but the
number of indices overflows. -/
theorem C77_range_overflow_wrong : ∃ cs, checkEqs D (eqs (-2147483648) 2147483647) = .ok (1, cs) ∧
    genCalls sizes (varStats A (allPts cs [])) 0 A.dims = .undefined := ⟨_, rfl, rfl⟩

end Yask
