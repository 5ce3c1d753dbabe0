import Verif.Var.InitSeqLemmas
import Verif.Props.Calls
import Mathlib.Algebra.Order.Ring.Int
import Mathlib.Algebra.Order.Ring.Cast
import Mathlib.Tactic.Ring
import Mathlib.Tactic.Linarith

/-!
# C95: setting all elements gives every element a value that depends on nothing that was there before
-/

namespace Yask
open Var Spec

variable {V : Type}

/-- Setting all elements to the same value: whatever the threads do in whatever order, no write is outside of the storage, and
afterwards every index in the allocation has this value. -/
theorem C95_same (env : ParForEnv) (v : YVar V) (hr : Reachable v) (hmem : v.mem.isSome) (hs : StepsAlloc v.g.api)
    (order : List Int) (ho : order.Perm (fillWrites env v.g)) (val : V) :
    ∃ v', setAllSameLoop order v val = .ok v' ∧ v'.g = v.g ∧
      ∀ idx, Readable v.g.stepWrap v.g.api idx → getElement v' idx = .ok val := by
  obtain ⟨g, m⟩ := v
  obtain ⟨m, rfl⟩ := Option.isSome_iff_exists.1 hmem
  refine ⟨_, setAllSameLoop_eq env hr.ok order ho m val, rfl, fun idx h => ?_⟩
  unfold setAllSame
  rw [getElement_eq hr.ok _ h (fun _ => hs)]
  simp only
  rw [if_pos (readable_addr hr.ok hs h)]

/-- The loop has the effect that the other models of a var use for it. -/
theorem C95_same_effect (env : ParForEnv) (v : YVar V) (hr : Reachable v) (order : List Int)
    (ho : order.Perm (fillWrites env v.g)) (val : V) : setAllSameLoop order v val = .ok (setAllSame v val) := by
  obtain ⟨g, m⟩ := v
  cases m with
  | none => rfl
  | some m => exact setAllSameLoop_eq env hr.ok order ho m val

/-- Setting all elements in sequence: every index in the allocation then has the seed times a number from 1 to 31 or, in a var of
vectors of `n` reals, times such a number and a number from 1 to `n`. -/
theorem C95_seq [Mul V] [IntCast V] (env : ParForEnv) (v : YVar V) (hr : Reachable v) (hmem : v.mem.isSome)
    (hs : StepsAlloc v.g.api) (order : List Int) (ho : order.Perm (fillWrites env v.g)) (seed : V) :
    ∃ v', setAllInSeq order v seed = .ok v' ∧ v'.g = v.g ∧ ∀ idx, Readable v.g.stepWrap v.g.api idx →
      ∃ k j : Int, 1 ≤ k ∧ k ≤ 31 ∧ 1 ≤ j ∧ j ≤ v.g.elemReals ∧
        getElement v' idx = .ok (if v.g.isVec then seed * (j : V) * (k : V) else seed * (k : V)) := by
  obtain ⟨g, m⟩ := v
  obtain ⟨m, rfl⟩ := Option.isSome_iff_exists.1 hmem
  refine ⟨_, setAllInSeq_eq env hr.ok order ho m seed, rfl, fun idx h => ?_⟩
  have hp := hr.ok.elemReals_pos
  simp only at hp hs h ⊢
  generalize ha : g.addrOfSlots (slots g.dims idx) = a
  refine ⟨imodFlr (a / g.elemReals) 31 + 1, g.elemReals - a % g.elemReals, ?_, ?_, ?_, ?_, ?_⟩
  · have := imodFlr_nonneg (a := a / g.elemReals) (b := 31) (by decide); omega
  · have := imodFlr_lt (a := a / g.elemReals) (b := 31) (by decide); omega
  · have := Int.emod_lt_of_pos a hp; omega
  · have := Int.emod_nonneg a hp.ne'; omega
  · rw [getElement_eq hr.ok _ h (fun _ => hs), ha, if_pos (ha ▸ readable_addr hr.ok hs h)]
    unfold seqVal
    split <;> rfl

/-- So with a positive seed and no rounding all values are positive, and none is more than 31 times the number of reals of a vector
times the seed. -/
theorem C95_bounds [CommRing V] [LinearOrder V] [IsStrictOrderedRing V] (env : ParForEnv) (v : YVar V) (hr : Reachable v)
    (hmem : v.mem.isSome) (hs : StepsAlloc v.g.api) (order : List Int) (ho : order.Perm (fillWrites env v.g)) (seed : V)
    (hseed : 0 < seed) (idx : List Int) (h : Readable v.g.stepWrap v.g.api idx) :
    ∃ v' x, setAllInSeq order v seed = .ok v' ∧ getElement v' idx = .ok x ∧ seed ≤ x ∧
      x ≤ seed * ((v.g.elemReals : Int) : V) * 31 := by
  obtain ⟨v', h1, _, h3⟩ := C95_seq env v hr hmem hs order ho seed
  obtain ⟨k, j, hk1, hk2, hj1, hj2, hx⟩ := h3 idx h
  refine ⟨v', _, h1, hx, ?_⟩
  have k1 : (1 : V) ≤ k := by exact_mod_cast hk1
  have k2 : (k : V) ≤ 31 := by exact_mod_cast hk2
  have j1 : (1 : V) ≤ j := by exact_mod_cast hj1
  have j2 : (j : V) ≤ ((v.g.elemReals : Int) : V) := by exact_mod_cast hj2
  have a1 : seed ≤ seed * j := le_mul_of_one_le_right hseed.le j1
  have a2 : seed * j ≤ seed * ((v.g.elemReals : Int) : V) := mul_le_mul_of_nonneg_left j2 hseed.le
  have k0 : (0 : V) ≤ k := zero_le_one.trans k1
  have key : ∀ y : V, seed ≤ y → y ≤ seed * ((v.g.elemReals : Int) : V) →
      seed ≤ y * k ∧ y * k ≤ seed * ((v.g.elemReals : Int) : V) * 31 := by
    intro y y1 y2
    have y0 : 0 ≤ y := hseed.le.trans y1
    exact ⟨y1.trans (le_mul_of_one_le_right y0 k1), mul_le_mul y2 k2 k0 (y0.trans y2)⟩
  split
  · exact key _ a1 a2
  · exact key seed le_rfl (a1.trans a2)

/-- What is set depends only on the seed and on the sizes of the var: not on what was there before, nor on the number of threads or
the order in which they run. All reals of the storage are set, also those that no index names. -/
theorem C95_determined [Mul V] [IntCast V] (env env' : ParForEnv) (v w : YVar V) (hr : Reachable v) (hg : w.g = v.g)
    (hv : v.mem.isSome) (hw : w.mem.isSome) (order order' : List Int) (ho : order.Perm (fillWrites env v.g))
    (ho' : order'.Perm (fillWrites env' w.g)) (seed : V) :
    ∃ m m', setAllInSeq order v seed = .ok ⟨v.g, some m⟩ ∧ setAllInSeq order' w seed = .ok ⟨v.g, some m'⟩ ∧
      ∀ a, 0 ≤ a → a < v.g.numReals → m a = m' a := by
  obtain ⟨g, m⟩ := v
  obtain ⟨m, rfl⟩ := Option.isSome_iff_exists.1 hv
  obtain ⟨g', m'⟩ := w
  obtain ⟨m', rfl⟩ := Option.isSome_iff_exists.1 hw
  simp only at hg
  subst hg
  refine ⟨_, _, setAllInSeq_eq env hr.ok order ho m seed, setAllInSeq_eq env' hr.ok order' ho' m' seed, fun a h1 h2 => ?_⟩
  simp only
  rw [if_pos ⟨h1, h2⟩, if_pos ⟨h1, h2⟩]

/-- A var without storage is left as it is. -/
theorem C95_without_storage [Mul V] [IntCast V] (order : List Int) (v : YVar V) (h : v.mem = none) (x : V) :
    setAllSameLoop order v x = .ok v ∧ setAllInSeq order v x = .ok v := by
  obtain ⟨g, m⟩ := v
  cases h
  exact ⟨rfl, rfl⟩

/-- Initialising all vars of a solution: var number `k`, from 0, is set in sequence with the seed times `k + 1`. -/
theorem C95_seeds [CommRing V] (env : ParForEnv) (seed : V) (vs vs' : List (YVar V)) (h : InitDiff env seed seed vs vs') :
    vs'.length = vs.length ∧ ∀ (k : Nat) (v v' : YVar V), vs[k]? = some v → vs'[k]? = some v' →
      ∃ order, order.Perm (fillWrites env v.g) ∧ setAllInSeq order v ((k + 1 : Nat) * seed) = .ok v' := by
  have key : ∀ (s : V) (n : Nat) (vs vs' : List (YVar V)), s = (n + 1 : Nat) * seed → InitDiff env seed s vs vs' →
      vs'.length = vs.length ∧ ∀ (k : Nat) (v v' : YVar V), vs[k]? = some v → vs'[k]? = some v' →
        ∃ order, order.Perm (fillWrites env v.g) ∧ setAllInSeq order v ((n + k + 1 : Nat) * seed) = .ok v' := by
    intro s n vs vs' hs h
    induction h generalizing n with
    | nil => exact ⟨rfl, fun k v v' hv => by simp at hv⟩
    | cons s v vs v' vs' order h1 h2 _ ih =>
      obtain ⟨i1, i2⟩ := ih (n + 1) (by rw [hs]; push_cast; ring)
      refine ⟨by simp [i1], fun k w w' hw hw' => ?_⟩
      cases k with
      | zero =>
        simp only [List.getElem?_cons_zero, Option.some.injEq] at hw hw'
        subst hw hw'
        exact ⟨order, h1, by rw [← h2, hs, Nat.add_zero]⟩
      | succ k =>
        rw [List.getElem?_cons_succ] at hw hw'
        rw [show n + (k + 1) + 1 = n + 1 + k + 1 by omega]
        exact i2 k w w' hw hw'
  obtain ⟨h1, h2⟩ := key seed 0 vs vs' (by simp) h
  refine ⟨h1, fun k v v' hv hv' => ?_⟩
  rw [← Nat.zero_add k]
  exact h2 k v v' hv hv'

/-- It always ends without an access outside of the storage, whatever the order of the writes to each var. -/
theorem C95_init [CommRing V] (env : ParForEnv) (seed s : V) (vs : List (YVar V)) (hr : ∀ v ∈ vs, Reachable v) :
    ∃ vs', InitDiff env seed s vs vs' := by
  induction vs generalizing s with
  | nil => exact ⟨[], .nil s⟩
  | cons v vs ih =>
    obtain ⟨vs', h⟩ := ih (s + seed) (fun w hw => hr w (List.mem_cons_of_mem _ hw))
    have hv := hr v (List.mem_cons_self ..)
    obtain ⟨g, m⟩ := v
    cases m with
    | none => exact ⟨_, .cons s _ vs _ vs' _ (List.Perm.refl _) rfl h⟩
    | some m => exact ⟨_, .cons s _ vs _ vs' _ (List.Perm.refl _) (setAllInSeq_eq env hv.ok _ (List.Perm.refl _) m s) h⟩

/-- Two solutions whose vars have the same sizes, such as a solution and its reference in the validation: after initialising both with
the same seed, every index in the allocation of every var has the same value in both. -/
theorem C95_reference [CommRing V] (env env' : ParForEnv) (seed : V) (vs ws vs' ws' : List (YVar V))
    (hr : ∀ v ∈ vs, Reachable v ∧ v.mem.isSome ∧ StepsAlloc v.g.api)
    (hw : ∀ w ∈ ws, w.mem.isSome) (hg : ws.map (·.g) = vs.map (·.g)) (h : InitDiff env seed seed vs vs')
    (h' : InitDiff env' seed seed ws ws') (k : Nat) (v v' w' : YVar V) (hk : vs[k]? = some v) (hk1 : vs'[k]? = some v')
    (hk2 : ws'[k]? = some w') (idx : List Int) (hi : Readable v.g.stepWrap v.g.api idx) :
    ∃ x, getElement v' idx = .ok x ∧ getElement w' idx = .ok x := by
  obtain ⟨_, s2⟩ := C95_seeds env seed vs vs' h
  obtain ⟨_, t2⟩ := C95_seeds env' seed ws ws' h'
  have hgk := congrArg (fun l : List Geom => l[k]?) hg
  simp only [List.getElem?_map, hk, Option.map_some] at hgk
  obtain ⟨w, hkw, hgw⟩ := Option.map_eq_some_iff.1 hgk
  obtain ⟨hrv, hmv, hsv⟩ := hr v (List.mem_of_getElem? hk)
  obtain ⟨o, ho, e⟩ := s2 k v v' hk hk1
  obtain ⟨o', ho', e'⟩ := t2 k w w' hkw hk2
  obtain ⟨m, m', f1, f2, f3⟩ := C95_determined env env' v w hrv hgw hmv (hw w (List.mem_of_getElem? hkw)) o o' ho ho' ((k + 1 : Nat) * seed)
  rw [e] at f1
  rw [e'] at f2
  cases f1
  cases f2
  refine ⟨_, getElement_eq hrv.ok m hi (fun _ => hsv), ?_⟩
  rw [getElement_eq hrv.ok m' hi (fun _ => hsv)]
  obtain ⟨a1, a2⟩ := readable_addr hrv.ok hsv hi
  rw [f3 _ a1 a2]

namespace InitSeqExample
open CallsExample

/-- A var of vectors of 4 in x, and of 30 by 7 elements, and the same with one more element of padding in y. -/
def calls : List (Nat × Setting × Int) := [(0, .size, 30), (1, .size, 7)]
def calls' : List (Nat × Setting × Int) := [(0, .size, 30), (1, .size, 7), (1, .leftMinPad, 1)]
def var1 : YVar Int := ⟨(callAll (⟨geom0, none⟩ : YVar Int) calls).g, some fun _ => 5⟩
def var2 : YVar Int := ⟨(callAll (⟨geom0, none⟩ : YVar Int) calls').g, some fun _ => 5⟩

theorem reach1 : Reachable var1 := by
  refine .storage (callAll ⟨geom0, none⟩ calls) _ ?_
  refine .setting (callSetting ⟨geom0, none⟩ 0 .size 30).1 _ 1 .size 7 ?_ (Prod.ext rfl (by decide +kernel))
  exact .setting ⟨geom0, none⟩ _ 0 .size 30 (.construct geom geom0 constructed resized) (Prod.ext rfl (by decide +kernel))

theorem reach2 : Reachable var2 := by
  refine .storage (callAll ⟨geom0, none⟩ calls') _ ?_
  refine .setting (callSetting (callSetting ⟨geom0, none⟩ 0 .size 30).1 1 .size 7).1 _ 1 .leftMinPad 1 ?_ (Prod.ext rfl (by decide +kernel))
  refine .setting (callSetting ⟨geom0, none⟩ 0 .size 30).1 _ 1 .size 7 ?_ (Prod.ext rfl (by decide +kernel))
  exact .setting ⟨geom0, none⟩ _ 0 .size 30 (.construct geom geom0 constructed resized) (Prod.ext rfl (by decide +kernel))

theorem steps1 : StepsAlloc var1.g.api := by unfold StepsAlloc; decide +kernel
theorem steps2 : StepsAlloc var2.g.api := by unfold StepsAlloc; decide +kernel
theorem readable1 : Readable var1.g.stepWrap var1.g.api [9, 3] := by
  have h : InRange var1.g.api [9, 3] := by
    unfold InRange
    decide +kernel
  unfold Readable
  rw [show var1.g.stepWrap = false by decide +kernel]
  exact h
theorem readable2 : Readable var2.g.stepWrap var2.g.api [9, 3] := by
  have h : InRange var2.g.api [9, 3] := by
    unfold InRange
    decide +kernel
  unfold Readable
  rw [show var2.g.stepWrap = false by decide +kernel]
  exact h

end InitSeqExample

open InitSeqExample CallsExample in
/-- The values depend on the padding: two vars with the same sizes and halos, of which one has more padding, get different values at
the same indices from the same seed. -/
theorem C95_pad_changes_values (env env' : ParForEnv) (order order' : List Int) (ho : order.Perm (fillWrites env var1.g))
    (ho' : order'.Perm (fillWrites env' var2.g)) :
    (var1.g.dims.map fun d => (d.domain, d.lHalo, d.rHalo)) = (var2.g.dims.map fun d => (d.domain, d.lHalo, d.rHalo)) ∧
    ∃ v w, setAllInSeq order var1 1 = .ok v ∧ setAllInSeq order' var2 1 = .ok w ∧ getElement v [9, 3] = .ok 3 ∧
      getElement w [9, 3] = .ok 15 := by
  refine ⟨by decide +kernel, _, _, setAllInSeq_eq env reach1.ok order ho _ 1, setAllInSeq_eq env' reach2.ok order' ho' _ 1, ?_, ?_⟩
  · rw [getElement_eq reach1.ok _ readable1 (fun _ => steps1)]
    decide +kernel
  · rw [getElement_eq reach2.ok _ readable2 (fun _ => steps2)]
    decide +kernel

open InitSeqExample in
/-- The hypotheses are met. -/
example : Reachable var1 ∧ var1.mem.isSome ∧ StepsAlloc var1.g.api ∧ Readable var1.g.stepWrap var1.g.api [9, 3] :=
  ⟨reach1, rfl, steps1, readable1⟩

open InitSeqExample in
/-- A solution of two vars. -/
example (env : ParForEnv) : ∃ vs', InitDiff env (2 : Int) 2 [var1, var2] vs' :=
  C95_init env 2 2 _ (by
    intro v hv
    simp only [List.mem_cons, List.not_mem_nil, or_false] at hv
    rcases hv with rfl | rfl
    exacts [reach1, reach2])

end Yask
