import Verif.Props.InnerLoop

/-!
# C80: an example with vars that are not folded

The loop of `Props/InnerLoop.lean`, with an equation that reads a var with one of the two folded dims, and a var without folded dims.
-/

namespace Yask
open Var Spec Spec.Cpp Comp

namespace LoopElemExample
open LoopExample

/-- `B(x)`: `x` is folded by 4 in the solution, but the elements of the var are not vectors. -/
def bGeom : Geom where
  dims := [{ kind := .domain, solnVL := 4, varVL := 1 }]
  isVec := false
  layout := [0]
  vlenGt1 := true

/-- `C(t, m)`. -/
def cGeom : Geom where
  dims := [{ kind := .step }, { kind := .misc }]
  isVec := false
  layout := [0, 1]
  vlenGt1 := true

def bCalls : List (Nat × Setting × Int) := [(0, .size, 10), (0, .halo, 3), (0, .rankOfs, 20)]

def cCalls : List (Nat × Setting × Int) := [(0, .size, 2), (1, .size, 3), (1, .localOfs, -1)]

def mkVar (g0 : Geom) (calls : List (Nat × Setting × Int)) : YVar Int :=
  match (g0.resize false).bind fun g => runSettings (V := Int) ⟨g, none⟩ calls with
  | some v => { v with mem := some fun _ => 0 }
  | none => ⟨g0, none⟩

theorem mkVar_reachable {g0 : Geom} (h0 : g0.Constructed) {calls : List (Nat × Setting × Int)}
    (h2 : ((g0.resize false).bind fun g => runSettings (V := Int) ⟨g, none⟩ calls).isSome = true) : Reachable (mkVar g0 calls) := by
  obtain ⟨v, hv⟩ := Option.isSome_iff_exists.1 h2
  obtain ⟨g, hg, hr⟩ := Option.bind_eq_some_iff.1 hv
  have : mkVar g0 calls = { v with mem := some fun _ => 0 } := by
    unfold mkVar; rw [hv]
  rw [this]
  exact Reachable.storage v _ (runSettings_reachable (Reachable.construct _ g h0 hg) hr)

def bVar : YVar Int := mkVar bGeom bCalls
def cVar : YVar Int := mkVar cGeom cCalls

theorem bVar_reachable : Reachable bVar := by
  refine mkVar_reachable ⟨by decide, ?_, by decide, by decide, by decide, rfl, by decide, by decide, by decide,
    fun h => absurd h (by decide), by decide⟩
    (by decide +kernel)
  intro d hd
  simp only [bGeom, List.mem_cons, List.not_mem_nil, or_false] at hd
  exact ⟨.domain, 4, 1, false, hd⟩

theorem cVar_reachable : Reachable cVar := by
  refine mkVar_reachable ⟨by decide, ?_, by decide, by decide, by decide, rfl, by decide, by decide, by decide,
    fun h => absurd h (by decide), by decide⟩
    (by decide +kernel)
  intro d hd
  simp only [cGeom, List.mem_cons, List.not_mem_nil, or_false] at hd
  rcases hd with rfl | rfl
  · exact ⟨.step, 1, 1, false, rfl⟩
  · exact ⟨.misc, 1, 1, false, rfl⟩

def bLoop : LoopVar := ⟨⟨[⟨.domain, 1, 0, 0⟩], [0], false, 0, 0⟩, ["x"], bVar.g, fun _ => 0⟩

def cLoop : LoopVar := ⟨⟨[⟨.step, 1, 0, 0⟩, ⟨.misc, 1, -1, 1⟩], [0, 1], false, 0, 0⟩, ["t", "m"], cVar.g, fun s => imodFlr (7 + s) 2⟩

/-- `B(x+1)` is read in part, `C(t, 1)` is a scalar. -/
example : bLoop.vecType fold = .part ∧ cLoop.vecType fold = .none := by decide +kernel

def b1 : LPt := (1, [1])
def c1 : LPt := (2, [0, 1])

/-- `A(t+1, x, y, 0) = A(t, x-1, y+1, -1) * B(x+1) + C(t, 1)`. -/
def eqs : List (LPt × Ex LPt) :=
  [((0, [1, 0, 0, 0]), .comm 1 .add [.comm 2 .mul [.read 3 p1, .read 4 b1], .read 5 c1])]

def node : Nat → Ex LPt
  | 1 => .comm 1 .add [.comm 2 .mul [.read 3 p1, .read 4 b1], .read 5 c1]
  | 2 => .comm 2 .mul [.read 3 p1, .read 4 b1]
  | 3 => .read 3 p1
  | 4 => .read 4 b1
  | _ => .read 5 c1

def lvars : Nat → LoopVar
  | 1 => bLoop
  | 2 => cLoop
  | _ => lvar

def loop : PartLoop := { part eqs [p1] with vars := lvars }

theorem isRead (q : LPt) : loop.IsRead q ↔ q ∈ [p1, b1, c1] := by
  unfold PartLoop.IsRead
  simp [loop, part, eqs, Ex.points, Ex.pointsAll]

theorem varOk : loop.VarOk Int "y" ix 0 :=
  let h := LoopExample.varOk eqs [p1] 0
  ⟨h.reach, h.steps, h.misc, h.var, h.slots, h.fold, h.inner, h.foldable⟩

theorem bOk : loop.ElemOk Int "y" ix 1 := by
  refine ⟨⟨bVar, bVar_reachable, rfl⟩, by unfold StepsAlloc; decide +kernel, ⟨true, 0, .inl rfl, fun s => ?_⟩, by decide +kernel, by decide +kernel,
    by decide +kernel, by decide +kernel, by decide +kernel, by decide +kernel⟩
  have h : (loop.vars 1).g.hasStep = false := by decide +kernel
  unfold stepSlot
  rw [h]
  rfl

theorem cOk : loop.ElemOk Int "y" ix 2 := by
  refine ⟨⟨cVar, cVar_reachable, rfl⟩, by unfold StepsAlloc; decide +kernel, ⟨false, 2, .inr (by decide +kernel), fun s => ?_⟩, by decide +kernel,
    by decide +kernel, by decide +kernel, by decide +kernel, by decide +kernel, by decide +kernel⟩
  have h : (loop.vars 2).g.hasStep = true := by decide +kernel
  unfold stepSlot
  rw [if_pos h]
  rfl

theorem pts (q : LPt) (h : q ∈ loop.eqs.map (·.1) ∨ loop.IsRead q) : q ∈ [((0, [1, 0, 0, 0]) : LPt), p1, b1, c1] := by
  rw [isRead] at h
  simp only [loop, part, eqs, List.map_cons, List.map_nil, List.mem_cons, List.not_mem_nil, or_false] at h ⊢
  tauto

theorem loopOk : loop.Ok Int "y" ix := by
  refine ⟨fun q hq => ?_, fun e he => ?_, fun i p => ?_, fun q hq hf l => ?_, rfl, ⟨⟨3, rfl⟩, by decide +kernel⟩, fun _ => ⟨1, by decide +kernel⟩⟩
  · have h : ∀ q ∈ [((0, [1, 0, 0, 0]) : LPt), p1, b1, c1], q.2.length = (loop.vars q.1).g.dims.length := by decide +kernel
    have hq := pts q hq
    refine ⟨?_, h q hq⟩
    simp only [List.mem_cons, List.not_mem_nil, or_false] at hq
    rcases hq with rfl | rfl | rfl | rfl
    · exact .inl varOk
    · exact .inl varOk
    · exact .inr bOk
    · exact .inr cOk
  · simp only [loop, part, eqs, List.mem_cons, List.not_mem_nil, or_false] at he
    subst he
    refine ⟨varOk, ?_⟩
    show WholeVecs (PtrExample.yvar.g.dims.map accessDim) _
    rw [accessDims]
    unfold WholeVecs
    simp
  · refine (mem_aligned [p1] i p).trans ⟨?_, ?_⟩
    · rintro ⟨q, hq, rfl, h⟩
      simp only [List.mem_cons, List.not_mem_nil, or_false] at hq
      subst hq
      exact ⟨p1, (isRead _).2 (by simp), rfl, LoopExample.foldable, h⟩
    · rintro ⟨q, hq, rfl, hf, h⟩
      rw [isRead] at hq
      simp only [List.mem_cons, List.not_mem_nil, or_false] at hq
      rcases hq with rfl | rfl | rfl
      · exact ⟨p1, by simp, rfl, h⟩
      · exact absurd hf (by decide +kernel)
      · exact absurd hf (by decide +kernel)
  · rw [isRead] at hq
    simp only [List.mem_cons, List.not_mem_nil, or_false] at hq
    rcases hq with rfl | rfl | rfl
    · exact part_order eqs [p1] p1 l
    · exact absurd hf (by decide +kernel)
    · exact absurd hf (by decide +kernel)

theorem apart : loop.Apart "y" ix 3 where
  range q hq j hj k hk := by
    have h : ∀ q ∈ [((0, [1, 0, 0, 0]) : LPt), p1, b1, c1], ∀ j < 3, ∀ k < 8,
        InRangeButStep (loop.vars q.1).g.api (loop.elem "y" ix q j k) := by
      unfold InRangeButStep
      decide +kernel
    exact h q (pts q hq) j hj k (by have := hk.1; rwa [show loop.vlen = 8 by decide +kernel] at this)
  writes q hq q' hq' hqq j hj j' hj' k k' hk hk' hs := by
    simp only [loop, part, eqs, List.map_cons, List.map_nil, List.mem_cons, List.not_mem_nil, or_false] at hq hq'
    rw [hq, hq']
  reads r hr r' hr' q hq hqq j hj j' hj' k k' hk hk' hs := by
    have h : ∀ j < 3, ∀ j' < 3, ∀ k < 8, ∀ k' < 8,
        ¬ SameElem (loop.vars 0).g.api (loop.elem "y" ix p1 j k) (loop.elem "y" ix (0, [1, 0, 0, 0]) j' k') := by decide +kernel
    have hr0 : r = 0 := by simp [loop, part, eqs] at hr; exact hr
    have hr0' : r' = 0 := by simp [loop, part, eqs] at hr'; exact hr'
    subst hr0 hr0'
    have hv : loop.vlen = 8 := by decide +kernel
    have hk1 := hk.1
    have hk2 := hk'.1
    rw [hv] at hk1 hk2
    simp [loop, part, eqs, Ex.points, Ex.pointsAll] at hq
    rcases hq with rfl | rfl | rfl
    · exact absurd hs (h j hj j' hj' k hk1 k' hk2)
    · exact absurd hqq (by show ¬ (_ : Nat) = 0; decide)
    · exact absurd hqq (by show ¬ (_ : Nat) = 0; decide)

/-- The other hypotheses of `C80_lanes_partial`. -/
theorem eqsOk : (loop.eqs.map (·.1)).Nodup ∧ (∀ m, ∀ e ∈ loop.eqs, e.2.All (Ex.NodeOk intArith m node (loop.eqs.map (·.1)))) ∧
    ∀ e ∈ loop.eqs, e.2.Plain intArith := by
  refine ⟨by decide +kernel, ?_, ?_⟩
  · intro m
    simp [loop, part, eqs, p1, b1, c1, Ex.All, Ex.Alls, Ex.NodeOk, Ex.id, node]
  · simp [loop, part, eqs, Ex.Plain, Ex.PlainFold, Ex.intOf, Ex.intFold, IntOk, intApply]

/-- Lane 5 of iteration 2: `A(8, 21, 5, 0) = A(7, 20, 6, -1) * B(22) + C(7, 1)`. -/
example : loop.elem "y" ix (0, [1, 0, 0, 0]) 2 5 = [8, 21, 5, 0] ∧ loop.elem "y" ix p1 2 5 = [7, 20, 6, -1] ∧
    loop.elem "y" ix b1 2 5 = [22] ∧ loop.elem "y" ix c1 2 5 = [7, 1] ∧
    (do let m ← loop.run 0 intArith.lanes ix 3 fun i a => 1000 * i + a
        let a ← PtrExample.yvar.g.addrOf [8, 21, 5, 0]
        .ok (m 0 a)) =
      (do let a ← PtrExample.yvar.g.addrOf [7, 20, 6, -1]
          let b ← bVar.g.addrOf [22]
          let d ← cVar.g.addrOf [7, 1]
          .ok (a * (1000 + b) + (2000 + d)) : Outcome Int) := by decide +kernel

end LoopElemExample
end Yask
