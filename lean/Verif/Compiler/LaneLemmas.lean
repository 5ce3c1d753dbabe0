import Verif.Compiler.InnerLoopModel
import Verif.Spec.LoopSpec

/-! Helper lemmas: the statements of the generated code, element by element of the vectors; the points that they access. -/

namespace Yask.Comp
open Spec.Cpp

theorem ok_of_bind {α β : Type} {x : Outcome α} {f : α → Outcome β} {b : β} (h : (x >>= f) = .ok b) :
    ∃ a, x = .ok a ∧ f a = .ok b := by
  cases x with
  | ok a => exact ⟨a, rfl, h⟩
  | throws => cases h
  | undefined => cases h

/-! ### Element by element -/

section
variable {V : Type}

/-- Element `k` of a value. -/
def laneVal (k : Nat) : Val (Nat → V) → Val V
  | .int l n => .int l n
  | .real r => .real (r k)

/-- Element `k` of the variables. -/
def laneEnv (k : Nat) (env : Name → Option (Nat → V)) : Name → Option V := fun x => (env x).map fun w => w k

/-- The same outcome, with the value at element `k`. -/
def outAt {α β : Type} (f : α → β) : Outcome α → Outcome β
  | .ok a => .ok (f a)
  | .throws => .throws
  | .undefined => .undefined

theorem toReal_lane (A : Arith V) (k : Nat) (v : Val (Nat → V)) : (laneVal k v).toReal A = (v.toReal A.lanes) k := by
  cases v <;> rfl

theorem mkInt_lane (k : Nat) (l : Bool) (n : Int) : (mkInt l n : Outcome (Val V)) = outAt (laneVal k) (mkInt l n) := by
  unfold mkInt; split_ifs <;> rfl

theorem negVal_lane (A : Arith V) (k : Nat) (v : Val (Nat → V)) : negVal A (laneVal k v) = outAt (laneVal k) (negVal A.lanes v) := by
  cases v with
  | int l n => exact mkInt_lane k l (-n)
  | real r => rfl

theorem binVal_lane (A : Arith V) (k : Nat) (op : Op) (v w : Val (Nat → V)) :
    binVal A op (laneVal k v) (laneVal k w) = outAt (laneVal k) (binVal A.lanes op v w) := by
  cases v with
  | int l n =>
    cases w with
    | int l' n' =>
      simp only [laneVal, binVal]
      cases intBin op n n' with
      | ok x => exact mkInt_lane k _ x
      | throws => rfl
      | undefined => rfl
    | real r => simp only [laneVal, binVal]; split_ifs <;> rfl
  | real r => cases w <;> (simp only [laneVal, binVal]; split_ifs <;> rfl)

mutual
theorem eval_lane (A : Arith V) (k : Nat) (env : Name → Option (Nat → V)) : ∀ e : CE,
    e.eval A (laneEnv k env) = outAt (laneVal k) (e.eval A.lanes env)
  | .int n => by
    simp only [CE.eval]
    split_ifs <;> rfl
  | .real q => rfl
  | .var x => by
    simp only [CE.eval, laneEnv]
    cases env x <;> rfl
  | .neg a => by
    simp only [CE.eval]
    rw [eval_lane A k env a]
    cases a.eval A.lanes env with
    | ok v => exact negVal_lane A k v
    | throws => rfl
    | undefined => rfl
  | .bin op a b => by
    simp only [CE.eval]
    rw [eval_lane A k env a, eval_lane A k env b]
    cases a.eval A.lanes env with
    | ok v =>
      cases b.eval A.lanes env with
      | ok w => exact binVal_lane A k op v w
      | throws => rfl
      | undefined => rfl
    | throws => rfl
    | undefined => rfl
  | .call f args => by
    simp only [CE.eval]
    rw [evalAll_lane A k env args]
    cases CE.evalAll A.lanes env args with
    | ok vs =>
      simp only [outAt, Outcome.bind_ok, laneVal, Outcome.ok.injEq, Val.real.injEq, Arith.lanes, List.map_map]
      congr 1
      apply List.map_congr_left
      intro v _
      exact toReal_lane A k v
    | throws => rfl
    | undefined => rfl
theorem evalAll_lane (A : Arith V) (k : Nat) (env : Name → Option (Nat → V)) : ∀ es : List CE,
    CE.evalAll A (laneEnv k env) es = outAt (List.map (laneVal k)) (CE.evalAll A.lanes env es)
  | [] => rfl
  | a :: as => by
    simp only [CE.evalAll]
    rw [eval_lane A k env a, evalAll_lane A k env as]
    cases a.eval A.lanes env with
    | ok v => cases CE.evalAll A.lanes env as <;> rfl
    | throws => rfl
    | undefined => rfl
end

theorem textVal_lane (A : Arith V) (k : Nat) (env : Name → Option (Nat → V)) (t : List Piece) :
    textVal A (laneEnv k env) t = outAt (fun w => w k) (textVal A.lanes env t) := by
  unfold textVal
  cases parse t with
  | none => rfl
  | some a =>
    simp only
    rw [eval_lane]
    cases a.eval A.lanes env with
    | ok v => simp only [outAt, Outcome.bind_ok]; rw [toReal_lane]
    | throws => rfl
    | undefined => rfl

theorem textVals_lane (A : Arith V) (k : Nat) (env : Name → Option (Nat → V)) (ts : List (List Piece)) :
    textVals A (laneEnv k env) ts = outAt (List.map fun w => w k) (textVals A.lanes env ts) := by
  induction ts with
  | nil => rfl
  | cons t ts ih =>
    simp only [textVals]
    rw [textVal_lane, ih]
    cases textVal A.lanes env t with
    | ok v => cases textVals A.lanes env ts <;> rfl
    | throws => rfl
    | undefined => rfl

theorem laneEnv_none {k : Nat} {env : Name → Option (Nat → V)} {x : Name} : laneEnv k env x = none ↔ env x = none := by
  simp [laneEnv]

theorem laneEnv_upd (k : Nat) (env : Name → Option (Nat → V)) (x : Name) (w : Nat → V) :
    laneEnv k (upd env x (some w)) = upd (laneEnv k env) x (some (w k)) := by
  funext y
  simp only [laneEnv, upd]
  split_ifs <;> rfl

end

/-! ### The points of the statements -/

section
variable {π : Type} [DecidableEq π]

/-- The statements load only points in `rd`, and store nothing. -/
def CodeIn (rd : π → Prop) (code : List (Stmt π)) : Prop :=
  (∀ x p, Stmt.load x p ∈ code → rd p) ∧ ∀ x p, Stmt.store p x ∉ code

/-- Such statements are added. -/
def Grows (rd : π → Prop) (out out' : List (Stmt π)) : Prop := ∃ seg, out' = out ++ seg ∧ CodeIn rd seg

variable {rd : π → Prop} {out0 : List (Stmt π)}

omit [DecidableEq π] in
theorem grows_refl (rd : π → Prop) (out : List (Stmt π)) : Grows rd out out :=
  ⟨[], by simp, fun _ _ h => by simp at h, fun _ _ h => by simp at h⟩

omit [DecidableEq π] in
theorem grows_one {out : List (Stmt π)} (h : Grows rd out0 out) {s : Stmt π} (h1 : ∀ x p, Stmt.load x p = s → rd p)
    (h2 : ∀ x p, Stmt.store p x ≠ s) : Grows rd out0 (out ++ [s]) := by
  obtain ⟨seg, rfl, h3, h4⟩ := h
  refine ⟨seg ++ [s], by simp, fun x p hm => ?_, fun x p hm => ?_⟩
  · rcases List.mem_append.1 hm with h | h
    · exact h3 x p h
    · exact h1 x p (List.mem_singleton.1 h)
  · rcases List.mem_append.1 hm with h | h
    · exact h4 x p h
    · exact h2 x p (List.mem_singleton.1 h)

theorem codeIn_readPt {s : PState π} {p : π} (h : Grows rd out0 s.out) (hp : rd p) : Grows rd out0 (s.readPt p).2.out := by
  unfold PState.readPt
  cases s.pts.lookup p with
  | some x => exact h
  | none =>
    refine grows_one h (fun x q hq => ?_) fun x q hq => by cases hq
    injection hq with _ h2
    rw [h2]; exact hp

omit [DecidableEq π] in
theorem codeIn_newTemp {out : List (Stmt π)} (h : Grows rd out0 out) (x : Name) (t : List Piece) :
    Grows rd out0 (out ++ [.decl x t]) := grows_one h (fun x q hq => by cases hq) fun x q hq => by cases hq

mutual
theorem topDown_code (o : PrintOpts) : ∀ (e : Ex π) (s : PState π) (r : List Piece × Nat × PState π), topDown o e s = .ok r →
    (∀ p ∈ e.points, rd p) → Grows rd out0 s.out → Grows rd out0 r.2.2.out
  | .const i q, s, r, h, _, hs => by
    rw [topDown] at h
    obtain ⟨t, _, h2⟩ := ok_of_bind h
    injection h2 with h2
    rw [← h2]; exact hs
  | .read i p, s, r, h, hp, hs => by
    rw [topDown] at h
    injection h with h
    rw [← h]; exact codeIn_readPt hs (hp p (by simp [Ex.points]))
  | .neg i a, s, r, h, hp, hs => by
    rw [topDown] at h
    obtain ⟨t, h1, h2⟩ := ok_of_bind h
    injection h2 with h2
    rw [← h2]; exact topDown_code o a s t h1 (fun p hq => hp p (by simpa [Ex.points] using hq)) hs
  | .bin i op l r, s, x, h, hp, hs => by
    rw [topDown] at h
    obtain ⟨t, h1, h2⟩ := ok_of_bind h
    obtain ⟨t', h3, h4⟩ := ok_of_bind h2
    injection h4 with h4
    rw [← h4]
    exact topDown_code o r _ t' h3 (fun p hq => hp p (by simp [Ex.points, hq]))
      (topDown_code o l s t h1 (fun p hq => hp p (by simp [Ex.points, hq])) hs)
  | .comm i op as, s, x, h, hp, hs => by
    rw [topDown] at h
    obtain ⟨t, h1, h2⟩ := ok_of_bind h
    injection h2 with h2
    rw [← h2]; exact topDowns_code o as s t h1 (fun p hq => hp p (by simpa [Ex.points] using hq)) hs
  | .func i f pr as, s, x, h, hp, hs => by
    rw [topDown] at h
    obtain ⟨t, h1, h2⟩ := ok_of_bind h
    injection h2 with h2
    rw [← h2]; exact topDowns_code o as s t h1 (fun p hq => hp p (by simpa [Ex.points] using hq)) hs
theorem topDowns_code (o : PrintOpts) : ∀ (as : List (Ex π)) (s : PState π) (r : List (List Piece) × Nat × PState π),
    topDowns o as s = .ok r → (∀ p ∈ Ex.pointsAll as, rd p) → Grows rd out0 s.out → Grows rd out0 r.2.2.out
  | [], s, r, h, _, hs => by
    rw [topDowns] at h
    injection h with h
    rw [← h]; exact hs
  | a :: as, s, r, h, hp, hs => by
    rw [topDowns] at h
    obtain ⟨t, h1, h2⟩ := ok_of_bind h
    obtain ⟨t', h3, h4⟩ := ok_of_bind h2
    injection h4 with h4
    rw [← h4]
    exact topDowns_code o as _ t' h3 (fun p hq => hp p (by simp [Ex.pointsAll, hq]))
      (topDown_code o a s t h1 (fun p hq => hp p (by simp [Ex.pointsAll, hq])) hs)
end

theorem trySimple_code (o : PrintOpts) (force : Bool) (e : Ex π) (s : PState π) (r : Option (List Piece) × PState π)
    (h : trySimple o force e s = .ok r) (hp : ∀ p ∈ e.points, rd p) (hs : Grows rd out0 s.out) : Grows rd out0 r.2.out := by
  unfold trySimple at h
  cases hl : s.temps.lookup e.id with
  | some x =>
    rw [hl] at h
    injection h with h
    rw [← h]; exact hs
  | none =>
    rw [hl] at h
    simp only at h
    by_cases hf : (force || decide (o.size e.id ≤ o.maxSize)) = true
    · rw [if_pos hf] at h
      obtain ⟨t, h1, h2⟩ := ok_of_bind h
      have ht := topDown_code (out0 := out0) o e s t h1 hp hs
      by_cases hc : t.2.1 = 0
      · rw [if_pos hc] at h2
        injection h2 with h2
        rw [← h2]; exact ht
      rw [if_neg hc] at h2
      by_cases hfo : force = true
      · rw [if_pos hfo] at h2
        by_cases hz : o.size e.id < o.minSize
        · rw [if_pos hz] at h2
          injection h2 with h2
          rw [← h2]; exact ht
        · rw [if_neg hz] at h2
          injection h2 with h2
          rw [← h2]; exact codeIn_newTemp ht _ _
      · rw [if_neg hfo] at h2
        injection h2 with h2
        rw [← h2]; exact ht
    · rw [if_neg hf] at h
      injection h with h
      rw [← h]; exact hs

mutual
theorem bottomUp_code (o : PrintOpts) : ∀ (e : Ex π) (s : PState π) (r : List Piece × PState π), bottomUp o e s = .ok r →
    (∀ p ∈ e.points, rd p) → Grows rd out0 s.out → Grows rd out0 r.2.out
  | .const i q, s, r, h, hp, hs => by
    rw [bottomUp] at h
    obtain ⟨t, h1, h2⟩ := ok_of_bind h
    injection h2 with h2
    rw [← h2]; exact trySimple_code o true _ s t h1 hp hs
  | .read i p, s, r, h, hp, hs => by
    rw [bottomUp] at h
    obtain ⟨t, h1, h2⟩ := ok_of_bind h
    injection h2 with h2
    rw [← h2]; exact trySimple_code o true _ s t h1 hp hs
  | .neg i a, s, r, h, hp, hs => by
    rw [bottomUp] at h
    obtain ⟨t, h1, h2⟩ := ok_of_bind h
    have ht := trySimple_code (out0 := out0) o false _ s t h1 hp hs
    obtain ⟨t1, t2⟩ := t
    cases t1 with
    | some y =>
      injection h2 with h2
      rw [← h2]; exact ht
    | none =>
      obtain ⟨x, h3, h4⟩ := ok_of_bind h2
      injection h4 with h4
      rw [← h4]
      exact codeIn_newTemp (bottomUp_code o a _ x h3 (fun p hq => hp p (by simpa [Ex.points] using hq)) ht) _ _
  | .bin i op l r, s, x, h, hp, hs => by
    rw [bottomUp] at h
    obtain ⟨t, h1, h2⟩ := ok_of_bind h
    have ht := trySimple_code (out0 := out0) o false _ s t h1 hp hs
    obtain ⟨t1, t2⟩ := t
    cases t1 with
    | some y =>
      injection h2 with h2
      rw [← h2]; exact ht
    | none =>
      obtain ⟨x, h3, h4⟩ := ok_of_bind h2
      obtain ⟨y, h5, h6⟩ := ok_of_bind h4
      injection h6 with h6
      rw [← h6]
      exact codeIn_newTemp (bottomUp_code o r _ y h5 (fun p hq => hp p (by simp [Ex.points, hq]))
        (bottomUp_code o l _ x h3 (fun p hq => hp p (by simp [Ex.points, hq])) ht)) _ _
  | .comm i op as, s, x, h, hp, hs => by
    rw [bottomUp] at h
    obtain ⟨t, h1, h2⟩ := ok_of_bind h
    have ht := trySimple_code (out0 := out0) o false _ s t h1 hp hs
    obtain ⟨t1, t2⟩ := t
    cases t1 with
    | some y =>
      injection h2 with h2
      rw [← h2]; exact ht
    | none =>
      cases as with
      | nil =>
        injection h2 with h2
        rw [← h2]; exact ht
      | cons a as =>
        obtain ⟨y, h3, h4⟩ := ok_of_bind h2
        have hpa : ∀ p ∈ a.points, rd p := fun p hq => hp p (by simp [Ex.points, Ex.pointsAll, hq])
        have hpas : ∀ p ∈ Ex.pointsAll as, rd p := fun p hq => hp p (by simp [Ex.points, Ex.pointsAll, hq])
        exact bottomComm_code o op i as _ _ x h4 hpas (bottomUp_code o a _ y h3 hpa ht)
  | .func i f (some (j, g)) as, s, x, h, hp, hs => by
    rw [bottomUp] at h
    cases hl : s.temps.lookup i with
    | some y =>
      rw [hl] at h
      injection h with h
      rw [← h]; exact hs
    | none =>
      rw [hl] at h
      obtain ⟨r, h1, h2⟩ := ok_of_bind h
      have hr : Grows rd out0 r.2.out := bottomUps_code o as s r h1 (fun p hq => hp p (by simpa [Ex.points] using hq)) hs
      injection h2 with h2
      rw [← h2]
      have h3 := codeIn_newTemp (codeIn_newTemp hr ⟨"arg0", r.2.num⟩ [.intLit 0]) ⟨"arg1", r.2.num + 1⟩ [.intLit 0]
      exact grows_one h3 (fun x q hq => by cases hq) fun x q hq => by cases hq
  | .func i f none as, s, x, h, hp, hs => by
    rw [bottomUp] at h
    obtain ⟨t, h1, h2⟩ := ok_of_bind h
    have ht := trySimple_code (out0 := out0) o false _ s t h1 hp hs
    obtain ⟨t1, t2⟩ := t
    cases t1 with
    | some y =>
      injection h2 with h2
      rw [← h2]; exact ht
    | none =>
      obtain ⟨r, h3, h4⟩ := ok_of_bind h2
      injection h4 with h4
      rw [← h4]
      exact codeIn_newTemp (bottomUps_code o as _ r h3 (fun p hq => hp p (by simpa [Ex.points] using hq)) ht) _ _
theorem bottomUps_code (o : PrintOpts) : ∀ (as : List (Ex π)) (s : PState π) (r : List (List Piece) × PState π),
    bottomUps o as s = .ok r → (∀ p ∈ Ex.pointsAll as, rd p) → Grows rd out0 s.out → Grows rd out0 r.2.out
  | [], s, r, h, _, hs => by
    rw [bottomUps] at h
    injection h with h
    rw [← h]; exact hs
  | a :: as, s, r, h, hp, hs => by
    rw [bottomUps] at h
    obtain ⟨t, h1, h2⟩ := ok_of_bind h
    obtain ⟨t', h3, h4⟩ := ok_of_bind h2
    injection h4 with h4
    rw [← h4]
    exact bottomUps_code o as _ t' h3 (fun p hq => hp p (by simp [Ex.pointsAll, hq]))
      (bottomUp_code o a s t h1 (fun p hq => hp p (by simp [Ex.pointsAll, hq])) hs)
theorem bottomComm_code (o : PrintOpts) (op : Op) (i : Nat) : ∀ (as : List (Ex π)) (lhs : List Piece) (s : PState π)
    (r : List Piece × PState π), bottomComm o op i lhs as s = .ok r → (∀ p ∈ Ex.pointsAll as, rd p) → Grows rd out0 s.out →
    Grows rd out0 r.2.out
  | [], lhs, s, r, h, _, hs => by
    rw [bottomComm] at h
    injection h with h
    rw [← h]; exact hs
  | a :: as, lhs, s, r, h, hp, hs => by
    rw [bottomComm] at h
    obtain ⟨x, h1, h2⟩ := ok_of_bind h
    exact bottomComm_code o op i as _ _ r h2 (fun p hq => hp p (by simp [Ex.pointsAll, hq]))
      (codeIn_newTemp (bottomUp_code o a s x h1 (fun p hq => hp p (by simp [Ex.pointsAll, hq])) hs) _ _)
end

/-- The code of several equations: for each, statements that load points which the equation reads, and then the store. -/
inductive Segs : List (π × Ex π) → List (Stmt π) → Prop
  | nil : Segs [] []
  | cons {e : π × Ex π} {es : List (π × Ex π)} {seg code : List (Stmt π)} (x : Name) : CodeIn (· ∈ e.2.points) seg → Segs es code →
      Segs (e :: es) (seg ++ .store e.1 x :: code)

theorem printEqs_code (o : PrintOpts) (es : List (π × Ex π)) : ∀ (s s' : PState π), printEqs o es s = .ok s' →
    ∃ code, s'.out = s.out ++ code ∧ Segs es code := by
  induction es with
  | nil =>
    intro s s' h
    injection h with h
    exact ⟨[], by simp [h], .nil⟩
  | cons e es ih =>
    intro s s' h
    obtain ⟨t, h1, h2⟩ := ok_of_bind h
    obtain ⟨code, h3, h4⟩ := ih t s' h2
    unfold printEq at h1
    obtain ⟨x, h5, h6⟩ := ok_of_bind h1
    injection h6 with h6
    obtain ⟨seg, h7, h8⟩ := codeIn_newTemp (bottomUp_code (rd := (· ∈ e.2.points)) o e.2 s x h5 (fun p hp => hp) (grows_refl _ _))
      ⟨"expr", x.2.num⟩ x.1
    refine ⟨seg ++ .store e.1 ⟨"expr", x.2.num⟩ :: code, ?_, .cons _ h8 h4⟩
    rw [h3, ← h6]
    show ((x.2.out ++ [Stmt.decl ⟨"expr", x.2.num⟩ x.1]) ++ [Stmt.store e.1 ⟨"expr", x.2.num⟩]) ++ code = _
    rw [h7]; simp

/-- The code of a part. -/
theorem printPart_code (o : PrintOpts) (es : List (π × Ex π)) (code : List (Stmt π)) (h : printPart o es = .ok code) : Segs es code := by
  obtain ⟨s, h1, h2⟩ := ok_of_bind h
  injection h2 with h2
  obtain ⟨code', h3, h4⟩ := printEqs_code o es _ s h1
  rw [← h2, h3]
  simpa using h4

end

/-! ### The value of an expression depends on the points that it reads -/

mutual
theorem value_congr {π R : Type} (A : Arith R) (m m' : π → R) : ∀ e : Ex π, (∀ p ∈ e.points, m p = m' p) → e.value A m = e.value A m'
  | .const _ _, _ => rfl
  | .read _ p, h => h p (by simp [Ex.points])
  | .neg _ a, h => by
    simp only [Ex.value]
    rw [value_congr A m m' a fun p hp => h p (by simpa [Ex.points] using hp)]
  | .bin _ _ l r, h => by
    simp only [Ex.value]
    rw [value_congr A m m' l fun p hp => h p (by simp [Ex.points, hp]), value_congr A m m' r fun p hp => h p (by simp [Ex.points, hp])]
  | .comm _ _ [], _ => rfl
  | .comm _ op (a :: as), h => by
    simp only [Ex.value]
    rw [value_congr A m m' a fun p hp => h p (by simp [Ex.points, Ex.pointsAll, hp])]
    exact foldValue_congr A m m' op as _ fun p hp => h p (by simp [Ex.points, Ex.pointsAll, hp])
  | .func _ _ _ as, h => by
    simp only [Ex.value]
    rw [values_congr A m m' as fun p hp => h p (by simpa [Ex.points] using hp)]
theorem foldValue_congr {π R : Type} (A : Arith R) (m m' : π → R) (op : Op) : ∀ (as : List (Ex π)) (v : R),
    (∀ p ∈ Ex.pointsAll as, m p = m' p) → Ex.foldValue A m op v as = Ex.foldValue A m' op v as
  | [], _, _ => rfl
  | a :: as, v, h => by
    simp only [Ex.foldValue]
    rw [value_congr A m m' a fun p hp => h p (by simp [Ex.pointsAll, hp])]
    exact foldValue_congr A m m' op as _ fun p hp => h p (by simp [Ex.pointsAll, hp])
theorem values_congr {π R : Type} (A : Arith R) (m m' : π → R) : ∀ as : List (Ex π), (∀ p ∈ Ex.pointsAll as, m p = m' p) →
    Ex.values A m as = Ex.values A m' as
  | [], _ => rfl
  | a :: as, h => by
    simp only [Ex.values]
    rw [value_congr A m m' a fun p hp => h p (by simp [Ex.pointsAll, hp]),
      values_congr A m m' as fun p hp => h p (by simp [Ex.pointsAll, hp])]
end

end Yask.Comp
