import Verif.Compiler.HaloModel

/-!
# Specification: values overwritten before they are read

Only the data types of equations and stages are used from the model.

The solution is evaluated for step 0, 1, 2, ... of the run; step number `n` has the step index `t0 + dir * n`. In each
step the non-scratch stages are evaluated in order, each preceded by the scratch stages it requires. A var with `sz`
slots keeps step index `t` in slot `t mod sz`.
-/

namespace Yask.Spec
open Comp

/-- The equations evaluated with a stage. -/
def stageEqs (S : HSys) (st : HStage) : List PEq :=
  st.eqs ++ (S.stages.filter fun s => decide (s.id ∈ S.scrDeps st.id)).flatMap HStage.eqs

/-- The non-scratch stages. -/
def mainStages (S : HSys) : List HStage := S.stages.filter fun s => !s.scr

/-- Equation `e'` in stage number `i` of step number `n'` can be evaluated somewhere before or while equation `e` in stage
number `j` of step number `n` reads the point `p`. The points of a stage can be visited in any order, but an
equation reads its own point before it writes it. -/
def MayPrecede (n' i : Nat) (e' : PEq) (n j : Nat) (e : PEq) (p : Pt) : Prop :=
  n' < n ∨ n' = n ∧ (i < j ∨ i = j ∧ ¬ (e' = e ∧ ∀ d ∈ p.dom, d.2 = 0))

/-- Step index `w` is later than `r` and uses the same slot. -/
def Replaces (sz dir w r : Int) : Prop := 0 < (w - r) * dir ∧ sz ∣ w - r

/-- Some equation reads a value of var `v` that may have been overwritten by a later step. -/
def MayReadStale (S : HSys) (v : Nat) (sz t0 dir : Int) : Prop :=
  ∃ (n' i : Nat) (e' : PEq) (w : Int) (n j : Nat) (e : PEq) (p : Pt) (k : Int),
    (∃ st, (mainStages S)[i]? = some st ∧ e' ∈ stageEqs S st) ∧ e'.lhs.var = v ∧ e'.lhs.step = some w ∧
    (∃ st, (mainStages S)[j]? = some st ∧ e ∈ stageEqs S st) ∧ p ∈ e.rhs ∧ p.var = v ∧ p.step = some k ∧
    MayPrecede n' i e' n j e p ∧ Replaces sz dir (t0 + dir * n' + w) (t0 + dir * n + k)

/-- The same where the order is fixed: the write is in an earlier stage, or in an earlier part of the same stage. -/
def ReadsStale (S : HSys) (v : Nat) (sz t0 dir : Int) : Prop :=
  ∃ (n i j : Nat) (sti stj : HStage) (a b : Nat) (P Q : List PEq) (e' e : PEq) (w k : Int) (p : Pt),
    (mainStages S)[i]? = some sti ∧ (mainStages S)[j]? = some stj ∧ sti.parts[a]? = some P ∧ stj.parts[b]? = some Q ∧
    e' ∈ P ∧ e ∈ Q ∧ (i < j ∨ i = j ∧ a < b) ∧ e'.lhs.var = v ∧ e'.lhs.step = some w ∧ p ∈ e.rhs ∧ p.var = v ∧
    p.step = some k ∧ Replaces sz dir (t0 + dir * n + w) (t0 + dir * n + k)

/-- Stage `st` accesses var `v` at step offset `k`. -/
def Accesses (S : HSys) (st : HStage) (v : Nat) (k : Int) : Prop :=
  ∃ e ∈ stageEqs S st, ∃ p ∈ e.lhs :: e.rhs, p.var = v ∧ p.step = some k

end Yask.Spec
