import Verif.Compiler.PrefetchModel

/-!
# What prefetch distances have been requested
-/

namespace Yask.Prefetch

/-- The call requests the distance `v` for a level: by a call with a legal level and distance, or by the option for this level. -/
def Requests : Op → Int → Int → Prop
  | .set l dist, level, v => l = level ∧ dist = v ∧ (level = 1 ∨ level = 2) ∧ 0 ≤ v
  | .options l1 l2, level, v => (level = 1 ∧ l1 = some v) ∨ (level = 2 ∧ l2 = some v)

/-- The distance last requested for a level, or 0. -/
def Requested (ops : List Op) (level v : Int) : Prop :=
  (∃ pre o post, ops = pre ++ o :: post ∧ Requests o level v ∧ ∀ o' ∈ post, ∀ u, ¬ Requests o' level u) ∨
  ((∀ o ∈ ops, ∀ u, ¬ Requests o level u) ∧ v = 0)

end Yask.Prefetch
