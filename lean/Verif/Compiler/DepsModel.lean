import Verif.Common.Outcome

/-!
# Model of the dependency graphs of the compiler

`Deps` and `DepGroup` (`src/compiler/lib/Eqs.hpp:46-511`).  Objects are identified by their pointers, here
by the elements of a type with decidable equality.  The sets and maps of the C++ standard library
(`unordered_set`, `unordered_map`) iterate in an unspecified order: every iteration is over the image of
the contents under an arbitrary reordering `ord`.
-/

namespace Yask.Comp

variable {α : Type} [DecidableEq α]

/-- `unordered_set::insert`. -/
def setInsert (l : List α) (a : α) : List α := if a ∈ l then l else a :: l

/-- Class `Deps` (`Eqs.hpp:48-62`). A key that is not in a map has no entries. -/
structure Deps (α : Type) where
  /-- `_all` -/
  all : List α := []
  /-- `_imm_deps` -/
  imm : α → List α := fun _ => []
  /-- `_full_deps` -/
  full : α → List α := fun _ => []
  /-- `_done` -/
  done : Bool := false

/-- `set_imm_dep_on` (`Eqs.hpp:151-156`). -/
def Deps.setImm (d : Deps α) (a b : α) : Deps α where
  all := setInsert (setInsert d.all a) b
  imm := fun x => if x = a then setInsert (d.imm a) b else d.imm x
  full := d.full
  done := false

/-- `clear_deps` (`Eqs.hpp:159-164`). -/
def Deps.clear (_ : Deps α) : Deps α := { all := [], imm := fun _ => [], full := fun _ => [], done := true }

/-- `is_imm_dep_on` (`Eqs.hpp:167-169`). -/
def Deps.isImmDepOn (d : Deps α) (a b : α) : Bool := decide (b ∈ d.imm a)

/-- `is_dep_on` (`Eqs.hpp:177-180`), without the assertion. -/
def Deps.isDepOn (d : Deps α) (a b : α) : Bool := decide (b ∈ d.full a)

/-- `is_dep` (`Eqs.hpp:183-185`). -/
def Deps.isDep (d : Deps α) (a b : α) : Bool := d.isDepOn a b || d.isDepOn b a

/-- State of a depth-first search: `visited`, `finished`, and the objects passed to the visitor so far. -/
structure Dfs (α : Type) where
  vis : List α := []
  fin : List α := []
  out : List α := []

/-- `_dfs_visit_deps` (`Eqs.hpp:97-134`). The depth of the recursion is limited here; running out of it is
the outcome `undefined`. -/
def dfs (imm : α → List α) (ord : List α → List α) (pre : Bool) : Nat → α → Dfs α → Outcome (Dfs α)
  | 0, _, _ => .undefined
  | n + 1, a, s =>
    if a ∈ s.fin then .ok s
    else if a ∈ s.vis then .throws
    else do
      let s1 : Dfs α := ⟨a :: s.vis, s.fin, if pre then s.out ++ [a] else s.out⟩
      let s2 ← (ord (imm a)).foldlM (fun s b => dfs imm ord pre n b s) s1
      .ok ⟨s2.vis, a :: s2.fin, if pre then s2.out else s2.out ++ [a]⟩

/-- `dfs_visit_deps` (`Eqs.hpp:215-219`): the objects passed to the visitor, in order. -/
def Deps.visit (d : Deps α) (ord : List α → List α) (pre : Bool) (a : α) : Outcome (List α) := do
  let s ← dfs d.imm ord pre (d.all.length + 2) a {}
  .ok s.out

/-- `find_all_deps` (`Eqs.hpp:252-290`).  If it throws, the compiler ends (or the caller calls
`clear_deps`), so the state left behind is not modelled. -/
def Deps.findAll (d : Deps α) (ord : List α → List α) : Outcome (Deps α) :=
  if d.done then .ok d
  else do
    let full ← (ord d.all).foldlM (fun (full : α → List α) a => do
      let bs ← d.visit ord true a
      .ok (fun x => if x = a then bs.foldl (fun l b => if a ≠ b then setInsert l b else l) (full a) else full x))
      d.full
    .ok { d with full := full, done := true }

/-- Class `DepGroup` (`Eqs.hpp:299-326`): `_all`, `_deps`, `_scratches`. -/
structure DepGroup (α : Type) where
  all : List α := []
  deps : Deps α := {}
  scr : Deps α := {}

/-- `add_item` (`Eqs.hpp:344-346`), on a `vector_set` that nothing is erased from. -/
def DepGroup.addItem (g : DepGroup α) (a : α) : DepGroup α :=
  { g with all := if a ∈ g.all then g.all else g.all ++ [a] }

/-- `DepGroup::set_imm_dep_on` (`Eqs.hpp:381-390`). `isScr` is `is_scratch()`. -/
def DepGroup.setImm (isScr : α → Bool) (g : DepGroup α) (a b : α) : Outcome (DepGroup α) :=
  let g1 := (g.addItem a).addItem b
  let g2 := { g1 with
    deps := g1.deps.setImm a b
    scr := if isScr b then g1.scr.setImm a b else g1.scr }
  if a = b then .throws else .ok g2

/-- `DepGroup::clear_deps` (`Eqs.hpp:393-396`). -/
def DepGroup.clear (g : DepGroup α) : DepGroup α := { g with deps := g.deps.clear, scr := g.scr.clear }

/-- `DepGroup::find_all_deps` (`Eqs.hpp:399-402`). -/
def DepGroup.findAll (g : DepGroup α) (ord : List α → List α) : Outcome (DepGroup α) := do
  let d ← g.deps.findAll ord
  let s ← g.scr.findAll ord
  .ok { g with deps := d, scr := s }

/-- What the scan of the objects after `oi` finds (`Eqs.hpp:430-460`). -/
inductive Scan (α : Type)
  /-- no dependence -/
  | none
  /-- exception: `oi` again, or a circular dependence -/
  | bad
  /-- `oi` depends on this object; the ones before and after it -/
  | found (pre : List α) (x : α) (post : List α)

/-- The scan (`Eqs.hpp:430-460`). -/
def scanDeps (d : Deps α) (oi : α) : List α → Scan α
  | [] => .none
  | oj :: rest =>
    if oi = oj then .bad
    else if d.isDepOn oi oj then
      if d.isDepOn oj oi then .bad else .found [] oj rest
    else match scanDeps d oi rest with
      | .found pre x post => .found (oj :: pre) x post
      | r => r

/-- The `while` loop for one `i` (`Eqs.hpp:422-462`): object `i` and the list of those after it. The number of
iterations is limited here; running out of it is the outcome `undefined`. -/
def settle (d : Deps α) : Nat → α → List α → Outcome (α × List α)
  | 0, _, _ => .undefined
  | n + 1, oi, rest =>
    match scanDeps d oi rest with
    | .none => .ok (oi, rest)
    | .bad => .throws
    | .found pre x post => settle d n x (pre ++ oi :: post)

/-- The loop over `i` (`Eqs.hpp:420-463`). Objects before `i` are not touched any more. The first argument
limits the recursion to the length of the list. -/
def sortFrom (d : Deps α) : Nat → List α → Outcome (List α)
  | n + 1, oi :: oj :: rest => do
    let r ← settle d (rest.length + 2) oi (oj :: rest)
    let tl ← sortFrom d n r.2
    .ok (r.1 :: tl)
  | _, l => .ok l

/-- `topo_sort` (`Eqs.hpp:407-464`). -/
def DepGroup.topoSort (g : DepGroup α) (ord : List α → List α) : Outcome (DepGroup α) :=
  if g.all.length ≤ 1 then .ok g
  else do
    let g ← g.findAll ord
    let all ← sortFrom g.deps g.all.length g.all
    .ok { g with all := all }

/-- The four loops of `inherit_deps_from` (`Eqs.hpp:470-506`), for `deps` or `scratches` alone. `items` is
`get_items()`. -/
def inheritImm {β : Type} [DecidableEq β] (all : List α) (items : α → List β) (fd : Deps β) (d : Deps α) :
    Deps α :=
  all.foldl (fun d oi => all.foldl (fun d oj =>
    if oi = oj then d
    else (items oi).foldl (fun d fi => (items oj).foldl (fun d fj =>
      if fi = fj then d else if fd.isImmDepOn fi fj then d.setImm oi oj else d) d) d) d) d

/-- `inherit_deps_from` (`Eqs.hpp:470-510`). -/
def DepGroup.inherit {β : Type} [DecidableEq β] (g : DepGroup α) (items : α → List β) (full : DepGroup β)
    (ord : List α → List α) : Outcome (DepGroup α) :=
  DepGroup.findAll { g with
    deps := inheritImm g.all items full.deps g.deps
    scr := inheritImm g.all items full.scr g.scr } ord

end Yask.Comp
