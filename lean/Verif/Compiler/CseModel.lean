import Verif.Compiler.ExprModel

/-!
# Model of common-subexpression elimination

`CseVisitor` (`src/compiler/lib/ExprUtils.cpp:70-115`, `ExprUtils.hpp:77-134`).  The visitor changes pointers, so
that one node can be reached on several paths; a node that is changed is changed for all who share it.  Hence
the nodes are in a heap, here numbered 0 to N-1.
-/

namespace Yask.Comp

/-- A node without its children. -/
inductive Head (π : Type)
  | const (q : ℚ) | code (s : String) | index (dim : String) (ty : IndexType) | point (p : π)
  | neg | bin (op : BinOp) | comm (op : CommOp) | func (name : String)
  /-- `EqualsExpr`; its only child here is the RHS -/
  | eqn
deriving DecidableEq

/-- Head and children of each node. -/
abbrev Heap (π : Type) := Nat → Head π × List Nat

section
variable {π : Type} [DecidableEq π]

/-- The expression with a given head and operands. -/
def Head.mk : Head π → List (NExpr π) → Option (NExpr π)
  | .const q, [] => some (.const q)
  | .code s, [] => some (.code s)
  | .index d t, [] => some (.index d t)
  | .point p, [] => some (.point p)
  | .neg, [a] => some (.neg a)
  | .bin op, [l, r] => some (.bin op l r)
  | .comm op, ops => some (.comm op ops)
  | .func f, ops => some (.func f ops)
  | _, _ => none

/-- All values, if each of them exists. -/
def allSome {α : Type} : List (Option α) → Option (List α)
  | [] => some []
  | some a :: l => (allSome l).map (a :: ·)
  | none :: _ => none

/-- The expression at a node, if the paths below it have fewer than `n` nodes. -/
def Heap.tree (h : Heap π) : Nat → Nat → Option (NExpr π)
  | 0, _ => none
  | n + 1, id => match allSome ((h id).2.map fun c => Heap.tree h n c) with
    | some ops => (h id).1.mk ops
    | none => none

/-- State of the visitor: the heap and `_seen`. -/
structure Cse (π : Type) where
  h : Heap π
  seen : List Nat := []

/-- The loop of `find_match_to` over the nodes already seen (`ExprUtils.cpp:91-107`). Comparing nodes of a
cyclic expression may not end; this is counted as undefined. -/
def Heap.findMatch (h : Heap π) (N : Nat) (c : Nat) : List Nat → Outcome (Option Nat)
  | [] => .ok none
  | o :: os => match h.tree N c, h.tree N o with
    | some a, some b => if a.same b then .ok (some o) else h.findMatch N c os
    | _, _ => .undefined

/-- Redirects the i-th child of a node. -/
def Heap.setChild (h : Heap π) (id i o : Nat) : Heap π :=
  fun x => if x = id then ((h id).1, (h id).2.set i o) else h x

/-- Visits a node (`ExprUtils.hpp:98-133`): each child is redirected to a match, or else visited. `_seen` is
ordered by addresses, which are arbitrary (`ord`). `n` limits the depth; running out of it is `undefined`. -/
def cseVisit (N : Nat) (ord : List Nat → List Nat) : Nat → Nat → Cse π → Outcome (Cse π)
  | 0, _, _ => .undefined
  | n + 1, id, s =>
    (List.range (s.h id).2.length).foldlM (fun (s : Cse π) i =>
      match (s.h id).2[i]? with
      | none => Outcome.undefined
      | some c =>
        if c ∈ s.seen then .ok s
        else match s.h.findMatch N c (ord s.seen) with
          | .ok (some o) => .ok { s with h := s.h.setChild id i o }
          | .ok none => cseVisit N ord n c { s with seen := c :: s.seen }
          | .throws => .throws
          | .undefined => .undefined) s

/-- The visitor on all equations (`Eqs.cpp:1277-1280`): one `_seen` for all of them. -/
def cse (N : Nat) (ord : List Nat → List Nat) (h : Heap π) (eqns : List Nat) : Outcome (Heap π) := do
  let s ← eqns.foldlM (fun s id => cseVisit N ord (N + 1) id s) ({ h := h } : Cse π)
  .ok s.h

end

end Yask.Comp
