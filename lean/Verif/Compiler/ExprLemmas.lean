import Mathlib.Algebra.BigOperators.Group.List.Lemmas
import Mathlib.Data.List.Perm.Basic
import Mathlib.Data.List.Perm.Subperm
import Mathlib.Tactic.Ring
import Mathlib.Tactic.Linarith
import Verif.Spec.ExprSpec

/-! Helper lemmas: expressions, `is_same`, combination. -/

namespace Yask.Comp

variable {π K : Type}

/-- Induction over expressions. -/
theorem NExpr.ind {P : NExpr π → Prop} (h1 : ∀ q, P (.const q)) (h2 : ∀ s, P (.code s)) (h3 : ∀ d t, P (.index d t))
    (h4 : ∀ p, P (.point p)) (h5 : ∀ a, P a → P (.neg a)) (h6 : ∀ op l r, P l → P r → P (.bin op l r))
    (h7 : ∀ op ops, (∀ a ∈ ops, P a) → P (.comm op ops)) (h8 : ∀ f ops, (∀ a ∈ ops, P a) → P (.func f ops))
    (e : NExpr π) : P e :=
  NExpr.rec (motive_1 := P) (motive_2 := fun l => ∀ a ∈ l, P a) h1 h2 h3 h4 h5 (fun op l r hl hr => h6 op l r hl hr)
    (fun op ops ih => h7 op ops ih) (fun f ops ih => h8 f ops ih) (by simp)
    (fun a as ha has b hb => by
      rcases List.mem_cons.1 hb with rfl | hb
      · exact ha
      · exact has b hb) e

theorem NExpr.vals_eq [CommRing K] (I : Interp π K) (l : List (NExpr π)) : NExpr.vals I l = l.map (·.val I) := by
  induction l with
  | nil => simp [NExpr.vals]
  | cons a l ih => simp [NExpr.vals, ih]

theorem NExpr.val_comm [CommRing K] (I : Interp π K) (op : CommOp) (ops : List (NExpr π)) :
    (NExpr.comm op ops).val I =
      match op with | .add => (ops.map (·.val I)).sum | .mult => (ops.map (·.val I)).prod := by
  cases op <;> simp [NExpr.val, NExpr.vals_eq]

theorem NExpr.val_func [CommRing K] (I : Interp π K) (f : String) (ops : List (NExpr π)) :
    (NExpr.func f ops).val I = I.func f (ops.map (·.val I)) := by
  simp [NExpr.val, NExpr.vals_eq]

/-- Greatest depth below a list of operands. -/
def maxDepth (l : List Nat) : Nat := l.foldr (fun c m => max (c + 1) m) 0

theorem maxDepth_perm {l l' : List Nat} (h : l.Perm l') : maxDepth l = maxDepth l' := by
  unfold maxDepth
  refine h.foldr_eq' (fun x _ y _ z => ?_) 0
  omega

theorem lt_maxDepth {l : List Nat} {c : Nat} (h : c ∈ l) : c < maxDepth l := by
  induction l with
  | nil => simp at h
  | cons a l ih =>
    unfold maxDepth at *
    rw [List.foldr_cons]
    rcases List.mem_cons.1 h with rfl | h
    · omega
    · have := ih h; omega

mutual
/-- Depth of an expression. -/
def NExpr.depth : NExpr π → Nat
  | .neg a => maxDepth [a.depth]
  | .bin _ l r => maxDepth [l.depth, r.depth]
  | .comm _ ops => maxDepth (NExpr.depths ops)
  | .func _ ops => maxDepth (NExpr.depths ops)
  | _ => 0
/-- Depths of several expressions. -/
def NExpr.depths : List (NExpr π) → List Nat
  | [] => []
  | a :: as => a.depth :: NExpr.depths as
end

theorem NExpr.depths_eq (l : List (NExpr π)) : NExpr.depths l = l.map (·.depth) := by
  induction l with
  | nil => simp [NExpr.depths]
  | cons a l ih => simp [NExpr.depths, ih]

mutual
/-- No negation (`b = true`), or no subtraction. -/
def NExpr.free (b : Bool) : NExpr π → Bool
  | .neg a => !b && a.free b
  | .bin op l r => (b || decide (op ≠ .sub)) && (l.free b && r.free b)
  | .comm _ ops => NExpr.frees b ops
  | .func _ ops => NExpr.frees b ops
  | _ => true
/-- The same for several expressions. -/
def NExpr.frees (b : Bool) : List (NExpr π) → Bool
  | [] => true
  | a :: as => a.free b && NExpr.frees b as
end

theorem NExpr.frees_eq (b : Bool) (l : List (NExpr π)) : NExpr.frees b l = true ↔ ∀ a ∈ l, a.free b = true := by
  induction l with
  | nil => simp [NExpr.frees]
  | cons a l ih => simp [NExpr.frees, ih]

section
variable [DecidableEq π] [CommRing K]

/-- What `same` guarantees. -/
def Sim (I : Interp π K) (a b : NExpr π) : Prop := a.depth = b.depth ∧ a.val I = b.val I

theorem matchOps_sim (I : Interp π K) (b : Bool) (as bs : List (NExpr π)) (hl : as.length = bs.length)
    (ih : ∀ a ∈ as, ∀ e, e ∈ bs → a.same e = true → Sim I a e) (h : NExpr.matchOps as bs = true) :
    (as.map (·.depth)).Perm (bs.map (·.depth)) ∧ (as.map (·.val I)).Perm (bs.map (·.val I)) := by
  induction as generalizing bs with
  | nil =>
    have : bs = [] := by
      cases bs with
      | nil => rfl
      | cons _ _ => simp at hl
    subst this
    simp
  | cons a as ih' =>
    simp only [NExpr.matchOps] at h
    revert h
    cases hf : bs.findIdx? (fun b => a.same b) with
    | none => intro h; simp at h
    | some i =>
      simp only
      intro h
      obtain ⟨hi, hs, -⟩ := List.findIdx?_eq_some_iff_getElem.1 hf
      have hsim := ih a List.mem_cons_self bs[i] (List.getElem_mem hi) hs
      have hlen : as.length = (bs.eraseIdx i).length := by
        rw [List.length_eraseIdx_of_lt hi]
        simp at hl
        omega
      obtain ⟨p1, p2⟩ := ih' (bs.eraseIdx i) hlen
        (fun a' ha' e he => ih a' (List.mem_cons_of_mem _ ha') e (List.mem_of_mem_eraseIdx he)) h
      have hp : bs.Perm (bs[i] :: bs.eraseIdx i) := (List.getElem_cons_eraseIdx_perm hi).symm
      constructor
      · refine List.Perm.trans ?_ (hp.map _).symm
        rw [List.map_cons, List.map_cons, hsim.1]
        exact p1.cons _
      · refine List.Perm.trans ?_ (hp.map _).symm
        rw [List.map_cons, List.map_cons, hsim.2]
        exact p2.cons _

theorem sameOps_sim (I : Interp π K) (as bs : List (NExpr π)) (hl : as.length = bs.length)
    (ih : ∀ a ∈ as, ∀ e, e ∈ bs → a.same e = true → Sim I a e) (h : NExpr.sameOps as bs = true) :
    as.map (·.depth) = bs.map (·.depth) ∧ as.map (·.val I) = bs.map (·.val I) := by
  induction as generalizing bs with
  | nil =>
    have : bs = [] := by
      cases bs with
      | nil => rfl
      | cons _ _ => simp at hl
    subst this
    simp
  | cons a as ih' =>
    cases bs with
    | nil => simp at hl
    | cons b bs =>
      simp only [NExpr.sameOps, Bool.and_eq_true] at h
      have hsim := ih a List.mem_cons_self b List.mem_cons_self h.1
      obtain ⟨p1, p2⟩ := ih' bs (by simpa using hl)
        (fun a' ha' e he => ih a' (List.mem_cons_of_mem _ ha') e (List.mem_cons_of_mem _ he)) h.2
      simp [p1, p2, hsim.1, hsim.2]

theorem binOp_str_inj {a b : BinOp} (h : a.str = b.str) : a = b := by
  cases a <;> cases b <;> first | rfl | (exact absurd h (by decide))

/-- Expressions that are found to be the same have the same value, if there are no negations, or no
subtractions. -/
theorem same_sim (I : Interp π K) (b : Bool) (a : NExpr π) :
    ∀ e : NExpr π, a.free b = true → e.free b = true → a.same e = true → Sim I a e := by
  induction a using NExpr.ind with
  | h1 q =>
    intro e _ _ h
    cases e <;> simp [NExpr.same] at h
    subst h; exact ⟨rfl, rfl⟩
  | h2 s =>
    intro e _ _ h
    cases e <;> simp [NExpr.same] at h
    subst h; exact ⟨rfl, rfl⟩
  | h3 d t =>
    intro e _ _ h
    cases e <;> simp [NExpr.same] at h
    obtain ⟨rfl, rfl⟩ := h; exact ⟨rfl, rfl⟩
  | h4 p =>
    intro e _ _ h
    cases e <;> simp [NExpr.same] at h
    subst h; exact ⟨rfl, rfl⟩
  | h5 a ih =>
    intro e hf he h
    cases e with
    | neg c =>
      simp only [NExpr.same] at h
      simp only [NExpr.free, Bool.and_eq_true] at hf he
      obtain ⟨h1, h2⟩ := ih c hf.2 he.2 h
      exact ⟨by simp [NExpr.depth, h1], by simp [NExpr.val, h2]⟩
    | bin op l r =>
      exfalso
      simp only [NExpr.same, Bool.and_eq_true, decide_eq_true_eq] at h
      simp only [NExpr.free, Bool.and_eq_true, Bool.not_eq_true'] at hf he
      have hop : op = .sub := by
        cases op
        · rfl
        · exact absurd h.1 (by decide)
        · exact absurd h.1 (by decide)
      rw [hf.1, hop] at he
      simp at he
    | _ => simp [NExpr.same] at h
  | h6 op l r ihl ihr =>
    intro e hf he h
    cases e with
    | bin op' l' r' =>
      simp only [NExpr.same, Bool.and_eq_true, decide_eq_true_eq] at h
      simp only [NExpr.free, Bool.and_eq_true] at hf he
      have := binOp_str_inj h.1
      subst this
      obtain ⟨a1, a2⟩ := ihl l' hf.2.1 he.2.1 h.2.1
      obtain ⟨b1, b2⟩ := ihr r' hf.2.2 he.2.2 h.2.2
      refine ⟨by simp [NExpr.depth, a1, b1], ?_⟩
      cases op <;> simp [NExpr.val, a2, b2]
    | _ => simp [NExpr.same] at h
  | h7 op ops ih =>
    intro e hf he h
    cases e with
    | comm op' bs =>
      simp only [NExpr.same, Bool.and_eq_true, decide_eq_true_eq] at h
      simp only [NExpr.free] at hf he
      rw [NExpr.frees_eq] at hf he
      obtain ⟨rfl, hl, hm⟩ := h
      obtain ⟨p1, p2⟩ := matchOps_sim I b ops bs hl (fun a ha e he' hs => ih a ha e (hf a ha) (he e he') hs) hm
      refine ⟨?_, ?_⟩
      · simp only [NExpr.depth, NExpr.depths_eq]
        exact maxDepth_perm p1
      · rw [NExpr.val_comm, NExpr.val_comm]
        cases op
        · exact p2.sum_eq
        · exact p2.prod_eq
    | _ => simp [NExpr.same] at h
  | h8 f ops ih =>
    intro e hf he h
    cases e with
    | func g bs =>
      simp only [NExpr.same, Bool.and_eq_true, decide_eq_true_eq] at h
      simp only [NExpr.free] at hf he
      rw [NExpr.frees_eq] at hf he
      obtain ⟨rfl, hl, hm⟩ := h
      obtain ⟨p1, p2⟩ := sameOps_sim I ops bs hl (fun a ha e he' hs => ih a ha e (hf a ha) (he e he') hs) hm
      refine ⟨?_, ?_⟩
      · simp only [NExpr.depth, NExpr.depths_eq, p1]
      · rw [NExpr.val_func, NExpr.val_func, p2]
    | _ => simp [NExpr.same] at h

end

/-! ### Combination -/

theorem NExpr.sizes_append (a b : List (NExpr π)) : NExpr.sizes (a ++ b) = NExpr.sizes a + NExpr.sizes b := by
  induction a with
  | nil => simp [NExpr.sizes]
  | cons x a ih => simp only [List.cons_append, NExpr.sizes, ih]; omega

theorem commOps_some {op : CommOp} {e : NExpr π} {bs : List (NExpr π)} (h : commOps op e = some bs) :
    e = .comm op bs := by
  cases e <;> simp only [commOps] at h <;> try cases h
  split_ifs at h with ho
  cases h
  rw [ho]

/-- The value of a list of operands. -/
def opVal [CommRing K] (I : Interp π K) (op : CommOp) (ops : List (NExpr π)) : K :=
  match op with | .add => (ops.map (·.val I)).sum | .mult => (ops.map (·.val I)).prod

theorem combineOnce_spec [CommRing K] (I : Interp π K) (op : CommOp) (ops ops' : List (NExpr π))
    (h : combineOnce op ops = some ops') :
    NExpr.sizes ops' < NExpr.sizes ops ∧ opVal I op ops' = opVal I op ops := by
  induction ops generalizing ops' with
  | nil => simp [combineOnce] at h
  | cons a as ih =>
    simp only [combineOnce] at h
    revert h
    cases hc : commOps op a with
    | some bs =>
      simp only
      intro h
      cases h
      have := commOps_some hc
      subst this
      constructor
      · rw [NExpr.sizes_append]
        simp only [NExpr.sizes, NExpr.size]
        omega
      · cases op <;> simp [opVal, NExpr.val_comm, add_comm, mul_comm]
    | none =>
      simp only
      intro h
      obtain ⟨l, hl, rfl⟩ := Option.map_eq_some_iff.1 h
      obtain ⟨h1, h2⟩ := ih l hl
      refine ⟨by simp only [NExpr.sizes]; omega, ?_⟩
      cases op
      · simp only [opVal, List.map_cons, List.sum_cons] at h2 ⊢; rw [h2]
      · simp only [opVal, List.map_cons, List.prod_cons] at h2 ⊢; rw [h2]

theorem combineOnce_none (op : CommOp) (ops : List (NExpr π)) :
    combineOnce op ops = none ↔ ∀ a ∈ ops, commOps op a = none := by
  induction ops with
  | nil => simp [combineOnce]
  | cons a as ih =>
    simp only [combineOnce]
    cases hc : commOps op a with
    | some bs => simp [hc]
    | none => simp [hc, ih]

theorem combineLoop_spec [CommRing K] (I : Interp π K) (op : CommOp) (n : Nat) (ops : List (NExpr π))
    (h : NExpr.sizes ops < n) :
    ∃ ops', combineLoop op n ops = .ok ops' ∧ opVal I op ops' = opVal I op ops ∧
      ∀ a ∈ ops', commOps op a = none := by
  induction n generalizing ops with
  | zero => omega
  | succ n ih =>
    simp only [combineLoop]
    cases hc : combineOnce op ops with
    | none => exact ⟨ops, rfl, rfl, (combineOnce_none op ops).1 hc⟩
    | some l =>
      obtain ⟨h1, h2⟩ := combineOnce_spec I op ops l hc
      obtain ⟨ops', e, hv, hn⟩ := ih l (by omega)
      exact ⟨ops', e, hv.trans h2, hn⟩

theorem combines_spec [CommRing K] (I : Interp π K) (ops : List (NExpr π))
    (ih : ∀ a ∈ ops, ∃ a', a.combine = .ok a' ∧ a'.val I = a.val I) :
    ∃ ops', NExpr.combines ops = .ok ops' ∧ ops'.map (·.val I) = ops.map (·.val I) := by
  induction ops with
  | nil => exact ⟨[], by simp [NExpr.combines], rfl⟩
  | cons a as ih' =>
    obtain ⟨a', e, hv⟩ := ih a List.mem_cons_self
    obtain ⟨as', e', hv'⟩ := ih' fun b hb => ih b (List.mem_cons_of_mem _ hb)
    refine ⟨a' :: as', by simp [NExpr.combines, e, e'], ?_⟩
    simp [hv, hv']

theorem combine_spec [CommRing K] (I : Interp π K) (e : NExpr π) : ∃ e', e.combine = .ok e' ∧ e'.val I = e.val I := by
  induction e using NExpr.ind with
  | h1 q => exact ⟨_, by simp only [NExpr.combine], rfl⟩
  | h2 s => exact ⟨_, by simp only [NExpr.combine], rfl⟩
  | h3 d t => exact ⟨_, by simp only [NExpr.combine], rfl⟩
  | h4 p => exact ⟨_, by simp only [NExpr.combine], rfl⟩
  | h5 a ih =>
    obtain ⟨a', e, hv⟩ := ih
    exact ⟨.neg a', by simp [NExpr.combine, e], by simp [NExpr.val, hv]⟩
  | h6 op l r ihl ihr =>
    obtain ⟨l', e, hv⟩ := ihl
    obtain ⟨r', e', hv'⟩ := ihr
    refine ⟨.bin op l' r', by simp [NExpr.combine, e, e'], ?_⟩
    cases op <;> simp [NExpr.val, hv, hv']
  | h7 op ops ih =>
    obtain ⟨ops', e, hv⟩ := combines_spec I ops ih
    obtain ⟨ops'', e', hv', -⟩ := combineLoop_spec I op (NExpr.sizes ops' + 1) ops' (by omega)
    refine ⟨.comm op ops'', by simp [NExpr.combine, e, e'], ?_⟩
    rw [NExpr.val_comm, NExpr.val_comm]
    have : opVal I op ops'' = opVal I op ops := by
      rw [hv']
      cases op <;> simp [opVal, hv]
    cases op <;> simpa [opVal] using this
  | h8 f ops ih =>
    obtain ⟨ops', e, hv⟩ := combines_spec I ops ih
    refine ⟨.func f ops', by simp [NExpr.combine, e], ?_⟩
    rw [NExpr.val_func, NExpr.val_func, hv]

/-! ### Reordering -/

theorem cheapest_spec {ρ : Type} [DecidableEq ρ] (need : NExpr π → List ρ) (ops : List (NExpr π)) (used : List Nat)
    (have_ : List ρ) (hex : ∃ j, j < ops.length ∧ j ∉ used) :
    ∃ j c, cheapest need ops used have_ = some (j, c) ∧ j < ops.length ∧ j ∉ used := by
  have key : ∀ (l : List Nat) (b : Option (Nat × Nat)), (∀ j ∈ l, j < ops.length) →
      (∀ j c, b = some (j, c) → j < ops.length ∧ j ∉ used) → (b ≠ none ∨ ∃ j ∈ l, j ∉ used) →
      ∃ j c, l.foldl (fun best j =>
        if j ∈ used then best
        else match ops[j]? with
          | none => best
          | some e =>
            let cost := newVecs (need e) have_
            match best with
            | none => some (j, cost)
            | some (_, c) => if cost < c then some (j, cost) else best) b = some (j, c) ∧
        j < ops.length ∧ j ∉ used := by
    intro l
    induction l with
    | nil =>
      intro b _ hb hne
      rcases hne with hne | ⟨j, hj, -⟩
      · cases b with
        | none => exact absurd rfl hne
        | some p => exact ⟨p.1, p.2, rfl, hb p.1 p.2 rfl⟩
      · simp at hj
    | cons j l ih =>
      intro b hl hb hne
      rw [List.foldl_cons]
      have hj : j < ops.length := hl j List.mem_cons_self
      have hl' : ∀ j ∈ l, j < ops.length := fun k hk => hl k (List.mem_cons_of_mem _ hk)
      by_cases hu : j ∈ used
      · rw [if_pos hu]
        refine ih b hl' hb ?_
        rcases hne with hne | ⟨k, hk, hk'⟩
        · exact .inl hne
        · rcases List.mem_cons.1 hk with rfl | hk
          · exact absurd hu hk'
          · exact .inr ⟨k, hk, hk'⟩
      · rw [if_neg hu, List.getElem?_eq_getElem hj]
        simp only
        cases b with
        | none =>
          refine ih _ hl' ?_ (.inl (by simp))
          intro k c hk
          simp only [Option.some.injEq, Prod.mk.injEq] at hk
          obtain ⟨rfl, -⟩ := hk
          exact ⟨hj, hu⟩
        | some p =>
          obtain ⟨p1, p2⟩ := p
          simp only
          refine ih _ hl' ?_ (.inl (by split_ifs <;> simp))
          intro k c hk
          split_ifs at hk
          · simp only [Option.some.injEq, Prod.mk.injEq] at hk
            obtain ⟨rfl, -⟩ := hk
            exact ⟨hj, hu⟩
          · exact hb k c hk
  obtain ⟨j, hj, hu⟩ := hex
  exact key (List.range ops.length) none (by simp) (by simp) (.inr ⟨j, by simpa using hj, hu⟩)

theorem exists_unused {n : Nat} {used : List Nat} (h : used.length < n) : ∃ j, j < n ∧ j ∉ used := by
  by_contra hc
  push Not at hc
  have : (List.range n).length ≤ used.length :=
    (List.subperm_of_subset List.nodup_range (fun j hj => hc j (by simpa using hj))).length_le
  simp at this
  omega

theorem reorder_spec {ρ : Type} [DecidableEq ρ] (need : NExpr π → List ρ) (ops : List (NExpr π)) :
    ∃ ops', reorder need ops = .ok ops' ∧ ops'.Perm ops := by
  have key : ∀ (l : List Nat) (s : List (NExpr π) × List Nat × List ρ), s.2.1.Nodup →
      (∀ j ∈ s.2.1, j < ops.length) → s.1 = s.2.1.reverse.filterMap (fun (j : Nat) => ops[j]?) →
      s.2.1.length + l.length ≤ ops.length →
      ∃ s', l.foldlM (fun s _ => reorderStep need ops s) s = .ok s' ∧
        s'.2.1.Nodup ∧ (∀ j ∈ s'.2.1, j < ops.length) ∧
        s'.1 = s'.2.1.reverse.filterMap (fun (j : Nat) => ops[j]?) ∧
        s'.2.1.length = s.2.1.length + l.length := by
    intro l
    induction l with
    | nil => intro s h1 h2 h3 _; exact ⟨s, rfl, h1, h2, h3, rfl⟩
    | cons x l ih =>
      intro s h1 h2 h3 h4
      simp only [List.length_cons] at h4
      obtain ⟨j, c, e, hj, hu⟩ := cheapest_spec need ops s.2.1 s.2.2 (exists_unused (by omega))
      have es : reorderStep need ops s = .ok (s.1 ++ [ops[j]], j :: s.2.1, need ops[j] ++ s.2.2) := by
        unfold reorderStep
        rw [e]
        simp only
        rw [List.getElem?_eq_getElem hj]
      rw [List.foldlM_cons, es]
      simp only [Outcome.bind_ok]
      obtain ⟨s', e', a1, a2, a3, a4⟩ := ih (s.1 ++ [ops[j]], j :: s.2.1, need ops[j] ++ s.2.2)
        (List.nodup_cons.2 ⟨hu, h1⟩) (by
          intro k hk
          rcases List.mem_cons.1 hk with rfl | hk
          · exact hj
          · exact h2 k hk) (by
          simp only [List.reverse_cons, List.filterMap_append, ← h3]
          simp [hj]) (by simp only [List.length_cons]; omega)
      refine ⟨s', e', a1, a2, a3, ?_⟩
      rw [a4]
      simp only [List.length_cons]
      omega
  obtain ⟨s', e, h1, h2, h3, h4⟩ := key (List.range ops.length) ([], [], []) (by simp) (by simp) (by simp) (by simp)
  refine ⟨s'.1, by unfold reorder; rw [e]; rfl, ?_⟩
  have hp : s'.2.1.Perm (List.range ops.length) := by
    refine (List.perm_ext_iff_of_nodup h1 List.nodup_range).2 fun j => ⟨fun hj => by simpa using h2 j hj, fun hj => ?_⟩
    by_contra hc
    have hn : (j :: s'.2.1).Nodup := List.nodup_cons.2 ⟨hc, h1⟩
    have := (List.subperm_of_subset hn (l₂ := List.range ops.length) (fun k hk => by
      rcases List.mem_cons.1 hk with rfl | hk
      · exact hj
      · simpa using h2 k hk)).length_le
    simp at this h4
    omega
  rw [h3]
  refine ((((s'.2.1.reverse_perm).trans hp).filterMap _)).trans ?_
  have : (List.range ops.length).filterMap (fun (j : Nat) => ops[j]?) = ops := by
    apply List.ext_getElem?
    intro i
    have hm : (List.range ops.length).filterMap (fun (j : Nat) => ops[j]?) =
        (List.range ops.length).pmap (fun j hj => ops[j]'hj) (by simp) := by
      have : ∀ (l : List Nat) (hl : ∀ j ∈ l, j < ops.length),
          l.filterMap (fun (j : Nat) => ops[j]?) = l.pmap (fun j hj => ops[j]'hj) hl := by
        intro l
        induction l with
        | nil => simp
        | cons a l ih =>
          intro hl
          have ha := hl a List.mem_cons_self
          rw [List.filterMap_cons, List.getElem?_eq_getElem ha]
          simp only [List.pmap_cons]
          rw [ih]
      exact this _ _
    rw [hm]
    by_cases hi : i < ops.length
    · simp [List.getElem?_pmap, hi]
    · simp [List.getElem?_pmap, hi]
  rw [this]

end Yask.Comp
