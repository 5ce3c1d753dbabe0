import Verif.Compiler.ScrSolnModel
import Verif.Compiler.SolnLemmas
import Verif.Sched.InlineSpec
import Mathlib.Algebra.Order.BigOperators.Group.List

/-!
# Lemmas: substitution of scratch vars in the equations of a solution
-/

namespace Yask
open Spec Comp RunCfg

theorem lookup_map_add (g : String → Int) (n : String) : ∀ l : List (String × Int),
    (l.map fun d => (d.1, d.2 + g d.1)).lookup n = (l.lookup n).map (· + g n)
  | [] => rfl
  | (a, b) :: l => by
    rw [List.map_cons, List.lookup_cons, List.lookup_cons]
    by_cases h : n = a
    · subst h
      simp
    · rw [show (n == a) = false from by simpa using h]
      exact lookup_map_add g n l

theorem lookup_isSome {n : String} : ∀ {l : List (String × Int)}, n ∈ l.map Prod.fst → ∃ o, l.lookup n = some o
  | [], h => by simp at h
  | (a, b) :: l, h => by
    rw [List.lookup_cons]
    by_cases h' : n = a
    · subst h'
      exact ⟨b, by simp⟩
    · rw [show (n == a) = false from by simpa using h']
      refine lookup_isSome ?_
      simpa [h'] using h

theorem from_at {q p : Pt} {n : String} (h : n ∈ q.dom.map Prod.fst) : (Pt.from q p).at n = q.at n + p.at n := by
  obtain ⟨o, ho⟩ := lookup_isSome h
  unfold Pt.at Pt.from
  simp only
  rw [lookup_map_add (fun n => p.at n), ho]
  rfl

theorem from_keys (q p : Pt) : (Pt.from q p).dom.map Prod.fst = q.dom.map Prod.fst := by
  unfold Pt.from
  simp [Function.comp_def]

theorem shiftPt_from {dims : List String} {q : Pt} (x : List Int) (p : Pt) (h : ∀ n ∈ dims, n ∈ q.dom.map Prod.fst) :
    shiftPt dims x (Pt.from q p) = shiftPt dims (shiftPt dims x p) q := by
  unfold shiftPt
  refine List.map_congr_left fun j hj => ?_
  have hj := List.mem_range.1 hj
  have e := getD_shiftPt dims x p hj
  unfold shiftPt at e
  rw [e, from_at (h _ ?_)]
  · omega
  · rw [List.getD_eq_getElem?_getD, List.getElem?_eq_getElem hj]
    exact List.getElem_mem hj

theorem shiftPt_length (dims : List String) (x : List Int) (p : Pt) : (shiftPt dims x p).length = dims.length := by simp [shiftPt]

theorem getD_map_nil {α β : Type*} (g : List α → List β) (hg : g [] = []) (l : List (List α)) (i : Nat) : (l.map g).getD i [] = g (l.getD i []) := by
  rw [List.getD_eq_getElem?_getD, List.getD_eq_getElem?_getD, List.getElem?_map]
  cases l[i]? with
  | none => exact hg.symm
  | some _ => rfl

namespace Spec.XSoln
variable {Val : Type} [Inhabited Val] (X : XSoln Val)

omit [Inhabited Val] in
/-- The points of vars that are read through a point. -/
def expPts : Nat → Pt → List Pt
  | 0, p => if X.isScr p.var = true then [] else [p]
  | n + 1, p =>
    if X.isScr p.var = true then
      (X.scr.filter fun k => decide (k.lhs.var = p.var)).flatMap fun k => k.rhs.flatMap fun q => expPts n (Pt.from q p)
    else [p]

/-- The value read at a point, when scratch vars are substituted. -/
def evPt (look : Pt → Val) (t : Int) (x : List Int) : Nat → Pt → Val
  | 0, p => if X.isScr p.var = true then default else look p
  | n + 1, p =>
    if X.isScr p.var = true then
      match X.scr.find? fun k => decide (k.lhs.var = p.var) && (k.domIf (shiftPt X.dims x p) && k.stepIf t) with
      | some k => k.f t (shiftPt X.dims x p) (k.rhs.map fun q => evPt look t x n (Pt.from q p))
      | none => default
    else look p

/-- The value for a point in a list of points. -/
def pick (ps : List Pt) (vs : List Val) (p : Pt) : Val := ((ps.zip vs).lookup p).getD default

/-- The equation with substituted scratch vars. -/
def expand (N : Nat) (e : UEq Val) : UEq Val :=
  { e with
    rhs := e.rhs.flatMap (X.expPts N)
    f := fun t x vs => e.f t x (e.rhs.map (X.evPt (pick (e.rhs.flatMap (X.expPts N)) vs) t x N)) }

/-- The solution with substituted scratch vars. -/
def inl (N : Nat) : USoln Val := { X.toUSoln with eqs := X.eqs.map (X.expand N) }

theorem inl_length (N : Nat) : (X.inl N).eqs.length = X.eqs.length := by simp [inl]

/-- Parts of the solution as parts of the one with substituted scratch vars. -/
def inlL (N : Nat) (L : List (List (List (Fin X.eqs.length)))) : List (List (List (Fin (X.inl N).eqs.length))) :=
  L.map fun st => st.map fun part => part.map (Fin.cast (X.inl_length N).symm)

variable {X}

theorem inl_get (N : Nat) (e : Fin X.eqs.length) : (X.inl N).eqs[Fin.cast (X.inl_length N).symm e] = X.expand N X.eqs[e] := by
  show (X.eqs.map (X.expand N))[(e : Nat)]'_ = X.expand N (X.eqs[(e : Nat)]'_)
  exact List.getElem_map _

theorem inl_get' (N : Nat) (e : Fin (X.inl N).eqs.length) : (X.inl N).eqs[e] = X.expand N X.eqs[Fin.cast (X.inl_length N) e] := by
  show (X.eqs.map (X.expand N))[(e : Nat)]'_ = X.expand N (X.eqs[(e : Nat)]'_)
  exact List.getElem_map _

theorem inlL_part (N : Nat) (L : List (List (List (Fin X.eqs.length)))) (i p : Nat) :
    ((X.inlL N L).getD i []).getD p [] = ((L.getD i []).getD p []).map (Fin.cast (X.inl_length N).symm) := by
  unfold inlL
  rw [getD_map_nil (fun st : List (List (Fin X.eqs.length)) => st.map fun part => part.map (Fin.cast (X.inl_length N).symm)) rfl,
    getD_map_nil (fun part : List (Fin X.eqs.length) => part.map (Fin.cast (X.inl_length N).symm)) rfl]

theorem mem_inlL (N : Nat) (L : List (List (List (Fin X.eqs.length)))) (i p : Nat) (e : Fin (X.inl N).eqs.length) :
    e ∈ ((X.inlL N L).getD i []).getD p [] ↔ Fin.cast (X.inl_length N) e ∈ (L.getD i []).getD p [] := by
  rw [inlL_part, List.mem_map]
  constructor
  · rintro ⟨e', h, rfl⟩
    exact h
  · exact fun h => ⟨_, h, rfl⟩

omit [Inhabited Val] in
theorem lookup_zip_map {g : Pt → Val} {p : Pt} : ∀ {ps : List Pt}, p ∈ ps → (ps.zip (ps.map g)).lookup p = some (g p)
  | [], h => by simp at h
  | a :: ps, h => by
    rw [List.map_cons, List.zip_cons_cons, List.lookup_cons]
    by_cases h' : p = a
    · subst h'
      simp
    · rw [show (p == a) = false from by simpa using h']
      exact lookup_zip_map ((List.mem_cons.1 h).resolve_left h')

theorem pick_map {g : Pt → Val} {p : Pt} {ps : List Pt} (h : p ∈ ps) : pick ps (ps.map g) p = g p := by
  unfold pick
  rw [lookup_zip_map h]
  rfl

omit [Inhabited Val] in
theorem expPts_leaf {n : Nat} {p : Pt} (h : X.isScr p.var = false) : X.expPts n p = [p] := by
  cases n <;> simp [expPts, h]

omit [Inhabited Val] in
theorem expPts_leads {e : UEq Val} : ∀ (n : Nat) (p : Pt), X.Leads e p → ∀ q ∈ X.expPts n p, X.Leads e q ∧ X.isScr q.var = false := by
  intro n
  induction n with
  | zero =>
    intro p hp q hq
    unfold expPts at hq
    split at hq
    · simp at hq
    · next h =>
      rw [List.mem_singleton] at hq
      subst hq
      exact ⟨hp, by simpa using h⟩
  | succ n ih =>
    intro p hp q hq
    unfold expPts at hq
    split at hq
    · next h =>
      obtain ⟨k, hk, hq⟩ := List.mem_flatMap.1 hq
      obtain ⟨r, hr, hq⟩ := List.mem_flatMap.1 hq
      obtain ⟨hk1, hk2⟩ := List.mem_filter.1 hk
      exact ih _ (.through hp h hk1 (by simpa using hk2) hr) q hq
    · next h =>
      rw [List.mem_singleton] at hq
      subst hq
      exact ⟨hp, by simpa using h⟩

omit [Inhabited Val] in
theorem leads_of_at {t : Int} {x : List Int} {e : UEq Val} {p : Pt} (h : X.LeadsAt t x e p) : X.Leads e p := by
  induction h with
  | direct h => exact .direct h
  | through _ h2 h3 h4 _ _ h7 ih => exact .through ih h2 h3 h4 h7

omit [Inhabited Val] in
/-- Where a point comes from. -/
theorem leads_orig {e : UEq Val} (he : e ∈ X.eqs) {p : Pt} (h : X.Leads e p) :
    ∃ e0 ∈ X.eqs ++ X.scr, ∃ p0 ∈ e0.rhs, p.var = p0.var ∧ p.step = p0.step ∧ p.dom.map Prod.fst = p0.dom.map Prod.fst := by
  cases h with
  | direct h => exact ⟨e, List.mem_append_left _ he, p, h, rfl, rfl, rfl⟩
  | @through p k q h1 h2 h3 h4 h5 => exact ⟨k, List.mem_append_right _ h3, q, h5, rfl, rfl, from_keys q p⟩

/-- Scratch vars depend on those of smaller rank. -/
def Ranked (X : XSoln Val) (d : Nat → Nat) : Prop := ∀ e ∈ X.scr, ∀ p ∈ e.rhs, X.isScr p.var = true → d p.var < d e.lhs.var

/-- `n` substitutions are enough for var `v`. -/
def Fueled (X : XSoln Val) (d : Nat → Nat) (n v : Nat) : Prop := ∀ k ∈ X.scr, k.lhs.var = v → d v < n

/-- A number of substitutions that is enough for all vars. -/
def fuel (X : XSoln Val) (d : Nat → Nat) : Nat := (X.scr.map fun k => d k.lhs.var).sum + 1

omit [Inhabited Val] in
theorem fueled_fuel (d : Nat → Nat) (v : Nat) : X.Fueled d (X.fuel d) v := by
  intro k hk hv
  unfold fuel
  have := List.single_le_sum (l := X.scr.map fun k => d k.lhs.var) (fun _ _ => Nat.zero_le _) (d k.lhs.var) (List.mem_map_of_mem hk)
  rw [hv] at this
  omega

/-- The value at a point with substituted scratch vars, from any scratch values that satisfy the equations. -/
theorem evPt_eq {d : Nat → Nat} (hd : X.Ranked d) (hsv : ∀ k ∈ X.scr, X.isScr k.lhs.var = true)
    (hfull : ∀ k ∈ X.scr, ∀ q ∈ k.rhs, ∀ n ∈ X.dims, n ∈ q.dom.map Prod.fst)
    {e : UEq Val} {t : Int} {x : List Int} {f : Nat → List Int → Val} {g : Nat → Option Int → List Int → Val} {look : Pt → Val}
    (hcov : ∀ p, X.LeadsAt t x e p → X.isScr p.var = true →
      ∃ k ∈ X.scr, k.lhs.var = p.var ∧ k.domIf (shiftPt X.dims x p) = true ∧ k.stepIf t = true)
    (hf : ∀ p, X.LeadsAt t x e p → X.isScr p.var = true → ∀ k ∈ X.scr, k.lhs.var = p.var → k.domIf (shiftPt X.dims x p) = true →
      k.stepIf t = true → f p.var (shiftPt X.dims x p) = k.f t (shiftPt X.dims x p) (k.rhs.map fun q =>
        if X.isScr q.var then f q.var (shiftPt X.dims (shiftPt X.dims x p) q) else g q.var q.step (shiftPt X.dims (shiftPt X.dims x p) q))) :
    ∀ (n : Nat) (p : Pt), X.LeadsAt t x e p → X.Fueled d n p.var → (∀ q ∈ X.expPts n p, look q = g q.var q.step (shiftPt X.dims x q)) →
      X.evPt look t x n p = if X.isScr p.var then f p.var (shiftPt X.dims x p) else g p.var p.step (shiftPt X.dims x p) := by
  intro n
  induction n with
  | zero =>
    intro p hp hn hl
    unfold evPt
    by_cases h : X.isScr p.var = true
    · obtain ⟨k, hk, hv, -⟩ := hcov p hp h
      exact absurd (hn k hk hv) (by omega)
    · rw [if_neg h, if_neg h]
      refine hl p ?_
      rw [expPts_leaf (by simpa using h)]
      exact List.mem_singleton_self p
  | succ n ih =>
    intro p hp hn hl
    by_cases h : X.isScr p.var = true
    · obtain ⟨k0, hk0, hv0, hd0, hs0⟩ := hcov p hp h
      unfold evPt
      rw [if_pos h, if_pos h]
      cases hfd : X.scr.find? fun k => decide (k.lhs.var = p.var) && (k.domIf (shiftPt X.dims x p) && k.stepIf t) with
      | none =>
        have := List.find?_eq_none.1 hfd k0 hk0
        simp [hv0, hd0, hs0] at this
      | some k =>
        have hk := List.mem_of_find?_eq_some hfd
        have hc := List.find?_some hfd
        simp only [Bool.and_eq_true, decide_eq_true_eq] at hc
        obtain ⟨hv, hdo, hst⟩ := hc
        simp only
        rw [hf p hp h k hk hv hdo hst]
        congr 1
        refine List.map_congr_left fun q hq => ?_
        have hpq : X.LeadsAt t x e (Pt.from q p) := .through hp h hk hv hdo hst hq
        have e1 := shiftPt_from x p (hfull k hk q hq)
        rw [ih (Pt.from q p) hpq ?_ ?_, e1]
        · rfl
        · intro k' hk' hv'
          by_cases hq' : X.isScr q.var = true
          · have h1 := hd k hk q hq hq'
            have h2 := hn k hk hv
            rw [hv] at h1
            exact Nat.lt_of_lt_of_le h1 (Nat.le_of_lt_succ h2)
          · exact absurd (hv' ▸ hsv k' hk') hq'
        · intro r hr
          refine hl r ?_
          unfold expPts
          rw [if_pos h]
          exact List.mem_flatMap.2 ⟨k, List.mem_filter.2 ⟨hk, by simpa using hv⟩, List.mem_flatMap.2 ⟨q, hq, hr⟩⟩
    · unfold evPt
      rw [if_neg h, if_neg h]
      refine hl p ?_
      rw [expPts_leaf (by simpa using h)]
      exact List.mem_singleton_self p


omit [Inhabited Val] in
theorem mem_expand {N : Nat} [Inhabited Val] {e : UEq Val} {q : Pt} (h : q ∈ (X.expand N e).rhs) : X.Leads e q ∧ X.isScr q.var = false := by
  obtain ⟨p, hp, hq⟩ := List.mem_flatMap.1 h
  exact expPts_leads N p (.direct hp) q hq

variable {vdims : Nat → List String} {L : List (List (List (Fin X.eqs.length)))} {K : List (List (Fin X.scr.length))} {sz : Nat → Nat}
  {ch : Nat → Nat → List Nat} {G : RunCfg} {C : ScrCfg}

theorem inl_mem {N : Nat} {e' : UEq Val} (h : e' ∈ (X.inl N).eqs) : ∃ e ∈ X.eqs, e' = X.expand N e := by
  obtain ⟨e, he, rfl⟩ := List.mem_map.1 h
  exact ⟨e, he, rfl⟩

theorem inl_legal (hl : X.Legal vdims) (N : Nat) : Spec.Legal (X.inl N) vdims where
  dir := hl.dir
  dims := hl.dims
  lhs e' he' := by
    obtain ⟨e, he, rfl⟩ := inl_mem he'
    exact (hl.lhs e he).2
  step e' he' p hp := by
    obtain ⟨e, he, rfl⟩ := inl_mem he'
    rcases List.mem_cons.1 hp with rfl | hp
    · exact hl.step e (List.mem_append_left _ he) _ List.mem_cons_self
    · obtain ⟨e0, he0, p0, hp0, h1, h2, -⟩ := leads_orig he (mem_expand hp).1
      rw [h1, h2]
      exact hl.step e0 he0 p0 (List.mem_cons_of_mem _ hp0)
  rhs e' he' p hp k hk := by
    obtain ⟨e, he, rfl⟩ := inl_mem he'
    obtain ⟨e0, he0, p0, hp0, h1, h2, -⟩ := leads_orig he (mem_expand hp).1
    exact hl.rhs e0 he0 p0 hp0 k (h2 ▸ hk)
  args e' he' p hp n := by
    obtain ⟨e, he, rfl⟩ := inl_mem he'
    rcases List.mem_cons.1 hp with rfl | hp
    · exact hl.args e (List.mem_append_left _ he) _ List.mem_cons_self n
    · obtain ⟨e0, he0, p0, hp0, h1, -, h3⟩ := leads_orig he (mem_expand hp).1
      rw [h1, h3]
      exact hl.args e0 he0 p0 (List.mem_cons_of_mem _ hp0) n
  inDims := hl.inDims
  one i j e e' hi hj hv t x h1 h2 h3 h4 := by
    have hi : (X.eqs.map (X.expand N))[i]? = some e := hi
    have hj : (X.eqs.map (X.expand N))[j]? = some e' := hj
    rw [List.getElem?_map, Option.map_eq_some_iff] at hi hj
    obtain ⟨a, ha, rfl⟩ := hi
    obtain ⟨b, hb, rfl⟩ := hj
    exact hl.one i j a b ha hb hv t x h1 h2 h3 h4

theorem inl_arranged (ha : X.Arranged L K ch) (N : Nat) : Spec.Arranged (X.inl N) (X.inlL N L) where
  mem e := by
    obtain ⟨i, p, h⟩ := ha.mem (Fin.cast (X.inl_length N) e)
    exact ⟨i, p, (mem_inlL N L i p e).2 h⟩
  uniq e i p i' p' h1 h2 := ha.uniq _ i p i' p' ((mem_inlL N L i p e).1 h1) ((mem_inlL N L i' p' e).1 h2)
  order e e' i p i' p' h1 h2 q hq hv hs := by
    rw [inl_get'] at hq hv hs
    exact ha.order _ _ i p i' p' ((mem_inlL N L i p e).1 h1) ((mem_inlL N L i' p' e').1 h2) q (mem_expand hq).1 hv hs
  same e e' i p h1 h2 := by
    rw [inl_get', inl_get']
    exact ha.same _ _ i p ((mem_inlL N L i p e).1 h1) ((mem_inlL N L i p e').1 h2)

theorem inl_enough (hn : X.Enough L sz) (N : Nat) : Spec.Enough (X.inl N) (X.inlL N L) sz where
  pos := hn.pos
  range e' he' p hp k hk := by
    obtain ⟨e, he, rfl⟩ := inl_mem he'
    exact hn.range e he p (mem_expand hp).1 k hk
  oldest e e' i p i' p' h1 h2 hi q hq hv k hk ho := by
    rw [inl_get'] at hq
    rw [inl_get'] at hv ⊢
    exact hn.oldest _ _ i p i' p' ((mem_inlL N L i p e).1 h1) ((mem_inlL N L i' p' e').1 h2) hi q (mem_expand hq).1 hv k hk ho

theorem inl_runs (hr : XRuns G C X L K) (N : Nat) : Runs G (X.inl N) (X.inlL N L) where
  nd := hr.nd
  nst := by rw [hr.nst, inlL, List.length_map]
  nparts st hst := by
    rw [hr.nparts st hst, inlL, getD_map_nil (fun st : List (List (Fin X.eqs.length)) => st.map fun part => part.map (Fin.cast (X.inl_length N).symm)) rfl,
      List.length_map]
  dom st _ p _ x _ := by
    rw [hr.dom]
    refine and_congr Iff.rfl ⟨fun h e he => ?_, fun h e he => ?_⟩
    · rw [inl_get']
      exact h _ ((mem_inlL N L st p e).1 he)
    · have := h (Fin.cast (X.inl_length N).symm e) ((mem_inlL N L st p _).2 he)
      rw [inl_get] at this
      exact this
  stepOk st _ p _ t := by
    rw [hr.stepOk]
    refine ⟨fun h e he => ?_, fun h e he => ?_⟩
    · rw [inl_get']
      exact h _ ((mem_inlL N L st p e).1 he)
    · have := h (Fin.cast (X.inl_length N).symm e) ((mem_inlL N L st p _).2 he)
      rw [inl_get] at this
      exact this
  halo e' he' p hp j hj := by
    obtain ⟨e, he, rfl⟩ := inl_mem he'
    exact hr.halo e he p (mem_expand hp).1 (mem_expand hp).2 j hj

/-! ### The scratch parts supply what is needed -/

/-- What is needed of a configuration: active tasks are in domain `D` and satisfy the conditions; scratch parts are valid around active tasks. -/
structure Has (X : XSoln Val) (c : RunCfg) (D : List Int → Prop) (C : ScrCfg) (L : List (List (List (Fin X.eqs.length))))
    (K : List (List (Fin X.scr.length))) : Prop where
  nd : c.nd = X.dims.length
  active : ∀ a, c.Active a → ∀ e ∈ partOf L a, X.eqs[e].Applies D a.step a.pt
  empty : ∀ st p, C.empty st p = true → ∀ x, c.dom st p x = false
  sdom : ∀ k y, C.sdom k y = true → ∀ e ∈ K.getD k [], X.scr[e].domIf y = true
  sbox : ∀ a, c.Active a → ∀ k y, (∀ j < c.nd, -(C.wl k j) ≤ y.getD j 0 - a.pt.getD j 0 ∧ y.getD j 0 - a.pt.getD j 0 ≤ C.wr k j) →
    (∀ e ∈ K.getD k [], X.scr[e].domIf y = true) → C.sdom k y = true
  sstep : ∀ k t, C.sstep k t = true ↔ ∀ e ∈ K.getD k [], X.scr[e].stepIf t = true
  width : ∀ e ∈ X.eqs, ∀ p, X.Leads e p → ∀ k e', e' ∈ K.getD k [] → X.scr[e'].lhs.var = p.var → ∀ j < c.nd,
    -(C.wl k j) ≤ p.at (X.dims.getD j "") ∧ p.at (X.dims.getD j "") ≤ C.wr k j

section
variable {c : RunCfg} {D : List Int → Prop}

theorem needs_leads (hl : X.Legal vdims) {a : Task} {v : Nat} {y : List Int} (hr : X.Has c D C L K) (hac : c.Active a)
    (h : (X.kernel L K sz C).Needs a v y) :
    a.pt.length = X.dims.length ∧ ∃ e ∈ partOf L a, X.eqs[e].domIf a.pt = true ∧ X.eqs[e].stepIf a.step = true ∧
      ∃ p, X.LeadsAt a.step a.pt X.eqs[e] p ∧ X.isScr p.var = true ∧ v = p.var ∧ y = shiftPt X.dims a.pt p := by
  induction h with
  | direct h =>
    obtain ⟨h1, e, he, h2, h3, p, hp, h4, rfl, rfl⟩ := h
    exact ⟨h1, e, he, h2, h3, p, .direct hp, h4, rfl, rfl⟩
  | through _ hd hrd ih =>
    obtain ⟨h1, e, he, h2, h3, p, hp, h4, rfl, rfl⟩ := ih
    obtain ⟨-, e', he', hv', q, hq, hqs, rfl, rfl⟩ := hrd
    have hdom := hr.sdom _ _ hd.2.1 e' he'
    have hst := (hr.sstep _ _).1 hd.2.2 e' he'
    refine ⟨h1, e, he, h2, h3, Pt.from q p, .through hp h4 (List.getElem_mem _) hv' hdom hst hq, hqs, rfl, ?_⟩
    refine (shiftPt_from a.pt p fun n hn => ?_).symm
    have hm : X.scr[e'] ∈ X.scr := List.getElem_mem _
    exact (hl.args _ (List.mem_append_right _ hm) q (List.mem_cons_of_mem _ hq) n).2 (hl.full _ hm q hq n hn)

theorem defines_eq (hl : X.Legal vdims) (ha : X.Arranged L K ch) (hr : X.Has c D C L K) {t : Int} {v : Nat} {y : List Int} {k k' : Nat}
    (h : (X.kernel L K sz C).Defines t v y k) (h' : (X.kernel L K sz C).Defines t v y k') : k = k' := by
  obtain ⟨⟨e, he, hv⟩, h1, h2⟩ := h
  obtain ⟨⟨e', he', hv'⟩, h1', h2'⟩ := h'
  have := hl.sone e e' X.scr[e] X.scr[e'] (List.getElem?_eq_getElem e.2) (List.getElem?_eq_getElem e'.2) (hv.trans hv'.symm) t y
    (hr.sdom _ _ h1 e he) ((hr.sstep _ _).1 h2 e he) (hr.sdom _ _ h1' e' he') ((hr.sstep _ _).1 h2' e' he')
  have : e = e' := Fin.ext this
  subst this
  exact ha.suniq e k k' he he'

theorem defines_of (ha : X.Arranged L K ch) (hr : X.Has c D C L K) {a : Task} (hac : c.Active a) {e : Fin X.eqs.length} (he : e ∈ partOf L a)
    {p : Pt} (hp : X.Leads X.eqs[e] p) {k0 : Fin X.scr.length} {k : Nat} (hk : k0 ∈ K.getD k []) (hv0 : X.scr[k0].lhs.var = p.var)
    (hd0 : X.scr[k0].domIf (shiftPt X.dims a.pt p) = true) (hs0 : X.scr[k0].stepIf a.step = true) :
    (X.kernel L K sz C).Defines a.step p.var (shiftPt X.dims a.pt p) k := by
  refine ⟨⟨k0, hk, hv0⟩, ?_, ?_⟩
  · refine hr.sbox a hac k _ (fun j hj => ?_) fun e' he' => ?_
    · have hw := hr.width _ (List.getElem_mem _) p hp k _ hk hv0 j hj
      rw [getD_shiftPt _ _ _ (hr.nd ▸ hj)]
      omega
    · rw [(ha.ssame e' k0 k he' hk).1]
      exact hd0
  · refine (hr.sstep k _).2 fun e' he' => ?_
    rw [(ha.ssame e' k0 k he' hk).2]
    exact hs0

theorem leads_needs (hl : X.Legal vdims) (ha : X.Arranged L K ch) (hr : X.Has c D C L K) {a : Task} (hac : c.Active a) {e : Fin X.eqs.length}
    (he : e ∈ partOf L a) {p : Pt} (hp : X.LeadsAt a.step a.pt X.eqs[e] p) (hs : X.isScr p.var = true) :
    (X.kernel L K sz C).Needs a p.var (shiftPt X.dims a.pt p) := by
  have happ := hr.active a hac
  have hlen : a.pt.length = X.dims.length := by rw [hac.2.2.2, hr.nd]
  induction hp with
  | direct hp => exact .direct ⟨hlen, e, he, (happ e he).2.1, (happ e he).2.2, _, hp, hs, rfl, rfl⟩
  | @through p k q hp hps hk hkv hkd hks hq ih =>
    obtain ⟨i, hi, rfl⟩ := List.getElem_of_mem hk
    obtain ⟨kk, hkk⟩ := ha.smem ⟨i, hi⟩
    refine .through (ih hps) (defines_of ha hr hac he (leads_of_at hp) hkk hkv hkd hks) ⟨shiftPt_length _ _ _, _, hkk, hkv, q, hq, hs, rfl, ?_⟩
    refine shiftPt_from a.pt p fun n hn => ?_
    exact (hl.args _ (List.mem_append_right _ hk) q (List.mem_cons_of_mem _ hq) n).2 (hl.full _ hk q hq n hn)

theorem kernel_supplied (hl : X.Legal vdims) (ha : X.Arranged L K C.children) (hc : X.Covered D) (hr : X.Has c D C L K) :
    (X.kernel L K sz C).Supplied c where
  one a hac v y hn := by
    obtain ⟨h1, e, he, h2, h3, p, hp, h4, rfl, rfl⟩ := needs_leads hl hr hac hn
    have happ := hr.active a hac e he
    obtain ⟨k0, hk0, hv0, hd0, hs0⟩ := hc X.eqs[e] (List.getElem_mem _) a.step a.pt h1 happ p hp h4
    obtain ⟨i, hi, rfl⟩ := List.getElem_of_mem hk0
    obtain ⟨k, hk⟩ := ha.smem ⟨i, hi⟩
    have hlead := leads_of_at hp
    have hdef : (X.kernel L K sz C).Defines a.step p.var (shiftPt X.dims a.pt p) k := defines_of ha hr hac he hlead hk hv0 hd0 hs0
    exact ⟨k, ha.reqd _ _ e he p hlead k _ hk hv0, hdef, fun k' hk' => defines_eq hl ha hr hk' hdef⟩
  near a hac v y k hn hk := by
    obtain ⟨h1, e, he, h2, h3, p, hp, h4, rfl, rfl⟩ := needs_leads hl hr hac hn
    refine ⟨by rw [shiftPt_length, hr.nd], fun j hj => ?_⟩
    obtain ⟨e', he', hv'⟩ := hk.1
    have hw := hr.width _ (List.getElem_mem _) p (leads_of_at hp) k _ he' hv' j hj
    rw [getD_shiftPt _ _ _ (hr.nd ▸ hj)]
    show -(C.wl k j) ≤ _ ∧ _ ≤ C.wr k j
    omega
  order st p l1 k l2 e t y v w z k' hv hrd ho := by
    obtain ⟨-, e1, he1, -, q, hq, -, rfl, -⟩ := hrd
    obtain ⟨e2, he2, hv2⟩ := ho
    exact ha.sorder st p l1 k l2 e e1 he1 q hq k' e2 he2 hv2
  empty := hr.empty

/-- The values read by an equation of a part, from any scratch values that satisfy the equations. -/
theorem load_eq (hl : X.Legal vdims) (hc : X.Covered D) {d : Nat → Nat} (hd : X.Ranked d) {e : UEq Val} (he : e ∈ X.eqs) {t : Int}
    {x : List Int} (hx : x.length = X.dims.length) (happ : e.Applies D t x) {f : Nat → List Int → Val}
    {g : Nat → Option Int → List Int → Val}
    (hf : ∀ p, X.LeadsAt t x e p → X.isScr p.var = true → ∀ k ∈ X.scr, k.lhs.var = p.var → k.domIf (shiftPt X.dims x p) = true →
      k.stepIf t = true → f p.var (shiftPt X.dims x p) = k.f t (shiftPt X.dims x p) (k.rhs.map fun q =>
        if X.isScr q.var then f q.var (shiftPt X.dims (shiftPt X.dims x p) q) else g q.var q.step (shiftPt X.dims (shiftPt X.dims x p) q))) :
    (X.expand (X.fuel d) e).f t x ((X.expand (X.fuel d) e).rhs.map fun p => g p.var p.step (shiftPt X.dims x p)) =
      e.f t x (e.rhs.map fun p => if X.isScr p.var then f p.var (shiftPt X.dims x p) else g p.var p.step (shiftPt X.dims x p)) := by
  show e.f t x _ = _
  congr 1
  refine List.map_congr_left fun p hp => ?_
  refine evPt_eq hd (fun k hk => (hl.slhs k hk).1) ?_ (hc e he t x hx happ) hf (X.fuel d) p (.direct hp) (fueled_fuel d _) fun q hq => ?_
  · intro k hk q hq n hn
    exact (hl.args k (List.mem_append_right _ hk) q (List.mem_cons_of_mem _ hq) n).2 (hl.full k hk q hq n hn)
  · exact pick_map (g := fun q => g q.var q.step (shiftPt X.dims x q)) (List.mem_flatMap.2 ⟨p, hp, hq⟩)

omit [Inhabited Val] in
theorem leads_expPts {d : Nat → Nat} (hd : X.Ranked d) (hsv : ∀ k ∈ X.scr, X.isScr k.lhs.var = true) {e : UEq Val} {p : Pt} (h : X.Leads e p) :
    ∃ p0 ∈ e.rhs, ∃ n, X.Fueled d n p.var ∧ ∀ r ∈ X.expPts n p, r ∈ X.expPts (X.fuel d) p0 := by
  induction h with
  | @direct p hp => exact ⟨p, hp, X.fuel d, fueled_fuel d _, fun _ h => h⟩
  | @through p k q _ h2 hk hv hq ih =>
    obtain ⟨p0, hp0, n, hn, hsub⟩ := ih
    have h1 := hn k hk hv
    obtain ⟨m, rfl⟩ : ∃ m, n = m + 1 := ⟨n - 1, by omega⟩
    refine ⟨p0, hp0, m, fun k' hk' hv' => ?_, fun r hr => hsub r ?_⟩
    · by_cases hq' : X.isScr q.var = true
      · have h3 := hd k hk q hq hq'
        rw [hv] at h3
        exact Nat.lt_of_lt_of_le h3 (Nat.le_of_lt_succ h1)
      · exact absurd (hv' ▸ hsv k' hk') hq'
    · unfold expPts
      rw [if_pos h2]
      exact List.mem_flatMap.2 ⟨k, List.mem_filter.2 ⟨hk, by simpa using hv⟩, List.mem_flatMap.2 ⟨q, hq, hr⟩⟩

/-- All that is read through scratch vars. -/
theorem leads_expand {d : Nat → Nat} (hd : X.Ranked d) (hsv : ∀ k ∈ X.scr, X.isScr k.lhs.var = true) {e : UEq Val} {p : Pt} (h : X.Leads e p)
    (hp : X.isScr p.var = false) : p ∈ (X.expand (X.fuel d) e).rhs := by
  obtain ⟨p0, hp0, n, -, hs⟩ := leads_expPts hd hsv h
  refine List.mem_flatMap.2 ⟨p0, hp0, hs p ?_⟩
  rw [expPts_leaf hp]
  exact List.mem_singleton_self p

theorem kernel_inlined (hl : X.Legal vdims) (ha : X.Arranged L K C.children) (hc : X.Covered D) (hr : X.Has c D C L K)
    {d : Nat → Nat} (hd : X.Ranked d) {S : Stencil c (Nat × Nat) Val}
    (h1 : S.writes = (X.inl (X.fuel d)).writes (X.inlL (X.fuel d) L) sz) (h2 : S.reads = (X.inl (X.fuel d)).reads (X.inlL (X.fuel d) L) sz)
    (h3 : S.value = (X.inl (X.fuel d)).value (X.inlL (X.fuel d) L) sz) : (X.kernel L K sz C).Inlined S where
  writes a hac β := by
    rw [h1]
    constructor
    · rintro ⟨e, he, h1, h2, h3⟩
      rw [inl_get'] at h1 h2 h3
      exact ⟨_, (mem_inlL _ L _ _ e).1 he, h1, h2, h3⟩
    · rintro ⟨e, he, h1, h2, h3⟩
      refine ⟨Fin.cast (X.inl_length _).symm e, (mem_inlL _ L _ _ _).2 he, ?_⟩
      rw [inl_get]
      exact ⟨h1, h2, h3⟩
  direct a hac β q h := by
    rw [h2]
    obtain ⟨h1, e, he, h2, h3, p, hp, h4, h5, h6⟩ := h
    refine ⟨h1, Fin.cast (X.inl_length _).symm e, (mem_inlL _ L _ _ _).2 he, ?_⟩
    rw [inl_get]
    exact ⟨h2, h3, p, List.mem_flatMap.2 ⟨p, hp, by rw [expPts_leaf h4]; exact List.mem_singleton_self p⟩, h5, h6⟩
  through a hac v y k β q hnd hdf hrd := by
    rw [h2]
    obtain ⟨h1, e, he, h2, h3, p, hp, h4, rfl, rfl⟩ := needs_leads hl hr hac hnd
    obtain ⟨-, e', he', hv', r, hrr, hrs, rfl, rfl⟩ := hrd
    have hm : X.scr[e'] ∈ X.scr := List.getElem_mem _
    have hlead : X.Leads X.eqs[e] (Pt.from r p) := .through (leads_of_at hp) h4 hm hv' hrr
    refine ⟨h1, Fin.cast (X.inl_length _).symm e, (mem_inlL _ L _ _ _).2 he, ?_⟩
    rw [inl_get]
    refine ⟨h2, h3, Pt.from r p, leads_expand hd (fun k hk => (hl.slhs k hk).1) hlead hrs, rfl, ?_⟩
    refine (shiftPt_from a.pt p fun n hn => ?_).symm
    exact (hl.args _ (List.mem_append_right _ hm) r (List.mem_cons_of_mem _ hrr) n).2 (hl.full _ hm r hrr n hn)
  value a hac β hw m f hf := by
    rw [h3]
    have happ := hr.active a hac
    have hlen : a.pt.length = X.dims.length := by rw [hac.2.2.2, hr.nd]
    have hpart : partOf (X.inlL (X.fuel d) L) a = (partOf L a).map (Fin.cast (X.inl_length (X.fuel d)).symm) := inlL_part _ L _ _
    show _ = (X.inl (X.fuel d)).value (X.inlL (X.fuel d) L) sz a m β
    unfold USoln.value
    rw [hpart, List.find?_map]
    have hfd : (partOf L a).find? ((fun e => decide (β = ptSlot (X.inl (X.fuel d)) sz (X.inl (X.fuel d)).eqs[e].lhs a.step)) ∘
        Fin.cast (X.inl_length (X.fuel d)).symm) = (partOf L a).find? fun e => decide (β = ptSlot X.toUSoln sz X.eqs[e].lhs a.step) := by
      congr 1
      funext e
      simp only [Function.comp_apply, inl_get]
      rfl
    rw [hfd]
    show (match (partOf L a).find? fun e => decide (β = ptSlot X.toUSoln sz X.eqs[e].lhs a.step) with
      | some e =>
        if a.pt.length = X.dims.length ∧ X.eqs[e].domIf a.pt = true ∧ X.eqs[e].stepIf a.step = true then
          X.eqs[e].f a.step a.pt (X.eqs[e].rhs.map (X.load sz a.step a.pt m f))
        else default
      | none => default) = _
    cases hfe : (partOf L a).find? fun e => decide (β = ptSlot X.toUSoln sz X.eqs[e].lhs a.step) with
    | none => rfl
    | some e =>
      have he := List.mem_of_find?_eq_some hfe
      simp only [Option.map_some, inl_get]
      have hcond : a.pt.length = X.dims.length ∧ X.eqs[e].domIf a.pt = true ∧ X.eqs[e].stepIf a.step = true := ⟨hlen, (happ e he).2⟩
      rw [if_pos hcond, if_pos (show a.pt.length = (X.inl (X.fuel d)).dims.length ∧ (X.expand (X.fuel d) X.eqs[e]).domIf a.pt = true ∧
        (X.expand (X.fuel d) X.eqs[e]).stepIf a.step = true from hcond)]
      refine (load_eq hl hc hd (List.getElem_mem _) hlen (happ e he) (f := fun v y => f (v, y))
        (g := fun v s y => m (ptSlot X.toUSoln sz ⟨v, s, []⟩ a.step, y)) ?_).symm
      intro p hp hps k hk hkv hkd hks
      obtain ⟨i, hi, rfl⟩ := List.getElem_of_mem hk
      obtain ⟨kk, hkk⟩ := ha.smem ⟨i, hi⟩
      have hdef : (X.kernel L K sz C).Defines a.step p.var (shiftPt X.dims a.pt p) kk := defines_of ha hr hac he (leads_of_at hp) hkk hkv hkd hks
      rw [hf _ _ kk (leads_needs hl ha hr hac he hp hps) hdef]
      show (match (K.getD kk []).find? fun e => decide (X.scr[e].lhs.var = p.var) with
        | some e => if (shiftPt X.dims a.pt p).length = X.dims.length then X.scr[e].f a.step (shiftPt X.dims a.pt p)
            (X.scr[e].rhs.map (X.load sz a.step (shiftPt X.dims a.pt p) m f)) else default
        | none => default) = _
      cases hfk : (K.getD kk []).find? fun e => decide (X.scr[e].lhs.var = p.var) with
      | none => exact absurd (List.find?_eq_none.1 hfk _ hkk) (by simpa using hkv)
      | some e' =>
        have he' := List.mem_of_find?_eq_some hfk
        have hv' : X.scr[e'].lhs.var = p.var := by simpa using List.find?_some hfk
        have hsm := ha.ssame e' ⟨i, hi⟩ kk he' hkk
        have := hl.sone e' i X.scr[e'] X.scr[i] (List.getElem?_eq_getElem e'.2) (List.getElem?_eq_getElem hi) (hv'.trans hkv.symm) a.step
          (shiftPt X.dims a.pt p) (hsm.1 ▸ hkd) (hsm.2 ▸ hks) hkd hks
        have : e' = ⟨i, hi⟩ := Fin.ext this
        subst this
        simp only
        rw [if_pos (shiftPt_length _ _ _)]
        rfl

end

theorem has_of_runs (hr : XRuns G C X L K) : X.Has G (InWhole G) C L K where
  nd := hr.nd
  active a h e he := by
    obtain ⟨-, h2, h3, h4⟩ := h
    have hd := (hr.dom _ _ _).1 h3
    exact ⟨⟨h4, hd.1⟩, hd.2 e he, (hr.stepOk _ _ _).1 h2 e he⟩
  empty := hr.empty
  sdom := hr.sdom
  sbox a h k y hy := hr.sbox k y fun j hj => by
    have h1 := ((hr.dom _ _ _).1 h.2.2.1).1 j hj
    have h2 := hy j hj
    unfold InIvl at h1 ⊢
    simp only at h1 ⊢
    omega
  sstep := hr.sstep
  width := hr.width

/-- The solution with substituted scratch vars, as a stencil. -/
def inlStencil (hl : X.Legal vdims) (ha : X.Arranged L K ch) (hr : XRuns G C X L K) (hn : X.Enough L sz) (d : Nat → Nat) :
    Stencil G (Nat × Nat) Val :=
  solnStencil (inl_runs hr (X.fuel d)) (inl_legal hl (X.fuel d)) (inl_arranged ha (X.fuel d)) (inl_enough hn (X.fuel d))

theorem whole_inlined (hl : X.Legal vdims) (ha : X.Arranged L K C.children) (hc : X.Covered (InWhole G)) (hr : XRuns G C X L K)
    (hn : X.Enough L sz) {d : Nat → Nat} (hd : X.Ranked d) : (X.kernel L K sz C).Inlined (inlStencil hl ha hr hn d) :=
  kernel_inlined hl ha hc (has_of_runs hr) hd rfl rfl rfl

/-! ### Histories -/

theorem inl_evolves (hl : X.Legal vdims) (hc : X.Covered (InWhole G)) (hnd : G.nd = X.dims.length) {d : Nat → Nat} (hd : X.Ranked d) {first : Int}
    {n : Nat} {W : History Val} {A : ScrValues Val} (h : X.Evolves (InWhole G) sz first n W A) :
    Spec.Evolves (X.inl (X.fuel d)) (InWhole G) sz first n W where
  eq i hi e' he' x happ := by
    obtain ⟨e, he, rfl⟩ := inl_mem he'
    rw [show (X.expand (X.fuel d) e).lhs = e.lhs from rfl]
    refine (h.eq i hi e he x happ).trans ?_
    exact (load_eq hl hc hd he (by rw [happ.1.1, hnd]) happ (f := fun v y => A v (first + X.dir * i) y)
      (g := fun v s y => W v (stepAt ⟨v, s, []⟩ (first + X.dir * i)) y) fun p _ _ k hk hkv hkd hks => by
        show A p.var _ _ = _
        rw [← hkv]
        exact h.scr i hi k hk _ (shiftPt_length _ _ _) hkd hks).symm
  keep i hi v x hv hno := by
    refine h.keep i hi v x hv fun ⟨e, he, h1, h2⟩ => hno ⟨X.expand (X.fuel d) e, List.mem_map_of_mem he, h1, h2⟩

/-- The scratch values that the equations define. -/
def scrAt (X : XSoln Val) (W : History Val) (t : Int) : Nat → Nat → List Int → Val
  | 0, _, _ => default
  | n + 1, v, y =>
    match X.scr.find? fun k => decide (k.lhs.var = v) && (k.domIf y && k.stepIf t) with
    | some k => k.f t y (k.rhs.map fun q =>
        if X.isScr q.var then scrAt X W t n q.var (shiftPt X.dims y q) else W q.var (stepAt q t) (shiftPt X.dims y q))
    | none => default

theorem scrAt_fuel {d : Nat → Nat} (hd : X.Ranked d) (W : History Val) (t : Int) : ∀ (n m v : Nat) (y : List Int), X.Fueled d n v → X.Fueled d m v →
    X.scrAt W t n v y = X.scrAt W t m v y := by
  have hnone : ∀ (n v : Nat) (y : List Int), (¬ ∃ k ∈ X.scr, k.lhs.var = v) → X.scrAt W t n v y = default := by
    intro n v y hno
    cases n with
    | zero => rfl
    | succ n =>
      unfold scrAt
      cases hf : X.scr.find? fun k => decide (k.lhs.var = v) && (k.domIf y && k.stepIf t) with
      | none => rfl
      | some k =>
        have := List.find?_some hf
        simp only [Bool.and_eq_true, decide_eq_true_eq] at this
        exact absurd ⟨k, List.mem_of_find?_eq_some hf, this.1⟩ hno
  intro n
  induction n with
  | zero =>
    intro m v y h1 _
    have hno : ¬ ∃ k ∈ X.scr, k.lhs.var = v := by
      rintro ⟨k, hk, hv⟩
      exact absurd (h1 k hk hv) (by omega)
    rw [hnone 0 v y hno, hnone m v y hno]
  | succ n ih =>
    intro m v y h1 h2
    by_cases hex : ∃ k ∈ X.scr, k.lhs.var = v
    · obtain ⟨k0, hk0, hv0⟩ := hex
      obtain ⟨m', rfl⟩ : ∃ m', m = m' + 1 := ⟨m - 1, by have := h2 k0 hk0 hv0; omega⟩
      unfold scrAt
      cases hf : X.scr.find? fun k => decide (k.lhs.var = v) && (k.domIf y && k.stepIf t) with
      | none => rfl
      | some k =>
        have hk := List.mem_of_find?_eq_some hf
        have hv := List.find?_some hf
        simp only [Bool.and_eq_true, decide_eq_true_eq] at hv
        simp only
        congr 1
        refine List.map_congr_left fun q hq => ?_
        by_cases hs : X.isScr q.var = true
        · rw [if_pos hs, if_pos hs]
          have h3 := hd k hk q hq hs
          rw [hv.1] at h3
          refine ih m' _ _ (fun k' _ hv' => ?_) (fun k' _ hv' => ?_)
          · have := h1 k hk hv.1
            omega
          · have := h2 k hk hv.1
            omega
        · rw [if_neg hs, if_neg hs]
    · rw [hnone _ v y hex, hnone _ v y hex]

theorem scrAt_eq {d : Nat → Nat} (hl : X.Legal vdims) (hd : X.Ranked d) (W : History Val) {k : UEq Val} (hk : k ∈ X.scr) {t : Int} {y : List Int}
    (h1 : k.domIf y = true) (h2 : k.stepIf t = true) :
    X.scrAt W t (X.fuel d) k.lhs.var y = X.rhsVal k W (fun v t y => X.scrAt W t (X.fuel d) v y) t y := by
  rw [scrAt_fuel hd W t (X.fuel d) (X.fuel d + 1) _ y (fueled_fuel d _) fun k' h hv => Nat.lt_succ_of_lt (fueled_fuel d _ k' h hv)]
  unfold scrAt
  cases hf : X.scr.find? fun k' => decide (k'.lhs.var = k.lhs.var) && (k'.domIf y && k'.stepIf t) with
  | none =>
    have := List.find?_eq_none.1 hf k hk
    simp [h1, h2] at this
  | some k' =>
    have hk' := List.mem_of_find?_eq_some hf
    have hv := List.find?_some hf
    simp only [Bool.and_eq_true, decide_eq_true_eq] at hv
    obtain ⟨i, hi, rfl⟩ := List.getElem_of_mem hk
    obtain ⟨j, hj, rfl⟩ := List.getElem_of_mem hk'
    have := hl.sone j i X.scr[j] X.scr[i] (List.getElem?_eq_getElem hj) (List.getElem?_eq_getElem hi) hv.1 t y hv.2.1 hv.2.2 h1 h2
    subst this
    rfl

/-- Histories of the solution with substituted scratch vars are histories of the solution. -/
theorem evolves_of_inl (hl : X.Legal vdims) (hc : X.Covered (InWhole G)) (hnd : G.nd = X.dims.length) {d : Nat → Nat} (hd : X.Ranked d) {first : Int}
    {n : Nat} {W : History Val} (h : Spec.Evolves (X.inl (X.fuel d)) (InWhole G) sz first n W) :
    X.Evolves (InWhole G) sz first n W fun v t y => X.scrAt W t (X.fuel d) v y where
  eq i hi e he x happ := by
    have h1 := h.eq i hi (X.expand (X.fuel d) e) (List.mem_map_of_mem he) x happ
    refine h1.trans ?_
    exact load_eq hl hc hd he (by rw [happ.1.1, hnd]) happ (f := fun v y => X.scrAt W (first + X.dir * i) (X.fuel d) v y)
      (g := fun v s y => W v (stepAt ⟨v, s, []⟩ (first + X.dir * i)) y) fun p _ _ k hk hkv hkd hks => by
        show X.scrAt W (first + X.dir * i) (X.fuel d) p.var _ = _
        rw [← hkv]
        exact scrAt_eq hl hd W hk hkd hks
  scr i hi k hk x _ h1 h2 := scrAt_eq hl hd W hk h1 h2
  keep i hi v x hv hno := by
    refine h.keep i hi v x hv fun ⟨e', he', h1, h2⟩ => ?_
    obtain ⟨e, he, rfl⟩ := inl_mem he'
    exact hno ⟨e, he, h1, h2⟩

end Spec.XSoln
end Yask
