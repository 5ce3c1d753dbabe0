import Verif.Compiler.SolnLemmas
import Verif.Compiler.HaloScratchLemmas
import Verif.Props.Parts
import Verif.Spec.StepSpec
import Verif.Spec.PrepSpec

/-!
# Lemmas: what the analysis of the equations ensures for the run
-/

namespace Yask
open Spec Comp RunCfg Relation Mpi

section
variable {Val : Type} {U : USoln Val} {L : List (List (List (Fin U.eqs.length)))} {sz : Nat → Nat} {vdims : Nat → List String}

theorem getD_mem_stage {α : Type} {L : List (List (List α))} {i p : Nat} {e : α} (h : e ∈ (L.getD i []).getD p []) :
    ∃ st part, L[i]? = some st ∧ st[p]? = some part ∧ e ∈ part := by
  rw [List.getD_eq_getElem?_getD, List.getD_eq_getElem?_getD] at h
  cases h1 : L[i]? with
  | none => rw [h1] at h; simp at h
  | some st =>
    rw [h1, Option.getD_some] at h
    cases h2 : st[p]? with
    | none => rw [h2] at h; simp at h
    | some part => rw [h2] at h; exact ⟨st, part, rfl, h2, h⟩

theorem mem_flatten2 {α : Type} {L : List (List (List α))} {i p : Nat} {e : α} (h : e ∈ (L.getD i []).getD p []) : e ∈ L.flatten.flatten := by
  obtain ⟨st, part, h1, h2, h3⟩ := getD_mem_stage h
  exact List.mem_flatten.2 ⟨part, List.mem_flatten.2 ⟨st, List.mem_of_getElem? h1, List.mem_of_getElem? h2⟩, h3⟩

theorem unique_flatten {α : Type} {L : List (List α)} (hn : L.flatten.Nodup) {i j : Nat} {s r : List α} {x : α} (h1 : L[i]? = some s)
    (h2 : L[j]? = some r) (hx : x ∈ s) (hy : x ∈ r) : i = j := by
  rw [List.nodup_flatten] at hn
  by_contra hne
  obtain ⟨l1, g1⟩ := List.getElem?_eq_some_iff.1 h1
  obtain ⟨l2, g2⟩ := List.getElem?_eq_some_iff.1 h2
  have hp := List.pairwise_iff_getElem.1 hn.2
  rcases Nat.lt_or_gt_of_ne hne with h | h
  · exact hp i j l1 l2 h (g1 ▸ hx) (g2 ▸ hy)
  · exact hp j i l2 l1 h (g2 ▸ hy) (g1 ▸ hx)

/-- What C44 and C45 say about the stages of a solution. -/
theorem arranged_of_compile {κ : Type} [DecidableEq κ] (o : SolnOpts U.eqs.length κ)
    (hkey : ∀ e e', o.key e = o.key e' → U.eqs[e].domIf = U.eqs[e'].domIf ∧ U.eqs[e].stepIf = U.eqs[e'].stepIf)
    {ordL : List (Nat × Option Int) → List (Nat × Option Int)} (hL : ∀ l, (ordL l).Perm l)
    {ordE : List (Fin U.eqs.length) → List (Fin U.eqs.length)} (hE : ∀ l, (ordE l).Perm l) {ordP ordS : List Nat → List Nat}
    (hP : ∀ l, (ordP l).Perm l) (hQ : ∀ l, (ordS l).Perm l) (h : (U.sys o).compile ordL ordE ordP ordS = .ok L) : Arranged U L := by
  have hv : (U.sys o).Valid := ⟨List.nodup_finRange _, fun p _ => ⟨List.mem_finRange _, List.mem_finRange _⟩⟩
  obtain ⟨c1, c2, c3, c4, -⟩ := C45_stages hv hL hE hP hQ L h
  have hcirc : ¬ Circular (U.sys o).Reads := by
    obtain ⟨E, P, Q, e1, -⟩ := compile_cases h
    rcases C44_equations hv hL hE with ⟨e, -⟩ | ⟨E', -, -, h2, -⟩
    · rw [e] at e1; cases e1
    · exact h2
  refine ⟨?_, ?_, ?_, ?_⟩
  · intro e
    have := (c2 e).2 ⟨List.mem_finRange _, Or.inr rfl⟩
    obtain ⟨part, hpart, he⟩ := List.mem_flatten.1 this
    obtain ⟨st, hst, hp⟩ := List.mem_flatten.1 hpart
    obtain ⟨i, hi, rfl⟩ := List.getElem_of_mem hst
    obtain ⟨p, hpp, rfl⟩ := List.getElem_of_mem hp
    refine ⟨i, p, ?_⟩
    rw [List.getD_eq_getElem _ _ hi, List.getD_eq_getElem _ _ hpp]
    exact he
  · intro e i p i' p' h1 h2
    obtain ⟨st, part, g1, g2, g3⟩ := getD_mem_stage h1
    obtain ⟨st', part', k1, k2, k3⟩ := getD_mem_stage h2
    have hi : i = i' := by
      have hn : (L.map List.flatten).flatten.Nodup := by
        rw [← List.flatten_flatten]; exact c1
      refine unique_flatten hn (i := i) (j := i') (s := st.flatten) (r := st'.flatten) (x := e) ?_ ?_ ?_ ?_
      · rw [List.getElem?_map, g1]; rfl
      · rw [List.getElem?_map, k1]; rfl
      · exact List.mem_flatten.2 ⟨part, List.mem_of_getElem? g2, g3⟩
      · exact List.mem_flatten.2 ⟨part', List.mem_of_getElem? k2, k3⟩
    subst hi
    rw [g1] at k1
    cases k1
    refine ⟨rfl, ?_⟩
    have hn : st.flatten.Nodup := by
      have h0 : (L.map List.flatten).flatten.Nodup := by rw [← List.flatten_flatten]; exact c1
      exact (List.nodup_flatten.1 h0).1 st.flatten (List.mem_map_of_mem (List.mem_of_getElem? g1))
    exact unique_flatten hn g2 k2 g3 k3
  · intro e e' i p i' p' h1 h2 q hq hqv hqs
    have hr : (U.sys o).Reads ((U.sys o).lhs e) ((U.sys o).lhs e') := by
      refine ⟨e, List.mem_finRange _, rfl, ?_⟩
      have : (U.sys o).lhs e' = (q.var, q.step) := by rw [hqv, hqs]; rfl
      rw [this]
      exact List.mem_map_of_mem hq
    obtain ⟨st, part, g1, g2, g3⟩ := getD_mem_stage h1
    obtain ⟨st', part', k1, k2, k3⟩ := getD_mem_stage h2
    have hne : e ≠ e' := by
      rintro rfl
      exact hcirc ⟨_, .single hr⟩
    exact c3 i i' st st' g1 k1 e (List.mem_flatten.2 ⟨part, List.mem_of_getElem? g2, g3⟩) e'
      (List.mem_flatten.2 ⟨part', List.mem_of_getElem? k2, k3⟩)
      (.single ⟨Or.inr ⟨rfl, List.mem_finRange _, List.mem_finRange _, hne, .single hr⟩, mem_flatten2 h1, mem_flatten2 h2⟩)
  · intro e e' i p h1 h2
    obtain ⟨st, part, g1, g2, g3⟩ := getD_mem_stage h1
    obtain ⟨st', part', k1, k2, k3⟩ := getD_mem_stage h2
    rw [g1] at k1; cases k1
    rw [g2] at k2; cases k2
    exact hkey e e' (c4 st (List.mem_of_getElem? g1) part (List.mem_of_getElem? g2) e g3 e' k3)

/-- The equation as the halo analysis sees it. -/
def Spec.USoln.peq (U : USoln Val) (e : Fin U.eqs.length) : PEq := ⟨U.eqs[e].lhs, U.eqs[e].rhs⟩

theorem mainStages_stages (U : USoln Val) (L : List (List (List (Fin U.eqs.length)))) : mainStages (U.stages L) = (U.stages L).stages := by
  unfold mainStages USoln.stages
  rw [List.filter_eq_self]
  intro s hs
  obtain ⟨i, _, rfl⟩ := List.mem_map.1 hs
  rfl

theorem stage_of (U : USoln Val) {L : List (List (List (Fin U.eqs.length)))} {i p : Nat} {e : Fin U.eqs.length} (h : e ∈ (L.getD i []).getD p []) :
    ∃ st, (mainStages (U.stages L))[i]? = some st ∧ U.peq e ∈ st.eqs ∧ U.peq e ∈ stageEqs (U.stages L) st := by
  obtain ⟨st, part, g1, g2, g3⟩ := getD_mem_stage h
  have hi := (List.getElem?_eq_some_iff.1 g1).1
  have hs : U.peq e ∈ (⟨i, false, (L.getD i []).map fun part => part.map fun e => ⟨U.eqs[e].lhs, U.eqs[e].rhs⟩⟩ : HStage).eqs := by
    refine List.mem_flatten.2 ⟨part.map U.peq, ?_, List.mem_map_of_mem g3⟩
    refine List.mem_map.2 ⟨part, ?_, rfl⟩
    rw [List.getD_eq_getElem?_getD, g1]
    exact List.mem_of_getElem? g2
  refine ⟨_, ?_, hs, List.mem_append_left _ hs⟩
  rw [mainStages_stages]
  unfold USoln.stages
  simp only
  rw [List.getElem?_map, List.getElem?_range hi]
  rfl

/-- What the absence of overwritten values (C47) means for the slots. -/
theorem enough_of_fresh (hl : Legal U vdims) (ha : Arranged U L) (hpos : ∀ v, 0 < sz v) (first : Int)
    (hst : ∀ v, ¬ MayReadStale (U.stages L) v (sz v) first U.dir)
    (hro : ∀ e ∈ U.eqs, ∀ p ∈ e.rhs, (∀ e' ∈ U.eqs, e'.lhs.var ≠ p.var) → ∀ k, p.step = some k → -(sz p.var : Int) < k * U.dir) :
    Enough U L sz where
  pos := hpos
  range := by
    intro e he p hp k hk
    by_cases hw : ∀ e' ∈ U.eqs, e'.lhs.var ≠ p.var
    · exact hro e he p hp hw k hk
    push Not at hw
    obtain ⟨e', he', hv'⟩ := hw
    obtain ⟨a, ha1, rfl⟩ := List.getElem_of_mem he
    obtain ⟨b, hb1, rfl⟩ := List.getElem_of_mem he'
    obtain ⟨i, pi, hi⟩ := ha.mem ⟨a, ha1⟩
    obtain ⟨j, pj, hj⟩ := ha.mem ⟨b, hb1⟩
    obtain ⟨st, s1, _, s2⟩ := stage_of U hi
    obtain ⟨st', s1', _, s2'⟩ := stage_of U hj
    by_contra hc
    have hs := hpos p.var
    refine hst p.var ⟨0, j, _, U.dir, ((-(k * U.dir)) % (sz p.var : Int)).toNat + 1, i, _, p, k, ⟨st', s1', s2'⟩, hv',
      (hl.lhs _ (List.getElem_mem hb1)).1, ⟨st, s1, s2⟩, hp, rfl, hk, Or.inl (by omega), ?_⟩
    have h1 := Int.emod_nonneg (-(k * U.dir)) (b := (sz p.var : Int)) (by omega)
    have h3 := Int.mul_ediv_add_emod (-(k * U.dir)) (sz p.var : Int)
    have h4 : 1 ≤ -(k * U.dir) / (sz p.var : Int) := by
      rw [Int.le_ediv_iff_mul_le (by omega)]; omega
    have h5 : (sz p.var : Int) ≤ sz p.var * (-(k * U.dir) / (sz p.var : Int)) := by
      have := mul_le_mul_of_nonneg_left h4 (show (0 : Int) ≤ sz p.var by omega)
      omega
    unfold Replaces
    push_cast
    rw [Int.toNat_of_nonneg h1]
    generalize -(k * U.dir) / (sz p.var : Int) = q at *
    generalize hm : -(k * U.dir) % (sz p.var : Int) = r at *
    have hdd : U.dir * U.dir = 1 := by rcases hl.dir with hd | hd <;> rw [hd] <;> rfl
    have e1 : first + U.dir * 0 + U.dir - (first + U.dir * (r + 1) + k) = U.dir * (sz p.var * q) := by
      rcases hl.dir with hd | hd <;> rw [hd] at h3 ⊢ <;> linarith
    rw [e1]
    refine ⟨?_, ⟨U.dir * q, by ring⟩⟩
    rw [show U.dir * (sz p.var * q) * U.dir = (U.dir * U.dir) * (sz p.var * q) by ring, hdd]
    omega
  oldest := by
    intro e e' i p i' p' h1 h2 hii q hq hv k hk hkd
    obtain ⟨st, s1, _, s2⟩ := stage_of U h1
    obtain ⟨st', s1', _, s2'⟩ := stage_of U h2
    have hs := hpos q.var
    have hdd : U.dir * U.dir = 1 := by rcases hl.dir with hd | hd <;> rw [hd] <;> rfl
    by_contra hc
    refine hst q.var ⟨0, i', _, U.dir, 0, i, _, q, k, ⟨st', s1', s2'⟩, hv.symm,
      (hl.lhs _ (List.getElem_mem e'.2)).1, ⟨st, s1, s2⟩, hq, rfl, hk, Or.inr ⟨rfl, ?_⟩, ?_⟩
    · rcases Nat.lt_or_ge i' i with h | h
      · exact Or.inl h
      · refine Or.inr ⟨by omega, ?_⟩
        rintro ⟨g1, g2⟩
        refine hc ⟨?_, ?_⟩
        · intro n
          unfold Pt.at
          cases hlk : q.dom.lookup n with
          | none => rfl
          | some z =>
            obtain ⟨l1, l2, hz, _⟩ := List.lookup_eq_some_iff.1 hlk
            exact g2 (n, z) (by rw [hz]; simp)
        · rw [hv]
          exact (congrArg (fun e : PEq => e.lhs.var) g1).symm
    · unfold Replaces
      have e1 : (first + U.dir * ((0 : Nat) : Int) + U.dir - (first + U.dir * ((0 : Nat) : Int) + k)) = U.dir * sz q.var := by
        push_cast
        rcases hl.dir with hd | hd <;> rw [hd] at hkd ⊢ <;> linarith
      rw [e1]
      refine ⟨?_, ⟨U.dir, by ring⟩⟩
      rw [show U.dir * (sz q.var : Int) * U.dir = (U.dir * U.dir) * sz q.var by ring, hdd]
      omega

/-- Without scratch vars the stages are as the halo analysis requires. -/
theorem staged_stages (hl : Legal U vdims) : Staged (U.stages L) (fun _ => false) vdims where
  ids := by
    have : (U.stages L).stages.map HStage.id = List.range L.length := by
      unfold USoln.stages
      simp only [List.map_map]
      conv_rhs => rw [← List.map_id (List.range L.length)]
      rfl
    rw [this]
    exact List.nodup_range
  kind := by
    intro s hs e _
    obtain ⟨i, _, rfl⟩ := List.mem_map.1 hs
    rfl
  closed := by
    intro st _ _ r _ _ e _ p _ h
    cases h
  order := by
    apply List.pairwise_of_forall
    intro s r e _ p _ h
    cases h
  self := by
    intro s _ e _ p _ h
    cases h
  used := by
    intro e he p hp n
    obtain ⟨s, hs, he⟩ := List.mem_flatMap.1 he
    obtain ⟨i, _, rfl⟩ := List.mem_map.1 hs
    obtain ⟨part, hpart, he⟩ := List.mem_flatten.1 he
    obtain ⟨es, _, rfl⟩ := List.mem_map.1 hpart
    obtain ⟨f, _, rfl⟩ := List.mem_map.1 he
    exact hl.args U.eqs[f] (List.getElem_mem _) p hp n
  full := by
    intro v w h
    cases h

theorem mem_allEqs {i p : Nat} {e : Fin U.eqs.length} (h : e ∈ (L.getD i []).getD p []) : U.peq e ∈ allEqs (U.stages L) := by
  obtain ⟨st, s1, s2, _⟩ := stage_of U h
  rw [mainStages_stages] at s1
  exact List.mem_flatMap.2 ⟨st, List.mem_of_getElem? s1, s2⟩

/-- The halos of the vars cover what an equation reads. -/
theorem halo_covers (hl : Legal U vdims) {i p : Nat} {e : Fin U.eqs.length} (h : e ∈ (L.getD i []).getD p []) {q : Pt} (hq : q ∈ U.eqs[e].rhs)
    {n : String} (hn : n ∈ vdims q.var) :
    -(((U.stages L).calcHalos q.var).size n true) ≤ q.at n ∧ q.at n ≤ ((U.stages L).calcHalos q.var).size n false :=
  needed_halo (staged_stages hl) (.direct (mem_allEqs h) rfl hq) n hn

theorem l1_covers (hl : Legal U vdims) {i p : Nat} {e : Fin U.eqs.length} (h : e ∈ (L.getD i []).getD p []) {q : Pt} (hq : q ∈ U.eqs[e].rhs) :
    (rankDist (U.dims.filter fun n => decide (n ∈ vdims q.var)) q.at : Int) ≤ ((U.stages L).calcHalos q.var).l1 := by
  obtain ⟨st, s1, s2, _⟩ := stage_of U h
  rw [mainStages_stages] at s1
  have hst := List.mem_of_getElem? s1
  have hsc : st.scr = false := by
    obtain ⟨i, _, rfl⟩ := List.mem_map.1 hst
    rfl
  have h1 := phase1_l1 (U.stages L) st hst hsc (U.peq e) s2 q (List.mem_cons_of_mem _ hq)
  have h2 := calcHalos_l1 (U.stages L) q.var
  have h3 := rankDist_le q (U.dims.filter fun n => decide (n ∈ vdims q.var)) (hl.dims.filter _) (fun n hn =>
    (hl.args U.eqs[e] (List.getElem_mem _) q (List.mem_cons_of_mem _ hq) n).2 (by simpa using (List.mem_filter.1 hn).2))
  omega

variable {G : RunCfg}

theorem length_filter_range (l : List String) (f : String → Bool) :
    ((List.range l.length).filter fun j => f (l.getD j "")).length = (l.filter f).length := by
  have h : l = (List.range l.length).map fun j => l.getD j "" := by
    apply List.ext_getElem
    · simp
    · intro i h1 h2
      simp [List.getElem?_eq_getElem h1]
  conv_rhs => rw [h, List.filter_map, List.length_map]
  rfl

theorem fits_announced [Inhabited Val] (hr : Runs G U L) (hl : Legal U vdims) (ha : Arranged U L) (hn : Enough U L sz) {P : Prep}
    {shape : Nat → VarShape} {outs : Nat → Int → Slot → Bool} (hA : Announced G U L vdims sz P shape outs) :
    FitsVars (solnStencil hr hl ha hn) P shape outs where
  writes := by
    rintro a β ⟨e, he, rfl, _⟩
    have hv := hA.vars U.eqs[e] (List.getElem_mem _) _ List.mem_cons_self
    refine ⟨hv, hA.outs _ _ e he _, fun j hj => ?_⟩
    show (shape U.eqs[e].lhs.var).used j = true
    rw [hA.used _ hv j hj]
    have hj' : j < U.dims.length := hr.nd ▸ hj
    refine decide_eq_true (hA.full _ (List.getElem_mem _) _ ?_)
    rw [List.getD_eq_getElem _ _ hj']
    exact List.getElem_mem _
  reads := by
    rintro a γ x ⟨hlen, e, he, _, _, p, hp, rfl, rfl⟩
    have hv := hA.vars U.eqs[e] (List.getElem_mem _) p (List.mem_cons_of_mem _ hp)
    have hpos := hn.pos p.var
    show p.var < P.nvars ∧ (if U.hasStep p.var = true then (stepAt p a.step % (sz p.var : Int)).toNat else 0) < (P.var p.var).slots ∧
      (∀ j < G.nd, (shape p.var).used j = true → a.pt.getD j 0 - (shape p.var).lh j ≤ (shiftPt U.dims a.pt p).getD j 0 ∧
        (shiftPt U.dims a.pt p).getD j 0 ≤ a.pt.getD j 0 + (shape p.var).rh j) ∧
      (((List.range G.nd).filter fun j => decide ((shape p.var).used j = true ∧ (shiftPt U.dims a.pt p).getD j 0 ≠ a.pt.getD j 0)).length : Int) ≤
        (P.var p.var).maxDist
    refine ⟨hv, ?_, ?_, ?_⟩
    · rw [hA.slots _ hv]
      split_ifs
      · have := Int.emod_lt_of_pos (stepAt p a.step) (show (0 : Int) < sz p.var by omega)
        have := Int.emod_nonneg (stepAt p a.step) (show (sz p.var : Int) ≠ 0 by omega)
        omega
      · exact hpos
    · intro j hj hu
      rw [getD_shiftPt _ _ _ (hr.nd ▸ hj)]
      rw [hA.used _ hv j hj] at hu
      have h1 := halo_covers hl he hp (of_decide_eq_true hu)
      have h2 := hA.lh _ hv j hj
      have h3 := hA.rh _ hv j hj
      omega
    · have h1 := l1_covers hl he hp
      have h2 := hA.dist _ hv
      have h3 : ((List.range G.nd).filter fun j => decide ((shape p.var).used j = true ∧ (shiftPt U.dims a.pt p).getD j 0 ≠ a.pt.getD j 0)).length =
          rankDist (U.dims.filter fun n => decide (n ∈ vdims p.var)) p.at := by
        unfold rankDist
        rw [List.filter_filter, ← length_filter_range, hr.nd]
        congr 1
        apply List.filter_congr
        intro j hj
        have hj' : j < U.dims.length := List.mem_range.1 hj
        rw [getD_shiftPt _ _ _ hj', hA.used _ hv j (hr.nd ▸ hj')]
        rw [← Bool.decide_and]
        apply decide_eq_decide.2
        simp only [decide_eq_true_eq]
        constructor
        · rintro ⟨g1, g2⟩
          exact ⟨by omega, g1⟩
        · rintro ⟨g1, g2⟩
          exact ⟨g2, by omega⟩
      omega

/-! ### Histories exist -/

open Classical in
/-- The values of the new step, given candidates for the values of the same step that are read. -/
noncomputable def nextVals (U : USoln Val) (inDom : List Int → Prop) (sz : Nat → Nat) (t : Int) (W : History Val) (N : Nat → List Int → Val)
    (v : Nat) (x : List Int) : Val :=
  if h : ∃ e : Fin U.eqs.length, U.eqs[e].lhs.var = v ∧ U.eqs[e].Applies inDom t x then
    U.eqs[h.choose].f t x (U.eqs[h.choose].rhs.map fun p =>
      if p.step = some U.dir then N p.var (shiftPt U.dims x p) else W p.var (stepAt p t) (shiftPt U.dims x p))
  else W v (t + U.dir - U.dir * sz v) x

/-- The equation that defines the value. -/
theorem nextVals_eq (hl : Legal U vdims) (inDom : List Int → Prop) (t : Int) (W : History Val) (N : Nat → List Int → Val)
    (e : Fin U.eqs.length) (x : List Int) (hap : U.eqs[e].Applies inDom t x) :
    nextVals U inDom sz t W N U.eqs[e].lhs.var x = U.eqs[e].f t x (U.eqs[e].rhs.map fun p =>
      if p.step = some U.dir then N p.var (shiftPt U.dims x p) else W p.var (stepAt p t) (shiftPt U.dims x p)) := by
  have h : ∃ e' : Fin U.eqs.length, U.eqs[e'].lhs.var = U.eqs[e].lhs.var ∧ U.eqs[e'].Applies inDom t x := ⟨e, rfl, hap⟩
  unfold nextVals
  rw [dif_pos h]
  obtain ⟨h1, h2⟩ := h.choose_spec
  exact congrArg (fun c : Fin U.eqs.length => U.eqs[c].f t x (U.eqs[c].rhs.map fun p =>
    if p.step = some U.dir then N p.var (shiftPt U.dims x p) else W p.var (stepAt p t) (shiftPt U.dims x p)))
    (eq_of_applies hl h1 h2.2.1 h2.2.2 hap.2.1 hap.2.2)

theorem nextVals_keep (inDom : List Int → Prop) (t : Int) (W : History Val) (N : Nat → List Int → Val) (v : Nat) (x : List Int)
    (h : ¬ ∃ e ∈ U.eqs, e.lhs.var = v ∧ e.Applies inDom t x) : nextVals U inDom sz t W N v x = W v (t + U.dir - U.dir * sz v) x := by
  unfold nextVals
  rw [dif_neg]
  rintro ⟨e, he⟩
  exact h ⟨_, List.getElem_mem _, he⟩

/-- The values of the stages before `k` do not change any more after `k` iterations. -/
theorem nextVals_stable (hl : Legal U vdims) (ha : Arranged U L) (inDom : List Int → Prop) (t : Int) (W : History Val)
    (N0 : Nat → List Int → Val) (k : Nat) : ∀ m, k + 1 ≤ m → ∀ (e : Fin U.eqs.length) i p, e ∈ (L.getD i []).getD p [] → i < k →
      ∀ x, U.eqs[e].Applies inDom t x →
        (nextVals U inDom sz t W)^[m] N0 U.eqs[e].lhs.var x = (nextVals U inDom sz t W)^[m + 1] N0 U.eqs[e].lhs.var x := by
  induction k with
  | zero => intro _ _ _ _ _ _ h; omega
  | succ k ih =>
    intro m hm e i p he hi x hap
    obtain ⟨m', rfl⟩ : ∃ m', m = m' + 1 := ⟨m - 1, by omega⟩
    rw [Function.iterate_succ_apply', Function.iterate_succ_apply' _ (m' + 1), nextVals_eq hl inDom t W _ e x hap,
      nextVals_eq hl inDom t W _ e x hap]
    congr 1
    apply List.map_congr_left
    intro q hq
    split_ifs with hs
    · by_cases hw : ∃ e' ∈ U.eqs, e'.lhs.var = q.var ∧ e'.Applies inDom t (shiftPt U.dims x q)
      · obtain ⟨e', he', hv, hap'⟩ := hw
        obtain ⟨b, hb, rfl⟩ := List.getElem_of_mem he'
        obtain ⟨i', p', hin⟩ := ha.mem ⟨b, hb⟩
        have hlt := ha.order e ⟨b, hb⟩ i p i' p' he hin q hq hv.symm (by rw [hs]; exact (hl.lhs _ (List.getElem_mem hb)).1.symm)
        have := ih m' (by omega) ⟨b, hb⟩ i' p' hin (by omega) (shiftPt U.dims x q) hap'
        simp only [Fin.getElem_fin] at this
        rw [← hv]
        exact this
      · obtain ⟨m'', rfl⟩ : ∃ m'', m' = m'' + 1 := ⟨m' - 1, by omega⟩
        rw [Function.iterate_succ_apply', Function.iterate_succ_apply' _ (m'' + 1), nextVals_keep inDom t W _ _ _ hw,
          nextVals_keep inDom t W _ _ _ hw]
    · rfl

theorem stage_lt {α : Type} {L : List (List (List α))} {i p : Nat} {e : α} (h : e ∈ (L.getD i []).getD p []) : i < L.length := by
  obtain ⟨_, _, h1, _⟩ := getD_mem_stage h
  exact (List.getElem?_eq_some_iff.1 h1).1

/-- There are values of the new step that satisfy the equations. -/
theorem exists_next (hl : Legal U vdims) (ha : Arranged U L) (inDom : List Int → Prop) (t : Int) (W : History Val) :
    ∃ N : Nat → List Int → Val, ∀ v x, N v x = nextVals U inDom sz t W N v x := by
  refine ⟨(nextVals U inDom sz t W)^[L.length + 1] fun v x => W v t x, fun v x => ?_⟩
  rw [← Function.iterate_succ_apply' (nextVals U inDom sz t W)]
  by_cases hw : ∃ e ∈ U.eqs, e.lhs.var = v ∧ e.Applies inDom t x
  · obtain ⟨e', he', rfl, hap'⟩ := hw
    obtain ⟨b, hb, rfl⟩ := List.getElem_of_mem he'
    obtain ⟨i', p', hin⟩ := ha.mem ⟨b, hb⟩
    exact nextVals_stable hl ha inDom t W _ L.length (L.length + 1) (Nat.le_refl _) ⟨b, hb⟩ i' p' hin (stage_lt hin) x hap'
  · rw [Function.iterate_succ_apply', Function.iterate_succ_apply' _ (L.length + 1), nextVals_keep inDom t W _ _ _ hw,
      nextVals_keep inDom t W _ _ _ hw]

/-- One more step. -/
theorem exists_step (hl : Legal U vdims) (ha : Arranged U L) (hpos : ∀ v, 0 < sz v) (inDom : List Int → Prop) (t : Int) (W : History Val) :
    ∃ W' : History Val, (∀ v s x, (U.hasStep v = false ∨ s ≠ t + U.dir) → W' v s x = W v s x) ∧
      (∀ e ∈ U.eqs, ∀ x, e.Applies inDom t x → W' e.lhs.var (t + U.dir) x = e.rhsVal U.dims W' t x) ∧
      ∀ v x, U.hasStep v = true → (¬ ∃ e ∈ U.eqs, e.lhs.var = v ∧ e.Applies inDom t x) →
        W' v (t + U.dir) x = W' v (t + U.dir - U.dir * sz v) x := by
  obtain ⟨N, hN⟩ := exists_next (sz := sz) hl ha inDom t W
  have hne : U.dir ≠ 0 := by rcases hl.dir with h | h <;> rw [h] <;> decide
  have hother : ∀ v s x, (U.hasStep v = false ∨ s ≠ t + U.dir) →
      (if U.hasStep v = true ∧ s = t + U.dir then N v x else W v s x) = W v s x := by
    intro v s x h
    rw [if_neg]
    rintro ⟨h1, h2⟩
    rcases h with h | h
    · rw [h1] at h; cases h
    · exact h h2
  refine ⟨fun v s x => if U.hasStep v = true ∧ s = t + U.dir then N v x else W v s x, hother, ?_, ?_⟩
  · intro e he x hap
    obtain ⟨b, hb, rfl⟩ := List.getElem_of_mem he
    have hs := lhs_hasStep hl ⟨b, hb⟩
    simp only [Fin.getElem_fin] at hs
    simp only [hs, and_self, if_true]
    rw [hN]
    have := nextVals_eq (sz := sz) hl inDom t W N ⟨b, hb⟩ x hap
    simp only [Fin.getElem_fin] at this
    rw [this]
    unfold UEq.rhsVal
    congr 1
    apply List.map_congr_left
    intro p hp
    have hst := hl.step _ (List.getElem_mem hb) p (List.mem_cons_of_mem _ hp)
    cases hk : p.step with
    | none =>
      rw [hk] at hst
      rw [if_neg (by simp)]
      exact (hother _ _ _ (Or.inl hst.symm)).symm
    | some k =>
      have hat : stepAt p t = t + k := by unfold stepAt; rw [hk]
      rw [hk] at hst
      rw [hat]
      by_cases hkd : k = U.dir
      · subst hkd
        rw [if_pos rfl]
        exact (if_pos ⟨hst.symm, rfl⟩).symm
      · rw [if_neg (by simpa using hkd)]
        exact (hother _ _ _ (Or.inr fun h => hkd (by omega))).symm
  · intro v x hv hno
    have := hN v x
    rw [nextVals_keep inDom t W N v x hno] at this
    have hp := hpos v
    have h2 : t + U.dir - U.dir * sz v ≠ t + U.dir := by
      rcases hl.dir with h | h <;> rw [h] <;> omega
    simp only [hv, true_and, if_true, h2, if_false]
    exact this

theorem steps_ne {dir : Int} (hd : dir = 1 ∨ dir = -1) {a b : Int} (h : a ≠ b) (f : Int) : f + dir * a ≠ f + dir * b := by
  rcases hd with rfl | rfl <;> omega

/-- For every initial memory there are values that satisfy the equations. -/
theorem exists_history (hl : Legal U vdims) (ha : Arranged U L) (hn : Enough U L sz) (inDom : List Int → Prop) (first : Int)
    (g : (Nat × Nat) × List Int → Val) (n : Nat) : ∃ W, Evolves U inDom sz first n W ∧ Stores U sz W first g := by
  have hpos := hn.pos
  induction n with
  | zero =>
    refine ⟨fun v t x => g (stepSlot U sz v t, x), ⟨fun i hi => absurd hi (by omega), fun i hi => absurd hi (by omega)⟩, ?_, ?_⟩
    · intro v x hv
      simp [stepSlot, hv]
    · intro v x _ j _
      rfl
  | succ n ih =>
    obtain ⟨W, hW, hS⟩ := ih
    obtain ⟨W', h1, h2, h3⟩ := exists_step (sz := sz) hl ha hpos inDom (first + U.dir * n) W
    -- reads of the equations of earlier steps
    have hold : ∀ i < n, ∀ e ∈ U.eqs, ∀ p ∈ e.rhs, ∀ y, W' p.var (stepAt p (first + U.dir * i)) y = W p.var (stepAt p (first + U.dir * i)) y := by
      intro i hi e he p hp y
      have hst := hl.step e he p (List.mem_cons_of_mem _ hp)
      cases hk : p.step with
      | none =>
        rw [hk] at hst
        exact h1 _ _ _ (Or.inl hst.symm)
      | some k =>
        have hat : stepAt p (first + U.dir * i) = first + U.dir * i + k := by unfold stepAt; rw [hk]
        rw [hat]
        refine h1 _ _ _ (Or.inr ?_)
        have := hl.rhs e he p hp k hk
        rcases hl.dir with h | h <;> rw [h] at this ⊢ <;> omega
    refine ⟨W', ⟨?_, ?_⟩, ?_, ?_⟩
    · intro i hi e he x hap
      rcases Nat.lt_or_ge i n with hin | hin
      · have h4 := hW.eq i hin e he x hap
        unfold UEq.rhsVal at h4 ⊢
        rw [h1 _ _ _ (Or.inr (by rcases hl.dir with h | h <;> rw [h] <;> omega)), h4]
        congr 1
        apply List.map_congr_left
        intro p hp
        exact (hold i hin e he p hp _).symm
      · obtain rfl : i = n := by omega
        exact h2 e he x hap
    · intro i hi v x hv hno
      rcases Nat.lt_or_ge i n with hin | hin
      · have := hpos v
        rw [h1 _ _ _ (Or.inr (by rcases hl.dir with h | h <;> rw [h] <;> omega)),
          h1 _ _ _ (Or.inr (by rcases hl.dir with h | h <;> rw [h] <;> omega))]
        exact hW.keep i hin v x hv hno
      · obtain rfl : i = n := by omega
        exact h3 v x hv hno
    · intro v x hv
      rw [hS.1 v x hv, h1 _ _ _ (Or.inl hv)]
    · intro v x hv j hj
      rw [hS.2 v x hv j hj, h1 _ _ _ (Or.inr (by rcases hl.dir with h | h <;> rw [h] <;> omega))]

end

end Yask
