import Verif.Props.VarAccess

/-!
# C17, C21: valid steps, and padding
-/

namespace Yask
open Spec Var

variable {V : Type}

/-! ### C17 -/

/-- C17: the valid steps are as many consecutive integers as the step allocation. -/
theorem C17_window_size (v : YVar V) (hr : Reachable v) (d : DimG) (hd : d ∈ v.g.dims)
    (hk : d.kind = .step) : d.lastLocal = d.firstLocal + d.alloc - 1 := by
  have h := hr.ok.dims d hd
  have h1 := h.nd_pad (by rw [hk]; decide)
  have h2 := h.nd_halo (by rw [hk]; decide)
  unfold DimG.firstLocal DimG.lastLocal
  omega

/-- C17: a write to step `t` moves the range of valid steps so that it includes `t`, keeps its size,
and moves it by no more than any other range of that size that includes `t`. -/
theorem C17_moves_least (v : YVar V) (hr : Reachable v) (d : DimG) (ds : List DimG)
    (hd : v.g.dims = d :: ds) (hk : d.kind = .step) (hs : 0 < d.alloc) (t : Int) :
    ∃ d', (v.g.updateValidStep t).dims = d' :: ds ∧ d'.kind = .step ∧ d'.alloc = d.alloc ∧
      d'.firstLocal ≤ t ∧ t ≤ d'.lastLocal ∧ d'.lastLocal = d'.firstLocal + d.alloc - 1 ∧
      ∀ f, f ≤ t → t ≤ f + d.alloc - 1 → |d'.firstLocal - d.firstLocal| ≤ |f - d.firstLocal| := by
  have h := hr.ok.dims d (by rw [hd]; exact List.mem_cons_self)
  have h1 := h.nd_pad (by rw [hk]; decide)
  have h2 := h.nd_halo (by rw [hk]; decide)
  rw [updateValidStep_eq hd hk t]
  obtain ⟨n, hn⟩ : ∃ n, n = if t < d.firstLocal then t
      else if t > d.lastLocal then t - d.domain + 1 else d.localOfs := ⟨_, rfl⟩
  rw [← hn]
  have hn' : (t < d.localOfs ∧ n = t) ∨ (d.localOfs ≤ t ∧ t > d.localOfs + d.domain - 1 ∧
      n = t - d.domain + 1) ∨ (d.localOfs ≤ t ∧ t ≤ d.localOfs + d.domain - 1 ∧ n = d.localOfs) := by
    have f1 : d.firstLocal = d.localOfs := by unfold DimG.firstLocal; omega
    have f2 : d.lastLocal = d.localOfs + d.domain - 1 := by unfold DimG.lastLocal; omega
    split at hn
    · left; omega
    · split at hn
      · right; left; omega
      · right; right; omega
  refine ⟨_, rfl, hk, rfl, ?_, ?_, ?_, ?_⟩
  all_goals simp only [DimG.firstLocal, DimG.lastLocal]
  · omega
  · omega
  · omega
  · intro f hf1 hf2
    rw [abs_le]
    have := neg_abs_le (f - (d.rankOfs + d.localOfs - d.lPad))
    have := le_abs_self (f - (d.rankOfs + d.localOfs - d.lPad))
    have := abs_nonneg (f - (d.rankOfs + d.localOfs - d.lPad))
    constructor <;> omega

/-- Where the range of valid steps is after the steps of a slice were marked as written. -/
theorem setDirtyInSlice_window {g : Geom} (hok : g.Ok) {d : DimG} {ds : List DimG}
    (hd : g.dims = d :: ds) (hk : d.kind = .step) (hs : 0 < d.alloc) (first last : List Int)
    (hne : first.getD 0 0 ≤ last.getD 0 0) :
    ∃ d', (g.setDirtyInSlice first last).dims = d' :: ds ∧ d'.alloc = d.alloc ∧
      d'.firstLocal ≤ last.getD 0 0 ∧ last.getD 0 0 ≤ d'.lastLocal ∧
      d'.lastLocal = d'.firstLocal + d.alloc - 1 ∧
      (d.firstLocal ≤ first.getD 0 0 → last.getD 0 0 ≤ d.lastLocal → d'.firstLocal = d.firstLocal) ∧
      (last.getD 0 0 + 1 - first.getD 0 0 ≤ d.alloc → d'.firstLocal ≤ first.getD 0 0) := by
  have h := hok.dims d (by rw [hd]; exact List.mem_cons_self)
  have h1 := h.nd_pad (by rw [hk]; decide)
  have h2 := h.nd_halo (by rw [hk]; decide)
  have hstep : g.hasStep = true := by unfold Geom.hasStep; rw [hd]; simp [hk]
  unfold Geom.setDirtyInSlice
  rw [if_pos hstep]
  generalize first.getD 0 0 = f at *
  generalize last.getD 0 0 = l at *
  have key : ∀ n : Nat, ∃ x, ((List.range n).foldl (fun g (k : Nat) => g.updateValidStep (f + k)) g).dims
      = { d with localOfs := x } :: ds ∧ (n = 0 → x = d.localOfs) ∧
        (0 < n → x ≤ f + n - 1 ∧ f + n - 1 ≤ x + d.domain - 1) ∧
        (d.localOfs ≤ f → f + n - 1 ≤ d.localOfs + d.domain - 1 → x = d.localOfs) ∧
        (0 < n → n ≤ d.domain → x ≤ f) := by
    intro n
    induction n with
    | zero => exact ⟨d.localOfs, by simpa using hd, fun _ => rfl, fun h => absurd h (by omega), fun _ _ => rfl,
        fun h => absurd h (by omega)⟩
    | succ n ih =>
      obtain ⟨x, e, h3, h4, h5, h6'⟩ := ih
      rw [List.range_succ, List.foldl_append, List.foldl_cons, List.foldl_nil,
        updateValidStep_eq e hk (f + n)]
      obtain ⟨y, hy⟩ : ∃ y, y = if f + n < ({ d with localOfs := x } : DimG).firstLocal then f + n
          else if f + n > ({ d with localOfs := x } : DimG).lastLocal then f + n - d.domain + 1
            else x := ⟨_, rfl⟩
      rw [← hy]
      have f1 : ({ d with localOfs := x } : DimG).firstLocal = x := by simp only [DimG.firstLocal]; omega
      have f2 : ({ d with localOfs := x } : DimG).lastLocal = x + d.domain - 1 := by
        simp only [DimG.lastLocal]; omega
      rw [f1, f2] at hy
      refine ⟨y, rfl, fun h => by omega, fun _ => ?_, fun h6 h7 => ?_, fun _ h8 => ?_⟩
      · split at hy
        · omega
        · split at hy <;> omega
      · have := h5 h6 (by omega)
        rw [if_neg (by omega), if_neg (by omega)] at hy
        omega
      · by_cases hn : n = 0
        · split at hy
          · omega
          · split at hy <;> omega
        · have := h6' (by omega) (by omega)
          split at hy
          · omega
          · split at hy <;> omega
  obtain ⟨x, e, -, h4, h5, h9⟩ := key (l + 1 - f).toNat
  refine ⟨_, e, rfl, ?_, ?_, ?_, ?_, ?_⟩ <;> simp only [DimG.firstLocal, DimG.lastLocal]
  · have := h4 (by omega); omega
  · have := h4 (by omega); omega
  · omega
  · intro h6 h7
    have := h5 (by omega) (by omega)
    omega
  · intro h6
    have := h9 (by omega) (by omega)
    omega

/-- C17: after a slice was set, its last step is valid (all its steps are, if they fit), the number of
valid steps is as before, and the range of valid steps did not move if it included all the steps of the
slice already. -/
theorem C17_slice_moves_window (v : YVar V) (hr : Reachable v) (d : DimG) (ds : List DimG)
    (hd : v.g.dims = d :: ds) (hk : d.kind = .step) (hs : 0 < d.alloc) (env : SliceEnv) (buf : Int → V)
    (val : V) (n : Int) (strict : Bool) (first last : List Int)
    (hne : first.getD 0 0 ≤ last.getD 0 0) (r : YVar V × Int)
    (h : setSlice v env buf n first last = .ok r ∨ setSliceSame v env val first last strict n = .ok r) :
    ∃ d', r.1.g.dims = d' :: ds ∧ d'.alloc = d.alloc ∧
      d'.firstLocal ≤ last.getD 0 0 ∧ last.getD 0 0 ≤ d'.lastLocal ∧
      d'.lastLocal = d'.firstLocal + d.alloc - 1 ∧
      (d.firstLocal ≤ first.getD 0 0 → last.getD 0 0 ≤ d.lastLocal → d'.firstLocal = d.firstLocal) ∧
      (last.getD 0 0 + 1 - first.getD 0 0 ≤ d.alloc → d'.firstLocal ≤ first.getD 0 0) := by
  have hg : r.1.g = v.g.setDirtyInSlice first last := by
    rcases h with h | h
    · unfold setSlice at h
      split at h
      · cases h
      · rename_i m _
        revert h
        cases visitSlice v env true n first last (setBody v.g buf n) m with
        | ok q => intro h; cases h; rfl
        | throws => intro h; cases h
        | undefined => intro h; cases h
    · unfold setSliceSame at h
      split at h
      · cases h
      · rename_i m _
        revert h
        cases visitSlice v env strict n first last (setSameBody v.g val) m with
        | ok q => intro h; cases h; rfl
        | throws => intro h; cases h
        | undefined => intro h; cases h
  rw [hg]
  exact setDirtyInSlice_window hr.ok hd hk hs first last hne

/-- What is known of the values agrees with what `get_element` returns. -/
def Knows (s : StepStore V) (v : YVar V) : Prop :=
  (∀ d ds, v.g.dims = d :: ds → s.first = d.firstLocal) ∧
  ∀ idx x, s.known idx = some x → InRange v.g.api idx ∧ getElement v idx = .ok x

theorem find?_congr' {α : Type} {p q : α → Bool} {l : List α} (h : ∀ x ∈ l, p x = q x) :
    l.find? p = l.find? q := by
  induction l with
  | nil => rfl
  | cons a l ih =>
    rw [List.find?_cons, List.find?_cons, h a List.mem_cons_self,
      ih fun x hx => h x (List.mem_cons_of_mem _ hx)]

theorem kernelStep_knows {v : YVar V} (hr : Reachable v) (hmem : v.mem.isSome) {d : DimG}
    {ds : List DimG} (hd : v.g.dims = d :: ds) (hk : d.kind = .step) (hs : 0 < d.alloc)
    {s : StepStore V} (hkn : Knows s v) (t : Int) (ws : List (List Int × V))
    (hw : ∀ w ∈ ws, InRangeButStep v.g.api (t :: w.1)) :
    ∃ v', kernelStep v t ws = .ok v' ∧ Reachable v' ∧ v'.mem.isSome ∧
      v'.g = v.g.updateValidStep t ∧ Knows (s.write d.alloc t ws) v' := by
  have hok := hr.ok
  obtain ⟨d', e1, e2, e3, e4, e5, e6, _⟩ := C17_moves_least v hr d ds hd hk hs t
  have hN := updateValidStep_eq hd hk t
  have hwin := C17_window_size v hr d (by rw [hd]; exact List.mem_cons_self) hk
  have hdok := hok.dims d (by rw [hd]; exact List.mem_cons_self)
  have hp := hdok.nd_pad (by rw [hk]; decide)
  have hh := hdok.nd_halo (by rw [hk]; decide)
  have hr1 : Reachable (⟨v.g.updateValidStep t, v.mem⟩ : YVar V) := Reachable.validStep v t hr
  obtain ⟨g, m⟩ := v
  obtain ⟨m, rfl⟩ := Option.isSome_iff_exists.1 hmem
  simp only at *
  have hsa : StepsAlloc g.api := by
    intro x hx hxs
    unfold Geom.api at hx
    rw [hd, List.map_cons, List.mem_cons] at hx
    rcases hx with rfl | hx
    · exact hs
    · obtain ⟨y, hy, rfl⟩ := List.mem_map.1 hx
      have := hok.stepFirst y (by rw [hd]; exact hy)
      simp at hxs
      exact absurd hxs this
  have hmoved : movedFirst d.alloc s.first t = d'.firstLocal := by
    have : d' = { d with localOfs := if t < d.firstLocal then t
          else if t > d.lastLocal then t - d.domain + 1 else d.localOfs } := by
      rw [hN] at e1
      exact (List.cons.inj e1).1.symm
    have hf := hkn.1 d ds hd
    obtain ⟨n, hn⟩ : ∃ n, n = if t < d.firstLocal then t
      else if t > d.lastLocal then t - d.domain + 1 else d.localOfs := ⟨_, rfl⟩
    rw [← hn] at this
    rw [this, hf]
    unfold movedFirst
    have f1 : d.firstLocal = d.localOfs := by unfold DimG.firstLocal; omega
    have f2 : d.lastLocal = d.localOfs + d.domain - 1 := by unfold DimG.lastLocal; omega
    have f3 : DimG.firstLocal { d with localOfs := n } = n := by
      simp only [DimG.firstLocal]; omega
    rw [f3]
    split at hn
    · rw [if_pos (by omega)]; omega
    · split at hn
      · rw [if_neg (by omega), if_pos (by omega)]; omega
      · rw [if_neg (by omega), if_neg (by omega)]; omega
  refine ⟨⟨g.updateValidStep t,
      some (ws.foldl (fun m w => poke m (g.addrOfSlots (slots g.dims (t :: w.1))) w.2) m)⟩, ?_,
    Reachable.storage _ _ hr1, rfl, rfl, ?_, ?_⟩
  · unfold kernelStep
    simp only
    rw [kernelWrites_eq hok hsa t m ws hw]
    rfl
  · intro x xs hx
    simp only [e1] at hx
    obtain ⟨rfl, rfl⟩ := List.cons.inj hx
    exact hmoved
  · intro idx x hx
    cases idx with
    | nil => simp [StepStore.write] at hx
    | cons i rest =>
      simp only [StepStore.write, hmoved] at hx
      split at hx
      swap
      · cases hx
      next hi =>
      have hapi : (g.updateValidStep t).api =
          ⟨true, d'.firstLocal, d'.lastLocal, d'.alloc⟩ ::
            ds.map fun d => ⟨d.kind == .step, d.firstLocal, d.lastLocal, d.alloc⟩ := by
        unfold Geom.api
        rw [e1, List.map_cons, e2]
        rfl
      have hapi0 : g.api = ⟨true, d.firstLocal, d.lastLocal, d.alloc⟩ ::
            ds.map fun d => ⟨d.kind == .step, d.firstLocal, d.lastLocal, d.alloc⟩ := by
        unfold Geom.api
        rw [hd, List.map_cons, hk]
        rfl
      have hns : ∀ y ∈ (ds.map fun d => (⟨d.kind == .step, d.firstLocal, d.lastLocal, d.alloc⟩ : ApiDim)),
          y.isStep = false := by
        intro y hy
        obtain ⟨z, hz, rfl⟩ := List.mem_map.1 hy
        have := hok.stepFirst z (by rw [hd]; exact hz)
        simpa using this
      have tailRange : ∀ j : Int, InRangeButStep g.api (j :: rest) →
          InRange (g.updateValidStep t).api (i :: rest) := by
        intro j hj
        rw [hapi]
        rw [hapi0] at hj
        unfold InRange
        unfold InRangeButStep at hj
        rw [List.forall₂_cons] at hj ⊢
        refine ⟨by simp only; omega, ?_⟩
        have : ∀ {l : List Int} {ds : List ApiDim}, (∀ y ∈ ds, y.isStep = false) →
            List.Forall₂ (fun i d => d.isStep = true ∨ (d.first ≤ i ∧ i ≤ d.last)) l ds →
            List.Forall₂ (fun i d => d.first ≤ i ∧ i ≤ d.last) l ds := by
          intro l ds h1 h2
          induction h2 with
          | nil => exact List.Forall₂.nil
          | cons hab _ ih =>
            refine List.Forall₂.cons ?_ (ih fun y hy => h1 y (List.mem_cons_of_mem _ hy))
            rcases hab with h | h
            · rw [h1 _ List.mem_cons_self] at h; cases h
            · exact h
        exact this hns hj.2
      have getNew : InRangeButStep g.api (i :: rest) → ∀ m' : Int → V,
          getElement ⟨g.updateValidStep t, some m'⟩ (i :: rest) =
            .ok (m' (g.addrOfSlots (slots g.dims (i :: rest)))) := by
        intro hib m'
        have hir := tailRange i hib
        have hok' : (g.updateValidStep t).Ok := updateValidStep_ok hok t
        rw [getElement_eq hok' m' (idx := i :: rest) (by
          unfold Readable
          split
          · exact hir.butStep
          · exact hir) (fun _ => stepsAlloc_of_inRange hok' hir)]
        rw [slots_updateValidStep, addrOfSlots_updateValidStep]
      have same : ∀ w ∈ ws, InRangeButStep g.api (i :: rest) →
          (g.addrOfSlots (slots g.dims (t :: w.1)) = g.addrOfSlots (slots g.dims (i :: rest)) ↔
            t = i ∧ w.1 = rest) := by
        intro w hwm hib
        rw [addr_eq_iff hok (hw w hwm) hib hsa, hapi0]
        simp only [SameElem, if_true]
        have hl1 := inRangeButStep_length (hw w hwm)
        have hl2 := inRangeButStep_length hib
        rw [hd] at hl1 hl2
        simp only [List.length_cons, Nat.add_right_cancel_iff] at hl1 hl2
        rw [sameElem_tail hns _ _ (by simpa using hl1) (by simpa using hl2)]
        refine and_congr_left fun _ => ⟨fun h => ?_, fun h => by rw [h]⟩
        exact (emod_window (n := d.alloc) (f := d'.firstLocal) ⟨by omega, by omega⟩
          ⟨by omega, by omega⟩ h.symm).symm
      have oldIn : ∀ x, s.known (i :: rest) = some x → InRangeButStep g.api (i :: rest) ∧
          m (g.addrOfSlots (slots g.dims (i :: rest))) = x := by
        intro x hx
        obtain ⟨h1, h2⟩ := hkn.2 _ x hx
        refine ⟨h1.butStep, ?_⟩
        rw [getElement_eq hok m (idx := i :: rest) (by
          unfold Readable
          split
          · exact h1.butStep
          · exact h1) (fun _ => hsa)] at h2
        exact Outcome.ok.inj h2
      by_cases hit : i = t
      · rw [if_pos hit] at hx
        subst hit
        cases hf : ws.reverse.find? (fun w => w.1 == rest) with
        | some w =>
          rw [hf] at hx
          cases hx
          have hwm := List.mem_reverse.1 (List.mem_of_find?_eq_some hf)
          have hwr : w.1 = rest := by simpa using List.find?_some hf
          have hib : InRangeButStep g.api (i :: rest) := hwr ▸ hw w hwm
          refine ⟨tailRange i hib, ?_⟩
          rw [getNew hib, foldl_poke]
          have : ws.reverse.find? (fun w => decide (g.addrOfSlots (slots g.dims (i :: w.1)) =
              g.addrOfSlots (slots g.dims (i :: rest)))) = some w := by
            rw [← hf]
            apply find?_congr'
            intro y hy
            rw [beq_eq_decide, decide_eq_decide]
            rw [same y (List.mem_reverse.1 hy) hib]
            simp
          rw [this]
        | none =>
          rw [hf] at hx
          obtain ⟨hib, hm⟩ := oldIn x hx
          refine ⟨tailRange i hib, ?_⟩
          rw [getNew hib, foldl_poke]
          have : ws.reverse.find? (fun w => decide (g.addrOfSlots (slots g.dims (i :: w.1)) =
              g.addrOfSlots (slots g.dims (i :: rest)))) = none := by
            rw [← hf]
            apply find?_congr'
            intro y hy
            rw [beq_eq_decide, decide_eq_decide]
            rw [same y (List.mem_reverse.1 hy) hib]
            simp
          rw [this]
          simp only [hm]
      · rw [if_neg hit] at hx
        obtain ⟨hib, hm⟩ := oldIn x hx
        refine ⟨tailRange i hib, ?_⟩
        rw [getNew hib, foldl_poke]
        have : ws.reverse.find? (fun w => decide (g.addrOfSlots (slots g.dims (t :: w.1)) =
            g.addrOfSlots (slots g.dims (i :: rest)))) = none := by
          rw [List.find?_eq_none]
          intro y hy
          rw [decide_eq_true_eq, same y (List.mem_reverse.1 hy) hib]
          exact fun h => hit h.1.symm
        rw [this]
        simp only [hm]

/-- Any sequence of evaluated steps. -/
def runSteps (v : YVar V) (h : List (Int × List (List Int × V))) : Outcome (YVar V) :=
  h.foldlM (fun v w => kernelStep v w.1 w.2) v

theorem updateValidStep_keeps {g : Geom} {d : DimG} {ds : List DimG} (hd : g.dims = d :: ds)
    (hk : d.kind = .step) (t : Int) (idx : List Int) (h : InRangeButStep g.api idx) :
    InRangeButStep (g.updateValidStep t).api idx := by
  rw [updateValidStep_eq hd hk t]
  unfold Geom.api at h ⊢
  rw [hd, List.map_cons] at h
  simp only [List.map_cons]
  cases h with
  | cons h1 h2 => exact List.Forall₂.cons (Or.inl (by simp [hk])) h2

/-- C17: after any history of steps written by `run_solution`, in any order and at any step indices,
every element whose step has been in the valid range since it was written has the value last written,
and elements known before keep their value as long as their step stays in the range.  (`Knows s v`:
what the store `s` knows is what `get_element` returns, for elements in range.) -/
theorem C17_history (v : YVar V) (hr : Reachable v) (hmem : v.mem.isSome) (d : DimG) (ds : List DimG)
    (hd : v.g.dims = d :: ds) (hk : d.kind = .step) (hs : 0 < d.alloc) (s : StepStore V)
    (hkn : Knows s v) (h : List (Int × List (List Int × V)))
    (hw : ∀ w ∈ h, ∀ x ∈ w.2, InRangeButStep v.g.api (w.1 :: x.1)) :
    ∃ v', runSteps v h = .ok v' ∧ Knows (h.foldl (fun s w => s.write d.alloc w.1 w.2) s) v' := by
  induction h generalizing v d s with
  | nil => exact ⟨v, rfl, hkn⟩
  | cons w h ih =>
    obtain ⟨v1, e1, r1, m1, g1, k1⟩ :=
      kernelStep_knows hr hmem hd hk hs hkn w.1 w.2 (hw w List.mem_cons_self)
    obtain ⟨d', e2, e3, e4, _⟩ := C17_moves_least v hr d ds hd hk hs w.1
    have e2' : v1.g.dims = d' :: ds := by rw [g1]; exact e2
    obtain ⟨v2, e5, k2⟩ := ih v1 r1 m1 d' e2' e3 (e4 ▸ hs) _ (e4 ▸ k1) (by
      intro y hy x hx
      rw [g1]
      exact updateValidStep_keeps hd hk _ _ (hw y (List.mem_cons_of_mem _ hy) x hx))
    refine ⟨v2, ?_, ?_⟩
    · unfold runSteps at e5 ⊢
      rw [List.foldlM_cons, e1]
      exact e5
    · rw [e4] at k2
      exact k2

/-- The store knows the values of the example var; writing steps 4 and then 3 makes the valid steps
2 … 4. -/
example : Reachable exVar ∧ exVar.mem.isSome ∧ Knows ⟨0, fun _ => none⟩ exVar ∧
    (∃ v', runSteps exVar [(4, [([20, 0, 0], 44)]), (3, [([20, 0, 0], 33)])] = .ok v' ∧
      getElement v' [4, 20, 0, 0] = .ok 44 ∧ getElement v' [3, 20, 0, 0] = .ok 33 ∧
      getElement v' [1, 20, 0, 0] = .throws) ∧
    ((StepStore.write 3 ⟨0, fun _ => none⟩ 4 [([20, 0, 0], (44 : Int))]).write 3 3
      [([20, 0, 0], 33)]).known [4, 20, 0, 0] = some 44 := by
  refine ⟨exVar_reachable, rfl, ⟨?_, fun _ _ h => by simp at h⟩, ⟨_, rfl, ?_, ?_, ?_⟩, ?_⟩
  · intro d ds h
    have : (exVar.g.dims.head?).map DimG.firstLocal = some 0 := by decide +kernel
    rw [h] at this
    exact (Option.some.inj this).symm
  · decide +kernel
  · decide +kernel
  · decide +kernel
  · decide +kernel

/-- C17 does not hold for `set_element`: at a step outside the valid range it reports success, but the
range does not move, the element written is not readable, and the value of a step that stays valid is
overwritten. -/
theorem C17_fails_for_set_element :
    ∃ v v' : YVar Int, Reachable v ∧ getElement v [0, 20, 0, 0] = .ok 0 ∧
      setElement v 99 [3, 20, 0, 0] true = .ok (v', 1) ∧ v'.g = v.g ∧
      getElement v' [3, 20, 0, 0] = .throws ∧ getElement v' [0, 20, 0, 0] = .ok 99 := by
  refine ⟨exVar, _, exVar_reachable, by decide +kernel, rfl, ?_, ?_, ?_⟩ <;> decide +kernel

/-! ### C21 -/

/-- C21: after any sequence of setting calls that returned normally, each domain dimension has padding
at least as large as the halo plus the wave-front extension plus the requested extra padding, and as
the requested minimum; the allocation is left pad, domain and right pad; it is a whole number of
vectors and the domain starts at a vector boundary. -/
theorem C21_room_for_padding (v : YVar V) (hr : Reachable v) (d : DimG) (hd : d ∈ v.g.dims)
    (hk : d.kind = .domain) :
    d.lHalo + d.lExt + d.reqLEpad ≤ d.lPad ∧ d.reqLPad ≤ d.lPad ∧
    d.rHalo + d.rExt + d.reqREpad ≤ d.rPad ∧ d.reqRPad ≤ d.rPad ∧
    0 ≤ d.lHalo ∧ 0 ≤ d.lExt ∧ 0 ≤ d.reqLEpad ∧ 0 ≤ d.reqLPad ∧
    0 ≤ d.rHalo ∧ 0 ≤ d.rExt ∧ 0 ≤ d.reqREpad ∧ 0 ≤ d.reqRPad ∧
    d.alloc = d.lPad + d.domain + d.rPad ∧
    (0 < d.varVL ∧ d.varVL ∣ d.lPad ∧ d.varVL ∣ d.alloc) ∧
    d.vecAlloc * d.varVL = d.alloc := by
  have h := hr.ok.dims d hd
  have hset := (settingsOk_iff d).1 h.set_ok
  have h1 := h.lpad hk
  have h2 := h.rpad hk
  exact ⟨h1.1, h1.2, h2.1, h2.2, hset.1, hset.2.2.1, hset.2.2.2.2.2.2.1, hset.2.2.2.2.1, hset.2.1,
    hset.2.2.2.1, hset.2.2.2.2.2.2.2, hset.2.2.2.2.2.1, h.alloc_eq,
    ⟨h.vvl_pos, Int.dvd_trans h.vvl_dvd h.lpad_dvd, Int.dvd_trans h.vvl_dvd h.alloc_dvd⟩, h.valloc⟩

/-- C21: a non-domain dimension has no padding. -/
theorem C21_no_other_padding (v : YVar V) (hr : Reachable v) (d : DimG) (hd : d ∈ v.g.dims)
    (hk : d.kind ≠ .domain) : d.lPad = 0 ∧ d.rPad = 0 ∧ d.alloc = d.domain :=
  (hr.ok.dims d hd).nd_pad hk

example : Reachable exVar ∧ ∃ d ∈ exVar.g.dims, d.kind = .domain ∧ d.lHalo = 2 ∧ d.domain = 10 ∧
    d.varVL = 4 ∧ d.lPad = 8 ∧ d.alloc = 24 := by
  refine ⟨exVar_reachable, ?_⟩
  decide +kernel

/-- The fields of a dimension that the address of an element depends on. -/
def SamePlace (d d' : DimG) : Prop :=
  d'.kind = d.kind ∧ d'.lPad = d.lPad ∧ d'.rankOfs = d.rankOfs ∧ d'.localOfs = d.localOfs ∧
    d'.alloc = d.alloc ∧ d'.varVL = d.varVL

theorem addr_samePlace {g g' : Geom} (hok : g.Ok) (hok' : g'.Ok)
    (hd : List.Forall₂ SamePlace g.dims g'.dims) (hl : g'.layout = g.layout)
    (hp : g'.foldPosns = g.foldPosns) (hf : g'.foldLens = g.foldLens)
    (hi : g'.foldFirstInner = g.foldFirstInner) (hv : g'.isVec = g.isVec) (idx : List Int) :
    g'.addrOfSlots (slots g'.dims idx) = g.addrOfSlots (slots g.dims idx) := by
  have hkey : ∀ (ds ds' : List DimG) (b : Bool), (∀ d ∈ ds, d.Ok b) → (∀ d ∈ ds', d.Ok b) →
      List.Forall₂ SamePlace ds ds' → ∀ idx : List Int,
      slots ds' idx = slots ds idx ∧ ds'.map DimG.vecAlloc = ds.map DimG.vecAlloc ∧
      ∀ s, vecIdxOf ds' s = vecIdxOf ds s ∧ vecOfsOf ds' s = vecOfsOf ds s := by
    intro ds ds' b h1 h2 h
    induction h with
    | nil => intro idx; exact ⟨rfl, rfl, fun s => ⟨rfl, rfl⟩⟩
    | @cons d d' ds ds' hdd _ ih =>
      obtain ⟨k1, k2, k3, k4, k5, k6⟩ := hdd
      have o1 := h1 d List.mem_cons_self
      have o2 := h2 d' List.mem_cons_self
      have ih := ih (fun x hx => h1 x (List.mem_cons_of_mem _ hx))
        (fun x hx => h2 x (List.mem_cons_of_mem _ hx))
      intro idx
      refine ⟨?_, ?_, ?_⟩
      · cases idx with
        | nil => rfl
        | cons i is =>
          simp only [slots, List.zipWith_cons_cons, List.cons.injEq]
          refine ⟨?_, (ih is).1⟩
          unfold DimG.slot
          rw [k1, k2, k3, k4]
          by_cases hk : d.kind = .step
          · rw [if_pos hk, if_pos hk]
            have a1 := (o1.nd_pad (by rw [hk]; decide)).2.2
            have a2 := (o2.nd_pad (by rw [k1, hk]; decide)).2.2
            rw [← a1, ← a2, k5]
          · rw [if_neg hk, if_neg hk]
      · rw [List.map_cons, List.map_cons, (ih []).2.1]
        have a1 := o1.valloc
        have a2 := o2.valloc
        rw [k5, k6, ← a1] at a2
        rw [Int.eq_of_mul_eq_mul_right (by have := o1.vvl_pos; omega) a2]
      · intro s
        cases s with
        | nil => exact ⟨rfl, rfl⟩
        | cons x s =>
          have := (ih []).2.2 s
          simp only [vecIdxOf, vecOfsOf, List.zipWith_cons_cons] at this ⊢
          rw [k6, this.1, this.2]
          exact ⟨rfl, rfl⟩
  have h := hkey g.dims g'.dims g.isVec hok.dims (hv ▸ hok'.dims) hd idx
  unfold Geom.addrOfSlots Geom.vecAllocs Geom.foldPerm Geom.elemReals
  rw [h.1, h.2.1, (h.2.2 _).1, (h.2.2 _).2, hl, hp, hf, hi, hv]

theorem resize_allocated {g g1 g2 : Geom} {posn : Nat} {s : Setting} {n : Int} {d : DimG}
    (hok : g.Ok) (hd : g.dims[posn]? = some d)
    (hg1 : g1 = { g with dims := g.dims.set posn (s.modify n d) })
    (ha' : s.allowed n d = true) (hn : s.needResize = true) (h : g1.resize true = some g2) :
    List.Forall₂ SamePlace g.dims g2.dims ∧ g2.layout = g.layout ∧ g2.foldPosns = g.foldPosns ∧
      g2.foldLens = g.foldLens ∧ g2.foldFirstInner = g.foldFirstInner ∧ g2.isVec = g.isVec ∧
      g2.stepWrap = g.stepWrap := by
  unfold Geom.resize at h
  split at h
  · cases h
  simp only at h
  split at h
  · cases h
  next hal =>
  simp only [Bool.true_and, decide_eq_true_eq, ne_eq, not_not] at hal
  have hall : ∀ x ∈ g1.dims, x.alloc = (x.resized g1.vlenGt1 g1.allowAddlPad true).alloc := by
    rw [List.map_map] at hal
    exact fun x hx => List.map_inj_left.1 hal x hx
  have hmod := modify_kind s n d
  have halloc : g1.dims.map (fun d => (d.kind, d.alloc)) = g.dims.map (fun d => (d.kind, d.alloc)) := by
    subst hg1
    simp only
    apply List.ext_getElem?
    intro i
    simp only [List.getElem?_map, List.getElem?_set]
    split
    · next hi =>
      subst hi
      split
      · simp [hd, hmod.1, hmod.2.2.2.2.2]
      · next hlt => simp [List.getElem?_eq_none (not_lt.1 hlt)]
    · rfl
  have hdirty : newDirty (g1.dims.map (DimG.resized g1.vlenGt1 g1.allowAddlPad true)) = g.numDirty := by
    rw [hok.dirty, ← newDirty_congr halloc]
    apply newDirty_congr
    rw [List.map_map]
    apply List.map_congr_left
    intro x hx
    simp only [Function.comp, ← hall x hx]
    rfl
  have hnd : g1.numDirty = g.numDirty := by rw [hg1]
  rw [if_neg (by rw [hdirty, hnd]; exact fun h => h rfl)] at h
  cases h
  refine ⟨?_, by rw [hg1], by rw [hg1], by rw [hg1], by rw [hg1], by rw [hg1], by rw [hg1]⟩
  simp only
  rw [List.forall₂_map_right_iff, hg1]
  simp only
  have hv : g1.vlenGt1 = g.vlenGt1 ∧ g1.allowAddlPad = g.allowAddlPad := by rw [hg1]; exact ⟨rfl, rfl⟩
  rw [hv.1, hv.2] at hall
  rw [hg1] at hall
  simp only at hall
  -- one dimension
  have one : ∀ x ∈ g.dims, ∀ y ∈ g.dims.set posn (s.modify n d), (y = x ∨ (x = d ∧ y = s.modify n d)) →
      SamePlace x (y.resized g.vlenGt1 g.allowAddlPad true) := by
    intro x hx y hy hxy
    have ox := hok.dims x hx
    have ha := hall y hy
    have hy0 : y.kind = x.kind ∧ y.varVL = x.varVL ∧ y.lPad = x.lPad ∧ y.rPad = x.rPad ∧
        y.alloc = x.alloc ∧ y.rankOfs = x.rankOfs ∧ y.localOfs = x.localOfs ∧
        y.solnVL = x.solnVL := by
      rcases hxy with rfl | ⟨rfl, rfl⟩
      · exact ⟨rfl, rfl, rfl, rfl, rfl, rfl, rfl, rfl⟩
      · refine ⟨hmod.1, hmod.2.1, hmod.2.2.2.1, hmod.2.2.2.2.1, hmod.2.2.2.2.2, ?_, ?_, hmod.2.2.1⟩ <;>
          cases s <;> first | rfl | (exact absurd hn (by decide))
    refine ⟨hy0.1, ?_, hy0.2.2.2.2.2.1, hy0.2.2.2.2.2.2.1, by rw [← ha]; exact hy0.2.2.2.2.1, hy0.2.1⟩
    by_cases hk : x.kind = .domain
    · have hky : y.kind = .domain := hy0.1.trans hk
      have el : (y.resized g.vlenGt1 g.allowAddlPad true).lPad = y.newLPad g.vlenGt1 true := by
        simp only [DimG.resized, hky, if_true]
      have ea : (y.resized g.vlenGt1 g.allowAddlPad true).alloc =
          y.domain + (y.newLPad g.vlenGt1 true + y.newRPad g.vlenGt1 g.allowAddlPad true) := by
        simp only [DimG.resized, hky, if_true]
      have hl : y.newLPad g.vlenGt1 true = max (y.newLPad g.vlenGt1 false) y.lPad := by
        unfold DimG.newLPad
        simp only [Bool.false_eq_true, if_false, if_true]
      have hr : y.rPad ≤ y.newRPad g.vlenGt1 g.allowAddlPad true := by
        unfold DimG.newRPad
        simp only [if_true]
        exact le_max_right _ _
      rw [el, hl, hy0.2.2.1]
      by_cases hdom : y.domain = x.domain
      · rw [ea, hy0.2.2.2.2.1, ox.alloc_eq, hdom, hl, hy0.2.2.1] at ha
        have := hy0.2.2.2.1
        omega
      · -- the size was changed: the pads requested are those of before
        have hs : s = .size := by
          rcases hxy with rfl | ⟨rfl, rfl⟩
          · exact absurd rfl hdom
          · cases s <;> first | rfl | (exact absurd rfl hdom)
        have hy1 : y.newLPad g.vlenGt1 false = x.newLPad g.vlenGt1 false := by
          rcases hxy with rfl | ⟨rfl, rfl⟩
          · rfl
          · subst hs; rfl
        rw [hy1]
        exact max_eq_right (hok.lfull x hx hk).1
    · have hky : y.kind ≠ .domain := fun h => hk (hy0.1 ▸ h)
      have el : (y.resized g.vlenGt1 g.allowAddlPad true).lPad = y.lHalo + y.lExt := by
        simp only [DimG.resized, hky, if_false]
      have hh := ox.nd_halo hk
      have hp := ox.nd_pad hk
      rw [el, hp.1]
      rcases hxy with rfl | ⟨rfl, rfl⟩
      · omega
      · have hdk : ¬ (x.kind == .domain) = true := by simpa using hk
        cases s <;> first
          | exact absurd ha' hdk
          | exact absurd hn (by decide)
          | (show x.lHalo + x.lExt = 0; omega)
  rw [List.forall₂_iff_get]
  refine ⟨by simp, ?_⟩
  intro i h1 h2
  apply one _ (List.get_mem _ _) _ (List.get_mem _ _)
  simp only [List.get_eq_getElem, List.getElem_set]
  split
  · next hi =>
    subst hi
    right
    rw [List.getElem?_eq_getElem h1] at hd
    exact ⟨Option.some.inj hd, rfl⟩
  · left; rfl

/-- C21: once storage exists, a setting call that returns normally keeps the allocation; and unless it
changes an offset, every element keeps its value. -/
theorem C21_storage_kept (v v' : YVar V) (hr : Reachable v) (hmem : v.mem.isSome)
    (hs : StepsAlloc v.g.api) (posn : Nat) (s : Setting) (n : Int)
    (h : callSetting v posn s n = (v', false)) :
    v'.mem = v.mem ∧ v'.g.api.map ApiDim.alloc = v.g.api.map ApiDim.alloc ∧
      (s.needResize = true → ∀ idx, Readable v.g.stepWrap v.g.api idx →
        Readable v'.g.stepWrap v'.g.api idx → getElement v' idx = getElement v idx) := by
  have hok' := callSetting_ok hr.ok h
  have hok := hr.ok
  have hapi : ∀ g : Geom, g.api.map ApiDim.alloc = g.dims.map DimG.alloc := by
    intro g; unfold Geom.api; rw [List.map_map]; rfl
  unfold callSetting at h
  split at h
  · cases h
  next d hd =>
  split at h
  · cases h
  next ha =>
  simp only [Bool.not_eq_true', Bool.not_eq_false] at ha
  simp only at h
  split at h
  · next hn =>
    split at h
    · next g2 hg2 =>
      cases h
      rw [hmem] at hg2
      obtain ⟨e1, e2, e3, e4, e5, e6, e7⟩ := resize_allocated hok hd rfl ha hn hg2
      have hal : g2.dims.map DimG.alloc = v.g.dims.map DimG.alloc := by
        have : ∀ l l' : List DimG, List.Forall₂ SamePlace l l' →
            l'.map DimG.alloc = l.map DimG.alloc := by
          intro l l' h
          induction h with
          | nil => rfl
          | cons hab _ ih => rw [List.map_cons, List.map_cons, hab.2.2.2.2.1, ih]
        exact this _ _ e1
      refine ⟨rfl, by rw [hapi, hapi]; exact hal, fun _ idx h1 h2 => ?_⟩
      have hs2 : StepsAlloc g2.api := by
        have hst : ∀ x ∈ g2.dims, x.kind = .step → ∃ y ∈ v.g.dims, y.kind = .step ∧ y.alloc = x.alloc := by
          have : ∀ l l' : List DimG, List.Forall₂ SamePlace l l' →
              ∀ x ∈ l', x.kind = .step → ∃ y ∈ l, y.kind = .step ∧ y.alloc = x.alloc := by
            intro l l' h
            induction h with
            | nil => simp
            | cons hab _ ih =>
              intro x hx hk
              rcases List.mem_cons.1 hx with rfl | hx
              · exact ⟨_, List.mem_cons_self, hab.1 ▸ hk, hab.2.2.2.2.1.symm⟩
              · obtain ⟨y, h1, h2⟩ := ih x hx hk
                exact ⟨y, List.mem_cons_of_mem _ h1, h2⟩
          exact this _ _ e1
        intro x hx hxs
        obtain ⟨y, hy, rfl⟩ := List.mem_map.1 hx
        obtain ⟨z, hz, hzk, hza⟩ := hst y hy (by simpa using hxs)
        show 0 < y.alloc
        rw [← hza]
        exact hs ⟨z.kind == .step, z.firstLocal, z.lastLocal, z.alloc⟩ (List.mem_map.2 ⟨z, hz, rfl⟩)
          (by simp [hzk])
      obtain ⟨g, m⟩ := v
      obtain ⟨m, rfl⟩ := Option.isSome_iff_exists.1 hmem
      rw [getElement_eq hok' m h2 fun _ => hs2, getElement_eq hok m h1 fun _ => hs,
        addr_samePlace hok hok' e1 e2 e3 e4 e5 e6]
    · cases h
  · next hn =>
    cases h
    refine ⟨rfl, ?_, fun h => absurd h hn⟩
    rw [hapi, hapi]
    simp only
    apply List.ext_getElem?
    intro i
    simp only [List.getElem?_map, List.getElem?_set]
    split
    · next hi =>
      subst hi
      split
      · simp [hd, (modify_kind s n d).2.2.2.2.2]
      · next hlt => simp [List.getElem?_eq_none (not_lt.1 hlt)]
    · rfl

/-- A call that returns normally although storage exists: the left halo of `x` may grow into the pad. -/
example : Reachable exVar ∧ exVar.mem.isSome ∧ StepsAlloc exVar.g.api ∧
    (callSetting exVar 1 .leftHalo 4).2 = false ∧ (callSetting exVar 1 .halo 9).2 = true ∧
    (callSetting exVar 1 .size 9).2 = false ∧ (callSetting exVar 1 .size 99).2 = true := by
  refine ⟨exVar_reachable, rfl, exVar_steps, ?_, ?_, ?_, ?_⟩ <;> decide +kernel

/-- C21 does not hold after a call that throws: `set_halo_size` on a var with storage throws if the
padding is too small for the halo, but the halo size stays as set, so that it is larger than the
padding afterwards. -/
theorem C21_fails_after_throwing_call :
    ∃ v : YVar Int, Reachable v ∧ v.mem.isSome ∧ (callSetting v 1 .halo 9).2 = true ∧
      ∃ d ∈ (callSetting v 1 .halo 9).1.g.dims, d.kind = .domain ∧ d.lPad < d.lHalo ∧ d.rPad < d.rHalo := by
  refine ⟨exVar, exVar_reachable, rfl, ?_, ?_⟩ <;> decide +kernel

end Yask
