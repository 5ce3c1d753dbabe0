import Verif.Spec.NetSpec
import Verif.Sched.RefLemmas

/-! Helper lemmas: passes on several ranks and the reference on the overall domain, in lockstep. -/

namespace Yask
open Spec Mpi RunCfg

variable {G : RunCfg} {Val : Type*}

/-! ### One layer: evaluations of one step and stage -/

theorem exec_layer (S : Stencil G Slot Val) (x : Int) (y : Nat) (L : List Task) (hn : L.Nodup)
    (hs : ∀ a ∈ L, a.step = x ∧ a.stage = y) (m : Slot × List Int → Val) :
    (∀ l, (∀ a ∈ L, ¬ S.sem.writes a l) → S.sem.exec L m l = m l) ∧
    (∀ a ∈ L, ∀ β, S.writes a β → S.sem.exec L m (β, a.pt) = S.value a m β) := by
  induction L generalizing m with
  | nil => exact ⟨fun _ _ => rfl, by simp⟩
  | cons b L ih =>
    rw [List.nodup_cons] at hn
    obtain ⟨i1, i2⟩ := ih hn.2 (fun a ha => hs a (List.mem_cons_of_mem _ ha)) (S.sem.run b m)
    have hne : ∀ a ∈ L, b ≠ a := fun a ha e => hn.1 (e ▸ ha)
    have hb := hs b List.mem_cons_self
    have hsame : ∀ a ∈ L, b.step = a.step ∧ b.stage = a.stage := fun a ha => by
      have := hs a (List.mem_cons_of_mem _ ha)
      exact ⟨hb.1.trans this.1.symm, hb.2.trans this.2.symm⟩
    refine ⟨fun l hl => ?_, fun a ha β hw => ?_⟩
    · rw [ActionSem.exec, List.foldl_cons]
      refine (i1 l fun a ha => hl a (List.mem_cons_of_mem _ ha)).trans ?_
      exact S.sem.frame b m l (hl b List.mem_cons_self)
    · rw [ActionSem.exec, List.foldl_cons]
      rcases List.mem_cons.1 ha with rfl | ha'
      · refine (i1 (β, a.pt) ?_).trans ?_
        · rintro c hc ⟨hwc, hpt⟩
          have := (S.indep a c (hne c hc) (hsame c hc).1 (hsame c hc).2 β hw).2
          exact this ⟨hwc, hpt⟩
        · exact if_pos ⟨hw, rfl⟩
      · refine (i2 a ha' β hw).trans ?_
        apply S.value_local
        intro γ q hr
        apply S.sem.frame
        rintro ⟨hwb, hq⟩
        have hq : q = b.pt := hq
        subst hq
        exact (S.indep b a (hne a ha') (hsame a ha').1 (hsame a ha').2 γ hwb).1 hr

/-! ### The reference, layer by layer -/

/-- The evaluations of the `m`-th (step, stage) pair on the overall domain. -/
def layerG (G : RunCfg) (first dir : Int) (m : Nat) : List Task :=
  G.evalBoxL (first + dir * (m / G.nst : Nat)) (m % G.nst)
    ((List.range G.nd).map fun (j : Nat) => ((G.dim j).rankBeg, G.rankEnd j))

theorem mem_layerG (first dir : Int) (m : Nat) (a : Task) :
    a ∈ layerG G first dir m ↔ a.step = first + dir * (m / G.nst : Nat) ∧ a.stage = m % G.nst ∧ G.Valid a ∧
      ∀ j < G.nd, InIvl (at_ a.pt j) ((G.dim j).rankBeg, G.rankEnd j) :=
  ((good_evalBox G 1 false _ _ _) _ (G.evalBoxL_trace _ _ _)).2.1 a

theorem layerG_nodup (first dir : Int) (m : Nat) : (layerG G first dir m).Nodup :=
  ((good_evalBox G 1 false _ _ _) _ (G.evalBoxL_trace _ _ _)).1

/-- Memory after the first `m` pairs. -/
noncomputable def gm (S : Stencil G Slot Val) (first dir : Int) (g : Slot × List Int → Val) (m : Nat) : Slot × List Int → Val :=
  S.sem.exec ((List.range m).flatMap (layerG G first dir)) g

theorem gm_zero (S : Stencil G Slot Val) (first dir : Int) (g : Slot × List Int → Val) : gm S first dir g 0 = g := rfl

theorem gm_succ (S : Stencil G Slot Val) (first dir : Int) (g : Slot × List Int → Val) (m : Nat) :
    gm S first dir g (m + 1) = S.sem.exec (layerG G first dir m) (gm S first dir g m) := by
  unfold gm
  rw [List.range_succ, List.flatMap_append, exec_append]
  simp

theorem flatMap_range_mul {α : Type*} (n k : Nat) (f : Nat → Nat → List α) :
    (List.range (n * k)).flatMap (fun m => f (m / k) (m % k)) =
      (List.range n).flatMap fun i => (List.range k).flatMap fun q => f i q := by
  induction n with
  | zero => simp
  | succ n ih =>
    rw [Nat.succ_mul, List.range_add, List.flatMap_append, ih, List.range_succ, List.flatMap_append]
    congr 1
    simp only [List.flatMap_cons, List.flatMap_nil, List.append_nil]
    rw [List.flatMap_map]
    apply List.flatMap_congr
    intro q hq
    rw [List.mem_range] at hq
    rw [Nat.mul_comm n k, Nat.mul_add_div (by omega), Nat.div_eq_of_lt hq, Nat.mul_add_mod, Nat.mod_eq_of_lt hq, Nat.add_zero]

theorem runRef_layers (first last : Int) :
    G.runRef first last = (List.range (numSteps first last * G.nst)).flatMap (layerG G first (stepDir first last)) := by
  unfold layerG
  rw [flatMap_range_mul _ _ (fun i q => G.evalBoxL (first + stepDir first last * (i : Nat)) q
    ((List.range G.nd).map fun (j : Nat) => ((G.dim j).rankBeg, G.rankEnd j)))]
  unfold runRef evalBoxL
  simp only [← List.map_eq_flatMap]

/-! ### One rank -/

/-- The stencil on the configuration of a rank. -/
def Stencil.on (S : Stencil G Slot Val) (c : RunCfg) (hnd : c.nd = G.nd)
    (hh : ∀ j < G.nd, (c.dim j).maxHalo = (G.dim j).maxHalo) : Stencil c Slot Val where
  writes := S.writes
  reads := S.reads
  value := S.value
  reads_near a β q h j hj := by
    rw [hnd] at hj
    have := S.reads_near a β q h j hj
    simp only [hh j hj]
    exact this
  value_local := S.value_local
  indep := S.indep

theorem pair_lt {first dir : Int} (hdir : dir = 1 ∨ dir = -1) {nst m m' : Nat} {a b : Task}
    (ha : a.step = first + dir * (m / nst : Nat) ∧ a.stage = m % nst)
    (hb : b.step = first + dir * (m' / nst : Nat) ∧ b.stage = m' % nst) (h : m ≤ m') : ¬ Task.Before dir b a := by
  have h1 : m / nst ≤ m' / nst := Nat.div_le_div_right h
  have e1 := Nat.div_add_mod m nst
  have e2 := Nat.div_add_mod m' nst
  unfold Task.Before
  rw [ha.1, ha.2, hb.1, hb.2]
  rintro (h2 | ⟨h2, h3⟩)
  · rcases hdir with rfl | rfl <;> omega
  · have : m / nst = m' / nst := by rcases hdir with rfl | rfl <;> omega
    rw [this] at e1
    omega

theorem pair_inj {first dir : Int} (hdir : dir = 1 ∨ dir = -1) {nst m m' : Nat} {a : Task}
    (ha : a.step = first + dir * (m / nst : Nat) ∧ a.stage = m % nst)
    (hb : a.step = first + dir * (m' / nst : Nat) ∧ a.stage = m' % nst) : m = m' := by
  have e1 := Nat.div_add_mod m nst
  have e2 := Nat.div_add_mod m' nst
  have : m / nst = m' / nst := by rw [ha.1] at hb; rcases hdir with rfl | rfl <;> omega
  rw [this] at e1
  have := ha.2.symm.trans hb.2
  omega

/-- The evaluations of a trace that belong to the `m`-th pair. -/
def layerR (t : List Task) (first dir : Int) (nst m : Nat) : List Task :=
  t.filter fun a => decide (a.step = first + dir * (m / nst : Nat) ∧ a.stage = m % nst)

theorem mem_layerR {t : List Task} {first dir : Int} {nst m : Nat} {a : Task} :
    a ∈ layerR t first dir nst m ↔ a ∈ t ∧ a.step = first + dir * (m / nst : Nat) ∧ a.stage = m % nst := by
  unfold layerR; simp

/-- A pass of one rank, and the pairs of the reference that it computes. -/
structure IsPass (c : RunCfg) (first dir : Int) (m0 cnt : Nat) (t : List Task) : Prop where
  nodup : t.Nodup
  mem : ∀ a, a ∈ t ↔ ∃ s < cnt, a.step = first + dir * ((m0 + s) / c.nst : Nat) ∧ a.stage = (m0 + s) % c.nst ∧ c.Valid a ∧
    ∀ j < c.nd, c.evalBeg j s ≤ at_ a.pt j ∧ at_ a.pt j < c.evalEnd j s
  ord : t.Pairwise fun a b => ¬ c.MustPrecede dir b a

theorem exec_layers {N : Net} (hd : Divided G N) (S : Stencil G Slot Val) {r : Nat} (hr : r < N.n) {first dir : Int}
    (hdir : dir = 1 ∨ dir = -1) {m0 cnt : Nat} {t : List Task} (ht : IsPass (N.cfg r) first dir m0 cnt t)
    (m : Slot × List Int → Val) :
    S.sem.exec t m = S.sem.exec ((List.range cnt).flatMap fun s => layerR t first dir G.nst (m0 + s)) m := by
  have hst := hd.nst r hr
  have := exec_eq (hd.ok r hr) (S.on (N.cfg r) (hd.nd r hr) (hd.halo r hr)) hdir (t1 := t)
    (t2 := (List.range cnt).flatMap fun s => layerR t first dir G.nst (m0 + s)) ht.nodup ?_ ?_ ht.ord ?_ m
  · exact this
  · rw [List.nodup_flatMap]
    refine ⟨fun s _ => ht.nodup.filter _, ?_⟩
    refine (List.nodup_range).imp ?_
    intro s s' hne a h1 h2
    rw [mem_layerR] at h1 h2
    have := pair_inj hdir h1.2 h2.2
    omega
  · intro a
    rw [List.mem_flatMap]
    constructor
    · intro ha
      obtain ⟨s, hs, h1, h2, _⟩ := (ht.mem a).1 ha
      rw [hst] at h1 h2
      exact ⟨s, List.mem_range.2 hs, mem_layerR.2 ⟨ha, h1, h2⟩⟩
    · rintro ⟨s, _, h⟩
      exact (mem_layerR.1 h).1
  · rw [List.pairwise_flatMap]
    refine ⟨fun s _ => ?_, ?_⟩
    · rw [List.pairwise_iff_getElem]
      intro i j hi hj _ hmp
      exact pair_lt hdir (mem_layerR.1 (List.getElem_mem hi)).2 (mem_layerR.1 (List.getElem_mem hj)).2 (le_refl _) hmp.1
    · refine List.pairwise_lt_range.imp ?_
      intro s s' hlt a ha b hb hmp
      exact pair_lt hdir (mem_layerR.1 ha).2 (mem_layerR.1 hb).2 (by omega) hmp.1

/-- The region around a rank where the copies are as in the reference, when `s` pairs of a wave-front have been done. -/
def GoodAt (c : RunCfg) (s : Int) (x : List Int) : Prop :=
  ∀ j < c.nd, ((c.dim j).firstRank = true ∨ c.evalBeg j s - (c.dim j).maxHalo ≤ at_ x j) ∧
    ((c.dim j).lastRank = true ∨ at_ x j < c.evalEnd j s + (c.dim j).maxHalo)

theorem angle_ge {N : Net} (hd : Divided G N) {r : Nat} (hr : r < N.n) {j : Nat} (hj : j < G.nd)
    (h : ((N.cfg r).dim j).firstRank = false ∨ ((N.cfg r).dim j).lastRank = false) :
    ((N.cfg r).dim j).maxHalo ≤ (N.cfg r).wfAngle j := by
  have hj' : j < (N.cfg r).nd := by rw [hd.nd r hr]; exact hj
  have ok := hd.ok r hr
  unfold wfAngle
  simp only
  rw [if_pos (Or.inr (hd.ranks r hr j hj h))]
  exact (roundUp_spec (ok.halo_nonneg j hj') (ok.fold_pos j hj')).1

/-- Where a rank must evaluate: points written by the reference in the region of the next pair. -/
theorem good_eval {N : Net} (hd : Divided G N) {r : Nat} (hr : r < N.n) {s : Nat}
    (hs : ((s + 1 : Nat) : Int) ≤ (N.cfg r).numWfShifts) {x : List Int} (hx : GoodAt (N.cfg r) (s + 1 : Nat) x)
    (hin : ∀ j < G.nd, InIvl (at_ x j) ((G.dim j).rankBeg, G.rankEnd j)) :
    ∀ j < (N.cfg r).nd, (N.cfg r).evalBeg j s ≤ at_ x j ∧ at_ x j < (N.cfg r).evalEnd j s := by
  intro j hj
  have hj' : j < G.nd := by rw [← hd.nd r hr]; exact hj
  have ok := hd.ok r hr
  have h0 := ok.halo_nonneg j hj
  have hi := hin j hj'
  have hg := hx j hj
  unfold InIvl at hi
  constructor
  · cases hf : ((N.cfg r).dim j).firstRank with
    | true =>
      have : (N.cfg r).leftExt j = 0 := by unfold leftExt; simp [hf]
      unfold evalBeg
      rw [this]
      have := hd.first r hr j hj' hf
      simp only [ne_eq, not_true_eq_false, if_false]
      simp only at hi
      omega
    | false =>
      have ha := angle_ge hd hr hj' (Or.inl hf)
      have hg := hg.1.resolve_left (by simp [hf])
      have hle : (N.cfg r).leftExt j = (N.cfg r).wfAngle j * (N.cfg r).numWfShifts := by
        unfold leftExt wfShiftPts; simp [hf]
      unfold evalBeg at hg ⊢
      by_cases hz : (N.cfg r).leftExt j = 0
      · rw [hz] at hg ⊢
        have : (N.cfg r).wfAngle j = 0 := by
          rw [hle] at hz
          rcases mul_eq_zero.1 hz with h | h
          · exact h
          · omega
        simp only [ne_eq, not_true_eq_false, if_false] at hg ⊢
        omega
      · simp only [ne_eq, hz, not_false_eq_true, if_true] at hg ⊢
        have : (N.cfg r).wfAngle j * ((s + 1 : Nat) : Int) = (N.cfg r).wfAngle j * s + (N.cfg r).wfAngle j := by push_cast; ring
        omega
  · cases hf : ((N.cfg r).dim j).lastRank with
    | true =>
      have : (N.cfg r).rightExt j = 0 := by unfold rightExt; simp [hf]
      unfold evalEnd
      rw [this]
      have := hd.last r hr j hj' hf
      simp only [ne_eq, not_true_eq_false, if_false]
      unfold rankEnd at hi
      simp only at hi
      omega
    | false =>
      have ha := angle_ge hd hr hj' (Or.inr hf)
      have hg := hg.2.resolve_left (by simp [hf])
      have hle : (N.cfg r).rightExt j = (N.cfg r).wfAngle j * (N.cfg r).numWfShifts := by
        unfold rightExt wfShiftPts; simp [hf]
      unfold evalEnd at hg ⊢
      by_cases hz : (N.cfg r).rightExt j = 0
      · rw [hz] at hg ⊢
        have : (N.cfg r).wfAngle j = 0 := by
          rw [hle] at hz
          rcases mul_eq_zero.1 hz with h | h
          · exact h
          · omega
        simp only [ne_eq, not_true_eq_false, if_false] at hg ⊢
        omega
      · simp only [ne_eq, hz, not_false_eq_true, if_true] at hg ⊢
        have : (N.cfg r).wfAngle j * ((s + 1 : Nat) : Int) = (N.cfg r).wfAngle j * s + (N.cfg r).wfAngle j := by push_cast; ring
        omega

theorem good_mono {c : RunCfg} (h : c.Ok) {s : Nat} {x : List Int} (hx : GoodAt c (s + 1 : Nat) x) : GoodAt c s x := by
  intro j hj
  have hg := hx j hj
  have ha := wfAngle_nonneg h hj
  have : c.wfAngle j * ((s + 1 : Nat) : Int) = c.wfAngle j * s + c.wfAngle j := by push_cast; ring
  refine ⟨hg.1.imp_right fun h => ?_, hg.2.imp_right fun h => ?_⟩
  · unfold evalBeg at *
    split_ifs at * <;> omega
  · unfold evalEnd at *
    split_ifs at * <;> omega

/-- What is evaluated lies in the extended rank. -/
theorem eval_ext {c : RunCfg} (h : c.Ok) {s : Nat} {x : List Int}
    (hx : ∀ j < c.nd, c.evalBeg j s ≤ at_ x j ∧ at_ x j < c.evalEnd j s) :
    ∀ j < c.nd, c.extBeg j ≤ at_ x j ∧ at_ x j < c.extEnd j := by
  intro j hj
  have hg := hx j hj
  have ha := wfAngle_nonneg h hj
  have : 0 ≤ c.wfAngle j * (s : Int) := mul_nonneg ha (by positivity)
  unfold evalBeg evalEnd at hg
  unfold extBeg extEnd rankEnd
  constructor
  · have := hg.1
    split_ifs at this <;> omega
  · have := hg.2
    split_ifs at this <;> omega

/-- A rank evaluates its own points for every pair. -/
theorem rank_eval {c : RunCfg} (h : c.Ok) {s : Nat} (hs : (s : Int) ≤ c.numWfShifts) {x : List Int}
    (hx : ∀ j < c.nd, (c.dim j).rankBeg ≤ at_ x j ∧ at_ x j < (c.dim j).rankBeg + (c.dim j).rankSize) :
    ∀ j < c.nd, c.evalBeg j s ≤ at_ x j ∧ at_ x j < c.evalEnd j s := by
  intro j hj
  have hg := hx j hj
  have ha := wfAngle_nonneg h hj
  have hm : c.wfAngle j * (s : Int) ≤ c.wfAngle j * c.numWfShifts := mul_le_mul_of_nonneg_left hs ha
  have hl := leftExt_cases c j
  have hr := rightExt_cases c j
  unfold wfShiftPts at hl hr
  unfold evalBeg evalEnd
  constructor
  · split_ifs <;> omega
  · split_ifs <;> omega

section
variable {N : Net} {own : Nat → Nat → List Int → Prop} {S : Stencil G Slot Val}

theorem valid_iff (hd : Divided G N) {r : Nat} (hr : r < N.n) (a : Task) :
    (N.cfg r).Valid a ↔ G.Valid a ∧ ∀ j < G.nd, InIvl (at_ a.pt j) ((N.cfg r).extBeg j, (N.cfg r).extEnd j) := by
  unfold Valid
  rw [hd.nparts r hr, hd.stepOk r hr, hd.nd r hr, hd.dom r hr]
  tauto

theorem layerR_sub (hd : Divided G N) {r : Nat} (hr : r < N.n) {first dir : Int} {m0 cnt s : Nat}
    {t : List Task} (ht : IsPass (N.cfg r) first dir m0 cnt t) {a : Task} (ha : a ∈ layerR t first dir G.nst (m0 + s)) :
    a ∈ layerG G first dir (m0 + s) := by
  obtain ⟨h1, h2, h3⟩ := mem_layerR.1 ha
  obtain ⟨s', _, _, _, hv, _⟩ := (ht.mem a).1 h1
  have hv := ((valid_iff hd hr a).1 hv).1
  exact (mem_layerG _ _ _ _).2 ⟨h2, h3, hv, fun j hj => hd.inside _ _ _ hv.2.2.1 j hj⟩

/-- The lockstep of a rank with the reference. -/
theorem lockstep (hd : Divided G N) (hl : Linked S N own) {r : Nat} (hr : r < N.n) {first dir : Int}
    (hdir : dir = 1 ∨ dir = -1) {m0 cnt : Nat} {t : List Task} (ht : IsPass (N.cfg r) first dir m0 cnt t)
    (hcnt : ∀ s < cnt, (s : Int) ≤ (N.cfg r).numWfShifts) (m g : Slot × List Int → Val)
    (hown : ∀ β x, own r β.1 x → m (β, x) = gm S first dir g m0 (β, x))
    (hgets : ∀ nb β x, Gets N r nb β x → m (β, x) = gm S first dir g m0 (β, x)) :
    ∀ β x, own r β.1 x → S.sem.exec t m (β, x) = gm S first dir g (m0 + cnt) (β, x) := by
  rw [exec_layers hd S hr hdir ht]
  have ok := hd.ok r hr
  have hnd := hd.nd r hr
  have key : ∀ s ≤ cnt, ∀ β x, (own r β.1 x ∨ (∃ nb, Gets N r nb β x) ∧ s < cnt ∧ GoodAt (N.cfg r) s x) →
      S.sem.exec ((List.range s).flatMap fun s => layerR t first dir G.nst (m0 + s)) m (β, x) =
        gm S first dir g (m0 + s) (β, x) := by
    intro s
    induction s with
    | zero =>
      rintro _ β x (h | ⟨⟨nb, h⟩, _⟩)
      · exact hown β x h
      · exact hgets nb β x h
    | succ s ih =>
      intro hs β x hx
      have ih := ih (by omega)
      rw [← Nat.add_assoc, gm_succ, List.range_succ, List.flatMap_append, exec_append]
      simp only [List.flatMap_cons, List.flatMap_nil, List.append_nil]
      generalize S.sem.exec ((List.range s).flatMap fun s => layerR t first dir G.nst (m0 + s)) m = mr at *
      generalize gm S first dir g (m0 + s) = mg at *
      obtain ⟨r1, r2⟩ := exec_layer S _ _ (layerR t first dir G.nst (m0 + s)) (ht.nodup.filter _)
        (fun a ha => (mem_layerR.1 ha).2) mr
      obtain ⟨g1, g2⟩ := exec_layer S _ _ (layerG G first dir (m0 + s)) (layerG_nodup _ _ _)
        (fun a ha => ⟨((mem_layerG _ _ _ _).1 ha).1, ((mem_layerG _ _ _ _).1 ha).2.1⟩) mg
      by_cases hw : ∃ b ∈ layerG G first dir (m0 + s), S.writes b β ∧ b.pt = x
      · obtain ⟨b, hb, hwb, rfl⟩ := hw
        obtain ⟨b1, b2, b3, b4⟩ := (mem_layerG _ _ _ _).1 hb
        have hev : ∀ j < (N.cfg r).nd, (N.cfg r).evalBeg j s ≤ at_ b.pt j ∧ at_ b.pt j < (N.cfg r).evalEnd j s := by
          rcases hx with ho | ⟨_, hs', hg⟩
          · have := hl.own_rank r hr b β hwb ho b4
            exact rank_eval ok (hcnt s (by omega)) (fun j hj => this j (hnd ▸ hj))
          · exact good_eval hd hr (hcnt (s + 1) hs') hg b4
        have hext := eval_ext ok hev
        have hbr : b ∈ layerR t first dir G.nst (m0 + s) := by
          refine mem_layerR.2 ⟨(ht.mem b).2 ⟨s, by omega, ?_, ?_, ?_, hev⟩, b1, b2⟩
          · rw [hd.nst r hr]; exact b1
          · rw [hd.nst r hr]; exact b2
          · exact (valid_iff hd hr b).2 ⟨b3, fun j hj => hext j (hnd ▸ hj)⟩
        rw [r2 b hbr β hwb, g2 b hb β hwb]
        apply S.value_local
        intro γ q hrd
        apply ih
        rcases hl.reads_held r hr b γ q (fun j hj => hext j (hnd ▸ hj)) hrd with h | h
        · exact Or.inl h
        · refine Or.inr ⟨h, by omega, fun j hj => ?_⟩
          have hj' : j < G.nd := hnd ▸ hj
          have hn := S.reads_near b γ q hrd j hj'
          have he := hev j hj
          have hh := hd.halo r hr j hj'
          simp only [at_] at he hn ⊢
          rw [hh]
          exact ⟨Or.inr (by omega), Or.inr (by omega)⟩
      · push Not at hw
        rw [r1 (β, x), g1 (β, x)]
        · apply ih
          rcases hx with h | ⟨h1, h2, h3⟩
          · exact Or.inl h
          · exact Or.inr ⟨h1, by omega, good_mono ok h3⟩
        · rintro a ha ⟨h1, h2⟩
          exact hw a ha h1 h2.symm
        · rintro a ha ⟨h1, h2⟩
          exact hw a (layerR_sub hd hr ht ha) h1 h2.symm
  intro β x h
  exact key cnt (le_refl _) β x (Or.inl h)

/-- A location that the reference does not write in a pass keeps its value. -/
theorem gm_frame (S : Stencil G Slot Val) (first dir : Int) (g : Slot × List Int → Val) (m0 cnt : Nat) (l : Slot × List Int)
    (h : ∀ s < cnt, ∀ a ∈ layerG G first dir (m0 + s), ¬ S.sem.writes a l) :
    gm S first dir g (m0 + cnt) l = gm S first dir g m0 l := by
  induction cnt with
  | zero => rfl
  | succ n ih =>
    rw [← Nat.add_assoc, gm_succ]
    rw [(exec_layer S _ _ _ (layerG_nodup _ _ _)
        (fun a ha => ⟨((mem_layerG _ _ _ _).1 ha).1, ((mem_layerG _ _ _ _).1 ha).2.1⟩) _).1 l (h n (by omega))]
    exact ih fun s hs => h s (by omega)

theorem exec_frame (S : Stencil G Slot Val) (t : List Task) (m : Slot × List Int → Val) (l : Slot × List Int)
    (h : ∀ a ∈ t, ¬ S.sem.writes a l) : S.sem.exec t m l = m l := by
  induction t generalizing m with
  | nil => rfl
  | cons a t ih =>
    rw [exec_cons, ih _ fun b hb => h b (List.mem_cons_of_mem _ hb)]
    exact S.sem.frame a m l (h a List.mem_cons_self)

end

end Yask
