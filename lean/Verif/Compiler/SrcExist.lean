import Verif.Compiler.SrcLegal
import Verif.Compiler.SolnLink
import Verif.Kernel.CodeSolnSim

/-! Helper lemmas: there are values that satisfy the equations of the source. -/

namespace Yask
open Spec Comp

section
variable {π V : Type} [DecidableEq π] {D : CDims} {dir : ℤ} {es : List (SEq π V)} {cs : List (CEq π)}

/-- The step in the window of `n` stored steps at `first` that has the same slot as `s`. -/
def redStep (dir first : ℤ) (n : Nat) (s : ℤ) : ℤ := first - dir * ((dir * (first - s)) % (n : ℤ))

theorem redStep_sub (hdir : dir = 1 ∨ dir = -1) (first : ℤ) (n : Nat) (s : ℤ) : redStep dir first n (s - dir * n) = redStep dir first n s := by
  unfold redStep
  have : dir * (first - (s - dir * n)) = dir * (first - s) + n := by
    rcases hdir with h | h <;> rw [h] <;> ring
  rw [this, Int.add_emod_right]

theorem redStep_stored (hdir : dir = 1 ∨ dir = -1) (first : ℤ) {n j : Nat} (h : j < n) : redStep dir first n (first - dir * j) = first - dir * j := by
  unfold redStep
  have : dir * (first - (first - dir * j)) = j := by
    rcases hdir with h | h <;> rw [h] <;> ring
  rw [this, Int.emod_eq_of_lt (by omega) (by omega)]

/-- An element with the step in the window. -/
def redIdx (D : CDims) (dir first : ℤ) (sz : EqVar → Nat) (v : EqVar) (a : List ℤ) : List ℤ :=
  if (D.step, IndexType.step) ∈ v.dims then
    a.set (v.dims.idxOf (D.step, IndexType.step)) (redStep dir first (sz v) (a.getD (v.dims.idxOf (D.step, IndexType.step)) 0))
  else a

theorem step_idx {v : EqVar} (hn : DimNames v) {k : Nat} (h : v.dims[k]? = some (D.step, .step)) : v.dims.idxOf (D.step, IndexType.step) = k := by
  have hnd : v.dims.Nodup := List.Nodup.of_map _ hn
  obtain ⟨h1, h2⟩ := List.getElem?_eq_some_iff.1 h
  rw [← h2, List.Nodup.idxOf_getElem hnd]

theorem redIdx_elem (first : ℤ) (sz : EqVar → Nat) {k : EqVar × List ℤ} (hk : Kinds D k.1) (hn : DimNames k.1)
    (h : (D.step, IndexType.step) ∈ k.1.dims) (s : ℤ) (x : List ℤ) :
    redIdx D dir first sz k.1 (srcElem D k s x) = srcElem D k (redStep dir first (sz k.1) s) x := by
  obtain ⟨i, hi⟩ := List.mem_iff_getElem?.1 h
  unfold redIdx
  rw [if_pos h, step_idx hn hi, srcElem_set hk hn hi]
  congr 2
  rw [List.getD_eq_getElem?_getD, stepElem hi]
  rfl

variable [Inhabited V] (es cs)

open Classical in
/-- The values: those of the analyzed solution for elements that an equation can set, the initial ones for others. -/
noncomputable def srcOf (D : CDims) (dir first : ℤ) (sz : EqVar → Nat) (g : SrcHistory V) (F : History V) : SrcHistory V := fun v a =>
  if h : ∃ w : CEq π × ℤ × List ℤ, w.1 ∈ cs ∧ w.1.lhs.var = v ∧ w.2.2.length = D.domain.length ∧ a = srcElem D w.1.lhs.key w.2.1 w.2.2 then
    F (h.choose.1.lhs.pt D cs).var h.choose.2.1 h.choose.2.2
  else g v (redIdx D dir first sz v a)

variable {es cs} {first : ℤ} {sz : EqVar → Nat} {g : SrcHistory V} {F : History V}

theorem ok_of_mem (hes : List.Forall₂ (EqOk D dir) (es.map SEq.src) cs) {c : CEq π} (hc : c ∈ cs) : ∃ e ∈ es, EqOk D dir e.src c := by
  obtain ⟨i, hi⟩ := List.mem_iff_getElem?.1 hc
  have hil : i < es.length := by
    have := hes.length_eq
    rw [List.length_map] at this
    rw [this]
    exact (List.getElem?_eq_some_iff.1 hi).1
  exact ⟨es[i], List.getElem_mem _, eq_ok hes (List.getElem?_eq_getElem hil) hi⟩

theorem lhs_step {e : SrcEq π} {c : CEq π} (h : EqOk D dir e c) : ∃ i : Nat, c.lhs.key.1.dims[i]? = some (D.step, .step) := by
  obtain ⟨ty, hm, hty⟩ := (pt_dims h.lhs D.step).1 (by rw [h.step]; rfl)
  rw [← h.lhs.built.var] at hm
  have hk := h.lhs.kinds
  rw [← h.lhs.built.var] at hk
  have : ty = .step := by
    rcases hk _ hm with g | g | g
    · exact g.1
    · exact absurd rfl g.2.2
    · exact absurd g.1 hty
  subst this
  exact List.mem_iff_getElem?.1 hm

theorem slice_inj (hns : D.step ∉ D.domain) (hnd : D.domain.Nodup) (hes : List.Forall₂ (EqOk D dir) (es.map SEq.src) cs) {c c' : CEq π}
    (hc : c ∈ cs) (hc' : c' ∈ cs) (hv : c.lhs.var = c'.lhs.var) {s s' : ℤ} {x x' : List ℤ} (hx : x.length = D.domain.length)
    (hx' : x'.length = D.domain.length) (h : srcElem D c.lhs.key s x = srcElem D c'.lhs.key s' x') : c.lhs.key = c'.lhs.key ∧ s = s' ∧ x = x' := by
  obtain ⟨e, _, hE⟩ := ok_of_mem hes hc
  obtain ⟨e', _, hE'⟩ := ok_of_mem hes hc'
  have hkey := key_of_elem hE.lhs hE'.lhs hv h
  refine ⟨hkey, ?_, ?_⟩
  · obtain ⟨i, hi⟩ := lhs_step hE
    have h1 : (srcElem D c.lhs.key s x)[i]? = (srcElem D c'.lhs.key s' x')[i]? := by rw [h]
    rw [stepElem hi, stepElem (by rw [← hkey]; exact hi)] at h1
    exact Option.some.inj h1
  · rw [← hkey] at h
    refine srcElem_inj ?_ hnd ?_ hns hx hx' h
    · show Kinds D c.lhs.var
      rw [hE.lhs.built.var]; exact hE.lhs.kinds
    · intro d hd
      show d ∈ c.lhs.var.dims.map Prod.fst
      rw [hE.lhs.built.var]; exact hE.full d hd

theorem srcOf_slice (hns : D.step ∉ D.domain) (hnd : D.domain.Nodup) (hes : List.Forall₂ (EqOk D dir) (es.map SEq.src) cs) {c : CEq π} (hc : c ∈ cs)
    (s : ℤ) {x : List ℤ} (hx : x.length = D.domain.length) :
    srcOf cs D dir first sz g F c.lhs.var (srcElem D c.lhs.key s x) = F (c.lhs.pt D cs).var s x := by
  unfold srcOf
  have h : ∃ w : CEq π × ℤ × List ℤ, w.1 ∈ cs ∧ w.1.lhs.var = c.lhs.var ∧ w.2.2.length = D.domain.length ∧
      srcElem D c.lhs.key s x = srcElem D w.1.lhs.key w.2.1 w.2.2 := ⟨(c, s, x), hc, rfl, hx, rfl⟩
  rw [dif_pos h]
  obtain ⟨h1, h2, h3, h4⟩ := h.choose_spec
  obtain ⟨k1, k2, k3⟩ := slice_inj hns hnd hes hc h1 h2.symm hx h3 h4
  rw [← k2, ← k3]
  have : (h.choose.1.lhs.pt D cs).var = (c.lhs.pt D cs).var := congrArg (fun k => (srcVars cs).idxOf k) k1.symm
  rw [this]

theorem srcOf_other {v : EqVar} {a : List ℤ} (h : ∀ c ∈ cs, c.lhs.var = v → ∀ s x, x.length = D.domain.length → a ≠ srcElem D c.lhs.key s x) :
    srcOf cs D dir first sz g F v a = g v (redIdx D dir first sz v a) := by
  unfold srcOf
  rw [dif_neg]
  rintro ⟨w, h1, h2, h3, h4⟩
  exact h w.1 h1 h2 _ _ h3 h4

variable {szv : Nat → Nat} {inDom : List ℤ → Prop} {n : Nat} {L : List (List (List (Fin (srcSoln D dir es cs).eqs.length)))}
  {vdims : Nat → List String}

/-- Values of vars that no equation sets. -/
theorem unset_val (hl : Legal (srcSoln D dir es cs) vdims) (hpos : ∀ v, 0 < szv v) {H : History V}
    (hF : Evolves (srcSoln D dir es cs) inDom szv first n F) (hS : Stores (srcSoln D dir es cs) szv F first (Nano.memOf (srcSoln D dir es cs) szv H first))
    {v : Nat} (hv : (srcSoln D dir es cs).hasStep v = true) (hno : ∀ u ∈ (srcSoln D dir es cs).eqs, u.lhs.var ≠ v) (x : List ℤ) :
    ∀ i ≤ n, ∀ s, (s - first) * dir ≤ i → -(szv v : ℤ) < (s - first) * dir → F v s x = H v (redStep dir first (szv v) s) x := by
  have hdir : dir = 1 ∨ dir = -1 := hl.dir
  intro i
  induction i with
  | zero =>
    intro _ s h1 h2
    obtain ⟨j, hj⟩ := Int.eq_ofNat_of_zero_le (a := -((s - first) * dir)) (by omega)
    have hs : s = first - dir * j := by
      rw [← hj]
      rcases hdir with h | h <;> rw [h] <;> ring
    have h3 := hS.2 v x hv j (by omega)
    have h4 : F v s x = F v (first - dir * j) x := by rw [hs]
    rw [h4]
    refine h3.symm.trans ?_
    rw [Nano.memOf_slot hl hpos H first hv]
    rw [hs]
    rfl
  | succ i ih =>
    intro hi s h1 h2
    by_cases h : (s - first) * dir ≤ i
    · exact ih (by omega) s h h2
    · have hs : s = first + dir * i + dir := by
        have : (s - first) * dir = i + 1 := by push_cast at h1; omega
        rcases hdir with h | h <;> rw [h] at this ⊢ <;> omega
      have hk := hF.keep i (by omega) v x hv (by
        rintro ⟨u, hu, h3, _⟩
        exact hno u hu h3)
      have e1 : F v s x = F v (s - dir * szv v) x := by
        rw [hs]
        exact hk
      have hp := hpos v
      have e2 : (s - dir * szv v - first) * dir = (s - first) * dir - szv v := by
        rcases hdir with h | h <;> rw [h] <;> ring
      rw [e1, ih (by omega) _ (by rw [e2]; push_cast at h1; omega) (by rw [e2]; push_cast at h1; omega), redStep_sub hdir]

/-- There are values that satisfy the equations of the source, from any stored values. -/
theorem src_exists (hns : D.step ∉ D.domain) (hnd : D.domain.Nodup) (hes : List.Forall₂ (EqOk D dir) (es.map SEq.src) cs)
    (hl : Legal (srcSoln D dir es cs) vdims) (ha : Arranged (srcSoln D dir es cs) L) (hn : Enough (srcSoln D dir es cs) L szv)
    (hlen : ∀ x, inDom x → x.length = D.domain.length) (hsz : ∀ v k, (srcVars cs)[v]? = some k → szv v = sz k.1) (first : ℤ) (n : Nat)
    (g : SrcHistory V) : ∃ W, SrcEvolves D dir es inDom sz first n W ∧ ∀ v a, DimNames v → a.length = v.dims.length →
      (∀ k : Nat, v.dims[k]? = some (D.step, .step) → ∃ j < sz v, a[k]? = some (first - dir * j)) → W v a = g v a := by
  have hdir : dir = 1 ∨ dir = -1 := hl.dir
  obtain ⟨F, hF, hSt⟩ := exists_history hl ha hn inDom first (Nano.memOf (srcSoln D dir es cs) szv (srcFlat D cs g) first) n
  have hm := Nano.memOf_stores hl hn.pos (srcFlat D cs g) first
  -- values at the points of the equations
  have key : ∀ p ∈ eqPts cs, ∀ s x, x.length = D.domain.length → ((srcSoln D dir es cs).hasStep (p.pt D cs).var = true →
      (s - first) * dir ≤ n ∧ -(szv (p.pt D cs).var : ℤ) < (s - first) * dir) → ((srcSoln D dir es cs).hasStep (p.pt D cs).var = false → s = 0) →
      srcOf cs D dir first sz g F p.var (srcElem D p.key s x) = F (p.pt D cs).var s x := by
    intro p hp s x hx hs hs0
    obtain ⟨q, hq⟩ := pts_ok hes hp
    have hkd : Kinds D p.key.1 := by show Kinds D p.var; rw [hq.built.var]; exact hq.kinds
    have hkn : DimNames p.key.1 := by show DimNames p.var; rw [hq.built.var]; exact hq.names
    have hv := pt_var (D := D) hp
    by_cases hw : ∃ c ∈ cs, c.lhs.key = p.key
    · obtain ⟨c, hc, hkey⟩ := hw
      have h1 := srcOf_slice (first := first) (sz := sz) (g := g) (F := F) hns hnd hes hc s hx
      rw [hkey] at h1
      rw [show p.var = c.lhs.var from (congrArg Prod.fst hkey).symm, h1]
      unfold CPt.pt
      rw [hkey]
    · rw [srcOf_other]
      · have hno : ∀ u ∈ (srcSoln D dir es cs).eqs, u.lhs.var ≠ (p.pt D cs).var := by
          intro u hu he
          obtain ⟨i, e, c, he', hc, rfl⟩ := srcEqs_mem hu
          refine hw ⟨c, List.mem_of_getElem? hc, ?_⟩
          have g1 := pt_var (D := D) (lhs_mem hc)
          have he : (c.lhs.pt D cs).var = (p.pt D cs).var := he
          rw [he, hv] at g1
          exact (Option.some.inj g1).symm
        have flat : ∀ s, srcFlat D cs g (p.pt D cs).var s x = g p.var (srcElem D p.key s x) := by
          intro s
          unfold srcFlat
          rw [hv]
          simp only
          rw [if_pos hx]
          rfl
        have hst : (srcSoln D dir es cs).hasStep (p.pt D cs).var = true ↔ (D.step, IndexType.step) ∈ p.key.1.dims := by
          show (decide ((srcVars cs).length ≤ (p.pt D cs).var) || decide (D.step ∈ srcHas cs (p.pt D cs).var .step)) = true ↔ _
          rw [decide_eq_false (by have := (List.getElem?_eq_some_iff.1 hv).1; omega), Bool.false_or, decide_eq_true_iff, srcHas_key hv]
        by_cases hh : (srcSoln D dir es cs).hasStep (p.pt D cs).var = true
        · rw [unset_val hl hn.pos hF hSt hh hno x n (le_refl _) s (hs hh).1 (hs hh).2, flat, hsz _ _ hv]
          have e := redIdx_elem (dir := dir) first sz hkd hkn (hst.1 hh) s x
          exact congrArg (g p.var) e
        · have h0 := hs0 (by simpa using hh)
          subst h0
          have e1 := hSt.1 (p.pt D cs).var x (by simpa using hh)
          have e2 := hm.1 (p.pt D cs).var x (by simpa using hh)
          rw [← e1, e2, flat]
          unfold redIdx
          rw [if_neg (show (D.step, IndexType.step) ∉ p.var.dims from fun h => hh (hst.2 h))]
      · intro c hc hcv s' x' hx' he
        obtain ⟨e, _, hE⟩ := ok_of_mem hes hc
        exact hw ⟨c, hc, (key_of_elem hq hE.lhs hcv.symm he).symm⟩
  refine ⟨srcOf cs D dir first sz g F, ⟨?_, ?_⟩, ?_⟩
  · intro i hi e he x hap a as hia has
    obtain ⟨m, hm'⟩ := List.mem_iff_getElem?.1 he
    have hml : m < cs.length := by
      rw [← hes.length_eq, List.length_map]
      exact (List.getElem?_eq_some_iff.1 hm').1
    have hc : cs[m]? = some cs[m] := List.getElem?_eq_getElem hml
    have hE := eq_ok hes hm' hc
    have hxl := hlen x hap.1
    have h1 := indexVals_unique hia (lhs_elem cs hns hE _ hxl)
    subst h1
    have hu : _ ∈ (srcSoln D dir es cs).eqs := List.mem_of_getElem? (srcEqs_get.2 ⟨e, cs[m], hm', hc, rfl⟩)
    have hev := hF.eq i hi _ hu x ⟨hap.1, by
      simp only [Bool.and_eq_true, decide_eq_true_eq]
      exact ⟨hxl, hap.2.1⟩, hap.2.2⟩
    rw [← hE.lhs.built.var, srcOf_slice hns hnd hes (List.mem_of_getElem? hc) _ hxl]
    refine hev.trans ?_
    unfold UEq.rhsVal
    congr 1
    rw [List.map_map]
    have hr : ∀ {l : List (EqVar × List (NExpr π))} {r : List (CPt π)} {as : List (List ℤ)}, (∀ p ∈ r, p ∈ cs[m].rhs) → List.Forall₂ (PtOk D) l r →
        List.Forall₂ (fun q b => IndexVals D (first + dir * i) x q.2 b) l as →
        r.map ((fun p => F p.var (stepAt p (first + dir * i)) (shiftPt D.domain x p)) ∘ CPt.pt D cs) =
        List.zipWith (fun q b => srcOf cs D dir first sz g F q.1 b) l as := by
      intro l r as hm h
      induction h generalizing as with
      | nil =>
        intro h'
        cases h'
        rfl
      | @cons q p l r h _ ih =>
        intro h'
        cases h' with
        | @cons _ b _ bs h1 h2 =>
          simp only [List.map_cons, List.zipWith_cons_cons]
          rw [ih (fun p hp => hm p (List.mem_cons_of_mem _ hp)) h2]
          congr 1
          have hb := indexVals_unique h1 (pt_elem cs hns h _ x)
          subst hb
          simp only [Function.comp]
          have hpr := hm p List.mem_cons_self
          have hpm := rhs_mem hc hpr
          rw [← h.built.var, key p hpm _ _ (by simp [shiftPt])]
          · intro hs
            have hsome := hl.step _ hu (p.pt D cs) (List.mem_cons_of_mem _ (List.mem_map_of_mem hpr))
            rw [hs] at hsome
            obtain ⟨k, hk⟩ := Option.isSome_iff_exists.1 hsome
            have h5 := hl.rhs _ hu (p.pt D cs) (List.mem_map_of_mem hpr) k hk
            have h6 := hn.range _ hu (p.pt D cs) (List.mem_map_of_mem hpr) k hk
            have h5 : k * dir ≤ 1 := h5
            have h6 : -(szv (p.pt D cs).var : ℤ) < k * dir := h6
            have h7 : stepAt (p.pt D cs) (first + dir * i) = first + dir * i + k := by unfold stepAt; rw [hk]
            have h8 : (first + dir * i + k - first) * dir = i + k * dir := by rcases hdir with h | h <;> rw [h] <;> ring
            rw [h7, h8]
            omega
          · intro hs
            have hsome := hl.step _ hu (p.pt D cs) (List.mem_cons_of_mem _ (List.mem_map_of_mem hpr))
            rw [hs] at hsome
            have : (p.pt D cs).step = none := by simpa using hsome
            unfold stepAt
            rw [this]
    exact congrArg (e.f (first + dir * i) x) (hr (fun p hp => hp) hE.rhs has)
  · intro i hi v k a hvn hk hal hak hno
    by_cases hsl : ∃ c ∈ cs, c.lhs.var = v ∧ ∃ s x, x.length = D.domain.length ∧ a = srcElem D c.lhs.key s x
    · obtain ⟨c, hc, rfl, s, x, hx, rfl⟩ := hsl
      obtain ⟨m, hm'⟩ := List.mem_iff_getElem?.1 hc
      have hE : ∃ e, es[m]? = some e ∧ EqOk D dir e.src c := by
        have hil : m < es.length := by
          have := hes.length_eq
          rw [List.length_map] at this
          rw [this]
          exact (List.getElem?_eq_some_iff.1 hm').1
        exact ⟨es[m], List.getElem?_eq_getElem hil, eq_ok hes (List.getElem?_eq_getElem hil) hm'⟩
      obtain ⟨e, he, hE⟩ := hE
      have hkd : Kinds D c.lhs.key.1 := by show Kinds D c.lhs.var; rw [hE.lhs.built.var]; exact hE.lhs.kinds
      have hs : s = first + dir * i + dir := by
        rw [stepElem (k := c.lhs.key) hk] at hak
        exact Option.some.inj hak
      subst hs
      rw [srcElem_set (k := c.lhs.key) hkd hvn hk, srcOf_slice hns hnd hes hc _ hx, srcOf_slice hns hnd hes hc _ hx]
      have hv := pt_var (D := D) (lhs_mem hm')
      have hst : (srcSoln D dir es cs).hasStep (c.lhs.pt D cs).var = true := by
        show (decide ((srcVars cs).length ≤ (c.lhs.pt D cs).var) || decide (D.step ∈ srcHas cs (c.lhs.pt D cs).var .step)) = true
        rw [Bool.or_eq_true, decide_eq_true_iff, decide_eq_true_iff, srcHas_key hv]
        exact .inr (List.mem_of_getElem? hk)
      have hkeep := hF.keep i hi (c.lhs.pt D cs).var x hst (by
        rintro ⟨u, hu, huv, hap⟩
        obtain ⟨m2, e2, c2, he2, hc2, rfl⟩ := srcEqs_mem hu
        have hE2 := eq_ok hes he2 hc2
        have hkey : c2.lhs.key = c.lhs.key := by
          have g1 := pt_var (D := D) (lhs_mem hc2)
          have huv : (c2.lhs.pt D cs).var = (c.lhs.pt D cs).var := huv
          rw [huv, hv] at g1
          exact (Option.some.inj g1).symm
        refine hno ⟨e2, List.mem_of_getElem? he2, ?_, x, ⟨hap.1, ?_, hap.2.2⟩, ?_⟩
        · rw [← hE2.lhs.built.var]
          exact congrArg Prod.fst hkey
        · have := hap.2.1
          simp only [Bool.and_eq_true] at this
          exact this.2
        · rw [← hkey]
          exact lhs_elem cs hns hE2 _ hx)
      rw [hsz _ _ hv] at hkeep
      exact hkeep
    · have hb : ¬ ∃ c ∈ cs, c.lhs.var = v ∧ ∃ s x, x.length = D.domain.length ∧ a.set k (first + dir * i + dir - dir * sz v) = srcElem D c.lhs.key s x := by
        rintro ⟨c, hc, rfl, s, x, hx, h⟩
        obtain ⟨e, _, hE⟩ := ok_of_mem hes hc
        have hkd : Kinds D c.lhs.key.1 := by show Kinds D c.lhs.var; rw [hE.lhs.built.var]; exact hE.lhs.kinds
        refine hsl ⟨c, hc, rfl, first + dir * i + dir, x, hx, ?_⟩
        rw [← srcElem_set (k := c.lhs.key) hkd hvn hk s, ← h, List.set_set]
        obtain ⟨l1, l2⟩ := List.getElem?_eq_some_iff.1 hak
        rw [← l2, List.set_getElem_self]
      rw [srcOf_other (fun c hc hv s x hx he => hsl ⟨c, hc, hv, s, x, hx, he⟩), srcOf_other (fun c hc hv s x hx he => hb ⟨c, hc, hv, s, x, hx, he⟩)]
      congr 1
      have hkl : k < a.length := (List.getElem?_eq_some_iff.1 hak).1
      unfold redIdx
      rw [if_pos (List.mem_of_getElem? hk), if_pos (List.mem_of_getElem? hk), step_idx hvn hk, List.set_set]
      congr 1
      rw [List.getD_eq_getElem?_getD, List.getD_eq_getElem?_getD, hak, List.getElem?_set_self hkl]
      exact (redStep_sub hdir _ _ _).symm
  · intro v a hvn hal hst
    by_cases hsl : ∃ c ∈ cs, c.lhs.var = v ∧ ∃ s x, x.length = D.domain.length ∧ a = srcElem D c.lhs.key s x
    · obtain ⟨c, hc, rfl, s, x, hx, rfl⟩ := hsl
      rw [srcOf_slice hns hnd hes hc _ hx]
      obtain ⟨m, hm'⟩ := List.mem_iff_getElem?.1 hc
      obtain ⟨e, _, hE⟩ := ok_of_mem hes hc
      obtain ⟨k, hk⟩ := lhs_step hE
      obtain ⟨j, hj, hak⟩ := hst k hk
      rw [stepElem (k := c.lhs.key) hk] at hak
      obtain rfl := Option.some.inj hak
      have hv := pt_var (D := D) (lhs_mem hm')
      have hh : (srcSoln D dir es cs).hasStep (c.lhs.pt D cs).var = true := by
        show (decide ((srcVars cs).length ≤ (c.lhs.pt D cs).var) || decide (D.step ∈ srcHas cs (c.lhs.pt D cs).var .step)) = true
        rw [Bool.or_eq_true, decide_eq_true_iff, decide_eq_true_iff, srcHas_key hv]
        exact .inr (List.mem_of_getElem? hk)
      have hj' : j < szv (c.lhs.pt D cs).var := by rw [hsz _ _ hv]; exact hj
      have e1 := hSt.2 _ x hh j hj'
      have e2 := hm.2 _ x hh j hj'
      rw [e2] at e1
      refine e1.symm.trans ?_
      unfold srcFlat
      rw [hv]
      simp only
      rw [if_pos hx]
      rfl
    · rw [srcOf_other (fun c hc hv s x hx he => hsl ⟨c, hc, hv, s, x, hx, he⟩)]
      unfold redIdx
      split_ifs with hmem
      · obtain ⟨k, hk⟩ := List.mem_iff_getElem?.1 hmem
        obtain ⟨j, hj, hak⟩ := hst k hk
        rw [step_idx hvn hk, List.getD_eq_getElem?_getD, hak, Option.getD_some, redStep_stored hdir _ hj]
        obtain ⟨l1, l2⟩ := List.getElem?_eq_some_iff.1 hak
        rw [← l2, List.set_getElem_self]
      · rfl

end
end Yask
