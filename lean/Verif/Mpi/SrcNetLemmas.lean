import Verif.Mpi.SrcNetModel
import Verif.Compiler.SrcLegal

/-! Helper lemmas: elements of the source and of the analyzed solution. -/

namespace Yask
open Spec Mpi Var Comp

section
variable {π V : Type} [DecidableEq π] {D : CDims} {dir : ℤ} {es : List (SEq π V)} {cs : List (CEq π)}

omit [DecidableEq π] in
theorem denotes_const {e : NExpr π} {k k' : ℤ} (h : Denotes e (fun _ => k)) (h' : Denotes e (fun _ => k')) : k = k' := by
  have hI : ∃ I : Interp π ℚ, I.Usual ∧ ∀ d, I.index d .step = 0 ∧ I.index d .domain = 0 :=
    ⟨⟨id, fun _ => 0, fun _ _ => 0, fun _ => 0, fun a b => a / b, modVal, fun _ _ => 0⟩, ⟨fun _ => rfl, fun _ _ => rfl, fun _ _ => rfl⟩,
      fun _ => ⟨rfl, rfl⟩⟩
  obtain ⟨I, h1, h2⟩ := hI
  have e1 := h I (fun _ => 0) h1 h2
  have e2 := h' I (fun _ => 0) h1 h2
  rw [e1] at e2
  simp only at e2
  exact_mod_cast e2

/-- The element of an access. -/
theorem elemIs_iff {q : EqVar × List (NExpr π)} {p : CPt π} (h : PtOk D q p) (s : ℤ) (x a : List ℤ) : ElemIs D q s x a ↔ a = srcElem D p.key s x := by
  have hv : p.key.1 = q.1 := h.built.var
  have misc : ∀ (i : Nat) (d : String) (ty : IndexType), q.1.dims[i]? = some (d, ty) → ty ≠ .step → ty ≠ .domain → ∃ (e : NExpr π) (k : ℤ),
      q.2[i]? = some e ∧ Denotes e (fun _ => k) ∧ (srcElem D p.key s x)[i]? = some k := by
    intro i d ty hi h1 h2
    have hkind := h.kinds _ (List.mem_of_getElem? hi)
    have hm : ty = .misc ∧ d ∉ D.domain ∧ d ≠ D.step := by
      rcases hkind with g | g | g
      · exact absurd g.1 h1
      · exact absurd g.1 h2
      · exact g
    have hlt : i < q.2.length := by rw [← h.built.len]; exact (List.getElem?_eq_some_iff.1 hi).1
    obtain ⟨k, hk⟩ := h.means.2.2 ((d, ty), q.2[i]) (mem_zip_iff.2 ⟨i, hi, by simp⟩)
    simp only at hk
    rw [if_neg (by rintro (g | g); exacts [hm.2.2 g, hm.2.1 g])] at hk
    refine ⟨q.2[i], k, List.getElem?_eq_getElem hlt, hk.1, ?_⟩
    have hi' : p.key.1.dims[i]? = some (d, .misc) := by rw [hv, hi, hm.1]
    rw [srcElem_misc hi']
    have : p.key.2[i]? = some k := by
      unfold CPt.key
      simp only
      rw [List.getElem?_map, h.built.var, hi, hm.1]
      simp [hk.2]
    rw [List.getD_eq_getElem?_getD, this]
    rfl
  have dom : ∀ (i : Nat) (d : String), q.1.dims[i]? = some (d, .domain) → (srcElem D p.key s x)[i]? = some (x.getD (D.domain.idxOf d) 0) := by
    intro i d hi
    have hil := (List.getElem?_eq_some_iff.1 hi).1
    unfold srcElem
    rw [hv, List.getElem?_map, List.getElem?_range hil, Option.map_some, hi]
  constructor
  · rintro ⟨h1, h2⟩
    refine List.ext_getElem? fun i => ?_
    by_cases hi : i < q.1.dims.length
    · rcases hdd : q.1.dims[i] with ⟨d, ty⟩
      have hj : q.1.dims[i]? = some (d, ty) := by rw [List.getElem?_eq_getElem hi, hdd]
      obtain ⟨g1, g2, g3⟩ := h2 i d ty hj
      by_cases hs : ty = .step
      · rw [g1 hs, stepElem (by rw [hv, hj, hs])]
      · by_cases hd : ty = .domain
        · rw [g2 hd, dom i d (by rw [hj, hd])]
        · obtain ⟨e, k, k1, k2, k3⟩ := g3 hs hd
          obtain ⟨e', k', k1', k2', k3'⟩ := misc i d ty hj hs hd
          rw [k1] at k1'
          obtain rfl := Option.some.inj k1'
          rw [k3, k3', denotes_const k2 k2']
    · rw [List.getElem?_eq_none (by omega), List.getElem?_eq_none (by rw [srcElem_length, hv]; omega)]
  · rintro rfl
    refine ⟨by rw [srcElem_length, hv], fun i d ty hi => ⟨fun hs => ?_, fun hd => ?_, fun h1 h2 => misc i d ty hi h1 h2⟩⟩
    · exact stepElem (by rw [hv, hi, hs]) _ _
    · exact dom i d (by rw [hi, hd])

/-- Each access is a point of the equations. -/
theorem access_pt (hes : List.Forall₂ (EqOk D dir) (es.map SEq.src) cs) {q : EqVar × List (NExpr π)} (h : Access es q) :
    ∃ p ∈ eqPts cs, PtOk D q p := by
  obtain ⟨e, he, hq⟩ := h
  obtain ⟨m, hm⟩ := List.mem_iff_getElem?.1 he
  have hml : m < cs.length := by
    rw [← hes.length_eq, List.length_map]
    exact (List.getElem?_eq_some_iff.1 hm).1
  have hc : cs[m]? = some cs[m] := List.getElem?_eq_getElem hml
  have hE := eq_ok hes hm hc
  rcases List.mem_cons.1 hq with rfl | hq
  · exact ⟨_, lhs_mem hc, hE.lhs⟩
  · obtain ⟨j, hj, rfl⟩ := List.getElem_of_mem hq
    have hl2 := hE.rhs.length_eq
    have := (List.forall₂_iff_get.1 hE.rhs).2 j hj (by rw [← hl2]; exact hj)
    exact ⟨_, rhs_mem hc (List.getElem_mem _), this⟩

/-- Each var of the analyzed solution is that of an access. -/
theorem key_access (hes : List.Forall₂ (EqOk D dir) (es.map SEq.src) cs) {v : Nat} {k : EqVar × List ℤ} (h : (srcVars cs)[v]? = some k) :
    ∃ q p, Access es q ∧ p ∈ eqPts cs ∧ p.key = k ∧ PtOk D q p := by
  have hkm := List.mem_of_getElem? h
  unfold srcVars at hkm
  obtain ⟨p, hp, rfl⟩ := List.mem_map.1 (List.mem_dedup.1 hkm)
  obtain ⟨c, hc, hpc⟩ := List.mem_flatMap.1 hp
  obtain ⟨i, hi⟩ := List.mem_iff_getElem?.1 hc
  have hil : i < es.length := by
    have := hes.length_eq
    rw [List.length_map] at this
    rw [this]
    exact (List.getElem?_eq_some_iff.1 hi).1
  have he : es[i]? = some es[i] := List.getElem?_eq_getElem hil
  have hE := eq_ok hes he hi
  rcases List.mem_cons.1 hpc with rfl | hpc
  · exact ⟨_, _, ⟨_, List.getElem_mem hil, List.mem_cons_self⟩, hp, rfl, hE.lhs⟩
  · obtain ⟨j, hj, rfl⟩ := List.getElem_of_mem hpc
    have hl2 := hE.rhs.length_eq
    have := (List.forall₂_iff_get.1 hE.rhs).2 j (by rw [hl2]; exact hj) hj
    exact ⟨_, _, ⟨_, List.getElem_mem hil, List.mem_cons_of_mem _ (List.getElem_mem _)⟩, hp, rfl, this⟩

variable {X : CodeNet} {S : Slices} {kv : EqVar → Nat} {sz : EqVar → Nat} {szv : Nat → Nat}

/-- The element in the storage. -/
theorem elem_src (hS : SrcVarsIn X S kv cs sz szv) {r : Nat} (hr : r < X.P.n) {v : Nat} {k : EqVar × List ℤ} (hv : (srcVars cs)[v]? = some k)
    (hk : Kinds D k.1) (s : ℤ) (x : List ℤ) : (X.slices S r).elem D.domain v s x = srcElem D k s x := by
  obtain ⟨h1, h2, _, h4, h5⟩ := hS.at_ v k hv
  have h5 := h5 r hr
  have hgeo : (X.slices S r).geo ((X.slices S r).var v) = X.geo r (kv k.1) := by
    show X.geo r (S.var v) = _
    rw [h1]
  have hlen : (X.geo r (kv k.1)).dims.length = k.1.dims.length := by simpa using congrArg List.length h5
  unfold Slices.elem srcElem
  rw [hgeo, hlen]
  refine List.map_congr_left fun i hi => ?_
  have hi : i < k.1.dims.length := List.mem_range.1 hi
  rcases hdd : k.1.dims[i] with ⟨d, ty⟩
  have hj : k.1.dims[i]? = some (d, ty) := by rw [List.getElem?_eq_getElem hi, hdd]
  have hkind : (X.slices S r).kind v i = some (kindOf ty) := by
    unfold Slices.kind
    rw [hgeo, ← List.getElem?_map, h5, List.getElem?_map, hj]
    rfl
  have hname : (X.slices S r).name v i = d := by
    show (X.names (S.var v)).getD i "" = d
    rw [h1, h4, List.getD_eq_getElem?_getD, List.getElem?_map, hj]
    rfl
  rw [hkind, hname, hj]
  rcases hk _ (List.mem_of_getElem? hj) with g | g | g
  · have : ty = .step := g.1
    subst this; rfl
  · have : ty = .domain := g.1
    subst this; rfl
  · have : ty = .misc := g.1
    subst this
    simp only [kindOf]
    show (S.misc v).getD i 0 = _
    rw [h2]

theorem hasStep_src {v : Nat} {k : EqVar × List ℤ} (hv : (srcVars cs)[v]? = some k) :
    (srcSoln D dir es cs).hasStep v = true ↔ (D.step, .step) ∈ k.1.dims := by
  show (decide ((srcVars cs).length ≤ v) || decide (D.step ∈ srcHas cs v .step)) = true ↔ _
  rw [decide_eq_false (by have := (List.getElem?_eq_some_iff.1 hv).1; omega), Bool.false_or, decide_eq_true_iff, srcHas_key hv]

variable [Inhabited V] {W : SrcHistory V} {c : CState V}

/-- Holding a value of the source is holding it for the analyzed solution. -/
theorem holds_src (hS : SrcVarsIn X S kv cs sz szv) {r : Nat} (hr : r < X.P.n) {q : EqVar × List (NExpr π)} {p : CPt π} (h : PtOk D q p) {v : Nat} (hv : (srcVars cs)[v]? = some p.key) (s : ℤ) {x : List ℤ} (hx : x.length = D.domain.length) :
    Holds X (srcSoln D dir es cs) S (srcFlat D cs W) c r v s x ↔ SrcHolds X kv D W c r q s x := by
  have hvar : p.key.1 = q.1 := h.built.var
  have hk : Kinds D p.key.1 := hvar ▸ h.kinds
  have h1 : S.var v = kv q.1 := hvar ▸ (hS.at_ v _ hv).1
  have h2 : srcFlat D cs W v s x = W q.1 (srcElem D p.key s x) := by
    unfold srcFlat
    rw [hv]
    simp only
    rw [if_pos hx, hvar]
  unfold Holds SrcHolds
  rw [show (srcSoln D dir es cs).dims = D.domain from rfl, elem_src hS hr hv hk, h1, h2]
  constructor
  · intro g a ha
    rw [elemIs_iff h] at ha
    subst ha
    exact g
  · intro g
    exact g _ ((elemIs_iff h s x _).2 rfl)

/-- Elements of vars without the step dim have no step. -/
theorem holds_nostep {q : EqVar × List (NExpr π)} (hk : Kinds D q.1) (hq : (D.step, IndexType.step) ∉ q.1.dims) {r : Nat} (s s' : ℤ) {x : List ℤ}
    (h : SrcHolds X kv D W c r q s x) : SrcHolds X kv D W c r q s' x := by
  intro a ha
  refine h a ⟨ha.1, fun i d ty hi => ⟨fun hs => ?_, (ha.2 i d ty hi).2⟩⟩
  subst hs
  exfalso
  have hm := List.mem_of_getElem? hi
  rcases hk _ hm with g | g | g
  · exact hq (by rw [← show d = D.step from g.2]; exact hm)
  · cases g.1
  · cases g.1

theorem own_src (hes : List.Forall₂ (EqOk D dir) (es.map SEq.src) cs) (hS : SrcVarsIn X S kv cs sz szv) {shape : Nat → VarShape} {t : ℤ} :
    OwnStored X (srcSoln D dir es cs) S szv shape (srcFlat D cs W) t c ↔ SrcOwn X kv D dir es sz shape W t c := by
  constructor
  · intro h r hr q hq s hs x hx hown
    obtain ⟨p, hp, hok⟩ := access_pt hes hq
    have hv := pt_var (D := D) hp
    have hvar : p.key.1 = q.1 := hok.built.var
    have hlt : (p.pt D cs).var < S.nv := hS.nv ▸ (List.getElem?_eq_some_iff.1 hv).1
    have h1 : S.var (p.pt D cs).var = kv q.1 := hvar ▸ (hS.at_ _ _ hv).1
    have h3 : szv (p.pt D cs).var = sz q.1 := hvar ▸ (hS.at_ _ _ hv).2.2.1
    by_cases hst : (D.step, IndexType.step) ∈ q.1.dims
    · refine (holds_src (dir := dir) (es := es) hS hr hok hv s hx).1 (h r hr _ hlt s ?_ x hx (by rw [h1]; exact hown))
      unfold StoredAt
      rw [if_pos ((hasStep_src hv).2 (hvar ▸ hst)), h3]
      exact hs hst
    · refine holds_nostep hok.kinds hst 0 s ((holds_src (dir := dir) (es := es) hS hr hok hv 0 hx).1
        (h r hr _ hlt 0 ?_ x hx (by rw [h1]; exact hown)))
      unfold StoredAt
      rw [if_neg (fun g => hst (hvar ▸ (hasStep_src hv).1 g))]
  · intro h r hr v hvn s hs x hx hown
    have hv0 : v < (srcVars cs).length := hS.nv ▸ hvn
    have hv : (srcVars cs)[v]? = some (srcVars cs)[v] := List.getElem?_eq_getElem hv0
    obtain ⟨q, p, hq, hp, hkey, hok⟩ := key_access hes hv
    rw [← hkey] at hv
    have hvar : p.key.1 = q.1 := hok.built.var
    have h1 : S.var v = kv q.1 := hvar ▸ (hS.at_ _ _ hv).1
    have h3 : szv v = sz q.1 := hvar ▸ (hS.at_ _ _ hv).2.2.1
    refine (holds_src hS hr hok hv s hx).2 (h r hr q hq s (fun hst => ?_) x hx (by rw [← h1]; exact hown))
    unfold StoredAt at hs
    rw [if_pos ((hasStep_src hv).2 (hvar ▸ hst)), h3] at hs
    exact hs

theorem slot_src (hS : SrcVarsIn X S kv cs sz szv) {q : EqVar × List (NExpr π)} {p : CPt π} (hok : PtOk D q p) {v : Nat}
    (hv : (srcVars cs)[v]? = some p.key) (s : ℤ) : (Spec.stepSlot (srcSoln D dir es cs) szv v s).2 =
      if (D.step, IndexType.step) ∈ q.1.dims then (s % (sz q.1 : ℤ)).toNat else 0 := by
  have hvar : p.key.1 = q.1 := hok.built.var
  have h3 : szv v = sz q.1 := hvar ▸ (hS.at_ _ _ hv).2.2.1
  have h4 := hasStep_src (D := D) (dir := dir) (es := es) hv
  rw [hvar] at h4
  unfold Spec.stepSlot
  simp only [h4, h3]

theorem halos_src (hes : List.Forall₂ (EqOk D dir) (es.map SEq.src) cs) (hS : SrcVarsIn X S kv cs sz szv) {t : ℤ} {dirty : Nat → Slot → Bool} :
    HalosStored X (srcSoln D dir es cs) S szv (srcFlat D cs W) t dirty c ↔ SrcHalos X kv D dir es sz W t dirty c := by
  constructor
  · intro h r hr nb hnb q hq s hs x hx hbox hdirty
    obtain ⟨p, hp, hok⟩ := access_pt hes hq
    have hv := pt_var (D := D) hp
    have hvar : p.key.1 = q.1 := hok.built.var
    have hlt : (p.pt D cs).var < S.nv := hS.nv ▸ (List.getElem?_eq_some_iff.1 hv).1
    have h1 : S.var (p.pt D cs).var = kv q.1 := hvar ▸ (hS.at_ _ _ hv).1
    have h3 : szv (p.pt D cs).var = sz q.1 := hvar ▸ (hS.at_ _ _ hv).2.2.1
    by_cases hst : (D.step, IndexType.step) ∈ q.1.dims
    · refine (holds_src (dir := dir) (es := es) hS hr hok hv s hx).1
        (h r hr nb hnb _ hlt s ?_ x hx (by rw [h1]; exact hbox) (by rw [h1, slot_src hS hok hv]; exact hdirty))
      unfold StoredAt
      rw [if_pos ((hasStep_src hv).2 (hvar ▸ hst)), h3]
      exact hs hst
    · refine holds_nostep hok.kinds hst 0 s ((holds_src (dir := dir) (es := es) hS hr hok hv 0 hx).1
        (h r hr nb hnb _ hlt 0 ?_ x hx (by rw [h1]; exact hbox) (by
          rw [h1, slot_src hS hok hv, if_neg hst]
          rw [if_neg hst] at hdirty
          exact hdirty)))
      unfold StoredAt
      rw [if_neg (fun g => hst (hvar ▸ (hasStep_src hv).1 g))]
  · intro h r hr nb hnb v hvn s hs x hx hbox hdirty
    have hv0 : v < (srcVars cs).length := hS.nv ▸ hvn
    have hv : (srcVars cs)[v]? = some (srcVars cs)[v] := List.getElem?_eq_getElem hv0
    obtain ⟨q, p, hq, hp, hkey, hok⟩ := key_access hes hv
    rw [← hkey] at hv
    have hvar : p.key.1 = q.1 := hok.built.var
    have h1 : S.var v = kv q.1 := hvar ▸ (hS.at_ _ _ hv).1
    have h3 : szv v = sz q.1 := hvar ▸ (hS.at_ _ _ hv).2.2.1
    rw [h1, slot_src hS hok hv] at hdirty
    refine (holds_src hS hr hok hv s hx).2 (h r hr nb hnb q hq s (fun hst => ?_) x hx (by rw [← h1]; exact hbox) hdirty)
    unfold StoredAt at hs
    rw [if_pos ((hasStep_src hv).2 (hvar ▸ hst)), h3] at hs
    exact hs

end
end Yask
