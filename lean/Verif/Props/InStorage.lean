import Verif.Props.VarSteps
import Verif.Kernel.VecsLemmas
import Verif.Var.InfoLemmas
import Verif.Props.VarAccess
import Verif.Props.BBox
import Verif.Props.CompHalo

/-!
# C65: a run accesses only allocated storage
-/

namespace Yask
open Spec Var Nano

variable {V : Type}

/-- C65: the stencil code of a part runs only on vectors that contain a point of the micro-block in one of the bounding boxes of the part. -/
theorem C65_vectors {f g : LoopFeat} {ms : List MicroDim} {bind : Option Binding} (h : MicroOk f g ms bind) (fi : Bool) (mb : Box)
    (hl : mb.length = ms.length) (bbs : List Box) (hbbs : ∀ bb ∈ bbs, bb.length = ms.length) :
    ∃ l, microVecs f g fi ms bind bbs mb = some l ∧ ∀ v ∈ l, v.length = ms.length ∧
      ∃ o, List.Forall₂ (fun (x f : Int) => 0 ≤ x ∧ x < f) o (ms.map MicroDim.fold) ∧ ∃ bb ∈ bbs,
        InBox (List.zipWith (fun (m : MicroDim) (x : Int × Int) => x.1 * m.fold + x.2 + m.rofs) ms (v.zip o)) mb ∧
        InBox (List.zipWith (fun (m : MicroDim) (x : Int × Int) => x.1 * m.fold + x.2 + m.rofs) ms (v.zip o)) bb := by
  obtain ⟨l, hm⟩ := microVecs_total h fi mb hl bbs hbbs
  exact ⟨l, hm, fun v hv => microVecs_meets h fi mb hl bbs hbbs hm hv⟩

/-- C65: when a solution is prepared, each var that is not of fixed size gets the size and offset of the rank, each declared var the
wave-front extensions of the rank; halos do not change; the halo used for the angles is at least the halos of all vars but user vars; vars have the padding that the
settings of the solution request; and with several ranks in a dim, the rank is at least as long as the halo and the shift of the wave-fronts. -/
theorem C65_prepared {c c' : RunCfg} {ep mp : Nat → Int} {force : Bool} {ks ks' : List (KVar V)} (hk : ∀ k ∈ ks, k.Ok c)
    (h : updateVarInfo c ep mp force ks = some (c', ks')) :
    (∃ H : Nat → Int, c' = { c with dim := fun j => { c.dim j with maxHalo := H j } }) ∧
    (∀ j < c'.nd, 1 < (c'.dim j).nranks → (c'.dim j).maxHalo + c'.wfShiftPts j ≤ (c'.dim j).rankSize) ∧
    ∀ k' ∈ ks', k'.Ok c' ∧ (∃ k ∈ ks, k.Kept k') ∧
      ((k'.fixed = false ∨ (k'.user = false ∧ force = true)) → k'.Set c' ∧ k'.Padded c' ep mp) ∧ (k'.orig = true → k'.Extended c') ∧
      (k'.user = false → ∀ j < c.nd, k'.halo j ≤ (c'.dim j).maxHalo) := by
  obtain ⟨h1, h2⟩ := updateVarInfo_spec hk h
  obtain ⟨h3, h4⟩ := updateVarInfo_pads hk h
  refine ⟨h1, h3, fun k' hk' => ?_⟩
  obtain ⟨g1, g2, g3, g4, g5⟩ := h2 k' hk'
  refine ⟨g1, g2, fun hc => ⟨g3 hc, ?_⟩, g4, g5⟩
  have hq := h4 k' hk' hc
  have key : ∀ j < c'.nd, ∀ p d, k'.posn j = some p → k'.v.g.dims[p]? = some d →
      (d.lHalo + d.lExt + ep j ≤ d.lPad ∧ mp j ≤ d.lPad) ∧ (d.rHalo + d.rExt + ep j ≤ d.rPad ∧ mp j ≤ d.rPad) := by
    intro j hj p d hp hd
    obtain ⟨q1, q2, q3, q4⟩ := hq j hj p d hp hd
    obtain ⟨d', e, hkd, -⟩ := g1.valid j hj p hp
    cases hd.symm.trans e
    obtain ⟨l1, l2, l3, l4, -⟩ := C21_room_for_padding k'.v g1.reach d (List.mem_of_getElem? hd) hkd
    omega
  exact ⟨fun j hj p d hp hd => (key j hj p d hp hd).1, fun j hj p d hp hd => (key j hj p d hp hd).2⟩

/-- An index in one domain dim. -/
theorem domain_in_range {g : Geom} (hok : g.Ok) {d : DimG} (hd : d ∈ g.dims) (hk : d.kind = .domain)
    (hv : 1 < d.solnVL → g.vlenGt1 = true) (hlo : d.localOfs = 0) {area : Ivl} {wl wr ofs : Int}
    (ha : d.rankOfs - d.lExt - wl ≤ area.1 ∧ area.2 ≤ d.rankOfs + d.domain + d.rExt + wr)
    (ho : wl - ofs ≤ d.lHalo ∧ wr + ofs ≤ d.rHalo) {i l x : Int} (hm : VecMeets d.solnVL d.rankOfs i area)
    (hl : 0 ≤ l ∧ l < d.solnVL) (hx : x = d.rankOfs + i * d.solnVL + l + ofs) : d.firstLocal ≤ x ∧ x ≤ d.lastLocal := by
  obtain ⟨l0, h0, h1, h2, h3⟩ := hm
  have hdo := hok.dims d hd
  obtain ⟨p1, p2⟩ := hok.lfull d hd hk
  have hset := (settingsOk_iff d).1 hdo.set_ok
  have hs := hdo.svl
  unfold DimG.firstLocal DimG.lastLocal
  have hL : d.lHalo + d.lExt + (d.solnVL - 1) ≤ d.lPad := by
    refine le_trans ?_ p1
    have := roundUp_ge (max (d.lHalo + d.lExt + d.reqLEpad) d.reqLPad) hs
    unfold DimG.newLPad
    simp only [Bool.false_eq_true, if_false]
    split
    · omega
    · next hn =>
      have : ¬ 1 < d.solnVL := fun h => hn (hv h)
      omega
  have hR : d.rHalo + d.rExt + (d.solnVL - 1) ≤ d.rPad := by
    refine le_trans ?_ p2
    have := roundUp_ge (d.domain + max (d.rHalo + d.rExt + d.reqREpad) d.reqRPad) hs
    unfold DimG.newRPad0
    simp only
    split
    · omega
    · next hn =>
      have : ¬ 1 < d.solnVL := fun h => hn (hv h)
      omega
  omega

/-- C65: after a solution is prepared, let an area be in the domain of the rank with its wave-front extensions, extended by `wl` and `wr`.
All elements that are touched when an equation is evaluated on the area, with an access whose offsets are covered by the halos of the var
(less the extension of the area), are in the storage of the var. -/
theorem C65_in_storage {c c' : RunCfg} {ep mp : Nat → Int} {force : Bool} {ks ks' : List (KVar V)} (hk : ∀ k ∈ ks, k.Ok c)
    (h : updateVarInfo c ep mp force ks = some (c', ks')) {k : KVar V} (hm : k ∈ ks') (ho : k.orig = true)
    (hf : k.fixed = false ∨ (k.user = false ∧ force = true)) (hs : StepsAlloc k.v.g.api)
    {area : Nat → Ivl} {wl wr ofs : Nat → Int}
    (harea : ∀ j < c'.nd, c'.extBeg j - wl j ≤ (area j).1 ∧ (area j).2 ≤ c'.extEnd j + wr j)
    (hofs : ∀ j < c'.nd, ∀ p d, k.posn j = some p → k.v.g.dims[p]? = some d → wl j - ofs j ≤ d.lHalo ∧ wr j + ofs j ≤ d.rHalo)
    {idx : List Int} (ht : TouchesVar c' k area ofs idx) :
    InRangeButStep k.v.g.api idx ∧ ∃ a, k.v.g.addrOf idx = .ok a ∧ 0 ≤ a ∧ a < k.v.g.numReals := by
  obtain ⟨_, hall⟩ := updateVarInfo_spec hk h
  obtain ⟨h1, _, h3, h4, _⟩ := hall k hm
  have hset := h3 hf
  have hext := h4 ho
  have hr : InRangeButStep k.v.g.api idx := by
    unfold InRangeButStep
    rw [List.forall₂_iff_get]
    refine ⟨by simp [Geom.api, ht.len], fun p hp hp' => ?_⟩
    have hpd : p < k.v.g.dims.length := by rw [← ht.len]; exact hp
    have hd : k.v.g.dims[p]? = some k.v.g.dims[p] := List.getElem?_eq_getElem hpd
    generalize hdd : k.v.g.dims[p] = d at hd
    have hmem : d ∈ k.v.g.dims := List.mem_of_getElem? hd
    have hx : idx.get ⟨p, hp⟩ = idx.getD p 0 := by simp [List.getD_eq_getElem?_getD, List.getElem?_eq_getElem hp]
    have hapi : k.v.g.api.get ⟨p, hp'⟩ = ⟨d.kind == .step, d.firstLocal, d.lastLocal, d.alloc⟩ := by
      simp only [Geom.api, List.get_eq_getElem, List.getElem_map, hdd]
    rw [hapi, hx]
    simp only [beq_iff_eq]
    rcases hkd : d.kind with _ | _ | _
    · exact Or.inl rfl
    · refine Or.inr ?_
      obtain ⟨j, hj, hp⟩ := h1.all p d hd hkd
      obtain ⟨i, l, t1, t2, t3⟩ := ht.dom j hj p hp
      obtain ⟨d', hd', _, hsv⟩ := h1.valid j hj p hp
      rw [hd] at hd'
      cases hd'
      have e1 := hset.size j hj p d hp hd
      have e2 := hset.rankOfs j hj p d hp hd
      have e3 := hset.localOfs j hj p d hp hd
      have e4 := hext.left j hj p d hp hd
      have e5 := hext.right j hj p d hp hd
      have ha := harea j hj
      rw [← hsv] at t1 t2 t3
      rw [← e2] at t1 t3
      unfold RunCfg.extBeg RunCfg.extEnd RunCfg.rankEnd at ha
      rw [← e1, ← e2, ← e4, ← e5] at ha
      exact domain_in_range h1.reach.ok hmem hkd (h1.vlen d hmem) e3 ha (hofs j hj p d hp hd) t1 t2 t3
    · exact Or.inr (ht.misc p d hd hkd)
  exact ⟨hr, C14_address_in_storage k.v h1.reach hs idx hr⟩

/-- The extended domain of the rank as a box. -/
def RunCfg.extBox (c : RunCfg) : Box := (List.range c.nd).map fun j => (c.extBeg j, c.extEnd j)

/-- The micro-block loops use the folds and the offset of the rank. -/
structure SameDims (c : RunCfg) (ms : List MicroDim) : Prop where
  len : ms.length = c.nd
  fold : ∀ j (h : j < ms.length), ms[j].fold = (c.dim j).fold
  rofs : ∀ j (h : j < ms.length), ms[j].rofs = (c.dim j).rankBeg

/-- The index in dim `j` of lane `o` of vector `v`. -/
def laneAt (c : RunCfg) (v o : List Int) (j : Nat) : Int := (c.dim j).rankBeg + v.getD j 0 * (c.dim j).fold + o.getD j 0

/-- C65: the stencil code of a part runs on a micro-block, whatever the condition of the part and the micro-block are.  All elements that
it touches, in any lane of any vector, with accesses covered by the halos of the var, are in the storage of the var. -/
theorem C65_part_in_storage {c c' : RunCfg} {ep mp : Nat → Int} {force : Bool} {ks ks' : List (KVar V)} (hk : ∀ k ∈ ks, k.Ok c)
    (h : updateVarInfo c ep mp force ks = some (c', ks')) {k : KVar V} (hm : k ∈ ks') (ho : k.orig = true)
    (hf : k.fixed = false ∨ (k.user = false ∧ force = true)) (hs : StepsAlloc k.v.g.api)
    {f g : LoopFeat} {ms : List MicroDim} {bind : Option Binding} (hmi : MicroOk f g ms bind) (hms : SameDims c' ms) (fi : Bool)
    (cond : List Int → Bool) {nthreads maxPts : Int} (hn : 0 < nthreads) (hnd : 0 < c'.nd) (hord : ∀ r ∈ c'.extBox, r.1 ≤ r.2)
    {res : BB.PartBB} (hbb : BB.findBoundingBoxes (some cond) nthreads c'.extBox maxPts = some res)
    {mb : Box} (hmb : mb.length = c'.nd) {l : List (List Int)} (hl : microVecs f g fi ms bind res.list mb = some l)
    {v : List Int} (hv : v ∈ l) {o : List Int} (hlane : ∀ j < c'.nd, 0 ≤ o.getD j 0 ∧ o.getD j 0 < (c'.dim j).fold)
    {ofs : Nat → Int} (hofs : ∀ j < c'.nd, ∀ p d, k.posn j = some p → k.v.g.dims[p]? = some d → -d.lHalo ≤ ofs j ∧ ofs j ≤ d.rHalo)
    {idx : List Int} (hlen : idx.length = k.v.g.dims.length)
    (hdom : ∀ j < c'.nd, ∀ p, k.posn j = some p → idx.getD p 0 = laneAt c' v o j + ofs j)
    (hmisc : ∀ p d, k.v.g.dims[p]? = some d → d.kind = .misc → d.firstLocal ≤ idx.getD p 0 ∧ idx.getD p 0 ≤ d.lastLocal) :
    ∃ a, k.v.g.addrOf idx = .ok a ∧ 0 ≤ a ∧ a < k.v.g.numReals := by
  have hbl : c'.extBox.length = c'.nd := by simp [RunCfg.extBox]
  obtain ⟨res', b1, b2, b3⟩ := C10_rectangles_exact cond nthreads hn c'.extBox (by
    intro e; rw [e] at hbl; simp at hbl; omega) hord maxPts
  rw [hbb] at b1
  cases b1
  obtain ⟨l', m1, m2⟩ := C65_vectors hmi fi mb (by rw [hmb, hms.len]) res.list (fun bb hb => by rw [(b3 bb hb).1, hbl, hms.len])
  rw [hl] at m1
  cases m1
  obtain ⟨hvl, o', ho', bb, hbbm, _, hin⟩ := m2 v hv
  have hext : InBox (List.zipWith (fun (m : MicroDim) (x : Int × Int) => x.1 * m.fold + x.2 + m.rofs) ms (v.zip o')) c'.extBox := by
    have hc := b2 (List.zipWith (fun (m : MicroDim) (x : Int × Int) => x.1 * m.fold + x.2 + m.rofs) ms (v.zip o'))
    by_contra hne
    rw [if_neg (fun hh => hne hh.1)] at hc
    unfold boxVisits at hc
    rw [List.countP_eq_zero] at hc
    exact hc bb hbbm (by simpa using hin)
  refine (C65_in_storage hk h hm ho hf hs (area := fun j => (c'.extBeg j, c'.extEnd j)) (wl := fun _ => 0) (wr := fun _ => 0) (ofs := ofs)
    (fun j _ => by simp) (fun j hj p d hp hd => by have := hofs j hj p d hp hd; omega) ⟨hlen, ?_, hmisc⟩).2
  intro j hj p hp
  refine ⟨v.getD j 0, o.getD j 0, ?_, hlane j hj, hdom j hj p hp⟩
  have hol : o'.length = ms.length := by rw [ho'.length_eq, List.length_map]
  have hjm : j < ms.length := by rw [hms.len]; exact hj
  obtain ⟨_, hg⟩ := List.forall₂_iff_get.1 ho'
  have hj1 := hg j (by rw [hol]; exact hjm) (by rw [List.length_map]; exact hjm)
  obtain ⟨_, hg2⟩ := List.forall₂_iff_get.1 hext
  have hj2 := hg2 j (by simp [hvl, hol, hjm]) (by rw [hbl]; exact hj)
  simp only [List.get_eq_getElem, List.getElem_map, hms.fold j hjm] at hj1
  simp only [List.get_eq_getElem, List.getElem_zipWith, List.getElem_zip, RunCfg.extBox, List.getElem_map, List.getElem_range,
    hms.fold j hjm, hms.rofs j hjm] at hj2
  have e1 : v.getD j 0 = v[j]'(by rw [hvl]; exact hjm) := by
    rw [List.getD_eq_getElem?_getD, List.getElem?_eq_getElem (by rw [hvl]; exact hjm)]; rfl
  refine ⟨o'[j]'(by rw [hol]; exact hjm), hj1.1, hj1.2, ?_⟩
  rw [e1]
  obtain ⟨q1, q2⟩ := hj2
  constructor <;> simp only at q1 q2 ⊢ <;> linarith

/-- The var `k` of the kernel has the halos that the compiler computed for var `v` (`names`: domain dims; `dims`: those of the var). -/
def HasHalos (c : RunCfg) (S : Comp.HSys) (names : Nat → String) (dims : List String) (v : Nat) (k : KVar V) : Prop :=
  ∀ j < c.nd, ∀ p d, k.posn j = some p → k.v.g.dims[p]? = some d → names j ∈ dims ∧
    (S.calcHalos v).size (names j) true ≤ d.lHalo ∧ (S.calcHalos v).size (names j) false ≤ d.rHalo

/-- C65: the accesses of a non-scratch equation on the extended domain of the rank. -/
theorem C65_equation_in_storage {S : Comp.HSys} {scr : Nat → Bool} {dims : Nat → List String} (hS : Staged S scr dims) {e : Comp.PEq}
    (he : e ∈ allEqs S) (hsc : scr e.lhs.var = false) {q : Comp.Pt} (hq : q ∈ e.rhs) {names : Nat → String}
    {c c' : RunCfg} {ep mp : Nat → Int} {force : Bool} {ks ks' : List (KVar V)} (hk : ∀ k ∈ ks, k.Ok c)
    (h : updateVarInfo c ep mp force ks = some (c', ks')) {k : KVar V} (hm : k ∈ ks') (ho : k.orig = true)
    (hf : k.fixed = false ∨ (k.user = false ∧ force = true)) (hs : StepsAlloc k.v.g.api) (hh : HasHalos c' S names (dims q.var) q.var k)
    {area : Nat → Ivl} (harea : ∀ j < c'.nd, c'.extBeg j ≤ (area j).1 ∧ (area j).2 ≤ c'.extEnd j)
    {idx : List Int} (ht : TouchesVar c' k area (fun j => q.at (names j)) idx) :
    ∃ a, k.v.g.addrOf idx = .ok a ∧ 0 ≤ a ∧ a < k.v.g.numReals := by
  refine (C65_in_storage hk h hm ho hf hs (wl := fun _ => 0) (wr := fun _ => 0) (fun j hj => by have := harea j hj; omega) ?_ ht).2
  intro j hj p d hp hd
  obtain ⟨h1, h2, h3⟩ := hh j hj p d hp hd
  have := C46_needed hS (.direct he hsc hq) (names j) h1
  omega

/-- C65: the accesses of a scratch equation, which is evaluated on the extended domain of the rank and the write halo around it. Not
covered: scratch vars that are updated in two parts. -/
theorem C65_scratch_equation_in_storage_partial {S : Comp.HSys} {scr : Nat → Bool} {dims : Nat → List String} (hS : Staged S scr dims)
    (hO : OnePart S scr) {s : Comp.HStage} (hst : s ∈ S.stages) (hsc : s.scr = true) {P : List Comp.PEq} (hP : P ∈ s.parts)
    {st : Comp.HStage} (hst' : st ∈ S.stages) (hk' : st.scr = false) (hreq : s.id ∈ S.scrDeps st.id) {e : Comp.PEq} (he : e ∈ P)
    {q : Comp.Pt} (hq : q ∈ e.rhs) {names : Nat → String}
    {c c' : RunCfg} {ep mp : Nat → Int} {force : Bool} {ks ks' : List (KVar V)} (hk : ∀ k ∈ ks, k.Ok c)
    (h : updateVarInfo c ep mp force ks = some (c', ks')) {k : KVar V} (hm : k ∈ ks') (ho : k.orig = true)
    (hf : k.fixed = false ∨ (k.user = false ∧ force = true)) (hs : StepsAlloc k.v.g.api) (hh : HasHalos c' S names (dims q.var) q.var k)
    {area : Nat → Ivl} (harea : ∀ j < c'.nd, c'.extBeg j - Comp.writeHalo S.calcHalos P (names j) true ≤ (area j).1 ∧
      (area j).2 ≤ c'.extEnd j + Comp.writeHalo S.calcHalos P (names j) false)
    {idx : List Int} (ht : TouchesVar c' k area (fun j => q.at (names j)) idx) :
    ∃ a, k.v.g.addrOf idx = .ok a ∧ 0 ≤ a ∧ a < k.v.g.numReals := by
  refine (C65_in_storage hk h hm ho hf hs (wl := fun j => Comp.writeHalo S.calcHalos P (names j) true)
    (wr := fun j => Comp.writeHalo S.calcHalos P (names j) false) harea ?_ ht).2
  intro j hj p d hp hd
  obtain ⟨h1, h2, h3⟩ := hh j hj p d hp hd
  have := (C55_scratch_parts_partial hS hO hst hsc hP hst' hk' hreq).2 e he q hq (names j) h1
  omega

/-! ### A case

A middle rank of several in x and the only rank in y, wave-fronts of 2 steps of 2 stages, and `exVar` without storage, whose halo in x is
2: the angle is 4 and the extension 12. -/

/-- The configuration before `update_var_info`. -/
def exInfoCfg : RunCfg where
  nd := 2
  dim := fun j => if j = 0 then ⟨4, 0, 20, 16, 8, 8, 8, 3, false, false, 0, 0⟩ else ⟨2, 0, 0, 6, 6, 6, 6, 1, true, true, 0, 0⟩
  nst := 2
  megaSteps := 2
  blockSteps := 0
  roundTb := true
  overlap := false
  stageBB := fun _ _ => (0, 0)
  nparts := fun _ => 1
  dom := fun _ _ _ => true
  stepOk := fun _ _ _ => true

/-- The var. -/
def exInfoVar : KVar Int := ⟨{ exVar with mem := none }, fun j => if j = 0 then some 1 else if j = 1 then some 2 else none, false, false, true⟩

theorem exInfoVar_ok : exInfoVar.Ok exInfoCfg := by
  have e0 : ∀ j < 2, j = 0 ∨ j = 1 := by omega
  have ek : exVar.g.dims.map (fun d => (d.kind, d.solnVL)) = [(.step, 1), (.domain, 4), (.domain, 2), (.misc, 1)] := by decide +kernel
  have hd : ∀ (p : Nat) (d : DimG), exVar.g.dims[p]? = some d → [(DimKind.step, (1 : Int)), (.domain, 4), (.domain, 2), (.misc, 1)][p]? = some (d.kind, d.solnVL) := by
    intro p d h
    rw [← ek, List.getElem?_map, h]; rfl
  have hd' : ∀ (p : Nat) x, [(DimKind.step, (1 : Int)), (.domain, 4), (.domain, 2), (.misc, 1)][p]? = some x → ∃ d : DimG, exVar.g.dims[p]? = some d ∧ (d.kind, d.solnVL) = x := by
    intro p x h
    rw [← ek, List.getElem?_map] at h
    simpa using h
  refine ⟨Reachable.storage _ _ exVar_reachable, ?_, ?_, ?_, ?_⟩
  · intro i hi j hj p h1 h2
    rcases e0 i hi with rfl | rfl <;> rcases e0 j hj with rfl | rfl <;> simp [exInfoVar] at h1 h2 ⊢ <;> omega
  · intro j hj p h
    rcases e0 j hj with rfl | rfl <;> simp only [exInfoVar, if_true, if_false, Option.some.injEq, one_ne_zero] at h <;> subst h
    · obtain ⟨d, h1, h2⟩ := hd' 1 _ rfl
      exact ⟨d, h1, congrArg Prod.fst h2, congrArg Prod.snd h2⟩
    · obtain ⟨d, h1, h2⟩ := hd' 2 _ rfl
      exact ⟨d, h1, congrArg Prod.fst h2, congrArg Prod.snd h2⟩
  · intro p d h hk
    have := hd p d h
    rcases p with _ | _ | _ | _ | p
    · simp [hk] at this
    · exact ⟨0, by decide, rfl⟩
    · exact ⟨1, by decide, rfl⟩
    · simp [hk] at this
    · simp at this
  · intro d _ _
    show exVar.g.vlenGt1 = true
    decide +kernel

/-- `update_var_info` succeeds; angle, extensions, area and API ranges afterwards. -/
theorem exInfo_result : (updateVarInfo exInfoCfg (fun _ => 0) (fun _ => 1) false [exInfoVar]).map
    (fun r => ((r.1.dim 0).maxHalo, r.1.wfAngle 0, r.1.extBox, r.2.map fun k => k.v.g.api)) =
    some (2, 4, [(8, 48), (0, 6)], [[⟨true, 0, 2, 3⟩, ⟨false, 0, 55, 56⟩, ⟨false, -6, 11, 18⟩, ⟨false, -1, 0, 2⟩]]) := by decide +kernel

/-- Loops over a micro-block. -/
def exInfoMicro : List MicroDim := [⟨4, 8, 4, 0, 8, 4, 4, 20⟩, ⟨2, 6, 2, 0, 6, 2, 2, 0⟩]

/-- Vectors of a micro-block that crosses the area of a part, whose condition holds on a part of the extended domain. -/
theorem exInfo_vecs : ((BB.findBoundingBoxes (some fun p => decide (p.getD 0 0 < 30)) 2 [(8, 48), (0, 6)] 240).bind fun r =>
    microVecs {} {} true exInfoMicro none r.list [(5, 18), (1, 6)]) =
    some [[-3, 1], [-3, 2], [-2, 1], [-2, 2], [-3, 0], [-2, 0], [-1, 1], [-1, 2], [-1, 0]] := by decide +kernel

theorem exInfoMicro_ok : MicroOk {} {} exInfoMicro none where
  dims := by
    intro m hm
    simp only [exInfoMicro, List.mem_cons, List.not_mem_nil, or_false] at hm
    rcases hm with rfl | rfl <;> constructor <;> decide
  nd := by decide
  pts := by decide
  featF := Option.isSome_iff_exists.1 (by decide)
  featG := Option.isSome_iff_exists.1 (by decide)
  bind := by intro b h; simp at h

set_option synthInstance.maxSize 2000 in
-- Lane (3, 0) of vector (-1, 2) is outside of the micro-block, at (19, 4), and reads at (21, 4): the hypotheses of
-- `C65_part_in_storage` hold and the element is in the storage.
example : ∃ c' ks', updateVarInfo exInfoCfg (fun _ => 0) (fun _ => 1) false [exInfoVar] = some (c', ks') ∧
    ∃ k ∈ ks', ∃ a, k.v.g.addrOf [7, 21, 4, -1] = .ok a ∧ 0 ≤ a ∧ a < k.v.g.numReals := by
  have h := exInfo_result
  obtain ⟨r, hr⟩ : ∃ r, updateVarInfo exInfoCfg (fun _ => 0) (fun _ => 1) false [exInfoVar] = some r := by
    cases e : updateVarInfo exInfoCfg (fun _ => 0) (fun _ => 1) false [exInfoVar] with
    | none => rw [e] at h; simp at h
    | some r => exact ⟨r, rfl⟩
  have h2 : (updateVarInfo exInfoCfg (fun _ => 0) (fun _ => 1) false [exInfoVar]).map (fun r => (r.1.nd, [(r.1.dim 0).fold, (r.1.dim 1).fold,
      (r.1.dim 0).rankBeg, (r.1.dim 1).rankBeg], r.2.map fun k => ([k.orig, k.fixed], [k.posn 0, k.posn 1]))) =
      some (2, [4, 2, 20, 0], [([true, false], [some 1, some 2])]) := by decide +kernel
  have h3 : (updateVarInfo exInfoCfg (fun _ => 0) (fun _ => 1) false [exInfoVar]).map (fun r =>
      r.2.map fun k => k.v.g.dims.map fun d => (d.kind, d.lHalo, d.rHalo, d.firstLocal, d.lastLocal)) =
      some [[(.step, 0, 0, 0, 2), (.domain, 2, 2, 0, 55), (.domain, 0, 0, -6, 11), (.misc, 0, 0, -1, 0)]] := by decide +kernel
  refine ⟨r.1, r.2, hr, ?_⟩
  rw [hr] at h h2 h3
  obtain ⟨c', ks'⟩ := r
  simp only [Option.map_some, Option.some.injEq, Prod.mk.injEq, List.cons.injEq] at h h2 h3
  obtain ⟨_, _, hbox, hapi⟩ := h
  obtain ⟨hnd, ⟨hf0, hf1, hr0, hr1, _⟩, hks⟩ := h2
  match ks', hks with
  | [k], hks =>
    simp only [List.map_cons, List.map_nil, List.cons.injEq, Prod.mk.injEq, and_true] at hks hapi h3
    obtain ⟨⟨ho, hfx⟩, hp0, hp1⟩ := hks
    have hdd := h3
    refine ⟨k, by simp, ?_⟩
    have e0 : ∀ j < 2, j = 0 ∨ j = 1 := by omega
    have hd : ∀ (p : Nat) (d : DimG), k.v.g.dims[p]? = some d → [(DimKind.step, (0 : Int), (0 : Int), (0 : Int), (2 : Int)), (.domain, 2, 2, 0, 55), (.domain, 0, 0, -6, 11), (.misc, 0, 0, -1, 0)][p]? =
        some (d.kind, d.lHalo, d.rHalo, d.firstLocal, d.lastLocal) := by
      intro p d h
      rw [← hdd, List.getElem?_map, h]; rfl
    have hlen : k.v.g.dims.length = 4 := by simpa using congrArg List.length hdd
    obtain ⟨res, hres⟩ : ∃ res, BB.findBoundingBoxes (some fun p => decide (p.getD 0 0 < 30)) 2 [(8, 48), (0, 6)] 240 = some res :=
      Option.isSome_iff_exists.1 (by decide +kernel)
    have hv := exInfo_vecs
    rw [hres, Option.bind_some] at hv
    refine C65_part_in_storage (c := exInfoCfg) (fun k hk => by rw [List.mem_singleton.1 hk]; exact exInfoVar_ok) hr (by simp) ho
      (Or.inl hfx) ?_ exInfoMicro_ok ⟨by rw [hnd]; rfl, ?_, ?_⟩ true (fun p => decide (p.getD 0 0 < 30)) (nthreads := 2) (maxPts := 240)
      (by decide) (by rw [hnd]; decide) (by rw [hbox]; decide) (by rw [hbox]; exact hres) (mb := [(5, 18), (1, 6)]) (by rw [hnd]; rfl)
      hv (v := [-1, 2]) (by decide) (o := [3, 0]) ?_ (ofs := fun j => if j = 0 then 2 else 0) ?_ (by rw [hlen]; rfl) ?_ ?_
    · rw [hapi]; unfold StepsAlloc; decide
    · intro j hj
      rcases e0 j hj with rfl | rfl
      · exact hf0.symm
      · exact hf1.symm
    · intro j hj
      rcases e0 j hj with rfl | rfl
      · exact hr0.symm
      · exact hr1.symm
    · intro j hj
      rw [hnd] at hj
      rcases e0 j hj with rfl | rfl
      · rw [hf0]; decide
      · rw [hf1]; decide
    · intro j hj p d hp h
      rw [hnd] at hj
      rcases e0 j hj with rfl | rfl
      · rw [hp0] at hp; cases hp
        have := hd _ _ h
        simp only [List.getElem?_cons_succ, List.getElem?_cons_zero, Option.some.injEq, Prod.mk.injEq] at this
        simp; omega
      · rw [hp1] at hp; cases hp
        have := hd _ _ h
        simp only [List.getElem?_cons_succ, List.getElem?_cons_zero, Option.some.injEq, Prod.mk.injEq] at this
        simp; omega
    · intro j hj p hp
      rw [hnd] at hj
      rcases e0 j hj with rfl | rfl
      · rw [hp0] at hp; cases hp
        unfold laneAt; rw [hf0, hr0]; decide
      · rw [hp1] at hp; cases hp
        unfold laneAt; rw [hf1, hr1]; decide
    · intro p d h hk
      have := hd _ _ h
      rcases p with _ | _ | _ | _ | p <;> simp [hk] at this
      simp; omega

end Yask
