import Verif.Var.ResizeModel
import Verif.Common.IdivLemmas

/-! Helper lemmas: the invariant kept by the setting calls. -/

namespace Yask.Var

theorem roundUp_ge (a : Int) {b : Int} (hb : 0 < b) : a ≤ roundUp a b ∧ b ∣ roundUp a b := by
  by_cases ha : 0 ≤ a
  · exact ⟨(roundUp_spec ha hb).1, (roundUp_spec ha hb).2.2⟩
  · refine ⟨?_, Dvd.intro_left _ rfl⟩
    unfold roundUp ceilDiv
    by_cases h : 0 ≤ a + b - 1
    · rw [tdiv_nonneg_eq h]
      have e1 := Int.mul_ediv_add_emod (a + b - 1) b
      have e2 := Int.emod_lt_of_pos (a + b - 1) hb
      rw [mul_comm]; omega
    · have e1 := Int.mul_tdiv_add_tmod (a + b - 1) b
      have e2 : Int.tmod (a + b - 1) b ≤ 0 := by
        have := Int.tmod_nonneg b (a := -(a + b - 1)) (by omega)
        rw [Int.neg_tmod] at this; omega
      rw [mul_comm]; omega

/-- What `resize` establishes for one dimension, and the other calls keep. -/
structure DimG.Ok (isVec : Bool) (d : DimG) : Prop where
  svl : 0 < d.solnVL
  vvl : d.varVL = if isVec then d.solnVL else 1
  nd_svl : d.kind ≠ .domain → d.solnVL = 1
  set_ok : d.settingsOk = true
  nd_halo : d.kind ≠ .domain → d.lHalo = 0 ∧ d.rHalo = 0 ∧ d.lExt = 0 ∧ d.rExt = 0 ∧ d.rankOfs = 0
  nd_pad : d.kind ≠ .domain → d.lPad = 0 ∧ d.rPad = 0 ∧ d.alloc = d.domain
  lpad : d.kind = .domain → d.lHalo + d.lExt + d.reqLEpad ≤ d.lPad ∧ d.reqLPad ≤ d.lPad
  rpad : d.kind = .domain → d.rHalo + d.rExt + d.reqREpad ≤ d.rPad ∧ d.reqRPad ≤ d.rPad
  alloc_eq : d.alloc = d.lPad + d.domain + d.rPad
  lpad_dvd : d.solnVL ∣ d.lPad
  alloc_dvd : d.solnVL ∣ d.alloc
  vlpad : d.vecLPad * d.varVL = d.lPad
  valloc : d.vecAlloc * d.varVL = d.alloc
  vlocal : d.kind = .domain → d.vecLocalOfs * d.varVL = d.localOfs

theorem DimG.Ok.vvl_pos {b : Bool} {d : DimG} (h : d.Ok b) : 0 < d.varVL := by
  rw [h.vvl]; split
  · exact h.svl
  · decide

theorem DimG.Ok.vvl_dvd {b : Bool} {d : DimG} (h : d.Ok b) : d.varVL ∣ d.solnVL := by
  rw [h.vvl]; split
  · exact Int.dvd_refl _
  · exact Int.one_dvd _

theorem settingsOk_iff (d : DimG) : d.settingsOk = true ↔
    0 ≤ d.lHalo ∧ 0 ≤ d.rHalo ∧ 0 ≤ d.lExt ∧ 0 ≤ d.rExt ∧ 0 ≤ d.reqLPad ∧ 0 ≤ d.reqRPad ∧
      0 ≤ d.reqLEpad ∧ 0 ≤ d.reqREpad := by
  simp [DimG.settingsOk, Bool.and_eq_true, and_assoc]

theorem newLPad_spec (v al : Bool) (d : DimG) (hs : 0 < d.solnVL)
    (hold : al = true → d.solnVL ∣ d.lPad) :
    d.lHalo + d.lExt + d.reqLEpad ≤ d.newLPad v al ∧ d.reqLPad ≤ d.newLPad v al ∧
      d.solnVL ∣ d.newLPad v al := by
  have h1 := roundUp_ge (max (d.lHalo + d.lExt + d.reqLEpad) d.reqLPad) hs
  have key : ∀ e : Int, roundUp (max (d.lHalo + d.lExt + d.reqLEpad) d.reqLPad) d.solnVL ≤ e →
      d.lHalo + d.lExt + d.reqLEpad ≤ e ∧ d.reqLPad ≤ e := by
    intro e he; constructor <;> omega
  have hd : d.solnVL ∣
      roundUp (max (d.lHalo + d.lExt + d.reqLEpad) d.reqLPad) d.solnVL + d.solnVL :=
    Int.dvd_add h1.2 (Int.dvd_refl _)
  unfold DimG.newLPad
  simp only
  cases v <;> cases al <;> simp only [Bool.false_eq_true, if_false, if_true]
  · exact ⟨(key _ (le_refl _)).1, (key _ (le_refl _)).2, h1.2⟩
  · refine ⟨(key _ (le_max_left _ _)).1, (key _ (le_max_left _ _)).2, ?_⟩
    rcases max_choice (roundUp (max (d.lHalo + d.lExt + d.reqLEpad) d.reqLPad) d.solnVL) d.lPad with h | h
      <;> rw [h]
    · exact h1.2
    · exact hold rfl
  · exact ⟨(key _ (by omega)).1, (key _ (by omega)).2, hd⟩
  · refine ⟨(key _ (by omega)).1, (key _ (by omega)).2, ?_⟩
    rcases max_choice (roundUp (max (d.lHalo + d.lExt + d.reqLEpad) d.reqLPad) d.solnVL + d.solnVL) d.lPad
      with h | h <;> rw [h]
    · exact hd
    · exact hold rfl

theorem newRPad0_spec (v : Bool) (d : DimG) (hs : 0 < d.solnVL) :
    d.rHalo + d.rExt + d.reqREpad ≤ d.newRPad0 v ∧ d.reqRPad ≤ d.newRPad0 v ∧
      d.solnVL ∣ d.domain + d.newRPad0 v := by
  have h1 := roundUp_ge (d.domain + max (d.rHalo + d.rExt + d.reqREpad) d.reqRPad) hs
  unfold DimG.newRPad0
  simp only
  split
  · refine ⟨by omega, by omega, ?_⟩
    have := Int.dvd_add h1.2 (Int.dvd_refl d.solnVL)
    have e : ∀ a : Int, d.domain + (a - d.domain + d.solnVL) = a + d.solnVL := by intro a; omega
    rw [e]; exact this
  · refine ⟨by omega, by omega, ?_⟩
    have e : ∀ a : Int, d.domain + (a - d.domain) = a := by intro a; omega
    rw [e]; exact h1.2

theorem newRPad_ge (v aa al : Bool) (d : DimG) (hs : 0 < d.solnVL) :
    d.newRPad0 v ≤ d.newRPad v aa al := by
  unfold DimG.newRPad
  simp only
  split <;> split <;> omega

theorem newRPad_dvd (v aa : Bool) (d : DimG) (hs : 0 < d.solnVL) :
    d.solnVL ∣ d.domain + d.newRPad v aa false := by
  have h := (newRPad0_spec v d hs).2.2
  unfold DimG.newRPad
  simp only [Bool.false_eq_true, if_false]
  split
  · rw [← add_assoc]; exact Int.dvd_add h (Int.dvd_refl _)
  · exact h

/-- What is known of a dimension when `resize` starts. -/
structure DimG.PreOk (isVec allocated : Bool) (d : DimG) : Prop where
  svl : 0 < d.solnVL
  vvl : d.varVL = if isVec then d.solnVL else 1
  nd_svl : d.kind ≠ .domain → d.solnVL = 1
  nd_halo : d.kind ≠ .domain → d.lHalo = 0 ∧ d.rHalo = 0 ∧ d.lExt = 0 ∧ d.rExt = 0 ∧ d.rankOfs = 0
  lpad_dvd : allocated = true → d.solnVL ∣ d.lPad
  alloc_dvd : allocated = true → d.solnVL ∣ d.alloc
  vlocal : d.kind = .domain → d.vecLocalOfs * d.varVL = d.localOfs

theorem DimG.Ok.pre {b : Bool} {d : DimG} (h : d.Ok b) (al : Bool) : d.PreOk b al :=
  ⟨h.svl, h.vvl, h.nd_svl, h.nd_halo, fun _ => h.lpad_dvd, fun _ => h.alloc_dvd, h.vlocal⟩

theorem tdiv_mul_of_dvd {a b : Int} (h : b ∣ a) : a.tdiv b * b = a := by
  rw [mul_comm]; exact Int.mul_tdiv_cancel' h

theorem resized_ok (b v aa al : Bool) (d : DimG) (hp : d.PreOk b al) (hset : d.settingsOk = true)
    (hal : al = true → d.alloc = (d.resized v aa al).alloc) : (d.resized v aa al).Ok b := by
  have hs := hp.svl
  have hvd : d.varVL ∣ d.solnVL := by
    rw [hp.vvl]; split
    · exact Int.dvd_refl _
    · exact Int.one_dvd _
  by_cases hk : d.kind = .domain
  · have hl := newLPad_spec v al d hs hp.lpad_dvd
    have hr0 := newRPad0_spec v d hs
    have hr := newRPad_ge v aa al d hs
    have hd : d.solnVL ∣ d.domain + (d.newLPad v al + d.newRPad v aa al) := by
      cases al with
      | false =>
        have := Int.dvd_add hl.2.2 (newRPad_dvd v aa d hs)
        have e : d.newLPad v false + (d.domain + d.newRPad v aa false) =
          d.domain + (d.newLPad v false + d.newRPad v aa false) := by omega
        rwa [e] at this
      | true =>
        have h1 := hal rfl
        have h2 := hp.alloc_dvd rfl
        simp only [DimG.resized, hk, if_true] at h1
        rwa [h1] at h2
    refine ⟨hs, hp.vvl, hp.nd_svl, hset, hp.nd_halo, fun h => absurd hk h, ?_, ?_, ?_, ?_, ?_, ?_, ?_,
      hp.vlocal⟩
    · intro _; simp only [DimG.resized, hk, if_true]; exact ⟨hl.1, hl.2.1⟩
    · intro _; simp only [DimG.resized, hk, if_true]; exact ⟨by omega, by omega⟩
    · simp only [DimG.resized, hk, if_true]; omega
    · simp only [DimG.resized, hk, if_true]; exact hl.2.2
    · simp only [DimG.resized, hk, if_true]; exact hd
    · simp only [DimG.resized, hk, if_true]; exact tdiv_mul_of_dvd (Int.dvd_trans hvd hl.2.2)
    · simp only [DimG.resized, hk, if_true]; exact tdiv_mul_of_dvd (Int.dvd_trans hvd hd)
  · obtain ⟨h1, h2, h3, h4, h5⟩ := hp.nd_halo hk
    have hsv := hp.nd_svl hk
    have hvv : d.varVL = 1 := by rw [hp.vvl, hsv]; simp
    refine ⟨hs, hp.vvl, hp.nd_svl, hset, hp.nd_halo, ?_, fun h => absurd h hk, fun h => absurd h hk,
      ?_, ?_, ?_, ?_, ?_, hp.vlocal⟩
    · intro _; simp [DimG.resized, hk, h1, h2, h3, h4]
    · simp [DimG.resized, hk, h1, h2, h3, h4]
    · simp [DimG.resized, hk, h1, h3]
    · simp [DimG.resized, hk, hsv]
    · simp [DimG.resized, hk, h1, h3, hvv]
    · simp [DimG.resized, hk, hvv]

/-- The invariant of a var's meta-data. -/
structure Geom.Ok (g : Geom) : Prop where
  dims : ∀ d ∈ g.dims, d.Ok g.isVec
  stepFirst : ∀ d ∈ g.dims.tail, d.kind ≠ .step
  layoutPerm : g.layout.Perm (List.range g.dims.length)
  foldNodup : g.foldPosns.Nodup
  foldLens : g.foldLens = g.foldPosns.map fun j => (g.dims.map DimG.varVL).getD j 0
  foldAll : g.isVec = true → ∀ j, j ∈ g.foldPosns ↔
    j < g.dims.length ∧ (g.dims.map DimG.varVL).getD j 0 ≠ 1
  foldNone : g.isVec = false → g.foldPosns = []
  dirty : g.numDirty = newDirty g.dims
  lfull : ∀ d ∈ g.dims, d.kind = .domain → d.newLPad g.vlenGt1 false ≤ d.lPad ∧ d.newRPad0 g.vlenGt1 ≤ d.rPad

/-- The same, without what `resize` establishes. -/
structure Geom.PreOk (g : Geom) (allocated : Bool) : Prop where
  dims : ∀ d ∈ g.dims, d.PreOk g.isVec allocated
  stepFirst : ∀ d ∈ g.dims.tail, d.kind ≠ .step
  layoutPerm : g.layout.Perm (List.range g.dims.length)
  foldNodup : g.foldPosns.Nodup
  foldLens : g.foldLens = g.foldPosns.map fun j => (g.dims.map DimG.varVL).getD j 0
  foldAll : g.isVec = true → ∀ j, j ∈ g.foldPosns ↔
    j < g.dims.length ∧ (g.dims.map DimG.varVL).getD j 0 ≠ 1
  foldNone : g.isVec = false → g.foldPosns = []

theorem map_varVL_initValid (ds : List DimG) :
    (initValidSteps ds).map DimG.varVL = ds.map DimG.varVL := by
  cases ds with
  | nil => rfl
  | cons d ds => simp only [initValidSteps, List.map_cons]; split <;> rfl

theorem length_initValid (ds : List DimG) : (initValidSteps ds).length = ds.length := by
  cases ds <;> rfl

theorem tail_initValid (ds : List DimG) : (initValidSteps ds).tail = ds.tail := by
  cases ds <;> rfl

theorem newDirty_congr {ds ds' : List DimG}
    (h : ds.map (fun d => (d.kind, d.alloc)) = ds'.map (fun d => (d.kind, d.alloc))) :
    newDirty ds = newDirty ds' := by
  have : ∀ (l l' : List DimG), l.map (fun d => (d.kind, d.alloc)) = l'.map (fun d => (d.kind, d.alloc)) →
      (l.find? (fun d => d.kind == .step)).map DimG.alloc =
        (l'.find? (fun d => d.kind == .step)).map DimG.alloc := by
    intro l
    induction l with
    | nil => intro l' h; cases l' <;> simp_all
    | cons a l ih =>
      intro l' h
      cases l' with
      | nil => simp at h
      | cons b l' =>
        simp only [List.map_cons, List.cons.injEq, Prod.mk.injEq] at h
        simp only [List.find?_cons, h.1.1]
        split
        · simp [h.1.2]
        · exact ih l' h.2
  have := this ds ds' h
  unfold newDirty
  cases h1 : ds.find? (fun d => d.kind == .step) <;>
    cases h2 : ds'.find? (fun d => d.kind == .step) <;> rw [h1, h2] at this <;> simp_all

theorem newDirty_initValid (ds : List DimG) : newDirty (initValidSteps ds) = newDirty ds := by
  apply newDirty_congr
  cases ds with
  | nil => rfl
  | cons d ds => simp only [initValidSteps, List.map_cons]; split <;> rfl

/-- Moving the first step does not touch anything else. -/
theorem DimG.Ok.withStepOfs {b : Bool} {d : DimG} (h : d.Ok b) (hk : d.kind = .step) (n : Int) :
    DimG.Ok b { d with localOfs := n } :=
  ⟨h.svl, h.vvl, h.nd_svl, h.set_ok, h.nd_halo, h.nd_pad, h.lpad, h.rpad, h.alloc_eq, h.lpad_dvd,
    h.alloc_dvd, h.vlpad, h.valloc, fun h' => by simp only at h'; rw [hk] at h'; cases h'⟩

theorem initValid_ok {b : Bool} {ds : List DimG} (h : ∀ d ∈ ds, DimG.Ok b d) :
    ∀ d ∈ initValidSteps ds, DimG.Ok b d := by
  cases ds with
  | nil => exact h
  | cons d ds =>
    intro x hx
    simp only [initValidSteps, List.mem_cons] at hx
    rcases hx with rfl | hx
    · split
      · next hk => exact (h d List.mem_cons_self).withStepOfs hk 0
      · exact h d List.mem_cons_self
    · exact h x (List.mem_cons_of_mem _ hx)

theorem resized_lfull (v aa al : Bool) (d : DimG) (hs : 0 < d.solnVL) (hk : (d.resized v aa al).kind = .domain) :
    (d.resized v aa al).newLPad v false ≤ (d.resized v aa al).lPad ∧
      (d.resized v aa al).newRPad0 v ≤ (d.resized v aa al).rPad := by
  have hk' : d.kind = .domain := hk
  have hs' : 0 < d.solnVL := hs
  have e : (d.resized v aa al).newLPad v false = d.newLPad v false := rfl
  have e2 : (d.resized v aa al).newRPad0 v = d.newRPad0 v := rfl
  rw [e, e2]
  simp only [DimG.resized, hk', if_true]
  constructor
  · cases al with
    | false => exact le_refl _
    | true =>
      unfold DimG.newLPad
      simp only [Bool.false_eq_true, if_false, if_true]
      exact le_max_left _ _
  · exact newRPad_ge _ _ _ _ hs'

theorem initValid_lfull {ds : List DimG} {v : Bool}
    (h : ∀ d ∈ ds, d.kind = .domain → d.newLPad v false ≤ d.lPad ∧ d.newRPad0 v ≤ d.rPad) :
    ∀ d ∈ initValidSteps ds, d.kind = .domain → d.newLPad v false ≤ d.lPad ∧ d.newRPad0 v ≤ d.rPad := by
  cases ds with
  | nil => exact h
  | cons d ds =>
    intro x hx
    simp only [initValidSteps, List.mem_cons] at hx
    rcases hx with rfl | hx
    · split
      · next hk => intro h'; simp only at h'; rw [hk] at h'; cases h'
      · exact h d List.mem_cons_self
    · exact h x (List.mem_cons_of_mem _ hx)

theorem resize_ok {g g' : Geom} {al : Bool} (hp : g.PreOk al) (h : g.resize al = some g') : g'.Ok := by
  unfold Geom.resize at h
  split at h
  · cases h
  next hset =>
  simp only [Bool.not_eq_true', Bool.not_eq_false] at hset
  simp only at h
  split at h
  · cases h
  next hal =>
  have hall : al = true → ∀ d ∈ g.dims, d.alloc = (d.resized g.vlenGt1 g.allowAddlPad al).alloc := by
    intro ht d hd
    subst ht
    simp only [Bool.true_and, decide_eq_true_eq, ne_eq, not_not] at hal
    rw [List.map_map] at hal
    exact List.map_inj_left.1 hal d hd
  have hds : ∀ d ∈ g.dims.map (DimG.resized g.vlenGt1 g.allowAddlPad al), DimG.Ok g.isVec d := by
    intro d hd
    obtain ⟨d0, h0, rfl⟩ := List.mem_map.1 hd
    exact resized_ok _ _ _ _ _ (hp.dims d0 h0) (List.all_eq_true.1 hset d0 h0) fun ht => hall ht d0 h0
  have hlf : ∀ d ∈ g.dims.map (DimG.resized g.vlenGt1 g.allowAddlPad al), d.kind = .domain →
      d.newLPad g.vlenGt1 false ≤ d.lPad ∧ d.newRPad0 g.vlenGt1 ≤ d.rPad := by
    intro d hd
    obtain ⟨d0, h0, rfl⟩ := List.mem_map.1 hd
    exact resized_lfull _ _ _ _ (hp.dims d0 h0).svl
  have hvl : (g.dims.map (DimG.resized g.vlenGt1 g.allowAddlPad al)).map DimG.varVL =
      g.dims.map DimG.varVL := by
    rw [List.map_map]; rfl
  have hst : ∀ d ∈ (g.dims.map (DimG.resized g.vlenGt1 g.allowAddlPad al)).tail, d.kind ≠ .step := by
    intro d hd
    rw [← List.map_tail] at hd
    obtain ⟨d0, h0, rfl⟩ := List.mem_map.1 hd
    exact hp.stepFirst d0 h0
  split at h
  · cases h
    refine ⟨initValid_ok hds, ?_, ?_, hp.foldNodup, ?_, ?_, hp.foldNone, (newDirty_initValid _).symm,
      initValid_lfull hlf⟩
    · simp only [tail_initValid]; exact hst
    · simp only [length_initValid, List.length_map]; exact hp.layoutPerm
    · simp only [map_varVL_initValid, hvl]; exact hp.foldLens
    · simp only [map_varVL_initValid, hvl, length_initValid, List.length_map]; exact hp.foldAll
  · next hdirty =>
    cases h
    refine ⟨hds, hst, ?_, hp.foldNodup, ?_, ?_, hp.foldNone, not_not.1 hdirty, hlf⟩
    · simp only [List.length_map]; exact hp.layoutPerm
    · simp only [hvl]; exact hp.foldLens
    · simp only [hvl, List.length_map]; exact hp.foldAll

theorem constructed_pre {g : Geom} (h : g.Constructed) : g.PreOk false := by
  refine ⟨?_, h.stepFirst, h.layoutPerm, h.foldNodup, h.foldLens, h.foldAll, h.foldNone⟩
  intro d hd
  obtain ⟨k, sv, vv, inn, e⟩ := h.fresh d hd
  refine ⟨(h.vlPos d hd).1, h.vlVar d hd, h.vlDomain d hd, ?_, by simp, by simp, ?_⟩
  · intro _; subst e; simp
  · intro _; subst e; simp

theorem Geom.Ok.pre {g : Geom} (h : g.Ok) (al : Bool) : g.PreOk al :=
  ⟨fun d hd => (h.dims d hd).pre al, h.stepFirst, h.layoutPerm, h.foldNodup, h.foldLens, h.foldAll,
    h.foldNone⟩

/-- A change of fields that keeps the kind and the vector lengths. -/
theorem set_keeps {ds : List DimG} {posn : Nat} {d d' : DimG} (hd : ds[posn]? = some d)
    (hv : d'.varVL = d.varVL) (hk : d'.kind = d.kind) (hst : ∀ x ∈ ds.tail, x.kind ≠ .step) :
    (ds.set posn d').map DimG.varVL = ds.map DimG.varVL ∧
      ∀ x ∈ (ds.set posn d').tail, x.kind ≠ .step := by
  constructor
  · apply List.ext_getElem?
    intro i
    simp only [List.getElem?_map, List.getElem?_set]
    split
    · next hi =>
      subst hi
      split
      · simp [hd, hv]
      · next hlt => simp [List.getElem?_eq_none (not_lt.1 hlt)]
    · rfl
  · cases ds with
    | nil => simp
    | cons a ds =>
      cases posn with
      | zero => simpa using hst
      | succ p =>
        simp only [List.set_cons_succ, List.tail_cons] at hst ⊢
        intro x hx
        rcases List.mem_or_eq_of_mem_set hx with h | h
        · exact hst x h
        · subst h
          rw [hk]
          simp only [List.getElem?_cons_succ] at hd
          exact hst d (List.mem_of_getElem? hd)

theorem modify_kind (s : Setting) (n : Int) (d : DimG) :
    (s.modify n d).kind = d.kind ∧ (s.modify n d).varVL = d.varVL ∧ (s.modify n d).solnVL = d.solnVL ∧
      (s.modify n d).lPad = d.lPad ∧ (s.modify n d).rPad = d.rPad ∧
      (s.modify n d).alloc = d.alloc := by
  cases s <;> simp [Setting.modify]

theorem modify_pre (al b : Bool) (s : Setting) (n : Int) (d : DimG) (hok : d.Ok b)
    (ha : s.allowed n d = true) : (s.modify n d).PreOk b al := by
  obtain ⟨h1, h2, h3, h4, h5, h6⟩ := modify_kind s n d
  refine ⟨by rw [h3]; exact hok.svl, by rw [h2, h3]; exact hok.vvl, by rw [h1, h3]; exact hok.nd_svl, ?_,
    fun _ => by rw [h3, h4]; exact hok.lpad_dvd, fun _ => by rw [h3, h6]; exact hok.alloc_dvd, ?_⟩
  · rw [h1]; intro hk
    have := hok.nd_halo hk
    cases s <;> simp_all [Setting.modify, Setting.allowed]
  · rw [h1]; intro hk
    have hv := hok.vlocal hk
    cases s <;> simp_all [Setting.modify, Setting.allowed]
    rw [imodFlr_eq _ _ hok.vvl_pos] at ha
    exact tdiv_mul_of_dvd (Int.dvd_of_emod_eq_zero ha)

/-- The calls that do not resize keep the invariant. -/
theorem modify_ok (b : Bool) (s : Setting) (n : Int) (d : DimG) (hok : d.Ok b)
    (ha : s.allowed n d = true) (hr : s.needResize = false) : (s.modify n d).Ok b := by
  have hp := modify_pre false b s n d hok ha
  refine ⟨hp.svl, hp.vvl, hp.nd_svl, ?_, hp.nd_halo, ?_, ?_, ?_, ?_, ?_, ?_, ?_, ?_, hp.vlocal⟩
  all_goals cases s <;> simp_all [Setting.modify, Setting.needResize]
  all_goals first
    | exact hok.set_ok | exact hok.nd_pad | exact hok.lpad | exact hok.rpad | exact hok.alloc_eq
    | exact hok.lpad_dvd | exact hok.alloc_dvd | exact hok.vlpad | exact hok.valloc

theorem Geom.Ok.set {g : Geom} (h : g.Ok) {posn : Nat} {d d' : DimG} (hd : g.dims[posn]? = some d)
    (hv : d'.varVL = d.varVL) (hk : d'.kind = d.kind) (ha : d'.alloc = d.alloc) (hok : d'.Ok g.isVec)
    (hlf : d'.kind = .domain → d'.newLPad g.vlenGt1 false ≤ d'.lPad ∧ d'.newRPad0 g.vlenGt1 ≤ d'.rPad) :
    Geom.Ok { g with dims := g.dims.set posn d' } := by
  obtain ⟨e1, e2⟩ := set_keeps hd hv hk h.stepFirst
  refine ⟨?_, e2, ?_, h.foldNodup, ?_, ?_, h.foldNone, ?_, ?_⟩
  · intro x hx
    rcases List.mem_or_eq_of_mem_set hx with h' | h'
    · exact h.dims x h'
    · rw [h']; exact hok
  · simp only [List.length_set]; exact h.layoutPerm
  · simp only [e1]; exact h.foldLens
  · simp only [e1, List.length_set]; exact h.foldAll
  · rw [h.dirty]
    apply newDirty_congr
    simp only
    apply List.ext_getElem?
    intro i
    simp only [List.getElem?_map, List.getElem?_set]
    split
    · next hi =>
      subst hi
      split
      · simp [hd, hk, ha]
      · next hlt => simp [List.getElem?_eq_none (not_lt.1 hlt)]
    · rfl
  · intro x hx
    rcases List.mem_or_eq_of_mem_set hx with h' | h'
    · exact h.lfull x h'
    · rw [h']; exact hlf

theorem Geom.PreOk.set {g : Geom} {al : Bool} (h : g.PreOk al) {posn : Nat} {d d' : DimG}
    (hd : g.dims[posn]? = some d) (hv : d'.varVL = d.varVL) (hk : d'.kind = d.kind)
    (hok : d'.PreOk g.isVec al) : Geom.PreOk { g with dims := g.dims.set posn d' } al := by
  obtain ⟨e1, e2⟩ := set_keeps hd hv hk h.stepFirst
  refine ⟨?_, e2, ?_, h.foldNodup, ?_, ?_, h.foldNone⟩
  · intro x hx
    rcases List.mem_or_eq_of_mem_set hx with h' | h'
    · exact h.dims x h'
    · rw [h']; exact hok
  · simp only [List.length_set]; exact h.layoutPerm
  · simp only [e1]; exact h.foldLens
  · simp only [e1, List.length_set]; exact h.foldAll

variable {V : Type}

theorem callSetting_ok {v v' : YVar V} {posn : Nat} {s : Setting} {n : Int} (hv : v.g.Ok)
    (h : callSetting v posn s n = (v', false)) : v'.g.Ok := by
  unfold callSetting at h
  split at h
  · cases h
  next d hd =>
  have hmem := List.mem_of_getElem? hd
  have hok := hv.dims d hmem
  obtain ⟨k1, k2, _⟩ := modify_kind s n d
  split at h
  · cases h
  next ha =>
  simp only [Bool.not_eq_true', Bool.not_eq_false] at ha
  simp only at h
  split at h
  · split at h
    · next g2 hg2 =>
      cases h
      exact resize_ok ((hv.pre _).set hd k2 k1 (modify_pre _ _ s n d hok ha)) hg2
    · cases h
  · next hr =>
    cases h
    exact hv.set hd k2 k1 (modify_kind s n d).2.2.2.2.2 (modify_ok _ s n d hok ha (by simpa using hr))
      (by
        have := hv.lfull d hmem
        cases s <;> first
          | exact this
          | exact absurd rfl hr)

theorem updateValidStep_ok {g : Geom} (h : g.Ok) (t : Int) : (g.updateValidStep t).Ok := by
  unfold Geom.updateValidStep
  split
  · next d ds hds =>
    have h0 : g.dims[0]? = some d := by rw [hds]; rfl
    have hd := h.dims d (List.mem_of_getElem? h0)
    split
    · next hk =>
      split
      · have := h.set h0 (d' := { d with localOfs := t }) rfl rfl rfl (hd.withStepOfs hk _)
          (fun h' => by simp only at h'; rw [hk] at h'; cases h')
        simpa [hds] using this
      · split
        · have := h.set h0 (d' := { d with localOfs := t - d.domain + 1 }) rfl rfl rfl (hd.withStepOfs hk _)
            (fun h' => by simp only at h'; rw [hk] at h'; cases h')
          simpa [hds] using this
        · exact h
    · exact h
  · exact h

theorem Reachable.ok {v : YVar V} (h : Reachable v) : v.g.Ok := by
  induction h with
  | construct g g' hc hr => exact resize_ok (constructed_pre hc) hr
  | setting v v' posn s n _ hs ih => exact callSetting_ok ih hs
  | storage v m _ ih => exact ih
  | validStep v t _ ih => exact updateValidStep_ok ih t

end Yask.Var
