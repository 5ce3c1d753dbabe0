import Verif.Mpi.WholeModel
import Verif.Mpi.SrcNetLemmas
import Verif.Compiler.MergeLemmas
import Verif.Compiler.MiscHistLemmas
import Verif.Compiler.LaneLemmas
import Verif.Props.Misc

/-! Helper lemmas: the generated code and the vars of the kernel are as C87 needs them. -/

namespace Yask
open Spec Mpi Var Nano Comp Spec.Cpp

section
variable {α β V : Type} (A : Arith V) (f : α → β) (rd : β → V)

mutual
theorem value_map : ∀ e : Ex α, (e.map f).value A rd = e.value A fun q => rd (f q)
  | .const _ _ => rfl
  | .read _ _ => rfl
  | .neg _ a => by simp only [Ex.map, Ex.value, value_map a]
  | .bin _ _ l r => by simp only [Ex.map, Ex.value, value_map l, value_map r]
  | .comm _ _ [] => rfl
  | .comm _ op (a :: as) => by simp only [Ex.map, Ex.mapAll, Ex.value, value_map a, foldValue_map op as]
  | .func _ _ _ as => by simp only [Ex.map, Ex.value, values_map as]
theorem foldValue_map (op : Op) : ∀ (as : List (Ex α)) (v : V), Ex.foldValue A rd op v (Ex.mapAll f as) = Ex.foldValue A (fun q => rd (f q)) op v as
  | [], _ => rfl
  | a :: as, v => by simp only [Ex.mapAll, Ex.foldValue, value_map a, foldValue_map op as]
theorem values_map : ∀ as : List (Ex α), Ex.values A rd (Ex.mapAll f as) = Ex.values A (fun q => rd (f q)) as
  | [] => rfl
  | a :: as => by simp only [Ex.mapAll, Ex.values, value_map a, values_map as]
end

mutual
theorem points_map : ∀ e : Ex α, (e.map f).points = e.points.map f
  | .const _ _ => rfl
  | .read _ _ => rfl
  | .neg _ a => by simp only [Ex.map, Ex.points, points_map a]
  | .bin _ _ l r => by simp only [Ex.map, Ex.points, points_map l, points_map r, List.map_append]
  | .comm _ _ as => by simp only [Ex.map, Ex.points, pointsAll_map as]
  | .func _ _ _ as => by simp only [Ex.map, Ex.points, pointsAll_map as]
theorem pointsAll_map : ∀ as : List (Ex α), Ex.pointsAll (Ex.mapAll f as) = (Ex.pointsAll as).map f
  | [] => rfl
  | a :: as => by simp only [Ex.mapAll, Ex.pointsAll, points_map a, pointsAll_map as, List.map_append]
end
end

section
variable {π V : Type} [Inhabited V] {D : CDims} {dir : ℤ} {es : List (XEq π)} {A : Arith V}

/-- Values of expressions, and of functions of the values read. -/
theorem evolves_seq {inDom : List ℤ → Prop} {sz : EqVar → Nat} {first : ℤ} {n : Nat} {W : SrcHistory V} :
    XEvolves D dir es A inDom sz first n W ↔ SrcEvolves D dir (es.map (XEq.seq A)) inDom sz first n W := by
  classical
  constructor
  · intro h
    refine ⟨fun i hi e' he' x hx a as ha has => ?_, fun i hi v k a h1 h2 h3 h4 h5 => h.keep i hi v k a h1 h2 h3 h4 fun ⟨e, he, g⟩ =>
      h5 ⟨e.seq A, List.mem_map_of_mem he, g⟩⟩
    obtain ⟨e, he, rfl⟩ := List.mem_map.1 he'
    have has : List.Forall₂ (fun q b => IndexVals D (first + dir * i) x q.2 b) e.rhs.points as := has
    have hat : ∀ q ∈ e.rhs.points, ∃ (hl : e.rhs.points.idxOf q < as.length), IndexVals D (first + dir * i) x q.2 as[e.rhs.points.idxOf q] := by
      intro q hq
      have h1 := List.idxOf_lt_length_of_mem hq
      have h2 : e.rhs.points.idxOf q < as.length := by rw [← has.length_eq]; exact h1
      refine ⟨h2, ?_⟩
      have := (List.forall₂_iff_get.1 has).2 _ h1 h2
      simpa using this
    rw [show W (e.seq A).src.lhs.1 a = W e.lhs.1 a from rfl, h.eq i hi e he x hx a (fun q => as.getD (e.rhs.points.idxOf q) []) ha fun q hq => by
      obtain ⟨hl, g⟩ := hat q hq
      rw [List.getD_eq_getElem?_getD, List.getElem?_eq_getElem hl]
      exact g]
    show _ = e.rhs.value A _
    refine value_congr A _ _ _ fun q hq => ?_
    obtain ⟨hl, _⟩ := hat q hq
    show _ = (List.zipWith (fun q b => W q.1 b) e.rhs.points as).getD _ default
    rw [List.getD_eq_getElem?_getD, List.getD_eq_getElem?_getD, List.getElem?_zipWith, List.getElem?_eq_getElem hl,
      List.getElem?_eq_getElem (List.idxOf_lt_length_of_mem hq), List.getElem_idxOf]
    rfl
  · intro h
    refine ⟨fun i hi e he x hx a ix ha hix => ?_, fun i hi v k a h1 h2 h3 h4 h5 => h.keep i hi v k a h1 h2 h3 h4 fun ⟨e', he', g⟩ => ?_⟩
    · have hall : List.Forall₂ (fun q b => IndexVals D (first + dir * i) x q.2 b) e.rhs.points (e.rhs.points.map ix) := by
        rw [List.forall₂_map_right_iff]
        exact List.forall₂_same.2 hix
      refine (h.eq i hi (e.seq A) (List.mem_map_of_mem he) x hx a _ ha hall).trans ?_
      show e.rhs.value A _ = _
      refine value_congr A _ _ _ fun q hq => ?_
      show (List.zipWith (fun q b => W q.1 b) e.rhs.points (e.rhs.points.map ix)).getD _ default = _
      rw [List.getD_eq_getElem?_getD, List.getElem?_zipWith, List.getElem?_map,
        List.getElem?_eq_getElem (List.idxOf_lt_length_of_mem hq), List.getElem_idxOf]
      rfl
    · obtain ⟨e, he, rfl⟩ := List.mem_map.1 he'
      exact h5 ⟨e, he, g⟩

end

section
variable {π V : Type} [DecidableEq π] {D : CDims} {dir : ℤ} {es : List (SEq π V)} {cs : List (CEq π)}

/-- The points that are made of the accesses. -/
theorem checkEqs_points (h : checkEqs D (es.map SEq.src) = .ok (dir, cs)) {m : Nat} {e : SEq π V} {c : CEq π} (he : es[m]? = some e)
    (hc : cs[m]? = some c) : newPoint e.src.lhs.1 e.src.lhs.2 = .ok c.lhs ∧ List.Forall₂ (fun q p => newPoint q.1 q.2 = .ok p) e.src.rhs c.rhs := by
  have hnew : mapAll newEq (es.map SEq.src) = .ok cs := by
    unfold checkEqs at h
    cases h1 : mapAll newEq (es.map SEq.src) with
    | throws => rw [h1] at h; cases h
    | undefined => rw [h1] at h; cases h
    | ok cs' =>
      rw [h1] at h
      simp only [Outcome.bind_ok] at h
      cases h2 : cs'.foldlM (checkEq D) (0 : ℤ) with
      | throws => rw [h2] at h; cases h
      | undefined => rw [h2] at h; cases h
      | ok d => rw [h2] at h; cases h; rfl
  have h1 := mapAll_ok _ _ _ hnew
  obtain ⟨i1, i2⟩ := List.getElem?_eq_some_iff.1 he
  obtain ⟨j1, j2⟩ := List.getElem?_eq_some_iff.1 hc
  have h2 := (List.forall₂_iff_get.1 h1).2 m (by simpa using i1) j1
  simp only [List.get_eq_getElem, List.getElem_map, i2, j2] at h2
  exact newEq_ok h2

variable {X : CodeNet} {kv : EqVar → Nat}

omit [DecidableEq π] in
theorem slices_at {v : Nat} {k : EqVar × List ℤ} (h : (srcVars cs)[v]? = some k) :
    (srcSlices X kv cs).var v = kv k.1 ∧ (srcSlices X kv cs).misc v = k.2 := by
  unfold srcSlices
  simp only [h, and_self]

/-- What the analyzed solution accesses is what the code generator uses. -/
theorem point_lpt {q : EqVar × List (NExpr π)} {p : CPt π} (hp : p ∈ eqPts cs) (h : PtOk D q p) {r : Nat}
    (hn : X.names (kv q.1) = q.1.dims.map Prod.fst) (hk : (X.geo r (kv q.1)).dims.map DimG.kind = q.1.dims.map fun d => kindOf d.2)
    (hns : D.step ∉ D.domain) : (X.slices (srcSlices X kv cs) r).point (p.pt D cs) = p.lpt kv := by
  have hv := pt_var (D := D) hp
  obtain ⟨h1, h2⟩ := slices_at (X := X) (kv := kv) hv
  have hvar : p.var = q.1 := h.built.var
  have h1 : (srcSlices X kv cs).var (p.pt D cs).var = kv q.1 := h1.trans (congrArg kv hvar)
  have hgeo : (X.slices (srcSlices X kv cs) r).geo ((X.slices (srcSlices X kv cs) r).var (p.pt D cs).var) = X.geo r (kv q.1) := by
    show X.geo r ((srcSlices X kv cs).var _) = _
    rw [h1]
  have hlen : (X.geo r (kv q.1)).dims.length = q.1.dims.length := by simpa using congrArg List.length hk
  unfold Slices.point CPt.lpt
  rw [hgeo, hlen, hvar, show (X.slices (srcSlices X kv cs) r).var (p.pt D cs).var = kv q.1 from h1]
  congr 1
  refine List.ext_getElem? fun i => ?_
  by_cases hi : i < q.1.dims.length
  · rcases hdd : q.1.dims[i] with ⟨d, ty⟩
    have hj : q.1.dims[i]? = some (d, ty) := by rw [List.getElem?_eq_getElem hi, hdd]
    have hkind : (X.slices (srcSlices X kv cs) r).kind (p.pt D cs).var i = some (kindOf ty) := by
      unfold Slices.kind
      rw [hgeo, ← List.getElem?_map, hk, List.getElem?_map, hj]
      rfl
    have hname : (X.slices (srcSlices X kv cs) r).name (p.pt D cs).var i = d := by
      show (X.names ((srcSlices X kv cs).var _)).getD i "" = d
      rw [h1, hn, List.getD_eq_getElem?_getD, List.getElem?_map, hj]
      rfl
    rw [List.getElem?_map, List.getElem?_range hi, Option.map_some, List.getElem?_map, hj, Option.map_some, hkind, hname]
    congr 1
    rcases h.kinds _ (List.mem_of_getElem? hj) with g | g | g
    · obtain ⟨rfl, rfl⟩ : ty = .step ∧ d = D.step := g
      rfl
    · obtain ⟨rfl, gd, _⟩ : ty = .domain ∧ _ := g
      show (p.pt D cs).at d = _
      rw [pt_at cs p fun e => hns (e ▸ gd)]
      rfl
    · obtain ⟨rfl, _⟩ : ty = .misc ∧ _ := g
      show ((srcSlices X kv cs).misc _).getD i 0 = _
      rw [h2]
      unfold CPt.key
      simp only
      rw [List.getD_eq_getElem?_getD, List.getElem?_map, hvar, hj]
      rfl
  · rw [List.getElem?_eq_none (by simpa using hi), List.getElem?_eq_none (by simpa using hi)]

end

section
variable {π V : Type} [DecidableEq π] [Inhabited V] {D : CDims} {dir : ℤ} {es : List (XEq π)} {cs : List (CEq π)} {A : Arith V}
  {X : CodeNet} {kv : EqVar → Nat} {sz : EqVar → Nat} {shape : Nat → VarShape} {gs : EqVar → GenSizes} {fix : Bool}

omit [DecidableEq π] in
theorem seq_access {q : EqVar × List (NExpr π)} : Access (es.map (XEq.seq A)) q ↔ ∃ e ∈ es, q ∈ e.lhs :: e.rhs.points := by
  constructor
  · rintro ⟨e', he', hq⟩
    obtain ⟨e, he, rfl⟩ := List.mem_map.1 he'
    exact ⟨e, he, hq⟩
  · rintro ⟨e, he, hq⟩
    exact ⟨_, List.mem_map_of_mem he, hq⟩

theorem key_used (hes : List.Forall₂ (EqOk D dir) ((es.map (XEq.seq A)).map SEq.src) cs) {v : Nat} {k : EqVar × List ℤ}
    (h : (srcVars cs)[v]? = some k) : UsedVar es k.1 ∧ Kinds D k.1 ∧ DimNames k.1 := by
  obtain ⟨q, p, hq, _, rfl, hok⟩ := key_access hes h
  obtain ⟨e, he, hqe⟩ := seq_access.1 hq
  have hv : p.key.1 = q.1 := hok.built.var
  exact ⟨⟨e, he, q, hqe, hv.symm⟩, hv ▸ hok.kinds, hv ▸ hok.names⟩

theorem used_key (hes : List.Forall₂ (EqOk D dir) ((es.map (XEq.seq A)).map SEq.src) cs) {w : EqVar} (h : UsedVar es w) :
    ∃ (v : Nat) (k : EqVar × List ℤ), (srcVars cs)[v]? = some k ∧ k.1 = w := by
  obtain ⟨e, he, q, hq, rfl⟩ := h
  obtain ⟨p, hp, hok⟩ := access_pt hes (seq_access.2 ⟨e, he, hq⟩)
  exact ⟨_, _, pt_var (D := D) hp, hok.built.var⟩

variable {L : List (List (List (Fin (srcSoln D dir (es.map (XEq.seq A)) cs).eqs.length)))} {H : HSys}

omit [Inhabited V] in
theorem Made.kinds {L : List (List (List Nat))} (hM : Made X D dir es cs kv L H sz shape A gs fix) {r : Nat} (hr : r < X.P.n) {w : EqVar}
    (hw : UsedVar es w) : (X.geo r (kv w)).dims.map DimG.kind = w.dims.map fun d => kindOf d.2 := by
  obtain ⟨yv, yv', h1, h2, h3⟩ := hM.made r hr w hw
  rw [← h3, hist_kinds h2]
  exact (generated_misc h1).1

theorem Made.varsIn (hes : List.Forall₂ (EqOk D dir) ((es.map (XEq.seq A)).map SEq.src) cs)
    (hM : Made X D dir es cs kv (natStages L) H sz shape A gs fix) : SrcVarsIn X (srcSlices X kv cs) kv cs sz (srcSz cs sz) where
  nv := rfl
  at_ v k h := by
    obtain ⟨h1, h2⟩ := slices_at (X := X) (kv := kv) h
    obtain ⟨h3, _⟩ := key_used hes h
    refine ⟨h1, h2, ?_, hM.names _ h3, fun r hr => hM.kinds hr h3⟩
    unfold srcSz
    rw [h]

theorem Made.kind_at (hes : List.Forall₂ (EqOk D dir) ((es.map (XEq.seq A)).map SEq.src) cs)
    (hM : Made X D dir es cs kv (natStages L) H sz shape A gs fix) {r : Nat} (hr : r < X.P.n) {v : Nat} {k : EqVar × List ℤ}
    (h : (srcVars cs)[v]? = some k) (i : Nat) : (X.slices (srcSlices X kv cs) r).kind v i = (k.1.dims[i]?).map fun d => kindOf d.2 := by
  have h1 := (slices_at (X := X) (kv := kv) h).1
  show ((X.geo r ((srcSlices X kv cs).var v)).dims[i]?).map _ = _
  rw [h1, ← List.getElem?_map, ← List.getElem?_map, ← hM.kinds hr (key_used hes h).1]

theorem Made.name_at (hes : List.Forall₂ (EqOk D dir) ((es.map (XEq.seq A)).map SEq.src) cs)
    (hM : Made X D dir es cs kv (natStages L) H sz shape A gs fix) {r : Nat} {v : Nat} {k : EqVar × List ℤ}
    (h : (srcVars cs)[v]? = some k) {i : Nat} {d : String} {ty : IndexType} (hi : k.1.dims[i]? = some (d, ty)) :
    (X.slices (srcSlices X kv cs) r).name v i = d := by
  have h1 := (slices_at (X := X) (kv := kv) h).1
  show (X.names ((srcSlices X kv cs).var v)).getD i "" = d
  rw [h1, hM.names _ (key_used hes h).1, List.getD_eq_getElem?_getD, List.getElem?_map, hi]
  rfl

omit [DecidableEq π] in
theorem kind_cases {w : EqVar} (hk : Kinds D w) {i : Nat} {c : DimKind} (h : (w.dims[i]?).map (fun d => kindOf d.2) = some c) :
    ∃ d, (c = .step ∧ w.dims[i]? = some (d, .step) ∧ d = D.step) ∨ (c = .domain ∧ w.dims[i]? = some (d, .domain) ∧ d ∈ D.domain) ∨
      (c = .misc ∧ w.dims[i]? = some (d, .misc)) := by
  cases hi : w.dims[i]? with
  | none => rw [hi] at h; cases h
  | some x =>
    obtain ⟨d, ty⟩ := x
    rw [hi] at h
    have h : kindOf ty = c := by simpa using h
    subst h
    refine ⟨d, ?_⟩
    rcases hk _ (List.mem_of_getElem? hi) with g | g | g
    · obtain ⟨rfl, rfl⟩ : ty = .step ∧ d = D.step := g
      exact .inl ⟨rfl, rfl, rfl⟩
    · obtain ⟨rfl, gd, _⟩ : ty = .domain ∧ _ := g
      exact .inr (.inl ⟨rfl, rfl, gd⟩)
    · obtain ⟨rfl, _⟩ : ty = .misc ∧ _ := g
      exact .inr (.inr ⟨rfl, rfl⟩)

omit [DecidableEq π] in
theorem lt_key {v : Nat} (h : v < (srcVars cs).length) : ∃ k, (srcVars cs)[v]? = some k := ⟨_, List.getElem?_eq_getElem h⟩

theorem natStages_getD {n : Nat} (L : List (List (List (Fin n)))) (st p : Nat) :
    ((natStages L).getD st []).getD p [] = ((L.getD st []).getD p []).map Fin.val := by
  unfold natStages
  simp only [List.getD_eq_getElem?_getD, List.getElem?_map]
  cases h : L[st]? with
  | none => simp
  | some s =>
    simp only [Option.map_some, Option.getD_some, List.getElem?_map]
    cases s[p]? <;> simp

theorem natStages_length {n : Nat} (L : List (List (List (Fin n)))) (st : Nat) :
    ((natStages L).getD st []).length = (L.getD st []).length := by
  unfold natStages
  simp only [List.getD_eq_getElem?_getD, List.getElem?_map]
  cases h : L[st]? <;> simp

/-- The equation of a number. -/
theorem soln_at (hes : List.Forall₂ (EqOk D dir) ((es.map (XEq.seq A)).map SEq.src) cs)
    (m : Fin (srcSoln D dir (es.map (XEq.seq A)) cs).eqs.length) : ∃ (e : XEq π) (c : CEq π), es[m.val]? = some e ∧ cs[m.val]? = some c ∧
      EqOk D dir (e.seq A).src c ∧ (srcSoln D dir (es.map (XEq.seq A)) cs).eqs[m] =
        ⟨c.lhs.pt D cs, c.rhs.map (CPt.pt D cs), fun x => decide (x.length = D.domain.length) && e.domIf x, e.stepIf, (e.seq A).f⟩ := by
  have h : (srcSoln D dir (es.map (XEq.seq A)) cs).eqs[m.val]? = some (srcSoln D dir (es.map (XEq.seq A)) cs).eqs[m] :=
    List.getElem?_eq_getElem m.isLt
  obtain ⟨e', c, h1, h2, h3⟩ := srcEqs_get.1 h
  have hE := eq_ok hes h1 h2
  rw [List.getElem?_map] at h1
  obtain ⟨e, h4, rfl⟩ := Option.map_eq_some_iff.1 h1
  exact ⟨e, c, h4, h2, hE, h3⟩

/-- The expression in the code of an equation. -/
theorem lptOf_new {q : EqVar × List (NExpr π)} {p : CPt π} (h : newPoint q.1 q.2 = .ok p) : lptOf kv q = p.lpt kv := by
  unfold lptOf
  rw [h]

theorem Made.point (hes : List.Forall₂ (EqOk D dir) ((es.map (XEq.seq A)).map SEq.src) cs) (hns : D.step ∉ D.domain)
    (hM : Made X D dir es cs kv (natStages L) H sz shape A gs fix) {r : Nat} (hr : r < X.P.n) {q : EqVar × List (NExpr π)} {p : CPt π}
    (hq : Access (es.map (XEq.seq A)) q) (hp : p ∈ eqPts cs) (hok : PtOk D q p) (hnew : newPoint q.1 q.2 = .ok p) :
    (X.slices (srcSlices X kv cs) r).point (p.pt D cs) = lptOf kv q := by
  obtain ⟨e, he, hqe⟩ := seq_access.1 hq
  have hu : UsedVar es q.1 := ⟨e, he, q, hqe, rfl⟩
  rw [lptOf_new hnew]
  exact point_lpt hp hok (hM.names _ hu) (hM.kinds hr hu) hns

theorem Made.codeOf (hes : List.Forall₂ (EqOk D dir) ((es.map (XEq.seq A)).map SEq.src) cs) (hns : D.step ∉ D.domain)
    (hck : checkEqs D ((es.map (XEq.seq A)).map SEq.src) = .ok (dir, cs))
    (hM : Made X D dir es cs kv (natStages L) H sz shape A gs fix) {r : Nat} (hr : r < X.P.n) :
    CodeOf (X.code r) (srcSoln D dir (es.map (XEq.seq A)) cs) L (X.slices (srcSlices X kv cs) r) (srcSz cs sz) A where
  dims := hM.dims r hr
  parts st p h := by
    rw [hM.nparts r hr, natStages_length] at h
    rw [hM.nst r hr]
    by_contra hge
    rw [List.getD_eq_getElem?_getD, List.getElem?_eq_none (by simpa [natStages] using hge)] at h
    cases h
  vars st p hp v hv := by
    obtain ⟨k, hk⟩ := lt_key hv
    have h1 : (X.slices (srcSlices X kv cs) r).var v = kv k.1 := (slices_at (X := X) (kv := kv) hk).1
    rw [h1]
    exact hM.vars r hr st p hp k.1 (key_used hes hk).1
  used e he p hp := by
    obtain ⟨i, e', c, h1, h2, rfl⟩ := srcEqs_mem he
    rcases List.mem_cons.1 hp with rfl | hp
    · exact (List.getElem?_eq_some_iff.1 (pt_var (D := D) (lhs_mem h2))).1
    · obtain ⟨b, hb, rfl⟩ := List.mem_map.1 hp
      exact (List.getElem?_eq_some_iff.1 (pt_var (D := D) (rhs_mem h2 hb))).1
  distinct v hv v' hv' hvar hmisc := by
    obtain ⟨k, hk⟩ := lt_key hv
    obtain ⟨k', hk'⟩ := lt_key hv'
    have h1 : kv k.1 = kv k'.1 :=
      ((slices_at (X := X) (kv := kv) hk).1.symm.trans hvar).trans (slices_at (X := X) (kv := kv) hk').1
    have h2 := hM.inj _ _ (key_used hes hk).1 (key_used hes hk').1 h1
    have m1 : (X.slices (srcSlices X kv cs) r).misc v = k.2 := (slices_at (X := X) (kv := kv) hk).2
    have m2 : (X.slices (srcSlices X kv cs) r).misc v' = k'.2 := (slices_at (X := X) (kv := kv) hk').2
    have h3 : k.2 = k'.2 := by
      obtain ⟨q, p, _, _, rfl, _⟩ := key_access hes hk
      obtain ⟨q', p', _, _, rfl, _⟩ := key_access hes hk'
      have h2 : p.var = p'.var := h2
      unfold CPt.key
      simp only
      rw [← h2]
      refine List.map_congr_left fun g hg => ?_
      by_cases hgm : g.2 = .misc
      · rw [if_pos hgm, if_pos hgm]
        obtain ⟨i, hi⟩ := List.mem_iff_getElem?.1 hg
        have h4 := hmisc i (by
          rw [hM.kind_at hes hr hk]
          show (p.var.dims[i]?).map _ = _
          rw [hi, Option.map_some, hgm]
          rfl)
        rw [m1, m2] at h4
        unfold CPt.key at h4
        simp only at h4
        rw [← h2, List.getD_eq_getElem?_getD, List.getD_eq_getElem?_getD, List.getElem?_map, List.getElem?_map, hi] at h4
        simpa [hgm] using h4
      · rw [if_neg hgm, if_neg hgm]
    have h4 : k = k' := Prod.ext h2 h3
    subst h4
    exact srcVars_inj hk hk'
  reach v hv := by
    obtain ⟨k, hk⟩ := lt_key hv
    have h1 : (X.slices (srcSlices X kv cs) r).var v = kv k.1 := (slices_at (X := X) (kv := kv) hk).1
    obtain ⟨yv, yv', g1, g2, g3⟩ := hM.made r hr _ (key_used hes hk).1
    refine ⟨yv', C77_reachable _ _ _ _ _ g1 _ _ g2, ?_⟩
    rw [h1]
    exact g3
  nameLen v hv := by
    obtain ⟨k, hk⟩ := lt_key hv
    have h1 : (X.slices (srcSlices X kv cs) r).var v = kv k.1 := (slices_at (X := X) (kv := kv) hk).1
    have hu := (key_used hes hk).1
    rw [h1]
    show (X.names (kv k.1)).length = (X.geo r (kv k.1)).dims.length
    rw [hM.names _ hu]
    have := congrArg List.length (hM.kinds hr hu)
    simpa using this.symm
  stepName v hv i hi := by
    obtain ⟨k, hk⟩ := lt_key hv
    rw [hM.kind_at hes hr hk] at hi
    obtain ⟨d, ⟨_, h2, h3⟩ | ⟨h2, _⟩ | ⟨h2, _⟩⟩ := kind_cases (key_used hes hk).2.1 hi
    · rw [hM.name_at hes hk h2, hM.step r hr, h3]
    · cases h2
    · cases h2
  domName v hv i hi := by
    obtain ⟨k, hk⟩ := lt_key hv
    rw [hM.kind_at hes hr hk] at hi
    obtain ⟨d, ⟨h2, _⟩ | ⟨_, h2, h3⟩ | ⟨h2, _⟩⟩ := kind_cases (key_used hes hk).2.1 hi
    · cases h2
    · rw [hM.name_at hes hk h2]
      exact h3
    · cases h2
  hasStep v hv := by
    obtain ⟨k, hk⟩ := lt_key hv
    rw [hasStep_src hk]
    constructor
    · intro h
      obtain ⟨i, hi⟩ := List.mem_iff_getElem?.1 h
      exact ⟨i, by rw [hM.kind_at hes hr hk, hi]; rfl⟩
    · rintro ⟨i, hi⟩
      rw [hM.kind_at hes hr hk] at hi
      obtain ⟨d, ⟨_, h2, h3⟩ | ⟨h2, _⟩ | ⟨h2, _⟩⟩ := kind_cases (key_used hes hk).2.1 hi
      · rw [← h3]; exact List.mem_of_getElem? h2
      · cases h2
      · cases h2
  alloc v hv := by
    obtain ⟨k, hk⟩ := lt_key hv
    have h1 : (X.slices (srcSlices X kv cs) r).var v = kv k.1 := (slices_at (X := X) (kv := kv) hk).1
    rw [h1, show srcSz cs sz v = sz k.1 by unfold srcSz; rw [hk]]
    exact hM.alloc r hr _ (key_used hes hk).1
  full e he d hd := by
    obtain ⟨i, e', c, h1, h2, rfl⟩ := srcEqs_mem he
    have hE := eq_ok hes h1 h2
    have hk := pt_var (D := D) (lhs_mem h2)
    have hv : c.lhs.key.1 = e'.src.lhs.1 := hE.lhs.built.var
    obtain ⟨⟨d', ty⟩, hm, rfl⟩ := List.mem_map.1 (hE.full d hd)
    obtain ⟨j, hj⟩ := List.mem_iff_getElem?.1 hm
    have hj' : c.lhs.key.1.dims[j]? = some (d', ty) := by rw [hv]; exact hj
    refine ⟨j, ?_, hM.name_at hes hk hj'⟩
    rw [hM.kind_at hes hr hk, hj']
    rcases hE.lhs.kinds _ hm with g | g | g
    · exact absurd (show d' ∈ D.domain from hd) (by rw [show d' = D.step from g.2]; exact hns)
    · rw [show ty = .domain from g.1]; rfl
    · exact absurd hd g.2.1
  eqs st p hp := by
    obtain ⟨ex, h1, h2⟩ := hM.eqs r hr st p hp
    rw [natStages_getD, List.map_map] at h1
    refine ⟨fun m => ex m.val, h1, fun m hm => ?_⟩
    obtain ⟨e, c, he, hc, hE, hU⟩ := soln_at hes m
    obtain ⟨g1, g2, g3⟩ := h2 m.val (by rw [natStages_getD]; exact List.mem_map_of_mem hm) e he
    rw [hU]
    have hse : (es.map (XEq.seq A))[m.val]? = some (e.seq A) := by rw [List.getElem?_map, he]; rfl
    have hmem := List.mem_of_getElem? he
    obtain ⟨n1, n2⟩ := checkEqs_points hck hse hc
    have n2 : List.Forall₂ (fun q p => newPoint q.1 q.2 = .ok p) e.rhs.points c.rhs := n2
    have hR : List.Forall₂ (PtOk D) e.rhs.points c.rhs := hE.rhs
    have hpt : ∀ (j : Nat) (hj : j < e.rhs.points.length) (hj' : j < c.rhs.length),
        (X.slices (srcSlices X kv cs) r).point (c.rhs[j].pt D cs) = lptOf kv e.rhs.points[j] := fun j hj hj' =>
      hM.point hes hns hr (seq_access.2 ⟨e, hmem, List.mem_cons_of_mem _ (List.getElem_mem hj)⟩) (rhs_mem hc (List.getElem_mem hj'))
        ((List.forall₂_iff_get.1 hR).2 j hj hj') ((List.forall₂_iff_get.1 n2).2 j hj hj')
    have hlen : e.rhs.points.length = c.rhs.length := hR.length_eq
    refine ⟨?_, fun q => ?_, fun t x rd => ?_⟩
    · rw [g1]
      exact (hM.point hes hns hr (seq_access.2 ⟨e, hmem, List.mem_cons_self⟩) (lhs_mem hc) hE.lhs n1).symm
    · rw [g2, points_map]
      simp only [List.mem_map]
      constructor
      · rintro ⟨a, ha, rfl⟩
        obtain ⟨j, hj, rfl⟩ := List.getElem_of_mem ha
        have hj' : j < c.rhs.length := by omega
        exact ⟨_, ⟨c.rhs[j], List.getElem_mem hj', rfl⟩, (hpt j hj hj').symm⟩
      · rintro ⟨b, ⟨b', hb', rfl⟩, rfl⟩
        obtain ⟨j, hj, rfl⟩ := List.getElem_of_mem hb'
        have hj' : j < e.rhs.points.length := by omega
        exact ⟨_, List.getElem_mem hj', (hpt j hj' hj).symm⟩
    · rw [g3, value_map]
      show _ = e.rhs.value A _
      refine value_congr A _ _ _ fun q hq => ?_
      classical
      have hj := List.idxOf_lt_length_of_mem hq
      have hj' : e.rhs.points.idxOf q < c.rhs.length := by omega
      rw [List.getD_eq_getElem?_getD, List.getElem?_map, List.getElem?_map, List.getElem?_eq_getElem (by convert hj')]
      have := hpt _ hj hj'
      rw [List.getElem_idxOf] at this
      simp only [Option.map_some, Option.getD_some]
      rw [← this]

theorem Made.miscStored (hes : List.Forall₂ (EqOk D dir) ((es.map (XEq.seq A)).map SEq.src) cs)
    (hp : Proper D ((es.map (XEq.seq A)).map SEq.src)) (hck : checkEqs D ((es.map (XEq.seq A)).map SEq.src) = .ok (dir, cs))
    (hM : Made X D dir es cs kv (natStages L) H sz shape A gs fix) : X.MiscStored (srcSlices X kv cs) := by
  intro r hr v hv i d hd hmisc
  obtain ⟨k, hk⟩ := lt_key hv
  obtain ⟨h1, h2⟩ := slices_at (X := X) (kv := kv) hk
  obtain ⟨hu, hkd, _⟩ := key_used hes hk
  rw [h1] at hd
  have hki := hM.kinds hr hu
  have h3 : (k.1.dims[i]?).map (fun d => kindOf d.2) = some .misc := by
    rw [← List.getElem?_map, ← hki, List.getElem?_map, hd, Option.map_some, hmisc]
  obtain ⟨n, ⟨h4, _⟩ | ⟨h4, _⟩ | ⟨_, h4⟩⟩ := kind_cases hkd h3
  · cases h4
  · cases h4
  obtain ⟨q, p, hq, hpm, rfl, hok⟩ := key_access hes hk
  have hvar : p.key.1 = q.1 := hok.built.var
  rw [hvar] at h4
  have hlt : i < q.2.length := by rw [← hok.built.len]; exact (List.getElem?_eq_some_iff.1 h4).1
  obtain ⟨yv, yv', g1, g2, g3⟩ := hM.made r hr _ hu
  obtain ⟨e', he', hqe⟩ := hq
  obtain ⟨kk, k1, f, k2, k3, k4⟩ := C77_misc_in_storage_partial D _ hp dir cs hck [] _ (fun _ => Iff.rfl) _ _ yv yv' g1 fix g2 i n
    (by rw [hvar]; exact h4) q.2[i] ⟨_, List.mem_map_of_mem he', q, List.mem_cons.1 hqe, hvar.symm, List.getElem?_eq_getElem hlt⟩
  rw [g3, hd] at k2
  cases k2
  obtain ⟨k', hk'⟩ := hok.means.2.2 ((n, .misc), q.2[i]) (mem_zip_iff.2 ⟨i, h4, by simp⟩)
  have hmk : n ∉ D.domain ∧ n ≠ D.step := by
    rcases hok.kinds _ (List.mem_of_getElem? h4) with g | g | g
    · cases g.1
    · cases g.1
    · exact g.2
  simp only at hk'
  rw [if_neg (by rintro (g | g); exacts [hmk.2 g, hmk.1 g])] at hk'
  have : ((srcSlices X kv cs).misc v).getD i 0 = kk := by
    rw [h2, denotes_const k1 hk'.1]
    unfold CPt.key
    simp only
    rw [List.getD_eq_getElem?_getD, List.getElem?_map, hok.built.var, h4]
    simp [hk'.2]
  rw [this]
  exact ⟨k3, k4⟩

theorem Made.fits (hes : List.Forall₂ (EqOk D dir) ((es.map (XEq.seq A)).map SEq.src) cs) (h0 : 0 < X.P.n)
    (hM : Made X D dir es cs kv (natStages L) H sz shape A gs fix) :
    X.Fits (srcSoln D dir (es.map (XEq.seq A)) cs) L (srcSlices X kv cs) (srcSz cs sz) shape where
  cfg := hM.cfg
  var v hv := by
    obtain ⟨k, hk⟩ := lt_key hv
    rw [(slices_at (X := X) (kv := kv) hk).1]
    exact hM.num _ (key_used hes hk).1
  onto k hk := by
    obtain ⟨w, hw, rfl⟩ := hM.onto k hk
    obtain ⟨v, k, h1, rfl⟩ := used_key hes hw
    exact ⟨v, (List.getElem?_eq_some_iff.1 h1).1, (slices_at (X := X) (kv := kv) h1).1⟩
  kinds r hr k hk := by
    obtain ⟨w, hw, rfl⟩ := hM.onto k hk
    rw [hM.kinds hr hw, hM.kinds h0 hw]
  misc := hM.misc
  dom r hr k hk i d hd hdom := by
    obtain ⟨w, hw, rfl⟩ := hM.onto k hk
    obtain ⟨v, k, h1, rfl⟩ := used_key hes hw
    have h3 : (k.1.dims[i]?).map (fun d => kindOf d.2) = some .domain := by
      rw [← List.getElem?_map, ← hM.kinds hr hw, List.getElem?_map, hd, Option.map_some, hdom]
    obtain ⟨n, ⟨h4, _⟩ | ⟨_, h4, _⟩ | ⟨h4, _⟩⟩ := kind_cases (key_used hes h1).2.1 h3
    · cases h4
    · rw [hM.names _ hw, List.getD_eq_getElem?_getD, List.getElem?_map, h4]
      exact hM.dom r hr _ hw i n d h4 hd
    · cases h4
  used k hk j hj := by
    obtain ⟨w, hw, rfl⟩ := hM.onto k hk
    obtain ⟨v, k, h1, rfl⟩ := used_key hes hw
    have hkd := (key_used hes h1).2.1
    rw [hM.used _ hw j hj, decide_eq_true_iff]
    constructor
    · intro h
      obtain ⟨i, hi⟩ := List.mem_iff_getElem?.1 h
      have hg : ((X.geo 0 (kv k.1)).dims.map DimG.kind)[i]? = some .domain := by
        rw [hM.kinds h0 hw, List.getElem?_map, hi]
        rfl
      rw [List.getElem?_map] at hg
      obtain ⟨d, hd1, hd2⟩ := Option.map_eq_some_iff.1 hg
      refine ⟨i, d, hd1, hd2, ?_⟩
      rw [hM.names _ hw, List.getD_eq_getElem?_getD, List.getElem?_map, hi]
      rfl
    · rintro ⟨i, d, hd1, hd2, hd3⟩
      have h3 : (k.1.dims[i]?).map (fun d => kindOf d.2) = some .domain := by
        rw [← List.getElem?_map, ← hM.kinds h0 hw, List.getElem?_map, hd1, Option.map_some, hd2]
      obtain ⟨n, ⟨h4, _⟩ | ⟨_, h4, _⟩ | ⟨h4, _⟩⟩ := kind_cases hkd h3
      · cases h4
      · rw [hM.names _ hw, List.getD_eq_getElem?_getD, List.getElem?_map, h4] at hd3
        have hd3 : n = D.domain.getD j "" := hd3
        rw [← hd3]
        exact List.mem_of_getElem? h4
      · cases h4
  oneSlot v hv hs := by
    obtain ⟨k, hk⟩ := lt_key hv
    unfold srcSz
    rw [hk]
    refine hM.oneSlot _ (key_used hes hk).1 fun h => ?_
    rw [(hasStep_src hk).2 h] at hs
    cases hs
  outs st p m hm t := by
    obtain ⟨e, c, he, hc, hE, hU⟩ := soln_at hes m
    rw [hU]
    have hk := pt_var (D := D) (lhs_mem hc)
    have hv : c.lhs.key.1 = e.lhs.1 := hE.lhs.built.var
    rw [(slices_at (X := X) (kv := kv) hk).1, hv]
    have hs : (srcSoln D dir (es.map (XEq.seq A)) cs).hasStep (c.lhs.pt D cs).var = true := by
      rw [hasStep_src hk, hv]
      obtain ⟨ty, h1, h2⟩ := (pt_dims hE.lhs D.step).1 (by rw [hE.step]; rfl)
      have h1 : (D.step, ty) ∈ e.lhs.1.dims := h1
      rcases hE.lhs.kinds _ h1 with g | g | g
      · rw [show IndexType.step = ty from g.1.symm]; exact h1
      · exact absurd rfl g.2.2
      · exact absurd g.1 h2
    have hslot : (ptSlot (srcSoln D dir (es.map (XEq.seq A)) cs) (srcSz cs sz) (c.lhs.pt D cs) t).2 = ((t + dir) % (sz e.lhs.1 : ℤ)).toNat := by
      show (if (srcSoln D dir (es.map (XEq.seq A)) cs).hasStep (c.lhs.pt D cs).var = true then (stepAt (c.lhs.pt D cs) t % (srcSz cs sz (c.lhs.pt D cs).var : ℤ)).toNat
        else 0) = _
      rw [if_pos hs]
      have : srcSz cs sz (c.lhs.pt D cs).var = sz e.lhs.1 := by
        unfold srcSz
        rw [hk, ← hv]
      rw [this]
      have : stepAt (c.lhs.pt D cs) t = t + dir := by
        unfold stepAt
        rw [show (c.lhs.pt D cs).step = some dir from hE.step]
      rw [this]
    rw [hslot]
    exact hM.outs st p m.val (by rw [natStages_getD]; exact List.mem_map_of_mem hm) e he t

theorem Made.announced (hes : List.Forall₂ (EqOk D dir) ((es.map (XEq.seq A)).map SEq.src) cs) (h0 : 0 < X.P.n) {G : RunCfg}
    (hns : D.step ∉ D.domain) (hck : checkEqs D ((es.map (XEq.seq A)).map SEq.src) = .ok (dir, cs))
    (hnd : G.nd = D.domain.length)
    (hM : Made X D dir es cs kv (natStages L) (((srcSoln D dir (es.map (XEq.seq A)) cs).stages L).ren (srcSlices X kv cs).var) sz shape A gs fix) :
    Announced G (srcSoln D dir (es.map (XEq.seq A)) cs) L (fun v => srcHas cs v .domain) (srcSz cs sz) (X.P.sliced (srcSlices X kv cs))
      (fun v => shape ((srcSlices X kv cs).var v)) (fun st t β => X.stageOuts st t ((srcSlices X kv cs).var β.1, β.2)) where
  vars := (hM.codeOf hes hns hck h0).used
  slots v hv := by
    obtain ⟨k, hk⟩ := lt_key hv
    show (X.P.var ((srcSlices X kv cs).var v)).slots = _
    rw [(slices_at (X := X) (kv := kv) hk).1, hM.slots _ (key_used hes hk).1]
    unfold srcSz
    rw [hk]
  used v hv j hj := by
    obtain ⟨k, hk⟩ := lt_key hv
    rw [(slices_at (X := X) (kv := kv) hk).1, hM.used _ (key_used hes hk).1 j (by omega)]
    exact decide_eq_decide.2 (srcHas_key hk .domain _).symm
  lh v hv j hj := by
    obtain ⟨k, hk⟩ := lt_key hv
    have h1 := (slices_at (X := X) (kv := kv) hk).1
    refine ((merged_halos (φ := (srcSlices X kv cs).var) (fun _ => rfl) v).1 _ _).trans ?_
    rw [h1]
    exact hM.lh _ (key_used hes hk).1 j (by omega)
  rh v hv j hj := by
    obtain ⟨k, hk⟩ := lt_key hv
    have h1 := (slices_at (X := X) (kv := kv) hk).1
    refine ((merged_halos (φ := (srcSlices X kv cs).var) (fun _ => rfl) v).1 _ _).trans ?_
    rw [h1]
    exact hM.rh _ (key_used hes hk).1 j (by omega)
  dist v hv := by
    obtain ⟨k, hk⟩ := lt_key hv
    have h1 := (slices_at (X := X) (kv := kv) hk).1
    refine ((merged_halos (φ := (srcSlices X kv cs).var) (fun _ => rfl) v).2).trans ?_
    show _ ≤ (X.P.var ((srcSlices X kv cs).var v)).maxDist
    rw [h1]
    exact hM.dist _ (key_used hes hk).1
  outs st p m hm t := by
    unfold CodeNet.stageOuts
    rw [List.any_eq_true]
    refine ⟨p, List.mem_range.2 ?_, (hM.fits hes h0).outs st p m hm t⟩
    rw [hM.nparts 0 h0, natStages_length]
    by_contra hge
    rw [List.getD_eq_getElem?_getD (l := L.getD st []), List.getElem?_eq_none (by omega)] at hm
    cases hm
  full e he n hn := by
    obtain ⟨i, hi, hname⟩ := (hM.codeOf hes hns hck h0).full e he n hn
    obtain ⟨j, e', c, h1, h2, rfl⟩ := srcEqs_mem he
    have hk := pt_var (D := D) (lhs_mem h2)
    rw [srcHas_key hk]
    rw [hM.kind_at hes h0 hk] at hi
    obtain ⟨d, ⟨h4, _⟩ | ⟨_, h4, _⟩ | ⟨h4, _⟩⟩ := kind_cases (key_used hes hk).2.1 hi
    · cases h4
    · rw [hM.name_at hes hk h4] at hname
      rw [← hname]
      exact List.mem_of_getElem? h4
    · cases h4

end

end Yask
