import Verif.Kernel.VecsModel
import Verif.Kernel.MicroLemmas
import Verif.Spec.AccessSpec

/-! Helper lemmas: every evaluated vector contains a point to be evaluated. -/

namespace Yask.Nano
open Spec

theorem mapM_isSome {α β : Type} (l : List α) (f : α → Option β) : (l.mapM f).isSome = l.all fun a => (f a).isSome := by
  induction l with
  | nil => rfl
  | cons a l ih =>
    rw [List.mapM_cons, List.all_cons, ← ih]
    cases f a with
    | none => rfl
    | some b => cases List.mapM f l <;> rfl

theorem mapM_mem {α β : Type} {l : List α} {f : α → Option (List β)} {r : List (List β)} (h : l.mapM f = some r) {b : β}
    (hb : b ∈ r.flatten) : ∃ a ∈ l, ∃ y, f a = some y ∧ b ∈ y := by
  induction l generalizing r with
  | nil =>
    rw [List.mapM_nil] at h
    cases h
    simp at hb
  | cons a l ih =>
    rw [List.mapM_cons] at h
    cases hf : f a with
    | none => rw [hf] at h; simp at h
    | some y =>
      cases hl : List.mapM f l with
      | none => rw [hf, hl] at h; simp at h
      | some ys =>
        rw [hf, hl] at h
        simp only [Option.bind_eq_bind, Option.bind_some, Option.pure_def, Option.some.injEq] at h
        subst h
        rw [List.flatten_cons, List.mem_append] at hb
        rcases hb with hb | hb
        · exact ⟨a, List.mem_cons_self, y, hf, hb⟩
        · obtain ⟨a', ha', h'⟩ := ih hl hb
          exact ⟨a', List.mem_cons_of_mem _ ha', h'⟩

theorem bind_isSome {α β : Type} (x : Option α) (f : α → Option β) (h : ∀ a, (f a).isSome = true) : (x.bind f).isSome = x.isSome := by
  cases x with
  | none => rfl
  | some a => simp [h a]

theorem nanoFull_isSome {α β : Type} (run : Box → BitVec 64 → Option (List α)) (run' : Box → BitVec 64 → Option (List β))
    (h : ∀ b m, (run b m).isSome = (run' b m).isSome) (ds : List NanoDim) :
    (nanoFull run ds).isSome = (nanoFull run' ds).isSome := by
  unfold nanoFull
  split
  · rfl
  · exact h _ _

theorem nanoBorder_isSome {α β : Type} (run : Box → BitVec 64 → Option (List α)) (run' : Box → BitVec 64 → Option (List β))
    (h : ∀ b m, (run b m).isSome = (run' b m).isSome) (fi : Bool) (ds : List NanoDim) :
    (nanoBorder run fi ds).isSome = (nanoBorder run' fi ds).isSome := by
  unfold nanoBorder
  split
  · simp only [Option.bind_eq_bind, Option.pure_def]
    rw [bind_isSome _ _ fun _ => rfl, bind_isSome _ _ fun _ => rfl, mapM_isSome, mapM_isSome]
    congr 1
    funext k0
    cases nChooseK ds.length ((k0 : Int) + 1) with
    | none => rfl
    | some nc =>
      simp only [Option.bind_some]
      rw [bind_isSome _ _ fun _ => rfl, bind_isSome _ _ fun _ => rfl, mapM_isSome, mapM_isSome]
      congr 1
      funext r
      cases nChooseKSet ds.length ((k0 : Int) + 1) r with
      | none => rfl
      | some cd =>
        simp only [Option.bind_some]
        rw [bind_isSome _ _ fun _ => rfl, bind_isSome _ _ fun _ => rfl, mapM_isSome, mapM_isSome]
        congr 1
        funext lr
        split
        · exact h _ _
        · rfl
  · rfl

theorem nanoBlockWith_isSome {α β : Type} (run : Box → BitVec 64 → Option (List α)) (run' : Box → BitVec 64 → Option (List β))
    (h : ∀ b m, (run b m).isSome = (run' b m).isSome) (fi : Bool) (ds : List NanoDim) :
    (nanoBlockWith run fi ds).isSome = (nanoBlockWith run' fi ds).isSome := by
  have h1 := nanoFull_isSome run run' h ds
  have h2 := nanoBorder_isSome run run' h fi ds
  unfold nanoBlockWith
  cases ha : nanoFull run ds <;> cases hb : nanoFull run' ds <;> rw [ha, hb] at h1 <;>
    cases hc : nanoBorder run fi ds <;> cases hd : nanoBorder run' fi ds <;> rw [hc, hd] at h2 <;> simp_all

theorem callVecs_isSome (f : LoopFeat) (fi : Bool) (ds : List NanoDim) (b : Box) (m : BitVec 64) :
    (callVecs f ds b m).isSome = (calcVectors f fi ds b m).isSome := by
  unfold callVecs calcVectors
  split
  · rfl
  · simp

theorem nanoVecs_total {f : LoopFeat} {ds : List NanoDim} (h : NanoOk f ds) (fi : Bool) : ∃ l, nanoVecs f fi ds = some l := by
  obtain ⟨l, hl, _⟩ := calcNanoBlock_count h fi
  rw [calcNanoBlock_with] at hl
  have := nanoBlockWith_isSome (callVecs f ds) (calcVectors f fi ds) (callVecs_isSome f fi ds) fi ds
  rw [hl] at this
  exact Option.isSome_iff_exists.1 this

/-! ### Where vectors are -/

/-- The whole range of vectors of a dim. -/
abbrev outer (d : NanoDim) : Ivl := (d.norm d.ovbgn, d.norm d.ovend)

theorem outer_parts (d : NanoDim) (hd : d.Ok) (r : Ivl) (h : r = (d.norm d.fvbgn, d.norm d.fvend) ∨
    r = (d.norm d.ovbgn, d.norm d.fvbgn) ∨ r = (d.norm d.fvend, d.norm d.ovend)) : (outer d).1 ≤ r.1 ∧ r.2 ≤ (outer d).2 := by
  obtain ⟨qb, rb, qe, re, hb2, he2, hb, he, hord, h1, h2, n1, n2, n3, hl, hs, hr, n4, _⟩ := dim_bounds d hd
  have k1 : d.norm d.ovbgn ≤ d.norm d.fvbgn ∧ d.norm d.fvbgn ≤ d.norm d.ovend := by
    rw [n1, n3, n4]
    split_ifs <;> omega
  have k2 : d.norm d.ovbgn ≤ d.norm d.fvend ∧ d.norm d.fvend ≤ d.norm d.ovend := by
    rw [n1, n2, n3]
    split_ifs <;> omega
  rcases h with rfl | rfl | rfl <;> simp only [outer] <;> omega

theorem outer_point (d : NanoDim) (hd : d.Ok) (v : Int) (h : InIvl v (outer d)) :
    ∃ o, (0 ≤ o ∧ o < d.fold) ∧ InIvl (v * d.fold + o + d.rofs) (d.b, d.e) := by
  obtain ⟨qb, rb, qe, re, hb2, he2, hb, he, hord, h1, h2, n1, n2, n3, hl, hs, hr, n4, _⟩ := dim_bounds d hd
  obtain ⟨hv1, hv2⟩ := h
  simp only [outer, n1, n3] at hv1 hv2
  unfold NanoDim.ebgn at hb
  unfold NanoDim.eend at he
  by_cases hq : qb = v
  · subst hq
    refine ⟨rb, hb2, ?_, ?_⟩ <;> simp only
    · omega
    · rcases hord with ho | ⟨rfl, ho⟩
      · have : (qb + 1) * d.fold ≤ qe * d.fold := mul_le_mul_of_nonneg_right (by omega) (by omega)
        have e : (qb + 1) * d.fold = qb * d.fold + d.fold := by ring
        omega
      · omega
  · refine ⟨0, ⟨le_rfl, hd.1⟩, ?_, ?_⟩ <;> simp only
    · have : (qb + 1) * d.fold ≤ v * d.fold := mul_le_mul_of_nonneg_right (by omega) (by omega)
      have e : (qb + 1) * d.fold = qb * d.fold + d.fold := by ring
      omega
    · split_ifs at hv2 with hre
      · have : (v + 1) * d.fold ≤ qe * d.fold := mul_le_mul_of_nonneg_right (by omega) (by omega)
        have e : (v + 1) * d.fold = v * d.fold + d.fold := by ring
        have := hd.1
        omega
      · have : v * d.fold ≤ qe * d.fold := mul_le_mul_of_nonneg_right (by omega) (by omega)
        omega

theorem partGo_outer (fi : Bool) (sizes : List Int) (cdims lr : Nat) (ds : List NanoDim) (hd : ∀ d ∈ ds, d.Ok) (j nsel : Nat)
    (v : List Int) (h : InBox v (partGo fi sizes cdims lr j nsel ds).1) : InBox v (ds.map outer) := by
  induction ds generalizing j nsel v with
  | nil => simpa [partGo] using h
  | cons d ds ih =>
    have hd0 := hd d List.mem_cons_self
    have hds := fun x hx => hd x (List.mem_cons_of_mem d hx)
    have key : ∀ (r : Ivl) (bx : Box), (r = (d.norm d.fvbgn, d.norm d.fvend) ∨
        r = (d.norm d.ovbgn, d.norm d.fvbgn) ∨ r = (d.norm d.fvend, d.norm d.ovend)) → (∀ v', InBox v' bx → InBox v' (ds.map outer)) →
        InBox v (r :: bx) → InBox v ((d :: ds).map outer) := by
      intro r bx hr hbx hv
      obtain ⟨k1, k2⟩ := outer_parts d hd0 r hr
      cases hv with
      | cons h1 h2 => exact .cons ⟨le_trans k1 h1.1, lt_of_lt_of_le h1.2 k2⟩ (hbx _ h2)
    unfold partGo at h
    by_cases hb : isBitSet cdims j = true
    · simp only [hb, if_true] at h
      by_cases hl : isBitSet lr nsel = true
      · simp only [hl, Bool.not_true, Bool.false_eq_true, if_false] at h
        exact key _ _ (Or.inr (Or.inr rfl)) (fun v' hv' => ih hds _ _ v' hv') h
      · simp only [hl, Bool.not_false, if_true] at h
        exact key _ _ (Or.inr (Or.inl rfl)) (fun v' hv' => ih hds _ _ v' hv') h
    · simp only [hb, Bool.false_eq_true, if_false] at h
      exact key _ _ (Or.inl rfl) (fun v' hv' => ih hds _ _ v' hv') h

theorem callVecs_mem {f : LoopFeat} {ds : List NanoDim} (hk : NanoOk f ds) {bx : Box} {m : BitVec 64} {l : List (List Int)}
    (h : callVecs f ds bx m = some l) (hlen : bx.length = ds.length) (hok : ∀ x ∈ ds.zip bx, LoopOk x.1 x.2) {v : List Int} (hv : v ∈ l) :
    InBox v bx := by
  unfold callVecs at h
  split at h
  · cases h; simp at hv
  · obtain ⟨l', h1, h2⟩ := calcVecs_spec f ds bx hlen hk.feat hok
    rw [h1] at h
    cases h
    have h3 := h2 v
    have h4 := List.count_pos_iff.2 hv
    rw [h3] at h4
    by_contra hc
    rw [if_neg hc] at h4
    omega

theorem full_outer (ds : List NanoDim) (hd : ∀ d ∈ ds, d.Ok) (v : List Int)
    (h : InBox v (ds.map fun d => (d.norm d.fvbgn, d.norm d.fvend))) : InBox v (ds.map outer) := by
  induction ds generalizing v with
  | nil => simpa using h
  | cons d ds ih =>
    obtain ⟨k1, k2⟩ := outer_parts d (hd d List.mem_cons_self) _ (Or.inl rfl)
    cases h with
    | cons h1 h2 =>
      exact .cons ⟨le_trans k1 h1.1, lt_of_lt_of_le h1.2 k2⟩ (ih (fun x hx => hd x (List.mem_cons_of_mem d hx)) _ h2)

theorem nanoVecs_outer {f : LoopFeat} {ds : List NanoDim} (hk : NanoOk f ds) (fi : Bool) {l : List (List Int)}
    (h : nanoVecs f fi ds = some l) {v : List Int} (hv : v ∈ l) : InBox v (ds.map outer) := by
  unfold nanoVecs nanoBlockWith at h
  cases hf : nanoFull (callVecs f ds) ds with
  | none => rw [hf] at h; simp at h
  | some lf =>
    cases hb : nanoBorder (callVecs f ds) fi ds with
    | none => rw [hf, hb] at h; simp at h
    | some lb =>
      rw [hf, hb] at h
      simp only [Option.bind_eq_bind, Option.bind_some, Option.pure_def, Option.some.injEq] at h
      subst h
      rcases List.mem_append.1 hv with hv | hv
      · unfold nanoFull at hf
        split at hf
        · cases hf; simp at hv
        · have hin := callVecs_mem hk hf (by simp) (by
            intro x hx
            rw [List.zip_map_right, List.mem_map] at hx
            obtain ⟨⟨a, b⟩, hab, rfl⟩ := hx
            have h1 := List.of_mem_zip hab
            have h2 : a = b := by
              have := List.mem_iff_getElem.1 hab
              obtain ⟨i, hi, e⟩ := this
              rw [List.getElem_zip] at e
              cases e; rfl
            subst h2
            exact (dim_loopOk a (hk.dims a h1.1)).1) hv
          exact full_outer ds hk.dims v hin
      · unfold nanoBorder at hb
        split at hb
        · simp only [Option.bind_eq_bind, Option.pure_def] at hb
          obtain ⟨r1, hr1, e1⟩ := Option.bind_eq_some_iff.1 hb
          cases e1
          obtain ⟨k0, _, y1, hy1, hv1⟩ := mapM_mem hr1 hv
          obtain ⟨nc, _, hy1⟩ := Option.bind_eq_some_iff.1 hy1
          obtain ⟨r2, hr2, e2⟩ := Option.bind_eq_some_iff.1 hy1
          cases e2
          obtain ⟨r, _, y2, hy2, hv2⟩ := mapM_mem hr2 hv1
          obtain ⟨cd, _, hy2⟩ := Option.bind_eq_some_iff.1 hy2
          obtain ⟨r3, hr3, e3⟩ := Option.bind_eq_some_iff.1 hy2
          cases e3
          obtain ⟨lr, _, y3, hy3, hv3⟩ := mapM_mem hr3 hv2
          split at hy3
          · obtain ⟨g1, g2⟩ := partGo_ok fi (ds.map NanoDim.fold) cd lr ds hk.dims 0 0
            exact partGo_outer fi _ cd lr ds hk.dims 0 0 v (callVecs_mem hk hy3 g1 g2 hv3)
          · cases hy3; simp at hv3
        · cases hb; simp at hv

/-- Every evaluated vector contains a point of the nano-block. -/
theorem outer_vecPoint (ds : List NanoDim) (hd : ∀ d ∈ ds, d.Ok) (v : List Int) (h : InBox v (ds.map outer)) :
    ∃ o, List.Forall₂ (fun (x f : Int) => 0 ≤ x ∧ x < f) o (ds.map NanoDim.fold) ∧
      InBox (vecPoint ds v o) (ds.map fun d => (d.b, d.e)) := by
  induction ds generalizing v with
  | nil => exact ⟨[], .nil, by cases h; exact .nil⟩
  | cons d ds ih =>
    cases h with
    | cons h1 h2 =>
      obtain ⟨o, ho, hp⟩ := outer_point d (hd d List.mem_cons_self) _ h1
      obtain ⟨os, hos, hps⟩ := ih (fun x hx => hd x (List.mem_cons_of_mem d hx)) _ h2
      exact ⟨o :: os, .cons ho hos, .cons hp hps⟩

theorem nanoDims_ok {f g : LoopFeat} {ms : List MicroDim} {bind : Option Binding} (h : MicroOk f g ms bind) (nb : Box)
    (hlen : nb.length = ms.length) (hlt : ∀ r ∈ nb, r.1 < r.2) : NanoOk g (nanoDims ms nb) := by
  have hlen' : (nanoDims ms nb).length = ms.length := by simp [nanoDims, hlen]
  refine ⟨?_, by rw [hlen']; exact h.nd, ?_, by rw [hlen']; exact h.featG⟩
  · intro d hd
    unfold nanoDims at hd
    rw [← List.map_uncurry_zip_eq_zipWith, List.mem_map] at hd
    obtain ⟨⟨m, r⟩, hx, rfl⟩ := hd
    have h1 := h.dims m (List.of_mem_zip hx).1
    have h2 := hlt r (List.of_mem_zip hx).2
    exact ⟨h1.fold, h1.pico, h1.nanoTile, h2⟩
  · rw [nanoDims_fold ms nb hlen]; exact h.pts

/-- The point at offset `o` in the vector `v`. -/
theorem vecPoint_nanoDims (ms : List MicroDim) (nb : Box) (hlen : nb.length = ms.length) (v o : List Int) :
    vecPoint (nanoDims ms nb) v o =
      List.zipWith (fun (m : MicroDim) (x : Int × Int) => x.1 * m.fold + x.2 + m.rofs) ms (v.zip o) := by
  unfold vecPoint nanoDims
  induction ms generalizing nb v o with
  | nil => simp
  | cons m ms ih =>
    match nb, hlen with
    | r :: nb, hlen =>
      cases hz : v.zip o with
      | nil => simp
      | cons x xs =>
        match v, o, hz with
        | a :: v, b :: o, hz =>
          rw [List.zip_cons_cons, List.cons.injEq] at hz
          obtain ⟨rfl, rfl⟩ := hz
          simp only [List.zipWith_cons_cons]
          rw [ih nb (by simpa using hlen)]

theorem microVecs_total {f g : LoopFeat} {ms : List MicroDim} {bind : Option Binding} (h : MicroOk f g ms bind) (fi : Bool) (mb : Box)
    (hl : mb.length = ms.length) (bbs : List Box) (hbbs : ∀ bb ∈ bbs, bb.length = ms.length) :
    ∃ l, microVecs f g fi ms bind bbs mb = some l := by
  unfold microVecs
  simp only [Option.bind_eq_bind, Option.pure_def]
  apply Option.isSome_iff_exists.1
  rw [bind_isSome _ _ fun _ => rfl, mapM_isSome, List.all_eq_true]
  intro bx hbx
  obtain ⟨bb, hbb, ht⟩ := List.mem_filterMap.1 hbx
  obtain ⟨h1, h2, _⟩ := (trim_spec mb bb (by rw [hbbs bb hbb, hl])).1 bx ht
  obtain ⟨nbs, n1, _, n3⟩ := nanoBlocks_spec h mb bx hl (by rw [h1, hl]) h2
  rw [n1]
  simp only [Option.bind_some]
  rw [bind_isSome _ _ fun _ => rfl, mapM_isSome, List.all_eq_true]
  intro nb hnb
  obtain ⟨hlen, hlt⟩ := n3 nb hnb
  exact Option.isSome_iff_exists.2 (nanoVecs_total (nanoDims_ok h nb (by rw [hlen, h1, hl]) hlt) fi)

theorem microVecs_meets {f g : LoopFeat} {ms : List MicroDim} {bind : Option Binding} (h : MicroOk f g ms bind) (fi : Bool) (mb : Box)
    (hl : mb.length = ms.length) (bbs : List Box) (hbbs : ∀ bb ∈ bbs, bb.length = ms.length) {l : List (List Int)}
    (hm : microVecs f g fi ms bind bbs mb = some l) {v : List Int} (hv : v ∈ l) :
    v.length = ms.length ∧ ∃ o, List.Forall₂ (fun (x f : Int) => 0 ≤ x ∧ x < f) o (ms.map MicroDim.fold) ∧ ∃ bb ∈ bbs,
      InBox (List.zipWith (fun (m : MicroDim) (x : Int × Int) => x.1 * m.fold + x.2 + m.rofs) ms (v.zip o)) mb ∧
      InBox (List.zipWith (fun (m : MicroDim) (x : Int × Int) => x.1 * m.fold + x.2 + m.rofs) ms (v.zip o)) bb := by
  unfold microVecs at hm
  simp only [Option.bind_eq_bind, Option.pure_def] at hm
  obtain ⟨r1, hr1, e1⟩ := Option.bind_eq_some_iff.1 hm
  cases e1
  obtain ⟨bx, hbx, y1, hy1, hv1⟩ := mapM_mem hr1 hv
  obtain ⟨bb, hbb, ht⟩ := List.mem_filterMap.1 hbx
  obtain ⟨h1, h2, h3⟩ := (trim_spec mb bb (by rw [hbbs bb hbb, hl])).1 bx ht
  obtain ⟨nbs, n1, n2, n3⟩ := nanoBlocks_spec h mb bx hl (by rw [h1, hl]) h2
  rw [n1] at hy1
  simp only [Option.bind_some] at hy1
  obtain ⟨r2, hr2, e2⟩ := Option.bind_eq_some_iff.1 hy1
  cases e2
  obtain ⟨nb, hnb, y2, hy2, hv2⟩ := mapM_mem hr2 hv1
  obtain ⟨hlen, hlt⟩ := n3 nb hnb
  have hlen' : nb.length = ms.length := by rw [hlen, h1, hl]
  have hok := nanoDims_ok h nb hlen' hlt
  have hout := nanoVecs_outer hok fi hy2 hv2
  obtain ⟨o, ho, hp⟩ := outer_vecPoint (nanoDims ms nb) hok.dims v hout
  rw [nanoDims_fold ms nb hlen'] at ho
  rw [nanoDims_box ms nb hlen', vecPoint_nanoDims ms nb hlen'] at hp
  refine ⟨?_, o, ho, bb, hbb, ?_⟩
  · rw [hout.length_eq, List.length_map]; simp [nanoDims, hlen']
  · apply (h3 _).1
    have hc := n2 (List.zipWith (fun (m : MicroDim) (x : Int × Int) => x.1 * m.fold + x.2 + m.rofs) ms (v.zip o))
    by_contra hn
    rw [if_neg hn] at hc
    unfold boxVisits at hc
    rw [List.countP_eq_zero] at hc
    exact hc nb hnb (by simpa using hp)

end Yask.Nano
