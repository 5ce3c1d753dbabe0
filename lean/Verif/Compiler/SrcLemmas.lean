import Verif.Compiler.SrcModel
import Verif.Compiler.EqFormChecks
import Verif.Spec.MiscSpec
import Mathlib.Data.List.GetD

/-! Helper lemmas: points of the equations and the elements that they mean. -/

namespace Yask
open Spec Comp

section
variable {π V : Type} [DecidableEq π]

/-- A point of the left-hand side has recorded its offsets too. -/
theorem lhs_means {D : CDims} {dir : ℤ} {v : EqVar} {args : List (NExpr π)} {p : CPt π} (hb : Built v args p) (hk : Kinds D v)
    (hw : WriteMeans D dir v args p) (h : checkAll (checkLhsArg D) (p.var.dims.zip p.args) = .ok ()) :
    ReadMeans D v args p ∧ ∀ d ∈ D.domain, d ≠ D.step → p.offsets.lookup d = some 0 := by
  rw [checkAll_ok] at h
  have key : ∀ x ∈ v.dims.zip args, x.1.1 ≠ D.step → x.1.1 ∈ D.domain →
      Denotes x.2 (fun idx => idx x.1.1 + (0 : ℤ)) ∧ p.offsets.lookup x.1.1 = some 0 := by
    intro x hx hs hd
    obtain ⟨k, g1, g2, g3, _⟩ := hb.mem hx
    have h1 := h _ g2
    unfold checkLhsArg at h1
    simp only at h1
    rw [if_neg hs, if_pos hd] at h1
    have h2 : (outArg x.1.1 x.1.2 x.2 k).same (.index x.1.1 .domain) = true := by
      by_contra hn
      rw [if_neg hn] at h1
      cases h1
    have hty : x.1.2 = .domain := by
      rcases hk _ (List.of_mem_zip hx).1 with h | h | h
      · exact absurd h.2 hs
      · exact h.1
      · exact absurd hd h.2.1
    have h3 := same_index h2
    have h4 := same_out g1 h2
    refine ⟨fun I idx hI hi => by rw [h4 I idx hI hi]; simp, ?_⟩
    rw [g3]
    cases k with
    | const c => simp [outArg] at h3
    | offset o =>
      unfold outArg at h3
      simp only [hty] at h3
      rw [if_neg (by decide)] at h3
      have ho : o = 0 := by
        unfold normOffset at h3
        split_ifs at h3 with h1 h2
        omega
      simp [outOfs, hty, ho]
    | other =>
      simp only [outArg] at h3
      rw [h3] at g1
      simp [argKind, NExpr.isConst, NExpr.offsetFrom] at g1
  refine ⟨⟨hw.1, hw.2.1, fun x hx => ?_⟩, fun d hd hs => ?_⟩
  · have h1 := hw.2.2.2.2 x hx
    by_cases hs : x.1.1 = D.step
    · rw [if_pos hs] at h1
      exact ⟨dir, by rw [if_pos (.inl hs)]; exact h1⟩
    · rw [if_neg hs] at h1
      by_cases hd : x.1.1 ∈ D.domain
      · exact ⟨0, by rw [if_pos (.inr hd)]; exact key x hx hs hd⟩
      · rw [if_neg hd] at h1
        obtain ⟨k, h2⟩ := h1
        exact ⟨k, by rw [if_neg (by tauto)]; exact h2⟩
  · obtain ⟨x, hx, rfl⟩ := hb.dim (hw.2.2.1 d hd)
    exact (key x hx hs hd).2

/-- A point constructed from a var and index expressions of the source. -/
structure PtOk (D : CDims) (q : EqVar × List (NExpr π)) (p : CPt π) : Prop where
  built : Built q.1 q.2 p
  means : ReadMeans D q.1 q.2 p
  kinds : Kinds D q.1
  names : DimNames q.1

/-- An equation that has been accepted. -/
structure EqOk (D : CDims) (dir : ℤ) (e : SrcEq π) (c : CEq π) : Prop where
  lhs : PtOk D e.lhs c.lhs
  rhs : List.Forall₂ (PtOk D) e.rhs c.rhs
  step : c.lhs.offsets.lookup D.step = some dir
  zero : ∀ d ∈ D.domain, c.lhs.offsets.lookup d = some 0
  full : ∀ d ∈ D.domain, d ∈ e.lhs.1.dims.map Prod.fst
  late : dir = 1 → ∀ p ∈ c.rhs, ∀ k, p.offsets.lookup D.step = some k → k ≤ 1

theorem forall₂_and {α β : Type} {R S : α → β → Prop} {l : List α} {m : List β} (h : List.Forall₂ R l m) (h' : List.Forall₂ S l m) :
    List.Forall₂ (fun a b => R a b ∧ S a b) l m := by
  induction h with
  | nil => exact .nil
  | cons h _ ih =>
    cases h' with
    | cons h1 h2 => exact .cons ⟨h, h1⟩ (ih h2)

theorem forall₂_mem_imp {α β : Type} {R S : α → β → Prop} {l : List α} {m : List β} (h : List.Forall₂ R l m)
    (hi : ∀ a ∈ l, ∀ b ∈ m, R a b → S a b) : List.Forall₂ S l m := by
  induction h with
  | nil => exact .nil
  | cons h _ ih =>
    exact .cons (hi _ List.mem_cons_self _ List.mem_cons_self h) (ih fun a ha b hb => hi a (List.mem_cons_of_mem _ ha) b (List.mem_cons_of_mem _ hb))

/-- What acceptance means for the points. -/
theorem accepted_ok {D : CDims} {dir : ℤ} {es : List (SrcEq π)} {cs : List (CEq π)} (hns : D.step ∉ D.domain) (hp : Proper D es)
    (hm : List.Forall₂ (EqMeans D dir) es cs) (hscr : ∀ e ∈ es, e.lhs.1.scratch = false) (h : checkEqs D es = .ok (dir, cs)) :
    List.Forall₂ (EqOk D dir) es cs := by
  unfold checkEqs at h
  cases h1 : mapAll newEq es with
  | throws => rw [h1] at h; cases h
  | undefined => rw [h1] at h; cases h
  | ok cs' =>
    rw [h1] at h
    simp only [Outcome.bind_ok] at h
    cases h2 : cs'.foldlM (checkEq D) (0 : ℤ) with
    | throws => rw [h2] at h; cases h
    | undefined => rw [h2] at h; cases h
    | ok d =>
      rw [h2] at h
      simp only [Outcome.bind_ok, Outcome.ok.injEq, Prod.mk.injEq] at h
      obtain ⟨hd, rfl⟩ := h
      obtain ⟨_, g0, g2⟩ := checkFold_ok cs' h2
      refine forall₂_mem_imp (forall₂_and (mapAll_ok _ _ _ h1) hm) fun e he c hc hec => ?_
      obtain ⟨hec, hw, hr, hlate⟩ := hec
      obtain ⟨k1, k2⟩ := newEq_ok hec
      obtain ⟨d0, d1, hce, hsd⟩ := g2 c hc
      obtain ⟨c1, c2, c3, c4, c5, c6⟩ := checkEq_ok hce
      obtain ⟨hl1, hl2⟩ := hp e he e.lhs (.inl rfl)
      have hb := newPoint_ok hl1 k1
      obtain ⟨m1, m2⟩ := lhs_means hb hl2 hw c3
      have hs := hscr e he
      have hmem := (hw.2.2.2.1).2 hs
      have hstep : c.lhs.offsets.lookup D.step = some dir := by
        obtain ⟨x, hx, hxs⟩ := hb.dim hmem
        have := hw.2.2.2.2 x hx
        rw [if_pos hxs, hxs] at this
        exact this.2
      refine ⟨⟨hb, m1, hl2, hl1⟩, forall₂_mem_imp (forall₂_and k2 hr) fun q hq p _ hqp => ?_, hstep, fun d hd => m2 d hd fun e => hns (e ▸ hd),
        hw.2.2.1, fun hdir p hpm k hk => ?_⟩
      · obtain ⟨hq1, hq2⟩ := hp e he q (.inr hq)
        exact ⟨newPoint_ok hq1 hqp.1, hqp.2, hq2, hq1⟩
      · obtain ⟨_, e2⟩ := checkDir_ok c4
        have hs' : c.lhs.var.scratch = false := by rw [hb.var]; exact hs
        have h3 := e2 hs'
        have h4 : d1 = dir := by
          rw [h3.1] at hstep
          exact Option.some.inj hstep
        exact h3.2.2.2 (h4.trans hdir) p hpm k hk

omit [DecidableEq π] in
theorem indexVals_unique {D : CDims} {t : ℤ} {x : List ℤ} {args : List (NExpr π)} {a b : List ℤ} (ha : IndexVals D t x args a)
    (hb : IndexVals D t x args b) : a = b := by
  unfold IndexVals at ha hb
  have hI : ∃ I : Interp π ℚ, I.Usual ∧ ∀ d, I.index d .step = indexAt D t x d ∧ I.index d .domain = indexAt D t x d :=
    ⟨⟨id, fun _ => 0, fun d _ => indexAt D t x d, fun _ => 0, fun a b => a / b, modVal, fun _ _ => 0⟩, ⟨fun _ => rfl, fun _ _ => rfl, fun _ _ => rfl⟩,
      fun _ => ⟨rfl, rfl⟩⟩
  obtain ⟨I, h1, h2⟩ := hI
  induction ha generalizing b with
  | nil => cases hb; rfl
  | cons h _ ih =>
    cases hb with
    | cons h' hb' =>
      have e1 := h I h1 h2
      have e2 := h' I h1 h2
      rw [e1] at e2
      rw [ih hb', Int.cast_inj.1 e2]

omit [DecidableEq π] in
theorem lookup_filter_ne (l : List (String × ℤ)) (d d' : String) (h : d' ≠ d) :
    (l.filter fun e => decide (e.1 ≠ d)).lookup d' = l.lookup d' := by
  have := lookup_dropKey l d d'
  unfold dropKey at this
  rw [this, if_neg h]

omit [DecidableEq π] in
theorem lookup_mem_keys {l : List (String × ℤ)} {d : String} : d ∈ l.map Prod.fst ↔ (l.lookup d).isSome = true := by
  induction l with
  | nil => simp
  | cons a l ih =>
    obtain ⟨k, w⟩ := a
    by_cases h : d = k
    · subst h; simp
    · have : (d == k) = false := by simpa using h
      simp only [List.map_cons, List.mem_cons, h, false_or, List.lookup, this]
      exact ih

theorem pt_at {D : CDims} (cs : List (CEq π)) (p : CPt π) {d : String} (h : d ≠ D.step) : (p.pt D cs).at d = (p.offsets.lookup d).getD 0 := by
  unfold Pt.at CPt.pt
  rw [lookup_filter_ne _ _ _ h]

theorem pt_var {D : CDims} {cs : List (CEq π)} {p : CPt π} (h : p ∈ eqPts cs) : (srcVars cs)[(p.pt D cs).var]? = some p.key := by
  have hm : p.key ∈ srcVars cs := List.mem_dedup.2 (List.mem_map_of_mem h)
  unfold CPt.pt
  exact List.getElem?_idxOf hm

theorem srcVars_inj {cs : List (CEq π)} {v v' : Nat} {k : EqVar × List ℤ} (h : (srcVars cs)[v]? = some k) (h' : (srcVars cs)[v']? = some k) :
    v = v' := by
  have hn : (srcVars cs).Nodup := List.nodup_dedup _
  obtain ⟨h1, h2⟩ := List.getElem?_eq_some_iff.1 h
  obtain ⟨h3, h4⟩ := List.getElem?_eq_some_iff.1 h'
  exact (List.Nodup.getElem_inj_iff hn).1 (h2.trans h4.symm)

/-- The element that a point of an equation means has the indices that its expressions have. -/
theorem pt_elem {D : CDims} (cs : List (CEq π)) (hns : D.step ∉ D.domain) {q : EqVar × List (NExpr π)} {p : CPt π}
    (h : PtOk D q p) (t : ℤ) (x : List ℤ) :
    IndexVals D t x q.2 (srcElem D p.key (stepAt (p.pt D cs) t) (shiftPt D.domain x (p.pt D cs))) := by
  have hlen := h.built.len
  have hv := h.built.var
  refine List.forall₂_iff_get.2 ⟨by simp [srcElem, CPt.key, hv, hlen], fun i h1 h2 I hI hidx => ?_⟩
  have hi : i < q.1.dims.length := by rw [hlen]; exact h1
  have hz : (q.1.dims[i], q.2[i]) ∈ q.1.dims.zip q.2 := mem_zip_iff.2 ⟨i, by simp, by simp⟩
  obtain ⟨k, hk⟩ := h.means.2.2 _ hz
  simp only [List.get_eq_getElem, srcElem, CPt.key, hv, List.getElem_map, List.getElem_range, List.getElem?_eq_getElem hi]
  have hkind := h.kinds _ (List.getElem_mem hi)
  rcases hdd : q.1.dims[i] with ⟨d, ty⟩
  rw [hdd] at hk hkind
  simp only at hk hkind
  rcases hkind with ⟨rfl, hd⟩ | ⟨rfl, hd, hs⟩ | ⟨rfl, hd, hs⟩
  · rw [if_pos (.inl hd)] at hk
    rw [hk.1 I (indexAt D t x) hI hidx, hd]
    have : stepAt (p.pt D cs) t = t + k := by
      unfold stepAt CPt.pt
      rw [← hd, hk.2]
    simp only [this, indexAt, if_true]
    push_cast
    rfl
  · rw [if_pos (.inr hd)] at hk
    rw [hk.1 I (indexAt D t x) hI hidx]
    have hj : D.domain.idxOf d < D.domain.length := List.idxOf_lt_length_of_mem hd
    have : (shiftPt D.domain x (p.pt D cs)).getD (D.domain.idxOf d) 0 = x.getD (D.domain.idxOf d) 0 + k := by
      unfold shiftPt
      rw [List.getD_eq_getElem _ _ (by simpa using hj)]
      simp only [List.getElem_map, List.getElem_range]
      rw [List.getD_eq_getElem _ _ hj, List.getElem_idxOf, pt_at cs p hs, hk.2]
      rfl
    simp only [this, indexAt, if_neg hs]
    push_cast
    rfl
  · rw [if_neg (by tauto)] at hk
    rw [hk.1 I (indexAt D t x) hI hidx]
    have : (q.1.dims.map fun g => if g.2 = .misc then (p.consts.lookup g.1).getD 0 else 0).getD i 0 = k := by
      rw [List.getD_eq_getElem _ _ (by simpa using hi), List.getElem_map, hdd]
      simp [hk.2]
    simp only [this]

end
end Yask
