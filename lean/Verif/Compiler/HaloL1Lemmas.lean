import Verif.Compiler.HaloScratchLemmas

/-! Helper lemmas: distance of the ranks that are asked for data which is needed through scratch vars. -/

namespace Yask.Comp
open Spec

/-- No negative halos. -/
def Pos (m : Nat → HVar) : Prop := ∀ v, ∀ e ∈ (m v).halos, 0 ≤ e.2

/-- Halos and distances only grow. -/
def Ext (a b : Nat → HVar) : Prop := MLe a b ∧ (∀ v, (a v).l1 ≤ (b v).l1) ∧ (Pos a → Pos b)

theorem Ext.refl (a : Nat → HVar) : Ext a a := ⟨MLe.refl a, fun _ => le_refl _, id⟩
theorem Ext.trans {a b c : Nat → HVar} (h1 : Ext a b) (h2 : Ext b c) : Ext a c :=
  ⟨h1.1.trans h2.1, fun v => le_trans (h1.2.1 v) (h2.2.1 v), fun h => h2.2.2 (h1.2.2 h)⟩

theorem setAt_ext {m : Nat → HVar} {i : Nat} {b : HVar} (h1 : (m i).Le b) (h2 : (m i).l1 ≤ b.l1)
    (h3 : Pos m → ∀ e ∈ b.halos, 0 ≤ e.2) : Ext m (setAt m i b) := by
  refine ⟨setAt_le h1, fun v => setAt_l1 h2, fun hp v e he => ?_⟩
  unfold setAt at he
  by_cases hv : v = i
  · rw [if_pos hv] at he; exact h3 hp e he
  · rw [if_neg hv] at he; exact hp v e he

theorem foldl_ext {β : Type} (f : (Nat → HVar) → β → Nat → HVar) (hf : ∀ m b, Ext m (f m b)) (l : List β) :
    ∀ m, Ext m (l.foldl f m) := by
  induction l with
  | nil => exact Ext.refl
  | cons b l ih => intro m; exact (hf m b).trans (ih _)

theorem foldl_ext_reach {β : Type} (f : (Nat → HVar) → β → Nat → HVar) (hf : ∀ m b, Ext m (f m b)) (l : List β)
    (P : (Nat → HVar) → Prop) (hP : ∀ m m', Ext m m' → P m → P m') (b : β) (hb : b ∈ l) (m0 : Nat → HVar)
    (hstep : ∀ m, Ext m0 m → P (f m b)) : P (l.foldl f m0) := by
  obtain ⟨l1, l2, rfl⟩ := List.append_of_mem hb
  rw [List.foldl_append, List.foldl_cons]
  exact hP _ _ (foldl_ext f hf l2 _) (hstep _ (foldl_ext f hf l1 _))

theorem updateOfs_pos {a : HVar} {st : Nat} {s : Option Int} {dom : List (String × Int)} (h : ∀ e ∈ a.halos, 0 ≤ e.2) :
    ∀ e ∈ (a.updateOfs st s dom).halos, 0 ≤ e.2 := by
  rintro ⟨k, x⟩ he
  unfold HVar.updateOfs HVar.updateL1 at he
  rcases foldl_raise_mem dom (fun d => (⟨st, decide (d.2 ≤ 0), s.getD 0, d.1⟩ : HKey))
    (fun d => if d.2 < 0 then - d.2 else d.2) he with h1 | ⟨e, he, h1, h2⟩
  · exact h _ h1
  · simp only at h2 ⊢
    rw [h2]
    split_ifs <;> omega

theorem updateVar_pos {a b : HVar} (ha : ∀ e ∈ a.halos, 0 ≤ e.2) (hb : ∀ e ∈ b.halos, 0 ≤ e.2) :
    ∀ e ∈ (a.updateVar b).halos, 0 ≤ e.2 := by
  rintro ⟨k, x⟩ he
  rcases updateVar_mem he with h | h
  · exact ha _ h
  · exact hb _ h

theorem updateVar_l1_other (v o : HVar) : o.l1 ≤ (v.updateVar o).l1 := by
  unfold HVar.updateVar HVar.updateL1
  exact le_max_right _ _

theorem updateL1_l1 (v : HVar) (d : Int) : v.l1 ≤ (v.updateL1 d).l1 ∧ d ≤ (v.updateL1 d).l1 :=
  ⟨le_max_left _ _, le_max_right _ _⟩

theorem phase2Pt_ext (st : Nat) (lo ro : List (String × Int)) (l1 : Int) (m : Nat → HVar) (p : Pt) :
    Ext m (phase2Pt st lo ro l1 m p) :=
  setAt_ext (((updateOfs_le _ _ _ _).trans (updateOfs_le _ _ _ _)).trans (updateL1_le _ _))
    (le_trans (updateOfs_l1 _ _ _ _).1 (le_trans (updateOfs_l1 _ _ _ _).1 (updateL1_l1 _ _).1))
    (fun hp => updateOfs_pos (updateOfs_pos (hp p.var)))

theorem evened_ext (m : Nat → HVar) (e1 : PEq) (rest : List PEq) : Ext m (evened m e1 rest) :=
  (foldl_ext (fun m (e2 : PEq) => setAt m e1.lhs.var ((m e1.lhs.var).updateVar (m e2.lhs.var)))
      (fun m e => setAt_ext (updateVar_le _ _) (updateVar_l1 _ _) fun hp => updateVar_pos (hp _) (hp _)) rest m).trans
    (foldl_ext (fun m (e2 : PEq) => setAt m e2.lhs.var ((m e2.lhs.var).updateVar (m e1.lhs.var)))
      (fun m e => setAt_ext (updateVar_le _ _) (updateVar_l1 _ _) fun hp => updateVar_pos (hp _) (hp _)) rest _)

/-- The first output gets what any output has. -/
theorem evened_ge (m : Nat → HVar) (e1 : PEq) (rest : List PEq) (e : PEq) (he : e ∈ e1 :: rest) :
    (m e.lhs.var).Le (evened m e1 rest e1.lhs.var) ∧ (m e.lhs.var).l1 ≤ (evened m e1 rest e1.lhs.var).l1 := by
  rcases List.mem_cons.1 he with rfl | he
  · exact ⟨(evened_ext m _ _).1 _, (evened_ext m _ _).2.1 _⟩
  · unfold evened
    have h2 := foldl_ext (fun m (e2 : PEq) => setAt m e2.lhs.var ((m e2.lhs.var).updateVar (m e1.lhs.var)))
      (fun m e => setAt_ext (updateVar_le _ _) (updateVar_l1 _ _) fun hp => updateVar_pos (hp _) (hp _)) rest
      (rest.foldl (fun m e2 => setAt m e1.lhs.var ((m e1.lhs.var).updateVar (m e2.lhs.var))) m)
    have h1 := foldl_ext_reach (fun m (e2 : PEq) => setAt m e1.lhs.var ((m e1.lhs.var).updateVar (m e2.lhs.var)))
      (fun m e => setAt_ext (updateVar_le _ _) (updateVar_l1 _ _) fun hp => updateVar_pos (hp _) (hp _)) rest
      (fun m' => (m e.lhs.var).Le (m' e1.lhs.var) ∧ (m e.lhs.var).l1 ≤ (m' e1.lhs.var).l1)
      (fun a b hab h => ⟨h.1.trans (hab.1 _), le_trans h.2 (hab.2.1 _)⟩) e he m (fun m' hm' => by
        simp only [setAt, if_true]
        exact ⟨(hm'.1 _).trans (updateVar_other _ _), le_trans (hm'.2.1 _) (updateVar_l1_other _ _)⟩)
    exact ⟨h1.1.trans (h2.1 _), le_trans h1.2 (h2.2.1 _)⟩

theorem phase2Part_ext (st : Nat) (m : Nat → HVar) (part : List PEq) : Ext m (phase2Part st m part) := by
  cases part with
  | nil => exact Ext.refl m
  | cons e1 rest =>
    rw [phase2Part_eq]
    exact (evened_ext m e1 rest).trans (foldl_ext _ (fun m p => phase2Pt_ext _ _ _ _ m p) _ _)

theorem scrStep_ext (S : HSys) (st s : HStage) (m : Nat → HVar) : Ext m (S.scrStep st s m) := by
  unfold HSys.scrStep
  by_cases h : s.id ∈ S.scrDeps st.id
  · rw [if_pos h]; exact foldl_ext _ (fun m p => phase2Part_ext _ m p) _ _
  · rw [if_neg h]; exact Ext.refl m

theorem foldr_scrStep_ext (S : HSys) (st : HStage) (T : List HStage) (m : Nat → HVar) :
    Ext m (T.foldr (S.scrStep st) m) := by
  induction T with
  | nil => exact Ext.refl m
  | cons s T ih => exact ih.trans (scrStep_ext S st s _)

theorem phase1Eq_ext (st : Nat) (m : Nat → HVar) (e : PEq) : Ext m (phase1Eq st m e) := by
  unfold phase1Eq
  simp only
  refine (foldl_ext (fun m (p : Pt) => setAt m p.var ((m p.var).updateOfs st p.step p.dom))
    (fun m p => setAt_ext (updateOfs_le _ _ _ _) (updateOfs_l1 _ _ _ _).1 fun hp => updateOfs_pos (hp _)) (e.lhs :: e.rhs) m).trans
    (setAt_ext (updateWrite_le _ _ _) (by rw [updateWrite_l1]) fun hp => ?_)
  have : ∀ (v : HVar) (s : Option Int), (v.updateWrite st s).halos = v.halos := by
    intro v s; cases s <;> rfl
  rw [this]
  exact hp _

theorem phase1_pos (S : HSys) : Pos S.phase1 := by
  unfold HSys.phase1
  refine (foldl_ext (fun m (st : HStage) => (S.reqd st).foldl (fun m (r : HStage) => r.eqs.foldl (phase1Eq st.id) m) m)
    (fun m st => foldl_ext (fun m (r : HStage) => r.eqs.foldl (phase1Eq st.id) m)
      (fun m r => foldl_ext _ (fun m e => phase1Eq_ext _ m e) _ _) _ _) _ _).2.2 ?_
  intro v e he
  cases he

/-- Distances of all reads that a non-scratch stage needs are recorded. -/
theorem phase1_l1' (S : HSys) (st : HStage) (hst : st ∈ S.stages) (hsc : st.scr = false) (r : HStage)
    (hr : r ∈ S.stages) (hrd : r = st ∨ r.id ∈ S.scrDeps st.id) (e : PEq) (he : e ∈ r.eqs) (p : Pt) (hp : p ∈ e.lhs :: e.rhs) :
    ((p.dom.filter fun d => d.2 ≠ 0).length : Int) ≤ (S.phase1 p.var).l1 := by
  have hle1 : ∀ (i : Nat) (m : Nat → HVar) (r : HStage), Ext m (r.eqs.foldl (phase1Eq i) m) :=
    fun i m r => foldl_ext _ (fun m e => phase1Eq_ext _ m e) _ _
  have hmono : ∀ m m' : Nat → HVar, Ext m m' → ((p.dom.filter fun d => d.2 ≠ 0).length : Int) ≤ (m p.var).l1 →
      ((p.dom.filter fun d => d.2 ≠ 0).length : Int) ≤ (m' p.var).l1 := fun m m' h h1 => le_trans h1 (h.2.1 _)
  unfold HSys.phase1
  refine foldl_ext_reach _ (fun m st => foldl_ext _ (fun m r => hle1 _ m r) _ _) _
    (fun m => ((p.dom.filter fun d => d.2 ≠ 0).length : Int) ≤ (m p.var).l1) hmono st
    (List.mem_filter.2 ⟨hst, by simp [hsc]⟩) _ ?_
  intro m _
  have hmem : r ∈ S.reqd st := by
    unfold HSys.reqd
    rcases hrd with rfl | h
    · exact List.mem_cons_self
    · exact List.mem_cons_of_mem _ (List.mem_filter.2 ⟨hr, by simpa using h⟩)
  refine foldl_ext_reach _ (fun m r => hle1 _ m r) _
    (fun m => ((p.dom.filter fun d => d.2 ≠ 0).length : Int) ≤ (m p.var).l1) hmono r hmem _ ?_
  intro m _
  refine foldl_ext_reach _ (fun m e => phase1Eq_ext _ m e) _
    (fun m => ((p.dom.filter fun d => d.2 ≠ 0).length : Int) ≤ (m p.var).l1) hmono e he _ ?_
  intro m _
  unfold phase1Eq
  refine le_trans ?_ (setAt_l1 (by rw [updateWrite_l1]))
  refine foldl_ext_reach (fun m (p : Pt) => setAt m p.var ((m p.var).updateOfs st.id p.step p.dom))
    (fun m p => setAt_ext (updateOfs_le _ _ _ _) (updateOfs_l1 _ _ _ _).1 fun hp => updateOfs_pos (hp _)) _
    (fun m => ((p.dom.filter fun d => d.2 ≠ 0).length : Int) ≤ (m p.var).l1) hmono p hp _ ?_
  intro m _
  simp only [setAt, if_true]
  exact (updateOfs_l1 _ _ _ _).2

theorem calcHalos_l1_ge (S : HSys) (st : HStage) (hst : st ∈ S.stages) (hsc : st.scr = false) (v : Nat) :
    (S.phase2 S.phase1 st v).l1 ≤ (S.calcHalos v).l1 := by
  unfold HSys.calcHalos
  exact foldl_l1_reach (fun (m : Nat → HVar) (st : HStage) => fun v => (m v).updateVar (S.phase2 S.phase1 st v)) v
    (fun m st => updateVar_l1 _ _) _ _ st (List.mem_filter.2 ⟨hst, by simp [hsc]⟩) (fun m => updateVar_l1_other _ _) _

/-! ### One link of a chain -/

/-- The distance covers the dims with a displacement to the left and those with one to the right. -/
def Wide (a : HVar) (ds : List String) (d : String → Int) : Prop :=
  ((ds.filter fun n => d n < 0).length : Int) ≤ a.l1 ∧ ((ds.filter fun n => 0 < d n).length : Int) ≤ a.l1

theorem Wide.mono {a b : HVar} {ds : List String} {d : String → Int} (h : a.l1 ≤ b.l1) (hw : Wide a ds d) : Wide b ds d :=
  ⟨le_trans hw.1 h, le_trans hw.2 h⟩

theorem count_sub {ds : List String} (hd : ds.Nodup) (q : String → Bool) (dom : List (String × Int))
    (h : ∀ n ∈ ds, q n = true → ∃ x, (n, x) ∈ dom ∧ x ≠ 0) :
    (ds.filter q).length ≤ (dom.filter fun d => d.2 ≠ 0).length := by
  have : (ds.filter q) ⊆ (dom.filter fun d => d.2 ≠ 0).map Prod.fst := by
    intro n hn
    obtain ⟨h1, h2⟩ := List.mem_filter.1 hn
    obtain ⟨x, hx, hx0⟩ := h n h1 h2
    exact List.mem_map.2 ⟨(n, x), List.mem_filter.2 ⟨hx, by simpa using hx0⟩, rfl⟩
  have := (List.subperm_of_subset (hd.filter _) this).length_le
  rwa [List.length_map] at this

theorem raise_pos {κ : Type} [DecidableEq κ] {t : List (κ × Int)} {k : κ} {v : Int} (ht : ∀ e ∈ t, 0 ≤ e.2) (hv : 0 ≤ v) :
    ∀ e ∈ raise t k v, 0 ≤ e.2 := by
  rintro ⟨k', x⟩ he
  rcases raise_mem he with h | ⟨_, h⟩
  · exact ht _ h
  · rw [h]; exact hv

theorem sizes_pos {a : HVar} (h : ∀ e ∈ a.halos, 0 ≤ e.2) (st : Nat) (left : Bool) :
    ∀ e ∈ a.sizes st left, 0 ≤ e.2 := by
  unfold HVar.sizes
  have key : ∀ (l : List (HKey × Int)), (∀ e ∈ l, 0 ≤ e.2) → ∀ t : List (String × Int), (∀ e ∈ t, 0 ≤ e.2) →
      ∀ e ∈ l.foldl (fun t e => if e.1.stage = st ∧ e.1.left = left then raise t e.1.dim e.2 else t) t, 0 ≤ e.2 := by
    intro l
    induction l with
    | nil => intro _ t ht; exact ht
    | cons b l ih =>
      intro hl t ht
      rw [List.foldl_cons]
      apply ih (fun e he => hl e (List.mem_cons_of_mem _ he))
      split_ifs
      · exact raise_pos ht (hl b List.mem_cons_self)
      · exact ht
  exact key _ h [] (fun _ h => by cases h)

theorem phase2Pt_wide (st : Nat) (ov : HVar) (l1 : Int) (m : Nat → HVar) (p : Pt) (ds : List String) (hd : ds.Nodup)
    (d : String → Int) (hn : ∀ n ∈ ds, n ∈ p.dom.map Prod.fst) (hpos : ∀ e ∈ ov.halos, 0 ≤ e.2)
    (ho : ∀ n ∈ ds, Reaches ov st n (d n)) :
    Wide (phase2Pt st (ov.sizes st true) (ov.sizes st false) l1 m p p.var) ds (fun n => d n + p.at n) ∧
    l1 ≤ (phase2Pt st (ov.sizes st true) (ov.sizes st false) l1 m p p.var).l1 := by
  unfold phase2Pt setAt
  rw [if_pos rfl]
  refine ⟨⟨?_, ?_⟩, (updateL1_l1 _ _).2⟩
  · refine le_trans ?_ (le_trans (updateOfs_l1 _ _ _ _).2 (le_trans (updateOfs_l1 _ _ _ _).1 (updateL1_l1 _ _).1))
    refine Int.ofNat_le.2 (count_sub hd _ _ fun n hnd hq => ?_)
    refine ⟨_, combineOfs_mem (pt_mem (hn n hnd)), ?_⟩
    simp only [decide_eq_true_eq] at hq
    by_cases hx : d n ≤ 0
    · obtain ⟨s, hs⟩ := (ho n hnd).1 hx
      obtain ⟨y, hy, hxy⟩ := sizes_cov hs
      rw [hy]
      simp only
      omega
    · cases hl : (ov.sizes st true).lookup n with
      | none => simp only; omega
      | some y =>
        have : (0 : Int) ≤ y := sizes_pos hpos st true _ (lookup_mem hl)
        simp only
        omega
  · refine le_trans ?_ (le_trans (updateOfs_l1 _ _ _ _).2 (updateL1_l1 _ _).1)
    refine Int.ofNat_le.2 (count_sub hd _ _ fun n hnd hq => ?_)
    refine ⟨_, combineOfs_mem (pt_mem (hn n hnd)), ?_⟩
    simp only [decide_eq_true_eq] at hq
    by_cases hx : d n ≤ 0
    · cases hl : (ov.sizes st false).lookup n with
      | none => simp only; omega
      | some y =>
        have : (0 : Int) ≤ y := sizes_pos hpos st false _ (lookup_mem hl)
        simp only
        omega
    · obtain ⟨s, hs⟩ := (ho n hnd).2 (by omega)
      obtain ⟨y, hy, hxy⟩ := sizes_cov hs
      rw [hy]
      simp only
      omega

theorem phase2Part_wide (st : Nat) (m : Nat → HVar) (hm : Pos m) (part : List PEq) (e : PEq) (he : e ∈ part) (p : Pt)
    (hp : p ∈ e.rhs) (ds : List String) (hd : ds.Nodup) (d : String → Int) (hn : ∀ n ∈ ds, n ∈ p.dom.map Prod.fst)
    (ho : ∀ n ∈ ds, Reaches (m e.lhs.var) st n (d n)) :
    Wide (phase2Part st m part p.var) ds (fun n => d n + p.at n) ∧ (m e.lhs.var).l1 ≤ (phase2Part st m part p.var).l1 := by
  cases part with
  | nil => cases he
  | cons e1 rest =>
    rw [phase2Part_eq]
    obtain ⟨hge, hgl⟩ := evened_ge m e1 rest e he
    have hpos := (evened_ext m e1 rest).2.2 hm
    refine foldl_ext_reach _ (fun m p => phase2Pt_ext _ _ _ _ m p) _
      (fun m' => Wide (m' p.var) ds (fun n => d n + p.at n) ∧ (m e.lhs.var).l1 ≤ (m' p.var).l1)
      (fun a b hab h => ⟨h.1.mono (hab.2.1 _), le_trans h.2 (hab.2.1 _)⟩) p (List.mem_flatMap.2 ⟨e, he, hp⟩) _ ?_
    intro m' _
    obtain ⟨h1, h2⟩ := phase2Pt_wide st (evened m e1 rest e1.lhs.var) (evened m e1 rest e1.lhs.var).l1 m' p ds hd d hn
      (hpos _) (fun n hnd => (ho n hnd).mono hge)
    exact ⟨h1, le_trans hgl h2⟩

theorem scrStep_wide (S : HSys) (st s : HStage) (hs : s.id ∈ S.scrDeps st.id) (m : Nat → HVar) (hm : Pos m) (e : PEq)
    (he : e ∈ s.eqs) (p : Pt) (hp : p ∈ e.rhs) (ds : List String) (hd : ds.Nodup) (d : String → Int)
    (hn : ∀ n ∈ ds, n ∈ p.dom.map Prod.fst) (ho : ∀ n ∈ ds, Reaches (m e.lhs.var) st.id n (d n)) :
    Wide (S.scrStep st s m p.var) ds (fun n => d n + p.at n) ∧ (m e.lhs.var).l1 ≤ (S.scrStep st s m p.var).l1 := by
  unfold HSys.scrStep
  rw [if_pos hs]
  obtain ⟨part, hpart, hep⟩ := List.mem_flatten.1 he
  refine foldl_ext_reach _ (fun m p => phase2Part_ext _ m p) _
    (fun m' => Wide (m' p.var) ds (fun n => d n + p.at n) ∧ (m e.lhs.var).l1 ≤ (m' p.var).l1)
    (fun a b hab h => ⟨h.1.mono (hab.2.1 _), le_trans h.2 (hab.2.1 _)⟩) part hpart m ?_
  intro m' hm'
  obtain ⟨h1, h2⟩ := phase2Part_wide st.id m' (hm'.2.2 hm) part e hep p hp ds hd d hn
    (fun n hnd => (ho n hnd).mono (hm'.1 _))
  exact ⟨h1, le_trans (hm'.2.1 _) h2⟩

/-! ### Chains -/

/-- `NeedIn` with the reads. -/
inductive NeedVia (S : HSys) (scr : Nat → Bool) (st : HStage) (T : List HStage) : Nat → (String → Int) → List Pt → Prop
  | direct {e : PEq} {p : Pt} : e ∈ st.eqs → p ∈ e.rhs → NeedVia S scr st T p.var p.at [p]
  | scratch {v : Nat} {d : String → Int} {ps : List Pt} {s : HStage} {e : PEq} {p : Pt} : NeedVia S scr st T v d ps →
      scr v = true → s ∈ T → s.id ∈ S.scrDeps st.id → e ∈ s.eqs → e.lhs.var = v → p ∈ e.rhs →
      NeedVia S scr st T p.var (fun n => d n + p.at n) (p :: ps)

theorem NeedVia.needIn {S : HSys} {scr : Nat → Bool} {st : HStage} {T : List HStage} {v : Nat} {d : String → Int} {ps : List Pt}
    (h : NeedVia S scr st T v d ps) : NeedIn S scr st T v d := by
  induction h with
  | direct he hp => exact .direct he hp
  | scratch _ hv hs hd he hev hp ih => exact .scratch ih hv hs hd he hev hp

theorem needVia_tail {S : HSys} {scr : Nat → Bool} {st s : HStage} {T : List HStage}
    (hord : (s :: T).Pairwise fun s r => ∀ e ∈ s.eqs, ∀ p ∈ e.rhs, scr p.var = true → ∀ e' ∈ r.eqs, e'.lhs.var ≠ p.var)
    (hself : ∀ e ∈ s.eqs, ∀ p ∈ e.rhs, scr p.var = true → ∀ e' ∈ s.eqs, e'.lhs.var ≠ p.var)
    {v : Nat} {d : String → Int} {ps : List Pt} (h : NeedVia S scr st (s :: T) v d ps) (hv : scr v = true) :
    ∀ s2 ∈ s :: T, ∀ e2 ∈ s2.eqs, e2.lhs.var = v → NeedVia S scr st T v d ps := by
  induction h with
  | direct he hp => intro _ _ _ _ _; exact .direct he hp
  | @scratch u d0 ps r e p hu hus hr hrd he heu hp ih =>
    intro s2 hs2 e2 he2 h2
    have hrT : r ∈ T := by
      rcases List.mem_cons.1 hr with rfl | h
      · exfalso
        rcases List.mem_cons.1 hs2 with rfl | hs2
        · exact hself e he p hp hv e2 he2 h2
        · exact (List.pairwise_cons.1 hord).1 s2 hs2 e he p hp hv e2 he2 h2
      · exact h
    exact .scratch (ih hus r hr e he heu) hus hrT hrd he heu hp

theorem needVia_wide {S : HSys} {scr : Nat → Bool} {dims : Nat → List String} (hS : Staged S scr dims)
    (hd : ∀ v, (dims v).Nodup) {st : HStage} (hst : st ∈ S.stages) (real : Nat → HVar) (hpos : Pos real)
    (hreal : ∀ r ∈ S.stages, (r = st ∨ r.id ∈ S.scrDeps st.id) → ∀ e ∈ r.eqs, ∀ p ∈ e.rhs, ∀ n ∈ dims p.var,
      Reaches (real p.var) st.id n (p.at n))
    (hl1 : ∀ r ∈ S.stages, (r = st ∨ r.id ∈ S.scrDeps st.id) → ∀ e ∈ r.eqs, ∀ p ∈ e.rhs,
      ((p.dom.filter fun d => d.2 ≠ 0).length : Int) ≤ (real p.var).l1) :
    ∀ T, T <:+ S.stages → ∀ v d ps, NeedVia S scr st T v d ps →
      Wide (T.foldr (S.scrStep st) real v) (dims v) d ∧
      ∀ q ∈ ps, (rankDist (dims q.var) q.at : Int) ≤ (T.foldr (S.scrStep st) real v).l1 := by
  have husd : ∀ s ∈ S.stages, ∀ e ∈ s.eqs, ∀ p ∈ e.rhs, ∀ n ∈ dims p.var, n ∈ p.dom.map Prod.fst := by
    intro s hs e he p hp n hn
    exact (hS.used e (List.mem_flatMap.2 ⟨s, hs, he⟩) p (List.mem_cons_of_mem _ hp) n).2 hn
  -- a direct read
  have hdir : ∀ r ∈ S.stages, (r = st ∨ r.id ∈ S.scrDeps st.id) → ∀ e ∈ r.eqs, ∀ p ∈ e.rhs,
      Wide (real p.var) (dims p.var) p.at ∧ (rankDist (dims p.var) p.at : Int) ≤ (real p.var).l1 := by
    intro r hr hrd e he p hp
    have h1 := hl1 r hr hrd e he p hp
    have h2 : ∀ q : String → Bool, (∀ n, q n = true → p.at n ≠ 0) →
        (((dims p.var).filter q).length : Int) ≤ (real p.var).l1 := by
      intro q hq
      refine le_trans (Int.ofNat_le.2 (count_sub (hd p.var) q p.dom fun n hn hqn => ?_)) h1
      exact ⟨_, pt_mem (husd r hr e he p hp n hn), hq n hqn⟩
    refine ⟨⟨h2 _ fun n hn => ?_, h2 _ fun n hn => ?_⟩, ?_⟩
    · simp only [decide_eq_true_eq] at hn; omega
    · simp only [decide_eq_true_eq] at hn; omega
    · exact h2 _ fun n hn => by simpa using hn
  intro T
  induction T with
  | nil =>
    intro _ v d ps h
    cases h with
    | direct he hp =>
      obtain ⟨h1, h2⟩ := hdir st hst (.inl rfl) _ he _ hp
      refine ⟨h1, fun q hq => ?_⟩
      rw [List.mem_singleton] at hq
      subst hq
      exact h2
    | scratch _ _ hs => cases hs
  | cons s T ihT =>
    intro hsuf v d ps h
    have hsT : T <:+ S.stages := (List.suffix_cons s T).trans hsuf
    have hs : s ∈ S.stages := hsuf.subset List.mem_cons_self
    have hext := foldr_scrStep_ext S st T real
    have hstep := scrStep_ext S st s (T.foldr (S.scrStep st) real)
    rw [List.foldr_cons]
    cases h with
    | direct he hp =>
      obtain ⟨h1, h2⟩ := hdir st hst (.inl rfl) _ he _ hp
      refine ⟨h1.mono ((hext.trans hstep).2.1 _), fun q hq => ?_⟩
      rw [List.mem_singleton] at hq
      subst hq
      exact le_trans h2 ((hext.trans hstep).2.1 _)
    | @scratch u d0 ps0 r e p hu hus hr hrd he heu hp =>
      have hord := hS.order.sublist hsuf.sublist
      have hu' := needVia_tail hord (hS.self s hs) hu hus r hr e he heu
      obtain ⟨hwu, hlu⟩ := ihT hsT u d0 ps0 hu'
      rcases List.mem_cons.1 hr with rfl | hrT
      · have hru := needIn_reaches hS hst real hreal T hsT u d0 hu'.needIn
        obtain ⟨h1, h2⟩ := scrStep_wide S st r hrd (T.foldr (S.scrStep st) real) (hext.2.2 hpos) e he p hp (dims p.var)
          (hd _) d0 (fun n hn => husd r hs e he p hp n hn) (fun n hn => by
            rw [heu]; exact hru n (hS.full u p.var hus n hn))
        refine ⟨h1, fun q hq => ?_⟩
        rcases List.mem_cons.1 hq with rfl | hq
        · exact le_trans (hdir r hs (.inr hrd) e he q hp).2 ((hext.trans hstep).2.1 _)
        · rw [heu] at h2
          exact le_trans (hlu q hq) h2
      · obtain ⟨h1, h2⟩ := ihT hsT _ _ _ (.scratch hu' hus hrT hrd he heu hp)
        exact ⟨h1.mono (hstep.2.1 _), fun q hq => le_trans (h2 q hq) (hstep.2.1 _)⟩

theorem neededVia_in {S : HSys} {scr : Nat → Bool} {dims : Nat → List String} (hS : Staged S scr dims) {v : Nat}
    {d : String → Int} {ps : List Pt} (h : NeededVia (allEqs S) scr v d ps) :
    ∃ st ∈ S.stages, st.scr = false ∧ NeedVia S scr st S.stages v d ps ∧
      (scr v = true → ∀ s ∈ S.stages, ∀ e' ∈ s.eqs, e'.lhs.var = v → s.id ∈ S.scrDeps st.id) := by
  induction h with
  | @direct e p he hsc hp =>
    obtain ⟨st, hst, hes⟩ := List.mem_flatMap.1 he
    have hk : st.scr = false := by rw [← hS.kind st hst e hes]; exact hsc
    exact ⟨st, hst, hk, .direct hes hp, fun hv s hs e' he' h' => hS.closed st hst hk st hst (.inl rfl) e hes p hp hv s hs e' he' h'⟩
  | @scratch u d0 ps e p hu hus he heu hp ih =>
    obtain ⟨st, hst, hk, hin, hcl⟩ := ih
    obtain ⟨r, hr, her⟩ := List.mem_flatMap.1 he
    have hrd := hcl hus r hr e her heu
    exact ⟨st, hst, hk, .scratch hin hus hr hrd her heu hp,
      fun hv s hs e' he' h' => hS.closed st hst hk r hr (.inr hrd) e her p hp hv s hs e' he' h'⟩

theorem needed_wide {S : HSys} {scr : Nat → Bool} {dims : Nat → List String} (hS : Staged S scr dims)
    (hd : ∀ v, (dims v).Nodup) {v : Nat} {d : String → Int} {ps : List Pt} (h : NeededVia (allEqs S) scr v d ps) :
    Wide (S.calcHalos v) (dims v) d ∧ ∀ q ∈ ps, (rankDist (dims q.var) q.at : Int) ≤ (S.calcHalos v).l1 := by
  obtain ⟨st, hst, hk, hin, _⟩ := neededVia_in hS h
  have h1 := needVia_wide hS hd hst S.phase1 (phase1_pos S) (fun r hr hrd e he p hp n hn =>
    phase1_reaches S st hst hk r hr hrd e he p (List.mem_cons_of_mem _ hp) n
      ((hS.used e (List.mem_flatMap.2 ⟨r, hr, he⟩) p (List.mem_cons_of_mem _ hp) n).2 hn))
    (fun r hr hrd e he p hp => phase1_l1' S st hst hk r hr hrd e he p (List.mem_cons_of_mem _ hp)) S.stages
    (List.suffix_refl _) v d ps hin
  rw [← phase2_eq] at h1
  have h2 := calcHalos_l1_ge S st hst hk v
  exact ⟨h1.1.mono h2, fun q hq => le_trans (h1.2 q hq) h2⟩

/-- Every var of a chain but the last is a scratch var. -/
theorem via_scr {S : HSys} {scr : Nat → Bool} {v : Nat} {d : String → Int} {ps : List Pt}
    (h : NeededVia (allEqs S) scr v d ps) : ∀ q ∈ ps, q.var = v ∨ scr q.var = true := by
  induction h with
  | direct _ _ _ =>
    intro q hq
    rw [List.mem_singleton] at hq
    left; rw [hq]
  | @scratch u d0 ps e p hu hus he heu hp ih =>
    intro q hq
    rcases List.mem_cons.1 hq with rfl | hq
    · left; rfl
    · rcases ih q hq with h | h
      · right; rw [h]; exact hus
      · right; exact h

end Yask.Comp
