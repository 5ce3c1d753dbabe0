import Verif.Compiler.MergeModel
import Verif.Compiler.HaloL1Lemmas

/-! Helper lemmas: the halos of a var with misc dims cover those of its slices. -/

namespace Yask.Comp
open Spec

section
variable {κ : Type} [DecidableEq κ]

theorem raise_inv {h : List (κ × Int)} {k k' : κ} {v x : Int} (hc : Cov (raise h k v) k' x) : Cov h k' x ∨ k' = k ∧ x ≤ v := by
  obtain ⟨y, hy, hx⟩ := hc
  unfold raise at hy
  split_ifs at hy with ha
  · obtain ⟨e, he, h1⟩ := List.mem_map.1 hy
    split_ifs at h1 with h2 h3
    · injection h1 with h4 h5
      exact .inr ⟨h4.symm.trans h2, by omega⟩
    · injection h1 with h4 h5
      exact .inl ⟨e.2, by rw [← h4]; exact he, by omega⟩
    · exact .inl ⟨y, by rw [← h1]; exact he, hx⟩
  · rcases List.mem_append.1 hy with h1 | h1
    · exact .inl ⟨y, h1, hx⟩
    · obtain ⟨rfl, rfl⟩ := Prod.mk.inj (List.mem_singleton.1 h1)
      exact .inr ⟨rfl, hx⟩

theorem foldl_raise_inv {β : Type} (l : List β) (f : β → κ) (g : β → Int) : ∀ {h : List (κ × Int)} {k : κ} {x : Int},
    Cov (l.foldl (fun h b => raise h (f b) (g b)) h) k x → Cov h k x ∨ ∃ b ∈ l, k = f b ∧ x ≤ g b := by
  induction l with
  | nil => intro h k x hc; exact .inl hc
  | cons b l ih =>
    intro h k x hc
    rcases ih hc with h1 | ⟨c, h1, h2⟩
    · rcases raise_inv h1 with h2 | h2
      · exact .inl h2
      · exact .inr ⟨b, List.mem_cons_self, h2⟩
    · exact .inr ⟨c, List.mem_cons_of_mem _ h1, h2⟩

end

/-- Nothing in `a` is larger than in `b`, including the distance. -/
def HVar.Below (a b : HVar) : Prop := a.Le b ∧ a.l1 ≤ b.l1

theorem HVar.Below.trans {a b c : HVar} (h1 : a.Below b) (h2 : b.Below c) : a.Below c := ⟨h1.1.trans h2.1, h1.2.trans h2.2⟩

theorem updateOfs_below {a b : HVar} (h : a.Below b) (st : Nat) (s : Option Int) (dom : List (String × Int)) :
    (a.updateOfs st s dom).Below (b.updateOfs st s dom) := by
  refine ⟨fun k x hc => ?_, ?_⟩
  · unfold HVar.updateOfs HVar.updateL1 at hc
    rcases foldl_raise_inv dom _ _ hc with h1 | ⟨d, h1, rfl, h3⟩
    · exact updateOfs_le _ _ _ _ _ _ (h.1 _ _ h1)
    · exact (updateOfs_cov b st s dom d.1 d.2 h1).weaken h3
  · unfold HVar.updateOfs HVar.updateL1
    exact max_le_max h.2 (le_refl _)

theorem below_updateOfs (b : HVar) (st : Nat) (s : Option Int) (dom : List (String × Int)) : b.Below (b.updateOfs st s dom) :=
  ⟨updateOfs_le _ _ _ _, le_max_left _ _⟩

theorem updateVar_below {a b o o' : HVar} (h : a.Below b) (h' : o.Below o') : (a.updateVar o).Below (b.updateVar o') := by
  refine ⟨fun k x hc => ?_, max_le_max h.2 h'.2⟩
  unfold HVar.updateVar HVar.updateL1 at hc
  rcases foldl_raise_inv o.halos (fun e => e.1) (fun e => e.2) hc with h1 | ⟨d, h1, rfl, h3⟩
  · exact updateVar_le _ _ _ _ (h.1 _ _ h1)
  · exact updateVar_other b o' _ _ (h'.1 _ _ ⟨d.2, h1, h3⟩)

theorem updateWrite_halos (a : HVar) (st : Nat) (s : Option Int) : (a.updateWrite st s).halos = a.halos ∧ (a.updateWrite st s).l1 = a.l1 := by
  unfold HVar.updateWrite
  cases s <;> exact ⟨rfl, rfl⟩

theorem updateWrite_below {a b : HVar} (h : a.Below b) (st st' : Nat) (s s' : Option Int) : (a.updateWrite st s).Below (b.updateWrite st' s') := by
  unfold HVar.Below HVar.Le
  rw [(updateWrite_halos a st s).1, (updateWrite_halos a st s).2, (updateWrite_halos b st' s').1, (updateWrite_halos b st' s').2]
  exact h

/-- The vars of `m` are below those of `m'` that they are renamed to. -/
def RenBelow (φ : Nat → Nat) (m m' : Nat → HVar) : Prop := ∀ v, (m v).Below (m' (φ v))

variable {φ : Nat → Nat}

theorem setAt_below {m m' : Nat → HVar} (h : RenBelow φ m m') {i : Nat} {a b : HVar} (hab : a.Below b) (hb : (m' (φ i)).Below b) :
    RenBelow φ (setAt m i a) (setAt m' (φ i) b) := by
  intro v
  unfold setAt
  by_cases hv : v = i
  · subst hv
    rw [if_pos rfl, if_pos rfl]
    exact hab
  · rw [if_neg hv]
    split_ifs with h2
    · exact (h v).trans (h2 ▸ hb)
    · exact h v

theorem points_below (st : Nat) (ps : List Pt) : ∀ {m m' : Nat → HVar}, RenBelow φ m m' →
    RenBelow φ (ps.foldl (fun m p => setAt m p.var ((m p.var).updateOfs st p.step p.dom)) m)
      ((ps.map (Pt.ren φ)).foldl (fun m p => setAt m p.var ((m p.var).updateOfs st p.step p.dom)) m') := by
  induction ps with
  | nil => intro m m' h; exact h
  | cons p ps ih =>
    intro m m' h
    exact ih (setAt_below h (updateOfs_below (h p.var) _ _ _) (below_updateOfs _ _ _ _))

theorem phase1Eq_below (st : Nat) (e : PEq) {m m' : Nat → HVar} (h : RenBelow φ m m') : RenBelow φ (phase1Eq st m e) (phase1Eq st m' (e.ren φ)) := by
  have h1 := points_below st (e.lhs :: e.rhs) h
  unfold phase1Eq
  refine setAt_below h1 (updateWrite_below (h1 _) _ _ _ _) ?_
  unfold HVar.Below HVar.Le
  rw [(updateWrite_halos _ _ _).1, (updateWrite_halos _ _ _).2]
  exact ⟨fun _ _ h => h, le_refl _⟩

theorem eqs_below (st : Nat) (es : List PEq) : ∀ {m m' : Nat → HVar}, RenBelow φ m m' →
    RenBelow φ (es.foldl (phase1Eq st) m) ((es.map (PEq.ren φ)).foldl (phase1Eq st) m') := by
  induction es with
  | nil => intro m m' h; exact h
  | cons e es ih => intro m m' h; exact ih (phase1Eq_below st e h)

theorem ren_eqs (s : HStage) : (s.ren φ).eqs = s.eqs.map (PEq.ren φ) := by
  unfold HStage.eqs HStage.ren
  simp [List.map_flatten]

theorem ren_main (S : HSys) : ((S.ren φ).stages.filter fun s => !s.scr) = (S.stages.filter fun s => !s.scr).map (HStage.ren φ) := by
  unfold HSys.ren
  simp only [List.filter_map]
  rfl

theorem ren_reqd (S : HSys) (st : HStage) : (S.ren φ).reqd (st.ren φ) = (S.reqd st).map (HStage.ren φ) := by
  unfold HSys.reqd HSys.ren
  simp only [List.filter_map, List.map_cons]
  rfl

theorem phase1_below (S : HSys) : RenBelow φ S.phase1 (S.ren φ).phase1 := by
  have inner : ∀ (st : Nat) (l : List HStage) {m m' : Nat → HVar}, RenBelow φ m m' →
      RenBelow φ (l.foldl (fun m r => r.eqs.foldl (phase1Eq st) m) m) ((l.map (HStage.ren φ)).foldl (fun m r => r.eqs.foldl (phase1Eq st) m) m') := by
    intro st l
    induction l with
    | nil => intro m m' h; exact h
    | cons r l ih =>
      intro m m' h
      refine ih ?_
      simp only [ren_eqs]
      exact eqs_below st _ h
  have outer : ∀ (l : List HStage) {m m' : Nat → HVar}, RenBelow φ m m' →
      RenBelow φ (l.foldl (fun m st => (S.reqd st).foldl (fun m r => r.eqs.foldl (phase1Eq st.id) m) m) m)
        ((l.map (HStage.ren φ)).foldl (fun m st => ((S.ren φ).reqd st).foldl (fun m r => r.eqs.foldl (phase1Eq st.id) m) m) m') := by
    intro l
    induction l with
    | nil => intro m m' h; exact h
    | cons r l ih =>
      intro m m' h
      refine ih ?_
      simp only [ren_reqd]
      exact inner r.id _ h
  unfold HSys.phase1
  rw [ren_main]
  exact outer _ fun v => ⟨fun _ _ h => h, le_refl _⟩

/-- Without scratch stages there is nothing to do in the second phase. -/
theorem phase2_none {S : HSys} (hs : ∀ i, S.scrDeps i = []) (m : Nat → HVar) (st : HStage) : S.phase2 m st = m := by
  unfold HSys.phase2
  have : ∀ l : List HStage, l.foldl (fun m s => if s.id ∈ S.scrDeps st.id then s.parts.foldl (phase2Part st.id) m else m) m = m := by
    intro l
    induction l with
    | nil => rfl
    | cons s l ih =>
      rw [List.foldl_cons, if_neg (by rw [hs]; exact List.not_mem_nil)]
      exact ih
  exact this _

theorem calcHalos_below {S : HSys} (hs : ∀ i, S.scrDeps i = []) : RenBelow φ S.calcHalos (S.ren φ).calcHalos := by
  unfold HSys.calcHalos
  have h1 := phase1_below (φ := φ) S
  have h2 : ∀ i, (S.ren φ).scrDeps i = [] := hs
  simp only [phase2_none hs, phase2_none h2]
  rw [ren_main]
  have : ∀ (l : List HStage) {m m' : Nat → HVar}, RenBelow φ m m' →
      RenBelow φ (l.foldl (fun m _ => fun v => (m v).updateVar (S.phase1 v)) m)
        ((l.map (HStage.ren φ)).foldl (fun m _ => fun v => (m v).updateVar ((S.ren φ).phase1 v)) m') := by
    intro l
    induction l with
    | nil => intro m m' h; exact h
    | cons s l ih => intro m m' h; exact ih fun v => updateVar_below (h v) (h1 v)
  exact this _ h1

theorem size_below {a b : HVar} (h : a.Le b) (d : String) (left : Bool) : a.size d left ≤ b.size d left := by
  have : ∀ (l : List (HKey × Int)) (x : Int), (∀ e ∈ l, e.1.dim = d → e.1.left = left → e.2 ≤ b.size d left) → x ≤ b.size d left →
      l.foldl (fun h e => if e.1.dim = d ∧ e.1.left = left then max h e.2 else h) x ≤ b.size d left := by
    intro l
    induction l with
    | nil => intro x _ hx; exact hx
    | cons e l ih =>
      intro x hl hx
      refine ih _ (fun e' he' => hl e' (List.mem_cons_of_mem _ he')) ?_
      simp only
      split_ifs with h1
      · exact max_le hx (hl e List.mem_cons_self h1.1 h1.2)
      · exact hx
  refine this a.halos 0 (fun e he h1 h2 => ?_) (size_nonneg _ _ _)
  have h3 := size_cov (h e.1 e.2 ⟨e.2, he, le_refl _⟩)
  rw [h1, h2] at h3
  exact h3

/-- The halos and the distance that are announced for a var with misc dims cover each of its slices. -/
theorem merged_halos {S : HSys} (hs : ∀ i, S.scrDeps i = []) (v : Nat) :
    (∀ d left, (S.calcHalos v).size d left ≤ ((S.ren φ).calcHalos (φ v)).size d left) ∧ (S.calcHalos v).l1 ≤ ((S.ren φ).calcHalos (φ v)).l1 :=
  ⟨fun d left => size_below (calcHalos_below hs v).1 d left, (calcHalos_below hs v).2⟩

end Yask.Comp
