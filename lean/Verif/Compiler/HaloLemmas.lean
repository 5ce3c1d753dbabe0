import Mathlib.Tactic.Tauto
import Mathlib.Tactic.Linarith
import Mathlib.Tactic.SplitIfs
import Mathlib.Data.List.Basic
import Mathlib.Data.List.Induction
import Verif.Spec.HaloSpec

/-! Helper lemmas: halo calculation. -/

namespace Yask.Comp
open Spec

section
variable {κ : Type} [DecidableEq κ]

/-- Some entry for the key is at least `v`. -/
def Cov (h : List (κ × Int)) (k : κ) (v : Int) : Prop := ∃ x, (k, x) ∈ h ∧ v ≤ x

theorem raise_cov (h : List (κ × Int)) (k : κ) (v : Int) : Cov (raise h k v) k v := by
  unfold raise
  by_cases hc : h.any (fun e => decide (e.1 = k)) = true
  · rw [if_pos hc]
    obtain ⟨e, he, hk⟩ := List.any_eq_true.1 hc
    simp only [decide_eq_true_eq] at hk
    refine ⟨if v > e.2 then v else e.2, ?_, by split_ifs <;> omega⟩
    refine List.mem_map.2 ⟨e, he, ?_⟩
    rw [if_pos hk, hk]
  · rw [if_neg hc]
    exact ⟨v, by simp, le_refl _⟩

theorem raise_mono {h : List (κ × Int)} {k' : κ} {v' : Int} (k : κ) (v : Int) (hc : Cov h k' v') :
    Cov (raise h k v) k' v' := by
  obtain ⟨x, hx, hv⟩ := hc
  unfold raise
  by_cases hc : h.any (fun e => decide (e.1 = k)) = true
  · rw [if_pos hc]
    by_cases hk : k' = k
    · refine ⟨if v > x then v else x, List.mem_map.2 ⟨(k', x), hx, by rw [if_pos hk]⟩, by split_ifs <;> omega⟩
    · exact ⟨x, List.mem_map.2 ⟨(k', x), hx, by rw [if_neg hk]⟩, hv⟩
  · rw [if_neg hc]
    exact ⟨x, List.mem_append_left _ hx, hv⟩

/-- Raising other values does not lower anything. -/
theorem foldl_raise_mono {β : Type} (l : List β) (f : β → κ) (g : β → Int) :
    ∀ {h : List (κ × Int)} {k : κ} {v : Int}, Cov h k v → Cov (l.foldl (fun h b => raise h (f b) (g b)) h) k v := by
  induction l with
  | nil => intro h k v hc; exact hc
  | cons b l ih => intro h k v hc; exact ih (raise_mono _ _ hc)

theorem foldl_raise_cov {β : Type} (l : List β) (f : β → κ) (g : β → Int) (b : β) (hb : b ∈ l) :
    ∀ h : List (κ × Int), Cov (l.foldl (fun h b => raise h (f b) (g b)) h) (f b) (g b) := by
  induction l with
  | nil => cases hb
  | cons a l ih =>
    intro h
    rcases List.mem_cons.1 hb with rfl | hb
    · exact foldl_raise_mono l f g (raise_cov _ _ _)
    · exact ih hb _

end

/-- Nothing in `a` is larger than in `b`. -/
def HVar.Le (a b : HVar) : Prop := ∀ k x, Cov a.halos k x → Cov b.halos k x

theorem HVar.Le.refl (a : HVar) : a.Le a := fun _ _ h => h
theorem HVar.Le.trans {a b c : HVar} (h1 : a.Le b) (h2 : b.Le c) : a.Le c := fun k x h => h2 k x (h1 k x h)

theorem updateVar_le (v o : HVar) : v.Le (v.updateVar o) := by
  intro k x h
  unfold HVar.updateVar HVar.updateL1
  exact foldl_raise_mono o.halos (fun e => e.1) (fun e => e.2) h

theorem updateVar_other (v o : HVar) : o.Le (v.updateVar o) := by
  rintro k x ⟨y, hy, hx⟩
  unfold HVar.updateVar HVar.updateL1
  obtain ⟨z, hz, hyz⟩ := foldl_raise_cov o.halos (fun e => e.1) (fun e => e.2) (k, y) hy v.halos
  exact ⟨z, hz, by simp only at hyz; omega⟩

theorem updateOfs_le (v : HVar) (st : Nat) (s : Option Int) (dom : List (String × Int)) :
    v.Le (v.updateOfs st s dom) := by
  intro k x h
  unfold HVar.updateOfs HVar.updateL1
  exact foldl_raise_mono dom _ _ h

theorem updateOfs_cov (v : HVar) (st : Nat) (s : Option Int) (dom : List (String × Int)) (n : String) (o : Int)
    (h : (n, o) ∈ dom) :
    Cov (v.updateOfs st s dom).halos ⟨st, decide (o ≤ 0), s.getD 0, n⟩ (if o < 0 then -o else o) := by
  unfold HVar.updateOfs HVar.updateL1
  exact foldl_raise_cov dom (fun d => ⟨st, decide (d.2 ≤ 0), s.getD 0, d.1⟩) (fun d => if d.2 < 0 then - d.2 else d.2)
    (n, o) h v.halos

theorem updateL1_le (v : HVar) (d : Int) : v.Le (v.updateL1 d) := fun _ _ h => h
theorem updateWrite_le (v : HVar) (st : Nat) (s : Option Int) : v.Le (v.updateWrite st s) := by
  intro k x h
  unfold HVar.updateWrite
  cases s <;> exact h

/-- The same for all vars. -/
def MLe (a b : Nat → HVar) : Prop := ∀ v, (a v).Le (b v)

theorem MLe.refl (a : Nat → HVar) : MLe a a := fun v => HVar.Le.refl _
theorem MLe.trans {a b c : Nat → HVar} (h1 : MLe a b) (h2 : MLe b c) : MLe a c := fun v => (h1 v).trans (h2 v)

theorem setAt_le {m : Nat → HVar} {i : Nat} {b : HVar} (h : (m i).Le b) : MLe m (setAt m i b) := by
  intro v
  unfold setAt
  by_cases hv : v = i
  · subst hv; rw [if_pos rfl]; exact h
  · rw [if_neg hv]; exact HVar.Le.refl _

theorem foldl_le {β : Type} (f : (Nat → HVar) → β → Nat → HVar) (hf : ∀ m b, MLe m (f m b)) (l : List β) :
    ∀ m, MLe m (l.foldl f m) := by
  induction l with
  | nil => intro m; exact MLe.refl m
  | cons b l ih => intro m; exact (hf m b).trans (ih _)

/-- What holds after one step of a loop holds at its end. -/
theorem foldl_reach {β : Type} (f : (Nat → HVar) → β → Nat → HVar) (hf : ∀ m b, MLe m (f m b)) (l : List β)
    (P : (Nat → HVar) → Prop) (hP : ∀ m m', MLe m m' → P m → P m') (b : β) (hb : b ∈ l) (m0 : Nat → HVar)
    (hstep : ∀ m, MLe m0 m → P (f m b)) : P (l.foldl f m0) := by
  obtain ⟨l1, l2, rfl⟩ := List.append_of_mem hb
  rw [List.foldl_append, List.foldl_cons]
  exact hP _ _ (foldl_le f hf l2 _) (hstep _ (foldl_le f hf l1 _))

/-- The halos for stage `st` reach displacement `x` in dim `n`. -/
def Reaches (v : HVar) (st : Nat) (n : String) (x : Int) : Prop :=
  (x ≤ 0 → ∃ s, Cov v.halos ⟨st, true, s, n⟩ (-x)) ∧ (0 < x → ∃ s, Cov v.halos ⟨st, false, s, n⟩ x)

theorem Reaches.mono {a b : HVar} {st : Nat} {n : String} {x : Int} (h : a.Le b) (hr : Reaches a st n x) :
    Reaches b st n x :=
  ⟨fun hx => let ⟨s, hs⟩ := hr.1 hx; ⟨s, h _ _ hs⟩, fun hx => let ⟨s, hs⟩ := hr.2 hx; ⟨s, h _ _ hs⟩⟩

theorem Cov.weaken {κ : Type} {h : List (κ × Int)} {k : κ} {v w : Int} (hc : Cov h k v) (hw : w ≤ v) : Cov h k w := by
  obtain ⟨x, hx, hv⟩ := hc
  exact ⟨x, hx, by omega⟩

theorem updateOfs_reaches (v : HVar) (st : Nat) (s : Option Int) (dom : List (String × Int)) (n : String) (o : Int)
    (h : (n, o) ∈ dom) : Reaches (v.updateOfs st s dom) st n o := by
  have hc := updateOfs_cov v st s dom n o h
  constructor
  · intro ho
    refine ⟨s.getD 0, ?_⟩
    rw [decide_eq_true ho] at hc
    exact hc.weaken (by split_ifs <;> omega)
  · intro ho
    refine ⟨s.getD 0, ?_⟩
    rw [decide_eq_false (by omega)] at hc
    exact hc.weaken (by split_ifs <;> omega)

theorem lookup_mem {α : Type} {l : List (String × α)} {n : String} {o : α} (h : l.lookup n = some o) : (n, o) ∈ l := by
  induction l with
  | nil => simp at h
  | cons a l ih =>
    obtain ⟨a1, a2⟩ := a
    rw [List.lookup_cons] at h
    by_cases hn : n = a1
    · subst hn
      simp at h
      subst h; simp
    · have : (n == a1) = false := by simpa using hn
      rw [this] at h
      exact List.mem_cons_of_mem _ (ih h)

theorem lookup_of_mem {α : Type} {l : List (String × α)} {n : String} (h : n ∈ l.map Prod.fst) :
    ∃ o, l.lookup n = some o := by
  induction l with
  | nil => simp at h
  | cons a l ih =>
    obtain ⟨a1, a2⟩ := a
    rw [List.lookup_cons]
    by_cases hn : n = a1
    · subst hn; exact ⟨a2, by simp⟩
    · have h1 : (n == a1) = false := by simpa using hn
      rw [h1]
      simp only [List.map_cons, List.mem_cons] at h
      rcases h with h | h
      · exact absurd h hn
      · exact ih h

theorem pt_mem {p : Pt} {n : String} (h : n ∈ p.dom.map Prod.fst) : (n, p.at n) ∈ p.dom := by
  obtain ⟨o, ho⟩ := lookup_of_mem h
  unfold Pt.at
  rw [ho]
  exact lookup_mem ho

theorem size_nonneg (v : HVar) (n : String) (left : Bool) : 0 ≤ v.size n left := by
  unfold HVar.size
  have : ∀ (l : List (HKey × Int)) (a : Int), 0 ≤ a →
      0 ≤ l.foldl (fun h e => if e.1.dim = n ∧ e.1.left = left then max h e.2 else h) a := by
    intro l
    induction l with
    | nil => intro a ha; exact ha
    | cons e l ih =>
      intro a ha
      apply ih
      simp only
      split_ifs <;> omega
  exact this _ _ (le_refl _)

theorem size_cov {v : HVar} {k : HKey} {x : Int} (h : Cov v.halos k x) : x ≤ v.size k.dim k.left := by
  obtain ⟨y, hy, hx⟩ := h
  unfold HVar.size
  have mono : ∀ (l : List (HKey × Int)) (a : Int),
      a ≤ l.foldl (fun h e => if e.1.dim = k.dim ∧ e.1.left = k.left then max h e.2 else h) a := by
    intro l
    induction l with
    | nil => intro a; exact le_refl _
    | cons e l ih =>
      intro a
      refine le_trans ?_ (ih _)
      simp only
      split_ifs <;> omega
  have key : ∀ (l : List (HKey × Int)), (k, y) ∈ l → ∀ a : Int,
      y ≤ l.foldl (fun h e => if e.1.dim = k.dim ∧ e.1.left = k.left then max h e.2 else h) a := by
    intro l
    induction l with
    | nil => intro h; cases h
    | cons e l ih =>
      intro h a
      rcases List.mem_cons.1 h with rfl | h
      · refine le_trans ?_ (mono l _)
        simp only [and_self, if_true]
        exact le_max_right _ _
      · exact ih h _
  exact le_trans hx (key _ hy _)

theorem Reaches.size {v : HVar} {st : Nat} {n : String} {x : Int} (h : Reaches v st n x) :
    -(v.size n true) ≤ x ∧ x ≤ v.size n false := by
  have h0 := size_nonneg v n true
  have h1 := size_nonneg v n false
  by_cases hx : x ≤ 0
  · obtain ⟨s, hs⟩ := h.1 hx
    have := size_cov hs
    simp only at this
    constructor <;> omega
  · obtain ⟨s, hs⟩ := h.2 (by omega)
    have := size_cov hs
    simp only at this
    constructor <;> omega

/-- The tuple has a value of at least `x` in dim `n`. -/
def LCov (l : List (String × Int)) (n : String) (x : Int) : Prop := ∃ y, l.lookup n = some y ∧ x ≤ y

theorem lookup_mapSnd (g : String → Int → Int) (l : List (String × Int)) (n : String) :
    (l.map fun e => (e.1, g e.1 e.2)).lookup n = (l.lookup n).map (g n) := by
  induction l with
  | nil => simp
  | cons a l ih =>
    obtain ⟨a1, a2⟩ := a
    rw [List.map_cons, List.lookup_cons, List.lookup_cons]
    by_cases hn : n = a1
    · subst hn; simp
    · have hb : (n == a1) = false := by simpa using hn
      rw [hb]
      exact ih

theorem raise_lookup (l : List (String × Int)) (k : String) (v : Int) (n : String) :
    (n = k → LCov (raise l k v) n v) ∧ ∀ x, LCov l n x → LCov (raise l k v) n x := by
  unfold raise
  by_cases hc : l.any (fun e => decide (e.1 = k)) = true
  · rw [if_pos hc]
    have e : (l.map fun e => if e.1 = k then (e.1, if v > e.2 then v else e.2) else e)
        = l.map fun e => (e.1, (fun a x => if a = k then (if v > x then v else x) else x) e.1 e.2) := by
      apply List.map_congr_left
      intro a _
      by_cases h : a.1 = k
      · simp only [if_pos h]
      · simp only [if_neg h]
    rw [e]
    unfold LCov
    rw [lookup_mapSnd (fun a x => if a = k then (if v > x then v else x) else x)]
    refine ⟨?_, ?_⟩
    · intro hn
      subst hn
      obtain ⟨a, ha, hk⟩ := List.any_eq_true.1 hc
      simp only [decide_eq_true_eq] at hk
      obtain ⟨o, ho⟩ := lookup_of_mem (l := l) (n := n) (List.mem_map.2 ⟨a, ha, hk⟩)
      rw [ho]
      refine ⟨_, rfl, ?_⟩
      simp only [if_true]
      split_ifs <;> omega
    · rintro x ⟨y, hy, hx⟩
      rw [hy]
      refine ⟨_, rfl, ?_⟩
      simp only
      split_ifs <;> omega
  · rw [if_neg hc]
    refine ⟨?_, ?_⟩
    · intro hn
      subst hn
      have hnone : l.lookup n = none := by
        cases ho : l.lookup n with
        | none => rfl
        | some o =>
          exact absurd (List.any_eq_true.2 ⟨(n, o), lookup_mem ho, by simp⟩) hc
      refine ⟨v, ?_, le_refl _⟩
      rw [List.lookup_append, hnone]
      simp
    · rintro x ⟨y, hy, hx⟩
      refine ⟨y, ?_, hx⟩
      rw [List.lookup_append, hy]
      simp

theorem sizes_cov {v : HVar} {st : Nat} {left : Bool} {s : Int} {n : String} {x : Int}
    (h : Cov v.halos ⟨st, left, s, n⟩ x) : LCov (v.sizes st left) n x := by
  obtain ⟨y, hy, hx⟩ := h
  unfold HVar.sizes
  have mono : ∀ (l : List (HKey × Int)) (t : List (String × Int)), LCov t n x →
      LCov (l.foldl (fun t e => if e.1.stage = st ∧ e.1.left = left then raise t e.1.dim e.2 else t) t) n x := by
    intro l
    induction l with
    | nil => intro t ht; exact ht
    | cons e l ih =>
      intro t ht
      apply ih
      simp only
      by_cases hc : e.1.stage = st ∧ e.1.left = left
      · rw [if_pos hc]; exact (raise_lookup _ _ _ _).2 _ ht
      · rw [if_neg hc]; exact ht
  have key : ∀ (l : List (HKey × Int)), ((⟨st, left, s, n⟩ : HKey), y) ∈ l → ∀ t : List (String × Int),
      LCov (l.foldl (fun t e => if e.1.stage = st ∧ e.1.left = left then raise t e.1.dim e.2 else t) t) n x := by
    intro l
    induction l with
    | nil => intro h; cases h
    | cons e l ih =>
      intro h t
      rcases List.mem_cons.1 h with rfl | h
      · rw [List.foldl_cons]
        apply mono
        simp only [and_self, if_true]
        obtain ⟨z, hz, hyz⟩ := (raise_lookup t n y n).1 rfl
        exact ⟨z, hz, by omega⟩
      · exact ih h _
  exact key _ hy _

theorem combineOfs_mem {f : Int → Int → Int} {a b : List (String × Int)} {n : String} {o : Int} (h : (n, o) ∈ a) :
    (n, match b.lookup n with | some x => f o x | none => o) ∈ combineOfs f a b := by
  unfold combineOfs
  refine List.mem_map.2 ⟨(n, o), h, ?_⟩
  simp only
  cases b.lookup n <;> rfl

theorem phase2Pt_le (st : Nat) (lo ro : List (String × Int)) (l1 : Int) (m : Nat → HVar) (p : Pt) :
    MLe m (phase2Pt st lo ro l1 m p) :=
  setAt_le (((updateOfs_le _ _ _ _).trans (updateOfs_le _ _ _ _)).trans (updateL1_le _ _))

/-- A displacement of the output is passed on to the input. -/
theorem phase2Pt_reaches (st : Nat) (ov : HVar) (l1 : Int) (m : Nat → HVar) (p : Pt) (n : String) (x : Int)
    (hn : n ∈ p.dom.map Prod.fst) (ho : Reaches ov st n x) (hp : Reaches (m p.var) st n (p.at n)) :
    Reaches (phase2Pt st (ov.sizes st true) (ov.sizes st false) l1 m p p.var) st n (x + p.at n) := by
  have hmem := pt_mem hn
  have hle := phase2Pt_le st (ov.sizes st true) (ov.sizes st false) l1 m p p.var
  have hp' := hp.mono hle
  have hL : Reaches (phase2Pt st (ov.sizes st true) (ov.sizes st false) l1 m p p.var) st n
      (match (ov.sizes st true).lookup n with | some y => p.at n - y | none => p.at n) := by
    unfold phase2Pt setAt
    rw [if_pos rfl]
    exact ((updateOfs_reaches _ st p.step _ n _ (combineOfs_mem hmem)).mono (updateOfs_le _ _ _ _)).mono (updateL1_le _ _)
  have hR : Reaches (phase2Pt st (ov.sizes st true) (ov.sizes st false) l1 m p p.var) st n
      (match (ov.sizes st false).lookup n with | some y => p.at n + y | none => p.at n) := by
    unfold phase2Pt setAt
    rw [if_pos rfl]
    exact (updateOfs_reaches _ st p.step _ n _ (combineOfs_mem hmem)).mono (updateL1_le _ _)
  generalize phase2Pt st (ov.sizes st true) (ov.sizes st false) l1 m p p.var = w at *
  by_cases hx : x ≤ 0
  · obtain ⟨s, hs⟩ := ho.1 hx
    obtain ⟨y, hy, hxy⟩ := sizes_cov hs
    rw [hy] at hL
    simp only at hL
    constructor
    · intro hz
      obtain ⟨s, hs⟩ := hL.1 (by omega)
      exact ⟨s, hs.weaken (by omega)⟩
    · intro hz
      obtain ⟨s, hs⟩ := hp'.2 (by omega)
      exact ⟨s, hs.weaken (by omega)⟩
  · obtain ⟨s, hs⟩ := ho.2 (by omega)
    obtain ⟨y, hy, hxy⟩ := sizes_cov hs
    rw [hy] at hR
    simp only at hR
    constructor
    · intro hz
      obtain ⟨s, hs⟩ := hp'.1 (by omega)
      exact ⟨s, hs.weaken (by omega)⟩
    · intro hz
      obtain ⟨s, hs⟩ := hR.2 (by omega)
      exact ⟨s, hs.weaken (by omega)⟩

theorem phase2Part_le (st : Nat) (m : Nat → HVar) (part : List PEq) : MLe m (phase2Part st m part) := by
  cases part with
  | nil => exact MLe.refl m
  | cons e1 rest =>
    unfold phase2Part
    simp only
    refine MLe.trans ?_ (foldl_le _ (fun m p => phase2Pt_le _ _ _ _ m p) _ _)
    refine MLe.trans (foldl_le (fun m (e2 : PEq) => setAt m e1.lhs.var ((m e1.lhs.var).updateVar (m e2.lhs.var)))
      (fun m e => setAt_le (updateVar_le _ _)) rest m) ?_
    exact foldl_le (fun m (e2 : PEq) => setAt m e2.lhs.var ((m e2.lhs.var).updateVar (m e1.lhs.var)))
      (fun m e => setAt_le (updateVar_le _ _)) rest _

/-- A displacement of any output of the part is passed on to the inputs. -/
theorem phase2Part_reaches (st : Nat) (m : Nat → HVar) (part : List PEq) (e : PEq) (he : e ∈ part) (p : Pt)
    (hp : p ∈ e.rhs) (n : String) (x : Int) (hn : n ∈ p.dom.map Prod.fst) (ho : Reaches (m e.lhs.var) st n x)
    (hin : Reaches (m p.var) st n (p.at n)) : Reaches (phase2Part st m part p.var) st n (x + p.at n) := by
  cases part with
  | nil => cases he
  | cons e1 rest =>
    unfold phase2Part
    simp only
    have hle1 := foldl_le (fun m (e2 : PEq) => setAt m e1.lhs.var ((m e1.lhs.var).updateVar (m e2.lhs.var)))
      (fun m e => setAt_le (updateVar_le _ _)) rest m
    have hov1 : Reaches (rest.foldl (fun m e2 => setAt m e1.lhs.var ((m e1.lhs.var).updateVar (m e2.lhs.var))) m
        e1.lhs.var) st n x := by
      rcases List.mem_cons.1 he with rfl | he
      · exact ho.mono (hle1 _)
      · exact foldl_reach (fun m (e2 : PEq) => setAt m e1.lhs.var ((m e1.lhs.var).updateVar (m e2.lhs.var)))
          (fun m e => setAt_le (updateVar_le _ _)) rest (fun m => Reaches (m e1.lhs.var) st n x)
          (fun m m' h hr => hr.mono (h _)) e he m (fun m' hm' => by
            simp only [setAt, if_true]
            exact (ho.mono (hm' _)).mono (updateVar_other _ _))
    generalize rest.foldl (fun m e2 => setAt m e1.lhs.var ((m e1.lhs.var).updateVar (m e2.lhs.var))) m = m1 at *
    have hle2 := foldl_le (fun m (e2 : PEq) => setAt m e2.lhs.var ((m e2.lhs.var).updateVar (m e1.lhs.var)))
      (fun m e => setAt_le (updateVar_le _ _)) rest m1
    generalize rest.foldl (fun m e2 => setAt m e2.lhs.var ((m e2.lhs.var).updateVar (m e1.lhs.var))) m1 = m2 at *
    have hov2 : Reaches (m2 e1.lhs.var) st n x := hov1.mono (hle2 _)
    have hin2 : Reaches (m2 p.var) st n (p.at n) := (hin.mono (hle1 _)).mono (hle2 _)
    refine foldl_reach _ (fun m p => phase2Pt_le _ _ _ _ m p) _ (fun m => Reaches (m p.var) st n (x + p.at n))
      (fun m m' h hr => hr.mono (h _)) p (List.mem_flatMap.2 ⟨e, he, hp⟩) m2 ?_
    intro m' hm'
    exact phase2Pt_reaches st (m2 e1.lhs.var) _ m' p n x hn hov2 (hin2.mono (hm' _))

/-- The processing of one scratch stage for stage `st`. -/
def HSys.scrStep (S : HSys) (st : HStage) (s : HStage) (m : Nat → HVar) : Nat → HVar :=
  if s.id ∈ S.scrDeps st.id then s.parts.foldl (phase2Part st.id) m else m

theorem phase2_eq (S : HSys) (real : Nat → HVar) (st : HStage) :
    S.phase2 real st = S.stages.foldr (S.scrStep st) real := by
  unfold HSys.phase2
  rw [List.foldl_reverse]
  rfl

theorem scrStep_le (S : HSys) (st s : HStage) (m : Nat → HVar) : MLe m (S.scrStep st s m) := by
  unfold HSys.scrStep
  by_cases h : s.id ∈ S.scrDeps st.id
  · rw [if_pos h]; exact foldl_le _ (fun m p => phase2Part_le _ m p) _ _
  · rw [if_neg h]; exact MLe.refl m

theorem foldr_scrStep_le (S : HSys) (st : HStage) (T : List HStage) (m : Nat → HVar) :
    MLe m (T.foldr (S.scrStep st) m) := by
  induction T with
  | nil => exact MLe.refl m
  | cons s T ih => exact ih.trans (scrStep_le S st s _)

theorem scrStep_reaches (S : HSys) (st s : HStage) (hs : s.id ∈ S.scrDeps st.id) (m : Nat → HVar) (e : PEq)
    (he : e ∈ s.eqs) (p : Pt) (hp : p ∈ e.rhs) (n : String) (x : Int) (hn : n ∈ p.dom.map Prod.fst)
    (ho : Reaches (m e.lhs.var) st.id n x) (hin : Reaches (m p.var) st.id n (p.at n)) :
    Reaches (S.scrStep st s m p.var) st.id n (x + p.at n) := by
  unfold HSys.scrStep
  rw [if_pos hs]
  obtain ⟨part, hpart, hep⟩ := List.mem_flatten.1 he
  refine foldl_reach _ (fun m p => phase2Part_le _ m p) _ (fun m => Reaches (m p.var) st.id n (x + p.at n))
    (fun m m' h hr => hr.mono (h _)) part hpart m ?_
  intro m' hm'
  exact phase2Part_reaches st.id m' part e hep p hp n x hn (ho.mono (hm' _)) (hin.mono (hm' _))

/-- Points needed to evaluate stage `st`, through scratch stages in `T`. -/
inductive NeedIn (S : HSys) (scr : Nat → Bool) (st : HStage) (T : List HStage) : Nat → (String → Int) → Prop
  | direct {e : PEq} {p : Pt} : e ∈ st.eqs → p ∈ e.rhs → NeedIn S scr st T p.var p.at
  | scratch {v : Nat} {d : String → Int} {s : HStage} {e : PEq} {p : Pt} : NeedIn S scr st T v d → scr v = true →
      s ∈ T → s.id ∈ S.scrDeps st.id → e ∈ s.eqs → e.lhs.var = v → p ∈ e.rhs →
      NeedIn S scr st T p.var fun n => d n + p.at n

/-- If a needed scratch var is updated in the stages, the first of them is not needed to reach it. -/
theorem needIn_tail {S : HSys} {scr : Nat → Bool} {st s : HStage} {T : List HStage}
    (hord : (s :: T).Pairwise fun s r => ∀ e ∈ s.eqs, ∀ p ∈ e.rhs, scr p.var = true → ∀ e' ∈ r.eqs, e'.lhs.var ≠ p.var)
    (hself : ∀ e ∈ s.eqs, ∀ p ∈ e.rhs, scr p.var = true → ∀ e' ∈ s.eqs, e'.lhs.var ≠ p.var)
    {v : Nat} {d : String → Int} (h : NeedIn S scr st (s :: T) v d) (hv : scr v = true) :
    ∀ s2 ∈ s :: T, ∀ e2 ∈ s2.eqs, e2.lhs.var = v → NeedIn S scr st T v d := by
  induction h with
  | direct he hp => intro _ _ _ _ _; exact .direct he hp
  | @scratch u d0 r e p hu hus hr hrd he heu hp ih =>
    intro s2 hs2 e2 he2 h2
    have hrT : r ∈ T := by
      rcases List.mem_cons.1 hr with rfl | h
      · exfalso
        rcases List.mem_cons.1 hs2 with rfl | hs2
        · exact hself e he p hp hv e2 he2 h2
        · exact (List.pairwise_cons.1 hord).1 s2 hs2 e he p hp hv e2 he2 h2
      · exact h
    exact .scratch (ih hus r hr e he heu) hus hrT hrd he heu hp

theorem needIn_reaches {S : HSys} {scr : Nat → Bool} {dims : Nat → List String} (hS : Staged S scr dims) {st : HStage}
    (hst : st ∈ S.stages) (real : Nat → HVar)
    (hreal : ∀ r ∈ S.stages, (r = st ∨ r.id ∈ S.scrDeps st.id) → ∀ e ∈ r.eqs, ∀ p ∈ e.rhs, ∀ n ∈ dims p.var,
      Reaches (real p.var) st.id n (p.at n)) :
    ∀ T, T <:+ S.stages → ∀ v d, NeedIn S scr st T v d → ∀ n ∈ dims v,
      Reaches (T.foldr (S.scrStep st) real v) st.id n (d n) := by
  have husd : ∀ s ∈ S.stages, ∀ e ∈ s.eqs, ∀ p ∈ e.rhs, ∀ n ∈ dims p.var, n ∈ p.dom.map Prod.fst := by
    intro s hs e he p hp n hn
    exact (hS.used e (List.mem_flatMap.2 ⟨s, hs, he⟩) p (List.mem_cons_of_mem _ hp) n).2 hn
  intro T
  induction T with
  | nil =>
    intro _ v d h n hn
    cases h with
    | direct he hp => exact hreal st hst (.inl rfl) _ he _ hp n hn
    | scratch _ _ hs => cases hs
  | cons s T ihT =>
    intro hsuf v d h
    have hsT : T <:+ S.stages := (List.suffix_cons s T).trans hsuf
    have hs : s ∈ S.stages := hsuf.subset List.mem_cons_self
    rw [List.foldr_cons]
    cases h with
    | direct he hp =>
      intro n hn
      exact (hreal st hst (.inl rfl) _ he _ hp n hn).mono (((foldr_scrStep_le S st T real).trans (scrStep_le S st s _)) _)
    | @scratch u d0 r e p hu hus hr hrd he heu hp =>
      intro n hn
      have hord := hS.order.sublist hsuf.sublist
      have hu' := needIn_tail hord (hS.self s hs) hu hus r hr e he heu
      have hru := ihT hsT u d0 hu'
      rcases List.mem_cons.1 hr with rfl | hrT
      · have hnu : n ∈ dims u := hS.full u p.var hus n hn
        refine scrStep_reaches S st r hrd _ e he p hp n (d0 n) (husd r hs e he p hp n hn) ?_ ?_
        · rw [heu]; exact hru n hnu
        · exact (hreal r hs (.inr hrd) e he p hp n hn).mono (foldr_scrStep_le S st T real _)
      · exact (ihT hsT _ _ (.scratch hu' hus hrT hrd he heu hp) n hn).mono (scrStep_le S st s _ _)

theorem phase1Eq_le (st : Nat) (m : Nat → HVar) (e : PEq) : MLe m (phase1Eq st m e) := by
  unfold phase1Eq
  simp only
  exact (foldl_le (fun m (p : Pt) => setAt m p.var ((m p.var).updateOfs st p.step p.dom))
    (fun m p => setAt_le (updateOfs_le _ _ _ _)) (e.lhs :: e.rhs) m).trans (setAt_le (updateWrite_le _ _ _))

theorem phase1_reaches (S : HSys) (st : HStage) (hst : st ∈ S.stages) (hsc : st.scr = false) (r : HStage)
    (hr : r ∈ S.stages) (hrd : r = st ∨ r.id ∈ S.scrDeps st.id) (e : PEq) (he : e ∈ r.eqs) (p : Pt)
    (hp : p ∈ e.lhs :: e.rhs) (n : String) (hn : n ∈ p.dom.map Prod.fst) :
    Reaches (S.phase1 p.var) st.id n (p.at n) := by
  have hle1 : ∀ (i : Nat) (m : Nat → HVar) (r : HStage), MLe m (r.eqs.foldl (phase1Eq i) m) :=
    fun i m r => foldl_le _ (fun m e => phase1Eq_le _ m e) _ _
  unfold HSys.phase1
  refine foldl_reach _ (fun m st => foldl_le _ (fun m r => hle1 _ m r) _ _) _
    (fun m => Reaches (m p.var) st.id n (p.at n)) (fun m m' h hr => hr.mono (h _)) st
    (List.mem_filter.2 ⟨hst, by simp [hsc]⟩) _ ?_
  intro m _
  have hmem : r ∈ S.reqd st := by
    unfold HSys.reqd
    rcases hrd with rfl | h
    · exact List.mem_cons_self
    · exact List.mem_cons_of_mem _ (List.mem_filter.2 ⟨hr, by simpa using h⟩)
  refine foldl_reach _ (fun m r => hle1 _ m r) _
    (fun m => Reaches (m p.var) st.id n (p.at n)) (fun m m' h hr => hr.mono (h _)) r hmem _ ?_
  intro m _
  refine foldl_reach _ (fun m e => phase1Eq_le _ m e) _
    (fun m => Reaches (m p.var) st.id n (p.at n)) (fun m m' h hr => hr.mono (h _)) e he _ ?_
  intro m _
  unfold phase1Eq
  refine Reaches.mono (setAt_le (updateWrite_le _ _ _) p.var) ?_
  refine foldl_reach (fun m (p : Pt) => setAt m p.var ((m p.var).updateOfs st.id p.step p.dom))
    (fun m p => setAt_le (updateOfs_le _ _ _ _)) _
    (fun m => Reaches (m p.var) st.id n (p.at n)) (fun m m' h hr => hr.mono (h _)) p hp _ ?_
  intro m _
  simp only [setAt, if_true]
  exact updateOfs_reaches _ _ _ _ _ _ (pt_mem hn)

theorem calcHalos_ge (S : HSys) (st : HStage) (hst : st ∈ S.stages) (hsc : st.scr = false) :
    MLe (S.phase2 S.phase1 st) S.calcHalos := by
  unfold HSys.calcHalos
  intro v
  refine foldl_reach (fun (m : Nat → HVar) (st : HStage) => fun v => (m v).updateVar (S.phase2 S.phase1 st v))
    (fun m st v => updateVar_le _ _) _ (fun m => (S.phase2 S.phase1 st v).Le (m v))
    (fun m m' h hr => hr.trans (h _)) st (List.mem_filter.2 ⟨hst, by simp [hsc]⟩) _ ?_
  intro m _
  exact updateVar_other _ _

theorem needed_in {S : HSys} {scr : Nat → Bool} {dims : Nat → List String} (hS : Staged S scr dims) {v : Nat}
    {d : String → Int} (h : Needed (allEqs S) scr v d) :
    ∃ st ∈ S.stages, st.scr = false ∧ NeedIn S scr st S.stages v d ∧
      (scr v = true → ∀ s ∈ S.stages, ∀ e' ∈ s.eqs, e'.lhs.var = v → s.id ∈ S.scrDeps st.id) := by
  induction h with
  | @direct e p he hsc hp =>
    obtain ⟨st, hst, hes⟩ := List.mem_flatMap.1 he
    have hk : st.scr = false := by rw [← hS.kind st hst e hes]; exact hsc
    exact ⟨st, hst, hk, .direct hes hp, fun hv s hs e' he' h' => hS.closed st hst hk st hst (.inl rfl) e hes p hp hv s hs e' he' h'⟩
  | @scratch u d0 e p hu hus he heu hp ih =>
    obtain ⟨st, hst, hk, hin, hcl⟩ := ih
    obtain ⟨r, hr, her⟩ := List.mem_flatMap.1 he
    have hrd := hcl hus r hr e her heu
    exact ⟨st, hst, hk, .scratch hin hus hr hrd her heu hp,
      fun hv s hs e' he' h' => hS.closed st hst hk r hr (.inr hrd) e her p hp hv s hs e' he' h'⟩

theorem needed_halo {S : HSys} {scr : Nat → Bool} {dims : Nat → List String} (hS : Staged S scr dims) {v : Nat}
    {d : String → Int} (h : Needed (allEqs S) scr v d) (n : String) (hn : n ∈ dims v) :
    -((S.calcHalos v).size n true) ≤ d n ∧ d n ≤ (S.calcHalos v).size n false := by
  obtain ⟨st, hst, hk, hin, _⟩ := needed_in hS h
  have h1 := needIn_reaches hS hst S.phase1 (fun r hr hrd e he p hp n hn =>
    phase1_reaches S st hst hk r hr hrd e he p (List.mem_cons_of_mem _ hp) n
      ((hS.used e (List.mem_flatMap.2 ⟨r, hr, he⟩) p (List.mem_cons_of_mem _ hp) n).2 hn)) S.stages
      (List.suffix_refl _) v d hin n hn
  rw [← phase2_eq] at h1
  exact (h1.mono (calcHalos_ge S st hst hk v)).size

end Yask.Comp
