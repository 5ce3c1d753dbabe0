import Verif.Compiler.MiscModel
import Verif.Compiler.EqFormChecks
import Verif.Var.ResizeLemmas

/-!
# Lemmas about the ranges of constant indices, and about the dims of a var under setting calls
-/

namespace Yask.Comp
open Var

/-- The least element of a set. -/
def IsMin (S : ℤ → Prop) : Option ℤ → Prop
  | none => ∀ c, ¬ S c
  | some m => S m ∧ ∀ c, S c → m ≤ c

/-- The greatest element of a set. -/
def IsMax (S : ℤ → Prop) : Option ℤ → Prop
  | none => ∀ c, ¬ S c
  | some m => S m ∧ ∀ c, S c → c ≤ m

theorem isMin_congr {S T : ℤ → Prop} (h : ∀ c, S c ↔ T c) {o : Option ℤ} (hs : IsMin S o) : IsMin T o := by
  have : S = T := funext fun c => propext (h c)
  rw [← this]; exact hs

theorem isMax_congr {S T : ℤ → Prop} (h : ∀ c, S c ↔ T c) {o : Option ℤ} (hs : IsMax S o) : IsMax T o := by
  have : S = T := funext fun c => propext (h c)
  rw [← this]; exact hs

theorem updMin_lookup {S : ℤ → Prop} {l : List (String × ℤ)} {d : String} (h : IsMin S (l.lookup d)) (e : String × ℤ) :
    IsMin (fun c => S c ∨ e = (d, c)) ((updMin l e).lookup d) := by
  obtain ⟨d', c'⟩ := e
  by_cases hd : d' = d
  · subst hd
    unfold updMin
    simp only
    cases hl : l.lookup d' with
    | none =>
      rw [hl] at h
      simp only [lookup_setKey, if_true]
      exact ⟨Or.inr rfl, fun c hc => hc.elim (fun hs => absurd hs (h c)) (fun he => by cases he; exact le_refl _)⟩
    | some m =>
      rw [hl] at h
      simp only
      split_ifs with hlt
      · simp only [lookup_setKey, if_true]
        exact ⟨Or.inr rfl, fun c hc => hc.elim (fun hs => by have := h.2 c hs; omega) (fun he => by cases he; exact le_refl _)⟩
      · rw [hl]
        exact ⟨Or.inl h.1, fun c hc => hc.elim (fun hs => h.2 c hs) (fun he => by cases he; omega)⟩
  · have e1 : (updMin l (d', c')).lookup d = l.lookup d := by
      unfold updMin
      simp only
      cases l.lookup d' with
      | none => simp only [lookup_setKey]; rw [if_neg (Ne.symm hd)]
      | some m =>
        simp only
        split_ifs
        · simp only [lookup_setKey]; rw [if_neg (Ne.symm hd)]
        · rfl
    rw [e1]
    refine isMin_congr (fun c => ⟨Or.inl, fun hc => hc.elim id fun he => ?_⟩) h
    cases he; exact absurd rfl hd

theorem updMax_lookup {S : ℤ → Prop} {l : List (String × ℤ)} {d : String} (h : IsMax S (l.lookup d)) (e : String × ℤ) :
    IsMax (fun c => S c ∨ e = (d, c)) ((updMax l e).lookup d) := by
  obtain ⟨d', c'⟩ := e
  by_cases hd : d' = d
  · subst hd
    unfold updMax
    simp only
    cases hl : l.lookup d' with
    | none =>
      rw [hl] at h
      simp only [lookup_setKey, if_true]
      exact ⟨Or.inr rfl, fun c hc => hc.elim (fun hs => absurd hs (h c)) (fun he => by cases he; exact le_refl _)⟩
    | some m =>
      rw [hl] at h
      simp only
      split_ifs with hlt
      · simp only [lookup_setKey, if_true]
        exact ⟨Or.inr rfl, fun c hc => hc.elim (fun hs => by have := h.2 c hs; omega) (fun he => by cases he; exact le_refl _)⟩
      · rw [hl]
        exact ⟨Or.inl h.1, fun c hc => hc.elim (fun hs => h.2 c hs) (fun he => by cases he; omega)⟩
  · have e1 : (updMax l (d', c')).lookup d = l.lookup d := by
      unfold updMax
      simp only
      cases l.lookup d' with
      | none => simp only [lookup_setKey]; rw [if_neg (Ne.symm hd)]
      | some m =>
        simp only
        split_ifs
        · simp only [lookup_setKey]; rw [if_neg (Ne.symm hd)]
        · rfl
    rw [e1]
    refine isMax_congr (fun c => ⟨Or.inl, fun hc => hc.elim id fun he => ?_⟩) h
    cases he; exact absurd rfl hd

theorem upd_range {d : String} (l : List (String × ℤ)) : ∀ {S : ℤ → Prop} {r : ConstRange},
    IsMin S (r.mins.lookup d) → IsMax S (r.maxs.lookup d) →
    IsMin (fun c => S c ∨ (d, c) ∈ l) ((r.upd l).mins.lookup d) ∧ IsMax (fun c => S c ∨ (d, c) ∈ l) ((r.upd l).maxs.lookup d) := by
  induction l with
  | nil => intro S r h1 h2; exact ⟨isMin_congr (fun c => by simp) h1, isMax_congr (fun c => by simp) h2⟩
  | cons e l ih =>
    intro S r h1 h2
    have := ih (r := ⟨updMin r.mins e, updMax r.maxs e⟩) (updMin_lookup h1 e) (updMax_lookup h2 e)
    have hc : ∀ c, ((S c ∨ e = (d, c)) ∨ (d, c) ∈ l) ↔ (S c ∨ (d, c) ∈ e :: l) := by
      intro c
      rw [List.mem_cons, or_assoc, eq_comm (a := e)]
    exact ⟨isMin_congr hc this.1, isMax_congr hc this.2⟩

variable {π : Type} [DecidableEq π]

/-- The recorded range of the constant indices of a var. -/
theorem varStats_range (v : EqVar) (pts : List (CPt π)) (d : String) :
    IsMin (fun c => ∃ p ∈ pts, p.var = v ∧ (d, c) ∈ p.consts) ((varStats v pts).mins.lookup d) ∧
      IsMax (fun c => ∃ p ∈ pts, p.var = v ∧ (d, c) ∈ p.consts) ((varStats v pts).maxs.lookup d) := by
  have key : ∀ (l : List (CPt π)) (S : ℤ → Prop) (r : ConstRange), IsMin S (r.mins.lookup d) → IsMax S (r.maxs.lookup d) →
      IsMin (fun c => S c ∨ ∃ p ∈ l, (d, c) ∈ p.consts) ((l.foldl (fun r p => r.upd p.consts) r).mins.lookup d) ∧
      IsMax (fun c => S c ∨ ∃ p ∈ l, (d, c) ∈ p.consts) ((l.foldl (fun r p => r.upd p.consts) r).maxs.lookup d) := by
    intro l
    induction l with
    | nil => intro S r h1 h2; exact ⟨isMin_congr (fun c => by simp) h1, isMax_congr (fun c => by simp) h2⟩
    | cons p l ih =>
      intro S r h1 h2
      obtain ⟨g1, g2⟩ := upd_range (d := d) p.consts h1 h2
      have := ih _ _ g1 g2
      have hc : ∀ c, ((S c ∨ (d, c) ∈ p.consts) ∨ ∃ q ∈ l, (d, c) ∈ q.consts) ↔ (S c ∨ ∃ q ∈ p :: l, (d, c) ∈ q.consts) := by
        intro c
        simp only [List.mem_cons, exists_eq_or_imp, or_assoc]
      exact ⟨isMin_congr hc this.1, isMax_congr hc this.2⟩
  obtain ⟨g1, g2⟩ := key (pts.filter fun p => decide (p.var = v)) (fun _ => False) {} (fun _ h => h) (fun _ h => h)
  have hc : ∀ c, (False ∨ ∃ p ∈ pts.filter fun p => decide (p.var = v), (d, c) ∈ p.consts) ↔ ∃ p ∈ pts, p.var = v ∧ (d, c) ∈ p.consts := by
    intro c
    simp [List.mem_filter, and_assoc]
  exact ⟨isMin_congr hc g1, isMax_congr hc g2⟩

/-! ### The keys of the constants of a point are different -/

theorem setKey_nodup {l : List (String × ℤ)} (h : (l.map Prod.fst).Nodup) (d : String) (v : ℤ) : ((setKey l d v).map Prod.fst).Nodup := by
  unfold setKey
  split_ifs with h1
  · rw [List.map_map]
    have : (Prod.fst ∘ fun e : String × ℤ => if e.1 = d then (d, v) else e) = Prod.fst := by
      funext e
      simp only [Function.comp]
      split_ifs with he
      · exact he.symm
      · rfl
    rw [this]; exact h
  · rw [List.map_append, List.map_cons, List.map_nil, List.nodup_append]
    refine ⟨h, by simp, ?_⟩
    intro a ha b hb
    rw [List.mem_singleton] at hb
    subst hb
    rintro rfl
    obtain ⟨e, he, e1⟩ := List.mem_map.1 ha
    apply h1
    rw [List.any_eq_true]
    exact ⟨e, he, by simpa using e1⟩

theorem dropKey_nodup {l : List (String × ℤ)} (h : (l.map Prod.fst).Nodup) (d : String) : ((dropKey l d).map Prod.fst).Nodup :=
  h.sublist (List.filter_sublist.map _)

theorem ctorArg_nodup {p p' : CPt π} {a : (String × IndexType) × NExpr π} (h : (p.consts.map Prod.fst).Nodup)
    (hc : ctorArg p a = .ok p') : (p'.consts.map Prod.fst).Nodup := by
  unfold ctorArg at hc
  cases hk : argKind a.1.1 a.2 with
  | throws => rw [hk] at hc; cases hc
  | undefined => rw [hk] at hc; cases hc
  | ok k =>
    rw [hk] at hc
    simp only [Outcome.bind_ok] at hc
    cases k with
    | const c =>
      cases hc
      unfold CPt.setConst
      split
      · exact setKey_nodup h _ _
      · exact h
    | offset o =>
      cases hc
      unfold CPt.setOffset
      split
      · exact dropKey_nodup h _
      · exact h
    | other => cases hc; exact h

theorem newPoint_nodup {v : EqVar} {args : List (NExpr π)} {p : CPt π} (h : newPoint v args = .ok p) : (p.consts.map Prod.fst).Nodup := by
  unfold newPoint at h
  split_ifs at h
  have key : ∀ (l : List ((String × IndexType) × NExpr π)) (p p' : CPt π), (p.consts.map Prod.fst).Nodup →
      l.foldlM ctorArg p = .ok p' → (p'.consts.map Prod.fst).Nodup := by
    intro l
    induction l with
    | nil => intro p p' h0 h; cases h; exact h0
    | cons a l ih =>
      intro p p' h0 h
      rw [List.foldlM_cons] at h
      cases hc : ctorArg p a with
      | throws => rw [hc] at h; cases h
      | undefined => rw [hc] at h; cases h
      | ok p1 =>
        rw [hc] at h
        simp only [Outcome.bind_ok] at h
        exact ih p1 p' (ctorArg_nodup h0 hc) h
  exact key _ _ _ (by simp) h

theorem constMem_of_lookup {l : List (String × ℤ)} {d : String} {c : ℤ} (h : l.lookup d = some c) : (d, c) ∈ l := by
  induction l with
  | nil => cases h
  | cons e l ih =>
    obtain ⟨d', c'⟩ := e
    rw [List.lookup_cons] at h
    by_cases hd : d = d'
    · subst hd; simp at h; subst h; simp
    · have : (d == d') = false := by simpa using hd
      rw [this] at h
      exact List.mem_cons_of_mem _ (ih h)

theorem constLookup_of_mem {l : List (String × ℤ)} (hn : (l.map Prod.fst).Nodup) {d : String} {c : ℤ} (h : (d, c) ∈ l) : l.lookup d = some c := by
  induction l with
  | nil => cases h
  | cons e l ih =>
    obtain ⟨d', c'⟩ := e
    rw [List.map_cons, List.nodup_cons] at hn
    rw [List.lookup_cons]
    rcases List.mem_cons.1 h with he | hm
    · cases he; simp
    · have : d ≠ d' := by
        rintro rfl
        exact hn.1 (List.mem_map.2 ⟨(d, c), hm, rfl⟩)
      have hb : (d == d') = false := by simpa using this
      rw [hb]
      exact ih hn.2 hm

end Yask.Comp
