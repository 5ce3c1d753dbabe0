import Verif.Compiler.EqFormModel
import Verif.Compiler.OffsetLemmas

/-! # Lemmas about var points and the checks of equations -/

namespace Yask.Comp

variable {π : Type} [DecidableEq π]

theorem lookup_setKey (l : List (String × ℤ)) (d d' : String) (v : ℤ) :
    (setKey l d v).lookup d' = if d' = d then some v else l.lookup d' := by
  unfold setKey
  split_ifs with h1 h2 h2
  · subst h2
    induction l with
    | nil => simp at h1
    | cons e l ih =>
      obtain ⟨k, w⟩ := e
      by_cases hk : k = d'
      · subst hk; simp [List.lookup]
      · simp only [List.any_cons, hk, decide_false, Bool.false_or] at h1
        simp only [List.map_cons, hk, if_false, List.lookup]
        have : (d' == k) = false := by simpa using fun e => hk e.symm
        rw [this]
        exact ih h1
  · clear h1
    induction l with
    | nil => rfl
    | cons e l ih =>
      obtain ⟨k, w⟩ := e
      by_cases hk : k = d
      · subst hk
        have : (d' == k) = false := by simpa using h2
        simp [List.lookup, this, ih]
      · simp only [List.map_cons, hk, if_false, List.lookup]
        cases (d' == k) <;> simp [ih]
  · subst h2
    induction l with
    | nil => simp
    | cons e l ih =>
      obtain ⟨k, w⟩ := e
      simp only [List.any_cons, Bool.or_eq_true, decide_eq_true_eq, not_or] at h1
      have : (d' == k) = false := by simpa using fun e => h1.1 e.symm
      simp only [List.cons_append, List.lookup, this]
      exact ih (by simpa using h1.2)
  · clear h1
    induction l with
    | nil =>
      have : (d' == d) = false := by simpa using h2
      simp [List.lookup, this]
    | cons e l ih =>
      obtain ⟨k, w⟩ := e
      simp only [List.cons_append, List.lookup]
      cases (d' == k) <;> simp [ih]

theorem lookup_dropKey (l : List (String × ℤ)) (d d' : String) :
    (dropKey l d).lookup d' = if d' = d then none else l.lookup d' := by
  unfold dropKey
  induction l with
  | nil => simp
  | cons e l ih =>
    obtain ⟨k, w⟩ := e
    by_cases hk : k = d
    · subst hk
      simp only [ne_eq, not_true_eq_false, decide_false, Bool.false_eq_true, not_false_eq_true, List.filter_cons_of_neg, List.lookup]
      simp only [ne_eq] at ih
      rw [ih]
      by_cases h : d' = k
      · simp [h]
      · have : (d' == k) = false := by simpa using h
        simp [h, this]
    · simp only [ne_eq, hk, not_false_eq_true, decide_true, List.filter_cons_of_pos, List.lookup]
      simp only [ne_eq] at ih
      rw [ih]
      by_cases h : d' = d
      · have : (d' == k) = false := by simpa using fun e => hk (e.symm.trans h)
        rw [this]
      · rw [if_neg h, if_neg h]

/-- What the constructor makes of an arg. -/
def outArg (d : String) (ty : IndexType) (a : NExpr π) : ArgKind → NExpr π
  | .const c => .const c
  | .offset o => if ty = .misc then a else normOffset d ty o
  | .other => a

/-- The offset it records. -/
def outOfs (ty : IndexType) : ArgKind → Option ℤ
  | .offset o => if ty = .misc then none else some o
  | _ => none

/-- The constant it records. -/
def outConst : ArgKind → Option ℤ
  | .const c => some c
  | _ => none

theorem findIdx?_first {α : Type} (f : α → Bool) (pre : List α) (x : α) (post : List α) (h : ∀ y ∈ pre, f y = false)
    (hx : f x = true) : (pre ++ x :: post).findIdx? f = some pre.length := by
  rw [List.findIdx?_append, List.findIdx?_eq_none_iff.2 h]
  simp [List.findIdx?_cons, hx]

theorem ctorArg_ok {p p' : CPt π} {pre post : List (String × IndexType)} {d : String} {ty : IndexType} {A R : List (NExpr π)}
    {a : NExpr π} (hdims : p.var.dims = pre ++ (d, ty) :: post) (hnd : (p.var.dims.map Prod.fst).Nodup)
    (hargs : p.args = A ++ a :: R) (hlen : A.length = pre.length) (ho : p.offsets.lookup d = none)
    (hc : p.consts.lookup d = none) (h : ctorArg p ((d, ty), a) = .ok p') :
    ∃ k, argKind d a = .ok k ∧ p'.var = p.var ∧ p'.args = A ++ outArg d ty a k :: R ∧
      (∀ d', p'.offsets.lookup d' = if d' = d then outOfs ty k else p.offsets.lookup d') ∧
      ∀ d', p'.consts.lookup d' = if d' = d then outConst k else p.consts.lookup d' := by
  have hpre : ∀ y ∈ pre, y.1 ≠ d := by
    intro y hy e
    rw [hdims] at hnd
    simp only [List.map_append, List.map_cons] at hnd
    exact (List.disjoint_of_nodup_append hnd) (List.mem_map_of_mem hy) (by simp [e])
  have hpost : ∀ y ∈ post, y.1 ≠ d := by
    intro y hy e
    rw [hdims] at hnd
    simp only [List.map_append, List.map_cons] at hnd
    have := (List.nodup_cons.1 (List.nodup_append.1 hnd).2.1).1
    exact this (e ▸ List.mem_map_of_mem hy)
  unfold ctorArg at h
  cases hk : argKind d a with
  | throws => rw [hk] at h; cases h
  | undefined => rw [hk] at h; cases h
  | ok k =>
    rw [hk] at h
    simp only [Outcome.bind_ok] at h
    refine ⟨k, rfl, ?_⟩
    cases k with
    | const c =>
      simp only [Outcome.ok.injEq] at h
      unfold CPt.setConst at h
      rw [hdims, findIdx?_first _ pre (d, ty) post (fun y hy => by simp [hpre y hy]) (by simp)] at h
      simp only at h
      subst h
      refine ⟨rfl, ?_, fun d' => ?_, fun d' => ?_⟩
      · rw [hargs, ← hlen]; simp [outArg]
      · simp only [lookup_dropKey, outOfs]
      · simp only [lookup_setKey, outConst]
    | offset o =>
      simp only [Outcome.ok.injEq] at h
      unfold CPt.setOffset at h
      by_cases hm : ty = .misc
      · subst hm
        have hnone : p.var.dims.findIdx? (fun g => decide (g.2 ≠ IndexType.misc) && decide (g.1 = d)) = none := by
          rw [hdims, List.findIdx?_eq_none_iff]
          intro y hy
          simp only [List.mem_append, List.mem_cons] at hy
          rcases hy with hy | hy | hy
          · simp [hpre y hy]
          · simp [hy]
          · simp [hpost y hy]
        rw [hnone] at h
        simp only at h
        subst h
        refine ⟨rfl, ?_, fun d' => ?_, fun d' => ?_⟩
        · simp [outArg, hargs]
        · by_cases e : d' = d
          · simp [e, outOfs, ho]
          · simp [e]
        · by_cases e : d' = d
          · simp [e, outConst, hc]
          · simp [e]
      · rw [hdims, findIdx?_first _ pre (d, ty) post (fun y hy => by simp [hpre y hy]) (by simp [hm])] at h
        simp only at h
        subst h
        refine ⟨rfl, ?_, fun d' => ?_, fun d' => ?_⟩
        · rw [hargs, ← hlen]; simp [outArg, hm, hlen]
        · simp only [lookup_setKey, outOfs, hm, if_false]
        · simp only [lookup_dropKey, outConst]
    | other =>
      simp only [Outcome.ok.injEq] at h
      subst h
      refine ⟨rfl, ?_, fun d' => ?_, fun d' => ?_⟩
      · simp [outArg, hargs]
      · by_cases e : d' = d
        · simp [e, outOfs, ho]
        · simp [e]
      · by_cases e : d' = d
        · simp [e, outConst, hc]
        · simp [e]

/-- A point that was constructed from these args. -/
structure Built (v : EqVar) (args : List (NExpr π)) (p : CPt π) : Prop where
  var : p.var = v
  len : v.dims.length = args.length
  len' : p.args.length = args.length
  at_ : ∀ (i : Nat) (d : String) (ty : IndexType) (a : NExpr π), v.dims[i]? = some (d, ty) → args[i]? = some a → ∃ k, argKind d a = .ok k ∧
    p.args[i]? = some (outArg d ty a k) ∧ p.offsets.lookup d = outOfs ty k ∧ p.consts.lookup d = outConst k
  none_ : ∀ d, d ∉ v.dims.map Prod.fst → p.offsets.lookup d = none

theorem ctorFold_ok (v : EqVar) (hnd : (v.dims.map Prod.fst).Nodup) : ∀ (post pre : List (String × IndexType)) (R A : List (NExpr π))
    (p p' : CPt π), v.dims = pre ++ post → p.var = v → p.args = A ++ R → A.length = pre.length → post.length = R.length →
    (∀ d, d ∉ pre.map Prod.fst → p.offsets.lookup d = none ∧ p.consts.lookup d = none) →
    (post.zip R).foldlM ctorArg p = .ok p' →
    p'.var = v ∧ p'.args.length = p.args.length ∧ (∀ i < A.length, p'.args[i]? = p.args[i]?) ∧
    (∀ d, d ∉ post.map Prod.fst → p'.offsets.lookup d = p.offsets.lookup d ∧ p'.consts.lookup d = p.consts.lookup d) ∧
    ∀ i d ty a, post[i]? = some (d, ty) → R[i]? = some a → ∃ k, argKind d a = .ok k ∧
      p'.args[A.length + i]? = some (outArg d ty a k) ∧ p'.offsets.lookup d = outOfs ty k ∧ p'.consts.lookup d = outConst k := by
  intro post
  induction post with
  | nil =>
    intro pre R A p p' hd hv ha hl hlen hnone h
    simp only [List.zip_nil_left, List.foldlM_nil, Outcome.pure_eq, Outcome.ok.injEq] at h
    subst h
    exact ⟨hv, rfl, fun _ _ => rfl, fun _ _ => ⟨rfl, rfl⟩, fun i d ty a h => by simp at h⟩
  | cons x post ih =>
    obtain ⟨d0, ty0⟩ := x
    intro pre R A p p' hd hv ha hl hlen hnone h
    cases R with
    | nil => simp at hlen
    | cons a0 R =>
      have hnd' := hnd
      rw [hd] at hnd'
      simp only [List.map_append, List.map_cons] at hnd'
      have hd0 : d0 ∉ pre.map Prod.fst := fun hm => (List.disjoint_of_nodup_append hnd') hm (by simp)
      have hd0' : d0 ∉ post.map Prod.fst := (List.nodup_cons.1 (List.nodup_append.1 hnd').2.1).1
      rw [List.zip_cons_cons, List.foldlM_cons] at h
      cases hc : ctorArg p ((d0, ty0), a0) with
      | throws => rw [hc] at h; cases h
      | undefined => rw [hc] at h; cases h
      | ok p1 =>
        rw [hc] at h
        simp only [Outcome.bind_ok] at h
        obtain ⟨k0, hk0, hv1, ha1, ho1, hc1⟩ := ctorArg_ok (by rw [hv]; exact hd) (by rw [hv]; exact hnd) ha hl
          (hnone d0 hd0).1 (hnone d0 hd0).2 hc
        obtain ⟨r1, r2, r3, r4, r5⟩ := ih (pre ++ [(d0, ty0)]) R (A ++ [outArg d0 ty0 a0 k0]) p1 p'
          (by simp [hd]) (by rw [hv1, hv]) (by simp [ha1]) (by simp [hl]) (by simpa using hlen)
          (by
            intro d hdn
            simp only [List.map_append, List.map_cons, List.map_nil, List.mem_append, List.mem_singleton, not_or] at hdn
            rw [ho1, hc1, if_neg hdn.2, if_neg hdn.2]
            exact hnone d hdn.1) h
        have hlen1 : p1.args.length = p.args.length := by simp [ha1, ha]
        refine ⟨r1, by rw [r2, hlen1], fun i hi => ?_, fun d hdn => ?_, fun i d ty a hi hai => ?_⟩
        · rw [r3 i (by simp; omega), ha1, ha, List.getElem?_append_left hi, List.getElem?_append_left hi]
        · simp only [List.map_cons, List.mem_cons, not_or] at hdn
          obtain ⟨e1, e2⟩ := r4 d hdn.2
          rw [e1, e2, ho1, hc1, if_neg hdn.1, if_neg hdn.1]
          exact ⟨rfl, rfl⟩
        · cases i with
          | zero =>
            simp only [List.getElem?_cons_zero, Option.some.injEq, Prod.mk.injEq] at hi hai
            obtain ⟨rfl, rfl⟩ := hi
            subst hai
            refine ⟨k0, hk0, ?_, ?_, ?_⟩
            · rw [Nat.add_zero, r3 A.length (by simp), ha1]
              simp
            · rw [(r4 _ hd0').1, ho1, if_pos rfl]
            · rw [(r4 _ hd0').2, hc1, if_pos rfl]
          | succ i =>
            simp only [List.getElem?_cons_succ] at hi hai
            obtain ⟨k, h1, h2, h3, h4⟩ := r5 i d ty a hi hai
            refine ⟨k, h1, ?_, h3, h4⟩
            rw [← h2]
            congr 1
            simp; omega

theorem newPoint_ok {v : EqVar} {args : List (NExpr π)} {p : CPt π} (hnd : (v.dims.map Prod.fst).Nodup)
    (h : newPoint v args = .ok p) : Built v args p := by
  unfold newPoint at h
  split_ifs at h with hl
  have hl : v.dims.length = args.length := not_not.1 hl
  obtain ⟨r1, r2, _, r4, r5⟩ := ctorFold_ok v hnd v.dims [] args [] _ p rfl rfl rfl rfl hl (fun _ _ => ⟨rfl, rfl⟩) h
  refine ⟨r1, hl, r2, fun i d ty a h1 h2 => ?_, fun d hd => (r4 d hd).1⟩
  obtain ⟨k, g⟩ := r5 i d ty a h1 h2
  exact ⟨k, by simpa using g⟩

theorem checkAll_ok {α : Type} (f : α → Outcome Unit) (l : List α) : checkAll f l = .ok () ↔ ∀ a ∈ l, f a = .ok () := by
  induction l with
  | nil => simp [checkAll]
  | cons a l ih =>
    unfold checkAll
    cases h : f a with
    | ok u => cases u; simp [ih, h]
    | throws => simp [h]
    | undefined => simp [h]

theorem mapAll_ok {α β : Type} (f : α → Outcome β) (l : List α) : ∀ (r : List β), mapAll f l = .ok r →
    List.Forall₂ (fun a b => f a = .ok b) l r := by
  induction l with
  | nil => intro r h; cases h; exact .nil
  | cons a l ih =>
    intro r h
    unfold mapAll at h
    cases hf : f a with
    | throws => rw [hf] at h; cases h
    | undefined => rw [hf] at h; cases h
    | ok b =>
      rw [hf] at h
      simp only [Outcome.bind_ok] at h
      cases hm : mapAll f l with
      | throws => rw [hm] at h; cases h
      | undefined => rw [hm] at h; cases h
      | ok bs =>
        rw [hm] at h
        cases h
        exact .cons hf (ih bs hm)

theorem mapAll_of {α β : Type} (f : α → Outcome β) {l : List α} {r : List β} (h : List.Forall₂ (fun a b => f a = .ok b) l r) :
    mapAll f l = .ok r := by
  induction h with
  | nil => rfl
  | cons h1 _ ih => unfold mapAll; rw [h1, ih]; rfl

end Yask.Comp
