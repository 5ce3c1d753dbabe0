import Verif.Compiler.RelPointModel
import Verif.Compiler.EqFormChecks

/-!
# Lemmas for making var points
-/

namespace Yask.Comp

variable {π : Type} [DecidableEq π]

theorem setOffset_at {p : CPt π} {pre post : List (String × IndexType)} {d : String} {ty : IndexType} {A R : List (NExpr π)}
    {a : NExpr π} (k : ℤ) (hdims : p.var.dims = pre ++ (d, ty) :: post) (hnd : (p.var.dims.map Prod.fst).Nodup)
    (hargs : p.args = A ++ a :: R) (hlen : A.length = pre.length) (hty : ty ≠ .misc) :
    (p.setOffset d k).var = p.var ∧ (p.setOffset d k).args = A ++ normOffset d ty k :: R ∧
      (∀ d', (p.setOffset d k).offsets.lookup d' = if d' = d then some k else p.offsets.lookup d') ∧
      ∀ d', (p.setOffset d k).consts.lookup d' = if d' = d then none else p.consts.lookup d' := by
  have hpre : ∀ y ∈ pre, y.1 ≠ d := by
    intro y hy e
    rw [hdims] at hnd
    simp only [List.map_append, List.map_cons] at hnd
    exact (List.disjoint_of_nodup_append hnd) (List.mem_map_of_mem hy) (by simp [e])
  unfold CPt.setOffset
  rw [hdims, findIdx?_first _ pre (d, ty) post (fun y hy => by simp [hpre y hy]) (by simp [hty])]
  refine ⟨rfl, ?_, fun d' => ?_, fun d' => ?_⟩
  · simp [hargs, ← hlen]
  · simp only [lookup_setKey]
  · simp only [lookup_dropKey]

theorem setOffsets_ok (v : EqVar) (hnd : (v.dims.map Prod.fst).Nodup) : ∀ (post pre : List (String × IndexType)) (ofs : List ℤ)
    (R A : List (NExpr π)) (p : CPt π), v.dims = pre ++ post → p.var = v → p.args = A ++ R → A.length = pre.length →
    post.length = R.length → post.length = ofs.length → (∀ g ∈ post, g.2 ≠ .misc) →
    (setOffsets (post.zip ofs) p).var = v ∧
    (setOffsets (post.zip ofs) p).args = A ++ List.zipWith (fun g k => normOffset g.1 g.2 k) post ofs ∧
    (∀ d, d ∉ post.map Prod.fst → (setOffsets (post.zip ofs) p).offsets.lookup d = p.offsets.lookup d ∧
      (setOffsets (post.zip ofs) p).consts.lookup d = p.consts.lookup d) ∧
    ∀ (i : Nat) (g : String × IndexType) (k : ℤ), post[i]? = some g → ofs[i]? = some k →
      (setOffsets (post.zip ofs) p).offsets.lookup g.1 = some k ∧ (setOffsets (post.zip ofs) p).consts.lookup g.1 = none := by
  intro post
  induction post with
  | nil =>
    intro pre ofs R A p hd hv ha hl hR _ _
    have : R = [] := List.length_eq_zero_iff.1 hR.symm
    subst this
    exact ⟨hv, by simp [setOffsets, ha], fun d _ => ⟨rfl, rfl⟩, fun i g k h => by simp at h⟩
  | cons x post ih =>
    obtain ⟨d0, ty0⟩ := x
    intro pre ofs R A p hd hv ha hl hR ho hm
    cases R with
    | nil => simp at hR
    | cons a0 R =>
      cases ofs with
      | nil => simp at ho
      | cons k0 ofs =>
        have hnd' := hnd
        rw [hd] at hnd'
        simp only [List.map_append, List.map_cons] at hnd'
        have hd0' : d0 ∉ post.map Prod.fst := (List.nodup_cons.1 (List.nodup_append.1 hnd').2.1).1
        obtain ⟨s1, s2, s3, s4⟩ := setOffset_at (p := p) k0 (by rw [hv]; exact hd) (by rw [hv]; exact hnd) ha hl
          (hm _ (List.mem_cons_self ..))
        obtain ⟨r1, r2, r3, r4⟩ := ih (pre ++ [(d0, ty0)]) ofs R (A ++ [normOffset d0 ty0 k0]) (p.setOffset d0 k0)
          (by simp [hd]) (by rw [s1, hv]) (by simp [s2]) (by simp [hl]) (by simpa using hR) (by simpa using ho)
          (fun g hg => hm g (List.mem_cons_of_mem _ hg))
        rw [List.zip_cons_cons, setOffsets]
        simp only
        refine ⟨r1, by rw [r2]; simp, fun d hdn => ?_, fun i g k hi hk => ?_⟩
        · simp only [List.map_cons, List.mem_cons, not_or] at hdn
          rw [(r3 d hdn.2).1, (r3 d hdn.2).2, s3, s4, if_neg hdn.1, if_neg hdn.1]
          exact ⟨rfl, rfl⟩
        · cases i with
          | zero =>
            simp only [List.getElem?_cons_zero, Option.some.injEq] at hi hk
            subst hi hk
            rw [(r3 d0 hd0').1, (r3 d0 hd0').2, s3, s4, if_pos rfl, if_pos rfl]
            exact ⟨rfl, rfl⟩
          | succ i =>
            simp only [List.getElem?_cons_succ] at hi hk
            exact r4 i g k hi hk

theorem argKind_index (d d' : String) (ty : IndexType) : ∃ k, argKind d (.index d' ty : NExpr π) = .ok k := by
  unfold argKind
  simp only [NExpr.isConst, Bool.false_eq_true, if_false, NExpr.offsetFrom, Outcome.bind_ok]
  split
  · exact ⟨_, rfl⟩
  · exact ⟨_, rfl⟩

/-- The point made from the indices alone. -/
theorem newPoint_index (v : EqVar) : ∃ p, newPoint v (v.dims.map fun g => (.index g.1 g.2 : NExpr π)) = .ok p := by
  apply newPoint_exists (by simp)
  intro x hx
  have hx2 := (List.of_mem_zip hx).2
  obtain ⟨g, _, hg⟩ := List.mem_map.1 hx2
  rw [← hg]
  exact argKind_index _ _ _

theorem newPoint_none {v : EqVar} {args : List (NExpr π)} {p : CPt π} (hnd : (v.dims.map Prod.fst).Nodup)
    (h : newPoint v args = .ok p) (d : String) (hd : d ∉ v.dims.map Prod.fst) : p.offsets.lookup d = none ∧ p.consts.lookup d = none := by
  unfold newPoint at h
  split_ifs at h with hl
  have hl : v.dims.length = args.length := not_not.1 hl
  obtain ⟨_, _, _, r4, _⟩ := ctorFold_ok v hnd v.dims [] args [] _ p rfl rfl rfl rfl hl (fun _ _ => ⟨rfl, rfl⟩) h
  exact r4 d hd

/-- What `new_relative_var_point` makes. -/
theorem newRelPoint_ok {v : EqVar} (hnd : (v.dims.map Prod.fst).Nodup) {ofs : List ℤ} (hl : v.dims.length = ofs.length)
    (hm : ∀ g ∈ v.dims, g.2 ≠ .misc) (hmin : -2147483648 ∉ ofs) : ∃ p : CPt π, newRelPoint v ofs = .ok p ∧ p.var = v ∧
      p.args = List.zipWith (fun g k => normOffset g.1 g.2 k) v.dims ofs ∧
      (∀ d, d ∉ v.dims.map Prod.fst → p.offsets.lookup d = none ∧ p.consts.lookup d = none) ∧
      ∀ (i : Nat) (g : String × IndexType) (k : ℤ), v.dims[i]? = some g → ofs[i]? = some k →
        p.offsets.lookup g.1 = some k ∧ p.consts.lookup g.1 = none := by
  obtain ⟨q, hq⟩ := newPoint_index (π := π) v
  have hb := newPoint_ok hnd hq
  obtain ⟨r1, r2, r3, r4⟩ := setOffsets_ok v hnd v.dims [] ofs q.args [] q rfl hb.var rfl rfl (by rw [hb.len', hb.len]) hl hm
  refine ⟨setOffsets (v.dims.zip ofs) q, ?_, r1, by simpa using r2, fun d hd => ?_, r4⟩
  · unfold newRelPoint
    rw [if_neg (by simp [hl]), if_neg, hq, Outcome.bind_ok, if_neg]
    · rw [List.any_eq_true]
      rintro ⟨k, hk, h⟩
      exact hmin (of_decide_eq_true h ▸ hk)
    · rw [List.any_eq_true]
      rintro ⟨g, hg, h⟩
      exact hm g hg (of_decide_eq_true h)
  · rw [(r3 d hd).1, (r3 d hd).2]
    exact newPoint_none hnd hq d hd

end Yask.Comp
