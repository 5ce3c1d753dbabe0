import Verif.Compiler.EqFormLemmas
import Verif.Spec.EqFormSpec
import Verif.Props.Expr

/-! # Lemmas about the checks of equations -/

namespace Yask.Comp

variable {π : Type} [DecidableEq π]

omit [DecidableEq π] in
theorem mem_zip_iff {α β : Type} {l : List α} {r : List β} {x : α × β} :
    x ∈ l.zip r ↔ ∃ i : Nat, l[i]? = some x.1 ∧ r[i]? = some x.2 := by
  rw [List.mem_iff_getElem?]
  constructor
  · rintro ⟨i, h⟩
    rw [List.getElem?_zip_eq_some] at h
    exact ⟨i, h⟩
  · rintro ⟨i, h⟩
    exact ⟨i, List.getElem?_zip_eq_some.2 h⟩

theorem Built.mem {v : EqVar} {args : List (NExpr π)} {p : CPt π} (hb : Built v args p) {x : (String × IndexType) × NExpr π}
    (hx : x ∈ v.dims.zip args) : ∃ k, argKind x.1.1 x.2 = .ok k ∧ (x.1, outArg x.1.1 x.1.2 x.2 k) ∈ p.var.dims.zip p.args ∧
      p.offsets.lookup x.1.1 = outOfs x.1.2 k ∧ p.consts.lookup x.1.1 = outConst k := by
  obtain ⟨i, h1, h2⟩ := mem_zip_iff.1 hx
  obtain ⟨k, g1, g2, g3, g4⟩ := hb.at_ i x.1.1 x.1.2 x.2 h1 h2
  exact ⟨k, g1, mem_zip_iff.2 ⟨i, by rw [hb.var]; exact h1, g2⟩, g3, g4⟩

theorem Built.mem' {v : EqVar} {args : List (NExpr π)} {p : CPt π} (hb : Built v args p) {y : (String × IndexType) × NExpr π}
    (hy : y ∈ p.var.dims.zip p.args) : ∃ a k, (y.1, a) ∈ v.dims.zip args ∧ argKind y.1.1 a = .ok k ∧
      y.2 = outArg y.1.1 y.1.2 a k ∧ p.offsets.lookup y.1.1 = outOfs y.1.2 k := by
  obtain ⟨i, h1, h2⟩ := mem_zip_iff.1 hy
  rw [hb.var] at h1
  have hi : i < args.length := by
    rw [← hb.len]
    exact (List.getElem?_eq_some_iff.1 h1).1
  obtain ⟨k, g1, g2, g3, g4⟩ := hb.at_ i y.1.1 y.1.2 args[i] h1 (List.getElem?_eq_getElem hi)
  refine ⟨args[i], k, mem_zip_iff.2 ⟨i, h1, List.getElem?_eq_getElem hi⟩, g1, ?_, g3⟩
  rw [h2] at g2
  exact Option.some.inj g2

theorem Built.dim {v : EqVar} {args : List (NExpr π)} {p : CPt π} (hb : Built v args p) {d : String}
    (hd : d ∈ v.dims.map Prod.fst) : ∃ x ∈ v.dims.zip args, x.1.1 = d := by
  obtain ⟨g, hg, rfl⟩ := List.mem_map.1 hd
  obtain ⟨i, hi⟩ := List.mem_iff_getElem?.1 hg
  have hlt : i < args.length := by
    rw [← hb.len]
    exact (List.getElem?_eq_some_iff.1 hi).1
  exact ⟨(g, args[i]), mem_zip_iff.2 ⟨i, hi, List.getElem?_eq_getElem hlt⟩, rfl⟩

theorem Built.arg {v : EqVar} {args : List (NExpr π)} {p : CPt π} (hb : Built v args p) (d : String) :
    (p.arg d).isSome = true ↔ d ∈ v.dims.map Prod.fst := by
  unfold CPt.arg
  rw [Option.isSome_map, List.find?_isSome]
  constructor
  · rintro ⟨y, hy, he⟩
    simp only [decide_eq_true_eq] at he
    obtain ⟨i, h1, _⟩ := mem_zip_iff.1 hy
    rw [hb.var] at h1
    exact List.mem_map.2 ⟨y.1, List.mem_of_getElem? h1, he⟩
  · intro hd
    obtain ⟨x, hx, rfl⟩ := hb.dim hd
    obtain ⟨k, _, h, _⟩ := hb.mem hx
    exact ⟨_, h, by simp⟩

omit [DecidableEq π] in
theorem argKind_const {d : String} {a : NExpr π} {c : ℤ} (h : argKind d a = .ok (.const c)) :
    Denotes a (fun _ => c) ∧ isInt c = true := by
  refine ⟨fun I idx hI _ => C51_const hI d a c h, ?_⟩
  unfold argKind at h
  split_ifs at h with hc
  · cases hi : a.intVal with
    | throws => rw [hi] at h; cases h
    | undefined => rw [hi] at h; cases h
    | ok i =>
      rw [hi] at h
      simp only [Outcome.bind_ok, Outcome.ok.injEq, ArgKind.const.injEq] at h
      subst h
      unfold NExpr.intVal at hi
      cases hn : a.numVal with
      | throws => rw [hn] at hi; cases hi
      | undefined => rw [hn] at hi; cases hi
      | ok q =>
        rw [hn] at hi
        simp only [Outcome.bind_ok] at hi
        unfold toInt at hi
        split_ifs at hi with h1
        · simp only [Outcome.bind_ok] at hi
          split_ifs at hi
          cases hi
          exact h1
        · cases hi
  · cases ho : a.offsetFrom d with
    | throws => rw [ho] at h; cases h
    | undefined => rw [ho] at h; cases h
    | ok oo => rw [ho] at h; simp only [Outcome.bind_ok] at h; cases oo <;> cases h

omit [DecidableEq π] in
theorem argKind_offset {d : String} {a : NExpr π} {o : ℤ} (h : argKind d a = .ok (.offset o)) :
    Denotes a (fun idx => idx d + o) :=
  fun I idx hI hx => C51_offset hI d (idx d) (hx d).1 (hx d).2 a o h

omit [DecidableEq π] in
theorem argKind_isConst {d : String} {a : NExpr π} {k : ArgKind} (h : argKind d a = .ok k) (hc : a.isConst = true) :
    ∃ c, k = .const c := by
  unfold argKind at h
  rw [if_pos hc] at h
  cases hi : a.intVal with
  | throws => rw [hi] at h; cases h
  | undefined => rw [hi] at h; cases h
  | ok i => rw [hi] at h; cases h; exact ⟨i, rfl⟩

omit [DecidableEq π] in
theorem normOffset_not_const (d : String) (ty : IndexType) (o : ℤ) : (normOffset d ty o : NExpr π).isConst = false := by
  unfold normOffset
  split_ifs <;> simp [NExpr.isConst, NExpr.allConst]

omit [DecidableEq π] in
theorem checkMisc_out {d : String} {ty : IndexType} {a : NExpr π} {k : ArgKind} (hk : argKind d a = .ok k)
    (h : checkMisc (outArg d ty a k) = .ok ()) : ∃ c, k = .const c := by
  unfold checkMisc at h
  split_ifs at h with hc
  cases k with
  | const c => exact ⟨c, rfl⟩
  | offset o =>
    unfold outArg at hc
    simp only at hc
    split_ifs at hc with hm
    · exact argKind_isConst hk hc
    · rw [normOffset_not_const] at hc; cases hc
  | other => exact argKind_isConst hk hc

omit [DecidableEq π] in
theorem trunc_int (i : ℤ) : trunc (i : ℚ) = i := by
  unfold trunc
  split_ifs <;> simp

omit [DecidableEq π] in
theorem intVal_const {c : ℤ} (h : isInt c = true) : (NExpr.const (c : ℚ) : NExpr π).intVal = .ok c := by
  simp [NExpr.intVal, NExpr.numVal, trunc_int, toInt, h]

omit [DecidableEq π] in
theorem checkMisc_const {c : ℤ} (h : isInt c = true) : checkMisc (NExpr.const (c : ℚ) : NExpr π) = .ok () := by
  unfold checkMisc
  rw [if_pos (by simp [NExpr.isConst]), intVal_const h]
  rfl

theorem same_index {a : NExpr π} {d : String} {ty : IndexType} (h : a.same (.index d ty) = true) : a = .index d ty := by
  cases a <;> simp_all [NExpr.same]

/-- A domain index on the left. -/
theorem same_out {d : String} {ty : IndexType} {a : NExpr π} {k : ArgKind} (hk : argKind d a = .ok k)
    (h : (outArg d ty a k).same (.index d .domain) = true) : Denotes a (fun idx => idx d) := by
  have he := same_index h
  cases k with
  | const c => simp [outArg] at he
  | offset o =>
    unfold outArg at he
    simp only at he
    split_ifs at he with hm
    · rw [he]; intro I idx _ hx; exact (hx d).2
    · have ho : o = 0 := by
        unfold normOffset at he
        split_ifs at he with h1 h2
        omega
      subst ho
      intro I idx hI hx
      have := argKind_offset hk I idx hI hx
      simpa using this
  | other =>
    simp only [outArg] at he
    rw [he]; intro I idx _ hx; exact (hx d).2

theorem read_means {D : CDims} {v : EqVar} {args : List (NExpr π)} {p : CPt π} (hb : Built v args p)
    (h : checkAll (checkRhsArg D p.offsets) (p.var.dims.zip p.args) = .ok ()) : ReadMeans D v args p := by
  rw [checkAll_ok] at h
  refine ⟨hb.var, hb.len.symm, fun x hx => ?_⟩
  obtain ⟨k, hk, hm, ho, hc⟩ := hb.mem hx
  have hx' := h _ hm
  unfold checkRhsArg at hx'
  simp only at hx'
  by_cases hd : x.1.1 = D.step ∨ x.1.1 ∈ D.domain
  · have hs : (p.offsets.lookup x.1.1).isSome = true := by
      by_cases hst : x.1.1 = D.step
      · rw [if_pos hst] at hx'
        by_contra hn
        rw [if_neg hn] at hx'
        cases hx'
      · rw [if_neg hst, if_pos (hd.resolve_left hst)] at hx'
        by_contra hn
        rw [if_neg hn] at hx'
        cases hx'
    rw [ho] at hs
    cases k with
    | const c => cases hs
    | other => cases hs
    | offset o =>
      unfold outOfs at hs ho
      by_cases hmi : x.1.2 = .misc
      · simp [hmi] at hs
      · simp only [hmi, if_false] at ho
        exact ⟨o, by rw [if_pos hd]; exact ⟨argKind_offset hk, ho⟩⟩
  · have h1 : x.1.1 ≠ D.step := fun e => hd (.inl e)
    have h2 : x.1.1 ∉ D.domain := fun e => hd (.inr e)
    rw [if_neg h1, if_neg h2] at hx'
    obtain ⟨c, rfl⟩ := checkMisc_out hk hx'
    exact ⟨c, by rw [if_neg hd]; exact ⟨(argKind_const hk).1, hc⟩⟩

theorem write_means {D : CDims} {dir : ℤ} {v : EqVar} {args : List (NExpr π)} {p : CPt π} (hb : Built v args p)
    (hdom : D.domain.any (fun d => (p.arg d).isNone) = false) (hst : (p.arg D.step).isSome ≠ v.scratch)
    (hdir : v.scratch = false → p.offsets.lookup D.step = some dir)
    (h : checkAll (checkLhsArg D) (p.var.dims.zip p.args) = .ok ()) : WriteMeans D dir v args p := by
  rw [checkAll_ok] at h
  have hstep : D.step ∈ v.dims.map Prod.fst ↔ v.scratch = false := by
    rw [← hb.arg]
    revert hst
    cases (p.arg D.step).isSome <;> cases v.scratch <;> simp
  refine ⟨hb.var, hb.len.symm, fun d hd => ?_, hstep, fun x hx => ?_⟩
  · rw [← hb.arg]
    rw [List.any_eq_false] at hdom
    have := hdom d hd
    revert this
    cases p.arg d <;> simp
  · obtain ⟨k, hk, hm, ho, hc⟩ := hb.mem hx
    have hx' := h _ hm
    unfold checkLhsArg at hx'
    simp only at hx'
    by_cases hs : x.1.1 = D.step
    · rw [if_pos hs]
      have hmem : D.step ∈ v.dims.map Prod.fst := by
        rw [← hs]
        exact List.mem_map_of_mem (List.of_mem_zip hx).1
      have hl := hdir (hstep.1 hmem)
      rw [← hs, ho] at hl
      cases k with
      | const c => cases hl
      | other => cases hl
      | offset o =>
        unfold outOfs at hl
        by_cases hmi : x.1.2 = .misc
        · simp [hmi] at hl
        · simp only [hmi, if_false, Option.some.injEq] at hl
          subst hl
          exact ⟨argKind_offset hk, by rw [ho]; simp [outOfs, hmi]⟩
    · rw [if_neg hs] at hx' ⊢
      by_cases hd : x.1.1 ∈ D.domain
      · rw [if_pos hd] at hx' ⊢
        refine same_out hk (ty := x.1.2) ?_
        by_contra hn
        rw [if_neg hn] at hx'
        cases hx'
      · rw [if_neg hd] at hx' ⊢
        obtain ⟨c, rfl⟩ := checkMisc_out hk hx'
        exact ⟨c, (argKind_const hk).1, hc⟩

/-- The checks of one equation, taken apart. -/
theorem checkEq_ok {D : CDims} {dir d : ℤ} {c : CEq π} (h : checkEq D dir c = .ok d) :
    D.domain.any (fun d => (c.lhs.arg d).isNone) = false ∧ (c.lhs.arg D.step).isSome ≠ c.lhs.var.scratch ∧
    checkAll (checkLhsArg D) (c.lhs.var.dims.zip c.lhs.args) = .ok () ∧ checkDir D dir c = .ok d ∧ c.lhs.vecFull D = true ∧
    ∀ p ∈ c.rhs, checkAll (checkRhsArg D p.offsets) (p.var.dims.zip p.args) = .ok () := by
  unfold checkEq at h
  by_cases h1 : D.domain.any (fun d => (c.lhs.arg d).isNone) = true
  · rw [if_pos h1] at h; cases h
  rw [if_neg h1] at h
  by_cases h2 : (c.lhs.arg D.step).isSome = c.lhs.var.scratch
  · rw [if_pos h2] at h; cases h
  rw [if_neg h2] at h
  cases h3 : checkAll (checkLhsArg D) (c.lhs.var.dims.zip c.lhs.args) with
  | throws => rw [h3] at h; cases h
  | undefined => rw [h3] at h; cases h
  | ok u =>
    cases u
    rw [h3] at h
    simp only [Outcome.bind_ok] at h
    cases h4 : checkDir D dir c with
    | throws => rw [h4] at h; cases h
    | undefined => rw [h4] at h; cases h
    | ok d1 =>
      rw [h4] at h
      simp only [Outcome.bind_ok] at h
      by_cases h5 : c.lhs.vecFull D = true
      · rw [if_pos h5] at h
        cases h6 : checkAll (fun p => checkAll (checkRhsArg D p.offsets) (p.var.dims.zip p.args)) c.rhs with
        | throws => rw [h6] at h; cases h
        | undefined => rw [h6] at h; cases h
        | ok u =>
          cases u
          rw [h6] at h
          cases h
          exact ⟨by simpa using h1, h2, rfl, rfl, h5, (checkAll_ok _ _).1 h6⟩
      · rw [if_neg h5] at h; cases h

theorem checkDir_ok {D : CDims} {dir d : ℤ} {c : CEq π} (h : checkDir D dir c = .ok d) :
    (c.lhs.var.scratch = true → d = dir) ∧
    (c.lhs.var.scratch = false → c.lhs.offsets.lookup D.step = some d ∧ (d = 1 ∨ d = -1) ∧ (dir = 0 ∨ dir = d) ∧
      (d = 1 → ∀ p ∈ c.rhs, ∀ k, p.offsets.lookup D.step = some k → k ≤ 1)) := by
  unfold checkDir at h
  cases hs : c.lhs.var.scratch with
  | true => rw [hs] at h; simp only [if_true] at h; cases h; simp
  | false =>
    rw [hs] at h
    simp only [Bool.false_eq_true, if_false] at h
    refine ⟨by simp, fun _ => ?_⟩
    cases hl : c.lhs.offsets.lookup D.step with
    | none => rw [hl] at h; cases h
    | some l =>
      rw [hl] at h
      simp only at h
      by_cases h1 : l ≠ 1 ∧ l ≠ -1
      · rw [if_pos h1] at h; cases h
      · rw [if_neg h1] at h
        generalize hg : (if dir = 0 ∧ l ≠ 0 then (if l > 0 then (1 : ℤ) else -1) else dir) = d1 at h
        by_cases h2 : l ≠ d1
        · rw [if_pos h2] at h; cases h
        · rw [if_neg h2] at h
          by_cases h3 : c.rhs.any (lateRead D d1 l) = true
          · rw [if_pos h3] at h; cases h
          · rw [if_neg h3] at h
            cases h
            have hl1 : l = d := not_not.1 h2
            subst hl1
            refine ⟨rfl, by omega, ?_, fun e p hp k hk => ?_⟩
            · by_cases h0 : dir = 0
              · exact .inl h0
              · rw [if_neg (fun e => h0 e.1)] at hg; exact .inr hg
            · by_contra hn
              apply h3
              rw [List.any_eq_true]
              refine ⟨p, hp, ?_⟩
              unfold lateRead
              rw [hk]
              simp only [e, decide_true, Bool.true_and, Bool.or_eq_true, decide_eq_true_eq]
              left; omega

/-- The direction found is that of all equations. -/
theorem checkFold_ok {D : CDims} (cs : List (CEq π)) : ∀ {dir d : ℤ}, cs.foldlM (checkEq D) dir = .ok d →
    (dir ≠ 0 → d = dir) ∧ (d = dir ∨ d = 1 ∨ d = -1) ∧ ∀ c ∈ cs, ∃ d0 d1, checkEq D d0 c = .ok d1 ∧ (c.lhs.var.scratch = false → d1 = d) := by
  induction cs with
  | nil => intro dir d h; cases h; exact ⟨fun _ => rfl, .inl rfl, fun c hc => by simp at hc⟩
  | cons c cs ih =>
    intro dir d h
    rw [List.foldlM_cons] at h
    cases hc : checkEq D dir c with
    | throws => rw [hc] at h; cases h
    | undefined => rw [hc] at h; cases h
    | ok d1 =>
      rw [hc] at h
      simp only [Outcome.bind_ok] at h
      obtain ⟨g1, g0, g2⟩ := ih h
      obtain ⟨_, _, _, hdir, _⟩ := checkEq_ok hc
      obtain ⟨k1, k2⟩ := checkDir_ok hdir
      refine ⟨fun hne => ?_, ?_, fun c' hc' => ?_⟩
      rotate_left
      · rcases g0 with g0 | g0
        · cases hs : c.lhs.var.scratch with
          | true => exact .inl (g0.trans (k1 hs))
          | false => exact .inr (g0 ▸ (k2 hs).2.1)
        · exact .inr g0
      rotate_left
      · cases hs : c.lhs.var.scratch with
        | true => have := k1 hs; rw [← this]; exact g1 (by rw [this]; exact hne)
        | false =>
          obtain ⟨_, _, k3, _⟩ := k2 hs
          have := k3.resolve_left hne
          rw [this]; exact g1 (by rw [← this]; exact hne)
      · rcases List.mem_cons.1 hc' with rfl | hc'
        · refine ⟨dir, d1, hc, fun hs => ?_⟩
          obtain ⟨_, k3, _⟩ := k2 hs
          exact (g1 (by omega)).symm
        · exact g2 c' hc'

omit [DecidableEq π] in
theorem newEq_ok {e : SrcEq π} {c : CEq π} (h : newEq e = .ok c) : newPoint e.lhs.1 e.lhs.2 = .ok c.lhs ∧
    List.Forall₂ (fun q p => newPoint q.1 q.2 = .ok p) e.rhs c.rhs := by
  unfold newEq at h
  cases h1 : newPoint e.lhs.1 e.lhs.2 with
  | throws => rw [h1] at h; cases h
  | undefined => rw [h1] at h; cases h
  | ok l =>
    rw [h1] at h
    simp only [Outcome.bind_ok] at h
    cases h2 : mapAll (fun p : EqVar × List (NExpr π) => newPoint p.1 p.2) e.rhs with
    | throws => rw [h2] at h; cases h
    | undefined => rw [h2] at h; cases h
    | ok r => rw [h2] at h; cases h; exact ⟨rfl, mapAll_ok _ _ _ h2⟩

theorem ctorFold_exists (l : List ((String × IndexType) × NExpr π)) (h : ∀ x ∈ l, ∃ k, argKind x.1.1 x.2 = .ok k) :
    ∀ p : CPt π, ∃ p', l.foldlM ctorArg p = .ok p' := by
  induction l with
  | nil => intro p; exact ⟨p, rfl⟩
  | cons x l ih =>
    intro p
    obtain ⟨k, hk⟩ := h x (by simp)
    have : ∃ p1, ctorArg p x = .ok p1 := by
      unfold ctorArg
      rw [hk]
      cases k <;> exact ⟨_, rfl⟩
    obtain ⟨p1, h1⟩ := this
    obtain ⟨p', h2⟩ := ih (fun y hy => h y (by simp [hy])) p1
    exact ⟨p', by rw [List.foldlM_cons, h1]; exact h2⟩

theorem newPoint_exists {v : EqVar} {args : List (NExpr π)} (hl : args.length = v.dims.length)
    (h : ∀ x ∈ v.dims.zip args, ∃ k, argKind x.1.1 x.2 = .ok k) : ∃ p, newPoint v args = .ok p := by
  unfold newPoint
  rw [if_neg (by simp [hl])]
  exact ctorFold_exists _ h _

omit [DecidableEq π] in
theorem plainOffset_kind {d : String} {ty : IndexType} {k : ℤ} {a : NExpr π} (hty : ty = .step ∨ ty = .domain)
    (h : PlainOffset d ty k a) : argKind d a = .ok (.offset k) := by
  obtain ⟨⟨h1, h2⟩, h⟩ := h
  have hk : isInt k = true := by simp [isInt]; omega
  have hk' : isInt (-k) = true := by simp [isInt]; omega
  have hix : (NExpr.index d ty : NExpr π).offsetFrom d = .ok (some 0) := by
    rcases hty with rfl | rfl <;> simp [NExpr.offsetFrom]
  have hco : ∀ q : ℚ, (NExpr.const q : NExpr π).offsetFrom d = .ok none := fun q => by simp [NExpr.offsetFrom]
  have ht : toInt k = .ok k := by simp [toInt, hk]
  rcases h with ⟨rfl, rfl⟩ | rfl | rfl | rfl
  · simp only [argKind, NExpr.isConst, hix]; rfl
  · simp [argKind, NExpr.isConst, NExpr.allConst, NExpr.offsetFrom, NExpr.addOffset, hty.symm, intVal_const hk, ht]
  · simp [argKind, NExpr.isConst, NExpr.allConst, NExpr.offsetFrom, NExpr.addOffset, hty.symm, intVal_const hk, ht]
  · have := intVal_const (π := π) hk'
    push_cast at this
    simp [argKind, NExpr.isConst, NExpr.offsetFrom, hty.symm, this, ht]

omit [DecidableEq π] in
theorem smallConst_kind (d : String) {k : ℤ} (h : SmallInt k) : argKind d (NExpr.const (k : ℚ) : NExpr π) = .ok (.const k) := by
  obtain ⟨h1, h2⟩ := h
  unfold argKind
  rw [if_pos (by simp [NExpr.isConst]), intVal_const (by simp [isInt]; omega)]
  rfl

end Yask.Comp
