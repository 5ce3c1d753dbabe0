import Verif.Compiler.EqFormChecks

/-!
# The stencil compiler accepts only equations of the required form, with the meaning as written (C75)

The specification is in `Spec/EqFormSpec.lean`. An equation is given as the user writes it: the var that is written and those that are
read, each with index expressions. `checkEqs` constructs the var points and runs the checks.
-/

namespace Yask
open Comp

section
variable {π : Type} [DecidableEq π]

omit [DecidableEq π] in
private theorem forall₂_imp {α β : Type} {R S : α → β → Prop} {l : List α} {r : List β} (h : List.Forall₂ R l r)
    (hi : ∀ a ∈ l, ∀ b ∈ r, R a b → S a b) : List.Forall₂ S l r := by
  induction h with
  | nil => exact .nil
  | cons h1 _ ih =>
    exact .cons (hi _ (by simp) _ (by simp) h1) (ih fun a ha b hb => hi a (by simp [ha]) b (by simp [hb]))

omit [DecidableEq π] in
private theorem forall₂_left {α β : Type} {R : α → β → Prop} {l : List α} {r : List β} (h : List.Forall₂ R l r) :
    ∀ a ∈ l, ∃ b ∈ r, R a b := by
  induction h with
  | nil => simp
  | @cons a b l r h1 _ ih =>
    intro x hx
    rcases List.mem_cons.1 hx with rfl | hx
    · exact ⟨b, by simp, h1⟩
    · obtain ⟨y, hy, h⟩ := ih x hx
      exact ⟨y, by simp [hy], h⟩

/-- C75: if the equations are accepted, then all of them compute the next step in one direction, from reads at fixed distances, at the
current index of each domain dim; and the var points, which the rest of the compiler works with, have recorded the distances the user
wrote. Vars whose dims do not have different names are excluded; see `C75_repeated_dim_wrong`. -/
theorem C75_meaning_partial (D : CDims) (es : List (SrcEq π))
    (hn : ∀ e ∈ es, DimNames e.lhs.1 ∧ ∀ q ∈ e.rhs, DimNames q.1) (dir : ℤ) (cs : List (CEq π))
    (h : checkEqs D es = .ok (dir, cs)) : (dir = 1 ∨ dir = -1) ∧ List.Forall₂ (EqMeans D dir) es cs := by
  unfold checkEqs at h
  cases h1 : mapAll newEq es with
  | throws => rw [h1] at h; cases h
  | undefined => rw [h1] at h; cases h
  | ok cs' =>
    rw [h1] at h
    simp only [Outcome.bind_ok] at h
    cases h2 : cs'.foldlM (checkEq D) (0 : ℤ) with
    | throws => rw [h2] at h; cases h
    | undefined => rw [h2] at h; cases h
    | ok d =>
      rw [h2] at h
      simp only [Outcome.bind_ok, Outcome.ok.injEq, Prod.mk.injEq] at h
      obtain ⟨hd, rfl⟩ := h
      obtain ⟨_, g0, g2⟩ := checkFold_ok cs' h2
      refine ⟨?_, forall₂_imp (mapAll_ok _ _ _ h1) fun e he c hc hec => ?_⟩
      · by_cases h0 : d = 0
        · rw [if_pos h0] at hd; omega
        · rw [if_neg h0] at hd; omega
      · obtain ⟨k1, k2⟩ := newEq_ok hec
        obtain ⟨hl, hr⟩ := hn e he
        obtain ⟨d0, d1, hce, hsd⟩ := g2 c hc
        obtain ⟨c1, c2, c3, c4, c5, c6⟩ := checkEq_ok hce
        obtain ⟨_, e2⟩ := checkDir_ok c4
        have hb := newPoint_ok hl k1
        have hdd : e.lhs.1.scratch = false → d1 = dir := by
          intro hs
          rw [← hb.var] at hs
          have := hsd hs
          have h3 := (e2 hs).2.1
          rw [← hd, if_neg (by omega)]
          exact this
        have hmeans : List.Forall₂ (fun q p => ReadMeans D q.1 q.2 p) e.rhs c.rhs :=
          forall₂_imp k2 fun q hq p hp hqp => read_means (newPoint_ok (hr q hq) hqp) (c6 p hp)
        refine ⟨write_means hb c1 (by rw [← hb.var]; exact c2) (fun hs => ?_) c3, hmeans, fun hs hdir1 q hq x hx hxs => ?_⟩
        · rw [← hdd hs]
          exact (e2 (by rw [hb.var]; exact hs)).1
        · obtain ⟨p, hp, hqp⟩ := forall₂_left hmeans q hq
          obtain ⟨k, hk⟩ := hqp.2.2 x hx
          rw [if_pos (.inl hxs)] at hk
          refine ⟨k, ?_, hk.1⟩
          exact (e2 (by rw [hb.var]; exact hs)).2.2.2 ((hdd hs).trans hdir1) p hp k (by rw [← hxs]; exact hk.2)

/-- C75, the other way round: equations written in the plain way are accepted, whatever the folding. -/
theorem C75_accepts (D : CDims) (hdom : D.domain ≠ []) (hns : D.step ∉ D.domain) (hfold : ∀ d ∈ D.folded, d ∈ D.domain) (dir : ℤ)
    (hdir : dir = 1 ∨ dir = -1) (es : List (SrcEq π)) (h : ∀ e ∈ es, PlainEq D dir e) :
    ∃ d cs, checkEqs D es = .ok (d, cs) ∧ (d = dir ∨ ∀ e ∈ es, e.lhs.1.scratch = true) := by
  -- reads
  have readOk : ∀ (late : ℤ → Prop) (q : EqVar × List (NExpr π)), PlainRead D late q → ∃ p, newPoint q.1 q.2 = .ok p ∧
      checkAll (checkRhsArg D p.offsets) (p.var.dims.zip p.args) = .ok () ∧
      ∀ k, p.offsets.lookup D.step = some k → ¬ late k := by
    intro late q ⟨hnm, hkd, hlen, hx⟩
    have hkind : ∀ x ∈ q.1.dims.zip q.2, ∃ k : ℤ, (x.1.2 = .misc ∧ argKind x.1.1 x.2 = .ok (.const k) ∧ isInt k = true) ∨
        (x.1.2 ≠ .misc ∧ argKind x.1.1 x.2 = .ok (.offset k) ∧ (x.1.2 = .step → ¬ late k)) := by
      intro x hxm
      obtain ⟨k, hk⟩ := hx x hxm
      by_cases hm : x.1.2 = .misc
      · rw [if_pos hm] at hk
        refine ⟨k, .inl ⟨hm, by rw [hk.2]; exact smallConst_kind _ hk.1, ?_⟩⟩
        obtain ⟨⟨a1, a2⟩, _⟩ := hk
        simp [isInt]; omega
      · rw [if_neg hm] at hk
        refine ⟨k, .inr ⟨hm, plainOffset_kind (ty := x.1.2) ?_ hk.1, hk.2⟩⟩
        rcases hkd x.1 (List.of_mem_zip hxm).1 with e | e | e
        · exact .inl e.1
        · exact .inr e.1
        · exact absurd e.1 hm
    obtain ⟨p, hp⟩ := newPoint_exists hlen fun x hxm => by
      obtain ⟨k, ⟨_, hk, _⟩ | ⟨_, hk, _⟩⟩ := hkind x hxm
      · exact ⟨_, hk⟩
      · exact ⟨_, hk⟩
    have hb := newPoint_ok hnm hp
    refine ⟨p, hp, (checkAll_ok _ _).2 fun y hy => ?_, fun k hk => ?_⟩
    · obtain ⟨a, k, ha, hka, hya, ho⟩ := hb.mem' hy
      obtain ⟨k', hk'⟩ := hkind _ ha
      simp only at hk'
      unfold checkRhsArg
      rcases hk' with ⟨hm, h1, h2⟩ | ⟨hm, h1, _⟩
      · rw [hka] at h1
        cases h1
        rcases hkd y.1 (List.of_mem_zip ha).1 with e | e | e
        · rw [e.1] at hm; cases hm
        · rw [e.1] at hm; cases hm
        · rw [if_neg e.2.2, if_neg e.2.1, hya]
          exact checkMisc_const h2
      · rw [hka] at h1
        cases h1
        have hs : (p.offsets.lookup y.1.1).isSome = true := by rw [ho]; simp [outOfs, hm]
        rcases hkd y.1 (List.of_mem_zip ha).1 with e | e | e
        · rw [if_pos e.2, if_pos hs]
        · rw [if_neg e.2.2, if_pos e.2.1, if_pos hs]
        · exact absurd e.1 hm
    · have hmem : D.step ∈ q.1.dims.map Prod.fst := by
        by_contra hc
        rw [hb.none_ _ hc] at hk
        cases hk
      obtain ⟨x, hxm, hxs⟩ := hb.dim hmem
      obtain ⟨k1, g1, _, g3, _⟩ := hb.mem hxm
      obtain ⟨k2, hk2⟩ := hkind x hxm
      rcases hkd x.1 (List.of_mem_zip hxm).1 with e | e | e
      · rcases hk2 with ⟨hm, _⟩ | ⟨hm, h1, h2⟩
        · rw [e.1] at hm; cases hm
        · rw [g1] at h1
          cases h1
          rw [← hxs, g3] at hk
          simp only [outOfs, hm, if_false, Option.some.injEq] at hk
          subst hk
          exact h2 e.1
      · exact absurd hxs e.2.2
      · exact absurd hxs e.2.2
  -- writes
  have writeOk : ∀ (q : EqVar × List (NExpr π)), PlainWrite D dir q → ∃ p, newPoint q.1 q.2 = .ok p ∧ p.var = q.1 ∧
      D.domain.any (fun d => (p.arg d).isNone) = false ∧ (p.arg D.step).isSome ≠ q.1.scratch ∧
      checkAll (checkLhsArg D) (p.var.dims.zip p.args) = .ok () ∧ p.vecFull D = true ∧
      (q.1.scratch = false → p.offsets.lookup D.step = some dir) := by
    intro q ⟨hnm, hkd, hlen, hall, hst, hx⟩
    have hsm : SmallInt dir := by unfold SmallInt; omega
    have hkind : ∀ x ∈ q.1.dims.zip q.2, (x.1.2 = .step ∧ argKind x.1.1 x.2 = .ok (.offset dir)) ∨
        (x.1.2 = .domain ∧ argKind x.1.1 x.2 = .ok (.offset 0)) ∨
        (x.1.2 = .misc ∧ ∃ k : ℤ, argKind x.1.1 x.2 = .ok (.const k) ∧ isInt k = true) := by
      intro x hxm
      have hk := hx x hxm
      rcases hkd x.1 (List.of_mem_zip hxm).1 with e | e | e
      · rw [e.1] at hk
        exact .inl ⟨e.1, plainOffset_kind (.inl rfl) hk⟩
      · rw [e.1] at hk
        exact .inr (.inl ⟨e.1, plainOffset_kind (.inr rfl) hk⟩)
      · rw [e.1] at hk
        obtain ⟨k, hk, e2⟩ := hk
        refine .inr (.inr ⟨e.1, k, by rw [e2]; exact smallConst_kind _ hk, ?_⟩)
        obtain ⟨a1, a2⟩ := hk
        simp [isInt]; omega
    obtain ⟨p, hp⟩ := newPoint_exists hlen fun x hxm => by
      obtain ⟨_, hk⟩ | ⟨_, hk⟩ | ⟨_, k, hk, _⟩ := hkind x hxm
      · exact ⟨_, hk⟩
      · exact ⟨_, hk⟩
      · exact ⟨_, hk⟩
    have hb := newPoint_ok hnm hp
    have hdomOfs : ∀ d ∈ D.domain, p.offsets.lookup d = some 0 ∧ (d, IndexType.domain) ∈ q.1.dims := by
      intro d hd
      obtain ⟨x, hxm, hxs⟩ := hb.dim (hall d hd)
      obtain ⟨k1, g1, _, g3, _⟩ := hb.mem hxm
      have hdim := (List.of_mem_zip hxm).1
      rcases hkind x hxm with ⟨e, hk⟩ | ⟨e, hk⟩ | ⟨e, k, hk, _⟩
      · rcases hkd x.1 hdim with g | g | g
        · exact absurd (by rw [← g.2, hxs]; exact hd) hns
        · rw [g.1] at e; cases e
        · rw [g.1] at e; cases e
      · rw [g1] at hk
        cases hk
        refine ⟨by rw [← hxs, g3]; simp [outOfs, e], ?_⟩
        rw [← hxs, ← e]; exact hdim
      · rcases hkd x.1 hdim with g | g | g
        · rw [g.1] at e; cases e
        · rw [g.1] at e; cases e
        · exact absurd (hxs ▸ hd) g.2.1
    refine ⟨p, hp, hb.var, ?_, ?_, (checkAll_ok _ _).2 fun y hy => ?_, ?_, fun hs => ?_⟩
    · rw [List.any_eq_false]
      intro d hd
      have := (hb.arg d).2 (hall d hd)
      revert this
      cases p.arg d <;> simp
    · intro e
      have h1 := hb.arg D.step
      rw [e, hst] at h1
      revert h1
      cases q.1.scratch <;> simp
    · obtain ⟨a, k, ha, hka, hya, ho⟩ := hb.mem' hy
      have hdim := (List.of_mem_zip ha).1
      unfold checkLhsArg
      rcases hkd y.1 hdim with e | e | e
      · rw [if_pos e.2]
      · rw [if_neg e.2.2, if_pos e.2.1, hya]
        rcases hkind _ ha with ⟨e', _⟩ | ⟨e', hk⟩ | ⟨e', _⟩
        · rw [e.1] at e'; cases e'
        · rw [hka] at hk
          cases hk
          rw [if_pos]
          simp [outArg, e.1, normOffset, NExpr.same]
        · rw [e.1] at e'; cases e'
      · rw [if_neg e.2.2, if_neg e.2.1, hya]
        rcases hkind _ ha with ⟨e', _⟩ | ⟨e', _⟩ | ⟨e', k', hk, hi⟩
        · rw [e.1] at e'; cases e'
        · rw [e.1] at e'; cases e'
        · rw [hka] at hk
          cases hk
          exact checkMisc_const hi
    · obtain ⟨d0, hd0⟩ := List.exists_mem_of_ne_nil _ hdom
      unfold CPt.vecFull
      by_cases hf : D.folded = []
      · rw [if_pos]
        refine ⟨by simp [hf], ?_⟩
        unfold EqVar.foldable EqVar.numFoldable
        rw [hb.var]
        simp only [Bool.and_eq_true, List.any_eq_true, decide_eq_true_eq]
        refine ⟨⟨_, (hdomOfs d0 hd0).2, rfl⟩, ?_⟩
        simp [hf]
      · have hlen : D.folded.length ≠ 0 := by simpa using hf
        rw [if_neg (fun e => hlen e.1)]
        obtain ⟨f0, hf0⟩ := List.exists_mem_of_ne_nil _ hf
        rw [if_neg]
        · rw [decide_eq_true_eq]
          congr 1
          rw [List.filter_eq_self]
          intro d hd
          rw [(hdomOfs d (hfold d hd)).1]
          rfl
        · unfold EqVar.numFoldable
          rw [hb.var]
          intro e
          rw [List.length_eq_zero_iff, List.filter_eq_nil_iff] at e
          exact e _ (hdomOfs f0 (hfold f0 hf0)).2 (by simp [hf0])
    · obtain ⟨x, hxm, hxs⟩ := hb.dim (hst.2 hs)
      obtain ⟨k1, g1, _, g3, _⟩ := hb.mem hxm
      rcases hkd x.1 (List.of_mem_zip hxm).1 with e | e | e
      · rcases hkind x hxm with ⟨e', hk⟩ | ⟨e', _⟩ | ⟨e', _⟩
        · rw [g1] at hk
          cases hk
          rw [← hxs, g3]
          simp [outOfs, e.1]
        · rw [e.1] at e'; cases e'
        · rw [e.1] at e'; cases e'
      · exact absurd hxs e.2.2
      · exact absurd hxs e.2.2
  -- one equation
  have eqOk : ∀ e : SrcEq π, PlainEq D dir e → ∃ c, newEq e = .ok c ∧ c.lhs.var = e.lhs.1 ∧
      ∀ d0, d0 = 0 ∨ d0 = dir → checkEq D d0 c = .ok (if e.lhs.1.scratch then d0 else dir) := by
    intro e ⟨hw, hr⟩
    obtain ⟨l, l1, l2, l3, l4, l5, l6, l7⟩ := writeOk e.lhs hw
    have hrs : ∃ ps, List.Forall₂ (fun q p => newPoint q.1 q.2 = .ok p) e.rhs ps ∧ ∀ p ∈ ps,
        checkAll (checkRhsArg D p.offsets) (p.var.dims.zip p.args) = .ok () ∧
        ∀ k, p.offsets.lookup D.step = some k → ¬ (e.lhs.1.scratch = false ∧ dir * k > 1) := by
      have gen : ∀ qs : List (EqVar × List (NExpr π)), (∀ q ∈ qs, PlainRead D (fun k => e.lhs.1.scratch = false ∧ dir * k > 1) q) →
          ∃ ps, List.Forall₂ (fun q p => newPoint q.1 q.2 = .ok p) qs ps ∧ ∀ p ∈ ps,
            checkAll (checkRhsArg D p.offsets) (p.var.dims.zip p.args) = .ok () ∧
            ∀ k, p.offsets.lookup D.step = some k → ¬ (e.lhs.1.scratch = false ∧ dir * k > 1) := by
        intro qs
        induction qs with
        | nil => intro _; exact ⟨[], .nil, by simp⟩
        | cons q qs ih =>
          intro hq
          obtain ⟨p, p1, p2, p3⟩ := readOk _ q (hq q (by simp))
          obtain ⟨ps, i1, i2⟩ := ih fun q' hq' => hq q' (by simp [hq'])
          refine ⟨p :: ps, .cons p1 i1, fun p' hp' => ?_⟩
          rcases List.mem_cons.1 hp' with rfl | hp'
          · exact ⟨p2, p3⟩
          · exact i2 p' hp'
      exact gen e.rhs hr
    obtain ⟨ps, r1, r2⟩ := hrs
    refine ⟨⟨l, ps⟩, ?_, l2, fun d0 hd0 => ?_⟩
    · unfold newEq
      rw [l1]
      simp only [Outcome.bind_ok]
      rw [mapAll_of _ r1]
      rfl
    · have hcd : checkDir D d0 ⟨l, ps⟩ = .ok (if e.lhs.1.scratch then d0 else dir) := by
        unfold checkDir
        simp only [l2]
        cases hs : e.lhs.1.scratch with
        | true => rfl
        | false =>
          simp only [Bool.false_eq_true, if_false]
          rw [l7 hs]
          simp only
          rw [if_neg (by omega)]
          have hd1 : (if d0 = 0 ∧ dir ≠ 0 then (if dir > 0 then (1 : ℤ) else -1) else d0) = dir := by
            rcases hd0 with rfl | rfl <;> rcases hdir with rfl | rfl <;> simp
          rw [hd1, if_neg (by simp), if_neg]
          intro hany
          obtain ⟨p, hp, hlate⟩ := List.any_eq_true.1 hany
          unfold lateRead at hlate
          cases hk : p.offsets.lookup D.step with
          | none => rw [hk] at hlate; cases hlate
          | some k =>
            rw [hk] at hlate
            have := (r2 p hp).2 k hk
            simp only [Bool.or_eq_true, Bool.and_eq_true, decide_eq_true_eq] at hlate
            apply this
            refine ⟨hs, ?_⟩
            rcases hlate with ⟨h1, h2⟩ | ⟨h1, h2⟩
            · subst h1; omega
            · omega
      unfold checkEq
      simp only
      rw [if_neg (by rw [l3]; simp), if_neg (by rw [l2]; exact l4), l5]
      simp only [Outcome.bind_ok]
      rw [hcd]
      simp only [Outcome.bind_ok]
      rw [if_pos l6, (checkAll_ok _ _).2 fun p hp => (r2 p hp).1]
      rfl
  -- all equations
  have allOk : ∀ es : List (SrcEq π), (∀ e ∈ es, PlainEq D dir e) → ∃ cs, List.Forall₂ (fun e c => newEq e = .ok c) es cs ∧
      ∀ d0, d0 = 0 ∨ d0 = dir → ∃ d, cs.foldlM (checkEq D) d0 = .ok d ∧ (d = dir ∨ (d = d0 ∧ ∀ e ∈ es, e.lhs.1.scratch = true)) := by
    intro es
    induction es with
    | nil => intro _; exact ⟨[], .nil, fun d0 _ => ⟨d0, rfl, .inr ⟨rfl, by simp⟩⟩⟩
    | cons e es ih =>
      intro hes
      obtain ⟨c, c1, _, c3⟩ := eqOk e (hes e (by simp))
      obtain ⟨cs, i1, i2⟩ := ih fun e' he' => hes e' (by simp [he'])
      refine ⟨c :: cs, .cons c1 i1, fun d0 hd0 => ?_⟩
      have hc := c3 d0 hd0
      cases hs : e.lhs.1.scratch with
      | true =>
        rw [hs, if_pos rfl] at hc
        obtain ⟨d, j1, j2⟩ := i2 d0 hd0
        refine ⟨d, by rw [List.foldlM_cons, hc]; exact j1, ?_⟩
        rcases j2 with j2 | ⟨j2, j3⟩
        · exact .inl j2
        · refine .inr ⟨j2, fun e' he' => ?_⟩
          rcases List.mem_cons.1 he' with rfl | he'
          · exact hs
          · exact j3 e' he'
      | false =>
        rw [hs, if_neg (by simp)] at hc
        obtain ⟨d, j1, j2⟩ := i2 dir (.inr rfl)
        refine ⟨d, by rw [List.foldlM_cons, hc]; exact j1, .inl ?_⟩
        rcases j2 with j2 | ⟨j2, _⟩ <;> exact j2
  obtain ⟨cs, h1, h2⟩ := allOk es h
  obtain ⟨d, h3, h4⟩ := h2 0 (.inl rfl)
  unfold checkEqs
  rw [mapAll_of _ h1]
  simp only [Outcome.bind_ok]
  rw [h3]
  refine ⟨_, _, rfl, ?_⟩
  rcases h4 with h4 | ⟨_, h4⟩
  · left; subst h4; rw [if_neg (by omega)]
  · exact .inr h4

end

/-! ### A dim named twice -/

/-- A var with the dim `x` twice. -/
def exFormTwice : EqVar := ⟨"w", false, [("x", .domain), ("x", .domain)]⟩

/-- `u(t, x)`. -/
def exFormU : EqVar := ⟨"u", false, [("t", .step), ("x", .domain)]⟩

/-- One domain dim, folded. -/
def exFormD1 : CDims := ⟨"t", ["x"], ["x"]⟩

/-- `u(t+1, x) EQUALS w(x+1, x+2)`. -/
def exFormTwiceEq : SrcEq String :=
  ⟨(exFormU, [.comm .add [.index "t" .step, .const 1], .index "x" .domain]),
   [(exFormTwice, [.comm .add [.index "x" .domain, .const 1], .comm .add [.index "x" .domain, .const 2]])]⟩

/-- C75 fails for a var with a dim named twice: the first index of `w(x+1, x+2)` becomes `x+2`, and the equation is accepted. -/
theorem C75_repeated_dim_wrong : ∃ cs, checkEqs exFormD1 [exFormTwiceEq] = .ok (1, cs) ∧ ∃ c ∈ cs, ∃ p ∈ c.rhs, ∃ (I : Interp String ℚ)
    (a b : NExpr String), I.Usual ∧ (exFormTwiceEq.rhs.head?.bind fun q => q.2.head?) = some a ∧ p.args.head? = some b ∧
    a.val I = 11 ∧ b.val I = 12 := by
  refine ⟨_, rfl, _, List.mem_singleton.2 rfl, _, List.mem_singleton.2 rfl, ratInterp (fun _ _ => 10) (fun _ => 0), _, _,
    ⟨fun _ => rfl, fun _ _ => rfl, fun _ _ => rfl⟩, rfl, rfl, by decide +kernel, by decide +kernel⟩

/-! ### Cases that meet the hypotheses -/

/-- `t`; `x`, `y`, of which `y` is folded. -/
def exFormD2 : CDims := ⟨"t", ["x", "y"], ["y"]⟩

/-- `u(t, x, y)`, scratch `s(x, y)`, `c(i)`. -/
def exFormVarU : EqVar := ⟨"u", false, [("t", .step), ("x", .domain), ("y", .domain)]⟩
def exFormVarS : EqVar := ⟨"s", true, [("x", .domain), ("y", .domain)]⟩
def exFormVarC : EqVar := ⟨"c", false, [("i", .misc)]⟩

/-- `s(x, y) EQUALS u(t, x+1, y-2) * c(3)`; `u(t+1, x, y) EQUALS s(x, 1+y) + u(t-2, x, y)`. -/
def exFormEqs : List (SrcEq String) :=
  [⟨(exFormVarS, [.index "x" .domain, .index "y" .domain]),
    [(exFormVarU, [.index "t" .step, .comm .add [.index "x" .domain, .const (1 : ℤ)], .bin .sub (.index "y" .domain) (.const (2 : ℤ))]),
     (exFormVarC, [.const (3 : ℤ)])]⟩,
   ⟨(exFormVarU, [.comm .add [.index "t" .step, .const (1 : ℤ)], .index "x" .domain, .index "y" .domain]),
    [(exFormVarS, [.index "x" .domain, .comm .add [.const (1 : ℤ), .index "y" .domain]]),
     (exFormVarU, [.bin .sub (.index "t" .step) (.const (2 : ℤ)), .index "x" .domain, .index "y" .domain])]⟩]

/-- They are accepted, and the offsets are recorded. -/
example : (checkEqs exFormD2 exFormEqs >>= fun r => .ok (r.1, r.2.map fun c => (c.lhs.offsets, c.rhs.map fun p => (p.offsets, p.consts))))
    = .ok (1, [([("x", 0), ("y", 0)], [([("t", 0), ("x", 1), ("y", -2)], []), ([], [("i", 3)])]),
        ([("t", 1), ("x", 0), ("y", 0)], [([("x", 0), ("y", 1)], []), ([("t", -2), ("x", 0), ("y", 0)], [])])]) := by
  rfl

/-- They are plain. -/
example : ∀ e ∈ exFormEqs, PlainEq exFormD2 1 e := by
  have hI : ∀ (d : String) (ty : IndexType), PlainOffset (π := String) d ty 0 (.index d ty) :=
    fun d ty => ⟨by unfold SmallInt; decide, .inl ⟨rfl, rfl⟩⟩
  have hS : ∀ k ∈ [(1 : ℤ), 2, 3, -2], SmallInt k := by unfold SmallInt; decide
  intro e he
  simp only [exFormEqs, List.mem_cons, List.not_mem_nil, or_false] at he
  rcases he with rfl | rfl
  · refine ⟨⟨by unfold DimNames; decide, by unfold Kinds; decide, rfl, by decide, by decide, fun x hx => ?_⟩, fun q hq => ?_⟩
    · simp only [exFormVarS, List.zip_cons_cons, List.zip_nil_left, List.mem_cons, List.not_mem_nil, or_false] at hx
      rcases hx with rfl | rfl
      · exact hI _ _
      · exact hI _ _
    · simp only [List.mem_cons, List.not_mem_nil, or_false] at hq
      rcases hq with rfl | rfl
      · refine ⟨by unfold DimNames; decide, by unfold Kinds; decide, rfl, fun x hx => ?_⟩
        simp only [exFormVarU, List.zip_cons_cons, List.zip_nil_left, List.mem_cons, List.not_mem_nil, or_false] at hx
        rcases hx with rfl | rfl | rfl
        · exact ⟨0, hI _ _, fun _ h => by simp [exFormVarS] at h⟩
        · exact ⟨1, ⟨hS 1 (by simp), .inr (.inl rfl)⟩, fun h => by cases h⟩
        · exact ⟨-2, ⟨hS (-2) (by simp), .inr (.inr (.inr rfl))⟩, fun h => by cases h⟩
      · refine ⟨by unfold DimNames; decide, by unfold Kinds; decide, rfl, fun x hx => ?_⟩
        simp only [exFormVarC, List.zip_cons_cons, List.zip_nil_left, List.mem_cons, List.not_mem_nil, or_false] at hx
        subst hx
        exact ⟨3, hS 3 (by simp), rfl⟩
  · refine ⟨⟨by unfold DimNames; decide, by unfold Kinds; decide, rfl, by decide, by decide, fun x hx => ?_⟩, fun q hq => ?_⟩
    · simp only [exFormVarU, List.zip_cons_cons, List.zip_nil_left, List.mem_cons, List.not_mem_nil, or_false] at hx
      rcases hx with rfl | rfl | rfl
      · exact ⟨hS 1 (by simp), .inr (.inl rfl)⟩
      · exact hI _ _
      · exact hI _ _
    · simp only [List.mem_cons, List.not_mem_nil, or_false] at hq
      rcases hq with rfl | rfl
      · refine ⟨by unfold DimNames; decide, by unfold Kinds; decide, rfl, fun x hx => ?_⟩
        simp only [exFormVarS, List.zip_cons_cons, List.zip_nil_left, List.mem_cons, List.not_mem_nil, or_false] at hx
        rcases hx with rfl | rfl
        · exact ⟨0, hI _ _, fun h => by cases h⟩
        · exact ⟨1, ⟨hS 1 (by simp), .inr (.inr (.inl rfl))⟩, fun h => by cases h⟩
      · refine ⟨by unfold DimNames; decide, by unfold Kinds; decide, rfl, fun x hx => ?_⟩
        simp only [exFormVarU, List.zip_cons_cons, List.zip_nil_left, List.mem_cons, List.not_mem_nil, or_false] at hx
        rcases hx with rfl | rfl | rfl
        · exact ⟨-2, ⟨hS (-2) (by simp), .inr (.inr (.inr rfl))⟩, fun _ h => by simp at h⟩
        · exact ⟨0, hI _ _, fun h => by cases h⟩
        · exact ⟨0, hI _ _, fun h => by cases h⟩

example : ∀ e ∈ exFormEqs, DimNames e.lhs.1 ∧ ∀ q ∈ e.rhs, DimNames q.1 := by
  unfold DimNames exFormEqs
  decide +kernel

/-- An index expression that uses another dim, a missing domain dim on the left, a written step that is not the next one, a read of a
step beyond it, an index on the left that is shifted, a step index on a scratch var: all rejected. -/
example : ([⟨(exFormU, [.comm .add [.index "t" .step, .const 1], .index "x" .domain]), [(exFormU, [.index "t" .step, .index "y" .domain])]⟩,
      ⟨(⟨"v", false, [("t", .step)]⟩, [.comm .add [.index "t" .step, .const 1]]), []⟩,
      ⟨(exFormU, [.index "t" .step, .index "x" .domain]), []⟩,
      ⟨(exFormU, [.comm .add [.index "t" .step, .const 1], .index "x" .domain]),
        [(exFormU, [.comm .add [.index "t" .step, .const 2], .index "x" .domain])]⟩,
      ⟨(exFormU, [.comm .add [.index "t" .step, .const 1], .comm .add [.index "x" .domain, .const 1]]), []⟩,
      ⟨({ exFormU with scratch := true }, [.comm .add [.index "t" .step, .const 1], .index "x" .domain]), []⟩] : List (SrcEq String)).all
    (fun e => decide ((checkEqs exFormD1 [e] >>= fun r => .ok r.1) = .throws)) = true := by decide +kernel

end Yask
