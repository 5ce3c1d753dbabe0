import Verif.Compiler.DimOrderLemmas

/-!
# Dims of a solution and their order in memory: property C74
-/

namespace Yask
open Dims

variable {D : Type*} [DecidableEq D]

/-- The dims of the given kind in the vars, in order of appearance. -/
def appearing (k : Kind) (vars : List (DVar D)) : List D :=
  vars.flatMap fun v => (v.dims.filter fun d => decide (d.2 = k)).map fun d => d.1

/-- The names of `all` once each, in order of first appearance. -/
structure FirstOrder (all l : List D) : Prop where
  once : l.Nodup
  names : ∀ d, d ∈ l ↔ d ∈ all
  order : l.Pairwise fun a b => all.idxOf a < all.idxOf b

theorem namesOf_allDims (k : Kind) (vars : List (DVar D)) : namesOf k (allDims vars) = appearing k vars := by
  unfold namesOf allDims appearing
  induction vars with
  | nil => rfl
  | cons v vars ih =>
    rw [List.flatMap_cons, List.flatMap_cons, List.filter_append, List.map_append, ih]
    congr 1
    rw [List.filter_map, List.map_map]
    rfl

theorem firstOrder_foldl (pre l acc : List D) (h : FirstOrder pre acc) : FirstOrder (pre ++ l) (l.foldl addBack acc) := by
  obtain ⟨h1, h2, h3⟩ := foldl_addBack l acc h.once
  refine ⟨h1, ?_, h3 pre (fun d => (h.names d).symm) h.order⟩
  intro d
  rw [h2, h.names]
  simp

theorem firstOrder_nil : FirstOrder ([] : List D) [] := ⟨by simp, by simp, by simp⟩

/-- C74: the compiler accepts the dims of the vars exactly if one name is used for all step dims, given in the settings or used
in a var, no scratch var has a step dim, and there is a domain dim; otherwise it throws. -/
theorem C74_accepted (step : Option D) (domain : List D) (vars : List (DVar D)) :
    (findDims step domain vars = .throws ∨ ∃ f, findDims step domain vars = .ok f) ∧
    ((∃ f, findDims step domain vars = .ok f) ↔
      (∃ s, (∀ d ∈ step.toList ++ appearing .step vars, d = s) ∧ s ∈ step.toList ++ appearing .step vars) ∧
      (∀ v ∈ vars, v.scratch = true → ∀ d ∈ v.dims, d.2 ≠ .step) ∧
      (domain ++ appearing .domain vars ≠ [])) := by
  have hscr : (∀ e ∈ allDims vars, e.2.2 = Kind.step → e.1 = false) ↔
      ∀ v ∈ vars, v.scratch = true → ∀ d ∈ v.dims, d.2 ≠ .step := by
    unfold allDims
    simp only [List.mem_flatMap, List.mem_map]
    constructor
    · intro h v hv hs d hd hk
      have := h (v.scratch, d) ⟨v, hv, d, hd, rfl⟩ hk
      simp only at this
      rw [hs] at this
      cases this
    · rintro h e ⟨v, hv, d, hd, rfl⟩ hk
      by_contra hc
      exact h v hv (by simpa using hc) d hd hk
  have hdom : (appearing .domain vars).foldl addBack (domain.foldl addBack []) = [] ↔
      domain ++ appearing .domain vars = [] := by
    have := (firstOrder_foldl domain (appearing .domain vars) _ (by
      simpa using firstOrder_foldl [] domain _ firstOrder_nil)).names
    rw [List.eq_nil_iff_forall_not_mem, List.eq_nil_iff_forall_not_mem]
    exact forall_congr' fun d => not_congr (this d)
  rcases addDims_eq (allDims vars) (explicit step domain) with ⟨h1, h2, h3⟩ | ⟨h1, h2⟩
  · simp only [namesOf_allDims, explicit] at h2 h3
    have hfd : findDims step domain vars =
        if (step.toList ++ appearing .step vars).head?.isNone then .throws
        else if (appearing .domain vars).foldl addBack (domain.foldl addBack []) = [] then .throws
        else .ok ⟨(step.toList ++ appearing .step vars).head?, (appearing .domain vars).foldl addBack (domain.foldl addBack []),
          (appearing .misc vars).foldl addBack []⟩ := by
      unfold findDims
      simp only [explicit, h3]
      rfl
    rw [hfd]
    split_ifs with g1 g2
    · refine ⟨.inl rfl, ⟨?_, ?_⟩⟩
      · rintro ⟨f, h⟩
        cases h
      rintro ⟨⟨s, _, hs⟩, _⟩
      exfalso
      rw [Option.isNone_iff_eq_none, List.head?_eq_none_iff] at g1
      rw [g1] at hs
      cases hs
    · refine ⟨.inl rfl, ⟨?_, ?_⟩⟩
      · rintro ⟨f, h⟩
        cases h
      rintro ⟨_, _, h⟩
      exact absurd (hdom.1 g2) h
    · refine ⟨.inr ⟨_, rfl⟩, ⟨fun _ => ⟨?_, hscr.1 h1, fun h => g2 (hdom.2 h)⟩, fun _ => ⟨_, rfl⟩⟩⟩
      obtain ⟨s, hs⟩ := Option.ne_none_iff_exists'.1 (fun h : (step.toList ++ appearing .step vars).head? = none => g1 (by rw [h]; rfl))
      have hmem := List.mem_of_head? hs
      refine ⟨s, ?_, hmem⟩
      by_cases hap : appearing .step vars = []
      · rw [hap, List.append_nil] at hmem hs ⊢
        cases step with
        | none => cases hmem
        | some e => simp at hmem ⊢; exact hmem.symm
      · obtain ⟨a, ha⟩ := List.exists_mem_of_ne_nil _ hap
        intro d hd
        rw [h2 a ha d hd, h2 a ha s hmem]
  · have hfd : findDims step domain vars = .throws := by
      unfold findDims
      rw [h2]
      rfl
    rw [hfd]
    refine ⟨.inl rfl, ⟨?_, ?_⟩⟩
    · rintro ⟨f, h⟩
      cases h
    rintro ⟨⟨s, hs, _⟩, hsc, _⟩
    exfalso
    apply h1
    refine ⟨hscr.2 hsc, ?_⟩
    simp only [namesOf_allDims, explicit]
    intro d hd e he
    rw [hs e he, hs d (by simp; right; exact hd)]

/-- C74: the dims that are found. The domain dims given in the settings come first; others follow in the order in which the
vars use them first. -/
theorem C74_dims (step : Option D) (domain : List D) (vars : List (DVar D)) (f : Found D)
    (h : findDims step domain vars = .ok f) :
    (∃ s, f.step = some s ∧ ∀ d ∈ step.toList ++ appearing .step vars, d = s) ∧
    FirstOrder (domain ++ appearing .domain vars) f.domain ∧ f.domain ≠ [] ∧
    FirstOrder (appearing .misc vars) f.misc := by
  have hacc := ((C74_accepted step domain vars).2.1 ⟨f, h⟩)
  obtain ⟨⟨s, hs, hsm⟩, _, hdom⟩ := hacc
  rcases addDims_eq (allDims vars) (explicit step domain) with ⟨h1, h2, h3⟩ | ⟨h1, h2⟩
  · simp only [namesOf_allDims, explicit] at h2 h3
    unfold findDims at h
    simp only [explicit, h3] at h
    change (if (step.toList ++ appearing .step vars).head?.isNone then .throws
        else if (appearing .domain vars).foldl addBack (domain.foldl addBack []) = [] then .throws
        else Outcome.ok _) = _ at h
    split_ifs at h with g1 g2
    rw [← Outcome.ok.inj h]
    refine ⟨⟨s, ?_, hs⟩, ?_, g2, ?_⟩
    · obtain ⟨s', hs'⟩ := Option.ne_none_iff_exists'.1 (fun h : (step.toList ++ appearing .step vars).head? = none => g1 (by rw [h]; rfl))
      simp only
      rw [hs', hs s' (List.mem_of_head? hs')]
    · exact firstOrder_foldl domain (appearing .domain vars) _ (by
        simpa using firstOrder_foldl [] domain _ firstOrder_nil)
    · simpa using firstOrder_foldl [] (appearing .misc vars) _ firstOrder_nil
  · unfold findDims at h
    rw [h2] at h
    cases h

/-- The order of dims in memory, outermost first: without options, misc dims, step dim, domain dims; with `innerMisc` the misc
dims are innermost; with `outerDomain` the first domain dim is outermost; without folding the last domain dim is innermost. -/
def MemOrder [Inhabited D] (innerMisc outerDomain folded : Bool) (step : D) (domain misc l : List D) : Prop :=
  ∃ first last, domain.head? = some first ∧ domain.getLast? = some last ∧
    let back := if folded then [] else [last]
    let front := if outerDomain ∧ first ∉ back then [first] else []
    l = front ++ (if innerMisc then step :: domain ++ misc else misc ++ step :: domain).filter
      (fun d => decide (d ∉ front ∧ d ∉ back)) ++ back

/-- C74: the dims of all vars in memory have this order, if no name is used for dims of two kinds. -/
theorem C74_layout [Inhabited D] (innerMisc outerDomain : Bool) (foldProd : Int) (step : D) (domain misc : List D)
    (hne : domain ≠ []) (hd : domain.Nodup) (hm : misc.Nodup) (hsd : step ∉ domain) (hsm : step ∉ misc)
    (hdm : ∀ d ∈ misc, d ∉ domain) :
    MemOrder innerMisc outerDomain (decide (1 < foldProd)) step domain misc
      (layoutDims innerMisc outerDomain foldProd step domain misc) := by
  obtain ⟨first, rest, rfl⟩ := List.exists_cons_of_ne_nil hne
  set domain := first :: rest with hdef
  refine ⟨first, domain.getLast hne, rfl, List.getLast?_eq_some_getLast hne, ?_⟩
  have hlast : domain.getD (domain.length - 1) default = domain.getLast hne := by
    rw [List.getLast_eq_getElem]
    simp [List.getD_eq_getElem?_getD, hdef]
  have hbase : (misc.zipIdx.foldl (fun l mi => if innerMisc then addBack l mi.1 else addAt l mi.2 mi.1) (addAt domain 0 step)) =
      if innerMisc then step :: domain ++ misc else misc ++ step :: domain := by
    have h0 : addAt domain 0 step = step :: domain := by unfold addAt; rw [if_neg hsd]; rfl
    rw [h0]
    have hdisj : ∀ d ∈ misc, d ∉ step :: domain := by
      intro d hdm' hc
      rcases List.mem_cons.1 hc with rfl | hc
      · exact hsm hdm'
      · exact hdm d hdm' hc
    cases innerMisc with
    | true =>
      simp only [if_true]
      rw [← foldl_addBack_append misc (step :: domain) hm hdisj]
      have : misc = misc.zipIdx.map Prod.fst := by simp
      conv_rhs => rw [this]
      rw [List.foldl_map]
    | false =>
      simp only [Bool.false_eq_true, if_false]
      simpa using foldl_addAt misc [] (step :: domain) hm (by simpa using hdisj)
  unfold layoutDims
  simp only
  rw [hbase, hlast]
  set base := if innerMisc then step :: domain ++ misc else misc ++ step :: domain with hb
  have hbn : base.Nodup := by
    have h1 : (step :: domain).Nodup := List.nodup_cons.2 ⟨hsd, hd⟩
    have h2 : ∀ d ∈ misc, d ∉ step :: domain := by
      intro d hdm' hc
      rcases List.mem_cons.1 hc with rfl | hc
      · exact hsm hdm'
      · exact hdm d hdm' hc
    rw [hb]
    split_ifs
    · exact List.nodup_append.2 ⟨h1, hm, fun a ha b hb' => by rintro rfl; exact h2 a hb' ha⟩
    · exact List.nodup_append.2 ⟨hm, h1, fun a ha b hb' => by rintro rfl; exact h2 a ha hb'⟩
  have hdb : ∀ d ∈ domain, d ∈ base := by
    intro d hdd
    rw [hb]
    split_ifs <;> simp [hdd]
  have hfirst : domain.getD 0 default = first := rfl
  rw [hfirst]
  set last := domain.getLast hne with hl
  have hlm : last ∈ domain := List.getLast_mem hne
  have hfm : first ∈ domain := by simp [hdef]
  have her : ∀ (l : List D) (d : D), l.Nodup → removeDim l d = l.filter fun e => decide (e ≠ d) := by
    intro l d hn
    unfold removeDim
    rw [hn.erase_eq_filter]
    apply List.filter_congr
    intro e _
    by_cases h : e = d <;> simp [h]
  have hAt : ∀ (l : List D) (d : D), l.Nodup → addAt (removeDim l d) 0 d = d :: l.filter fun e => decide (e ≠ d) := by
    intro l d hn
    rw [her l d hn]
    unfold addAt
    rw [if_neg (by simp)]
    rfl
  have hBack : ∀ (l : List D) (d : D), l.Nodup → addBack (removeDim l d) d = (l.filter fun e => decide (e ≠ d)) ++ [d] := by
    intro l d hn
    rw [her l d hn]
    unfold addBack
    rw [if_neg (by simp)]
  by_cases hf : foldProd ≤ 1
  · rw [if_pos hf]
    have hf' : decide (1 < foldProd) = false := by simp; omega
    rw [hf']
    simp only [Bool.false_eq_true, if_false]
    cases outerDomain with
    | false =>
      simp only [Bool.false_eq_true, if_false, false_and]
      rw [hBack _ _ hbn]
      simp
    | true =>
      simp only [if_true, true_and]
      rw [hAt _ _ hbn, hBack _ _ (List.nodup_cons.2 ⟨by simp, hbn.filter _⟩)]
      by_cases hfl : first = last
      · rw [if_neg (by simp [hfl]), List.filter_cons, if_neg (by simp [hfl]), hfl, List.filter_filter]
        simp
      · rw [if_pos (by simp [hfl]), List.filter_cons, if_pos (by simp [hfl]), List.filter_filter]
        simp only [List.cons_append, List.nil_append, List.mem_singleton]
        rw [show (base.filter fun d => decide (d ≠ last) && decide (d ≠ first)) =
          base.filter fun d => decide (¬ d = first ∧ ¬ d = last) from
          List.filter_congr fun d _ => by by_cases h1 : d = first <;> by_cases h2 : d = last <;> simp [h1, h2]]
  · rw [if_neg hf]
    have hf' : decide (1 < foldProd) = true := by simp; omega
    rw [hf']
    simp only [if_true]
    cases outerDomain with
    | false => simp
    | true =>
      simp only [if_true, true_and]
      rw [hAt _ _ hbn]
      simp

/-- C74: what the order means: every dim once, and the domain dims in the order of the solution. -/
theorem C74_memory_domain_order [Inhabited D] (innerMisc outerDomain folded : Bool) (step : D) (domain misc l : List D)
    (hd : domain.Nodup) (hm : misc.Nodup) (hsd : step ∉ domain) (hsm : step ∉ misc) (hdm : ∀ d ∈ misc, d ∉ domain)
    (h : MemOrder innerMisc outerDomain folded step domain misc l) :
    l.Nodup ∧ (∀ d, d ∈ l ↔ d = step ∨ d ∈ domain ∨ d ∈ misc) ∧ l.filter (fun d => decide (d ∈ domain)) = domain := by
  obtain ⟨first, last, h1, h2, h3⟩ := h
  simp only at h3
  set back := if folded then ([] : List D) else [last] with hback
  set front := if outerDomain ∧ first ∉ back then [first] else [] with hfront
  set base := if innerMisc then step :: domain ++ misc else misc ++ step :: domain with hb
  have hdisj : ∀ d ∈ misc, d ∉ step :: domain := by
    intro d hdm' hc
    rcases List.mem_cons.1 hc with rfl | hc
    · exact hsm hdm'
    · exact hdm d hdm' hc
  have hbn : base.Nodup := by
    have h1 : (step :: domain).Nodup := List.nodup_cons.2 ⟨hsd, hd⟩
    rw [hb]
    split_ifs
    · exact List.nodup_append.2 ⟨h1, hm, fun a ha b hb' => by rintro rfl; exact hdisj a hb' ha⟩
    · exact List.nodup_append.2 ⟨hm, h1, fun a ha b hb' => by rintro rfl; exact hdisj a ha hb'⟩
  have hbm : ∀ d, d ∈ base ↔ d = step ∨ d ∈ domain ∨ d ∈ misc := by
    intro d
    rw [hb]
    split_ifs <;> simp [or_assoc, or_comm, or_left_comm]
  have hbd : base.filter (fun d => decide (d ∈ domain)) = domain := by
    have e1 : (step :: domain).filter (fun d => decide (d ∈ domain)) = domain := by
      rw [List.filter_cons, if_neg (by simpa using hsd), List.filter_eq_self.2 (by simp)]
    have e2 : misc.filter (fun d => decide (d ∈ domain)) = [] := by
      rw [List.filter_eq_nil_iff]
      intro d hd'
      simpa using hdm d hd'
    rw [hb]
    split_ifs
    · rw [List.filter_append, e1, e2, List.append_nil]
    · rw [List.filter_append, e1, e2, List.nil_append]
  obtain ⟨mid, hmid⟩ : ∃ mid, domain = front ++ mid ++ back := by
    have hlast : ∃ m, domain = m ++ back := by
      rw [hback]
      split_ifs
      · exact ⟨domain, by simp⟩
      · obtain ⟨m, hm⟩ := List.getLast?_eq_some_iff.1 h2
        exact ⟨m, hm⟩
    obtain ⟨m, hmm⟩ := hlast
    rw [hfront]
    split_ifs with hc
    · cases m with
      | nil =>
        exfalso
        rw [hmm, List.nil_append] at h1
        exact hc.2 (List.mem_of_head? h1)
      | cons a m =>
        rw [hmm] at h1
        simp only [List.cons_append, List.head?_cons, Option.some.injEq] at h1
        exact ⟨m, by rw [hmm, h1]; simp⟩
    · exact ⟨m, by simpa using hmm⟩
  have hnd := hd
  rw [hmid, List.nodup_append, List.nodup_append] at hnd
  obtain ⟨⟨n1, n2, n3⟩, n4, n5⟩ := hnd
  have hfd : ∀ d ∈ front, d ∈ domain := fun d h => by rw [hmid]; simp [h]
  have hbkd : ∀ d ∈ back, d ∈ domain := fun d h => by rw [hmid]; simp [h]
  refine ⟨?_, ?_, ?_⟩
  · rw [h3, List.nodup_append, List.nodup_append]
    refine ⟨⟨n1, hbn.filter _, ?_⟩, n4, ?_⟩
    · intro a ha b hb' hab
      subst hab
      simp only [List.mem_filter, decide_eq_true_eq] at hb'
      exact hb'.2.1 ha
    · intro a ha b hb' hab
      subst hab
      rcases List.mem_append.1 ha with ha | ha
      · exact n5 a (by simp [ha]) a hb' rfl
      · simp only [List.mem_filter, decide_eq_true_eq] at ha
        exact ha.2.2 hb'
  · intro d
    rw [← hbm, h3]
    simp only [List.mem_append, List.mem_filter, decide_eq_true_eq]
    constructor
    · rintro ((h | h) | h)
      · exact (hbm d).2 (.inr (.inl (hfd d h)))
      · exact h.1
      · exact (hbm d).2 (.inr (.inl (hbkd d h)))
    · intro h
      by_cases a : d ∈ front
      · exact .inl (.inl a)
      · by_cases b : d ∈ back
        · exact .inr b
        · exact .inl (.inr ⟨h, a, b⟩)
  · rw [h3, List.filter_append, List.filter_append, List.filter_filter]
    have e1 : front.filter (fun d => decide (d ∈ domain)) = front := List.filter_eq_self.2 fun d h => by simpa using hfd d h
    have e2 : back.filter (fun d => decide (d ∈ domain)) = back := List.filter_eq_self.2 fun d h => by simpa using hbkd d h
    rw [e1, e2]
    conv_rhs => rw [hmid]
    congr 2
    have : (base.filter fun d => decide (d ∈ domain) && decide (d ∉ front ∧ d ∉ back)) =
        (base.filter fun d => decide (d ∈ domain)).filter fun d => decide (d ∉ front ∧ d ∉ back) := by
      rw [List.filter_filter]
      exact List.filter_congr fun d _ => Bool.and_comm _ _
    rw [this, hbd]
    conv_lhs => rw [hmid]
    have f1 : front.filter (fun d => decide (d ∉ front ∧ d ∉ back)) = [] :=
      List.filter_eq_nil_iff.2 fun d h => by simp [h]
    have f2 : back.filter (fun d => decide (d ∉ front ∧ d ∉ back)) = [] :=
      List.filter_eq_nil_iff.2 fun d h => by simp [h]
    have f3 : mid.filter (fun d => decide (d ∉ front ∧ d ∉ back)) = mid := List.filter_eq_self.2 fun d h => by
      simp only [decide_eq_true_eq]
      exact ⟨fun hc => n3 d hc d h rfl, fun hc => n5 d (by simp [h]) d hc rfl⟩
    rw [List.filter_append, List.filter_append, f1, f2, f3]
    simp

/-- The dims of a solution with a scratch var and misc dims, and their order in memory with and without options. -/
example :
    findDims none ["x"] [⟨false, [("t", .step), ("y", .domain), ("x", .domain)]⟩, ⟨true, [("z", .domain)]⟩,
      ⟨false, [("m", .misc), ("y", .domain), ("n", .misc)]⟩] = .ok ⟨some "t", ["x", "y", "z"], ["m", "n"]⟩ ∧
    layoutDims false false 8 "t" ["x", "y", "z"] ["m", "n"] = ["m", "n", "t", "x", "y", "z"] ∧
    layoutDims true false 8 "t" ["x", "y", "z"] ["m", "n"] = ["t", "x", "y", "z", "m", "n"] ∧
    layoutDims true true 1 "t" ["x", "y", "z"] ["m", "n"] = ["x", "t", "y", "m", "n", "z"] := by
  decide +kernel

/-- Dims that are rejected: two step dims, a scratch var with step dim, no step dim, no domain dim. -/
example :
    findDims none [] [⟨false, [("t", .step), ("x", .domain)]⟩, ⟨false, [("s", .step), ("x", .domain)]⟩] = .throws ∧
    findDims (some "s") [] [⟨false, [("t", .step), ("x", .domain)]⟩] = .throws ∧
    findDims (some "t") [] [⟨true, [("t", .step), ("x", .domain)]⟩] = .throws ∧
    findDims none [] [⟨false, [("x", .domain)]⟩] = .throws ∧
    findDims (some "t") [] [⟨false, [("t", .step), ("m", .misc)]⟩] = .throws := by
  decide +kernel

/-- C74 fails to separate the kinds: a name that is a domain dim of one var and a misc dim of another is accepted and is both. -/
theorem C74_kinds_wrong :
    findDims none [] [⟨false, [("t", .step), ("x", .domain)]⟩, ⟨false, [("t", .step), ("y", .domain), ("x", .misc)]⟩] =
      .ok ⟨some "t", ["x", "y"], ["x"]⟩ := by
  decide +kernel

end Yask
