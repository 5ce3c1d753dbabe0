import Verif.Common.OptNumLemmas
import Mathlib.Data.List.Nodup

/-!
# Options of a solution (lemmas)
-/

namespace Yask.Options

open Args (Str)

/-- The words that match an option. -/
def spell (o : CliOption) : List Str :=
  match o.kind with
  | .flag _ => ['-' :: o.name, '-' :: ("no-".toList ++ o.name)]
  | _ => ['-' :: o.name]

section
variable {D : Type} (strtod : Str → Option D)

theorem checkArg_no (o : CliOption) (st : Settings D) (a : Str) (rest : List Str) (h : a ∉ spell o) :
    checkArg strtod o st a rest = .no := by
  unfold spell at h
  unfold checkArg
  cases hk : o.kind <;> rw [hk] at h <;> simp only [List.mem_cons, List.not_mem_nil, or_false, not_or] at h <;>
    simp only
  · rw [if_neg h.1, if_neg h.2]
  all_goals rw [if_neg h]

theorem checkArg_yes (o : CliOption) (st : Settings D) (a : Str) (rest : List Str) (h : a ∈ spell o) :
    checkArg strtod o st a rest ≠ .no := by
  unfold spell at h
  unfold checkArg
  cases hk : o.kind <;> rw [hk] at h <;> simp only [List.mem_cons, List.not_mem_nil, or_false] at h <;>
    simp only
  · by_cases h1 : a = '-' :: o.name
    · rw [if_pos h1]; simp
    · rw [if_neg h1, if_pos (h.resolve_left h1)]; simp
  · rw [if_pos h]
    cases rest.head? with
    | none => simp
    | some v => simp only; cases idxVal v <;> simp
  · rw [if_pos h]
    cases rest.head? with
    | none => simp
    | some v => simp only; cases strtod v <;> simp
  · rw [if_pos h]
    cases rest.head? with
    | none => simp
    | some v => simp only; cases idxVal v <;> simp
  · rw [if_pos h]
    cases rest.head? with
    | none => simp
    | some v => simp only; split_ifs <;> simp

/-- No word matches two options. -/
def Distinct (t : List CliOption) : Prop := ∀ o ∈ t, ∀ o' ∈ t, ∀ a, a ∈ spell o → a ∈ spell o' → o = o'

theorem checkAny_no (t : List CliOption) (st : Settings D) (a : Str) (rest : List Str)
    (h : ∀ o ∈ t, a ∉ spell o) : checkAny strtod st a rest t = .no := by
  induction t with
  | nil => rfl
  | cons o t ih =>
    unfold checkAny
    rw [checkArg_no strtod o st a rest (h o List.mem_cons_self)]
    exact ih fun o' h' => h o' (List.mem_cons_of_mem _ h')

theorem checkAny_mem (t : List CliOption) (hd : Distinct t) (st : Settings D) (a : Str) (rest : List Str)
    (o : CliOption) (ho : o ∈ t) (ha : a ∈ spell o) : checkAny strtod st a rest t = checkArg strtod o st a rest := by
  induction t with
  | nil => simp at ho
  | cons p t ih =>
    unfold checkAny
    by_cases hp : a ∈ spell p
    · have : o = p := hd o ho p List.mem_cons_self a ha hp
      subst this
      have := checkArg_yes strtod o st a rest ha
      cases hc : checkArg strtod o st a rest with
      | no => exact absurd hc this
      | done => rfl
      | throws => rfl
    · rw [checkArg_no strtod p st a rest hp]
      have ho' : o ∈ t := by
        rcases List.mem_cons.1 ho with rfl | h
        · exact absurd ha hp
        · exact h
      exact ih (fun x hx y hy => hd x (List.mem_cons_of_mem _ hx) y (List.mem_cons_of_mem _ hy)) ho'

end

/-! ### The table -/

theorem mem_addOption (o : CliOption) (t : List CliOption) (h : ∀ p ∈ t, p.name ≠ o.name) (q : CliOption) :
    q ∈ addOption o t ↔ q = o ∨ q ∈ t := by
  induction t with
  | nil => simp [addOption]
  | cons p t ih =>
    unfold addOption
    rw [if_neg fun e => h p List.mem_cons_self e.symm]
    by_cases hl : strLt o.name p.name = true
    · rw [if_pos hl]; simp
    · rw [if_neg hl, List.mem_cons, ih fun x hx => h x (List.mem_cons_of_mem _ hx), List.mem_cons]
      constructor
      · rintro (h | h | h) <;> simp [h]
      · rintro (h | h | h) <;> simp [h]

theorem mem_addAll (l t : List CliOption) (hn : (l.map (·.name)).Nodup)
    (hd : ∀ p ∈ t, p.name ∉ l.map (·.name)) (q : CliOption) :
    q ∈ l.foldl (fun t o => addOption o t) t ↔ q ∈ l ∨ q ∈ t := by
  induction l generalizing t with
  | nil => simp
  | cons o l ih =>
    rw [List.map_cons, List.nodup_cons] at hn
    rw [List.foldl_cons]
    have hm := mem_addOption o t (fun p hp e => hd p hp (by simp [e]))
    rw [ih _ hn.2 ?_]
    · rw [hm, List.mem_cons]
      constructor
      · rintro (h | h | h) <;> simp [h]
      · rintro ((h | h) | h) <;> simp [h]
    · intro p hp
      rcases (hm p).1 hp with rfl | hp
      · exact hn.1
      · intro h
        exact hd p hp (by rw [List.map_cons]; exact List.mem_cons_of_mem _ h)

theorem domain_prefixes : domainOptions.Pairwise fun e e' => ¬ e.2.1 <+: e'.2.1 ∧ ¬ e'.2.1 <+: e.2.1 := by
  decide +kernel

theorem fixed_nodup : (fixedOptions.map fun e => e.2.name).Nodup := by decide +kernel

theorem fixed_prefix : ∀ e ∈ domainOptions, ∀ f ∈ fixedOptions, e.2.1 <+: f.2.name →
    f.2.name.drop e.2.1.length ∈ ["lock_threads".toList, "ind_inner_threads".toList, "undle_allocs".toList] := by
  decide +kernel

theorem fixed_not_no : ∀ f ∈ fixedOptions, ¬ "no-".toList <+: f.2.name := by decide +kernel

theorem domain_not_no : ∀ e ∈ domainOptions, ¬ "no-".toList <+: e.2.1 ∧ ¬ e.2.1 <+: "no-".toList := by decide +kernel

theorem domainOption_prefix (step : Str) (dom vdims : List Str) (pre : Str) (k : SizeKind) (a : Bool) (o : CliOption)
    (h : o ∈ domainOption step dom vdims pre k a) : ∃ d, (d ∈ vdims ∨ d = []) ∧ o.name = pre ++ d := by
  unfold domainOption at h
  rw [List.mem_append] at h
  rcases h with h | h
  · obtain ⟨d, hd, rfl⟩ := List.mem_map.1 h
    exact ⟨d, Or.inl (List.mem_filter.1 hd).1, rfl⟩
  · rw [List.mem_singleton] at h
    subst h
    exact ⟨[], Or.inr rfl, by simp⟩

theorem tupleDims_sub (step : Str) (dom : List Str) (k : SizeKind) : (tupleDims step dom k).Sublist (step :: dom) := by
  cases k <;> first | exact List.Sublist.refl _ | exact List.sublist_cons_self _ _

theorem registered_nodup (mpi : Bool) (step : Str) (dom : List Str) (hg : GoodDims step dom) :
    ((registered mpi step dom).map (·.name)).Nodup := by
  unfold registered
  rw [List.map_append, List.map_flatMap]
  refine List.Nodup.append ?_ ?_ ?_
  · rw [List.nodup_flatMap]
    refine ⟨fun e he => ?_, ?_⟩
    · have hsub := tupleDims_sub step dom e.2.2.1
      have hn : (tupleDims step dom e.2.2.1).Nodup := hsub.nodup hg.nodup
      unfold domainOption
      rw [List.map_append, List.map_map]
      refine List.Nodup.append ?_ (by simp) ?_
      · refine List.Nodup.map ?_ (hn.filter _)
        intro x y hxy
        exact List.append_cancel_left hxy
      · intro x hx hx'
        obtain ⟨d, hd, rfl⟩ := List.mem_map.1 hx
        simp only [List.map_cons, List.map_nil, List.mem_singleton, Function.comp] at hx'
        have h0 := hg.named d (hsub.subset (List.mem_filter.1 hd).1)
        have := congrArg List.length hx'
        rw [List.length_append] at this
        exact h0 (List.length_eq_zero_iff.1 (by omega))
    · refine (domain_prefixes.sublist List.filter_sublist).imp ?_
      rintro e e' ⟨h1, h2⟩ x hx hx'
      obtain ⟨o, ho, rfl⟩ := List.mem_map.1 hx
      obtain ⟨o', ho', e'⟩ := List.mem_map.1 hx'
      obtain ⟨d, _, hd⟩ := domainOption_prefix _ _ _ _ _ _ _ ho
      obtain ⟨d', _, hd'⟩ := domainOption_prefix _ _ _ _ _ _ _ ho'
      rw [hd, hd'] at e'
      rcases List.prefix_or_prefix_of_prefix (List.prefix_append _ d') (e' ▸ List.prefix_append _ d) with h | h
      · exact h2 h
      · exact h1 h
  · rw [List.map_map]
    exact fixed_nodup.sublist (List.filter_sublist.map _)
  · intro x hx hx'
    obtain ⟨e, he, hx⟩ := List.mem_flatMap.1 hx
    obtain ⟨o, ho, rfl⟩ := List.mem_map.1 hx
    obtain ⟨d, hd, hn⟩ := domainOption_prefix _ _ _ _ _ _ _ ho
    rw [List.map_map] at hx'
    obtain ⟨f, hf, hfe⟩ := List.mem_map.1 hx'
    simp only [Function.comp] at hfe
    rw [hn] at hfe
    have := fixed_prefix e (List.mem_filter.1 he).1 f (List.mem_filter.1 hf).1 (by rw [hfe]; exact List.prefix_append _ _)
    rw [hfe, List.drop_left] at this
    simp only [List.mem_cons, List.not_mem_nil, or_false] at this
    rcases hd with hd | rfl
    · have hc := hg.noClash d ((tupleDims_sub step dom e.2.2.1).subset hd)
      rcases this with h | h | h
      · exact hc.1 h
      · exact hc.2.1 h
      · exact hc.2.2 h
    · rcases this with h | h | h <;> revert h <;> decide

theorem mem_optTable (mpi : Bool) (step : Str) (dom : List Str) (hg : GoodDims step dom) (o : CliOption) :
    o ∈ optTable mpi step dom ↔ o ∈ registered mpi step dom := by
  unfold optTable
  rw [mem_addAll _ _ (registered_nodup mpi step dom hg) (by simp)]
  simp

theorem registered_not_no (mpi : Bool) (step : Str) (dom : List Str) (o : CliOption)
    (h : o ∈ registered mpi step dom) : ¬ "no-".toList <+: o.name := by
  unfold registered at h
  rw [List.mem_append] at h
  rcases h with h | h
  · obtain ⟨e, he, ho⟩ := List.mem_flatMap.1 h
    obtain ⟨d, _, hd⟩ := domainOption_prefix _ _ _ _ _ _ _ ho
    intro hp
    obtain ⟨h1, h2⟩ := domain_not_no e (List.mem_filter.1 he).1
    rw [hd] at hp
    rcases List.prefix_or_prefix_of_prefix hp (List.prefix_append _ d) with h | h
    · exact h1 h
    · exact h2 h
  · obtain ⟨f, hf, rfl⟩ := List.mem_map.1 h
    exact fixed_not_no f (List.mem_filter.1 hf).1

theorem mem_spell (o : CliOption) (a : Str) (h : a ∈ spell o) :
    a = '-' :: o.name ∨ a = '-' :: ("no-".toList ++ o.name) := by
  unfold spell at h
  cases hk : o.kind <;> rw [hk] at h <;> simp only [List.mem_cons, List.not_mem_nil, or_false] at h
  · exact h
  all_goals exact Or.inl h

theorem eq_of_name {l : List CliOption} (hn : (l.map (·.name)).Nodup) {o o' : CliOption} (h : o ∈ l) (h' : o' ∈ l)
    (e : o.name = o'.name) : o = o' := List.inj_on_of_nodup_map hn h h' e

theorem optTable_distinct (mpi : Bool) (step : Str) (dom : List Str) (hg : GoodDims step dom) :
    Distinct (optTable mpi step dom) := by
  intro o ho o' ho' a ha ha'
  rw [mem_optTable mpi step dom hg] at ho ho'
  have hn := registered_nodup mpi step dom hg
  rcases mem_spell o a ha with rfl | rfl
  · rcases mem_spell o' _ ha' with e | e
    · exact eq_of_name hn ho ho' (List.cons.inj e).2
    · exact absurd ⟨o'.name, (List.cons.inj e).2.symm⟩ (registered_not_no mpi step dom o ho)
  · rcases mem_spell o' _ ha' with e | e
    · exact absurd ⟨o.name, (List.cons.inj e).2⟩ (registered_not_no mpi step dom o' ho')
    · exact eq_of_name hn ho ho' (List.append_cancel_left (List.cons.inj e).2)

/-! ### Registered options -/

theorem sizePrefix_entry (mpi : Bool) (k : SizeKind) (p : Str) (h : SizePrefix mpi k p) :
    ∃ m a, (m, p, k, a) ∈ domainOptions ∧ (mpi || !m) = true ∧ (a = true ↔ k = .megaBlock ∨ k = .block) := by
  cases k
  case rank =>
    rcases h with rfl | rfl
    · exact ⟨false, false, by decide +kernel, by simp, by simp⟩
    · exact ⟨false, false, by decide +kernel, by simp, by simp⟩
  case megaBlock => cases h; exact ⟨false, true, by decide +kernel, by simp, by simp⟩
  case block => cases h; exact ⟨false, true, by decide +kernel, by simp, by simp⟩
  case numRanks => obtain ⟨rfl, rfl⟩ := h; exact ⟨true, false, by decide +kernel, by simp, by simp⟩
  case rankIndex => obtain ⟨rfl, rfl⟩ := h; exact ⟨true, false, by decide +kernel, by simp, by simp⟩
  all_goals cases h; exact ⟨false, false, by decide +kernel, by simp, by simp⟩

theorem entry_sizePrefix (mpi : Bool) (e : Bool × Str × SizeKind × Bool) (h : e ∈ domainOptions)
    (hm : (mpi || !e.1) = true) : SizePrefix mpi e.2.2.1 e.2.1 ∧
      (e.2.2.2 = true ↔ e.2.2.1 = .megaBlock ∨ e.2.2.1 = .block) := by
  unfold domainOptions at h
  simp only [List.mem_cons, List.not_mem_nil, or_false] at h
  rcases h with rfl | rfl | rfl | rfl | rfl | rfl | rfl | rfl | rfl | rfl | rfl | rfl <;> simp_all [SizePrefix]

theorem mem_domain (mpi : Bool) (step : Str) (dom : List Str) (e : Bool × Str × SizeKind × Bool)
    (h : e ∈ domainOptions) (hm : (mpi || !e.1) = true) (o : CliOption)
    (ho : o ∈ domainOption step dom (tupleDims step dom e.2.2.1) e.2.1 e.2.2.1 e.2.2.2) :
    o ∈ registered mpi step dom := by
  unfold registered
  exact List.mem_append_left _ (List.mem_flatMap.2 ⟨e, List.mem_filter.2 ⟨h, hm⟩, ho⟩)

theorem mem_fixed (mpi : Bool) (step : Str) (dom : List Str) (e : Bool × CliOption) (h : e ∈ fixedOptions)
    (hm : (mpi || !e.1) = true) : e.2 ∈ registered mpi step dom := by
  unfold registered
  exact List.mem_append_right _ (List.mem_map.2 ⟨e, List.mem_filter.2 ⟨h, hm⟩, rfl⟩)

theorem size_mem (mpi : Bool) (step : Str) (dom : List Str) (k : SizeKind) (p d : Str)
    (hs : step ∉ dom) (hp : SizePrefix mpi k p) (hd : SizeDim step dom k d) :
    (⟨p ++ d, .sizes [.size k d]⟩ : CliOption) ∈ registered mpi step dom := by
  obtain ⟨m, a, h1, h2, h3⟩ := sizePrefix_entry mpi k p hp
  refine mem_domain mpi step dom (m, p, k, a) h1 h2 _ ?_
  unfold domainOption
  refine List.mem_append_left _ (List.mem_map.2 ⟨d, List.mem_filter.2 ⟨?_, ?_⟩, rfl⟩)
  · rcases hd with hd | ⟨rfl, hd⟩
    · cases k <;> simp [tupleDims, hd]
    · rcases hd with rfl | rfl <;> simp [tupleDims]
  · rcases hd with hd | ⟨rfl, hd⟩
    · have : d ≠ step := fun e => hs (e ▸ hd)
      simp [this]
    · simp [h3.2 hd]

theorem sizes_dims (step : Str) (dom : List Str) (k : SizeKind) (a : Bool) (hs : step ∉ dom) :
    (((tupleDims step dom k).filter fun d => a || d ≠ step).filter fun d => d ∈ dom) = dom := by
  have h0 : (dom.filter fun d => a || d ≠ step) = dom := by
    rw [List.filter_eq_self]
    intro d hd
    have : d ≠ step := fun e => hs (e ▸ hd)
    simp [this]
  have h1 : (dom.filter fun d => decide (d ∈ dom)) = dom := by
    rw [List.filter_eq_self]
    intro d hd
    simp [hd]
  have h2 : (((step :: dom).filter fun d => a || d ≠ step).filter fun d => d ∈ dom) = dom := by
    rw [List.filter_cons, h0]
    cases a
    · simpa using h1
    · simp only [Bool.true_or, if_true]
      rw [List.filter_cons, if_neg (by simpa using hs), h1]
  cases k <;> first | exact h2 | (show (dom.filter _).filter _ = dom; rw [h0, h1])

theorem sizes_mem (mpi : Bool) (step : Str) (dom : List Str) (k : SizeKind) (p : Str)
    (hs : step ∉ dom) (hp : SizePrefix mpi k p) :
    (⟨p, .sizes (dom.map (.size k ·))⟩ : CliOption) ∈ registered mpi step dom := by
  obtain ⟨m, a, h1, h2, _⟩ := sizePrefix_entry mpi k p hp
  refine mem_domain mpi step dom (m, p, k, a) h1 h2 _ ?_
  unfold domainOption
  refine List.mem_append_right _ ?_
  simp only
  rw [sizes_dims step dom k a hs]
  simp

theorem flag_entry (mpi : Bool) (f : Flag) (hf : NeedsMpi f → mpi = true) :
    ∃ m, (m, (⟨flagName f, .flag (.flag f)⟩ : CliOption)) ∈ fixedOptions ∧ (mpi || !m) = true := by
  by_cases hn : NeedsMpi f
  · refine ⟨true, ?_, by simp [hf hn]⟩
    rcases hn with rfl | rfl | rfl | rfl <;> decide +kernel
  · refine ⟨false, ?_, by simp⟩
    cases f <;> first | decide +kernel | (exact absurd (by simp [NeedsMpi]) hn)

theorem int_entry (i : IntSetting) (s : Str) (hs : IntName i s) :
    (false, (⟨s, .int (.int i)⟩ : CliOption)) ∈ fixedOptions := by
  cases i
  case innerThreads => rcases hs with rfl | rfl <;> decide +kernel
  all_goals cases hs; decide +kernel

theorem fixed_cases (e : Bool × CliOption) (h : e ∈ fixedOptions) :
    (∃ f : Flag, e = (decide (f = .overlap ∨ f = .exchangeHalos ∨ f = .useShm ∨ f = .scalarExchange),
      ⟨flagName f, .flag (.flag f)⟩)) ∨
    (∃ i s, IntName i s ∧ e = (false, ⟨s, .int (.int i)⟩)) ∨
    e = (true, ⟨"min_exterior".toList, .sizes [.minExterior]⟩) ∨
    e = (false, ⟨"auto_tune_trial_secs".toList, .dbl .trialSecs⟩) ∨
    e = (false, ⟨"auto_tune_targets".toList, .strs .targets tunable⟩) := by
  unfold fixedOptions at h
  simp only [List.mem_cons, List.not_mem_nil, or_false] at h
  rcases h with rfl | rfl | rfl | rfl | rfl | rfl | rfl | rfl | rfl | rfl | rfl | rfl | rfl | rfl | rfl | rfl | rfl | rfl | rfl | rfl | rfl | rfl
  · exact Or.inl ⟨.printSuffixes, rfl⟩
  · exact Or.inl ⟨.verbose, rfl⟩
  · exact Or.inl ⟨.roundUp, rfl⟩
  · exact Or.inl ⟨.addlPad, rfl⟩
  · exact Or.inl ⟨.overlap, rfl⟩
  · exact Or.inr (Or.inr (Or.inl rfl))
  · exact Or.inl ⟨.exchangeHalos, rfl⟩
  · exact Or.inl ⟨.useShm, rfl⟩
  · exact Or.inl ⟨.scalarExchange, rfl⟩
  · exact Or.inl ⟨.scalar, rfl⟩
  · exact Or.inr (Or.inl ⟨.maxThreads, _, rfl, rfl⟩)
  · exact Or.inr (Or.inl ⟨.outerThreads, _, rfl, rfl⟩)
  · exact Or.inr (Or.inl ⟨.innerThreads, _, Or.inl rfl, rfl⟩)
  · exact Or.inr (Or.inl ⟨.innerThreads, _, Or.inr rfl, rfl⟩)
  · exact Or.inl ⟨.bindInner, rfl⟩
  · exact Or.inl ⟨.bundle, rfl⟩
  · exact Or.inl ⟨.initScratch, rfl⟩
  · exact Or.inr (Or.inl ⟨.numa, _, rfl, rfl⟩)
  · exact Or.inl ⟨.autoTune, rfl⟩
  · exact Or.inr (Or.inr (Or.inr (Or.inl rfl)))
  · exact Or.inr (Or.inl ⟨.radius, _, rfl, rfl⟩)
  · exact Or.inr (Or.inr (Or.inr (Or.inr rfl)))

theorem registered_isOption (mpi : Bool) (step : Str) (dom : List Str) (o : CliOption)
    (h : o ∈ registered mpi step dom) (a : Str) (ha : a ∈ spell o) : IsOption mpi step dom a := by
  unfold registered at h
  rw [List.mem_append] at h
  rcases h with h | h
  · obtain ⟨e, he, ho⟩ := List.mem_flatMap.1 h
    obtain ⟨he, hm⟩ := List.mem_filter.1 he
    obtain ⟨hp, hk⟩ := entry_sizePrefix mpi e he hm
    unfold domainOption at ho
    rw [List.mem_append] at ho
    rcases ho with ho | ho
    · obtain ⟨d, hd, rfl⟩ := List.mem_map.1 ho
      obtain ⟨hd, hd'⟩ := List.mem_filter.1 hd
      simp only [spell, List.mem_singleton] at ha
      subst ha
      refine .size e.2.2.1 e.2.1 d hp ?_
      rcases List.mem_cons.1 ((tupleDims_sub step dom e.2.2.1).subset hd) with rfl | hd
      · right
        refine ⟨rfl, hk.1 ?_⟩
        simpa using hd'
      · exact Or.inl hd
    · rw [List.mem_singleton] at ho
      subst ho
      simp only [spell, List.mem_singleton] at ha
      subst ha
      exact .sizes e.2.2.1 e.2.1 hp
  · obtain ⟨e, he, rfl⟩ := List.mem_map.1 h
    obtain ⟨he, hm⟩ := List.mem_filter.1 he
    rcases fixed_cases e he with ⟨f, rfl⟩ | ⟨i, s, hs, rfl⟩ | rfl | rfl | rfl
    · have hf : NeedsMpi f → mpi = true := by
        intro hn
        unfold NeedsMpi at hn
        simpa [hn] using hm
      simp only [spell, List.mem_cons, List.not_mem_nil, or_false] at ha
      rcases ha with rfl | rfl
      · exact .on f hf
      · exact .off f hf
    · simp only [spell, List.mem_singleton] at ha
      subst ha
      exact .int i s hs
    · simp only [spell, List.mem_singleton] at ha
      subst ha
      exact .minExterior (by simpa using hm)
    · simp only [spell, List.mem_singleton] at ha
      subst ha
      exact .trialSecs
    · simp only [spell, List.mem_singleton] at ha
      subst ha
      exact .targets

end Yask.Options
