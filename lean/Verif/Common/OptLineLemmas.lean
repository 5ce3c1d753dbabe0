import Verif.Common.OptLemmas

/-!
# Command lines of options (lemmas)
-/

namespace Yask.Options

open Args (Str)

section
variable {D : Type} (strtod : Str → Option D)

/-- Assignments in order. -/
def assignAll (st : Settings D) (es : List (Key × Val D)) : Settings D :=
  es.foldl (fun s e => assign s e.1 e.2) st

theorem assignAll_after (st : Settings D) (es : List (Key × Val D)) : assignAll st es = after st es := by
  induction es using List.reverseRecOn with
  | nil => rfl
  | append_singleton es e ih =>
    funext k
    unfold assignAll at ih ⊢
    rw [List.foldl_append, ih]
    simp only [List.foldl_cons, List.foldl_nil]
    unfold after
    rw [List.reverse_append]
    simp only [List.reverse_cons, List.reverse_nil, List.nil_append, List.cons_append, List.find?_cons]
    unfold assign
    by_cases hk : k = e.1
    · subst hk
      simp
    · have hk' : ¬ e.1 = k := fun h => hk h.symm
      simp [hk, hk']

theorem assignAll_sizes (st : Settings D) (ks : List Key) (n : Int) :
    ks.foldl (fun s k => assign s k (.int n)) st = assignAll st (ks.map fun k => (k, .int n)) := by
  unfold assignAll
  rw [List.foldl_map]

/-- What the loop does on the words of an item. -/
def Consumes (t : List CliOption) (w : List Str) (e : List (Key × Val D)) (r : List Str) : Prop :=
  ∀ (st : Settings D) (rest : List Str), parseLoop strtod t 0 st (w ++ rest) =
    ((parseLoop strtod t 0 (assignAll st e) rest).1, (parseLoop strtod t 0 (assignAll st e) rest).2.map (r ++ ·))

theorem consumes_one (t : List CliOption) (hd : Distinct t) (o : CliOption) (ho : o ∈ t) (a : Str)
    (ha : a ∈ spell o) (e : List (Key × Val D))
    (h : ∀ st rest, checkArg strtod o st a rest = .done (assignAll st e) 0) : Consumes strtod t [a] e [] := by
  intro st rest
  simp only [List.cons_append, List.nil_append]
  rw [parseLoop, checkAny_mem strtod t hd st a rest o ho ha, h]
  simp

theorem consumes_two (t : List CliOption) (hd : Distinct t) (o : CliOption) (ho : o ∈ t) (a v : Str)
    (ha : a ∈ spell o) (e : List (Key × Val D))
    (h : ∀ st rest, checkArg strtod o st a (v :: rest) = .done (assignAll st e) 1) :
    Consumes strtod t [a, v] e [] := by
  intro st rest
  simp only [List.cons_append, List.nil_append]
  rw [parseLoop, checkAny_mem strtod t hd st a (v :: rest) o ho ha, h]
  simp only
  rw [parseLoop]
  simp

theorem checkArg_sizes (p : Str) (ks : List Key) (t : Str) (n : Int) (hz : NoNull t) (ht : Numeral t n)
    (hn : IdxRange n) (st : Settings D) (rest : List Str) :
    checkArg strtod ⟨p, .sizes ks⟩ st ('-' :: p) (t :: rest) =
      .done (assignAll st (ks.map fun k => (k, .int n))) 1 := by
  simp only [checkArg, if_true, List.head?_cons]
  rw [idxVal_of t n hz ht hn]
  simp only
  rw [assignAll_sizes]

theorem checkArg_dbl (p : Str) (k : Key) (t : Str) (x : D) (ht : strtod t = some x) (st : Settings D)
    (rest : List Str) : checkArg strtod ⟨p, .dbl k⟩ st ('-' :: p) (t :: rest) = .done (assignAll st [(k, .dbl x)]) 1 := by
  simp only [checkArg, if_true, List.head?_cons, ht]
  rfl

theorem checkArg_strs (p : Str) (k : Key) (allowed l : List Str) (hp : ∀ s ∈ allowed, ',' ∉ s ∧ s ≠ [])
    (hl : ∀ s ∈ l, s ∈ allowed) (st : Settings D) (rest : List Str) :
    checkArg strtod ⟨p, .strs k allowed⟩ st ('-' :: p) (List.intercalate [','] l :: rest) =
      .done (assignAll st [(k, .strs l)]) 1 := by
  simp only [checkArg, if_true, List.head?_cons]
  rw [splitComma_join l fun s hs => hp s (hl s hs), pushAll_allowed allowed [] l hl]
  rfl

theorem checkArg_off (p : Str) (k : Key) (st : Settings D) (rest : List Str) :
    checkArg strtod ⟨p, .flag k⟩ st ('-' :: ("no-".toList ++ p)) rest = .done (assignAll st [(k, .bool false)]) 0 := by
  simp only [checkArg]
  have hne : ('-' :: ("no-".toList ++ p)) ≠ '-' :: p := by
    intro h
    have := congrArg List.length h
    simp at this
    omega
  rw [if_neg hne, if_pos trivial]
  rfl

theorem tunable_piece : ∀ s ∈ tunable, ',' ∉ s ∧ s ≠ [] := by decide +kernel

theorem item_consumes (mpi : Bool) (step : Str) (dom : List Str) (hg : GoodDims step dom)
    (w : List Str) (e : List (Key × Val D)) (r : List Str) (h : Item strtod mpi step dom w e r) :
    Consumes strtod (optTable mpi step dom) w e r := by
  have hd := optTable_distinct mpi step dom hg
  have hs : step ∉ dom := (List.nodup_cons.1 hg.nodup).1
  have hm := mem_optTable mpi step dom hg
  cases h with
  | size k p d t n hp hdim hz ht hn =>
    exact consumes_two strtod _ hd _ ((hm _).2 (size_mem mpi step dom k p d hs hp hdim)) _ _ (by simp [spell]) _
      fun st rest => checkArg_sizes strtod _ _ t n hz ht hn st rest
  | sizes k p t n hp hz ht hn =>
    refine consumes_two strtod _ hd _ ((hm _).2 (sizes_mem mpi step dom k p hs hp)) _ _ (by simp [spell]) _
      fun st rest => ?_
    rw [checkArg_sizes strtod _ _ t n hz ht hn st rest, List.map_map]
    rfl
  | on f hf =>
    obtain ⟨m, h1, h2⟩ := flag_entry mpi f hf
    refine consumes_one strtod _ hd _ ((hm _).2 (mem_fixed mpi step dom _ h1 h2)) _ (by simp [spell]) _
      fun st rest => ?_
    simp [checkArg, assignAll]
  | off f hf =>
    obtain ⟨m, h1, h2⟩ := flag_entry mpi f hf
    refine consumes_one strtod _ hd _ ((hm _).2 (mem_fixed mpi step dom _ h1 h2)) _ ?_ _
      fun st rest => ?_
    · exact List.mem_cons_of_mem _ (List.mem_singleton.2 rfl)
    · exact checkArg_off strtod _ _ st rest
  | int i s t n hs' hz ht hn =>
    refine consumes_two strtod _ hd _ ((hm _).2 (mem_fixed mpi step dom _ (int_entry i s hs') (by simp))) _ _
      (by simp [spell]) _ fun st rest => ?_
    simp only [checkArg, if_true, List.head?_cons]
    rw [idxVal_of t n hz ht (intRange_idx n hn)]
    simp only
    rw [toInt32_self n hn]
    rfl
  | minExterior t n hmpi hz ht hn =>
    have h1 : (true, (⟨"min_exterior".toList, .sizes [.minExterior]⟩ : CliOption)) ∈ fixedOptions := by decide +kernel
    exact consumes_two strtod _ hd _ ((hm _).2 (mem_fixed mpi step dom _ h1 (by simp [hmpi]))) _ _ (by simp [spell]) _
      fun st rest => checkArg_sizes strtod _ _ t n hz ht hn st rest
  | trialSecs t x ht =>
    have h1 : (false, (⟨"auto_tune_trial_secs".toList, .dbl .trialSecs⟩ : CliOption)) ∈ fixedOptions := by
      decide +kernel
    exact consumes_two strtod _ hd _ ((hm _).2 (mem_fixed mpi step dom _ h1 (by simp))) ('-' :: _) _
      (List.mem_singleton.2 rfl) _ fun st rest => checkArg_dbl strtod _ _ t x ht st rest
  | targets l hl =>
    have h1 : (false, (⟨"auto_tune_targets".toList, .strs .targets tunable⟩ : CliOption)) ∈ fixedOptions := by
      decide +kernel
    exact consumes_two strtod _ hd _ ((hm _).2 (mem_fixed mpi step dom _ h1 (by simp))) ('-' :: _) _
      (List.mem_singleton.2 rfl) _ fun st rest => checkArg_strs strtod _ _ tunable l tunable_piece hl st rest
  | other s hs' =>
    intro st rest
    simp only [List.cons_append, List.nil_append]
    rw [parseLoop, checkAny_no strtod _ st s rest fun o ho ha =>
      hs' (registered_isOption mpi step dom o ((hm o).1 ho) s ha)]
    rfl

theorem line_consumes (mpi : Bool) (step : Str) (dom : List Str) (hg : GoodDims step dom)
    (w : List Str) (e : List (Key × Val D)) (r : List Str) (h : Line strtod mpi step dom w e r) :
    Consumes strtod (optTable mpi step dom) w e r := by
  induction h with
  | nil =>
    intro st rest
    simp [assignAll]
  | cons hi _ ih =>
    intro st rest
    rw [List.append_assoc, item_consumes strtod mpi step dom hg _ _ _ hi st, ih]
    simp only [assignAll, List.foldl_append]
    refine Prod.ext rfl ?_
    simp only [Option.map_map]
    congr 1
    funext x
    simp

theorem line_parse (mpi : Bool) (step : Str) (dom : List Str) (hg : GoodDims step dom)
    (w : List Str) (e : List (Key × Val D)) (r : List Str) (h : Line strtod mpi step dom w e r) (st : Settings D) :
    parseLoop strtod (optTable mpi step dom) 0 st w = (after st e, some r) := by
  have := line_consumes strtod mpi step dom hg w e r h st []
  rw [List.append_nil] at this
  rw [this, assignAll_after]
  simp [parseLoop]

end

end Yask.Options
