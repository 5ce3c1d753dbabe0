import Verif.Spec.CcMainSpec

/-!
# Lemmas about the main program of the stencil compiler
-/

namespace Yask.CcMain
open Args (Str Opt Vals parseArgs setArgs joinRem)

/-- The items of the program. -/
def progItems (ws : List Word) : List (CmdItem OptVal) := ws.filterMap fun | .prog i => some i | .lib _ => none

/-- The items of the library. -/
def libItems (ws : List Word) : List (CmdItem OptVal) := ws.filterMap fun | .prog _ => none | .lib i => some i

/-- The settings after the items. -/
def eff (is : List (CmdItem OptVal)) (st : Vals OptVal) : Vals OptVal := is.foldl (CmdItem.apply (.bool true) (.bool false)) st

/-- The value given last. -/
def GivenIn (is : List (CmdItem OptVal)) (n : Str) (v : OptVal) : Prop :=
  ∃ pre i post, is = pre ++ i :: post ∧ itemGives i n v ∧ ∀ j ∈ post, ∀ u, ¬ itemGives j n u

theorem apply_gives (st : Vals OptVal) (i : CmdItem OptVal) (n : Str) (v : OptVal) (h : itemGives i n v) :
    i.apply (.bool true) (.bool false) st n = v := by
  cases i with
  | flag o b => obtain ⟨h1, h2⟩ := h; subst h1 h2; cases b <;> simp [CmdItem.apply]
  | value o t x => obtain ⟨h1, h2⟩ := h; subst h1 h2; simp [CmdItem.apply]
  | other s => exact h.elim

theorem apply_not (st : Vals OptVal) (i : CmdItem OptVal) (n : Str) (h : ∀ u, ¬ itemGives i n u) :
    i.apply (.bool true) (.bool false) st n = st n := by
  cases i with
  | flag o b =>
    have : n ≠ o.name := fun e => h (.bool b) ⟨e.symm, rfl⟩
    simp [CmdItem.apply, this]
  | value o t x =>
    have : n ≠ o.name := fun e => h x ⟨e.symm, rfl⟩
    simp [CmdItem.apply, this]
  | other s => rfl

theorem eff_not (is : List (CmdItem OptVal)) (st : Vals OptVal) (n : Str) (h : ∀ i ∈ is, ∀ u, ¬ itemGives i n u) :
    eff is st n = st n := by
  induction is generalizing st with
  | nil => rfl
  | cons i is ih =>
    have := ih (i.apply (.bool true) (.bool false) st) fun j hj => h j (List.mem_cons_of_mem _ hj)
    unfold eff at this ⊢
    rw [List.foldl_cons, this, apply_not st i n (h i List.mem_cons_self)]

theorem eff_given (is : List (CmdItem OptVal)) (st : Vals OptVal) (n : Str) (v : OptVal) (h : GivenIn is n v) :
    eff is st n = v := by
  obtain ⟨pre, i, post, rfl, hi, hp⟩ := h
  have := eff_not post (i.apply (.bool true) (.bool false) (eff pre st)) n hp
  unfold eff at this ⊢
  rw [List.foldl_append, List.foldl_cons, this, apply_gives _ i n v hi]

theorem given_or (is : List (CmdItem OptVal)) (n : Str) :
    (∃ v, GivenIn is n v) ∨ ∀ i ∈ is, ∀ u, ¬ itemGives i n u := by
  induction is with
  | nil => right; simp
  | cons i is ih =>
    rcases ih with ⟨v, pre, j, post, h, hj, hp⟩ | ih
    · left; exact ⟨v, i :: pre, j, post, by rw [h]; rfl, hj, hp⟩
    · by_cases hi : ∃ u, itemGives i n u
      · obtain ⟨u, hu⟩ := hi
        left; exact ⟨u, [], i, is, rfl, hu, ih⟩
      · right
        intro j hj
        rcases List.mem_cons.1 hj with rfl | hj
        · exact fun u hu => hi ⟨u, hu⟩
        · exact ih j hj

theorem not_given (is : List (CmdItem OptVal)) (n : Str) (h : ∀ i ∈ is, ∀ u, ¬ itemGives i n u) (u : OptVal) :
    ¬ GivenIn is n u := by
  rintro ⟨pre, i, post, rfl, hi, _⟩
  exact h i (by simp) u hi

theorem eff_iff (is : List (CmdItem OptVal)) (st : Vals OptVal) (n : Str) (v : OptVal) :
    eff is st n = v ↔ GivenIn is n v ∨ (∀ u, ¬ GivenIn is n u) ∧ v = st n := by
  rcases given_or is n with ⟨x, hx⟩ | h
  · rw [eff_given is st n x hx]
    constructor
    · rintro rfl; exact Or.inl hx
    · rintro (h | ⟨h, _⟩)
      · rw [← eff_given is st n x hx, eff_given is st n v h]
      · exact absurd hx (h x)
  · rw [eff_not is st n h]
    constructor
    · rintro rfl; exact Or.inr ⟨not_given is n h, rfl⟩
    · rintro (h' | ⟨_, h'⟩)
      · exact absurd h' (not_given is n h v)
      · exact h'.symm

theorem eff_eff (is : List (CmdItem OptVal)) (st : Vals OptVal) : eff is (eff is st) = eff is st := by
  funext n
  rcases given_or is n with ⟨x, hx⟩ | h
  · rw [eff_given is _ n x hx, eff_given is _ n x hx]
  · rw [eff_not is _ n h]

theorem progGiven_iff (ws : List Word) (n : Str) (v : OptVal) : ProgGiven ws n v ↔ GivenIn (progItems ws) n v := by
  constructor
  · rintro ⟨pre, i, post, rfl, hi, hp⟩
    refine ⟨progItems pre, i, progItems post, by simp [progItems], hi, fun j hj => ?_⟩
    unfold progItems at hj
    rw [List.mem_filterMap] at hj
    obtain ⟨w, hw, hwj⟩ := hj
    cases w with
    | prog k => simp only [Option.some.injEq] at hwj; subst hwj; exact hp _ hw
    | lib k => simp at hwj
  · rintro ⟨pre, i, post, h, hi, hp⟩
    unfold progItems at h
    obtain ⟨l1, l2, rfl, h1, h2⟩ := List.filterMap_eq_append_iff.1 h
    obtain ⟨l3, w, l4, rfl, h3, h4, h5⟩ := List.filterMap_eq_cons_iff.1 h2
    cases w with
    | lib k => simp at h4
    | prog k =>
      simp only [Option.some.injEq] at h4
      subst h4
      refine ⟨l1 ++ l3, k, l4, by simp, hi, fun j hj => hp j ?_⟩
      rw [← h5, List.mem_filterMap]
      exact ⟨_, hj, rfl⟩

theorem libGiven_iff (ws : List Word) (n : Str) (v : OptVal) : LibGiven ws n v ↔ GivenIn (libItems ws) n v := by
  constructor
  · rintro ⟨pre, i, post, rfl, hi, hp⟩
    refine ⟨libItems pre, i, libItems post, by simp [libItems], hi, fun j hj => ?_⟩
    unfold libItems at hj
    rw [List.mem_filterMap] at hj
    obtain ⟨w, hw, hwj⟩ := hj
    cases w with
    | lib k => simp only [Option.some.injEq] at hwj; subst hwj; exact hp _ hw
    | prog k => simp at hwj
  · rintro ⟨pre, i, post, h, hi, hp⟩
    unfold libItems at h
    obtain ⟨l1, l2, rfl, h1, h2⟩ := List.filterMap_eq_append_iff.1 h
    obtain ⟨l3, w, l4, rfl, h3, h4, h5⟩ := List.filterMap_eq_cons_iff.1 h2
    cases w with
    | prog k => simp at h4
    | lib k =>
      simp only [Option.some.injEq] at h4
      subst h4
      refine ⟨l1 ++ l3, k, l4, by simp, hi, fun j hj => hp j ?_⟩
      rw [← h5, List.mem_filterMap]
      exact ⟨_, hj, rfl⟩

theorem progVal_iff (ws : List Word) (st : Vals OptVal) (n : Str) (v : OptVal) :
    ProgVal ws n (st n) v ↔ eff (progItems ws) st n = v := by
  rw [eff_iff]; unfold ProgVal; simp only [progGiven_iff]

theorem libVal_iff (ws : List Word) (st : Vals OptVal) (n : Str) (v : OptVal) :
    LibVal ws n (st n) v ↔ eff (libItems ws) st n = v := by
  rw [eff_iff]; unfold LibVal; simp only [libGiven_iff]

theorem prog_unambiguous : Unambiguous progOpts := by unfold Unambiguous; decide +kernel
theorem lib_unambiguous : Unambiguous libOpts := by unfold Unambiguous; decide +kernel

/-- What the first parser sees of a word. -/
def toProg : Word → List (CmdItem OptVal)
  | .prog i => [i]
  | .lib i => i.strings.map .other

theorem itemFor_valid {opts : List (Opt OptVal)} {i : CmdItem OptVal} (h : itemFor opts i) : i.Valid opts := by
  cases i with
  | flag o b => exact h
  | value o t v => exact h
  | other s => exact h.elim

theorem Word.Legal.readable {w : Word} (h : w.Legal) : w.Readable := by
  cases w with
  | prog i => exact h
  | lib i => exact ⟨itemFor_valid h.1, h.2⟩

theorem toProg_strings (ws : List Word) :
    (ws.flatMap toProg).flatMap CmdItem.strings = ws.flatMap Word.strings := by
  induction ws with
  | nil => rfl
  | cons w ws ih =>
    rw [List.flatMap_cons, List.flatMap_append, ih, List.flatMap_cons]
    congr 1
    cases w with
    | prog i => simp [toProg, Word.strings]
    | lib i =>
      simp only [toProg, Word.strings, List.flatMap_map]
      simp [CmdItem.strings]

theorem eff_others (l : List Str) (st : Vals OptVal) : eff (l.map .other) st = st := by
  induction l with
  | nil => rfl
  | cons s l ih => exact ih

theorem eff_toProg (ws : List Word) (st : Vals OptVal) : eff (ws.flatMap toProg) st = eff (progItems ws) st := by
  induction ws generalizing st with
  | nil => rfl
  | cons w ws ih =>
    have ha : ∀ a b : List (CmdItem OptVal), eff (a ++ b) st = eff b (eff a st) := fun a b => by
      unfold eff; rw [List.foldl_append]
    rw [List.flatMap_cons, ha, ih]
    cases w with
    | prog i => rfl
    | lib i => rw [toProg, eff_others]; rfl

/-- The string of an item that is no option. -/
def others : CmdItem OptVal → List Str
  | .other s => [s]
  | _ => []

theorem rest_toProg (ws : List Word) (h : ∀ w ∈ ws, w.Readable) :
    (ws.flatMap toProg).flatMap others = (libItems ws).flatMap CmdItem.strings := by
  induction ws with
  | nil => rfl
  | cons w ws ih =>
    rw [List.flatMap_cons, List.flatMap_append, ih fun w' h' => h w' (List.mem_cons_of_mem _ h')]
    have hw := h w List.mem_cons_self
    cases w with
    | prog i =>
      cases i with
      | other s => exact hw.elim
      | flag o b => rfl
      | value o t v => rfl
    | lib i =>
      have : libItems (.lib i :: ws) = i :: libItems ws := rfl
      rw [this, List.flatMap_cons]
      congr 1
      simp only [toProg, List.flatMap_map, others]
      simp

theorem args_eq (opts : List (Opt OptVal)) (hu : Unambiguous opts) (st : Vals OptVal) (is : List (CmdItem OptVal))
    (hv : ∀ i ∈ is, i.Valid opts) :
    parseArgs (.bool true) (.bool false) opts st (is.flatMap CmdItem.strings) =
      some (eff is st, joinRem (is.flatMap others)) := by
  rw [C43_options_applied _ _ opts hu st is hv]
  congr 4
  funext i
  cases i <;> rfl

theorem prog_eq (m : Vals OptVal) (ws : List Word) (h : ∀ w ∈ ws, w.Readable) :
    parseArgs (.bool true) (.bool false) progOpts m (ws.flatMap Word.strings) =
      some (eff (progItems ws) m, joinRem ((libItems ws).flatMap CmdItem.strings)) := by
  rw [← toProg_strings, args_eq progOpts prog_unambiguous, rest_toProg ws h, eff_toProg]
  intro i hi
  obtain ⟨w, hw, hi⟩ := List.mem_flatMap.1 hi
  have hl := h w hw
  cases w with
  | prog j =>
    rw [toProg, List.mem_singleton] at hi
    subst hi
    exact itemFor_valid hl
  | lib j =>
    rw [toProg, List.mem_map] at hi
    obtain ⟨s, hs, rfl⟩ := hi
    exact (hl.2 s hs).2

theorem mem_libItems {ws : List Word} {i : CmdItem OptVal} (hi : i ∈ libItems ws) : Word.lib i ∈ ws := by
  obtain ⟨w, hw, hwi⟩ := List.mem_filterMap.1 hi
  cases w with
  | prog j => cases hwi
  | lib j => cases hwi; exact hw

theorem set_eq (ws : List Word) (h : ∀ w ∈ ws, w.Readable) :
    setArgs (joinRem ((libItems ws).flatMap CmdItem.strings)) = some ((libItems ws).flatMap CmdItem.strings) := by
  refine C43_requote_roundtrip_partial _ fun a ha => ?_
  obtain ⟨i, hi, ha⟩ := List.mem_flatMap.1 ha
  exact ((h _ (mem_libItems hi)).2 a ha).1

theorem lib_eq (c : Vals OptVal) (ws : List Word) (h : ∀ w ∈ ws, w.Legal) :
    parseArgs (.bool true) (.bool false) libOpts c ((libItems ws).flatMap CmdItem.strings) =
      some (eff (libItems ws) c, []) := by
  have hlib : ∀ i ∈ libItems ws, itemFor libOpts i := fun i hi => (h _ (mem_libItems hi)).1
  rw [args_eq libOpts lib_unambiguous c _ fun i hi => itemFor_valid (hlib i hi)]
  have : (libItems ws).flatMap others = [] := by
    rw [List.flatMap_eq_nil_iff]
    intro i hi
    have := hlib i hi
    cases i with
    | other s => exact this.elim
    | flag o b => rfl
    | value o t v => rfl
  rw [this]; rfl

theorem parse_eq (m c : Vals OptVal) (ws : List Word) (h : ∀ w ∈ ws, w.Legal) :
    parse m c (ws.flatMap Word.strings) =
      if eff (progItems ws) m "help".toList = .bool true then none
      else if eff (progItems ws) m "stencil".toList = .str [] then none
      else if eff (progItems ws) m "p".toList ≠ .str [] ∧ eff (libItems ws) c "target".toList = .str [] then none
      else some (eff (progItems ws) m, eff (libItems ws) c) := by
  unfold parse
  have h' : ∀ w ∈ ws, w.Readable := fun w hw => (h w hw).readable
  rw [prog_eq m ws h']
  dsimp only
  rw [set_eq ws h']
  dsimp only
  rw [lib_eq c ws h]
  dsimp only
  rw [if_neg (fun hn : ([] : Str) ≠ [] => hn rfl)]

theorem parse_extra (m c : Vals OptVal) (ws : List Word) (h : ∀ w ∈ ws, w.Readable) (s : Str) (hs : Word.lib (.other s) ∈ ws) :
    parse m c (ws.flatMap Word.strings) = none := by
  have hm : CmdItem.other s ∈ libItems ws := List.mem_filterMap.2 ⟨_, hs, rfl⟩
  have hne : (libItems ws).flatMap others ≠ [] := by
    intro he
    have := List.flatMap_eq_nil_iff.1 he _ hm
    simp [others] at this
  have hj : joinRem ((libItems ws).flatMap others) ≠ [] := by
    intro he
    refine hne ?_
    have := C43_requote_roundtrip_partial ((libItems ws).flatMap others) fun a ha => by
      obtain ⟨i, hi, ha⟩ := List.mem_flatMap.1 ha
      cases i with
      | flag o b => simp [others] at ha
      | value o t v => simp [others] at ha
      | other s' => exact ((h _ (mem_libItems hi)).2 a ha).1
    rw [he] at this
    have e : setArgs [] = some [] := rfl
    rw [e] at this
    injection this with this
    exact this.symm
  unfold parse
  rw [prog_eq m ws h]
  dsimp only
  rw [set_eq ws h]
  dsimp only
  rw [args_eq libOpts lib_unambiguous c _ fun i hi => (h _ (mem_libItems hi)).1]
  dsimp only
  rw [if_pos hj]
  simp only [ite_self]

end Yask.CcMain
