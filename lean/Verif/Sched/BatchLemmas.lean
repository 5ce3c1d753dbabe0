import Verif.Sched.RunLemmas

/-! Helper lemmas: sections of the rank, one wave-front, whole runs. -/

namespace Yask
open Spec
namespace RunCfg

variable {c : RunCfg} {dir : Int} {en : Bool}

/-- Position of a section in the order in which sections are computed. -/
def sectRank (c : RunCfg) : Sect → Nat
  | .whole => 0
  | .ext d left => 2 * d + (if left then 0 else 1)
  | .interior => 2 * c.nd

theorem sections_sorted (c : RunCfg) : c.sections.Pairwise fun s s' => c.sectRank s < c.sectRank s' := by
  unfold sections
  split
  · rw [List.pairwise_append]
    refine ⟨?_, List.pairwise_singleton _ _, ?_⟩
    · rw [List.pairwise_flatMap]
      constructor
      · intro j _
        by_cases h1 : c.exteriorExists j true <;> by_cases h2 : c.exteriorExists j false <;>
          simp [h1, h2, sectRank]
      · refine List.pairwise_lt_range.imp ?_
        intro j j' hlt s hs s' hs'
        simp only [List.mem_filterMap, List.mem_cons, List.not_mem_nil, or_false] at hs hs'
        obtain ⟨l, _, hl⟩ := hs
        obtain ⟨l', _, hl'⟩ := hs'
        split at hl <;> simp only [Option.some.injEq, reduceCtorEq] at hl
        split at hl' <;> simp only [Option.some.injEq, reduceCtorEq] at hl'
        subst hl; subst hl'
        simp only [sectRank]
        split <;> split <;> omega
    · intro s hs s' hs'
      simp only [List.mem_flatMap, List.mem_range, List.mem_filterMap, List.mem_cons, List.not_mem_nil,
        or_false] at hs hs'
      obtain ⟨j, hj, l, _, hl⟩ := hs
      split at hl <;> simp only [Option.some.injEq, reduceCtorEq] at hl
      subst hl; subst hs'
      simp only [sectRank]
      split <;> omega
  · exact List.pairwise_singleton _ _

theorem mem_sections_overlap (ho : c.overlap = true) (s : Sect) :
    s ∈ c.sections ↔ s = .interior ∨ ∃ d < c.nd, ∃ left, s = .ext d left ∧
      c.exteriorExists d left = true := by
  unfold sections
  simp only [ho, if_true, List.mem_append, List.mem_flatMap, List.mem_range, List.mem_filterMap,
    List.mem_cons, List.not_mem_nil, or_false]
  constructor
  · rintro (⟨d, hd, l, _, hl⟩ | h)
    · split at hl
      · next he =>
        simp only [Option.some.injEq] at hl
        exact Or.inr ⟨d, hd, l, hl.symm, he⟩
      · simp at hl
    · exact Or.inl h
  · rintro (h | ⟨d, hd, l, rfl, he⟩)
    · exact Or.inr h
    · exact Or.inl ⟨d, hd, l, by cases l <;> simp, by simp [he]⟩

/-- All coordinates of a point belong to a section. -/
def InSects (c : RunCfg) (sect : Sect) (s : Int) (p : List Int) : Prop :=
  ∀ j < c.nd, c.InSect sect j (c.wfAngle j * s) (at_ p j)

/-- Interior bounds move outwards, so sections are respected by dependencies. -/
theorem sect_mono (sect sect' : Sect) (hsec : sect ∈ c.sections) (hsec' : sect' ∈ c.sections)
    {s s' : Int} {p p' : List Int}
    (hl : ∀ j < c.nd, at_ p' j < (c.intRange j (c.wfAngle j * s')).1 →
      at_ p j < (c.intRange j (c.wfAngle j * s)).1)
    (hr : ∀ j < c.nd, (c.intRange j (c.wfAngle j * s')).2 ≤ at_ p' j →
      (c.intRange j (c.wfAngle j * s)).2 ≤ at_ p j)
    (h : c.InSects sect s p) (h' : c.InSects sect' s' p') :
    c.sectRank sect ≤ c.sectRank sect' := by
  by_cases ho : c.overlap = true
  · rw [mem_sections_overlap ho] at hsec hsec'
    rcases hsec' with rfl | ⟨d', hd', l', rfl, _⟩
    · rcases hsec with rfl | ⟨d, hd, l, rfl, _⟩
      · exact le_refl _
      · simp only [sectRank]; split <;> omega
    · have g := (h' d' hd').1 rfl
      by_contra hc
      have hin : ∀ hgt : (sect = .interior ∨ ∃ d > d', ∃ l, sect = .ext d l),
          InIvl (at_ p d') (c.intRange d' (c.wfAngle d' * s)) := by
        rintro (rfl | ⟨d, hd, l, rfl⟩)
        · exact h d' hd'
        · exact (h d' hd').2 hd
      rcases hsec with rfl | ⟨d, hd, l, rfl, _⟩
      · have := hin (Or.inl rfl)
        cases l'
        · have := hr d' hd' g.1; omega
        · have := hl d' hd' g; omega
      · rcases lt_trichotomy d d' with hlt | rfl | hgt
        · simp only [sectRank] at hc
          split at hc <;> split at hc <;> omega
        · cases l' <;> cases l <;> simp only [sectRank] at hc
          · simp at hc
          · simp at hc
          · have g2 := (h d hd).1 rfl
            have := hl d hd g
            simp only [Bool.false_eq_true, if_false] at g2
            omega
          · simp at hc
        · have := hin (Or.inr ⟨d, hgt, l, rfl⟩)
          cases l'
          · have := hr d' hd' g.1; omega
          · have := hl d' hd' g; omega
  · have e : ∀ s, s ∈ c.sections → s = .whole := by
      intro s hs; unfold sections at hs; simpa [ho] using hs
    rw [e _ hsec, e _ hsec']

theorem sect_order (h : c.Ok) {sect sect' : Sect} (hsec : sect ∈ c.sections) (hsec' : sect' ∈ c.sections)
    (hwf : 0 < c.wfSteps)
    {s s' : Int} (hs : s < s') {p p' : List Int}
    (hnear : Near c.nd (fun j => (c.dim j).maxHalo) p p')
    (hext : ∀ j < c.nd, InIvl (at_ p' j) (c.extBeg j, c.extEnd j))
    (h1 : c.InSects sect s p) (h2 : c.InSects sect' s' p') :
    c.sectRank sect ≤ c.sectRank sect' := by
  have hang : ∀ j < c.nd, ∀ left, c.exteriorExists j left = true →
      (c.dim j).maxHalo + c.wfAngle j * s ≤ c.wfAngle j * s' := by
    intro j hj left he
    have hw : (c.dim j).maxHalo ≤ c.wfAngle j := by
      unfold wfAngle; simp only
      rw [if_pos (Or.inr (h.ext_ranks j hj left he))]
      exact roundHalo_ge h hj
    have := wfAngle_nonneg h hj
    nlinarith
  apply sect_mono sect sect' hsec hsec' _ _ h1 h2
  · intro j hj hx
    have hn : at_ p j - at_ p' j ≤ (c.dim j).maxHalo ∧ at_ p' j - at_ p j ≤ (c.dim j).maxHalo :=
      hnear j hj
    have he := hext j hj
    unfold intRange at hx ⊢
    rw [if_pos (by omega)] at hx ⊢
    by_cases hex : c.exteriorExists j true = true
    · have := hang j hj true hex
      simp only [hex, if_true] at hx ⊢
      omega
    · have hex' : c.exteriorExists j true = false := by simpa using hex
      simp only [hex', Bool.false_eq_true, if_false] at hx
      simp only [exteriorExists, if_true, decide_eq_true_eq] at hex
      have := he.1
      simp only at this
      omega
  · intro j hj hx
    have hn : at_ p j - at_ p' j ≤ (c.dim j).maxHalo ∧ at_ p' j - at_ p j ≤ (c.dim j).maxHalo :=
      hnear j hj
    have he := hext j hj
    unfold intRange at hx ⊢
    rw [if_pos (by omega)] at hx ⊢
    by_cases hex : c.exteriorExists j false = true
    · have := hang j hj false hex
      simp only [hex, if_true] at hx ⊢
      omega
    · have hex' : c.exteriorExists j false = false := by simpa using hex
      simp only [hex', Bool.false_eq_true, if_false] at hx
      simp [exteriorExists] at hex
      have := he.2
      simp only at this
      omega

theorem sect_unique {sect sect' : Sect} (hsec : sect ∈ c.sections) (hsec' : sect' ∈ c.sections)
    {s : Int} {p : List Int} (h1 : c.InSects sect s p) (h2 : c.InSects sect' s p) :
    c.sectRank sect = c.sectRank sect' :=
  le_antisymm (sect_mono _ _ hsec hsec' (fun _ _ h => h) (fun _ _ h => h) h1 h2)
    (sect_mono _ _ hsec' hsec (fun _ _ h => h) (fun _ _ h => h) h2 h1)

theorem sect_exists (s : Int) {p : List Int}
    (hext : ∀ j < c.nd, InIvl (at_ p j) (c.extBeg j, c.extEnd j)) :
    ∃ sect ∈ c.sections, c.sectOk sect ∧ c.InSects sect s p := by
  classical
  by_cases ho : c.overlap = true
  · by_cases hall : ∀ j < c.nd, InIvl (at_ p j) (c.intRange j (c.wfAngle j * s))
    · exact ⟨.interior, (mem_sections_overlap ho _).2 (Or.inl rfl), trivial, hall⟩
    · have hex : ∃ d, d < c.nd ∧ ¬ InIvl (at_ p d) (c.intRange d (c.wfAngle d * s)) := by
        by_contra hc
        apply hall
        intro j hj
        by_contra hn
        exact hc ⟨j, hj, hn⟩
      have hd := Nat.find_spec hex
      have hmin := fun j (hj : j < Nat.find hex) => Nat.find_min hex hj
      set d := Nat.find hex with hddef
      have hin : ∀ j < d, InIvl (at_ p j) (c.intRange j (c.wfAngle j * s)) := by
        intro j hj
        by_contra hn
        exact hmin j hj ⟨by omega, hn⟩
      have he := hext d hd.1
      by_cases hlt : at_ p d < (c.intRange d (c.wfAngle d * s)).1
      · have hx : c.exteriorExists d true = true := by
          by_contra hne
          have hne' := hne
          simp only [exteriorExists, if_true, decide_eq_true_eq] at hne'
          have hex' : c.exteriorExists d true = false := by simpa using hne
          unfold intRange at hlt
          have := he.1
          simp only at this
          simp only [hex', Bool.false_eq_true, if_false] at hlt
          split at hlt <;> simp only at hlt <;> omega
        refine ⟨.ext d true, (mem_sections_overlap ho _).2 (Or.inr ⟨d, hd.1, true, rfl, hx⟩), hx, ?_⟩
        intro j hj
        refine ⟨?_, fun hj => hin j hj⟩
        rintro rfl
        simpa using hlt
      · have hge : (c.intRange d (c.wfAngle d * s)).2 ≤ at_ p d := by
          by_contra hc
          exact hd.2 ⟨by omega, by omega⟩
        have hx : c.exteriorExists d false = true := by
          by_contra hne
          have hne' := hne
          simp [exteriorExists] at hne'
          have hex' : c.exteriorExists d false = false := by simpa using hne
          unfold intRange at hge
          have := he.2
          simp only at this
          simp only [hex', Bool.false_eq_true, if_false] at hge
          split at hge <;> simp only at hge <;> omega
        refine ⟨.ext d false, (mem_sections_overlap ho _).2 (Or.inr ⟨d, hd.1, false, rfl, hx⟩), hx, ?_⟩
        intro j hj
        refine ⟨?_, fun hj => hin j hj⟩
        rintro rfl
        simp only [Bool.false_eq_true, if_false]
        omega
  · refine ⟨.whole, ?_, trivial, fun j hj => trivial⟩
    unfold sections; simp [ho]

/-! ### One wave-front -/

/-- Evaluations of a mega-block `m` of a section, for given stages. -/
abbrev InBase (c : RunCfg) (dir : Int) (stages : List Nat) (t0 : Int) (nt : Nat) (sect : Sect)
    (m : List Int) (a : Task) : Prop :=
  ∃ i < nt, ∃ q < stages.length, c.InMega dir stages sect (pieceBox c.nd c.rankD m) t0 i q a

/-- The region of a mega-block in terms of the cut points of the rank. -/
theorem inMega_iff (h : c.Ok) {m : List Int} (hm : IsIdx c.nd c.rankD m) {s : Int} (hs0 : 0 ≤ s)
    (hs : s ≤ c.numWfShifts) (stage : Nat) (sect : Sect) {a : Task} (ha : c.Valid a)
    (hst : a.stage = stage) :
    (∀ j < c.nd, InIvl (at_ a.pt j) (c.megaIvl stage sect (pieceBox c.nd c.rankD m) s j)) ↔
      (∀ j < c.nd, (c.rankD j).cut (at_ m j) ≤ at_ a.pt j + c.wfAngle j * s ∧
        at_ a.pt j + c.wfAngle j * s < (c.rankD j).cut (at_ m j + 1)) ∧
      (∀ j < c.nd, c.evalBeg j s ≤ at_ a.pt j ∧ at_ a.pt j < c.evalEnd j s) ∧
      c.InSects sect s a.pt := by
  have hp := isPiece_bodyBox (rankD_ok h) hm
  have key : ∀ j < c.nd, (InIvl (at_ a.pt j) (c.megaIvl stage sect (pieceBox c.nd c.rankD m) s j) ↔
      ((c.rankD j).cut (at_ m j) ≤ at_ a.pt j + c.wfAngle j * s ∧
        at_ a.pt j + c.wfAngle j * s < (c.rankD j).cut (at_ m j + 1)) ∧
      (c.evalBeg j s ≤ at_ a.pt j ∧ at_ a.pt j < c.evalEnd j s) ∧
      c.InSect sect j (c.wfAngle j * s) (at_ a.pt j)) := by
    intro j hj
    have hle : c.wfAngle j * s ≤ c.wfShiftPts j :=
      mul_le_mul_of_nonneg_left hs (wfAngle_nonneg h hj)
    have hbb := h.dom_bb _ _ _ ha.2.2.1 j hj
    have hext := h.dom_ext _ _ _ ha.2.2.1 j hj
    rw [hst] at hbb
    unfold megaIvl
    rw [shiftTrim_iff h hj stage sect _ hle, hp j hj]
    have he := eval_iff h hj hs0 (at_ a.pt j) hext
    rw [← he]
    constructor
    · rintro ⟨h1, _, h3, h4, h5⟩; exact ⟨h1, ⟨h3, h4⟩, h5⟩
    · rintro ⟨h1, ⟨h3, h4⟩, h5⟩; exact ⟨h1, hbb, h3, h4, h5⟩
  constructor
  · intro hh
    exact ⟨fun j hj => ((key j hj).1 (hh j hj)).1, fun j hj => ((key j hj).1 (hh j hj)).2.1,
      fun j hj => ((key j hj).1 (hh j hj)).2.2⟩
  · rintro ⟨h1, h2, h3⟩ j hj
    exact (key j hj).2 ⟨h1 j hj, h2 j hj, h3 j hj⟩

/-- All mega-blocks of all sections, in sequence. -/
theorem good_pass (h : c.Ok) (hdir : dir = 1 ∨ dir = -1) (stages : List Nat) (t0 : Int) (nt : Nat)
    (hbound : ∀ i < nt, ∀ q < stages.length, ((i * stages.length + q : Nat) : Int) ≤ c.numWfShifts)
    (hmulti : 0 < c.wfSteps ∨ (nt ≤ 1 ∧ stages.length ≤ 1))
    (hst : stages = List.range c.nst ∨ stages.length ≤ 1)
    (hg : ∀ sect m, IsIdx c.nd c.rankD m → Good (c.okOrd dir en)
      (c.calcMega dir stages sect (pieceBox c.nd c.rankD m) t0 nt) (c.InBase dir stages t0 nt sect m)) :
    Good (c.okOrd dir en)
      (doSeq (c.sections.map fun sect =>
        doSeq ((scan c.rankLoop).map fun base => c.calcMega dir stages sect base t0 nt)))
      (fun a => ∃ i < nt, ∃ q < stages.length, a.step = t0 + dir * i ∧ a.stage = stages.getD q 0 ∧
        c.Valid a ∧ ∀ j < c.nd, c.evalBeg j (i * stages.length + q : Nat) ≤ at_ a.pt j ∧
          at_ a.pt j < c.evalEnd j (i * stages.length + q : Nat)) := by
  -- facts about pairs of evaluations
  have hlt : ∀ (i q i' q' : Nat) (a b : Task), i < nt → q < stages.length → i' < nt →
      q' < stages.length → a.step = t0 + dir * i → b.step = t0 + dir * i' →
      a.stage = stages.getD q 0 → b.stage = stages.getD q' 0 → Task.Before dir a b →
      0 < c.wfSteps ∧ i * stages.length + q < i' * stages.length + q' := by
    intro i q i' q' a b hi hq hi' hq' a1 b1 a2 b2 hbef
    have hq0 : stages.length ≤ 1 → q = q' := fun h => by omega
    have hlen : i < i' → i * stages.length + q < i' * stages.length + q' := by
      intro hii
      have : (i + 1) * stages.length ≤ i' * stages.length := Nat.mul_le_mul_right _ hii
      have e : (i + 1) * stages.length = i * stages.length + stages.length := by ring
      omega
    have hcase : i < i' ∨ (i = i' ∧ a.stage < b.stage) := by
      rcases hbef with h1 | ⟨h1, h2⟩
      · rw [a1, b1] at h1
        rcases hdir with rfl | rfl
        · exact Or.inl (by omega)
        · exact Or.inl (by omega)
      · right
        rw [a1, b1] at h1
        refine ⟨?_, h2⟩
        rcases hdir with rfl | rfl <;> omega
    rcases hcase with hii | ⟨rfl, hss⟩
    · refine ⟨?_, hlen hii⟩
      rcases hmulti with h | h
      · exact h
      · omega
    · have hne : q ≠ q' := by rintro rfl; omega
      rcases hst with hst | hst
      · rw [hst, List.length_range] at hq hq'
        rw [hst, range_getD hq] at a2
        rw [hst, range_getD hq'] at b2
        refine ⟨?_, by omega⟩
        rcases hmulti with h | h
        · exact h
        · rw [hst, List.length_range] at h; omega
      · omega
  have hsame : ∀ (i q i' q' : Nat) (a : Task), q < stages.length →
      q' < stages.length → a.step = t0 + dir * i → a.step = t0 + dir * i' →
      a.stage = stages.getD q 0 → a.stage = stages.getD q' 0 → i = i' ∧ q = q' := by
    intro i q i' q' a hq hq' a1 b1 a2 b2
    constructor
    · rw [a1] at b1; rcases hdir with rfl | rfl <;> omega
    · rcases hst with hst | hst
      · rw [hst, List.length_range] at hq hq'
        rw [hst, range_getD hq] at a2
        rw [hst, range_getD hq'] at b2
        omega
      · omega
  -- the region of one mega-block
  have hreg : ∀ sect m (a : Task) (i q : Nat), IsIdx c.nd c.rankD m → i < nt → q < stages.length →
      c.InMega dir stages sect (pieceBox c.nd c.rankD m) t0 i q a →
      (∀ j < c.nd, (c.rankD j).cut (at_ m j) ≤ at_ a.pt j + c.wfAngle j * (i * stages.length + q : Nat) ∧
        at_ a.pt j + c.wfAngle j * (i * stages.length + q : Nat) < (c.rankD j).cut (at_ m j + 1)) ∧
      (∀ j < c.nd, c.evalBeg j (i * stages.length + q : Nat) ≤ at_ a.pt j ∧
        at_ a.pt j < c.evalEnd j (i * stages.length + q : Nat)) ∧
      c.InSects sect (i * stages.length + q : Nat) a.pt := by
    intro sect m a i q hm hi hq ha
    exact (inMega_iff h hm (by positivity) (hbound i hi q hq) _ sect ha.2.2.1 ha.2.1).1 ha.2.2.2.2
  refine (good_seq _ _ (fun sect a => ∃ m, IsIdx c.nd c.rankD m ∧ c.InBase dir stages t0 nt sect m a)
    ?_ ?_).congr ?_
  · intro sect _
    rw [rankLoop_eq]
    refine good_seq_scan c.nd c.rankD _ (fun m a => c.InBase dir stages t0 nt sect m a) ?_ ?_ ?_
    · intro m hm
      exact hg sect m hm
    · rintro m m' a hm hm' ⟨i, hi, q, hq, ha⟩ ⟨i', hi', q', hq', hb⟩ j hj
      obtain ⟨rfl, rfl⟩ := hsame i q i' q' a hq hq' ha.1 hb.1 ha.2.1 hb.2.1
      exact mega_unique h hj (hm.2 j hj).1 (hm.2 j hj).2 (hm'.2 j hj).1 (hm'.2 j hj).2
        ((hreg sect m a i q hm hi hq ha).1 j hj) ((hreg sect m' a i q hm' hi hq hb).1 j hj)
    · rintro m m' a b hm hm' ⟨i, hi, q, hq, ha⟩ ⟨i', hi', q', hq', hb⟩ hn j hj
      have hmp := (c.not_okOrd dir en hn).2
      have hs := (hlt i' q' i q b a hi' hq' hi hq hb.1 ha.1 hb.2.1 ha.2.1 hmp.1).2
      exact mega_order h hj (by exact_mod_cast hs) (hm'.2 j hj).1 (hm'.2 j hj).2 (hm.2 j hj).1
        (hm.2 j hj).2 ((hreg sect m' b i' q' hm' hi' hq' hb).1 j hj).1
        ((hreg sect m a i q hm hi hq ha).1 j hj).2 (hmp.2 j hj).1
  · refine List.Pairwise.imp_of_mem ?_ (sections_sorted c)
    rintro sect sect' hsec hsec' hrank a b ⟨m, hm, i, hi, q, hq, ha⟩ ⟨m', hm', i', hi', q', hq', hb⟩
    constructor
    · rintro rfl
      obtain ⟨rfl, rfl⟩ := hsame i q i' q' a hq hq' ha.1 hb.1 ha.2.1 hb.2.1
      have := sect_unique hsec hsec' (hreg sect m a i q hm hi hq ha).2.2
        (hreg sect' m' a i q hm' hi hq hb).2.2
      omega
    · intro _ hmp
      have hs := hlt i' q' i q b a hi' hq' hi hq hb.1 ha.1 hb.2.1 ha.2.1 hmp.1
      have := sect_order h hsec' hsec hs.1 (s := (i' * stages.length + q' : Nat))
        (s' := (i * stages.length + q : Nat)) (by exact_mod_cast hs.2) hmp.2
        (fun j hj => h.dom_ext _ _ _ ha.2.2.1.2.2.1 j hj)
        (hreg sect' m' b i' q' hm' hi' hq' hb).2.2 (hreg sect m a i q hm hi hq ha).2.2
      omega
  · intro a
    constructor
    · rintro ⟨sect, _, m, hm, i, hi, q, hq, ha⟩
      exact ⟨i, hi, q, hq, ha.1, ha.2.1, ha.2.2.1, (hreg sect m a i q hm hi hq ha).2.1⟩
    · rintro ⟨i, hi, q, hq, h1, h2, h3, h4⟩
      have hext := fun j hj => h.dom_ext _ _ _ h3.2.2.1 j hj
      obtain ⟨sect, hsec, hok, hin⟩ := sect_exists (c := c) ((i * stages.length + q : Nat) : Int) hext
      have hb := hbound i hi q hq
      have hex : ∀ j, ∃ m, j < c.nd → 0 ≤ m ∧ m < (c.rankD j).numIters true ∧
          (c.rankD j).cut m ≤ at_ a.pt j + c.wfAngle j * (i * stages.length + q : Nat) ∧
          at_ a.pt j + c.wfAngle j * (i * stages.length + q : Nat) < (c.rankD j).cut (m + 1) := by
        intro j
        by_cases hj : j < c.nd
        · obtain ⟨m, hm⟩ := mega_exists h hj (s := (i * stages.length + q : Nat)) (by positivity)
            (mul_le_mul_of_nonneg_left hb (wfAngle_nonneg h hj))
            (by
              rcases hmulti with hm | hm
              · exact Or.inl hm
              · right
                have : i = 0 := by omega
                have : q = 0 := by omega
                subst_vars; simp)
            (hext j hj)
            ((eval_iff h hj (by positivity) _ (hext j hj)).2 (h4 j hj)).2
          exact ⟨m, fun _ => hm⟩
        · exact ⟨0, fun h => absurd h hj⟩
      choose mf hmf using hex
      have hat : ∀ j < c.nd, at_ ((List.range c.nd).map mf) j = mf j := fun j hj => getD_map_range _ _ _ hj
      have hm : IsIdx c.nd c.rankD ((List.range c.nd).map mf) := by
        refine ⟨by simp, fun j hj => ?_⟩
        rw [hat j hj]
        exact ⟨(hmf j hj).1, (hmf j hj).2.1⟩
      refine ⟨sect, hsec, _, hm, i, hi, q, hq, h1, h2, h3, hok, ?_⟩
      refine (inMega_iff h hm (by positivity) hb _ sect h3 h2).2 ⟨fun j hj => ?_, h4, hin⟩
      rw [hat j hj]
      exact (hmf j hj).2.2

/-- One iteration of the step loop. -/
theorem good_runBatch (h : c.Ok) (hrem : en = true → c.tbSteps = 0 ∨ c.NoShortRemainder) (hdir : dir = 1 ∨ dir = -1)
    (t0 : Int) (nt : Nat) (hnt : (nt : Int) ≤ max c.wfSteps 1) :
    Good (c.okOrd dir en) (c.runBatch dir t0 nt) (c.Required dir t0 nt) := by
  have hw := wfSteps_nonneg h
  unfold runBatch
  by_cases hw0 : c.wfSteps = 0
  · rw [if_pos hw0]
    have htb : c.tbSteps = 0 := by
      have h1 := h.mega_steps
      have h2 := h.block_steps
      have : c.blockSteps = 0 := by unfold wfSteps at hw0; omega
      unfold tbSteps; rw [if_neg (by omega), this]
    have hnw : c.numWfShifts = 0 := by unfold numWfShifts; rw [if_neg (by omega)]
    have hnt1 : nt ≤ 1 := by omega
    refine (good_seq _ _ (fun stage a => ∃ i < nt, ∃ q < 1, a.step = t0 + dir * i ∧
        a.stage = [stage].getD q 0 ∧ c.Valid a ∧
        ∀ j < c.nd, c.evalBeg j (i * 1 + q : Nat) ≤ at_ a.pt j ∧
          at_ a.pt j < c.evalEnd j (i * 1 + q : Nat)) ?_ ?_).congr ?_
    · intro stage _
      refine good_pass h hdir [stage] t0 nt ?_ (Or.inr ⟨hnt1, by simp⟩) (Or.inr (by simp)) ?_
      · intro i hi q hq
        simp only [List.length_singleton] at hq
        have : i = 0 := by omega
        have : q = 0 := by omega
        subst_vars
        rw [hnw]; simp
      · intro sect m _
        exact good_calcMega_noTb h hdir htb [stage] (List.pairwise_singleton _ _) sect _ t0 nt
    · refine List.pairwise_lt_range.imp ?_
      rintro st st' hlt a b ⟨i, hi, q, hq, a1, a2, _⟩ ⟨i', hi', q', hq', b1, b2, _⟩
      obtain rfl : i = 0 := by omega
      obtain rfl : i' = 0 := by omega
      obtain rfl : q = 0 := by omega
      obtain rfl : q' = 0 := by omega
      simp only [List.getD_cons_zero] at a2 b2
      exact stage_lt (a1.trans b1.symm) (by omega)
    · intro a
      have hle : ∀ j s, c.evalBeg j s = c.evalBeg j 0 ∧ c.evalEnd j s = c.evalEnd j 0 := by
        intro j s
        have hws : c.wfShiftPts j = 0 := by unfold wfShiftPts; rw [hnw]; ring
        have h1 : c.leftExt j = 0 := by rcases leftExt_cases c j with h | h <;> omega
        have h2 : c.rightExt j = 0 := by rcases rightExt_cases c j with h | h <;> omega
        unfold evalBeg evalEnd
        simp [h1, h2]
      unfold Required
      simp only [List.mem_range]
      constructor
      · rintro ⟨st, hst, i, hi, q, hq, a1, a2, a3, a4⟩
        obtain rfl : q = 0 := by omega
        simp only [List.getD_cons_zero] at a2
        refine ⟨i, hi, a1, by omega, a3.1, a3.2.1, a3.2.2.1, a3.2.2.2, fun j hj => ?_⟩
        have := a4 j hj
        rw [(hle j _).1, (hle j _).2] at this ⊢
        exact this
      · rintro ⟨i, hi, a1, a2, a3, a4, a5, a6, a7⟩
        refine ⟨a.stage, a2, i, hi, 0, by omega, a1, by simp, ⟨a3, a4, a5, a6⟩, fun j hj => ?_⟩
        have := a7 j hj
        rw [(hle j _).1, (hle j _).2] at this ⊢
        exact this
  · rw [if_neg hw0]
    have hwp : 0 < c.wfSteps := by omega
    have hntw : (nt : Int) ≤ c.wfSteps := by omega
    refine (good_pass h hdir (List.range c.nst) t0 nt ?_ (Or.inl hwp) (Or.inl rfl) ?_).congr ?_
    · intro i hi q hq
      rw [List.length_range] at hq ⊢
      have := lt_numShifts hi hq
      unfold numWfShifts
      have hp : 0 < (c.nst : Int) * c.wfSteps := mul_pos (by omega) hwp
      rw [if_pos hwp, if_pos hp]
      have e : (c.nst : Int) * nt ≤ (c.nst : Int) * c.wfSteps :=
        mul_le_mul_of_nonneg_left hntw (by omega)
      have this' : ((i * c.nst + q + 1 : Nat) : Int) ≤ ((c.nst * nt : Nat) : Int) := by exact_mod_cast this
      rw [Nat.cast_mul c.nst nt] at this'
      push_cast at this' ⊢
      omega
    · intro sect m hm
      by_cases htb : c.tbSteps = 0
      · exact good_calcMega_noTb h hdir htb (List.range c.nst) List.pairwise_lt_range sect _ t0 nt
      · refine (good_calcMega_tb h (fun hen => (hrem hen).resolve_left htb) hdir htb sect hm
          (isPiece_bodyBox (rankD_ok h) hm) t0 nt hntw).congr ?_
        intro a
        unfold InBase
        rw [List.length_range]
    · intro a
      unfold Required
      rw [List.length_range]
      constructor
      · rintro ⟨i, hi, q, hq, a1, a2, a3, a4⟩
        rw [range_getD hq] at a2
        subst a2
        exact ⟨i, hi, a1, hq, a3.1, a3.2.1, a3.2.2.1, a3.2.2.2, fun j hj => by exact_mod_cast a4 j hj⟩
      · rintro ⟨i, hi, a1, a2, a3, a4, a5, a6, a7⟩
        exact ⟨i, hi, a.stage, a2, a1, by rw [range_getD a2], ⟨a3, a4, a5, a6⟩,
          fun j hj => by exact_mod_cast a7 j hj⟩

theorem stepDir_cases (first last : Int) : stepDir first last = 1 ∨ stepDir first last = -1 := by
  unfold stepDir; split <;> simp

/-- A whole run: all batches. -/
theorem good_runSolution (h : c.Ok) (hrem : en = true → c.tbSteps = 0 ∨ c.NoShortRemainder) (first last : Int) :
    Good (c.okOrd (stepDir first last) en) (c.runSolution first last)
      (fun a => ∃ k : Nat, k * (max c.wfSteps 1).toNat < numSteps first last ∧
        c.Required (stepDir first last) (first + stepDir first last * (k * (max c.wfSteps 1).toNat : Nat))
          (min (max c.wfSteps 1).toNat (numSteps first last - k * (max c.wfSteps 1).toNat)) a) := by
  have hdir := stepDir_cases first last
  unfold runSolution
  simp only []
  have hstp : 0 < (max c.wfSteps 1).toNat := by omega
  have hcast : ((max c.wfSteps 1).toNat : Int) = max c.wfSteps 1 := by omega
  set st := (max c.wfSteps 1).toNat with hst
  set dir := stepDir first last
  set n := numSteps first last
  refine (good_seq _ _ (fun k a => c.Required dir (first + dir * (k * st : Nat)) (min st (n - k * st)) a)
    ?_ ?_).congr ?_
  · intro k _
    exact good_runBatch h hrem hdir _ _ (by omega)
  · refine List.pairwise_lt_range.imp ?_
    rintro k k' hk a b ⟨i, hi, a1, _⟩ ⟨i', hi', b1, _⟩
    have : k * st + i < k' * st + i' := by
      have : (k + 1) * st ≤ k' * st := Nat.mul_le_mul_right st hk
      have e : (k + 1) * st = k * st + st := by ring
      omega
    refine step_lt hdir (t0 := first) (i := k * st + i) (i' := k' * st + i') ?_ ?_ this
    · rw [a1]; push_cast; ring
    · rw [b1]; push_cast; ring
  · intro a
    simp only [List.mem_range]
    have hk : ∀ k : Nat, k < (n + st - 1) / st ↔ k * st < n := by
      intro k
      rw [Nat.lt_iff_add_one_le, Nat.le_div_iff_mul_le hstp]
      have : (k + 1) * st = k * st + st := by ring
      omega
    constructor
    · rintro ⟨k, h1, h2⟩; exact ⟨k, (hk k).1 h1, h2⟩
    · rintro ⟨k, h1, h2⟩; exact ⟨k, (hk k).2 h1, h2⟩

end RunCfg
end Yask
