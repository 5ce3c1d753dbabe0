import Verif.Setup.SettingsModel
import Verif.Spec.SettingsSpec
import Verif.Common.IdivLemmas
import Mathlib.Tactic.Linarith
import Mathlib.Tactic.Ring

/-! Helper lemmas about the adjustment of settings. -/

namespace Yask.Setup
open Spec

theorem roundUp_least {a b m : Int} (ha : 0 ≤ a) (hb : 0 < b) (hm : b ∣ m) (h : a ≤ m) : roundUp a b ≤ m := by
  have hs := roundUp_spec (a := a) (b := b) ha hb
  obtain ⟨k, rfl⟩ := hm
  obtain ⟨l, hl⟩ := hs.2.2
  rw [hl] at hs ⊢
  have : l < k + 1 := by
    by_contra hc
    have : b * (k + 1) ≤ b * l := mul_le_mul_of_nonneg_left (by omega) (by omega)
    have e : b * (k + 1) = b * k + b := by ring
    omega
  exact mul_le_mul_of_nonneg_left (by omega) (by omega)

theorem fitSize_fits {inner outer fold : Int} (ho : 0 < outer) (hf : 0 < fold) :
    Fits inner outer fold (fitSize inner outer fold) := by
  unfold fitSize
  simp only
  by_cases hi : inner ≤ 0
  · rw [if_pos hi]
    have key : (if (if fold > 1 then roundUp outer fold else outer) > outer then outer
        else (if fold > 1 then roundUp outer fold else outer)) = outer := by
      have hs := roundUp_spec (a := outer) (b := fold) (by omega) hf
      split <;> split <;> omega
    rw [key]
    exact ⟨ho, le_refl _, fun _ => rfl, Or.inr rfl, Or.inr rfl, fun m _ h => by omega⟩
  · rw [if_neg hi]
    have hs := roundUp_spec (a := inner) (b := fold) (by omega) hf
    have e : (if fold > 1 then roundUp inner fold else inner) = roundUp inner fold := by
      split
      · rfl
      · have : fold = 1 := by omega
        subst this
        omega
    rw [e]
    split
    · rename_i hgt
      refine ⟨ho, le_refl _, fun h => by omega, Or.inr rfl, Or.inr rfl, fun m hm _ hle hmo => ?_⟩
      have := roundUp_least (by omega) hf hm hle
      omega
    · exact ⟨by omega, by omega, fun h => by omega, Or.inl hs.2.2, Or.inl hs.1,
        fun m hm _ hle _ => roundUp_least (by omega) hf hm hle⟩

/-- Fitting a fitted size again changes nothing. -/
theorem fitSize_idem {inner outer fold : Int} (ho : 0 < outer) (hf : 0 < fold) :
    fitSize (fitSize inner outer fold) outer fold = fitSize inner outer fold := by
  have h := fitSize_fits (inner := inner) ho hf
  have h2 := fitSize_fits (inner := fitSize inner outer fold) ho hf
  rcases h.whole with hw | hw
  · have := h2.least _ hw h.pos (le_refl _) h.le
    rcases h2.atLeast with h3 | h3
    · omega
    · have := h.le; omega
  · rcases h2.atLeast with h3 | h3
    · have := h2.le; omega
    · omega

theorem defaultNano_frame (s : KSet) :
    (defaultNano s).nd = s.nd ∧ (defaultNano s).rank = s.rank ∧ (defaultNano s).fold = s.fold ∧
    (defaultNano s).stepBlk = s.stepBlk ∧ (defaultNano s).innerLoop = s.innerLoop ∧
    (defaultNano s).defBlk = s.defBlk ∧ (defaultNano s).innerThreads = s.innerThreads ∧
    (defaultNano s).bindInner = s.bindInner ∧
    ∀ j, ((defaultNano s).blk j).mega = (s.blk j).mega ∧ ((defaultNano s).blk j).block = (s.blk j).block ∧
      ((defaultNano s).blk j).micro = (s.blk j).micro ∧ ((defaultNano s).blk j).pico = (s.blk j).pico := by
  unfold defaultNano
  split
  · refine ⟨rfl, rfl, rfl, rfl, rfl, rfl, rfl, rfl, fun j => ?_⟩
    simp only
    split <;> exact ⟨rfl, rfl, rfl, rfl⟩
  · exact ⟨rfl, rfl, rfl, rfl, rfl, rfl, rfl, rfl, fun j => ⟨rfl, rfl, rfl, rfl⟩⟩

/-- The settings just before the binding dim is chosen. -/
def preBind (s : KSet) : KSet :=
  let s1 := { s with
    stepBlk := adjustSteps s.stepBlk
    blk := fun j => adjustOuter s.defBlk (s.rank j) (s.fold j) (s.blk j) }
  let s2 := defaultNano s1
  { s2 with
    blk := fun j =>
      let b := s2.blk j
      let nano := fitSize b.nano b.micro (s2.fold j)
      { b with nano := nano, pico := fitSize b.pico nano (s2.fold j) } }

/-- The nano-block size asked for, by the user or by the code for several inner threads. -/
def midNano (s : KSet) (j : Nat) : Int :=
  ((defaultNano { s with
    stepBlk := adjustSteps s.stepBlk
    blk := fun j => adjustOuter s.defBlk (s.rank j) (s.fold j) (s.blk j) }).blk j).nano

theorem preBind_frame (s : KSet) :
    (preBind s).nd = s.nd ∧ (preBind s).rank = s.rank ∧ (preBind s).fold = s.fold ∧
    (preBind s).stepBlk = adjustSteps s.stepBlk ∧ (preBind s).innerLoop = s.innerLoop ∧
    (preBind s).defBlk = s.defBlk ∧ (preBind s).innerThreads = s.innerThreads ∧
    (preBind s).bindInner = s.bindInner := by
  have h := defaultNano_frame { s with
    stepBlk := adjustSteps s.stepBlk
    blk := fun j => adjustOuter s.defBlk (s.rank j) (s.fold j) (s.blk j) }
  exact ⟨h.1, h.2.1, h.2.2.1, h.2.2.2.1, h.2.2.2.2.1, h.2.2.2.2.2.1, h.2.2.2.2.2.2.1, h.2.2.2.2.2.2.2.1⟩

theorem preBind_blk (s : KSet) (j : Nat) :
    (preBind s).blk j =
      let mega := fitSize (s.blk j).mega (s.rank j) (s.fold j)
      let block := fitSize (s.reqBlock j) mega (s.fold j)
      let micro := fitSize (s.blk j).micro block (s.fold j)
      let nano := fitSize (midNano s j) micro (s.fold j)
      { mega := mega, block := block, micro := micro, nano := nano
        pico := fitSize (s.blk j).pico nano (s.fold j) } := by
  have h := defaultNano_frame { s with
    stepBlk := adjustSteps s.stepBlk
    blk := fun j => adjustOuter s.defBlk (s.rank j) (s.fold j) (s.blk j) }
  obtain ⟨-, -, h3, -, -, -, -, -, hb⟩ := h
  obtain ⟨b1, b2, b3, b4⟩ := hb j
  unfold preBind
  simp only [b1, b2, b3, b4, h3]
  rfl

theorem findBind_ok (s : KSet) (h : ∀ j < s.nd, 0 < (s.blk j).nano) :
    ∀ js : List Nat, (∀ j ∈ js, j < s.nd) → ∃ p, findBind s js = .ok p := by
  intro js
  induction js with
  | nil => intro _; exact ⟨_, rfl⟩
  | cons j js ih =>
    intro hj
    have h0 := h j (hj j (by simp))
    obtain ⟨p, hp⟩ := ih fun k hk => hj k (by simp [hk])
    unfold findBind
    split
    · exact ⟨p, hp⟩
    · rw [if_neg (by omega)]
      split
      · exact ⟨_, rfl⟩
      · exact ⟨p, hp⟩

theorem preBind_nest (s : KSet) (h : s.Legal) (j : Nat) (hj : j < s.nd) :
    let b := (preBind s).blk j
    Fits (s.blk j).mega (s.rank j) (s.fold j) b.mega ∧ Fits (s.reqBlock j) b.mega (s.fold j) b.block ∧
    Fits (s.blk j).micro b.block (s.fold j) b.micro ∧ Fits (midNano s j) b.micro (s.fold j) b.nano ∧
    Fits (s.blk j).pico b.nano (s.fold j) b.pico := by
  rw [preBind_blk]
  have hf := h.fold_pos j hj
  have f1 := fitSize_fits (inner := (s.blk j).mega) (h.rank_pos j hj) hf
  have f2 := fitSize_fits (inner := s.reqBlock j) f1.pos hf
  have f3 := fitSize_fits (inner := (s.blk j).micro) f2.pos hf
  have f4 := fitSize_fits (inner := midNano s j) f3.pos hf
  exact ⟨f1, f2, f3, f4, fitSize_fits f4.pos hf⟩

theorem adjust_ok (s : KSet) (h : s.Legal) :
    ∃ s', adjustSettings s = .ok s' ∧ s' = { preBind s with bindPosn := s'.bindPosn } := by
  have hfr := preBind_frame s
  have e : adjustSettings s = if (preBind s).bindInner ∧ (preBind s).innerThreads > 1 then do
      let p ← findBind (preBind s) (List.range (preBind s).nd)
      pure { preBind s with bindPosn := p }
    else pure (preBind s) := rfl
  rw [e]
  split
  · obtain ⟨p, hp⟩ := findBind_ok (preBind s)
      (fun j hj => (preBind_nest s h j (hfr.1 ▸ hj)).2.2.2.1.pos) (List.range (preBind s).nd)
      (fun j hj => List.mem_range.1 hj)
    rw [hp]
    exact ⟨_, rfl, rfl⟩
  · exact ⟨_, rfl, rfl⟩

end Yask.Setup
