import Verif.Compiler.DimsLemmas

/-!
# Vector folding: property C73

`req d` is the fold length that the options contain for the dim `d`, if any; lengths less than one count as not specified.
`vlen` is the SIMD length of the target.
-/

namespace Yask
open Dims

variable {D : Type*} [DecidableEq D] [Inhabited D]

/-- A vector of `vlen` points: a positive length for each domain dim, with product `vlen`. -/
def IsFold (domain : List D) (vlen : Int) (len : D → Int) : Prop :=
  (∀ d ∈ domain, 1 ≤ len d) ∧ (domain.map len).prod = vlen

/-- The length requested for the dim is used. -/
def Kept (req : D → Option Int) (len : D → Int) (d : D) : Prop := ∀ p, req d = some p → 1 ≤ p → len d = p

/-- The lengths requested, with one for the dims without request. -/
def requested (req : D → Option Int) (d : D) : Int :=
  match req d with
  | some p => if 1 ≤ p then p else 1
  | none => 1

theorem requested_eq {req : D → Option Int} {d : D} : requested req d = (reqLen req d).getD 1 := by
  unfold requested reqLen
  cases req d with
  | none => rfl
  | some p => by_cases h : 1 ≤ p <;> simp [h, Option.filter]

theorem reqLen_iff {req : D → Option Int} {d : D} {p : Int} : reqLen req d = some p ↔ req d = some p ∧ 1 ≤ p := by
  unfold reqLen
  rw [Option.filter_eq_some_iff]
  simp

/-- C73: if the compiler does not reject the settings, every domain dim has a positive fold length, and, with SIMD
instructions, their product is the SIMD length. -/
theorem C73_covers (domain : List D) (hnd : domain.Nodup) (req : D → Option Int) (inner : D) (hin : inner ∈ domain)
    (vlen : Int) (eff : Bool) (fold : List Int) (h : setFold domain req inner vlen eff = .ok fold) :
    ∃ len, fold = domain.map len ∧ (∀ d ∈ domain, 1 ≤ len d) ∧ (1 < vlen → IsFold domain vlen len) := by
  rw [setFold_eq] at h
  split_ifs at h with h1 h2 h3
  · obtain ⟨d, rfl⟩ := List.length_eq_one_iff.1 h2
    rw [← Outcome.ok.inj h]
    have hv : 1 ≤ vlen := by omega
    exact ⟨fun _ => vlen, rfl, fun _ _ => hv, fun _ => ⟨fun _ _ => hv, by simp⟩⟩
  · rw [← Outcome.ok.inj h]
    have hs := innerSz_spec (req := req) hin h1.1
    set f := fun d => if d = inner then innerSz domain req inner vlen else
            (otherFolds domain req inner (vlen.tdiv (innerSz domain req inner vlen)) eff d).getD 1 with hf
    have hpos : ∀ d ∈ domain, 1 ≤ f d := by
      intro d hd
      simp only [hf]
      split_ifs with hdi
      · exact hs.1
      · cases eff with
        | false =>
          unfold otherFolds
          simp only [Bool.false_eq_true, if_false]
          split_ifs
          · simp only [Option.getD_some]; omega
          · simp
        | true =>
          obtain ⟨e1, e2⟩ := others_eff hnd (req := req) hs.2.2.2 ⟨d, hd, hdi⟩
          have hm : d ∈ (domain.filter fun d => decide (d ≠ inner)).reverse := by simp [hd, hdi]
          have := List.mem_map_of_mem (f := fun d => (otherFolds domain req inner
            (vlen.tdiv (innerSz domain req inner vlen)) true d).getD 1) hm
          rw [e1] at this
          have := e2.2.1 _ this
          omega
    exact ⟨f, rfl, hpos, fun _ => ⟨hpos, not_not.1 h3⟩⟩
  · rw [← Outcome.ok.inj h]
    refine ⟨_, rfl, fun d _ => getD_one_pos d, fun hv => ⟨fun d _ => getD_one_pos d, ?_⟩⟩
    by_contra hc
    exact h1 ⟨hv, hc⟩

/-- C73: the settings are accepted if folding is efficient on the target, if there is one domain dim, or if the inner-loop dim
is not the last but one domain dim, whatever is requested. -/
theorem C73_accepted_partial (domain : List D) (hnd : domain.Nodup) (req : D → Option Int) (inner : D) (hin : inner ∈ domain)
    (vlen : Int) (eff : Bool) (h : domain.length = 1 ∨ eff = true ∨ inner ≠ nearInner domain) :
    ∃ fold, setFold domain req inner vlen eff = .ok fold := by
  rw [setFold_eq]
  split_ifs with h1 h2 h3
  · exact ⟨_, rfl⟩
  · exfalso
    apply h3
    have hs := innerSz_spec (req := req) hin h1.1
    rw [prod_split hnd hin, if_pos rfl]
    conv_rhs => rw [hs.2.2.1]
    congr 1
    have h2' : 2 ≤ domain.length := by
      have : 0 < domain.length := List.length_pos_of_mem hin
      omega
    have hcong : ((domain.filter fun d => decide (d ≠ inner)).map fun d =>
        if d = inner then innerSz domain req inner vlen else
          (otherFolds domain req inner (vlen.tdiv (innerSz domain req inner vlen)) eff d).getD 1) =
        (domain.filter fun d => decide (d ≠ inner)).map fun d =>
          (otherFolds domain req inner (vlen.tdiv (innerSz domain req inner vlen)) eff d).getD 1 := by
      apply List.map_congr_left
      intro d hd
      simp only [List.mem_filter, decide_eq_true_eq] at hd
      rw [if_neg hd.2]
    rw [hcong]
    have hex : ∃ d ∈ domain, d ≠ inner := by
      by_contra hc
      push Not at hc
      have : domain = List.replicate domain.length inner := List.eq_replicate_of_mem hc
      rw [this] at hnd
      have := List.nodup_replicate.1 hnd
      omega
    cases eff with
    | true =>
      obtain ⟨e1, e2⟩ := others_eff hnd (req := req) hs.2.2.2 hex
      rw [← e1] at e2
      have := e2.2.2
      rw [List.map_reverse, List.prod_reverse] at this
      exact this
    | false =>
      have hni : inner ≠ nearInner domain := by
        rcases h with h | h | h
        · exact absurd h h2
        · cases h
        · exact h
      have hmem : nearInner domain ∈ domain := by
        unfold nearInner
        rw [if_pos h2', List.getD_eq_getElem _ _ (by omega)]
        exact List.getElem_mem _
      have hm2 : nearInner domain ∈ domain.filter fun d => decide (d ≠ inner) := by
        simp [hmem, Ne.symm hni]
      have hnd2 : (domain.filter fun d => decide (d ≠ inner)).Nodup := hnd.filter _
      rw [prod_split hnd2 hm2]
      have : (((domain.filter fun d => decide (d ≠ inner)).filter fun d => decide (d ≠ nearInner domain)).map fun d =>
          (otherFolds domain req inner (vlen.tdiv (innerSz domain req inner vlen)) false d).getD 1).prod = 1 := by
        apply List.prod_eq_one
        intro x hx
        obtain ⟨d, hd, rfl⟩ := List.mem_map.1 hx
        simp only [List.mem_filter, decide_eq_true_eq] at hd
        unfold otherFolds
        simp [hd.2]
      rw [this]
      unfold otherFolds
      simp
  · exact ⟨_, rfl⟩
  · exact ⟨_, rfl⟩

/-- C73 fails if folding is not efficient on the target and the inner loop is in the last but one of several dims: every
request whose product is not the SIMD length, in particular none, is rejected ("internal fault"). -/
theorem C73_inner_loop_wrong (domain : List D) (hnd : domain.Nodup) (req : D → Option Int) (inner : D) (hin : inner ∈ domain)
    (hlen : 2 ≤ domain.length) (hnear : inner = nearInner domain) (vlen : Int) (hv : 1 < vlen)
    (hreq : ¬ IsFold domain vlen (requested req)) :
    setFold domain req inner vlen false = .throws := by
  simp only [funext fun d => requested_eq (req := req) (d := d)] at hreq
  have hne : (domain.map fun d => (reqLen req d).getD 1).prod ≠ vlen := fun h => hreq ⟨fun d _ => getD_one_pos d, h⟩
  rw [setFold_eq, if_pos ⟨hv, hne⟩, if_neg (by omega), if_pos]
  have hs := innerSz_spec (req := req) hin hv
  rw [prod_split hnd hin, if_pos rfl]
  have : ((domain.filter fun d => decide (d ≠ inner)).map fun d =>
      if d = inner then innerSz domain req inner vlen else
        (otherFolds domain req inner (vlen.tdiv (innerSz domain req inner vlen)) false d).getD 1).prod = 1 := by
    apply List.prod_eq_one
    intro x hx
    obtain ⟨d, hd, rfl⟩ := List.mem_map.1 hx
    simp only [List.mem_filter, decide_eq_true_eq] at hd
    unfold otherFolds
    simp [hd.2, ← hnear]
  rw [this]
  omega

/-- C73: requests whose product is the SIMD length are used, with length one in the other dims; and so is any request if
there are no SIMD instructions. -/
theorem C73_exact_request (domain : List D) (req : D → Option Int) (inner : D) (vlen : Int) (eff : Bool)
    (h : vlen ≤ 1 ∨ IsFold domain vlen (requested req)) :
    ∃ len, setFold domain req inner vlen eff = .ok (domain.map len) ∧ ∀ d ∈ domain, Kept req len d ∧
      ((∀ p, req d = some p → p < 1) → len d = 1) := by
  rw [funext fun d => requested_eq (req := req) (d := d)] at h
  refine ⟨fun d => (reqLen req d).getD 1, ?_, ?_⟩
  · rw [setFold_eq, if_neg]
    rintro ⟨h1, h2⟩
    rcases h with h | h
    · omega
    · exact h2 h.2
  · intro d _
    refine ⟨fun p hp h1 => ?_, fun hno => ?_⟩
    · simp only [reqLen_iff.2 ⟨hp, h1⟩, Option.getD_some]
    · cases hr : reqLen req d with
      | none => simp [hr]
      | some p =>
        obtain ⟨a, b⟩ := reqLen_iff.1 hr
        have := hno p a
        omega

/-- C73: if folding is efficient, requests are kept whenever they can be completed to a vector in the dims without request
other than the inner-loop dim.
What is missing: requests that can only be completed in the inner-loop dim, see `C73_completable_wrong`. -/
theorem C73_requests_kept_partial (domain : List D) (hnd : domain.Nodup) (req : D → Option Int) (inner : D)
    (hin : inner ∈ domain) (vlen : Int) (hv : 1 < vlen) (hlen : 2 ≤ domain.length)
    (h : ∃ w, IsFold domain vlen w ∧ (∀ d ∈ domain, Kept req w d) ∧ ((∀ p, req inner = some p → p < 1) → w inner = 1)) :
    ∃ len, setFold domain req inner vlen true = .ok (domain.map len) ∧ ∀ d ∈ domain, Kept req len d := by
  obtain ⟨fold, hf⟩ := C73_accepted_partial domain hnd req inner hin vlen true (.inr (.inl rfl))
  by_cases hex : (domain.map fun d => (reqLen req d).getD 1).prod = vlen
  · obtain ⟨len, h1, h2⟩ := C73_exact_request domain req inner vlen true (.inr (by
      rw [funext fun d => requested_eq (req := req) (d := d)]
      exact ⟨fun d _ => getD_one_pos d, hex⟩))
    exact ⟨len, h1, fun d hd => (h2 d hd).1⟩
  · have hf' := hf
    rw [setFold_eq, if_pos ⟨hv, hex⟩, if_neg (by omega)] at hf'
    split_ifs at hf' with h3
    refine ⟨_, by rw [hf, ← hf'], ?_⟩
    obtain ⟨w, hw, hk, hi⟩ := h
    have hs := innerSz_spec (req := req) hin hv
    -- the request is less than the SIMD length
    have hle : ∀ l : List D, (∀ d ∈ l, d ∈ domain) →
        (l.map fun d => (reqLen req d).getD 1).prod ≤ (l.map w).prod := by
      intro l
      induction l with
      | nil => intro _; simp
      | cons d l ih =>
        intro hl
        have ih := ih fun e he => hl e (by simp [he])
        rw [List.map_cons, List.map_cons, List.prod_cons, List.prod_cons]
        have h1 : (reqLen req d).getD 1 ≤ w d := by
          cases hr : reqLen req d with
          | none => simpa using hw.1 d (hl d (by simp))
          | some p =>
            obtain ⟨a, b⟩ := reqLen_iff.1 hr
            have := hk d (hl d (by simp)) p a b
            simp only [Option.getD_some]
            omega
        have h2 : 1 ≤ (l.map fun d => (reqLen req d).getD 1).prod :=
          prod_pos fun x hx => by obtain ⟨e, _, rfl⟩ := List.mem_map.1 hx; exact getD_one_pos e
        have h3 := getD_one_pos (req := req) d
        nlinarith
    have hlt : prodVals (domain.filterMap (reqLen req)) < vlen := by
      rw [prodVals_eq, ← prod_requested]
      have := hle domain fun _ h => h
      rw [hw.2] at this
      omega
    have hwsplit : vlen = w inner * ((domain.filter fun d => decide (d ≠ inner)).map w).prod := by
      rw [← hw.2, prod_split hnd hin]
    have hisz : innerSz domain req inner vlen = w inner := by
      unfold innerSz
      rw [if_pos hlt]
      cases hr : reqLen req inner with
      | none =>
        refine (hi fun p hp => ?_).symm
        by_contra hc
        rw [reqLen_iff.2 ⟨hp, by omega⟩] at hr
        cases hr
      | some p =>
        obtain ⟨a, b⟩ := reqLen_iff.1 hr
        have hwp := hk inner hin p a b
        simp only
        rw [if_pos]
        · exact hwp.symm
        · rw [hwsplit, hwp]
          exact Int.mul_tmod_right _ _
    have hupper : vlen.tdiv (innerSz domain req inner vlen) = ((domain.filter fun d => decide (d ≠ inner)).map w).prod := by
      have h1 := hs.2.2.1
      rw [hisz] at h1 ⊢
      have h2 := hw.1 inner hin
      have h3 : w inner * vlen.tdiv (w inner) = w inner * ((domain.filter fun d => decide (d ≠ inner)).map w).prod := by
        rw [← h1, ← hwsplit]
      exact Int.eq_of_mul_eq_mul_left (by omega) h3
    have hex2 : ∃ d ∈ domain, d ≠ inner := by
      by_contra hc
      push Not at hc
      have : domain = List.replicate domain.length inner := List.eq_replicate_of_mem hc
      rw [this] at hnd
      have := List.nodup_replicate.1 hnd
      omega
    obtain ⟨e1, _⟩ := others_eff hnd (req := req) hs.2.2.2 hex2
    set names := (domain.filter fun d => decide (d ≠ inner)).reverse with hnames
    set vals := names.map fun d => (reqLen req d).getD 0 with hvals
    have hmem : ∀ d, d ∈ names ↔ d ∈ domain ∧ d ≠ inner := by intro d; simp [hnames]
    have hkeep := (C33_keeps_request vals (vlen.tdiv (innerSz domain req inner vlen)) (by omega)
      (by
        obtain ⟨d, hd, hdi⟩ := hex2
        exact List.ne_nil_of_mem (List.mem_map.2 ⟨d, (hmem d).2 ⟨hd, hdi⟩, rfl⟩))
      (by
        intro v hv
        obtain ⟨d, _, rfl⟩ := List.mem_map.1 hv
        cases hr : reqLen req d with
        | none => simp
        | some p => have := reqLen_pos hr; simp; omega)
      ⟨names.map w, ⟨by simp [hvals], by
          intro x hx
          obtain ⟨d, hd, rfl⟩ := List.mem_map.1 hx
          have := hw.1 d ((hmem d).1 hd).1
          omega, by
          rw [hupper, hnames, List.map_reverse, List.prod_reverse]⟩, by
          unfold KeepsRequest
          rw [hvals, List.forall₂_map_left_iff, List.forall₂_map_right_iff, List.forall₂_same]
          intro d hd hpos
          cases hr : reqLen req d with
          | none => rw [hr] at hpos; simp at hpos
          | some p =>
            obtain ⟨a, b⟩ := reqLen_iff.1 hr
            simp only [Option.getD_some]
            exact hk d ((hmem d).1 hd).1 p a b⟩).2.1
    rw [← e1] at hkeep
    unfold KeepsRequest at hkeep
    rw [hvals, List.forall₂_map_left_iff, List.forall₂_map_right_iff, List.forall₂_same] at hkeep
    intro d hd p hp h1
    by_cases hdi : d = inner
    · subst hdi
      simp only [if_true]
      rw [hisz]
      exact hk d hd p hp h1
    · simp only [if_neg hdi]
      have := hkeep d ((hmem d).2 ⟨hd, hdi⟩)
      rw [reqLen_iff.2 ⟨hp, h1⟩] at this
      simpa using this (by simp; omega)

/-- The lengths that are used in some cases: nothing requested on a target with efficient folding and on one without; a
request that is completed; a request that is used as it is; a request that cannot be kept. -/
example :
    setFold ["x", "y", "z"] (fun _ => none) "z" 16 true = .ok [4, 4, 1] ∧
    setFold ["x", "y", "z"] (fun _ => none) "z" 8 false = .ok [1, 8, 1] ∧
    setFold ["x", "y", "z"] (fun d => if d = "z" then some 2 else none) "z" 16 true = .ok [2, 4, 2] ∧
    setFold ["x", "y", "z"] (fun d => if d = "z" then some 8 else none) "z" 8 false = .ok [1, 1, 8] ∧
    setFold ["x", "y", "z"] (fun d => if d = "x" then some 3 else none) "z" 16 true = .ok [4, 4, 1] := by
  decide +kernel

/-- `C73_inner_loop_wrong` applies to three dims with the inner loop in y. -/
example : setFold ["x", "y", "z"] (fun _ => none) (innerDim ["x", "y", "z"] (.name "y")) 8 false = .throws := by
  decide +kernel

/-- C73 fails for requests that can be completed only in the inner-loop dim: in two dims with SIMD length 8, the request of 4 in
x is replaced by 8, although 4 in x and 2 in y would keep it. -/
theorem C73_completable_wrong :
    setFold ["x", "y"] (fun d => if d = "x" then some 4 else none) "y" 8 true = .ok [8, 1] ∧
    IsFold ["x", "y"] 8 (fun d => if d = "x" then 4 else 2) := by
  refine ⟨by decide +kernel, ?_, by decide⟩
  intro d _
  dsimp only
  split_ifs <;> omega

end Yask
