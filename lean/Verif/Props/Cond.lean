import Verif.Compiler.CondEval

/-!
# Properties of the conditions of equations in generated code

* C85: the functions generated for the sub-domain and step conditions of an equation are true exactly where the conditions hold, and
  the function generated for the output step gives the step that is written.
-/

namespace Yask
open Spec.Cpp (Op InRange)
open Spec.Cond Comp Comp.CondL

section
variable {π : Type}

/-- C85 (part, sub-domains): for all conditions, sizes of the overall problem and points: if the condition has none of the cases of
`C85_wrong` at the point (`Cd.Plain`), then the generated function is accepted, its run is defined, and it returns `true` if and only if
the condition holds at the point.
Missing: the cases excluded by `Cd.Plain`, for most of which the property is false. -/
theorem C85_partial (rnd : ℚ → ℚ) (nd : Nat) (size : Nat → Int) (data : π → ℚ) (c : Cd π) (idxs : Nat → Int)
    (h : c.Plain true rnd ⟨fun d => if d < nd then some (idxs d) else none, size, data⟩) :
    ∃ b, inValidDomain rnd nd size data (some c) idxs = .ok b ∧
      c.holds ⟨fun d => if d < nd then some (idxs d) else none, size, data⟩ = some b := by
  obtain ⟨t, b, h1, h2, h3⟩ := textVal_ok h
  refine ⟨b, ?_, h2⟩
  unfold inValidDomain
  show (condText true c >>= fun t => textVal rnd _ t >>= fun v => .ok v.truth) = _
  rw [h1]
  show (textVal rnd _ t >>= fun v => .ok v.truth) = _
  rw [h3]; rfl

/-- C85 (part, steps): the same for step conditions, which can use values of vars. -/
theorem C85_step_partial (rnd : ℚ → ℚ) (sd : Nat) (size : Nat → Int) (data : π → ℚ) (c : Cd π) (t : Int)
    (h : c.Plain false rnd ⟨fun d => if d = sd then some t else none, size, data⟩) :
    ∃ b, inValidStep rnd sd size data (some c) t = .ok b ∧
      c.holds ⟨fun d => if d = sd then some t else none, size, data⟩ = some b := by
  obtain ⟨x, b, h1, h2, h3⟩ := textVal_ok h
  refine ⟨b, ?_, h2⟩
  unfold inValidStep
  show (condText false c >>= fun t => textVal rnd _ t >>= fun v => .ok v.truth) = _
  rw [h1]
  show (textVal rnd _ x >>= fun v => .ok v.truth) = _
  rw [h3]; rfl

/-- C85 (no conditions): an equation without conditions is evaluated at all points and in all steps. -/
theorem C85_none (rnd : ℚ → ℚ) (nd sd : Nat) (size : Nat → Int) (data : π → ℚ) (idxs : Nat → Int) (t : Int) :
    inValidDomain rnd nd size data none idxs = .ok true ∧ inValidStep rnd sd size data none t = .ok true := ⟨rfl, rfl⟩

/-- The condition `first_index(d) + a <= d && d <= last_index(d) - b`. -/
def interval (d : Nat) (a b : Int) : Cd π :=
  .and (.cmp .ge (.idx d) (.comm .add [.first d, .const a])) (.cmp .le (.idx d) (.bin .sub (.last d) (.const b)))

/-- C85 (intervals, as in the description of the API): for all dimensions, sizes and widths that are not close to the limits of the
integer types, and all points, the function generated for the sub-domain whose points are at least `a` from the first and `b` from
the last index returns `true` exactly in the interval. -/
theorem C85_interval (rnd : ℚ → ℚ) (nd : Nat) (size : Nat → Int) (data : π → ℚ) (d : Nat) (a b : Int) (idxs : Nat → Int) (hd : d < nd)
    (ha : |a| < 2 ^ 31) (hb : |b| < 2 ^ 31) (hs : 0 < size d ∧ size d < 2 ^ 62) (hi : |idxs d| < 2 ^ 62) :
    inValidDomain rnd nd size data (some (interval d a b)) idxs = .ok (decide (a ≤ idxs d ∧ idxs d ≤ size d - 1 - b)) := by
  have fa := abs_lt.mp ha
  have fb := abs_lt.mp hb
  have fi := abs_lt.mp hi
  have qa : |(a : ℚ)| < 2 ^ 31 := by exact_mod_cast ha
  have qb : |(b : ℚ)| < 2 ^ 31 := by exact_mod_cast hb
  have ga := abs_lt.mp qa
  have gb := abs_lt.mp qb
  have ta : decide ((a : ℚ) = -(2 ^ 31)) = false := by
    apply decide_eq_false; intro e; rw [e] at ga; exact lt_irrefl _ ga.1
  have tb : decide ((b : ℚ) = -(2 ^ 31)) = false := by
    apply decide_eq_false; intro e; rw [e] at gb; exact lt_irrefl _ gb.1
  have r1 : InRange false a := by show -(2 ^ 31) ≤ a ∧ a < 2 ^ 31; omega
  have r2 : ∀ n : Int, -(2 ^ 63) ≤ n → n < 2 ^ 63 → InRange true n := fun n h1 h2 => ⟨h1, h2⟩
  have vl : (Num.last d : Num π).value ⟨fun d => if d < nd then some (idxs d) else none, size, data⟩ = some ((size d - 1 : Int) : ℚ) := by
    rw [Num.value]
  have vi : (Num.idx d : Num π).value ⟨fun d => if d < nd then some (idxs d) else none, size, data⟩ = some (idxs d : ℚ) := by
    rw [Num.value]; simp [hd]
  have vc : ∀ n : Int, (Num.const n : Num π).value ⟨fun d => if d < nd then some (idxs d) else none, size, data⟩ = some (n : ℚ) := fun n => by
    rw [Num.value]
  have tyc : ∀ n : Int, decide ((n : ℚ) = -(2 ^ 31)) = false → (Num.const n : Num π).ty = some false := fun n h => by
    rw [Num.ty, if_pos (Rat.den_intCast n), h]
  have pc : ∀ n : Int, |(n : ℚ)| < 2 ^ 31 →
      (Num.const n : Num π).Plain true rnd ⟨fun d => if d < nd then some (idxs d) else none, size, data⟩ := fun n h => by
    have := abs_lt.mp h
    rw [Num.Plain]
    exact ⟨by linarith, this.2, fun h => absurd (Rat.den_intCast n) h⟩
  have pi : (Num.idx d : Num π).Plain true rnd ⟨fun d => if d < nd then some (idxs d) else none, size, data⟩ := by
    rw [Num.Plain]
    exact ⟨idxs d, by simp [hd], r2 _ (by omega) (by omega)⟩
  have hp : (interval d a b : Cd π).Plain true rnd ⟨fun d => if d < nd then some (idxs d) else none, size, data⟩ := by
    refine ⟨⟨pi, ?_, ?_⟩, pi, ?_, ?_⟩
    · rw [Num.Plain]
      refine ⟨trivial, 0, by rw [Num.value], ?_⟩
      rw [Num.PlainFold]
      refine ⟨pc a qa, a, (0 : ℚ) + a, vc a, rfl, ?_, ?_⟩
      · rw [tyc a ta, Num.ty]
        refine ⟨(by simp), (by simp), ?_⟩
        have : ((0 : ℚ) + a).num = a := by rw [zero_add]; exact Rat.num_intCast a
        rw [this]; exact r1
      · rw [Num.PlainFold]; trivial
    · rw [Num.ty, Num.ty, Num.tyFold, Num.tyFold, tyc a ta, Num.ty]
      rintro (h | h) <;> cases h
    · rw [Num.Plain]
      refine ⟨?_, pc b qb, _, _, _, vl, vc b, rfl, ?_⟩
      · rw [Num.Plain]; exact ⟨r2 (size d) (by omega) (by omega), r2 (size d - 1) (by omega) (by omega)⟩
      · rw [tyc b tb, Num.ty]
        refine ⟨(by simp), (by simp), ?_⟩
        have : (((size d - 1 : Int) : ℚ) - b).num = size d - 1 - b := by
          have e : ((size d - 1 : Int) : ℚ) - b = ((size d - 1 - b : Int) : ℚ) := by push_cast; rfl
          rw [e]; exact Rat.num_intCast _
        rw [this]; exact r2 _ (by omega) (by omega)
    · rw [Num.ty, Num.ty, tyc b tb, Num.ty]
      rintro (h | h) <;> cases h
  obtain ⟨x, h1, h2⟩ := C85_partial rnd nd size data _ idxs hp
  rw [h1]
  congr 1
  have v1 : (Num.comm .add [.first d, .const a] : Num π).value ⟨fun d => if d < nd then some (idxs d) else none, size, data⟩ =
      some (a : ℚ) := by
    rw [Num.value, Num.value]
    simp only
    rw [Num.foldValue, vc a]
    simp only [opVal, zero_add]
    rw [Num.foldValue]
  have v2 : (Num.bin .sub (.last d) (.const b) : Num π).value ⟨fun d => if d < nd then some (idxs d) else none, size, data⟩ =
      some ((size d - 1 - b : Int) : ℚ) := by
    rw [Num.value, vl, vc b]
    simp only [opVal]
    push_cast; rfl
  rw [interval, Cd.holds, Cd.holds, Cd.holds, vi, v1, v2] at h2
  simp only [Cmp.holds, Int.cast_le] at h2
  by_cases q : a ≤ idxs d
  · simp only [q, decide_true] at h2
    injection h2 with h2
    rw [← h2]; simp [q]
  · simp only [q, decide_false] at h2
    injection h2 with h2
    rw [← h2]; simp [q]

/-- C85 (periodic steps, as in the description of the API): for all periods and remainders, in each step that is not negative, the function
generated for the condition `t % k == r` returns `true` exactly if the remainder of the step is `r`. -/
theorem C85_period (rnd : ℚ → ℚ) (sd : Nat) (size : Nat → Int) (data : π → ℚ) (k r t : Int) (hk : 0 < k ∧ k < 2 ^ 31) (hr : 0 ≤ r ∧ r < 2 ^ 31)
    (ht : 0 ≤ t ∧ t < 2 ^ 63) :
    inValidStep rnd sd size data (some (.cmp .eq (.bin .mod (.idx sd) (.const k)) (.const r))) t = .ok (decide (t % k = r)) := by
  have vi : (Num.idx sd : Num π).value ⟨fun d => if d = sd then some t else none, size, data⟩ = some (t : ℚ) := by
    rw [Num.value]; simp
  have vc : ∀ n : Int, (Num.const n : Num π).value ⟨fun d => if d = sd then some t else none, size, data⟩ = some (n : ℚ) := fun n => by
    rw [Num.value]
  have tyc : ∀ n : Int, 0 ≤ n → (Num.const n : Num π).ty = some false := fun n h => by
    rw [Num.ty, if_pos (Rat.den_intCast n)]
    congr 1
    apply decide_eq_false
    intro e
    have : n = -(2 ^ 31) := by exact_mod_cast e
    omega
  have pc : ∀ n : Int, 0 ≤ n ∧ n < 2 ^ 31 → (Num.const n : Num π).Plain false rnd ⟨fun d => if d = sd then some t else none, size, data⟩ :=
    fun n h => by
      rw [Num.Plain]
      have h1 : (0 : ℚ) ≤ n := by exact_mod_cast h.1
      have h2 : (n : ℚ) < 2 ^ 31 := by exact_mod_cast h.2
      exact ⟨by linarith, h2, fun h => absurd (Rat.den_intCast n) h⟩
  have hm : opVal .mod (t : ℚ) k = some ((t % k : Int) : ℚ) := by
    simp only [opVal, toInt_int]
    rw [if_neg (by omega), Int.fmod_eq_emod_of_nonneg _ (by omega)]
  have e1 := Int.emod_nonneg t (show k ≠ 0 by omega)
  have e2 := Int.emod_lt_of_pos t hk.1
  have hp : (Cd.cmp .eq (.bin .mod (.idx sd) (.const k)) (.const r) : Cd π).Plain false rnd
      ⟨fun d => if d = sd then some t else none, size, data⟩ := by
    refine ⟨?_, pc r hr, ?_⟩
    · rw [Num.Plain]
      refine ⟨?_, pc k ⟨by omega, hk.2⟩, _, _, _, vi, vc k, hm, ?_⟩
      · rw [Num.Plain]
        exact ⟨t, by simp, show -(2 ^ 63) ≤ t ∧ t < 2 ^ 63 by omega⟩
      · rw [tyc k (by omega), Num.ty]
        refine ⟨fun _ => ⟨by exact_mod_cast ht.1, by exact_mod_cast hk.1⟩, by simp, ?_⟩
        rw [Rat.num_intCast]
        show -(2 ^ 63) ≤ t % k ∧ t % k < 2 ^ 63
        omega
    · rw [tyc r hr.1, Num.ty, tyc k (by omega), Num.ty]
      rintro (h | h) <;> cases h
  obtain ⟨x, h1, h2⟩ := C85_step_partial rnd sd size data _ t hp
  rw [h1]
  have v2 : (Num.bin .mod (.idx sd) (.const k) : Num π).value ⟨fun d => if d = sd then some t else none, size, data⟩ =
      some ((t % k : Int) : ℚ) := by
    rw [Num.value, vi, vc k]; exact hm
  rw [Cd.holds, v2, vc r] at h2
  injection h2 with h2
  rw [← h2]
  simp [Cmp.holds]

/-- C85 (output steps): for all steps and offsets that are not close to the limits of the integer types, the function generated for the step
that an equation writes gives that step, in each of the forms in which it can be written; without a step index the function returns
`false`. -/
theorem C85_output (rnd : ℚ → ℚ) (sd : Nat) (t n : Int) (ht : |t| < 2 ^ 62) (hn : |n| < 2 ^ 31) :
    outputStep (π := π) rnd sd (some (.idx sd)) t = .ok (some t) ∧
    outputStep (π := π) rnd sd (some (.comm .add [.idx sd, .const n])) t = .ok (some (t + n)) ∧
    outputStep (π := π) rnd sd (some (.comm .add [.const n, .idx sd])) t = .ok (some (n + t)) ∧
    outputStep (π := π) rnd sd (some (.bin .sub (.idx sd) (.const n))) t = .ok (some (t - n)) ∧
    outputStep (π := π) rnd sd none t = .ok none := by
  have ft := abs_lt.mp ht
  have fn := abs_lt.mp hn
  have qn : |(n : ℚ)| < 2 ^ 31 := by exact_mod_cast hn
  have gn := abs_lt.mp qn
  let E : Env π := ⟨fun d => if d = sd then some t else none, fun _ => 0, fun _ => 0⟩
  have r2 : ∀ n : Int, -(2 ^ 63) ≤ n → n < 2 ^ 63 → InRange true n := fun n h1 h2 => ⟨h1, h2⟩
  have vi : (Num.idx sd : Num π).value E = some (t : ℚ) := by rw [Num.value]; simp [E]
  have vc : (Num.const n : Num π).value E = some (n : ℚ) := by rw [Num.value]
  have tyc : (Num.const n : Num π).ty = some false := by
    rw [Num.ty, if_pos (Rat.den_intCast n)]
    congr 1
    apply decide_eq_false
    intro e
    rw [e] at gn; exact lt_irrefl _ gn.1
  have pc : (Num.const n : Num π).Plain true rnd E := by
    rw [Num.Plain]
    exact ⟨by linarith, gn.2, fun h => absurd (Rat.den_intCast n) h⟩
  have pi : (Num.idx sd : Num π).Plain true rnd E := by
    rw [Num.Plain]
    exact ⟨t, by simp [E], r2 _ (by omega) (by omega)⟩
  have key : ∀ (e : Num π) (l : Bool) (m : Int), e.Plain true rnd E → e.ty = some l → e.value E = some (m : ℚ) →
      (∀ x, numText true e = .ok x → x.map noSizes = x) → outputStep rnd sd (some e) t = .ok (some m) := by
    intro e l m h1 h2 h3 h4
    obtain ⟨x, v, e1, e2, ce, o, _, y, ey, vy⟩ := numText_ok e h1
    rw [h3] at e2; injection e2 with e2; subst e2
    rw [h2] at vy
    obtain ⟨k, rfl, hk⟩ := vy
    have hk' : m = k := by exact_mod_cast hk
    subst hk'
    have hx := h4 x e1
    unfold outputStep
    show (numText true e >>= fun x => textVal rnd E (x.map noSizes) >>= fun v => _) = _
    rw [e1]
    show (textVal rnd E (x.map noSizes) >>= fun v => _) = _
    rw [hx]
    have : textVal rnd E x = .ok (.int l m) := by
      unfold textVal
      rw [parse_utext o.text]
      show (ce.eval rnd E E.idx >>= fun x => .ok x.1) = _
      rw [ey]; rfl
    rw [this]; rfl
  have cn : ∀ x, condConst (π := π) true (n : ℚ) = .ok x → x.map noSizes = x := by
    intro x hx
    unfold condConst at hx
    split_ifs at hx <;> (injection hx with hx; subst hx; simp [noSizes, signed]) <;> split_ifs <;> simp [noSizes]
  obtain ⟨tc, hc, _⟩ := condConst_ok pc
  have hcn := cn tc hc
  have hop : ∀ o : BOp, (condOp (π := π) o).map noSizes = condOp o := fun o => rfl
  refine ⟨key _ true t pi (by rw [Num.ty]) vi ?_, key _ true (t + n) ?_ ?_ ?_ ?_, key _ true (n + t) ?_ ?_ ?_ ?_,
    key _ true (t - n) ?_ ?_ ?_ ?_, rfl⟩
  · intro x hx
    rw [numText] at hx; injection hx with hx; subst hx; rfl
  · rw [Num.Plain]
    refine ⟨pi, _, vi, ?_⟩
    rw [Num.PlainFold]
    refine ⟨pc, _, _, vc, rfl, ?_, by rw [Num.PlainFold]; trivial⟩
    rw [tyc, Num.ty]
    refine ⟨by simp, by simp, ?_⟩
    have : ((t : ℚ) + n).num = t + n := by
      have e : (t : ℚ) + n = ((t + n : Int) : ℚ) := by push_cast; rfl
      rw [e]; exact Rat.num_intCast _
    rw [this]; exact r2 _ (by omega) (by omega)
  · rw [Num.ty, Num.ty, Num.tyFold, Num.tyFold, tyc]; rfl
  · rw [Num.value, vi]
    simp only
    rw [Num.foldValue, vc]
    simp only [opVal]
    rw [Num.foldValue]; push_cast; rfl
  · intro x hx
    have e : numText true (Num.comm .add [.idx sd, .const n] : Num π) =
        .ok (.lpar :: (condJoin (.ar .add) [[.word sd], tc] ++ [.rpar])) := by
      rw [numText, numTexts, numText, numTexts, numText, hc, numTexts]; rfl
    rw [e] at hx; injection hx with hx; subst hx
    simp [condJoin, hop, hcn, noSizes]
  · rw [Num.Plain]
    refine ⟨pc, _, vc, ?_⟩
    rw [Num.PlainFold]
    refine ⟨pi, _, _, vi, rfl, ?_, by rw [Num.PlainFold]; trivial⟩
    rw [tyc, Num.ty]
    refine ⟨by simp, by simp, ?_⟩
    have : ((n : ℚ) + t).num = n + t := by
      have e : (n : ℚ) + t = ((n + t : Int) : ℚ) := by push_cast; rfl
      rw [e]; exact Rat.num_intCast _
    rw [this]; exact r2 _ (by omega) (by omega)
  · rw [Num.ty, Num.tyFold, Num.tyFold, tyc, Num.ty]; rfl
  · rw [Num.value, vc]
    simp only
    rw [Num.foldValue, vi]
    simp only [opVal]
    rw [Num.foldValue]; push_cast; rfl
  · intro x hx
    have e : numText true (Num.comm .add [.const n, .idx sd] : Num π) =
        .ok (.lpar :: (condJoin (.ar .add) [tc, [.word sd]] ++ [.rpar])) := by
      rw [numText, numTexts, numText, hc, numTexts, numText, numTexts]; rfl
    rw [e] at hx; injection hx with hx; subst hx
    simp [condJoin, hop, hcn, noSizes]
  · rw [Num.Plain]
    refine ⟨pi, pc, _, _, _, vi, vc, rfl, ?_⟩
    rw [tyc, Num.ty]
    refine ⟨by simp, by simp, ?_⟩
    have : ((t : ℚ) - n).num = t - n := by
      have e : (t : ℚ) - n = ((t - n : Int) : ℚ) := by push_cast; rfl
      rw [e]; exact Rat.num_intCast _
    rw [this]; exact r2 _ (by omega) (by omega)
  · rw [Num.ty, tyc, Num.ty]; rfl
  · rw [Num.value, vi, vc]
    simp only [opVal]
    push_cast; rfl
  · intro x hx
    have e : numText true (Num.bin .sub (.idx sd) (.const n) : Num π) =
        .ok (.lpar :: ([.word sd] ++ condOp (.ar .sub) ++ tc ++ [.rpar])) := by
      rw [numText, numText, numText, hc]; rfl
    rw [e] at hx; injection hx with hx; subst hx
    simp [hop, hcn, noSizes]

end

/-! ## Where the property is false -/

namespace CondExample

/-- One index `x` (dimension 0) in a problem of size 8. -/
def env (x : Int) : Env Empty := ⟨fun d => if d < 1 then some x else none, fun _ => 8, fun p => p.elim⟩

/-- The generated function for a sub-domain. -/
def run (c : Cd Empty) (x : Int) : Outcome Bool := inValidDomain id 1 (fun _ => 8) (fun p => p.elim) (some c) fun _ => x

/-- `(x - 5) % 2 == 1` -/
def cMod : Cd Empty := .cmp .eq (.bin .mod (.bin .sub (.idx 0) (.const 5)) (.const 2)) (.const 1)
/-- `x / 2 == 1` -/
def cDiv : Cd Empty := .cmp .eq (.bin .div (.idx 0) (.const 2)) (.const 1)
/-- `-(-x) == 3` -/
def cNeg : Cd Empty := .cmp .eq (.neg (.neg (.idx 0))) (.const 3)
/-- `-(-x) == x` -/
def cNegX : Cd Empty := .cmp .eq (.neg (.neg (.idx 0))) (.idx 0)
/-- `x == -(-5)` -/
def cNeg5 : Cd Empty := .cmp .eq (.idx 0) (.neg (.const (-5)))
/-- `x <= 2.9999999` -/
def cDec : Cd Empty := .cmp .le (.idx 0) (.const (29999999 / 10000000))
/-- `x < 3000000000` -/
def cBig : Cd Empty := .cmp .lt (.idx 0) (.const 3000000000)
/-- `x % 2.5 == 1` -/
def cModReal : Cd Empty := .cmp .eq (.bin .mod (.idx 0) (.const (5 / 2))) (.const 1)

end CondExample

open CondExample in
/-- C85 is false in general: the remainder of a negative number has another sign, a quotient of integers is truncated, two adjacent minus signs
decrement the index or make the code undefined or not acceptable to the C++ compiler, digits of constants are lost, a constant that is
not in the range of `int` is undefined, and a remainder by a constant that is not an integer is not accepted. -/
theorem C85_wrong :
    (cMod.holds (env 2) = some true ∧ run cMod 2 = .ok false) ∧
    (cDiv.holds (env 3) = some false ∧ run cDiv 3 = .ok true) ∧
    (cNeg.holds (env 3) = some true ∧ run cNeg 3 = .ok false) ∧
    (cNegX.holds (env 3) = some true ∧ run cNegX 3 = .undefined) ∧
    (cNeg5.holds (env 5) = some true ∧ run cNeg5 5 = .throws) ∧
    (cDec.holds (env 3) = some false ∧ run cDec 3 = .ok true) ∧
    (cBig.holds (env 3) = some true ∧ run cBig 3 = .undefined) ∧
    (cModReal.holds (env 3) = some true ∧ run cModReal 3 = .throws) := by
  decide +kernel

/-! ## Example -/

namespace CondExample

/-- `!(x < first_index(x) + 2) && (x <= last_index(x) - 1 || x * 2 == 14)` -/
def good : Cd Empty :=
  .and (.not (.cmp .lt (.idx 0) (.comm .add [.first 0, .const 2])))
    (.or (.cmp .le (.idx 0) (.bin .sub (.last 0) (.const 1))) (.cmp .eq (.comm .mul [.idx 0, .const 2]) (.const 14)))

/-- The condition is plain at all points of the problem, it holds at some and not at others, and the generated function says so. -/
example : (∀ x, 0 ≤ x → x < 8 → good.Plain true id (env x)) ∧ run good 1 = .ok false ∧ run good 2 = .ok true ∧ run good 7 = .ok true ∧
    run good 8 = .ok false := by
  refine ⟨fun x h1 h2 => ?_, by decide +kernel⟩
  have : x = 0 ∨ x = 1 ∨ x = 2 ∨ x = 3 ∨ x = 4 ∨ x = 5 ∨ x = 6 ∨ x = 7 := by omega
  rcases this with rfl | rfl | rfl | rfl | rfl | rfl | rfl | rfl <;>
    norm_num [good, env, Cd.Plain, Num.Plain, Num.PlainFold, Num.ty, Num.tyFold, joinTy, Num.value, Num.foldValue, opVal, OpOk, InRange]

end CondExample

end Yask
