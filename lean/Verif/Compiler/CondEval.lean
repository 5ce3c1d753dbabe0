import Verif.Compiler.CondLemmas

/-! # The printed conditions have the values of the conditions -/

namespace Yask.Comp
open Spec.Cpp (Op InRange intBin)
open Spec.Cond

namespace CondL
section
variable {π : Type}

theorem eval_ar {rnd : ℚ → ℚ} {E : Env π} {op : Op} {a b : CE π} (ha : a.mods = []) (hb : b.mods = []) {x y u : Val}
    (ea : a.eval rnd E E.idx = .ok (x, E.idx)) (eb : b.eval rnd E E.idx = .ok (y, E.idx)) (hu : arVal rnd op x y = .ok u) :
    (CE.bin (.ar op) a b).eval rnd E E.idx = .ok (u, E.idx) := by
  rw [CE.eval, conflict_pure ha hb, ea]
  show (b.eval rnd E E.idx >>= fun y => arVal rnd op x y.1 >>= fun v => .ok (v, y.2)) = _
  rw [eb]
  show (arVal rnd op x y >>= fun v => .ok (v, E.idx)) = _
  rw [hu]; rfl

theorem eval_cmp {rnd : ℚ → ℚ} {E : Env π} {o : Cmp} {a b : CE π} (ha : a.mods = []) (hb : b.mods = []) {x y : Val}
    (ea : a.eval rnd E E.idx = .ok (x, E.idx)) (eb : b.eval rnd E E.idx = .ok (y, E.idx)) :
    (CE.bin (.cmp o) a b).eval rnd E E.idx = .ok (cmpVal rnd o x y, E.idx) := by
  rw [CE.eval, conflict_pure ha hb, ea]
  show (b.eval rnd E E.idx >>= fun y => .ok (cmpVal rnd o x y.1, y.2)) = _
  rw [eb]; rfl

theorem eval_neg {rnd : ℚ → ℚ} {E : Env π} {a : CE π} {x u : Val} (ea : a.eval rnd E E.idx = .ok (x, E.idx)) (hu : negVal x = .ok u) :
    (CE.neg a).eval rnd E E.idx = .ok (u, E.idx) := by
  rw [CE.eval, ea]
  show (negVal x >>= fun v => .ok (v, E.idx)) = _
  rw [hu]; rfl

mutual
/-- The text of a plain number. -/
theorem numText_ok {dom : Bool} {rnd : ℚ → ℚ} {E : Env π} : ∀ (n : Num π), n.Plain dom rnd E →
    ∃ t v, numText dom n = .ok t ∧ n.value E = some v ∧ TextOk rnd E n.Minus n.ty v t
  | .const q, h => by
    obtain ⟨t, h1, h2⟩ := condConst_ok h
    exact ⟨t, q, by rw [numText]; exact h1, by rw [Num.value], h2⟩
  | .idx d, h => by
    rw [Num.Plain] at h
    obtain ⟨n, hn, _⟩ := h
    refine ⟨_, n, by rw [numText], by rw [Num.value, hn]; rfl, .var d, opd_word d, ⟨_, _, rfl, fun h => by cases h⟩, .int true n, ?_, ?_⟩
    · rw [CE.eval, hn]
    · rw [Num.ty]; exact ⟨n, rfl, rfl⟩
  | .first d, _ => by
    refine ⟨_, 0, by rw [numText], by rw [Num.value], .int 0, ?_, ⟨_, _, rfl, fun h => by cases h⟩, .int false 0, rfl, ?_⟩
    · have := (opd_int (π := π) 0).fold .or [] (by simp)
      simpa [condJoin] using this
    · rw [Num.ty]; exact ⟨0, rfl, by simp⟩
  | .last d, h => by
    rw [Num.Plain] at h
    refine ⟨.lpar :: .size d :: (condOp (.ar .sub) ++ [.intLit 1, .rpar]), _, by rw [numText]; rfl, by rw [Num.value],
      .bin (.ar .sub) (.size d) (.int 1), ?_, ⟨_, _, rfl, fun h => by cases h⟩,
      .int true (E.size d - 1), ?_, ?_⟩
    · simpa [List.append_assoc] using (opd_size (π := π) d).bin (.ar .sub) (opd_int 1)
    · refine eval_ar (x := .int true (E.size d)) (y := .int false 1) rfl rfl (by rw [CE.eval]) rfl ?_
      show mkInt true (E.size d - 1) = _
      unfold mkInt
      rw [if_pos h.2]
    · rw [Num.ty]; exact ⟨_, rfl, rfl⟩
  | .read p, h => by
    rw [Num.Plain] at h
    subst h
    refine ⟨[.read p], _, by rw [numText]; rfl, by rw [Num.value], .read p, opd_read p, ⟨_, _, rfl, fun h => by cases h⟩, .real (E.data p), ?_, ?_⟩
    · rw [CE.eval]
    · rw [Num.ty]; rfl
  | .neg a, h => by
    rw [Num.Plain] at h
    obtain ⟨h1, h2, h3⟩ := h
    obtain ⟨t, v, e1, e2, ce, o, ⟨p, r, rfl, hp⟩, x, ex, vx⟩ := numText_ok a h1
    have hp' : p ≠ .op (.ar .sub) := fun e => h2 (hp e)
    obtain ⟨u, hu, vu⟩ := negVal_ok vx fun l hl => h3 l v hl e2
    refine ⟨.op (.ar .sub) :: p :: r, -v, by rw [numText, e1]; rfl, by rw [Num.value, e2]; rfl, .neg ce, o.neg hp',
      ⟨_, _, rfl, fun _ => ?_⟩, u, eval_neg ex hu, ?_⟩
    · trivial
    · rw [Num.ty]; exact vu
  | .bin op l r, h => by
    rw [Num.Plain] at h
    obtain ⟨h1, h2, a, b, c, va, vb, hc, ho⟩ := h
    obtain ⟨t, v, e1, e2, ce, o, _, x, ex, vx⟩ := numText_ok l h1
    obtain ⟨t', v', e1', e2', ce', o', _, x', ex', vx'⟩ := numText_ok r h2
    rw [va] at e2; injection e2 with e2; subst e2
    rw [vb] at e2'; injection e2' with e2'; subst e2'
    obtain ⟨u, hu, vu⟩ := arVal_ok vx vx' hc ho
    refine ⟨.lpar :: (t ++ condOp (.ar op) ++ t' ++ [.rpar]), c, by rw [numText, e1, e1']; rfl, by rw [Num.value, va, vb]; exact hc,
      .bin (.ar op) ce ce', o.bin (.ar op) o', ⟨_, _, rfl, fun h => by cases h⟩, u, eval_ar o.pure o'.pure ex ex' hu, ?_⟩
    rw [Num.ty]; exact vu
  | .comm op [], h => by rw [Num.Plain] at h; exact h.elim
  | .comm op (a :: as), h => by
    rw [Num.Plain] at h
    obtain ⟨h1, v, hv, h2⟩ := h
    obtain ⟨t, v', e1, e2, ce, o, _, x, ex, vx⟩ := numText_ok a h1
    rw [hv] at e2; injection e2 with e2; subst e2
    obtain ⟨l, u, f1, f2, f3, f4⟩ := numTexts_ok op as _ v ce x h2 o.pure ex vx
    obtain ⟨y, ey, vy⟩ := f4
    refine ⟨.lpar :: (condJoin (.ar op) (t :: l.map (·.1)) ++ [.rpar]), u, ?_, by rw [Num.value, hv]; exact f2,
      l.foldl (fun c x => .bin (.ar op) c x.2) ce, o.fold (.ar op) l f3, ⟨_, _, rfl, fun h => by cases h⟩, y, ey, ?_⟩
    · rw [numText, numTexts, e1, f1]; rfl
    · rw [Num.ty]; exact vy
/-- The texts of the operands of a plain sum or product. -/
theorem numTexts_ok {dom : Bool} {rnd : ℚ → ℚ} {E : Env π} (op : Op) : ∀ (as : List (Num π)) (ty : Option Bool) (v : ℚ) (c : CE π) (x : Val),
    Num.PlainFold dom rnd E op ty v as → c.mods = [] → c.eval rnd E E.idx = .ok (x, E.idx) → ValOk ty v x →
    ∃ (l : List (List (Piece π) × CE π)) (u : ℚ), numTexts dom as = .ok (l.map (·.1)) ∧ Num.foldValue E op v as = some u ∧
      (∀ y ∈ l, Opd y.1 y.2) ∧ ∃ y, (l.foldl (fun c x => CE.bin (.ar op) c x.2) c).eval rnd E E.idx = .ok (y, E.idx) ∧
        ValOk (Num.tyFold ty as) u y
  | [], ty, v, c, x, _, _, hx, hv => ⟨[], v, by rw [numTexts]; rfl, by rw [Num.foldValue], by simp, x, hx, by rw [Num.tyFold]; exact hv⟩
  | a :: as, ty, v, c, x, h, hc, hx, hv => by
    rw [Num.PlainFold] at h
    obtain ⟨h1, w, u, hw, hu, ho, h2⟩ := h
    obtain ⟨t, v', e1, e2, ce, o, _, x', ex', vx'⟩ := numText_ok a h1
    rw [hw] at e2; injection e2 with e2; subst e2
    obtain ⟨z, hz, vz⟩ := arVal_ok hv vx' hu ho
    have ez := eval_ar hc o.pure hx ex' hz
    obtain ⟨l, u', f1, f2, f3, y, ey, vy⟩ := numTexts_ok op as _ u (.bin (.ar op) c ce) z h2 (by simp [CE.mods, hc, o.pure]) ez vz
    refine ⟨(t, ce) :: l, u', by rw [numTexts, e1, f1]; rfl, by rw [Num.foldValue, hw]; simp only [hu]; exact f2, ?_, y, ey, ?_⟩
    · intro y hy
      rcases List.mem_cons.mp hy with rfl | hy
      · exact o
      · exact f3 y hy
    · rw [Num.tyFold]; exact vy
end

/-- The value of a plain number is given. -/
theorem plain_value {dom : Bool} {rnd : ℚ → ℚ} {E : Env π} {n : Num π} (h : n.Plain dom rnd E) : ∃ v, n.value E = some v := by
  obtain ⟨_, v, _, hv, _⟩ := numText_ok n h
  exact ⟨v, hv⟩

/-- The text of a plain condition. -/
theorem condText_ok {dom : Bool} {rnd : ℚ → ℚ} {E : Env π} : ∀ (c : Cd π), c.Plain dom rnd E →
    ∃ t b ce, condText dom c = .ok t ∧ c.holds E = some b ∧ Opd t ce ∧ ce.eval rnd E E.idx = .ok (.bool b, E.idx)
  | .cmp o l r, h => by
    obtain ⟨h1, h2, h3⟩ := h
    obtain ⟨t, v, e1, e2, ce, o1, _, x, ex, vx⟩ := numText_ok l h1
    obtain ⟨t', v', e1', e2', ce', o2, _, x', ex', vx'⟩ := numText_ok r h2
    refine ⟨.lpar :: (t ++ condOp (.cmp o) ++ t' ++ [.rpar]), o.holds v v', _, by rw [condText, e1, e1']; rfl,
      by rw [Cd.holds, e2, e2'], o1.bin (.cmp o) o2, ?_⟩
    rw [eval_cmp o1.pure o2.pure ex ex', cmpVal_ok vx vx' fun hn => ⟨h3 hn v (.inl e2), h3 hn v' (.inr e2')⟩]
  | .not a, h => by
    obtain ⟨t, b, ce, e1, e2, o1, ex⟩ := condText_ok a h
    refine ⟨.bang :: t, !b, .not ce, by rw [condText, e1]; rfl, by rw [Cd.holds, e2]; rfl, o1.not, ?_⟩
    rw [CE.eval, ex]; rfl
  | .and a b, h => by
    obtain ⟨t, x, ce, e1, e2, o1, ex⟩ := condText_ok a h.1
    obtain ⟨t', x', ce', e1', e2', o2, ex'⟩ := condText_ok b h.2
    refine ⟨.lpar :: (t ++ condOp .and ++ t' ++ [.rpar]), x && x', _, by rw [condText, e1, e1']; rfl, ?_, o1.bin .and o2, ?_⟩
    · rw [Cd.holds, e2]; cases x <;> simp [e2']
    · rw [CE.eval, ex]
      cases x with
      | false => rfl
      | true =>
        show (ce'.eval rnd E E.idx >>= fun y => .ok (Val.bool y.1.truth, y.2)) = _
        rw [ex']; rfl
  | .or a b, h => by
    obtain ⟨t, x, ce, e1, e2, o1, ex⟩ := condText_ok a h.1
    obtain ⟨t', x', ce', e1', e2', o2, ex'⟩ := condText_ok b h.2
    refine ⟨.lpar :: (t ++ condOp .or ++ t' ++ [.rpar]), x || x', _, by rw [condText, e1, e1']; rfl, ?_, o1.bin .or o2, ?_⟩
    · rw [Cd.holds, e2]; cases x <;> simp [e2']
    · rw [CE.eval, ex]
      cases x with
      | true => rfl
      | false =>
        show (ce'.eval rnd E E.idx >>= fun y => .ok (Val.bool y.1.truth, y.2)) = _
        rw [ex']; rfl

/-- The value of the text of a plain condition. -/
theorem textVal_ok {dom : Bool} {rnd : ℚ → ℚ} {E : Env π} {c : Cd π} (h : c.Plain dom rnd E) :
    ∃ t b, condText dom c = .ok t ∧ c.holds E = some b ∧ textVal rnd E t = .ok (.bool b) := by
  obtain ⟨t, b, ce, h1, h2, h3, h4⟩ := condText_ok c h
  refine ⟨t, b, h1, h2, ?_⟩
  unfold textVal
  rw [parse_utext h3.text]
  show (ce.eval rnd E E.idx >>= fun x => .ok x.1) = _
  rw [h4]; rfl

end
end CondL
end Yask.Comp
