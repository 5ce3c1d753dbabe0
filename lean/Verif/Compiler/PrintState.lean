import Verif.Compiler.PrintEval

/-! # Lemmas about the state of printing -/

namespace Yask.Comp
open Spec.Cpp

section
variable {R π : Type} [DecidableEq π]

theorem stmts_append (A : Arith R) (a b : List (Stmt π)) (s : (Name → Option R) × (π → R)) :
    execAll A (a ++ b) s = (execAll A a s >>= fun s' => execAll A b s') := by
  induction a generalizing s with
  | nil => rfl
  | cons c a ih =>
    simp only [List.cons_append, execAll]
    cases h : c.exec A s with
    | ok s' => simp only [Outcome.bind_ok, ih]
    | throws => rfl
    | undefined => rfl

/-- What holds between statements. -/
structure PInv (A : Arith R) (m : π → R) (node : Nat → Ex π) (ws : List π) (s : PState π) (env : Name → Option R) (m' : π → R) : Prop where
  run : execAll A s.out (fun _ => none, m) = .ok (env, m')
  mem : ∀ p, p ∉ ws → m' p = m p
  fresh : ∀ x, env x ≠ none → x.num < s.num
  temps : ∀ i x, s.temps.lookup i = some x → env x = some ((node i).value A m)
  pts : ∀ p x, s.pts.lookup p = some x → env x = some (m p)

variable {A : Arith R} {m : π → R} {node : Nat → Ex π} {ws : List π}

theorem ext_upd {env : Name → Option R} {x : Name} (h : env x = none) (v : Option R) : EnvExt env (upd env x v) := by
  intro y w hy
  unfold upd
  split_ifs with hxy
  · subst hxy; rw [h] at hy; cases hy
  · exact hy

theorem PInv.none_at {s : PState π} {env : Name → Option R} {m' : π → R} (h : PInv A m node ws s env m') (pre : String) {n : Nat}
    (hn : s.num ≤ n) : env ⟨pre, n⟩ = none := by
  by_contra hc
  have := h.fresh _ hc
  simp at this
  omega

theorem lookup_cons {α β : Type} [DecidableEq α] (a b : α) (x : β) (l : List (α × β)) :
    List.lookup a ((b, x) :: l) = if a = b then some x else List.lookup a l := by
  rw [List.lookup_cons]
  by_cases h : a = b
  · subst h; simp
  · rw [if_neg h]
    have : (a == b) = false := by simpa using h
    rw [this]

theorem PInv.readPt {s : PState π} {env : Name → Option R} {m' : π → R} (h : PInv A m node ws s env m') {p : π} (hp : p ∉ ws) :
    ∃ env', PInv A m node ws (s.readPt p).2 env' m' ∧ EnvExt env env' ∧ env' (s.readPt p).1 = some (m p) := by
  unfold PState.readPt
  cases hl : s.pts.lookup p with
  | some x => exact ⟨env, h, EnvExt.refl env, h.pts p x hl⟩
  | none =>
    have hn := h.none_at "vec" (le_refl s.num)
    have he := ext_upd hn (some (m' p))
    refine ⟨upd env ⟨"vec", s.num⟩ (some (m' p)), ⟨?_, h.mem, ?_, ?_, ?_⟩, he, ?_⟩
    · rw [stmts_append, h.run]
      simp [execAll, Stmt.exec, hn]
    · intro x hx
      unfold upd at hx
      split_ifs at hx with hc
      · subst hc; simp
      · have := h.fresh x hx
        simp only; omega
    · intro i x hx
      exact he _ _ (h.temps i x hx)
    · intro q x hx
      simp only [lookup_cons] at hx
      split_ifs at hx with hc
      · subst hc
        injection hx with hx
        subst hx
        simp [upd, h.mem q hp]
      · exact he _ _ (h.pts q x hx)
    · simp [upd, h.mem p hp]

theorem PInv.newTemp {s : PState π} {env : Name → Option R} {m' : π → R} (h : PInv A m node ws s env m') (pre : String)
    (key : Option Nat) {t : List Piece} {r : R} {io : Option (Bool × Int)} (ht : SumOk A env t r io)
    (hk : ∀ i, key = some i → (node i).value A m = r) :
    ∃ env', PInv A m node ws (s.newTemp pre key t).2 env' m' ∧ EnvExt env env' ∧ env' (s.newTemp pre key t).1 = some r := by
  have hn := h.none_at pre (le_refl s.num)
  have he := ext_upd hn (some r)
  refine ⟨upd env ⟨pre, s.num⟩ (some r), ⟨?_, h.mem, ?_, ?_, ?_⟩, he, ?_⟩
  · simp only [PState.newTemp]
    rw [stmts_append, h.run]
    simp [execAll, Stmt.exec, hn, ht.textVal]
  · intro x hx
    unfold upd at hx
    simp only [PState.newTemp]
    split_ifs at hx with hc
    · subst hc; simp
    · have := h.fresh x hx
      omega
  · intro i x hx
    simp only [PState.newTemp] at hx
    cases key with
    | none => exact he _ _ (h.temps i x hx)
    | some j =>
      simp only [lookup_cons] at hx
      split_ifs at hx with hc
      · subst hc
        injection hx with hx
        subst hx
        simp [upd, hk i rfl]
      · exact he _ _ (h.temps i x hx)
  · intro q x hx
    exact he _ _ (h.pts q x hx)
  · simp [upd, PState.newTemp]

theorem plainFold_plains {op : Op} (as : List (Ex π)) : ∀ io, Ex.PlainFold A op io as → Ex.Plains A as := by
  induction as with
  | nil => intro _ _; trivial
  | cons a as ih => intro io h; exact ⟨h.1, ih _ h.2.2⟩

theorem all_node {P : Ex π → Prop} (e : Ex π) (h : e.All P) : P e := by
  cases e <;> first | exact h | exact h.1

/-- The operands of texts. -/
abbrev TextsOk (A : Arith R) (m : π → R) (env : Name → Option R) (ts : List (List Piece)) (as : List (Ex π)) : Prop :=
  List.Forall₂ (fun t a => TextOk A env t (Ex.Minus a) (a.value A m) a.intOf) ts as

theorem TextsOk.mono {env env' : Name → Option R} {ts : List (List Piece)} {as : List (Ex π)} (h : TextsOk A m env ts as)
    (he : EnvExt env env') : TextsOk A m env' ts as := h.imp fun _ _ ht => ht.mono he

mutual
theorem topDown_ok (o : PrintOpts) : ∀ (e : Ex π) (s : PState π) (env : Name → Option R) (m' : π → R), PInv A m node ws s env m' →
    e.All (Ex.NodeOk A m node ws) → e.Plain A →
    ∃ t c s' env', topDown o e s = .ok (t, c, s') ∧ PInv A m node ws s' env' m' ∧ EnvExt env env' ∧
      TextOk A env' t e.Minus (e.value A m) e.intOf
  | .const i q, s, env, m', h, hall, hp => by
    obtain ⟨t, h1, h2⟩ := constText_ok (m := m) env i q hp
    exact ⟨t, _, s, env, by rw [topDown, h1]; rfl, h, EnvExt.refl env, h2⟩
  | .read i p, s, env, m', h, hall, hp => by
    obtain ⟨env', h1, h2, h3⟩ := h.readPt hall.2
    exact ⟨_, _, _, env', by rw [topDown], h1, h2, .word h3 _ _⟩
  | .neg i a, s, env, m', h, hall, hp => by
    obtain ⟨t, c, s', env', h1, h2, h3, h4⟩ := topDown_ok o a s env m' h hall.2 hp.1
    exact ⟨_, _, s', env', by rw [topDown, h1]; rfl, h2, h3, h4.minus hp.2.1 hp.2.2 _ trivial⟩
  | .bin i op l r, s, env, m', h, hall, hp => by
    obtain ⟨t, c, s1, env1, h1, h2, h3, h4⟩ := topDown_ok o l s env m' h hall.2.1 hp.1
    obtain ⟨u, d, s2, env2, k1, k2, k3, k4⟩ := topDown_ok o r s1 env1 m' h2 hall.2.2 hp.2.1
    refine ⟨_, _, s2, env2, by rw [topDown, h1]; simp only [Outcome.bind_ok]; rw [k1]; rfl, k2, h3.trans k3, ?_⟩
    exact ((h4.mono k3).bin k4 hp.2.2.1 hp.2.2.2).paren _
  | .comm i op [], s, env, m', h, hall, hp => hp.elim
  | .comm i op (a :: as), s, env, m', h, hall, hp => by
    obtain ⟨t, c, s1, env1, h1, h2, h3, h4⟩ := topDown_ok o a s env m' h hall.2.1 hp.1
    obtain ⟨ts, d, s2, env2, k1, k2, k3, k4⟩ := topDowns_ok o as s1 env1 m' h2 hall.2.2 (plainFold_plains as _ hp.2.2.1)
    refine ⟨_, _, s2, env2, by rw [topDown, topDowns, h1]; simp only [Outcome.bind_ok]; rw [k1]; rfl, k2, h3.trans k3, ?_⟩
    exact (TextOk.comm hp.2.1 (h4.mono k3) k4 hp.2.2.1).paren _
  | .func i f pr as, s, env, m', h, hall, hp => by
    obtain ⟨ts, d, s2, env2, k1, k2, k3, k4⟩ := topDowns_ok o as s env m' h hall.2 hp.2
    exact ⟨_, _, s2, env2, by rw [topDown, k1]; rfl, k2, k3, TextOk.call f hp.1 k4 _ _⟩
theorem topDowns_ok (o : PrintOpts) : ∀ (as : List (Ex π)) (s : PState π) (env : Name → Option R) (m' : π → R), PInv A m node ws s env m' →
    Ex.Alls (Ex.NodeOk A m node ws) as → Ex.Plains A as →
    ∃ ts c s' env', topDowns o as s = .ok (ts, c, s') ∧ PInv A m node ws s' env' m' ∧ EnvExt env env' ∧ TextsOk A m env' ts as
  | [], s, env, m', h, _, _ => ⟨[], 0, s, env, by rw [topDowns], h, EnvExt.refl env, .nil⟩
  | a :: as, s, env, m', h, hall, hp => by
    obtain ⟨t, c, s1, env1, h1, h2, h3, h4⟩ := topDown_ok o a s env m' h hall.1 hp.1
    obtain ⟨ts, d, s2, env2, k1, k2, k3, k4⟩ := topDowns_ok o as s1 env1 m' h2 hall.2 hp.2
    exact ⟨_, _, s2, env2, by rw [topDowns, h1]; simp only [Outcome.bind_ok]; rw [k1]; rfl, k2, h3.trans k3, .cons (h4.mono k3) k4⟩
end

theorem trySimple_ok (o : PrintOpts) (force : Bool) (e : Ex π) (s : PState π) (env : Name → Option R) (m' : π → R)
    (h : PInv A m node ws s env m') (hall : e.All (Ex.NodeOk A m node ws)) (hp : e.Plain A) :
    ∃ r s' env', trySimple o force e s = .ok (r, s') ∧ PInv A m node ws s' env' m' ∧ EnvExt env env' ∧ (force = true → r ≠ none) ∧
      ∀ t, r = some t → TextOk A env' t e.Minus (e.value A m) e.intOf := by
  have hnode : node e.id = e := (all_node e hall).1
  unfold trySimple
  cases hl : s.temps.lookup e.id with
  | some x =>
    refine ⟨_, s, env, rfl, h, EnvExt.refl env, by simp, ?_⟩
    rintro t ⟨⟩
    have := h.temps _ _ hl
    rw [hnode] at this
    exact .word this _ _
  | none =>
    simp only
    obtain ⟨t, c, s1, env1, h1, h2, h3, h4⟩ := topDown_ok o e s env m' h hall hp
    by_cases hf : (force || decide (o.size e.id ≤ o.maxSize)) = true
    · rw [if_pos hf, h1]
      simp only [Outcome.bind_ok]
      by_cases hc : c = 0
      · rw [if_pos hc]
        exact ⟨_, s1, env1, rfl, h2, h3, by simp, by rintro t ⟨⟩; exact h4⟩
      rw [if_neg hc]
      by_cases hforce : force = true
      · rw [if_pos hforce]
        by_cases hsz : o.size e.id < o.minSize
        · rw [if_pos hsz]
          exact ⟨_, s1, env1, rfl, h2, h3, by simp, by rintro t ⟨⟩; exact h4⟩
        · rw [if_neg hsz]
          obtain ⟨env2, k1, k2, k3⟩ := h2.newTemp "expr" (some e.id) h4.sum (by rintro i ⟨⟩; rw [hnode])
          exact ⟨_, _, env2, rfl, k1, h3.trans k2, by simp, by rintro t ⟨⟩; exact .word k3 _ _⟩
      · rw [if_neg hforce]
        exact ⟨_, s1, env1, rfl, h2, h3, fun h => absurd h hforce, by simp⟩
    · rw [if_neg hf]
      refine ⟨none, s, env, rfl, h, EnvExt.refl env, ?_, by simp⟩
      intro hft
      simp [hft] at hf

theorem sumOk_zero (env : Name → Option R) : SumOk A env [.intLit 0] (A.lit ((0 : ℤ) : ℚ)) (some (false, 0)) := by
  refine ⟨clean_int 0, .int 0, by simpa [lex] using (utext_int 0).atext, .int false 0, fun env' _ => by simp [CE.eval], .inr ⟨_, _, rfl, rfl, rfl⟩⟩

/-- Two functions of the same arguments. -/
theorem PInv.pair {s : PState π} {env : Name → Option R} {m' : π → R} (h : PInv A m node ws s env m') {ts : List (List Piece)}
    {as : List (Ex π)} (ht : TextsOk A m env ts as) {f g : String} (hfg : f = "sin" ∧ g = "cos" ∨ f = "cos" ∧ g = "sin") {i j : Nat}
    (hi : (node i).value A m = A.fn f (Ex.values A m as)) (hj : (node j).value A m = A.fn g (Ex.values A m as)) (hij : i ≠ j) :
    let x := s.newTemp "arg0" (some i) [.intLit 0]
    let y := x.2.newTemp "arg1" (some j) [.intLit 0]
    ∃ env', PInv A m node ws { y.2 with out := y.2.out ++ [.pair f g x.1 y.1 ts] } env' m' ∧ EnvExt env env' ∧
      env' x.1 = some (A.fn f (Ex.values A m as)) := by
  intro x y
  have hx : env x.1 = none := h.none_at "arg0" (le_refl _)
  have hy : env y.1 = none := h.none_at "arg1" (Nat.le_succ _)
  have hxy : x.1 ≠ y.1 := by simp [x, y, PState.newTemp]
  let env1 := upd env x.1 (some (A.lit ((0 : ℤ) : ℚ)))
  have hy1 : env1 y.1 = none := by simp [env1, upd, hxy.symm, hy]
  let env2 := upd env1 y.1 (some (A.lit ((0 : ℤ) : ℚ)))
  have he2 : EnvExt env env2 := (ext_upd hx _).trans (ext_upd hy1 _)
  let env4 := upd (upd env2 x.1 (some (A.fn f (Ex.values A m as)))) y.1 (some (A.fn g (Ex.values A m as)))
  have h4x : env4 x.1 = some (A.fn f (Ex.values A m as)) := by simp [env4, upd, hxy]
  have h4y : env4 y.1 = some (A.fn g (Ex.values A m as)) := by simp [env4, upd]
  have h4 : ∀ z, z ≠ x.1 → z ≠ y.1 → env4 z = env z := by
    intro z h1 h2
    simp [env4, env2, env1, upd, h1, h2]
  have he4 : EnvExt env env4 := by
    intro z v hz
    rw [h4 z (by rintro rfl; rw [hx] at hz; cases hz) (by rintro rfl; rw [hy] at hz; cases hz)]
    exact hz
  refine ⟨env4, ⟨?_, h.mem, ?_, ?_, ?_⟩, he4, h4x⟩
  · have e : y.2.out ++ [.pair f g x.1 y.1 ts] = s.out ++ [.decl x.1 [.intLit 0], .decl y.1 [.intLit 0], .pair f g x.1 y.1 ts] := by
      simp [y, x, PState.newTemp]
    simp only [e]
    rw [stmts_append, h.run]
    have hv := textVals_ok as ts (ht.mono he2)
    have e2x : env2 x.1 ≠ none := by simp [env2, env1, upd, hxy]
    have e2y : env2 y.1 ≠ none := by simp [env2, upd]
    simp only [Outcome.bind_ok, execAll, Stmt.exec, (sumOk_zero (A := A) env).textVal, hx, if_true]
    change (do
      let s' ← (do
        let v ← textVal A env1 [.intLit 0]
        if env1 y.1 = none then .ok (upd env1 y.1 (some v), m') else .throws)
      _) = _
    rw [(sumOk_zero (A := A) env1).textVal]
    simp only [Outcome.bind_ok, hy1, if_true]
    change (do
      let s' ← (do
        let vs ← textVals A env2 ts
        if (f = "sin" ∧ g = "cos" ∨ f = "cos" ∧ g = "sin") ∧ env2 x.1 ≠ none ∧ env2 y.1 ≠ none ∧ x.1 ≠ y.1 then
          .ok (upd (upd env2 x.1 (some (A.fn f vs))) y.1 (some (A.fn g vs)), m')
        else .throws)
      _) = _
    rw [hv]
    simp only [Outcome.bind_ok]
    rw [if_pos ⟨hfg, e2x, e2y, hxy⟩]
    rfl
  · intro z hz
    show z.num < s.num + 1 + 1
    by_cases h1 : z = x.1
    · rw [h1]; show s.num < _; omega
    by_cases h2 : z = y.1
    · rw [h2]; show s.num + 1 < _; omega
    rw [h4 z h1 h2] at hz
    have := h.fresh z hz
    omega
  · intro k z hk
    have hk' : List.lookup k ((j, y.1) :: (i, x.1) :: s.temps) = some z := hk
    simp only [lookup_cons] at hk'
    split_ifs at hk' with c1 c2
    · injection hk' with hk'
      subst c1 hk'
      rw [h4y, hj]
    · injection hk' with hk'
      subst c2 hk'
      rw [h4x, hi]
    · exact he4 _ _ (h.temps k z hk')
  · intro q z hz
    exact he4 _ _ (h.pts q z hz)

mutual
theorem bottomUp_ok (o : PrintOpts) : ∀ (e : Ex π) (s : PState π) (env : Name → Option R) (m' : π → R), PInv A m node ws s env m' →
    e.All (Ex.NodeOk A m node ws) → e.Plain A →
    ∃ t s' env', bottomUp o e s = .ok (t, s') ∧ PInv A m node ws s' env' m' ∧ EnvExt env env' ∧
      TextOk A env' t e.Minus (e.value A m) e.intOf
  | .const i q, s, env, m', h, hall, hp => by
    obtain ⟨r, s1, env1, h1, h2, h3, h4, h5⟩ := trySimple_ok o true (.const i q) s env m' h hall hp
    cases r with
    | none => exact absurd rfl (h4 rfl)
    | some t => exact ⟨t, s1, env1, by rw [bottomUp, h1]; rfl, h2, h3, h5 t rfl⟩
  | .read i p, s, env, m', h, hall, hp => by
    obtain ⟨r, s1, env1, h1, h2, h3, h4, h5⟩ := trySimple_ok o true (.read i p) s env m' h hall hp
    cases r with
    | none => exact absurd rfl (h4 rfl)
    | some t => exact ⟨t, s1, env1, by rw [bottomUp, h1]; rfl, h2, h3, h5 t rfl⟩
  | .neg i a, s, env, m', h, hall, hp => by
    obtain ⟨r, s1, env1, h1, h2, h3, h4, h5⟩ := trySimple_ok o false (.neg i a) s env m' h hall hp
    cases r with
    | some t => exact ⟨t, s1, env1, by rw [bottomUp, h1]; rfl, h2, h3, h5 t rfl⟩
    | none =>
      obtain ⟨t, s2, env2, k1, k2, k3, k4⟩ := bottomUp_ok o a s1 env1 m' h2 hall.2 hp.1
      have hx := k4.minus hp.2.1 hp.2.2 True trivial
      obtain ⟨env3, j1, j2, j3⟩ := k2.newTemp "expr" (some i) hx.sum (by
        rintro j ⟨⟩; exact congrArg (Ex.value A m) hall.1.1)
      exact ⟨_, _, env3, by rw [bottomUp, h1]; simp only [Outcome.bind_ok]; rw [k1]; rfl, j1, h3.trans (k3.trans j2), .word j3 _ _⟩
  | .bin i op l r, s, env, m', h, hall, hp => by
    obtain ⟨q, s1, env1, h1, h2, h3, h4, h5⟩ := trySimple_ok o false (.bin i op l r) s env m' h hall hp
    cases q with
    | some t => exact ⟨t, s1, env1, by rw [bottomUp, h1]; rfl, h2, h3, h5 t rfl⟩
    | none =>
      obtain ⟨t, s2, env2, k1, k2, k3, k4⟩ := bottomUp_ok o l s1 env1 m' h2 hall.2.1 hp.1
      obtain ⟨u, s3, env3, l1, l2, l3, l4⟩ := bottomUp_ok o r s2 env2 m' k2 hall.2.2 hp.2.1
      have hx := (k4.mono l3).bin l4 hp.2.2.1 hp.2.2.2
      obtain ⟨env4, j1, j2, j3⟩ := l2.newTemp "expr" (some i) hx (by
        rintro j ⟨⟩; exact congrArg (Ex.value A m) hall.1.1)
      exact ⟨_, _, env4, by rw [bottomUp, h1]; simp only [Outcome.bind_ok]; rw [k1]; simp only [Outcome.bind_ok]; rw [l1]; rfl, j1,
        h3.trans (k3.trans (l3.trans j2)), .word j3 _ _⟩
  | .comm i op [], s, env, m', h, hall, hp => hp.elim
  | .comm i op (a :: as), s, env, m', h, hall, hp => by
    obtain ⟨q, s1, env1, h1, h2, h3, h4, h5⟩ := trySimple_ok o false (.comm i op (a :: as)) s env m' h hall hp
    cases q with
    | some t => exact ⟨t, s1, env1, by rw [bottomUp, h1]; rfl, h2, h3, h5 t rfl⟩
    | none =>
      obtain ⟨t, s2, env2, k1, k2, k3, k4⟩ := bottomUp_ok o a s1 env1 m' h2 hall.2.1 hp.1
      obtain ⟨u, s3, env3, l1, l2, l3, l4⟩ := bottomComm_ok o op i as t (Ex.Minus a) (a.value A m) a.intOf s2 env2 m' k2 k4 hp.2.1 hall.2.2
        hp.2.2.1 (congrArg (Ex.value A m) hall.1.1)
      refine ⟨u, s3, env3, by rw [bottomUp, h1]; simp only [Outcome.bind_ok]; rw [k1]; simp only [Outcome.bind_ok]; rw [l1], l2,
        h3.trans (k3.trans l3), ?_⟩
      rcases l4 with ⟨rfl, rfl⟩ | ⟨x, rfl, hx⟩
      · exact absurd rfl hp.2.2.2
      · exact .word hx _ _
  | .func i f (some (j, g)) as, s, env, m', h, hall, hp => by
    rw [bottomUp]
    cases hl : s.temps.lookup i with
    | some x =>
      refine ⟨_, s, env, rfl, h, EnvExt.refl env, ?_⟩
      have := h.temps _ _ hl
      rw [show node i = _ from hall.1.1] at this
      exact .word this _ _
    | none =>
      obtain ⟨ts, s1, env1, k1, k2, k3, k4⟩ := bottomUps_ok o as s env m' h hall.2 hp.2
      obtain ⟨hid, hij, hfg, pr, as', hj, hvals⟩ := hall.1
      have hni : node i = .func i f (some (j, g)) as := hid
      obtain ⟨env2, j1, j2, j3⟩ := k2.pair k4 hfg (hni ▸ rfl) (show (node j).value A m = A.fn g (Ex.values A m as) by
        rw [hj, ← hvals]; rfl) hij
      exact ⟨_, _, env2, by simp only; rw [k1]; rfl, j1, k3.trans j2, .word j3 _ _⟩
  | .func i f none as, s, env, m', h, hall, hp => by
    obtain ⟨q, s1, env1, h1, h2, h3, h4, h5⟩ := trySimple_ok o false (.func i f none as) s env m' h hall hp
    cases q with
    | some t => exact ⟨t, s1, env1, by rw [bottomUp, h1]; rfl, h2, h3, h5 t rfl⟩
    | none =>
      obtain ⟨ts, s2, env2, k1, k2, k3, k4⟩ := bottomUps_ok o as s1 env1 m' h2 hall.2 hp.2
      have hx := TextOk.call f hp.1 k4 True none
      obtain ⟨env4, j1, j2, j3⟩ := k2.newTemp "res" (some i) hx.sum (by
        rintro j ⟨⟩; exact congrArg (Ex.value A m) hall.1.1)
      exact ⟨_, _, env4, by rw [bottomUp, h1]; simp only [Outcome.bind_ok]; rw [k1]; rfl, j1, h3.trans (k3.trans j2), .word j3 _ _⟩
theorem bottomUps_ok (o : PrintOpts) : ∀ (as : List (Ex π)) (s : PState π) (env : Name → Option R) (m' : π → R), PInv A m node ws s env m' →
    Ex.Alls (Ex.NodeOk A m node ws) as → Ex.Plains A as →
    ∃ ts s' env', bottomUps o as s = .ok (ts, s') ∧ PInv A m node ws s' env' m' ∧ EnvExt env env' ∧ TextsOk A m env' ts as
  | [], s, env, m', h, _, _ => ⟨[], s, env, by rw [bottomUps], h, EnvExt.refl env, .nil⟩
  | a :: as, s, env, m', h, hall, hp => by
    obtain ⟨t, s1, env1, h1, h2, h3, h4⟩ := bottomUp_ok o a s env m' h hall.1 hp.1
    obtain ⟨ts, s2, env2, k1, k2, k3, k4⟩ := bottomUps_ok o as s1 env1 m' h2 hall.2 hp.2
    exact ⟨_, s2, env2, by rw [bottomUps, h1]; simp only [Outcome.bind_ok]; rw [k1]; rfl, k2, h3.trans k3, .cons (h4.mono k3) k4⟩
theorem bottomComm_ok (o : PrintOpts) (op : Op) (i : Nat) : ∀ (as : List (Ex π)) (lhs : List Piece) (mi : Prop) (r : R)
    (io : Option (Bool × Int)) (s : PState π) (env : Name → Option R) (m' : π → R), PInv A m node ws s env m' →
    TextOk A env lhs mi r io → op ≠ .mod → Ex.Alls (Ex.NodeOk A m node ws) as → Ex.PlainFold A op io as →
    (node i).value A m = Ex.foldValue A m op r as →
    ∃ t s' env', bottomComm o op i lhs as s = .ok (t, s') ∧ PInv A m node ws s' env' m' ∧ EnvExt env env' ∧
      (as = [] ∧ t = lhs ∨ ∃ x, t = [.word x] ∧ env' x = some (Ex.foldValue A m op r as))
  | [], lhs, mi, r, io, s, env, m', h, ht, hop, _, hp, hv => ⟨lhs, s, env, by rw [bottomComm], h, EnvExt.refl env, .inl ⟨rfl, rfl⟩⟩
  | a :: as, lhs, mi, r, io, s, env, m', h, ht, hop, hall, hp, hv => by
    obtain ⟨t, s1, env1, h1, h2, h3, h4⟩ := bottomUp_ok o a s env m' h hall.1 hp.1
    have hx := (ht.mono h3).bin h4 hop hp.2.1
    obtain ⟨env2, j1, j2, j3⟩ := h2.newTemp "expr" (if as.isEmpty then some i else none) hx (by
      intro j hj
      split_ifs at hj with he
      injection hj with hj
      subst hj
      have : as = [] := by simpa using he
      subst this
      exact hv)
    obtain ⟨u, s3, env3, l1, l2, l3, l4⟩ := bottomComm_ok o op i as _ True _ _ _ env2 m' j1 (TextOk.word j3 True _) hop hall.2 hp.2.2 hv
    refine ⟨u, s3, env3, by rw [bottomComm, h1]; simp only [Outcome.bind_ok]; rw [l1], l2, h3.trans (j2.trans l3), .inr ?_⟩
    rcases l4 with ⟨rfl, rfl⟩ | ⟨x, rfl, hx⟩
    · exact ⟨_, rfl, l3 _ _ j3⟩
    · exact ⟨x, rfl, hx⟩
end

theorem printEq_ok (o : PrintOpts) (e : π × Ex π) (s : PState π) (env : Name → Option R) (m' : π → R)
    (h : PInv A m node ws s env m') (hw : e.1 ∈ ws) (hall : e.2.All (Ex.NodeOk A m node ws)) (hp : e.2.Plain A) :
    ∃ s' env', printEq o e s = .ok s' ∧ PInv A m node ws s' env' (upd m' e.1 (e.2.value A m)) := by
  obtain ⟨t, s1, env1, h1, h2, h3, h4⟩ := bottomUp_ok o e.2 s env m' h hall hp
  obtain ⟨env2, j1, j2, j3⟩ := h2.newTemp "expr" (some e.2.id) h4.sum (by
    rintro i ⟨⟩; exact congrArg (Ex.value A m) (all_node _ hall).1)
  refine ⟨{ (s1.newTemp "expr" (some e.2.id) t).2 with
      out := (s1.newTemp "expr" (some e.2.id) t).2.out ++ [Stmt.store e.1 (s1.newTemp "expr" (some e.2.id) t).1] }, env2,
    by unfold printEq; rw [h1]; rfl, ⟨?_, ?_, j1.fresh, j1.temps, j1.pts⟩⟩
  · rw [stmts_append, j1.run]
    simp [execAll, Stmt.exec, j3]
  · intro p hp'
    have : p ≠ e.1 := fun hc => hp' (hc ▸ hw)
    simp [upd, this, j1.mem p hp']

theorem printEqs_ok (o : PrintOpts) (es : List (π × Ex π)) : ∀ (s : PState π) (env : Name → Option R) (m' : π → R),
    PInv A m node ws s env m' → (∀ e ∈ es, e.1 ∈ ws ∧ e.2.All (Ex.NodeOk A m node ws) ∧ e.2.Plain A) →
    ∃ s' env', printEqs o es s = .ok s' ∧
      PInv A m node ws s' env' (es.foldl (fun m' e => upd m' e.1 (e.2.value A m)) m') := by
  induction es with
  | nil => intro s env m' h _; exact ⟨s, env, rfl, h⟩
  | cons e es ih =>
    intro s env m' h he
    obtain ⟨h1, h2, h3⟩ := he e (by simp)
    obtain ⟨s1, env1, k1, k2⟩ := printEq_ok o e s env m' h h1 h2 h3
    obtain ⟨s2, env2, l1, l2⟩ := ih s1 env1 _ k2 fun e' he' => he e' (by simp [he'])
    exact ⟨s2, env2, by simp only [printEqs]; rw [k1]; exact l1, l2⟩

theorem pinv_init : PInv A m node ws ⟨1, [], [], []⟩ (fun _ => none) m :=
  ⟨rfl, fun _ _ => rfl, fun _ h => absurd rfl h, fun _ _ h => by simp at h, fun _ _ h => by simp at h⟩

end
end Yask.Comp
