import Verif.Compiler.ScrLinkRuns
import Verif.Props.Soln
import Verif.Props.ScratchRun

/-!
# Property C60 with scratch vars
-/

namespace Yask
open Spec Comp RunCfg

section
variable {Val : Type} [Inhabited Val] {X : XSoln Val} {L : List (List (List (Fin X.eqs.length)))} {K : List (List (Fin X.scr.length))}
  {sz : Nat → Nat} {vdims : Nat → List String} {G : RunCfg} {C : ScrCfg}

/-- C60: equations with scratch vars define values: for every initial memory there is a history that satisfies the equations and starts with it. -/
theorem C60_scratch_values_exist (hl : X.Legal vdims) (ha : X.Arranged L K C.children) (hc : X.Covered (InWhole G)) (hn : X.Enough L sz)
    (hr : XRuns G C X L K) (first : Int) (g : (Nat × Nat) × List Int → Val) (n : Nat) :
    ∃ W A, X.Evolves (InWhole G) sz first n W A ∧ Stores X.toUSoln sz W first g := by
  obtain ⟨d, hd⟩ := hl.acyclic
  obtain ⟨W, h1, h2⟩ := C60_values_exist (XSoln.inl_legal hl (X.fuel d)) (XSoln.inl_arranged ha (X.fuel d)) (XSoln.inl_enough hn (X.fuel d)) (InWhole G)
    first g n
  exact ⟨W, _, XSoln.evolves_of_inl hl hc hr.nd hd h1, h2⟩

/-- C60 with scratch vars, reference evaluation. -/
theorem C60_scratch_reference (hl : X.Legal vdims) (ha : X.Arranged L K C.children) (hc : X.Covered (InWhole G)) (hn : X.Enough L sz)
    (hr : XRuns G C X L K) (hG : G.Ok) {first last : Int} (hdir : Along X.dir first last) {W : History Val} {A : ScrValues Val}
    (hW : X.Evolves (InWhole G) sz first (numSteps first last) W A) {s : Scr.Mem (Nat × Nat) Nat Val} (hg : Stores X.toUSoln sz W first s.vars)
    {tr : List STask} (ht : C.runRef G first last tr) :
    Stores X.toUSoln sz W (first + X.dir * numSteps first last) ((X.kernel L K sz C).exec tr s).vars := by
  obtain ⟨d, hd⟩ := hl.acyclic
  rw [C69_reference hG (XSoln.kernel_supplied hl ha hc (XSoln.has_of_runs hr)) (XSoln.whole_inlined hl ha hc hr hn hd) ht s]
  exact C60_reference (XSoln.inl_legal hl (X.fuel d)) (XSoln.inl_arranged ha (X.fuel d)) (XSoln.inl_enough hn (X.fuel d))
    (XSoln.inl_runs hr (X.fuel d)) hdir (XSoln.inl_evolves hl hc hr.nd hd hW) hg

/-- C60 with scratch vars, on one rank: whatever the scratch vars contain at first, in every legal configuration and for every interleaving of the
threads, `run_solution` from the stored steps of a history of the equations ends with the stored steps at the end of the run. -/
theorem C60_scratch_arranged_partial (hl : X.Legal vdims) (ha : X.Arranged L K C.children) (hc : X.Covered (InWhole G)) (hn : X.Enough L sz)
    (hr : XRuns G C X L K) (hG : G.Ok) (hsr : G.SingleRank) (hrem : G.tbSteps = 0 ∨ G.NoShortRemainder) {first last : Int}
    (hdir : Along X.dir first last) {W : History Val} {A : ScrValues Val} (hW : X.Evolves (InWhole G) sz first (numSteps first last) W A)
    {s : Scr.Mem (Nat × Nat) Nat Val} (hg : Stores X.toUSoln sz W first s.vars) {tr : List STask} (ht : C.runSolution G first last tr) :
    Stores X.toUSoln sz W (first + X.dir * numSteps first last) ((X.kernel L K sz C).exec tr s).vars := by
  obtain ⟨d, hd⟩ := hl.acyclic
  obtain ⟨tr', h1, h2⟩ := C69_substitution_partial hG hrem (XSoln.kernel_supplied hl ha hc (XSoln.has_of_runs hr)) (XSoln.whole_inlined hl ha hc hr hn hd) ht s
  rw [h2, C01_run_equals_reference_partial G hG hsr hrem _ first last tr' h1]
  exact C60_reference (XSoln.inl_legal hl (X.fuel d)) (XSoln.inl_arranged ha (X.fuel d)) (XSoln.inl_enough hn (X.fuel d))
    (XSoln.inl_runs hr (X.fuel d)) hdir (XSoln.inl_evolves hl hc hr.nd hd hW) hg

end

section
variable {Val κ : Type} [DecidableEq κ] {X : XSoln Val} {sz : Nat → Nat} {vdims : Nat → List String} {G : RunCfg} {C : ScrCfg} {o : X.Opts κ}
  {ordL : List (Nat × Option Int) → List (Nat × Option Int)} {ordE : List X.Idx → List X.Idx} {ordP ordS : List Nat → List Nat}
  {P : Lots X.Idx κ} {Q : Lots Nat Unit}

/-- `order` has each equation once. -/
structure Listed (o : X.Opts κ) : Prop where
  nd : o.order.Nodup
  all : ∀ e, e ∈ o.order

/-- The orders in which the compiler visits sets. -/
structure Orders (ordL : List (Nat × Option Int) → List (Nat × Option Int)) (ordE : List X.Idx → List X.Idx) (ordP ordS : List Nat → List Nat) :
    Prop where
  lvars : ∀ l, (ordL l).Perm l
  eqs : ∀ l, (ordE l).Perm l
  parts : ∀ l, (ordP l).Perm l
  stages : ∀ l, (ordS l).Perm l

theorem compiled_x (ho : Listed o) (hor : Orders (X := X) ordL ordE ordP ordS) (h : (X.sys o).compileAll ordL ordE ordP ordS = .ok (P, Q)) :
    Compiled (X.sys o) P Q :=
  compiled_of ⟨ho.nd, fun _ _ => ⟨ho.all _, ho.all _⟩⟩ hor.lvars hor.eqs hor.parts hor.stages h

/-- The stages, the scratch parts and the lists of required scratch parts that the compiler makes of a legal solution keep the dependences,
also those through scratch vars. `hkey`: equations with the same key have the same conditions. -/
theorem C60_scratch_stages (ho : Listed o) (hkey : ∀ e e', o.key e = o.key e' → (X.eqn e).domIf = (X.eqn e').domIf ∧ (X.eqn e).stepIf = (X.eqn e').stepIf)
    (hor : Orders (X := X) ordL ordE ordP ordS) (h : (X.sys o).compileAll ordL ordE ordP ordS = .ok (P, Q)) (hl : X.Legal vdims) :
    X.Arranged (X.mainL P Q) (X.scrK P Q) (kernelChildren P Q) :=
  xarranged_of_compile hl ho.all hkey (compiled_x ho hor h)

/-- C46 for what the compiler makes: the halos of the vars cover every point that is read to evaluate an equation, directly or through scratch
vars. -/
theorem C46_compiled (ho : Listed o) (hor : Orders (X := X) ordL ordE ordP ordS) (h : (X.sys o).compileAll ordL ordE ordP ordS = .ok (P, Q))
    (hl : X.Legal vdims) {e : UEq Val} (he : e ∈ X.eqs) {p : Pt} (hp : X.Leads e p) {n : String} (hn : n ∈ vdims p.var) :
    -(((X.hsys P Q).calcHalos p.var).size n true) ≤ p.at n ∧ p.at n ≤ ((X.hsys P Q).calcHalos p.var).size n false :=
  have hC := compiled_x ho hor h
  needed_halo (xstaged_of_compile hl ho.all hC) (leads_needed hl ho.all hC he hp) n hn

/-- If no value may be overwritten before it is read (C47), there are enough slots. `hro`: vars that no equation writes are
read at stored steps only. -/
theorem C60_scratch_slots (ho : Listed o)
    (hkey : ∀ e e', o.key e = o.key e' → (X.eqn e).domIf = (X.eqn e').domIf ∧ (X.eqn e).stepIf = (X.eqn e').stepIf)
    (hor : Orders (X := X) ordL ordE ordP ordS) (h : (X.sys o).compileAll ordL ordE ordP ordS = .ok (P, Q)) (hl : X.Legal vdims)
    (hpos : ∀ v, 0 < sz v) (first : Int) (hst : ∀ v, ¬ MayReadStale (X.hsys P Q) v (sz v) first X.dir)
    (hro : ∀ e ∈ X.eqs ++ X.scr, ∀ p ∈ e.rhs, (∀ e' ∈ X.eqs, e'.lhs.var ≠ p.var) → ∀ k, p.step = some k → -(sz p.var : Int) < k * X.dir) :
    X.Enough (X.mainL P Q) sz :=
  xenough_of_fresh hl ho.all (compiled_x ho hor h) (C60_scratch_stages ho hkey hor h hl) hpos first hst hro

/-- C60 with scratch vars, on one rank: whatever the compiler accepts, with slots that are enough (C47) and a kernel set up for its stages, parts
and halos, whatever the scratch vars contain at first, in every legal configuration and for every interleaving of the threads,
`run_solution` from the stored steps of a history of the equations ends with the stored steps at the end of the run; and there is such a
history for every initial memory. Missing: more than one rank (`C60_scratch_ranks_partial`), scratch vars without a domain dim, misc dims, and what C01 misses. -/
theorem C60_scratch_run_partial [Inhabited Val] (ho : Listed o)
    (hkey : ∀ e e', o.key e = o.key e' → (X.eqn e).domIf = (X.eqn e').domIf ∧ (X.eqn e).stepIf = (X.eqn e').stepIf)
    (hor : Orders (X := X) ordL ordE ordP ordS) (h : (X.sys o).compileAll ordL ordE ordP ordS = .ok (P, Q)) (hl : X.Legal vdims)
    (hc : X.Covered (InWhole G)) {first last : Int} (hdir : Along X.dir first last)
    (hpos : ∀ v, 0 < sz v) (hst : ∀ v, ¬ MayReadStale (X.hsys P Q) v (sz v) first X.dir)
    (hro : ∀ e ∈ X.eqs ++ X.scr, ∀ p ∈ e.rhs, (∀ e' ∈ X.eqs, e'.lhs.var ≠ p.var) → ∀ k, p.step = some k → -(sz p.var : Int) < k * X.dir)
    (hs : SetUp G C X P Q) (hG : G.Ok) (hsr : G.SingleRank) (hrem : G.tbSteps = 0 ∨ G.NoShortRemainder) :
    (∀ g, ∃ W A, X.Evolves (InWhole G) sz first (numSteps first last) W A ∧ Stores X.toUSoln sz W first g) ∧
    ∀ W A, X.Evolves (InWhole G) sz first (numSteps first last) W A → ∀ s : Scr.Mem (Nat × Nat) Nat Val, Stores X.toUSoln sz W first s.vars →
      ∀ tr, C.runSolution G first last tr →
        Stores X.toUSoln sz W (first + X.dir * numSteps first last) ((X.kernel (X.mainL P Q) (X.scrK P Q) sz C).exec tr s).vars := by
  have ha := C60_scratch_stages ho hkey hor h hl
  have hn := C60_scratch_slots ho hkey hor h hl hpos first hst hro
  have hr := xruns_of_setUp hl ho.all (compiled_x ho hor h) hs
  rw [← hs.children] at ha
  exact ⟨fun g => C60_scratch_values_exist hl ha hc hn hr first g _,
    fun W A hW s hg tr ht => C60_scratch_arranged_partial hl ha hc hn hr hG hsr hrem hdir hW hg ht⟩

end

/-! ### An example: two scratch vars, one of them with two conditional equations -/

/-- `u(t+1,x) = b(x-1) - b(x+1)`. -/
def exXu : UEq Int := ⟨⟨0, some 1, [("x", 0)]⟩, [⟨2, none, [("x", -1)]⟩, ⟨2, none, [("x", 1)]⟩], fun _ => true, fun _ => true,
  fun _ _ l => l.getD 0 0 - l.getD 1 0⟩
/-- `a(x) = u(t,x) if x >= 0`. -/
def exXa : UEq Int := ⟨⟨1, none, [("x", 0)]⟩, [⟨0, some 0, [("x", 0)]⟩], fun x => decide (0 ≤ x.getD 0 0), fun _ => true, fun _ _ l => l.getD 0 0⟩
/-- `a(x) = 7 if x < 0`. -/
def exXa' : UEq Int := ⟨⟨1, none, [("x", 0)]⟩, [], fun x => decide (x.getD 0 0 < 0), fun _ => true, fun _ _ _ => 7⟩
/-- `b(x) = a(x-1) + a(x+1)`. -/
def exXb : UEq Int := ⟨⟨2, none, [("x", 0)]⟩, [⟨1, none, [("x", -1)]⟩, ⟨1, none, [("x", 1)]⟩], fun _ => true, fun _ => true,
  fun _ _ l => l.getD 0 0 + l.getD 1 0⟩
def exX : XSoln Int := { dims := ["x"], dir := 1, hasStep := fun v => decide (v = 0), eqs := [exXu], isScr := fun v => decide (v = 1 ∨ v = 2), scr := [exXb, exXa, exXa'] }
/-- Each equation in its own part. -/
def exXo : exX.Opts Nat where
  order := [.inl ⟨0, by decide⟩, .inr ⟨0, by decide⟩, .inr ⟨1, by decide⟩, .inr ⟨2, by decide⟩]
  key := fun | .inl _ => 0 | .inr e => e.1 + 1
  clash _ _ := false
  compat _ _ := true
  bundle := true
  user := []

/-- The parts and stages that the compiler makes. -/
def exXPQ : Lots exX.Idx Nat × Lots Nat Unit := match (exX.sys exXo).compileAll id id id id with
  | .ok r => r
  | _ => ({}, {})

theorem exX_ok : ((exX.sys exXo).compileAll id id id id).isOk = true := by decide +kernel

theorem exX_compiles : (exX.sys exXo).compileAll id id id id = .ok (exXPQ.1, exXPQ.2) := by
  have h := exX_ok
  unfold exXPQ
  cases e : (exX.sys exXo).compileAll id id id id with
  | ok r => rfl
  | throws => rw [e] at h; cases h
  | undefined => rw [e] at h; cases h

/-- The equation of `b` comes after those of `a`. -/
example : exX.mainL exXPQ.1 exXPQ.2 = [[[⟨0, by decide⟩]]] ∧ exX.scrK exXPQ.1 exXPQ.2 = [[⟨1, by decide⟩], [⟨2, by decide⟩], [⟨0, by decide⟩]] ∧
    kernelChildren exXPQ.1 exXPQ.2 0 0 = [0, 1, 2] := by decide +kernel

theorem exX_listed : Listed exXo := ⟨by decide +kernel, by
  intro e
  match e with
  | .inl ⟨0, _⟩ => exact List.mem_cons_self
  | .inr ⟨0, _⟩ => exact List.mem_cons_of_mem _ List.mem_cons_self
  | .inr ⟨1, _⟩ => exact List.mem_cons_of_mem _ (List.mem_cons_of_mem _ List.mem_cons_self)
  | .inr ⟨2, _⟩ => exact List.mem_cons_of_mem _ (List.mem_cons_of_mem _ (List.mem_cons_of_mem _ List.mem_cons_self))⟩

theorem exX_key : ∀ e e', exXo.key e = exXo.key e' → (exX.eqn e).domIf = (exX.eqn e').domIf ∧ (exX.eqn e).stepIf = (exX.eqn e').stepIf := by
  have h : ∀ e e', exXo.key e = exXo.key e' → e = e' := by decide +kernel
  intro e e' he
  rw [h e e' he]
  exact ⟨rfl, rfl⟩

theorem exX_orders : Orders (X := exX) id id id id := ⟨fun _ => .refl _, fun _ => .refl _, fun _ => .refl _, fun _ => .refl _⟩

theorem exX_legal : exX.Legal fun _ => ["x"] where
  dir := Or.inl rfl
  dims := by decide
  lhs := by
    intro e he
    simp only [exX, List.mem_cons, List.not_mem_nil, or_false] at he
    subst he
    refine ⟨rfl, rfl, fun n => ?_⟩
    simp only [exXu, Pt.at, List.lookup]
    split <;> rfl
  slhs := by
    intro e he
    simp only [exX, List.mem_cons, List.not_mem_nil, or_false] at he
    rcases he with rfl | rfl | rfl <;> refine ⟨rfl, rfl, fun n => ?_⟩ <;> simp only [exXa, exXa', exXb, Pt.at, List.lookup] <;> split <;> rfl
  step := by decide +kernel
  rhs := by
    have h : ∀ e ∈ exX.eqs ++ exX.scr, ∀ p ∈ e.rhs, p.step = some 0 ∨ p.step = none := by decide +kernel
    intro e he p hp k hk
    show k * 1 ≤ 1
    rcases h e he p hp with h | h <;> rw [h] at hk
    · injection hk; omega
    · cases hk
  args := by
    have h : ∀ e ∈ exX.eqs ++ exX.scr, ∀ p ∈ e.lhs :: e.rhs, p.dom.map Prod.fst = ["x"] := by decide +kernel
    intro e he p hp n
    rw [h e he p hp]
  inDims := fun _ _ h => h
  sdims := fun _ _ _ h => h
  full := fun _ _ _ _ _ h => h
  one := by
    intro i j e e' h1 h2 _ _ _ _ _ _ _
    obtain ⟨l1, -⟩ := List.getElem?_eq_some_iff.1 h1
    obtain ⟨l2, -⟩ := List.getElem?_eq_some_iff.1 h2
    have : exX.eqs.length = 1 := rfl
    omega
  sone := by
    have h : ∀ i j : Fin 3, (exX.scr[i.1]'i.2).lhs.var = (exX.scr[j.1]'j.2).lhs.var → i = j ∨ i.1 = 1 ∧ j.1 = 2 ∨ i.1 = 2 ∧ j.1 = 1 := by
      decide +kernel
    intro i j e e' h1 h2 hv t x c1 _ c2 _
    obtain ⟨l1, g1⟩ := List.getElem?_eq_some_iff.1 h1
    obtain ⟨l2, g2⟩ := List.getElem?_eq_some_iff.1 h2
    rcases h ⟨i, l1⟩ ⟨j, l2⟩ (by
      show (exX.scr[i]'l1).lhs.var = (exX.scr[j]'l2).lhs.var
      rw [g1, g2]; exact hv) with h | ⟨hi, hj⟩ | ⟨hi, hj⟩
    · exact congrArg Fin.val h
    · obtain rfl : i = 1 := hi
      obtain rfl : j = 2 := hj
      obtain rfl : exXa = e := g1
      obtain rfl : exXa' = e' := g2
      have a := of_decide_eq_true c1
      have b := of_decide_eq_true c2
      omega
    · obtain rfl : i = 2 := hi
      obtain rfl : j = 1 := hj
      obtain rfl : exXa' = e := g1
      obtain rfl : exXa = e' := g2
      have a := of_decide_eq_true c1
      have b := of_decide_eq_true c2
      omega
  acyclic := ⟨id, by decide +kernel⟩

theorem exX_covered (D : List Int → Prop) : exX.Covered D := by
  intro e _ t x _ _ p _ hs
  have hv : p.var = 1 ∨ p.var = 2 := of_decide_eq_true hs
  rcases hv with hv | hv
  · by_cases hx : 0 ≤ (shiftPt exX.dims x p).getD 0 0
    · exact ⟨exXa, by simp [exX], hv.symm, decide_eq_true hx, rfl⟩
    · exact ⟨exXa', by simp [exX], hv.symm, decide_eq_true (by omega), rfl⟩
  · exact ⟨exXb, by simp [exX], hv.symm, rfl, rfl⟩

/-- Two steps of `u` are stored, as the compiler demands. -/
example : ((exX.hsys exXPQ.1 exXPQ.2).calcHalos 0).stepAlloc true 0 0 = 2 := by decide +kernel

theorem exX_fresh (t0 : Int) (v : Nat) : ¬ MayReadStale (exX.hsys exXPQ.1 exXPQ.2) v (2 : Nat) t0 exX.dir := by
  rintro ⟨n', i, e', w, n, j, e, p, k, ⟨st', hi, he'⟩, -, hw, ⟨st, hj, he⟩, hp, -, hk, hprec, hpos, hdvd⟩
  have hm : ∀ st ∈ mainStages (exX.hsys exXPQ.1 exXPQ.2), ∀ e ∈ stageEqs (exX.hsys exXPQ.1 exXPQ.2) st,
      (e.lhs.step = some 1 ∨ e.lhs.step = none) ∧ ∀ p ∈ e.rhs, p.step = some 0 ∨ p.step = none := by decide +kernel
  have h1 := (hm st' (List.mem_of_getElem? hi) e' he').1
  have h2 := (hm st (List.mem_of_getElem? hj) e he).2 p hp
  rw [hw] at h1
  rw [hk] at h2
  have h1 : w = 1 := by simpa using h1
  have h2 : k = 0 := by simpa using h2
  subst h1 h2
  have hd : exX.dir = 1 := rfl
  rw [hd] at hpos hdvd
  have hle : n' ≤ n := by rcases hprec with h | ⟨h, _⟩ <;> omega
  push_cast at hdvd
  omega

/-- Scratch parts as the compiler makes them, valid where their conditions hold. -/
def exXC : ScrCfg where
  children := kernelChildren exXPQ.1 exXPQ.2
  empty _ _ := false
  wl k j := writeHalo (exX.hsys exXPQ.1 exXPQ.2).calcHalos (((kernelScr exXPQ.1 exXPQ.2).getD k []).map exX.hpeq) (exX.dims.getD j "") true
  wr k j := writeHalo (exX.hsys exXPQ.1 exXPQ.2).calcHalos (((kernelScr exXPQ.1 exXPQ.2).getD k []).map exX.hpeq) (exX.dims.getD j "") false
  sdom k y := ((kernelScr exXPQ.1 exXPQ.2).getD k []).all fun e => (exX.eqn e).domIf y
  sstep _ _ := true

/-- `a` is evaluated in two more points on both sides, `b` in one. -/
example : exXC.wl 0 0 = 2 ∧ exXC.wr 1 0 = 2 ∧ exXC.wl 2 0 = 1 := by decide +kernel

theorem exX_stages : kernelStages exXPQ.1 exXPQ.2 = [[[Sum.inl ⟨0, by decide⟩]]] := by decide +kernel

theorem exX_stepIf (e : exX.Idx) (t : Int) : (exX.eqn e).stepIf t = true := by
  have hl : ∀ e ∈ exX.eqs ++ exX.scr, e.stepIf t = true := by
    intro e he
    simp only [exX, List.cons_append, List.nil_append, List.mem_cons, List.not_mem_nil, or_false] at he
    rcases he with rfl | rfl | rfl | rfl <;> rfl
  cases e with
  | inl e => exact hl _ (List.mem_append_left _ (List.getElem_mem _))
  | inr e => exact hl _ (List.mem_append_right _ (List.getElem_mem _))

theorem exX_setUp : SetUp exScrG exXC exX exXPQ.1 exXPQ.2 where
  nd := rfl
  nst := by rw [exX_stages]; rfl
  nparts := by
    intro st hst
    obtain rfl : st = 0 := by have : st < 1 := hst; omega
    rw [exX_stages]; rfl
  dom := by
    intro st p x
    constructor
    · intro h
      refine ⟨of_decide_eq_true h, fun e he => ?_⟩
      obtain ⟨e, rfl⟩ := main_inl exX_legal (compiled_x exX_listed exX_orders exX_compiles) he
      have : exX.eqn (.inl e) = exXu := List.mem_singleton.1 (show exX.eqs[e] ∈ [exXu] from List.getElem_mem _)
      rw [this]; rfl
    · rintro ⟨h, -⟩
      exact decide_eq_true h
  stepOk st p t := ⟨fun _ e _ => exX_stepIf e t, fun _ => rfl⟩
  children := rfl
  empty _ _ h := absurd h Bool.false_ne_true
  sdom k y h e he := List.all_eq_true.1 h e he
  sbox k y _ h := List.all_eq_true.2 h
  sstep k t := ⟨fun _ e _ => exX_stepIf e t, fun _ => rfl⟩
  wl _ _ := rfl
  wr _ _ := rfl
  halo := by
    have h : ∀ e ∈ exX.eqs ++ exX.scr, ∀ p ∈ e.rhs, exX.isScr p.var = false → ∀ left,
        ((exX.hsys exXPQ.1 exXPQ.2).calcHalos p.var).size "x" left ≤ 2 := by decide +kernel
    intro e he p hp hs j hj left
    obtain rfl : j = 0 := by have : j < 1 := hj; omega
    exact h e he p hp hs left

/-- Five steps from any memory, whatever the scratch vars contain: there is a history of the equations that starts with it, and every run
computes it. -/
example (s : Scr.Mem (Nat × Nat) Nat Int) : ∃ W A, exX.Evolves (InWhole exScrG) (fun _ => 2) 0 5 W A ∧ Stores exX.toUSoln (fun _ => 2) W 0 s.vars ∧
    ∀ tr, exXC.runSolution exScrG 0 4 tr →
      Stores exX.toUSoln (fun _ => 2) W 5 ((exX.kernel (exX.mainL exXPQ.1 exXPQ.2) (exX.scrK exXPQ.1 exXPQ.2) (fun _ => 2) exXC).exec tr s).vars := by
  have h := C60_scratch_run_partial (sz := fun _ => 2) (C := exXC) exX_listed exX_key exX_orders exX_compiles exX_legal (exX_covered (InWhole exScrG))
    (first := 0) (last := 4) (show (0 : Int) ≤ (4 - 0) * 1 by decide) (fun _ => by decide) (exX_fresh 0) (by
      have h : ∀ e ∈ exX.eqs ++ exX.scr, ∀ p ∈ e.rhs, p.step = some 0 ∨ p.step = none := by decide +kernel
      intro e he p hp _ k hk
      rcases h e he p hp with h | h <;> rw [h] at hk
      · injection hk with hk; subst hk; decide
      · cases hk) exX_setUp (demoCfg_ok 1 1 2 40 20 10 5 1 2 0 (by decide)) (demoCfg_single 1 1 2 40 20 10 5 1 2 0) (Or.inl rfl)
  obtain ⟨W, A, h1, h2⟩ := h.1 s.vars
  exact ⟨W, A, h1, h2, fun tr htr => h.2 W A h1 s h2 tr htr⟩

end Yask
