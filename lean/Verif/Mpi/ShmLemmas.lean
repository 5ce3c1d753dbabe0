import Verif.Mpi.ShmModel
import Mathlib.Data.List.Nodup
import Mathlib.Data.List.Basic

namespace Yask.Shm

variable {R C V : Type} [DecidableEq R] [DecidableEq C]

/-- Messages of the first `n` rounds. -/
def Net.expd (net : Net R C V) (c : C) (n : Nat) : List (List V) :=
  ((List.range n).filter fun k => net.used k c).map (net.msg c)

theorem expd_succ (net : Net R C V) (c : C) (n : Nat) :
    net.expd c (n + 1) = net.expd c n ++ (if net.used n c then [net.msg c n] else []) := by
  unfold Net.expd
  rw [List.range_succ, List.filter_append, List.map_append]
  by_cases h : net.used n c = true
  · simp [h]
  · simp [h]

theorem expd_le (net : Net R C V) (c : C) {n m : Nat} (h : n ≤ m) :
    net.expd c n <+: net.expd c m := by
  induction m with
  | zero => rw [Nat.le_zero.mp h]; exact List.prefix_refl _
  | succ m ih =>
    rcases Nat.lt_or_ge n (m + 1) with h' | h'
    · exact (ih (by omega)).trans (by rw [expd_succ]; exact List.prefix_append _ _)
    · have : n = m + 1 := by omega
      rw [this]; exact List.prefix_refl _

/-- What has been sent, from the position of the sender. -/
def sentL (net : Net R C V) (s : State R C V) (c : C) : List (List V) :=
  net.expd c (s.round (net.src c)) ++
    (if s.round (net.src c) < net.rounds ∧ net.used (s.round (net.src c)) c = true ∧
      Act.send c ∉ s.todo (net.src c) then [net.msg c (s.round (net.src c))] else [])

/-- What has been received, from the position of the receiver. -/
def recvL (net : Net R C V) (s : State R C V) (c : C) : List (List V) :=
  net.expd c (s.round (net.dst c)) ++
    (if s.round (net.dst c) < net.rounds ∧ net.used (s.round (net.dst c)) c = true ∧
      Act.recv c ∉ s.todo (net.dst c) then [net.msg c (s.round (net.dst c))] else [])

/-- The buffer holds the message. -/
def Holds (s : State R C V) (c : C) (m : List V) : Prop :=
  s.data c = m.length ∧ ∀ j (h : j < m.length), s.buf c j = m[j]

structure ChanOk (net : Net R C V) (s : State R C V) (c : C) : Prop where
  wc : s.wc c = 1000 + (sentL net s c).length
  rc : s.rc c = 1000 + (s.log c).length
  log : s.log c = recvL net s c
  buf : sentL net s c = s.log c ∨ ∃ m, sentL net s c = s.log c ++ [m] ∧ Holds s c m

/-- Where a rank is in its current action. -/
def MicroOk (net : Net R C V) (s : State R C V) (r : R) : Micro V → Prop
  | .idle => True
  | .writing j => ∃ c rest, s.todo r = .send c :: rest ∧ s.wc c = s.rc c ∧
      j ≤ (net.msg c (s.round r)).length ∧
      ∀ i (h : i < (net.msg c (s.round r)).length), i < j → s.buf c i = (net.msg c (s.round r))[i]
  | .sized => ∃ c rest, s.todo r = .send c :: rest ∧ s.wc c = s.rc c ∧
      Holds s c (net.msg c (s.round r))
  | .reading k acc => ∃ c rest, s.todo r = .recv c :: rest ∧ s.wc c ≠ s.rc c ∧ k = s.data c ∧
      acc.length ≤ k ∧ ∀ i (h : i < acc.length), acc[i] = s.buf c i

structure RankOk (net : Net R C V) (s : State R C V) (r : R) : Prop where
  le : s.round r ≤ net.rounds
  suff : s.todo r <:+ net.prog (s.round r) r
  micro : MicroOk net s r (s.micro r)

structure Inv (net : Net R C V) (s : State R C V) : Prop where
  chan : ∀ c, ChanOk net s c
  rank : ∀ r, RankOk net s r

theorem prog_nodup {net : Net R C V} (ok : net.Ok) (n : Nat) (r : R) : (net.prog n r).Nodup := by
  unfold Net.prog
  split
  · rw [List.nodup_append]
    refine ⟨(ok.outs_nodup n r).map (fun a b h => by cases h; rfl),
      (ok.ins_nodup n r).map (fun a b h => by cases h; rfl), ?_⟩
    intro a ha b hb e
    rw [List.mem_map] at ha hb
    obtain ⟨x, -, rfl⟩ := ha
    obtain ⟨y, -, rfl⟩ := hb
    cases e
  · exact List.nodup_nil

theorem mem_prog_send {net : Net R C V} (ok : net.Ok) (n : Nat) (r : R) (c : C) :
    Act.send c ∈ net.prog n r ↔ n < net.rounds ∧ net.used n c = true ∧ net.src c = r := by
  unfold Net.prog
  split
  · rename_i h
    simp [ok.outs_mem, h]
  · simp; omega

theorem mem_prog_recv {net : Net R C V} (ok : net.Ok) (n : Nat) (r : R) (c : C) :
    Act.recv c ∈ net.prog n r ↔ n < net.rounds ∧ net.used n c = true ∧ net.dst c = r := by
  unfold Net.prog
  split
  · rename_i h
    simp [ok.ins_mem, h]
  · simp; omega

theorem inv_init {net : Net R C V} (ok : net.Ok) (data : C → Nat) (buf : C → Nat → V) :
    Inv net (init net data buf) := by
  have e0 : ∀ c, net.expd c 0 = [] := fun c => rfl
  have hs : ∀ c, sentL net (init net data buf) c = [] := by
    intro c
    unfold sentL
    rw [if_neg]
    · exact List.append_nil _
    rintro ⟨h1, h2, h3⟩
    exact h3 ((mem_prog_send ok 0 _ c).mpr ⟨h1, h2, rfl⟩)
  have hr : ∀ c, recvL net (init net data buf) c = [] := by
    intro c
    unfold recvL
    rw [if_neg]
    · exact List.append_nil _
    rintro ⟨h1, h2, h3⟩
    exact h3 ((mem_prog_recv ok 0 _ c).mpr ⟨h1, h2, rfl⟩)
  constructor
  · intro c
    refine ⟨by rw [hs]; rfl, rfl, by rw [hr]; rfl, .inl (by rw [hs]; rfl)⟩
  · intro r
    exact ⟨Nat.zero_le _, List.suffix_refl _, trivial⟩

/-- A step that does not change rounds and programs keeps what has been sent and received. -/
theorem sentL_congr {net : Net R C V} {s t : State R C V} (h1 : t.round = s.round)
    (h2 : t.todo = s.todo) (c : C) : sentL net t c = sentL net s c := by
  unfold sentL; rw [h1, h2]

theorem recvL_congr {net : Net R C V} {s t : State R C V} (h1 : t.round = s.round)
    (h2 : t.todo = s.todo) (c : C) : recvL net t c = recvL net s c := by
  unfold recvL; rw [h1, h2]

/-- The pending message is the one of the receiver's current round. -/
theorem pending_eq {net : Net R C V} {s : State R C V} {c : C} {m : List V}
    (hl : s.log c = recvL net s c) (hs : sentL net s c = s.log c ++ [m])
    (hm : Act.recv c ∈ s.todo (net.dst c)) (hu : net.used (s.round (net.dst c)) c = true) :
    m = net.msg c (s.round (net.dst c)) := by
  have hr : recvL net s c = net.expd c (s.round (net.dst c)) := by
    unfold recvL; rw [if_neg (fun h => h.2.2 hm), List.append_nil]
  rw [hl, hr] at hs
  set a := s.round (net.src c) with ha
  set b := s.round (net.dst c) with hb
  have key : ∀ l, net.expd c (b + 1) <+: l → l = net.expd c b ++ [m] → m = net.msg c b := by
    intro l hp e
    rw [expd_succ, if_pos hu, e] at hp
    have := List.IsPrefix.eq_of_length hp (by simp)
    simpa using this.symm
  have hpre : net.expd c a <+: sentL net s c := by
    unfold sentL; rw [← ha]; exact List.prefix_append _ _
  rcases Nat.lt_trichotomy a b with h | h | h
  · exfalso
    have h1 : sentL net s c <+: net.expd c (a + 1) := by
      unfold sentL; rw [← ha, expd_succ]
      by_cases hc : a < net.rounds ∧ net.used a c = true ∧ Act.send c ∉ s.todo (net.src c)
      · rw [if_pos hc, if_pos hc.2.1]; exact List.prefix_refl _
      · rw [if_neg hc, List.append_nil]; exact List.prefix_append _ _
    have h2 := (h1.trans (expd_le net c (show a + 1 ≤ b by omega))).length_le
    rw [hs] at h2; simp at h2; omega
  · have h3 := hs
    unfold sentL at h3
    rw [← ha, h] at h3
    have h4 := List.append_cancel_left h3
    split at h4
    · simpa using h4.symm
    · cases h4
  · exact key _ ((expd_le net c (show b + 1 ≤ a by omega)).trans hpre) hs

theorem todo_send {net : Net R C V} (ok : net.Ok) {s : State R C V} {r : R} (h : RankOk net s r)
    {c : C} (hm : Act.send c ∈ s.todo r) :
    net.src c = r ∧ s.round r < net.rounds ∧ net.used (s.round r) c = true := by
  have := (mem_prog_send ok _ _ _).mp (h.suff.subset hm)
  exact ⟨this.2.2, this.1, this.2.1⟩

theorem todo_recv {net : Net R C V} (ok : net.Ok) {s : State R C V} {r : R} (h : RankOk net s r)
    {c : C} (hm : Act.recv c ∈ s.todo r) :
    net.dst c = r ∧ s.round r < net.rounds ∧ net.used (s.round r) c = true := by
  have := (mem_prog_recv ok _ _ _).mp (h.suff.subset hm)
  exact ⟨this.2.2, this.1, this.2.1⟩

theorem rank_frame {net : Net R C V} {s t : State R C V} {r : R} (h : RankOk net s r)
    (e1 : t.round r = s.round r) (e2 : t.todo r = s.todo r) (e3 : t.micro r = s.micro r)
    (hc : ∀ c rest, (s.todo r = .send c :: rest ∨ s.todo r = .recv c :: rest ∧ s.wc c ≠ s.rc c) →
      t.wc c = s.wc c ∧ t.rc c = s.rc c ∧ t.data c = s.data c ∧ t.buf c = s.buf c) :
    RankOk net t r := by
  refine ⟨by rw [e1]; exact h.le, by rw [e1, e2]; exact h.suff, ?_⟩
  have hm := h.micro
  rw [e3]
  cases hmi : s.micro r with
  | idle => trivial
  | writing j =>
    rw [hmi] at hm
    obtain ⟨c, rest, h1, h2, h3, h4⟩ := hm
    obtain ⟨a1, a2, a3, a4⟩ := hc c rest (.inl h1)
    exact ⟨c, rest, by rw [e2, h1], by rw [a1, a2, h2], by rw [e1]; exact h3, by rw [e1, a4]; exact h4⟩
  | sized =>
    rw [hmi] at hm
    obtain ⟨c, rest, h1, h2, h3, h4⟩ := hm
    obtain ⟨a1, a2, a3, a4⟩ := hc c rest (.inl h1)
    exact ⟨c, rest, by rw [e2, h1], by rw [a1, a2, h2], by rw [e1]; unfold Holds; rw [a3, a4]; exact ⟨h3, h4⟩⟩
  | reading k acc =>
    rw [hmi] at hm
    obtain ⟨c, rest, h1, h2, h3, h4, h5⟩ := hm
    obtain ⟨a1, a2, a3, a4⟩ := hc c rest (.inr ⟨h1, h2⟩)
    exact ⟨c, rest, by rw [e2, h1], by rw [a1, a2]; exact h2, by rw [a3]; exact h3, h4, by rw [a4]; exact h5⟩

theorem chan_frame {net : Net R C V} {s t : State R C V} {c : C} (h : ChanOk net s c)
    (e1 : sentL net t c = sentL net s c) (e2 : recvL net t c = recvL net s c)
    (e3 : t.wc c = s.wc c) (e4 : t.rc c = s.rc c) (e5 : t.log c = s.log c)
    (e6 : s.wc c ≠ s.rc c → t.data c = s.data c ∧ t.buf c = s.buf c) : ChanOk net t c := by
  refine ⟨by rw [e1, e3]; exact h.wc, by rw [e4, e5]; exact h.rc, by rw [e2, e5]; exact h.log, ?_⟩
  rw [e1, e5]
  rcases h.buf with hb | ⟨m, hb, hh⟩
  · exact .inl hb
  · refine .inr ⟨m, hb, ?_⟩
    have hne : s.wc c ≠ s.rc c := by rw [h.wc, h.rc, hb]; simp; omega
    obtain ⟨a, b⟩ := e6 hne
    unfold Holds; rw [a, b]; exact hh

theorem sentL_tail {net : Net R C V} {s t : State R C V} {r : R} {a : Act C} {rest : List (Act C)}
    (hr : t.round = s.round) (ht : s.todo r = a :: rest)
    (ht' : t.todo = Function.update s.todo r rest) (c : C) (hne : a ≠ .send c) :
    sentL net t c = sentL net s c := by
  have : Act.send c ∉ t.todo (net.src c) ↔ Act.send c ∉ s.todo (net.src c) := by
    rw [ht']
    by_cases e : net.src c = r
    · rw [e, Function.update_self, ht, List.mem_cons]
      constructor
      · rintro h (h' | h')
        · exact hne h'.symm
        · exact h h'
      · exact fun h h' => h (.inr h')
    · rw [Function.update_of_ne e]
  unfold sentL
  rw [hr]
  simp only [this]

theorem recvL_tail {net : Net R C V} {s t : State R C V} {r : R} {a : Act C} {rest : List (Act C)}
    (hr : t.round = s.round) (ht : s.todo r = a :: rest)
    (ht' : t.todo = Function.update s.todo r rest) (c : C) (hne : a ≠ .recv c) :
    recvL net t c = recvL net s c := by
  have : Act.recv c ∉ t.todo (net.dst c) ↔ Act.recv c ∉ s.todo (net.dst c) := by
    rw [ht']
    by_cases e : net.dst c = r
    · rw [e, Function.update_self, ht, List.mem_cons]
      constructor
      · rintro h (h' | h')
        · exact hne h'.symm
        · exact h h'
      · exact fun h h' => h (.inr h')
    · rw [Function.update_of_ne e]
  unfold recvL
  rw [hr]
  simp only [this]

theorem not_mem_rest {net : Net R C V} (ok : net.Ok) {s : State R C V} {r : R} (h : RankOk net s r)
    {a : Act C} {rest : List (Act C)} (ht : s.todo r = a :: rest) : a ∉ rest := by
  have hn := h.suff.sublist.nodup (prog_nodup ok _ _)
  rw [ht] at hn
  exact (List.nodup_cons.mp hn).1

/-- Case: next round. -/
theorem inv_round {net : Net R C V} (ok : net.Ok) {s : State R C V} (hi : Inv net s) {r : R}
    (hm : s.micro r = .idle) (ht : s.todo r = []) (hlt : s.round r < net.rounds) :
    Inv net { s with
        round := Function.update s.round r (s.round r + 1)
        todo := Function.update s.todo r (net.prog (s.round r + 1) r) } := by
  set t : State R C V := { s with
        round := Function.update s.round r (s.round r + 1)
        todo := Function.update s.todo r (net.prog (s.round r + 1) r) } with htdef
  have hs : ∀ c, sentL net t c = sentL net s c := by
    intro c
    by_cases e : net.src c = r
    · have er : t.round (net.src c) = s.round r + 1 := by rw [e]; exact Function.update_self ..
      have et : t.todo (net.src c) = net.prog (s.round r + 1) r := by rw [e]; exact Function.update_self ..
      unfold sentL
      rw [er, et, e, ht, expd_succ, List.append_assoc]
      congr 1
      rw [if_neg (c := _ < _ ∧ _ ∧ Act.send c ∉ net.prog _ r), List.append_nil]
      · by_cases hu : net.used (s.round r) c = true
        · rw [if_pos hu, if_pos ⟨hlt, hu, by simp⟩]
        · rw [if_neg hu, if_neg (fun h => hu h.2.1)]
      · rintro ⟨h1, h2, h3⟩
        exact h3 ((mem_prog_send ok _ _ _).mpr ⟨h1, h2, e⟩)
    · have er : t.round (net.src c) = s.round (net.src c) := Function.update_of_ne e ..
      have et : t.todo (net.src c) = s.todo (net.src c) := Function.update_of_ne e ..
      unfold sentL
      rw [er, et]
  have hr : ∀ c, recvL net t c = recvL net s c := by
    intro c
    by_cases e : net.dst c = r
    · have er : t.round (net.dst c) = s.round r + 1 := by rw [e]; exact Function.update_self ..
      have et : t.todo (net.dst c) = net.prog (s.round r + 1) r := by rw [e]; exact Function.update_self ..
      unfold recvL
      rw [er, et, e, ht, expd_succ, List.append_assoc]
      congr 1
      rw [if_neg (c := _ < _ ∧ _ ∧ Act.recv c ∉ net.prog _ r), List.append_nil]
      · by_cases hu : net.used (s.round r) c = true
        · rw [if_pos hu, if_pos ⟨hlt, hu, by simp⟩]
        · rw [if_neg hu, if_neg (fun h => hu h.2.1)]
      · rintro ⟨h1, h2, h3⟩
        exact h3 ((mem_prog_recv ok _ _ _).mpr ⟨h1, h2, e⟩)
    · have er : t.round (net.dst c) = s.round (net.dst c) := Function.update_of_ne e ..
      have et : t.todo (net.dst c) = s.todo (net.dst c) := Function.update_of_ne e ..
      unfold recvL
      rw [er, et]
  constructor
  · intro c
    exact chan_frame (hi.chan c) (hs c) (hr c) rfl rfl rfl (fun _ => ⟨rfl, rfl⟩)
  · intro r'
    by_cases e : r' = r
    · subst e
      have er : t.round r' = s.round r' + 1 := Function.update_self ..
      have et : t.todo r' = net.prog (s.round r' + 1) r' := Function.update_self ..
      refine ⟨by rw [er]; omega, by rw [er, et]; exact List.suffix_refl _, ?_⟩
      have : t.micro r' = .idle := hm
      rw [this]; trivial
    · exact rank_frame (hi.rank r') (Function.update_of_ne e ..) (Function.update_of_ne e ..) rfl
        (fun _ _ _ => ⟨rfl, rfl, rfl, rfl⟩)

/-- Case: a rank changes only its own micro state. -/
theorem inv_micro {net : Net R C V} {s : State R C V} (hi : Inv net s) {r : R} (x : Micro V)
    (hx : RankOk net { s with micro := Function.update s.micro r x } r) :
    Inv net { s with micro := Function.update s.micro r x } := by
  constructor
  · intro c
    exact chan_frame (hi.chan c) (sentL_congr rfl rfl c) (recvL_congr rfl rfl c) rfl rfl rfl
      (fun _ => ⟨rfl, rfl⟩)
  · intro r'
    by_cases e : r' = r
    · subst e; exact hx
    · exact rank_frame (hi.rank r') rfl rfl (Function.update_of_ne e ..)
        (fun _ _ _ => ⟨rfl, rfl, rfl, rfl⟩)

/-- Case: the sender changes the contents or the size of the buffer. -/
theorem inv_fill {net : Net R C V} (ok : net.Ok) {s t : State R C V} (hi : Inv net s) {r : R} {c : C}
    {rest : List (Act C)} (ht : s.todo r = .send c :: rest) (hw : s.wc c = s.rc c)
    (e1 : t.round = s.round) (e2 : t.todo = s.todo) (e3 : ∀ r', r' ≠ r → t.micro r' = s.micro r')
    (e4 : t.wc = s.wc) (e5 : t.rc = s.rc) (e6 : t.log = s.log)
    (e7 : ∀ c', c' ≠ c → t.data c' = s.data c' ∧ t.buf c' = s.buf c')
    (hx : RankOk net t r) : Inv net t := by
  constructor
  · intro c'
    refine chan_frame (hi.chan c') (sentL_congr e1 e2 c') (recvL_congr e1 e2 c') (by rw [e4])
      (by rw [e5]) (by rw [e6]) ?_
    intro hne
    exact e7 c' (fun h => hne (by rw [h]; exact hw))
  · intro r'
    by_cases e : r' = r
    · subst e; exact hx
    · refine rank_frame (hi.rank r') (by rw [e1]) (by rw [e2]) (e3 r' e) ?_
      intro c' rest' h
      have : c' ≠ c := by
        rintro rfl
        rcases h with h | ⟨h, hne⟩
        · have a := (todo_send ok (hi.rank r') (by rw [h]; exact List.mem_cons_self)).1
          have b := (todo_send ok (hi.rank r) (by rw [ht]; exact List.mem_cons_self)).1
          exact e (a.symm.trans b)
        · exact hne hw
      exact ⟨by rw [e4], by rw [e5], (e7 c' this).1, (e7 c' this).2⟩

/-- Case: `mark_write_done`. -/
theorem inv_sent {net : Net R C V} (ok : net.Ok) {s : State R C V} (hi : Inv net s) {r : R} {c : C}
    {rest : List (Act C)} (ht : s.todo r = .send c :: rest) (hw : s.wc c = s.rc c)
    (hh : Holds s c (net.msg c (s.round r))) :
    Inv net { s with
      wc := Function.update s.wc c (s.wc c + 1)
      micro := Function.update s.micro r .idle
      todo := Function.update s.todo r rest } := by
  set t : State R C V := { s with
      wc := Function.update s.wc c (s.wc c + 1)
      micro := Function.update s.micro r .idle
      todo := Function.update s.todo r rest } with htd
  obtain ⟨hsrc, hlt, hu⟩ := todo_send ok (hi.rank r) (c := c) (by rw [ht]; exact List.mem_cons_self)
  have hnr := not_mem_rest ok (hi.rank r) ht
  constructor
  · intro c'
    have hrv : recvL net t c' = recvL net s c' := recvL_tail (s := s) (t := t) (a := .send c) rfl ht rfl c' (by simp)
    by_cases e : c' = c
    · subst e
      have h0 : sentL net s c' = net.expd c' (s.round r) := by
        unfold sentL
        rw [hsrc, ht, if_neg (fun h => h.2.2 List.mem_cons_self), List.append_nil]
      have h1 : sentL net t c' = sentL net s c' ++ [net.msg c' (s.round r)] := by
        rw [h0]
        unfold sentL
        have et : t.todo (net.src c') = rest := by rw [hsrc]; exact Function.update_self ..
        rw [et, hsrc]
        congr 1
        exact if_pos ⟨hlt, hu, hnr⟩
      have hc := hi.chan c'
      have hsl : sentL net s c' = s.log c' := by
        rcases hc.buf with hb | ⟨m, hb, -⟩
        · exact hb
        · exfalso; have h2 := hc.wc; have h3 := hc.rc; rw [hb] at h2; simp at h2; omega
      refine ⟨?_, hc.rc, by rw [hrv]; exact hc.log, .inr ⟨_, by rw [h1, hsl], hh⟩⟩
      have : t.wc c' = s.wc c' + 1 := Function.update_self ..
      rw [this, h1, hc.wc]; simp; omega
    · exact chan_frame (hi.chan c') (sentL_tail (s := s) (t := t) (a := .send c) rfl ht rfl c' (by simpa using Ne.symm e)) hrv
        (Function.update_of_ne e ..) rfl rfl (fun _ => ⟨rfl, rfl⟩)
  · intro r'
    by_cases e : r' = r
    · subst e
      have et : t.todo r' = rest := Function.update_self ..
      have em : t.micro r' = .idle := Function.update_self ..
      refine ⟨(hi.rank r').le, ?_, by rw [em]; trivial⟩
      rw [et]
      refine List.IsSuffix.trans ?_ (hi.rank r').suff
      rw [ht]; exact List.suffix_cons _ _
    · refine rank_frame (hi.rank r') rfl (Function.update_of_ne e ..) (Function.update_of_ne e ..) ?_
      intro c' rest' h
      have : c' ≠ c := by
        rintro rfl
        rcases h with h | ⟨h, hne⟩
        · have a := (todo_send ok (hi.rank r') (by rw [h]; exact List.mem_cons_self)).1
          exact e (a.symm.trans hsrc)
        · exact hne hw
      exact ⟨Function.update_of_ne this .., rfl, rfl, rfl⟩

/-- Case: `mark_read_done`. -/
theorem inv_read {net : Net R C V} (ok : net.Ok) {s : State R C V} (hi : Inv net s) {r : R} {c : C}
    {rest : List (Act C)} {acc : List V} (ht : s.todo r = .recv c :: rest) (hw : s.wc c ≠ s.rc c)
    (hk : acc.length = s.data c) (ha : ∀ i (h : i < acc.length), acc[i] = s.buf c i) :
    Inv net { s with
        rc := Function.update s.rc c (s.rc c + 1)
        log := Function.update s.log c (s.log c ++ [acc])
        micro := Function.update s.micro r .idle
        todo := Function.update s.todo r rest } := by
  set t : State R C V := { s with
        rc := Function.update s.rc c (s.rc c + 1)
        log := Function.update s.log c (s.log c ++ [acc])
        micro := Function.update s.micro r .idle
        todo := Function.update s.todo r rest } with htd
  have hmem : Act.recv c ∈ s.todo r := by rw [ht]; exact List.mem_cons_self
  obtain ⟨hdst, hlt, hu⟩ := todo_recv ok (hi.rank r) (c := c) hmem
  have hnr := not_mem_rest ok (hi.rank r) ht
  constructor
  · intro c'
    have hsv : sentL net t c' = sentL net s c' := sentL_tail (s := s) (t := t) (a := .recv c) rfl ht rfl c' (by simp)
    by_cases e : c' = c
    · subst e
      have hc := hi.chan c'
      obtain ⟨m, hsl, hh⟩ : ∃ m, sentL net s c' = s.log c' ++ [m] ∧ Holds s c' m := by
        rcases hc.buf with hb | hb
        · exfalso; apply hw; rw [hc.wc, hc.rc, hb]
        · exact hb
      have hmm : m = net.msg c' (s.round (net.dst c')) :=
        pending_eq hc.log hsl (by rw [hdst]; exact hmem) (by rw [hdst]; exact hu)
      have hacc : acc = m := by
        apply List.ext_getElem (by rw [hk, hh.1])
        intro i h1 h2
        rw [ha i h1, hh.2 i h2]
      have h0 : recvL net s c' = net.expd c' (s.round r) := by
        unfold recvL
        rw [hdst, ht, if_neg (fun h => h.2.2 List.mem_cons_self), List.append_nil]
      have h1 : recvL net t c' = recvL net s c' ++ [net.msg c' (s.round r)] := by
        rw [h0]
        unfold recvL
        have et : t.todo (net.dst c') = rest := by rw [hdst]; exact Function.update_self ..
        rw [et, hdst]
        congr 1
        exact if_pos ⟨hlt, hu, hnr⟩
      have el : t.log c' = s.log c' ++ [acc] := Function.update_self ..
      refine ⟨by rw [hsv]; exact hc.wc, ?_, ?_, .inl ?_⟩
      · have : t.rc c' = s.rc c' + 1 := Function.update_self ..
        rw [this, el, hc.rc]; simp; omega
      · rw [el, h1, ← hc.log, hacc, hmm, hdst]
      · rw [hsv, hsl, el, hacc]
    · exact chan_frame (hi.chan c') hsv (recvL_tail (s := s) (t := t) (a := .recv c) rfl ht rfl c' (by simpa using Ne.symm e))
        rfl (Function.update_of_ne e ..) (Function.update_of_ne e ..) (fun _ => ⟨rfl, rfl⟩)
  · intro r'
    by_cases e : r' = r
    · subst e
      have et : t.todo r' = rest := Function.update_self ..
      have em : t.micro r' = .idle := Function.update_self ..
      refine ⟨(hi.rank r').le, ?_, by rw [em]; trivial⟩
      rw [et]
      refine List.IsSuffix.trans ?_ (hi.rank r').suff
      rw [ht]; exact List.suffix_cons _ _
    · have hm := (hi.rank r').micro
      by_cases hidle : s.micro r' = .idle
      · refine ⟨(hi.rank r').le, ?_, ?_⟩
        · have : t.todo r' = s.todo r' := Function.update_of_ne e ..
          rw [this]; exact (hi.rank r').suff
        · have : t.micro r' = .idle := by rw [← hidle]; exact Function.update_of_ne e ..
          rw [this]; trivial
      · refine rank_frame (hi.rank r') rfl (Function.update_of_ne e ..) (Function.update_of_ne e ..) ?_
        intro c' rest' h
        have : c' ≠ c := by
          rintro rfl
          rcases h with h | ⟨h, hne⟩
          · cases hmi : s.micro r' with
            | idle => exact hidle hmi
            | writing j =>
              rw [hmi] at hm
              obtain ⟨c2, rest2, h1, h2, -⟩ := hm
              rw [h] at h1; cases h1; exact hw h2
            | sized =>
              rw [hmi] at hm
              obtain ⟨c2, rest2, h1, h2, -⟩ := hm
              rw [h] at h1; cases h1; exact hw h2
            | reading k acc =>
              rw [hmi] at hm
              obtain ⟨c2, rest2, h1, -⟩ := hm
              rw [h] at h1; cases h1
          · have a := (todo_recv ok (hi.rank r') (by rw [h]; exact List.mem_cons_self)).1
            exact e (a.symm.trans hdst)
        exact ⟨rfl, Function.update_of_ne this .., rfl, rfl⟩

theorem inv_step {net : Net R C V} (ok : net.Ok) {s t : State R C V} (hi : Inv net s) {r : R}
    (h : stepRank net s r = some t) : Inv net t := by
  have hrk := hi.rank r
  have hm := hrk.micro
  unfold stepRank at h
  split at h
  · rename_i hmi ht
    split at h
    · rename_i hlt; cases h; exact inv_round ok hi hmi ht hlt
    · cases h
  · rename_i c rest hmi ht
    split at h
    · rename_i hw
      cases h
      apply inv_micro hi
      refine ⟨hrk.le, hrk.suff, ?_⟩
      show MicroOk net _ r (Function.update s.micro r (Micro.writing 0) r)
      rw [Function.update_self]
      exact ⟨c, rest, ht, hw, Nat.zero_le _, fun i _ h => absurd h (Nat.not_lt_zero i)⟩
    · cases h
  · rename_i j c rest hmi ht
    rw [hmi] at hm
    obtain ⟨c2, rest2, h1, hw, hj, hb⟩ := hm
    rw [ht] at h1; cases h1
    split at h
    · rename_i x hx
      cases h
      refine inv_fill ok hi ht hw rfl rfl (fun r' e => Function.update_of_ne e ..) rfl rfl rfl
        (fun c' e => ⟨rfl, Function.update_of_ne e ..⟩) ?_
      refine ⟨hrk.le, hrk.suff, ?_⟩
      show MicroOk net _ r (Function.update s.micro r (Micro.writing (j + 1)) r)
      rw [Function.update_self]
      obtain ⟨hlt, hx'⟩ := List.getElem?_eq_some_iff.mp hx
      refine ⟨c, rest, ht, hw, hlt, ?_⟩
      intro i hi' hij
      show Function.update s.buf c _ c i = _
      rw [Function.update_self]
      by_cases e : i = j
      · subst e; rw [Function.update_self, hx']
      · rw [Function.update_of_ne e]; exact hb i hi' (by omega)
    · rename_i hx
      cases h
      have hlen : (net.msg c (s.round r)).length ≤ j := List.getElem?_eq_none_iff.mp hx
      refine inv_fill ok hi ht hw rfl rfl (fun r' e => Function.update_of_ne e ..) rfl rfl rfl
        (fun c' e => ⟨Function.update_of_ne e .., rfl⟩) ?_
      refine ⟨hrk.le, hrk.suff, ?_⟩
      show MicroOk net _ r (Function.update s.micro r Micro.sized r)
      rw [Function.update_self]
      refine ⟨c, rest, ht, hw, Function.update_self .., ?_⟩
      intro i hi'
      exact hb i hi' (Nat.lt_of_lt_of_le hi' hlen)
  · rename_i c rest hmi ht
    rw [hmi] at hm
    obtain ⟨c2, rest2, h1, hw, hh⟩ := hm
    rw [ht] at h1; cases h1
    cases h
    exact inv_sent ok hi ht hw hh
  · rename_i c rest hmi ht
    split at h
    · rename_i hw
      cases h
      apply inv_micro hi
      refine ⟨hrk.le, hrk.suff, ?_⟩
      show MicroOk net _ r (Function.update s.micro r (Micro.reading (s.data c) []) r)
      rw [Function.update_self]
      exact ⟨c, rest, ht, hw, rfl, Nat.zero_le _, fun i h => absurd h (Nat.not_lt_zero i)⟩
    · cases h
  · rename_i k acc c rest hmi ht
    rw [hmi] at hm
    obtain ⟨c2, rest2, h1, hw, hk, hle, hb⟩ := hm
    rw [ht] at h1; cases h1
    split at h
    · rename_i hlt
      cases h
      apply inv_micro hi
      refine ⟨hrk.le, hrk.suff, ?_⟩
      show MicroOk net _ r (Function.update s.micro r (Micro.reading k (acc ++ [s.buf c acc.length])) r)
      rw [Function.update_self]
      refine ⟨c, rest, ht, hw, hk, by simp; omega, ?_⟩
      intro i hi'
      rw [List.getElem_append]
      split
      · exact hb i _
      · rename_i hge
        rw [List.length_append, List.length_singleton] at hi'
        have : i = acc.length := by omega
        subst this
        simp
    · rename_i hge
      cases h
      exact inv_read ok hi ht hw (by omega) hb
  · cases h

theorem inv_reach {net : Net R C V} (ok : net.Ok) {s t : State R C V} {n : Nat} (hi : Inv net s)
    (h : Reach net s t n) : Inv net t := by
  induction h with
  | refl => exact hi
  | step t u r n _ h2 ih => exact inv_step ok ih h2

theorem log_prefix {net : Net R C V} {s : State R C V} (hi : Inv net s) (c : C) :
    s.log c <+: net.expd c net.rounds := by
  rw [(hi.chan c).log]
  unfold recvL
  have hle := (hi.rank (net.dst c)).le
  split
  · rename_i h
    have := expd_le net c (show s.round (net.dst c) + 1 ≤ net.rounds from h.1)
    rwa [expd_succ, if_pos h.2.1] at this
  · rw [List.append_nil]; exact expd_le net c hle

/-- Position of a rank: its round, then sending before receiving. -/
def key (s : State R C V) (r : R) : Nat :=
  2 * s.round r + (match s.todo r with | .send _ :: _ => 0 | _ => 1)

theorem key_le (s : State R C V) (r : R) : key s r ≤ 2 * s.round r + 1 := by
  unfold key; split <;> omega

theorem recv_mem_no_send {net : Net R C V} {s : State R C V} {r : R} (h : RankOk net s r)
    {c c' : C} {rest : List (Act C)} (ht : s.todo r = .recv c :: rest) : Act.send c' ∉ s.todo r := by
  intro hm
  have hs := h.suff
  rw [ht] at hs hm
  unfold Net.prog at hs
  split at hs
  · obtain ⟨pre, e⟩ := hs
    have hm' : Act.send c' ∈ rest := by
      rcases List.mem_cons.mp hm with h' | h'
      · cases h'
      · exact h'
    obtain ⟨l1, l2, rfl⟩ := List.append_of_mem hm'
    rcases List.append_eq_append_iff.mp e with ⟨l, h1, h2⟩ | ⟨l, h1, h2⟩
    · -- the recv is among the sends, or the program splits before it
      have : Act.recv c :: (l1 ++ Act.send c' :: l2) = l ++ List.map Act.recv _ := h2
      cases l with
      | nil =>
        have hx : Act.send c' ∈ List.map Act.recv (net.ins (s.round r) r) := by
          rw [List.nil_append] at this
          rw [← this]; simp
        obtain ⟨y, -, hy⟩ := List.mem_map.mp hx
        cases hy
      | cons a l =>
        rw [List.cons_append] at this
        have ha : Act.recv c = a := (List.cons.inj this).1
        have hx : Act.recv c ∈ List.map Act.send (net.outs (s.round r) r) := by
          rw [h1, ha]; simp
        obtain ⟨y, -, hy⟩ := List.mem_map.mp hx
        cases hy
    · have hx : Act.send c' ∈ List.map Act.recv (net.ins (s.round r) r) := by
        rw [h2]; simp
      obtain ⟨y, -, hy⟩ := List.mem_map.mp hx
      cases hy
  · obtain ⟨pre, e⟩ := hs
    simp at e

/-- A rank that has not finished and is at the least position can move. -/
theorem min_moves {net : Net R C V} (ok : net.Ok) {s : State R C V} (hi : Inv net s) {r : R}
    (hr : s.round r < net.rounds)
    (hmin : ∀ r', s.round r' < net.rounds → key s r ≤ key s r') : (stepRank net s r).isSome := by
  have hrk := hi.rank r
  have hm := hrk.micro
  unfold stepRank
  cases hmi : s.micro r with
  | idle =>
    cases ht : s.todo r with
    | nil => simp only [if_pos hr]; rfl
    | cons a rest =>
      cases a with
      | send c =>
        obtain ⟨hsrc, -, hu⟩ := todo_send ok hrk (c := c) (by rw [ht]; exact List.mem_cons_self)
        have hw : s.wc c = s.rc c := by
          by_contra hne
          have hc := hi.chan c
          rcases hc.buf with hb | ⟨m, hb, -⟩
          · apply hne; rw [hc.wc, hc.rc, hb]
          · have hsl : sentL net s c = net.expd c (s.round r) := by
              unfold sentL
              rw [hsrc, ht, if_neg (fun h => h.2.2 List.mem_cons_self), List.append_nil]
            have hlt : s.round (net.dst c) < s.round r := by
              by_contra hge
              have h1 : net.expd c (s.round r) <+: recvL net s c :=
                (expd_le net c (show s.round r ≤ s.round (net.dst c) by omega)).trans
                  (List.prefix_append _ _)
              have h2 := h1.length_le
              rw [← hsl, hb, ← hc.log] at h2
              simp at h2
              omega
            have h3 := hmin (net.dst c) (by omega)
            have h4 := key_le s (net.dst c)
            have h5 : key s r = 2 * s.round r := by unfold key; rw [ht]; rfl
            omega
        simp only [if_pos hw]; rfl
      | recv c =>
        obtain ⟨hdst, -, hu⟩ := todo_recv ok hrk (c := c) (by rw [ht]; exact List.mem_cons_self)
        have hw : s.wc c ≠ s.rc c := by
          intro he
          have hc := hi.chan c
          have hsl : sentL net s c = s.log c := by
            rcases hc.buf with hb | ⟨m, hb, -⟩
            · exact hb
            · exfalso; have h2 := hc.wc; have h3 := hc.rc; rw [hb] at h2; simp at h2; omega
          have hrl : recvL net s c = net.expd c (s.round r) := by
            unfold recvL
            rw [hdst, ht, if_neg (fun h => h.2.2 List.mem_cons_self), List.append_nil]
          rw [hc.log, hrl] at hsl
          -- the sender is behind
          have hlen : ∀ l, net.expd c (s.round r + 1) <+: l → l ≠ net.expd c (s.round r) := by
            intro l hp e
            have := hp.length_le
            rw [expd_succ, if_pos hu, e] at this
            simp at this
            omega
          have hle : s.round (net.src c) ≤ s.round r := by
            by_contra hgt
            exact hlen _ ((expd_le net c (show s.round r + 1 ≤ s.round (net.src c) by omega)).trans
              (List.prefix_append _ _)) hsl
          have hsk : key s (net.src c) < key s r := by
            have hkr : key s r = 2 * s.round r + 1 := by unfold key; rw [ht]
            rw [hkr]
            rcases Nat.lt_or_ge (s.round (net.src c)) (s.round r) with h | h
            · unfold key; split <;> omega
            · have heq : s.round (net.src c) = s.round r := by omega
              have hin : Act.send c ∈ s.todo (net.src c) := by
                by_contra hnot
                apply hlen _ (List.prefix_refl _)
                rw [← hsl, expd_succ, if_pos hu]
                unfold sentL
                rw [if_pos ⟨by omega, by rw [heq]; exact hu, hnot⟩, heq]
              have hrs := hi.rank (net.src c)
              unfold key
              cases hts : s.todo (net.src c) with
              | nil => rw [hts] at hin; cases hin
              | cons a' rest' =>
                cases a' with
                | send c' => simp only; omega
                | recv c' => exact absurd hin (recv_mem_no_send hrs hts)
          have := hmin (net.src c) (by omega)
          omega
        simp only [if_pos hw]; rfl
  | writing j =>
    rw [hmi] at hm
    obtain ⟨c, rest, ht, -⟩ := hm
    rw [ht]
    simp only
    cases (net.msg c (s.round r))[j]? <;> rfl
  | sized =>
    rw [hmi] at hm
    obtain ⟨c, rest, ht, -⟩ := hm
    rw [ht]; rfl
  | reading k acc =>
    rw [hmi] at hm
    obtain ⟨c, rest, ht, -⟩ := hm
    rw [ht]
    simp only
    split <;> rfl

/-- Progress inside the current action. -/
def Micro.idx (B : Nat) : Micro V → Nat
  | .idle => 0
  | .writing j => j + 1
  | .sized => B + 2
  | .reading _ acc => acc.length + 1

/-- Bound on the number of steps a rank can still take. -/
def pot (net : Net R C V) (B P : Nat) (s : State R C V) (r : R) : Nat :=
  ((net.rounds - s.round r) * (P + 1) + (s.todo r).length) * (B + 3) - (s.micro r).idx B

theorem pot_congr {net : Net R C V} {B P : Nat} {s t : State R C V} {r : R}
    (e1 : t.round r = s.round r) (e2 : t.todo r = s.todo r) (e3 : t.micro r = s.micro r) :
    pot net B P t r = pot net B P s r := by
  unfold pot; rw [e1, e2, e3]

theorem pot_step {net : Net R C V} {B P : Nat} (hB : ∀ c n, (net.msg c n).length ≤ B)
    (hP : ∀ n r, (net.prog n r).length ≤ P) {s t : State R C V} (hi : Inv net s) {r : R}
    (h : stepRank net s r = some t) :
    pot net B P t r < pot net B P s r ∧ ∀ r', r' ≠ r → pot net B P t r' = pot net B P s r' := by
  have hm := (hi.rank r).micro
  unfold stepRank at h
  split at h
  · rename_i hmi ht
    split at h
    · rename_i hlt
      cases h
      refine ⟨?_, fun r' e => pot_congr (Function.update_of_ne e ..) (Function.update_of_ne e ..) rfl⟩
      unfold pot
      simp only [Function.update_self, hmi, ht, Micro.idx, List.length_nil]
      obtain ⟨d, hd⟩ : ∃ d, net.rounds - s.round r = d + 1 := ⟨net.rounds - s.round r - 1, by omega⟩
      have hd' : net.rounds - (s.round r + 1) = d := by omega
      rw [hd, hd']
      have := hP (s.round r + 1) r
      simp only [Nat.sub_zero]
      apply Nat.mul_lt_mul_of_pos_right _ (by omega)
      rw [Nat.succ_mul]; omega
    · cases h
  · rename_i c rest hmi ht
    split at h
    · cases h
      refine ⟨?_, fun r' e => pot_congr rfl rfl (Function.update_of_ne e ..)⟩
      unfold pot
      simp only [Function.update_self, hmi, ht, Micro.idx, List.length_cons]
      rw [← Nat.add_assoc, Nat.succ_mul]; omega
    · cases h
  · rename_i j c rest hmi ht
    rw [hmi] at hm
    obtain ⟨c2, rest2, h1, hw, hj, hb⟩ := hm
    rw [ht] at h1; cases h1
    split at h
    · rename_i x hx
      cases h
      obtain ⟨hlt, -⟩ := List.getElem?_eq_some_iff.mp hx
      refine ⟨?_, fun r' e => pot_congr rfl rfl (Function.update_of_ne e ..)⟩
      have := hB c (s.round r)
      unfold pot
      simp only [Function.update_self, hmi, ht, Micro.idx, List.length_cons]
      rw [← Nat.add_assoc, Nat.succ_mul]; omega
    · rename_i hx
      cases h
      refine ⟨?_, fun r' e => pot_congr rfl rfl (Function.update_of_ne e ..)⟩
      have := hB c (s.round r)
      unfold pot
      simp only [Function.update_self, hmi, ht, Micro.idx, List.length_cons]
      rw [← Nat.add_assoc, Nat.succ_mul]; omega
  · rename_i c rest hmi ht
    cases h
    refine ⟨?_, fun r' e => pot_congr rfl (Function.update_of_ne e ..) (Function.update_of_ne e ..)⟩
    unfold pot
    simp only [Function.update_self, hmi, ht, Micro.idx, List.length_cons]
    rw [← Nat.add_assoc, Nat.succ_mul]; omega
  · rename_i c rest hmi ht
    split at h
    · cases h
      refine ⟨?_, fun r' e => pot_congr rfl rfl (Function.update_of_ne e ..)⟩
      unfold pot
      simp only [Function.update_self, hmi, ht, Micro.idx, List.length_cons, List.length_nil]
      rw [← Nat.add_assoc, Nat.succ_mul]; omega
    · cases h
  · rename_i k acc c rest hmi ht
    rw [hmi] at hm
    obtain ⟨c2, rest2, h1, hw, hk, hle, -⟩ := hm
    rw [ht] at h1; cases h1
    have hkB : k ≤ B := by
      have hc := hi.chan c
      rcases hc.buf with hb | ⟨m, hb, hh⟩
      · exact absurd (by rw [hc.wc, hc.rc, hb]) hw
      · rw [hk, hh.1]
        have hmem : m ∈ sentL net s c := by rw [hb]; simp
        unfold sentL Net.expd at hmem
        rcases List.mem_append.mp hmem with h' | h'
        · obtain ⟨n, -, rfl⟩ := List.mem_map.mp h'; exact hB c n
        · split at h'
          · rw [List.mem_singleton.mp h']; exact hB c _
          · cases h'
    split at h
    · rename_i hlt
      cases h
      refine ⟨?_, fun r' e => pot_congr rfl rfl (Function.update_of_ne e ..)⟩
      unfold pot
      simp only [Function.update_self, hmi, ht, Micro.idx, List.length_cons, List.length_append,
        List.length_nil]
      rw [← Nat.add_assoc, Nat.succ_mul]; omega
    · cases h
      refine ⟨?_, fun r' e => pot_congr rfl (Function.update_of_ne e ..) (Function.update_of_ne e ..)⟩
      unfold pot
      simp only [Function.update_self, hmi, ht, Micro.idx, List.length_cons]
      rw [← Nat.add_assoc, Nat.succ_mul]; omega
  · cases h

end Yask.Shm
