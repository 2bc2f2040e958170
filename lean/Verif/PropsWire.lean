/-
Property theorems C70: every order of rank 0 is two MPI messages, and the two never get out of step.
-/
import Verif.WireProgress
import Verif.PropsProtocol
set_option autoImplicit false

namespace Parfu.Props
open Parfu ProtocolSpec WireSpec

/-- A run of the create program of rank 0 with its workers, call by call. -/
abbrev CreateWireRun (c : Cfg) (eager : Bool) (b : Nat) (archive base : Bytes) (orders : List Bytes)
    (file0 : Option Bytes) (tr : List WEv) (s : WSys) : Prop :=
  WRun c eager (WSys.begin (Sys.start (bossRun c.ranks b archive base orders) file0)) tr s

/-- The texts of a launch are shorter than 2 GiB. -/
structure ShortTexts (archive base : Bytes) (orders : List Bytes) : Prop where
  archive : archive.length + 2 < 2 ^ 31
  base : base.length + 2 < 2 ^ 31
  orders : ∀ t ∈ orders, t.length + 2 < 2 ^ 31

theorem sendMsg_length (i : UInt8) (m : Bytes) : (sendMsg [i] m).length = m.length + 2 := by
  simp [sendMsg]

theorem short_sendAll (m : Bytes) (hm : m.length < 2 ^ 31) (n i : Nat) (k : Boss) (hk : ShortOrders k) :
    ShortOrders (sendAll m n i k) := by
  fun_induction sendAll m n i k with
  | case1 i h ih => exact .send _ _ _ hm ih
  | case2 i h => exact hk

theorem short_recvN (n : Nat) (k : Boss) (hk : ShortOrders k) : ShortOrders (recvN n k) := by
  induction n with
  | zero => exact hk
  | succ n ih => exact .recv _ fun _ => ih

theorem short_order {orders : List Bytes} (ho : ∀ t ∈ orders, t.length + 2 < 2 ^ 31) (no : Nat) :
    (sendMsg [67] (orders.getD no [])).length < 2 ^ 31 := by
  rw [sendMsg_length]
  by_cases h : no < orders.length
  · rw [List.getD_eq_getElem?_getD, List.getElem?_eq_getElem h]
    exact ho _ (List.getElem_mem h)
  · rw [List.getD_eq_getElem?_getD, List.getElem?_eq_none (by omega)]
    decide

theorem short_phase2 {orders : List Bytes} (ho : ∀ t ∈ orders, t.length + 2 < 2 ^ 31) (no : Nat) (k : Boss)
    (hk : ShortOrders k) : ShortOrders (phase2 orders no k) := by
  generalize hn : orders.length - no = n
  induction n generalizing no with
  | zero =>
    rw [phase2.eq_def, dif_neg (by omega)]
    exact hk
  | succ n ih =>
    rw [phase2.eq_def, dif_pos (by omega)]
    refine .recv _ fun a => ?_
    cases stoi (recvMsg a) with
    | error e => exact .fail _
    | ok v =>
      show ShortOrders (if v < 0 then _ else _)
      split
      · exact .fail _
      · exact .send _ _ _ (short_order ho no) (ih (no + 1) (by omega))

theorem short_phase1 {orders : List Bytes} (ho : ∀ t ∈ orders, t.length + 2 < 2 ^ 31) (ranks nr no : Nat)
    (k : Nat → Boss) (hk : ∀ n, ShortOrders (k n)) : ShortOrders (phase1 orders ranks nr no k) := by
  generalize hn : ranks - nr = n
  induction n generalizing nr no with
  | zero =>
    rw [phase1.eq_def, dif_neg (by omega)]
    exact hk _
  | succ n ih =>
    rw [phase1.eq_def]
    split
    · exact .send _ _ _ (short_order ho no) (ih (nr + 1) (no + 1) (by omega))
    · exact hk _

theorem short_bossRun {ranks b : Nat} {archive base : Bytes} {orders : List Bytes} (hb : b < 2 ^ 31)
    (h : ShortTexts archive base orders) : ShortOrders (bossRun ranks b archive base orders) := by
  unfold bossRun
  have hX : (sendMsg [88] [115, 104, 117, 116, 100, 111, 119, 110]).length < 2 ^ 31 := by decide
  refine .bcast _ _ ?_ <| .bcast _ _ ?_ <| .openFile _ _ fun ok => ?_
  · have := ackMsg_length b hb
    rw [sendMsg_length]
    simp only [ackMsg, List.length_append, List.length_singleton] at this
    omega
  · rw [sendMsg_length]; exact h.archive
  · split
    · refine .bcast _ _ (by decide) <| short_sendAll _ (by rw [sendMsg_length]; exact h.base) _ _ _ ?_
      unfold pushOutAllOrders
      refine short_phase1 h.orders _ _ _ _ fun no => ?_
      split
      · exact short_recvN _ _ (short_sendAll _ hX _ _ _ (.exit _))
      · exact short_phase2 h.orders _ _ (short_recvN _ _ (short_sendAll _ hX _ _ _ (.exit _)))
    · exact .bcast _ _ (by decide) (.exit _)

theorem start_unsent (p : Boss) (f : Option Bytes) : Unsent (Sys.start p f) :=
  ⟨rfl, fun _ => rfl, fun _ => rfl⟩

section
variable {c : Cfg} {eager : Bool} {b : Nat} {archive base : Bytes} {orders : List Bytes}
  {file0 : Option Bytes} {tr : List WEv} {s : WSys}

/-- **C70** Seen without the lengths, every run of single calls is a run of the protocol with whole
orders: what is proved of those (C22-C28) holds of these. -/
theorem C70_refines {s0 : Sys} (hs : ShortOrders s0.boss) (hu : Unsent s0)
    (h : WRun c eager (WSys.begin s0) tr s) :
    ∃ t, Run c true s0 (seen tr) t ∧ t.boss = s.boss ∧ t.w = s.w ∧ t.file = s.file ∧ t.acks = s.acks :=
  ⟨s.abs, (wrun_inv hs hu h).2.1, rfl, rfl, rfl, rfl⟩

theorem wire_run (hL : Launch c b archive base orders) (hS : ShortTexts archive base orders)
    (h : CreateWireRun c eager b archive base orders file0 tr s) :
    WInv s ∧ CreateRun c true b archive base orders file0 (seen tr) s.abs ∧ ∀ r, WEv.misread r ∉ tr :=
  wrun_inv (short_bossRun hL.bucketInt hS) (start_unsent _ _) h

/-- The lengths worker `r` has received. -/
def lengthsOf (r : Nat) (tr : List WEv) : List Int :=
  tr.filterMap fun e => match e with
    | .lenGot r' n => if r' = r then some n else none
    | _ => none

/-- The orders worker `r` has received. -/
def receivedBy (r : Nat) (tr : List Ev) : List Bytes :=
  tr.filterMap fun e => match e with
    | .got r' m => if r' = r then some m else none
    | _ => none

/-- The orders rank 0 has begun to send to worker `r`, by broadcast or to it alone. -/
def sentTo (r : Nat) (tr : List Ev) : List Bytes :=
  tr.filterMap fun e => match e with
    | .bcasted m => some m
    | .sent r' m => if r' = r then some m else none
    | _ => none

theorem lengthsOf_snoc (r : Nat) (tr : List WEv) (e : WEv) :
    lengthsOf r (tr ++ [e]) = lengthsOf r tr ++ lengthsOf r [e] := List.filterMap_append ..
theorem receivedBy_snoc (r : Nat) (tr tr' : List Ev) :
    receivedBy r (tr ++ tr') = receivedBy r tr ++ receivedBy r tr' := List.filterMap_append ..
theorem sentTo_snoc (r : Nat) (tr tr' : List Ev) :
    sentTo r (tr ++ tr') = sentTo r tr ++ sentTo r tr' := List.filterMap_append ..

/-- **C70** The lengths a worker receives are those of the orders it receives, one for one and in order
(the last one without its order while the worker waits for it); and no receive call of any worker ever
meets a message of another kind or size than it expects. -/
theorem C70_lengths_match {s0 : Sys} (hs : ShortOrders s0.boss) (hu : Unsent s0)
    (h : WRun c eager (WSys.begin s0) tr s) (r : Nat) :
    lengthsOf r tr = (receivedBy r (seen tr)).map (fun m => (m.length : Int)) ++ (s.got r).toList ∧
    WEv.misread r ∉ tr := by
  refine ⟨?_, (wrun_inv hs hu h).2.2 r⟩
  induction h with
  | nil => rfl
  | @snoc tr s s' e h st ih =>
    obtain ⟨hI, _, _⟩ := wrun_inv hs hu h
    have h3 := (wrun_inv hs hu (.snoc h st)).2.2
    rw [lengthsOf_snoc, seen_snoc, receivedBy_snoc]
    cases st with
    | getLen q n rest hr hw hg hq =>
      by_cases hqr : q = r
      · subst hqr
        rw [hg] at ih
        simp [lengthsOf, receivedBy, seen] at ih ⊢
        exact ih
      · simpa [lengthsOf, receivedBy, seen, update_at, hqr, Ne.symm hqr] using ih
    | getLenSent q n rest hr hw hg hq =>
      by_cases hqr : q = r
      · subst hqr
        rw [hg] at ih
        simp [lengthsOf, receivedBy, seen] at ih ⊢
        exact ih
      · simpa [lengthsOf, receivedBy, seen, update_at, hqr, Ne.symm hqr] using ih
    | getBody q n m rest w' hr hw hg hq ht =>
      by_cases hqr : q = r
      · subst hqr
        have hf := hI.all q
        rw [hq.1, hq.2, if_pos rfl, hg] at hf
        obtain ⟨m', h1, hn, _⟩ := FramedFor.body hf
        cases h1
        rw [hg, hn] at ih
        simp [lengthsOf, receivedBy, seen] at ih ⊢
        exact ih
      · simpa [lengthsOf, receivedBy, seen, update_at, hqr, Ne.symm hqr] using ih
    | getBodySent q n m rest w' hr hw hg hq ht =>
      by_cases hqr : q = r
      · subst hqr
        have hf := hI.one q
        rw [hq.1, hq.2, if_neg (by decide), hg] at hf
        obtain ⟨m', h1, hn, _⟩ := FramedFor.body hf
        cases h1
        rw [hg, hn] at ih
        simp [lengthsOf, receivedBy, seen] at ih ⊢
        exact ih
      · simpa [lengthsOf, receivedBy, seen, update_at, hqr, Ne.symm hqr] using ih
    | noLen q m rest hr hw hg hq => exact absurd (by simp) (h3 q)
    | noBody q n p rest hr hw hg hq ht => exact absurd (by simp) (h3 q)
    | _ => simpa [lengthsOf, receivedBy, seen] using ih

theorem bcast_no_sends {K : Konst} {tr : List Ev} {s : Sys}
    (hL : Launch K.c K.b K.archive K.base K.orders) (h : Inv K tr s) {r : Nat} (hr : K.c.worker r)
    {m : Bytes} {k : Boss} (hb : s.boss = .bcast m k) : s.pq r = [] := by
  cases h with
  | pre i hc hq hi views len =>
    have hv := views r hr
    generalize hl : s.loc r = l at hv
    rw [Sys.loc] at hl
    cases hv <;> simp only [Loc.mk.injEq] at hl <;> exact hl.2.2.1
  | failed x hc hq hb' views hfile len =>
    have hv := views r hr
    generalize hl : s.loc r = l at hv
    rw [Sys.loc] at hl
    cases hv <;> simp only [Loc.mk.injEq] at hl <;> exact hl.2.2.1
  | post g pt hc hp =>
    obtain ⟨pt, hp, hn⟩ := hp.normal hL
    have hboss := hp.boss
    have hat := hp.at_
    rcases prog_cases pt hn hp.at_ with ⟨rfl, h⟩ | ⟨j, rfl, hj, h⟩ | ⟨j, rfl, hj, hj2, h⟩ | ⟨m, rfl, h⟩ |
      ⟨no, rfl, _, h⟩ | ⟨no, r', rfl, h⟩ | ⟨m, rfl, h⟩ | ⟨j, rfl, hj, h⟩ | ⟨j, rfl, hj, h⟩ <;>
      rw [h, hb] at hboss <;> cases hboss
    have hv := hp.views r hr
    rw [hat.1] at hv
    generalize hl : s.loc r = l at hv
    rw [Sys.loc] at hl
    generalize decide (r < g.pj) = p at hv
    generalize decide (r < g.xj) = x at hv
    generalize g.out r = o at hv
    generalize g.wr r = wr at hv
    cases hv
    simp only [Loc.mk.injEq] at hl
    exact hl.2.2.1

/-- What a worker has received, and what is on its way to it, is what was sent to it, in that order. -/
theorem whole_in_order (hL : Launch c b archive base orders) {tr : List Ev} {s : Sys}
    (h : CreateRun c eager b archive base orders file0 tr s) (r : Nat) (hr : c.worker r) :
    receivedBy r tr ++ s.bq r ++ s.pq r = sentTo r tr := by
  induction h with
  | nil => rfl
  | @snoc tr s s' e h st ih =>
    have hI := run_inv' hL h
    rw [receivedBy_snoc, sentTo_snoc]
    cases st with
    | bcast m k hp hb =>
      have hpq := bcast_no_sends hL hI hr hb
      simp only [hpq, List.append_nil] at ih ⊢
      rw [← ih]
      simp [receivedBy, sentTo]
    | send q m k hp hb hq =>
      rw [← ih]
      by_cases hqr : q = r
      · subst hqr; simp [receivedBy, sentTo]
      · simp [receivedBy, sentTo, update_at, hqr, Ne.symm hqr]
    | getBcast q m rest hq hs hm hbq =>
      rw [← ih]
      by_cases hqr : q = r
      · subst hqr; simp [receivedBy, sentTo, hbq]
      · simp [receivedBy, sentTo, update_at, hqr, Ne.symm hqr]
    | getSend q m rest hq hs hm hpq =>
      rw [← ih]
      by_cases hqr : q = r
      · subst hqr
        have hbq : s.bq q = [] := by
          by_contra hne
          have := (bcast_waiting hI hr hne).2
          rw [hm] at this; cases this
        simp [receivedBy, sentTo, hpq, hbq]
      · simp [receivedBy, sentTo, update_at, hqr, Ne.symm hqr]
    | _ => simpa [receivedBy, sentTo] using ih

/-- **C70** At every moment of every run a worker has received a first part of the orders sent to it,
in the order they were sent, none twice and none left out; a worker that has ended, in a run that has
ended, has received them all. -/
theorem C70_in_order (hL : Launch c b archive base orders) (hS : ShortTexts archive base orders)
    (h : CreateWireRun c eager b archive base orders file0 tr s) (r : Nat) (hr : c.worker r) :
    receivedBy r (seen tr) <+: sentTo r (seen tr) ∧
    (Ended c 0 s → receivedBy r (seen tr) = sentTo r (seen tr)) := by
  obtain ⟨_, h2, _⟩ := wire_run hL hS h
  have key := whole_in_order hL h2 r hr
  rw [List.append_assoc] at key
  refine ⟨⟨_, key⟩, fun he => ?_⟩
  have : s.abs.bq r = [] ∧ s.abs.pq r = [] := by
    have hw : (s.abs.w r).stat = .ended 0 := he.2 r hr
    cases run_inv' hL h2 with
    | pre i hc hq hi views len =>
      have hv := views r hr
      generalize hl : s.abs.loc r = l at hv
      rw [Sys.loc] at hl
      cases hv <;> simp only [Loc.mk.injEq] at hl <;> rw [hl.1] at hw <;> cases hw
    | failed x hc hq hb' views hfile len =>
      have hv := views r hr
      generalize hl : s.abs.loc r = l at hv
      rw [Sys.loc] at hl
      cases hv <;> simp only [Loc.mk.injEq] at hl <;> rw [hl.1] at hw <;> first
        | exact ⟨hl.2.1, hl.2.2.1⟩
        | cases hw
    | post g pt hc hp =>
      have hv := hp.views r hr
      generalize hl : s.abs.loc r = l at hv
      rw [Sys.loc] at hl
      generalize decide (r < g.pj) = p at hv
      generalize decide (r < g.xj) = x at hv
      generalize g.nn = N at hv
      generalize g.out r = o at hv
      generalize g.wr r = wr at hv
      cases hv <;> simp only [Loc.mk.injEq] at hl <;> rw [hl.1] at hw <;> first
        | exact ⟨hl.2.1, hl.2.2.1⟩
        | cases hw
  rw [this.1, this.2] at key
  simpa using key

/-- **C70** When rank 0 has ended normally every bundle has been sent once and carried out once, by the
worker it was sent to, and the archive is what was written. -/
theorem C70_exactly_once (hL : Launch c b archive base orders) (hS : ShortTexts archive base orders)
    (h : CreateWireRun c eager b archive base orders file0 tr s) (hb : s.boss = .exit 0) :
    (dispatched (seen tr)).map Prod.snd = orders ∧ (executed (seen tr)).Perm (dispatched (seen tr)) ∧
    s.file = some (writeAll (writes (seen tr))) := by
  obtain ⟨_, h2, _⟩ := wire_run hL hS h
  obtain ⟨h3, h4⟩ := C22_exactly_once hL h2 hb
  obtain ⟨g, hp⟩ := boss_exit0 hL rfl (run_inv' hL h2) hb
  exact ⟨h3, h4, hp.file⟩

/-- **C70** With at least one worker, the single calls never block each other: in every state in which
no worker has failed, all processes have ended or some call can go on, even if every send, of a length
or of bytes, waits for its receiver. -/
theorem C70_no_deadlock (hL : Launch c b archive base orders) (hS : ShortTexts archive base orders)
    (hr2 : 2 ≤ c.ranks) (h : CreateWireRun c eager b archive base orders file0 tr s)
    (hD : ∀ r, c.worker r → ∀ e, (s.w r).stat ≠ .dead e) :
    Ended c 0 s ∨ Ended c 1 s ∨ ∃ e s', WStep c false s e s' := by
  obtain ⟨h1, h2, _⟩ := wire_run hL hS h
  rcases C25_only_failure_stops hL hr2 h2 hD with h3 | h3 | ⟨e, s', h3⟩
  · exact Or.inl h3
  · exact Or.inr (Or.inl h3)
  · exact Or.inr (Or.inr (wire_progress h1 (fun r hr hb => bcast_waiting (run_inv' hL h2) hr hb) h3))

/-- **C70** Every run of single calls is finite. -/
theorem C70_bounded (hL : Launch c b archive base orders) (hS : ShortTexts archive base orders)
    (h : CreateWireRun c eager b archive base orders file0 tr s) :
    tr.length ≤ 2 * ((2 * c.ranks + 6) * (8 + 6 * c.ranks + 3 * orders.length)) + c.ranks := by
  obtain ⟨_, h2, _⟩ := wire_run hL hS h
  have h3 := C25_bounded hL h2
  have h4 := wire_length (short_bossRun hL.bucketInt hS) (start_unsent _ _) h
  have h5 := gotCount_le c s
  omega

theorem wstep_eager {c : Cfg} {b : Bool} {s s' : WSys} {e : WEv} (h : WStep c b s e s') :
    WStep c true s e s' := by
  cases h with
  | bcastLen m k hp hb => exact .bcastLen _ m k hp hb
  | bcastLenDone m hp hq => exact .bcastLenDone _ m hp (Or.inl rfl)
  | bcastDone hp hq => exact .bcastDone _ hp (Or.inl rfl)
  | sendLen r m k hp hb hr => exact .sendLen _ r m k hp hb hr
  | sendBad r m k hp hb hr => exact .sendBad _ r m k hp hb hr
  | sendLenDone r m hp hq => exact .sendLenDone _ r m hp (Or.inl rfl)
  | sendDone r hp hq => exact .sendDone _ r hp (Or.inl rfl)
  | recv k l1 l2 r a hp hb ha => exact .recv _ k l1 l2 r a hp hb ha
  | openFile name k hp hb hw => exact .openFile _ name k hp hb hw
  | getLen r n rest hr hs hg hq => exact .getLen _ r n rest hr hs hg hq
  | getLenSent r n rest hr hs hg hq => exact .getLenSent _ r n rest hr hs hg hq
  | noLen r m rest hr hs hg hq => exact .noLen _ r m rest hr hs hg hq
  | getBody r n m rest w' hr hs hg hq ht => exact .getBody _ r n m rest w' hr hs hg hq ht
  | getBodySent r n m rest w' hr hs hg hq ht => exact .getBodySent _ r n m rest w' hr hs hg hq ht
  | noBody r n p rest hr hs hg hq ht => exact .noBody _ r n p rest hr hs hg hq ht
  | work r text name memory old write hr hs hf hm ho hd =>
    exact .work _ r text name memory old write hr hs hf hm ho hd
  | workFails r text memory e hr hs hm hd => exact .workFails _ r text memory e hr hs hm hd
  | ackDone r hr hs hq => exact .ackDone _ r hr hs (Or.inl rfl)

/-- **C70** When every bundle can be carried out, every run of single calls can be continued to its
end, and (`C70_bounded`) comes to it. -/
theorem C70_reaches_end (hL : Launch c b archive base orders) (hS : ShortTexts archive base orders)
    (hW : Workable c b base orders) (hr2 : 2 ≤ c.ranks)
    (h : CreateWireRun c eager b archive base orders file0 tr s) :
    ∃ more s', CreateWireRun c eager b archive base orders file0 (tr ++ more) s' ∧
      (Ended c 0 s' ∨ Ended c 1 s') := by
  generalize hm : 2 * ((2 * c.ranks + 6) * (8 + 6 * c.ranks + 3 * orders.length)) + c.ranks - tr.length = m
  induction m using Nat.strongRecOn generalizing tr s with
  | ind m ih =>
    have hD : ∀ r, c.worker r → ∀ e, (s.w r).stat ≠ .dead e := by
      intro r hr e hd
      obtain ⟨t, ht, memory, hme, he⟩ := dead_had_bundle hL (wire_run hL hS h).2.1 r hr e hd
      obtain ⟨w, hw⟩ := hW t ht memory hme
      rw [he] at hw; cases hw
    rcases C70_no_deadlock hL hS hr2 h hD with h0 | h1 | ⟨e, s', hst⟩
    · exact ⟨[], s, by simpa using h, Or.inl h0⟩
    · exact ⟨[], s, by simpa using h, Or.inr h1⟩
    · have hst' : WStep c eager s e s' := by
        cases eager with
        | false => exact hst
        | true => exact wstep_eager hst
      have hrun : CreateWireRun c eager b archive base orders file0 (tr ++ [e]) s' := .snoc h hst'
      have hb := C70_bounded hL hS hrun
      simp only [List.length_append, List.length_singleton] at hb
      obtain ⟨more, s2, h2, h3⟩ := ih _ (by
        rw [← hm]
        simp only [List.length_append, List.length_singleton]
        omega) hrun rfl
      exact ⟨e :: more, s2, by simpa using h2, h3⟩

end

/-- **C70, the limit** Exactly the orders shorter than 2 GiB are received: the announced length is an
`int`, and for a longer one the worker's receive call fails. -/
theorem C70_received_iff (w : WSt) (m : Bytes) :
    takeBody w (intOfSize m.length) (.body m) ≠ none ↔ m.length < 2 ^ 31 := by
  constructor
  · intro h
    by_contra hn
    apply h
    have h31 : (2 : Nat) ^ 31 = 2147483648 := by rfl
    rw [h31] at hn
    have hlt : intOfSize m.length < (m.length : Int) := by
      unfold intOfSize
      rw [Int.bmod_def]
      have h2 : ((2 ^ 32 : Nat) : Int) = 4294967296 := by rfl
      rw [h2]
      split <;> omega
    have hf : bodyFits w.mode (intOfSize m.length) m = false := by
      unfold bodyFits
      cases w.mode <;> simp <;> omega
    simp [takeBody, hf]
  · intro h
    rw [intOfSize_small h, takeBody_exact]
    simp

/-- Non-vacuity: with two workers and two bundles there are runs of single calls to the end. -/
example (c : Cfg) (hc : c.ranks = 3) (b1 b2 : Bytes) (h1 : (0 : UInt8) ∉ b1) (h2 : (0 : UInt8) ∉ b2)
    (hl : b1.length < 1000 ∧ b2.length < 1000) (hW : Workable c 100000 [47] [b1, b2]) :
    ∃ tr s, CreateWireRun c false 100000 [97] [47] [b1, b2] none tr s ∧ (Ended c 0 s ∨ Ended c 1 s) := by
  have hL : Launch c 100000 [97] [47] [b1, b2] :=
    ⟨by omega, by omega, by decide, by decide, by decide, by decide, by simp [h1, h2]⟩
  have hS : ShortTexts [97] [47] [b1, b2] := ⟨by decide, by decide, by simp; omega⟩
  obtain ⟨tr, s, h3, h4⟩ := C70_reaches_end (c := c) (eager := false) (file0 := none) hL hS hW (by omega) .nil
  exact ⟨_, s, h3, h4⟩

end Parfu.Props
