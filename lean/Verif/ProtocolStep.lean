/-
The protocol invariant is kept by every step.
-/
import Verif.ProtocolInv
set_option autoImplicit false

namespace Parfu
open ProtocolSpec

variable {K : Konst}

/-! ### one worker -/

theorem View.getBcast {N p x wr : Bool} {o : Option Bytes} {w : WSt} {m : Bytes} {rest pq : List Bytes}
    {na : Nat} (h : View K N p x o wr ⟨w, m :: rest, pq, na⟩) :
    View K N p x o wr ⟨onBcast w m, rest, pq, na⟩ ∧ statW (onBcast w m).stat = 0 := by
  cases h with
  | ready =>
    rw [Konst.mN, onBcast_N _ _ (by decide)]
    exact ⟨.indiv _ _ _ ‹_› ‹_›, rfl⟩

theorem View.getSend (hL : Launch K.c K.b K.archive K.base K.orders)
    {N p x wr : Bool} {o : Option Bytes} {w : WSt} {m : Bytes} {bq rest : List Bytes}
    {na : Nat} (h : View K N p x o wr ⟨w, bq, m :: rest, na⟩) (hs : w.stat = .wait)
    (hm : w.mode = .indiv) (ho : ∀ t, o = some t → t ∈ K.orders) :
    View K N p x o wr ⟨onSend w m, bq, rest, na⟩ ∧ statW (onSend w m).stat ≤ 3 := by
  have hb : K.b ≠ 0 := by have := hL.bucket; omega
  generalize hpq : m :: rest = pq at h
  cases h with
  | ready => cases hm
  | before => cases hpq
  | indiv _ _ _ hp hx =>
    cases p with
    | true =>
      simp only [Konst.msgs, if_true, List.cons_append, List.nil_append, List.cons.injEq] at hpq
      obtain ⟨rfl, rfl⟩ := hpq
      rw [Konst.mP, onSend_P _ _ hL.baseText]
      refine ⟨?_, Nat.zero_le _⟩
      exact View.based (K := K) x o hx
    | false =>
      obtain ⟨rfl, rfl⟩ := hp rfl
      simp [Konst.msgs] at hpq
  | based _ _ hx' =>
    cases o with
    | some t =>
      simp [Konst.msgs] at hpq
      obtain ⟨rfl, hx⟩ := hpq
      rw [Konst.mC, onSend_C _ _ (hL.orderText _ (ho t rfl)) (by exact hb)]
      cases x with
      | true => simp at hx'
      | false => simp at hx; subst hx; exact ⟨.work t, by simp [statW]⟩
    | none =>
      cases x with
      | true =>
        simp [Konst.msgs] at hpq
        obtain ⟨rfl, rfl⟩ := hpq
        rw [Konst.mX, onSend_X _ _ (by decide)]
        exact ⟨.gone, by simp [statW]⟩
      | false => simp [Konst.msgs] at hpq
  | basedA => cases hs
  | work => cases hpq
  | done => cases hpq
  | doneA => cases hpq
  | gone => cases hpq
  | dead => cases hpq

theorem View.working {N p x wr : Bool} {o : Option Bytes} {w : WSt} {bq pq : List Bytes} {na : Nat}
    {t : Bytes} (h : View K N p x o wr ⟨w, bq, pq, na⟩) (hs : w.stat = .working t) :
    o = some t ∧ wr = false ∧ N = true ∧ p = true ∧ x = false ∧ w = { K.wB with stat := .working t } ∧
    View K N p x o true ⟨{ w with stat := .acking }, bq, pq, na + 1⟩ ∧
    (∀ memory e, memory.length = K.b → workerDo K.c.env K.c.fs K.base memory t = .error e →
      View K N p x o wr ⟨{ w with stat := .dead e }, bq, pq, na⟩) := by
  cases h with
  | work t' =>
    cases hs
    exact ⟨rfl, rfl, rfl, rfl, rfl, rfl, .doneA t, fun me e h1 h2 => .dead t me e h1 h2⟩
  | _ => cases hs

theorem View.ackDone {N p x wr : Bool} {o : Option Bytes} {w : WSt} {bq pq : List Bytes} {na : Nat}
    (h : View K N p x o wr ⟨w, bq, pq, na⟩) (hs : w.stat = .acking) :
    View K N p x o wr ⟨{ w with stat := .wait }, bq, pq, na⟩ := by
  cases h with
  | basedA _ _ hx => exact .based x o hx
  | doneA t => exact .done t
  | _ => cases hs

theorem View.sendN {l : Loc} (h : View K false false false none false l) :
    View K true false false none false ⟨l.w, l.bq ++ [Konst.mN], l.pq, l.na⟩ := by
  cases h
  exact .ready false false none (fun _ => ⟨rfl, rfl⟩) (by simp)

theorem View.sendP {l : Loc} {wr : Bool} (h : View K true false false none wr l) :
    View K true true false none wr ⟨l.w, l.bq, l.pq ++ [K.mP], l.na⟩ := by
  cases h with
  | ready => exact .ready true false none (by simp) (by simp)
  | indiv => exact .indiv true false none (by simp) (by simp)

theorem View.sendC {l : Loc} {wr : Bool} (h : View K true true false none wr l) (t : Bytes) :
    View K true true false (some t) wr ⟨l.w, l.bq, l.pq ++ [Konst.mC t], l.na⟩ := by
  cases h with
  | ready => exact .ready true false (some t) (by simp) (by simp)
  | indiv => exact .indiv true false (some t) (by simp) (by simp)
  | based => exact .based false (some t) (by simp)
  | basedA => exact .basedA false (some t) (by simp)

theorem View.sendX {l : Loc} {wr : Bool} (h : View K true true false none wr l) :
    View K true true true none wr ⟨l.w, l.bq, l.pq ++ [Konst.mX], l.na⟩ := by
  cases h with
  | ready => exact .ready true true none (by simp) (by simp)
  | indiv => exact .indiv true true none (by simp) (by simp)
  | based => exact .based true none (by simp)
  | basedA => exact .basedA true none (by simp)

theorem View.recvAck {N p x wr : Bool} {o : Option Bytes} {w : WSt} {bq pq : List Bytes} {na : Nat}
    (h : View K N p x o wr ⟨w, bq, pq, na + 1⟩) :
    wr = true ∧ (∃ t, o = some t) ∧ N = true ∧ p = true ∧ x = false ∧ na = 0 ∧
    View K N p x none false ⟨w, bq, pq, na⟩ := by
  cases h with
  | done t => exact ⟨rfl, ⟨t, rfl⟩, rfl, rfl, rfl, rfl, .based false none (by simp)⟩
  | doneA t => exact ⟨rfl, ⟨t, rfl⟩, rfl, rfl, rfl, rfl, .basedA false none (by simp)⟩

theorem PreView.getBcast (hL : Launch K.c K.b K.archive K.base K.orders) {i : Nat} {w : WSt} {m : Bytes}
    {rest pq : List Bytes} {na : Nat} (h : PreView K i ⟨w, m :: rest, pq, na⟩) :
    PreView K i ⟨onBcast w m, rest, pq, na⟩ ∧ statW (onBcast w m).stat ≤ 1 := by
  cases h with
  | b1 => rw [Konst.mU, onBcast_U _ _ hL.bucketInt]; exact ⟨.b1', Nat.zero_le _⟩
  | b2 => rw [Konst.mU, onBcast_U _ _ hL.bucketInt]; exact ⟨.b2', Nat.zero_le _⟩
  | b2' => rw [Konst.mA, onBcast_A _ _ hL.archiveText]; exact ⟨.b2'', Nat.le_refl _⟩

theorem FailView.getBcast {x : Bool} {w : WSt} {m : Bytes} {rest pq : List Bytes} {na : Nat}
    (h : FailView K x ⟨w, m :: rest, pq, na⟩) :
    FailView K x ⟨onBcast w m, rest, pq, na⟩ ∧ statW (onBcast w m).stat = 0 := by
  cases h with
  | after => rw [Konst.mBye, onBcast_X _ _ (by decide)]; exact ⟨.gone, rfl⟩

/-! ### weights -/

theorem worker_mem {r : Nat} : K.c.worker r ↔ r ∈ Finset.Ico 1 K.c.ranks := by
  simp [Cfg.worker]

/-- Only worker `r` changes. -/
theorem weight_local {s s' : Sys} {r : Nat} (hr : K.c.worker r)
    (hl : ∀ r', r' ≠ r → locW (s'.loc r') = locW (s.loc r')) :
    ∑ q ∈ Finset.Ico 1 K.c.ranks, locW (s'.loc q) + locW (s.loc r) =
    ∑ q ∈ Finset.Ico 1 K.c.ranks, locW (s.loc q) + locW (s'.loc r) := by
  rw [worker_mem] at hr
  rw [← Finset.add_sum_erase _ _ hr, ← Finset.add_sum_erase (Finset.Ico 1 K.c.ranks)
    (fun q => locW (s.loc q)) hr]
  have : ∑ q ∈ (Finset.Ico 1 K.c.ranks).erase r, locW (s'.loc q) =
      ∑ q ∈ (Finset.Ico 1 K.c.ranks).erase r, locW (s.loc q) :=
    Finset.sum_congr rfl fun q hq => hl q (Finset.ne_of_mem_erase hq)
  rw [this]; omega

/-- Every worker's weight changes by at most `d`. -/
theorem weight_all {s s' : Sys} {d : Nat}
    (hl : ∀ r, K.c.worker r → locW (s'.loc r) ≤ locW (s.loc r) + d) :
    ∑ q ∈ Finset.Ico 1 K.c.ranks, locW (s'.loc q) ≤
    ∑ q ∈ Finset.Ico 1 K.c.ranks, locW (s.loc q) + (K.c.ranks - 1) * d := by
  have h1 : ∑ q ∈ Finset.Ico 1 K.c.ranks, locW (s'.loc q) ≤
      ∑ q ∈ Finset.Ico 1 K.c.ranks, (locW (s.loc q) + d) :=
    Finset.sum_le_sum fun q hq => hl q (worker_mem.2 hq)
  rw [Finset.sum_add_distrib, Finset.sum_const, Nat.card_Ico] at h1
  exact h1

/-! ### counting outstanding bundles -/

theorem nOut_none {ranks : Nat} {out : Nat → Option Bytes} (h : ∀ r, 1 ≤ r → r < ranks → out r = none) :
    nOut ranks out = 0 := by
  unfold nOut
  rw [Finset.card_eq_zero, Finset.filter_eq_empty_iff]
  intro r hr
  have := Finset.mem_Ico.1 hr
  simp [h r this.1 this.2]

theorem nOut_zero {ranks : Nat} {out : Nat → Option Bytes} (h : nOut ranks out = 0) (r : Nat)
    (h1 : 1 ≤ r) (h2 : r < ranks) : out r = none := by
  unfold nOut at h
  rw [Finset.card_eq_zero, Finset.filter_eq_empty_iff] at h
  have := h (Finset.mem_Ico.2 ⟨h1, h2⟩)
  simpa using this

theorem nOut_all {ranks : Nat} {out : Nat → Option Bytes}
    (h : ∀ r, 1 ≤ r → r < ranks → (out r).isSome = true) : nOut ranks out = ranks - 1 := by
  unfold nOut
  rw [Finset.filter_true_of_mem, Nat.card_Ico]
  intro r hr
  have := Finset.mem_Ico.1 hr
  exact h r this.1 this.2

theorem nOut_pos {ranks : Nat} {out : Nat → Option Bytes} (h : 0 < nOut ranks out) :
    ∃ r t, 1 ≤ r ∧ r < ranks ∧ out r = some t := by
  unfold nOut at h
  obtain ⟨r, hr⟩ := Finset.card_pos.1 h
  rw [Finset.mem_filter, Finset.mem_Ico] at hr
  obtain ⟨t, ht⟩ := Option.isSome_iff_exists.1 hr.2
  exact ⟨r, t, hr.1.1, hr.1.2, ht⟩

theorem nOut_add {ranks r : Nat} {out : Nat → Option Bytes} (t : Bytes) (h1 : 1 ≤ r) (h2 : r < ranks)
    (h : out r = none) : nOut ranks (Function.update out r (some t)) = nOut ranks out + 1 := by
  unfold nOut
  have : (Finset.Ico 1 ranks).filter (fun q => (Function.update out r (some t) q).isSome = true) =
      insert r ((Finset.Ico 1 ranks).filter fun q => (out q).isSome = true) := by
    ext q
    simp only [Finset.mem_filter, Finset.mem_Ico, Finset.mem_insert]
    by_cases hq : q = r
    · subst hq; simp; omega
    · simp [Function.update_of_ne hq, hq]
  rw [this, Finset.card_insert_of_notMem]
  simp [h]

theorem nOut_sub {ranks r : Nat} {out : Nat → Option Bytes} (h1 : 1 ≤ r) (h2 : r < ranks)
    (h : (out r).isSome = true) : nOut ranks (Function.update out r none) + 1 = nOut ranks out := by
  unfold nOut
  have : (Finset.Ico 1 ranks).filter (fun q => (Function.update out r none q).isSome = true) =
      ((Finset.Ico 1 ranks).filter fun q => (out q).isSome = true).erase r := by
    ext q
    simp only [Finset.mem_filter, Finset.mem_Ico, Finset.mem_erase]
    by_cases hq : q = r
    · subst hq; simp
    · simp [Function.update_of_ne hq, hq]
  rw [this, Finset.card_erase_add_one]
  simp [h1, h2, h]

/-! ### loops that have come to their end -/

theorem Post.normal (hL : Launch K.c K.b K.archive K.base K.orders) {g : Ghost} {pt : Pt} {tr : List Ev}
    {s : Sys} (hp : Post K g pt tr s) : ∃ pt', Post K g pt' tr s ∧ Normal K pt' := by
  have mv : ∀ {pt pt' : Pt}, Post K g pt tr s → K.prog pt = K.prog pt' → K.left pt' ≤ K.left pt →
      AtPt K g (acknowledged tr).length pt' → Post K g pt' tr s := by
    intro pt pt' hp h1 h2 h3
    refine { hp with boss := by rw [hp.boss, h1], at_ := h3, len := ?_ }
    have := hp.len
    have := Nat.mul_le_mul_left (opCost K) h2
    omega
  have hr := hL.ranks
  have hX : ∀ {pt : Pt}, Post K g pt tr s → (∃ m, pt = .all m ∨ pt = .last m) →
      ∃ pt', Post K g pt' tr s ∧ Normal K pt' := by
    rintro pt hp ⟨m, hm⟩
    by_cases h0 : 0 < m
    · rcases hm with rfl | rfl <;> exact ⟨_, hp, h0⟩
    · have : m = 0 := by omega
      subst this
      refine ⟨.x 1, mv hp ?_ ?_ ?_, hr⟩
      · rcases hm with rfl | rfl <;> rfl
      · rcases hm with rfl | rfl <;> simp [Konst.left] <;> omega
      · have h := hp.at_
        rcases hm with rfl | rfl <;> obtain ⟨h1, h2, h3, h4, h5⟩ := h <;>
          exact ⟨h1, h2, h3, Nat.le_refl _, hr, h4, fun r hw => nOut_zero h5 r hw.1 hw.2⟩
  have hD2 : ∀ no, Post K g (.d2 no) tr s → ∃ pt', Post K g pt' tr s ∧ Normal K pt' := by
    intro no hp
    by_cases h0 : no < K.orders.length
    · exact ⟨_, hp, h0⟩
    · obtain ⟨h1, h2, h3, h4, h5, h6⟩ := hp.at_
      refine hX (pt := .last (K.c.ranks - 1)) (mv hp ?_ ?_ ?_) ⟨_, Or.inr rfl⟩
      · simp only [Konst.prog, Konst.progD2]
        rw [phase2, dif_neg h0]
      · simp [Konst.left]; omega
      · exact ⟨h1, h2, h3, by omega, nOut_all fun r a b => h6 r ⟨a, b⟩⟩
  have hD1 : ∀ j, Post K g (.d1 j) tr s → ∃ pt', Post K g pt' tr s ∧ Normal K pt' := by
    intro j hp
    by_cases h0 : j < K.c.ranks ∧ j - 1 < K.orders.length
    · exact ⟨_, hp, h0⟩
    · obtain ⟨h1, h2, h3, h4, h5, h6, h7, h8, h9⟩ := hp.at_
      by_cases hge : j - 1 ≥ K.orders.length
      · refine hX (pt := .all K.orders.length) (mv hp ?_ ?_ ?_) ⟨_, Or.inl rfl⟩
        · simp only [Konst.prog, Konst.progD1]
          rw [phase1, dif_neg h0, if_pos hge]
        · simp [Konst.left]; omega
        · have := hp.acked
          exact ⟨h1, h2, h3, by omega, by omega⟩
      · refine hD2 (j - 1) (mv hp ?_ ?_ ?_)
        · simp only [Konst.prog, Konst.progD1]
          rw [phase1, dif_neg h0, if_neg hge]
        · simp [Konst.left]; omega
        · refine ⟨h1, h2, h3, h6, by omega, ?_⟩
          intro r hw
          exact (h8 r).2 ⟨hw.1, by have := hw.2; omega⟩
  cases pt with
  | n => exact ⟨_, hp, trivial⟩
  | p j =>
    by_cases h0 : j < K.c.ranks
    · exact ⟨_, hp, h0⟩
    · obtain ⟨h1, h2, h3, h4, h5, h6, h7, h8⟩ := hp.at_
      refine hD1 1 (mv hp ?_ ?_ ?_)
      · simp only [Konst.prog, Konst.progP]
        rw [sendAll, dif_neg h0]
      · simp [Konst.left]; omega
      · refine ⟨h1, by omega, h5, Nat.le_refl _, hr, h6, by omega, ?_, h8⟩
        intro r; simp [h7 r]; omega
  | d1 j => exact hD1 j hp
  | all m => exact hX hp ⟨m, Or.inl rfl⟩
  | d2 no => exact hD2 no hp
  | d2s no r => exact ⟨_, hp, trivial⟩
  | last m => exact hX hp ⟨m, Or.inr rfl⟩
  | x j => exact ⟨_, hp, hp.at_.2.2.2.2.1⟩

/-! ### traces -/

theorem dispatched_snoc (tr : List Ev) (e : Ev) : dispatched (tr ++ [e]) = dispatched tr ++ dispatched [e] :=
  List.filterMap_append ..
theorem executed_snoc (tr : List Ev) (e : Ev) : executed (tr ++ [e]) = executed tr ++ executed [e] :=
  List.filterMap_append ..
theorem writes_snoc (tr : List Ev) (e : Ev) : writes (tr ++ [e]) = writes tr ++ writes [e] :=
  List.filterMap_append ..
theorem acknowledged_snoc (tr : List Ev) (e : Ev) :
    acknowledged (tr ++ [e]) = acknowledged tr ++ acknowledged [e] :=
  List.filterMap_append ..
theorem shutdowns_snoc (tr : List Ev) (e : Ev) : shutdowns (tr ++ [e]) = shutdowns tr ++ shutdowns [e] :=
  List.filterMap_append ..
theorem ofRank_append (r : Nat) (l l' : List (Nat × Bytes)) : ofRank r (l ++ l') = ofRank r l ++ ofRank r l' :=
  List.filterMap_append ..

/-- Events no observer counts. -/
def Silent : Ev → Prop
  | .bcasted _ => True
  | .opened _ => True
  | .got _ _ => True
  | .failed _ => True
  | .sendDone => True
  | _ => False

theorem silent_traces {e : Ev} (h : Silent e) :
    dispatched [e] = [] ∧ executed [e] = [] ∧ writes [e] = [] ∧ acknowledged [e] = [] ∧
    shutdowns [e] = [] := by
  cases e <;> first | exact ⟨rfl, rfl, rfl, rfl, rfl⟩ | exact absurd h (by simp [Silent])

theorem WroteOk.snoc {tr : List Ev} {e : Ev} (h : WroteOk K tr)
    (he : ∀ r t ba ar me wq, e = Ev.wrote r t ba ar me wq →
      ba = K.base ∧ ar = K.archive ∧ me.length = K.b ∧ workerDo K.c.env K.c.fs K.base me t = .ok wq) :
    WroteOk K (tr ++ [e]) := by
  intro r t ba ar me wq hm
  rcases List.mem_append.1 hm with hm | hm
  · exact h r t ba ar me wq hm
  · exact he r t ba ar me wq (List.mem_singleton.1 hm).symm

theorem Quiet.snoc {tr : List Ev} {e : Ev} {s s' : Sys} (h : Quiet K tr s) (he : Silent e)
    (hf : s'.file = s.file) (ha : s'.acks = s.acks) (hp : ∀ r, s'.pend ≠ some (.one r)) :
    Quiet K (tr ++ [e]) s' := by
  refine ⟨?_, ?_, ?_, by rw [hf, h.file], by rw [ha, h.noAcks], hp⟩
  · intro r m hm
    rcases List.mem_append.1 hm with hm | hm
    · exact h.noSend r m hm
    · rw [← List.mem_singleton.1 hm] at he; exact he
  · intro r t ba ar me wq hm
    rcases List.mem_append.1 hm with hm | hm
    · exact h.noWrite r t ba ar me wq hm
    · rw [← List.mem_singleton.1 hm] at he; exact he
  · intro r hm
    rcases List.mem_append.1 hm with hm | hm
    · exact h.noAck r hm
    · rw [← List.mem_singleton.1 hm] at he; exact he

/-- A step nobody counts, that leaves rank 0's program, the reports and the archive as they were. -/
theorem Post.silent {g : Ghost} {pt : Pt} {tr : List Ev} {e : Ev} {s s' : Sys} (hp : Post K g pt tr s)
    (he : Silent e) (hb : s'.boss = s.boss) (hf : s'.file = s.file)
    (hv : ∀ r, K.c.worker r →
      View K g.nn (decide (r < g.pj)) (decide (r < g.xj)) (g.out r) (g.wr r) (s'.loc r))
    (hw : weight K s' + 1 ≤ weight K s) : Post K g pt (tr ++ [e]) s' := by
  obtain ⟨t1, t2, t3, t4, t5⟩ := silent_traces he
  have e1 : dispatched (tr ++ [e]) = dispatched tr := by rw [dispatched_snoc, t1, List.append_nil]
  have e2 : executed (tr ++ [e]) = executed tr := by rw [executed_snoc, t2, List.append_nil]
  have e3 : writes (tr ++ [e]) = writes tr := by rw [writes_snoc, t3, List.append_nil]
  have e4 : acknowledged (tr ++ [e]) = acknowledged tr := by rw [acknowledged_snoc, t4, List.append_nil]
  have e5 : shutdowns (tr ++ [e]) = shutdowns tr := by rw [shutdowns_snoc, t5, List.append_nil]
  constructor
  · rw [hb, hp.boss]
  · rw [e4]; exact hp.at_
  · exact hv
  · exact hp.orders
  · exact hp.outs
  · rw [e1]; exact hp.sentC
  · rw [e1, e2]; exact hp.perRank
  · rw [e1]; exact hp.dRanks
  · rw [e2]; exact hp.eRanks
  · rw [e4]; exact hp.acked
  · rw [e4, e1]; exact hp.ackR
  · rw [e5]; exact hp.downs
  · rw [hf, hp.file, e3]
  · refine hp.wrote.snoc ?_
    rintro r t ba ar me wq rfl
    exact absurd he (by simp [Silent])
  · exact hp.fresh
  · have := hp.len
    simp only [List.length_append, List.length_singleton]
    omega

/-! ### worker steps -/

theorem loc_update_w {s : Sys} (r : Nat) (w : WSt) (r' : Nat) :
    ({ s with w := Function.update s.w r w } : Sys).loc r' =
      if r' = r then ⟨w, s.bq r, s.pq r, (s.acks.map Prod.fst).count r⟩ else s.loc r' := by
  by_cases h : r' = r
  · subst h; simp [Sys.loc]
  · simp [Sys.loc, Function.update_of_ne h, h]

/-- One worker moves, silently. -/
theorem Inv.local {tr : List Ev} {e : Ev} {s s' : Sys} {r : Nat} (hr : K.c.worker r) (h : Inv K tr s)
    (he : Silent e) (hb : s'.boss = s.boss) (hf : s'.file = s.file) (ha : s'.acks = s.acks)
    (hp : s'.pend = s.pend) (hl : ∀ r', r' ≠ r → s'.loc r' = s.loc r')
    (hw : locW (s'.loc r) + 1 ≤ locW (s.loc r))
    (hpre : ∀ i, PreView K i (s.loc r) → PreView K i (s'.loc r))
    (hfail : ∀ x, FailView K x (s.loc r) → FailView K x (s'.loc r))
    (hpost : ∀ N p x o wr, (∀ t, o = some t → t ∈ K.orders) → View K N p x o wr (s.loc r) →
      View K N p x o wr (s'.loc r)) : Inv K (tr ++ [e]) s' := by
  have hW : weight K s' + 1 ≤ weight K s := by
    unfold weight
    have := weight_local (K := K) (s := s) (s' := s') hr (fun r' h => by rw [hl r' h])
    rw [hp, ha]
    omega
  have hC : Common K tr s → Common K (tr ++ [e]) s' := by
    intro hc
    exact ⟨by rw [hp]; exact hc.pendOk, by rw [ha]; exact hc.acksOk⟩
  have hv : ∀ (P : Nat → Loc → Prop), (∀ q, K.c.worker q → P q (s.loc q)) →
      (P r (s.loc r) → P r (s'.loc r)) → ∀ q, K.c.worker q → P q (s'.loc q) := by
    intro P h1 h2 q hq
    by_cases hqr : q = r
    · subst hqr; exact h2 (h1 _ hq)
    · rw [hl q hqr]; exact h1 q hq
  cases h with
  | pre i hc hq hi views len =>
    refine .pre i (hC hc) (hq.snoc he hf ha (by rw [hp]; exact hq.noP2p)) (by rw [hb]; exact hi)
      (hv (fun _ => PreView K i) views (hpre i)) ?_
    simp only [List.length_append, List.length_singleton]
    omega
  | failed x hc hq hb' views hfile len =>
    refine .failed x (hC hc) (hq.snoc he hf ha (by rw [hp]; exact hq.noP2p)) (by rw [hb]; exact hb')
      (hv (fun _ => FailView K x) views (hfail x)) hfile ?_
    simp only [List.length_append, List.length_singleton]
    omega
  | post g pt hc hp' =>
    refine .post g pt (hC hc) (hp'.silent he hb hf ?_ hW)
    exact hv (fun q => View K g.nn (decide (q < g.pj)) (decide (q < g.xj)) (g.out q) (g.wr q)) hp'.views
      (fun h => hpost _ _ _ _ _ (fun t ht => hp'.orders r t hr ht) h)

theorem count_fst_append (l : List (Nat × Bytes)) (r q : Nat) (a : Bytes) :
    ((l ++ [(r, a)]).map Prod.fst).count q = (l.map Prod.fst).count q + if r = q then 1 else 0 := by
  simp [List.count_append, List.count_singleton]

theorem Inv.work {tr : List Ev} {s s' : Sys} {r : Nat} {text name memory old : Bytes} {write : WriteReq}
    (h : Inv K tr s) (hr : K.c.worker r) (hs : (s.w r).stat = .working text)
    (hf : (s.w r).file = some (some name)) (hm : memory.length = (s.w r).bucket) (ho : s.file = some old)
    (hd : workerDo K.c.env K.c.fs (s.w r).base memory text = .ok write)
    (hs' : s' = { s with w := Function.update s.w r { s.w r with stat := .acking },
                         acks := s.acks ++ [(r, ackMsg r)], file := some (writeAt old write) }) :
    Inv K (tr ++ [.wrote r text (s.w r).base name memory write]) s' := by
  have hloc : s'.loc r = ⟨{ s.w r with stat := .acking }, s.bq r, s.pq r,
      (s.acks.map Prod.fst).count r + 1⟩ := by
    subst hs'
    simp only [Sys.loc, Function.update_self, count_fst_append, if_true]
  have hloc' : ∀ q, q ≠ r → s'.loc q = s.loc q := by
    intro q hqr
    subst hs'
    simp only [Sys.loc, Function.update_of_ne hqr, count_fst_append, if_neg (Ne.symm hqr),
              Nat.add_zero]
  have hboss : s'.boss = s.boss := by subst hs'; rfl
  have hpend : s'.pend = s.pend := by subst hs'; rfl
  have hacks : s'.acks = s.acks ++ [(r, ackMsg r)] := by subst hs'; rfl
  have hfile : s'.file = some (writeAt old write) := by subst hs'; rfl
  clear hs'
  cases h with
  | pre i hc hq hi views len =>
    exfalso
    have hv := views r hr
    generalize hl : s.loc r = l at hv
    rw [Sys.loc] at hl
    cases hv <;> simp only [Loc.mk.injEq] at hl <;> rw [hl.1] at hs <;> cases hs
  | failed x hc hq hb' views hfile len =>
    exfalso
    have hv := views r hr
    generalize hl : s.loc r = l at hv
    rw [Sys.loc] at hl
    cases hv <;> simp only [Loc.mk.injEq] at hl <;> rw [hl.1] at hs <;> cases hs
  | post g pt hc hp =>
    obtain ⟨v1, v2, v3, v4, v5, v6, v7, v8⟩ := (hp.views r hr).working hs
    have hbase : (s.w r).base = K.base := by rw [v6]; rfl
    have hname : name = K.archive := by
      rw [v6] at hf
      have : (some (some K.archive) : Option (Option Bytes)) = some (some name) := hf
      simp at this; exact this.symm
    have hbuck : (s.w r).bucket = K.b := by rw [v6]; rfl
    rw [hbase] at hd ⊢
    subst hname
    rw [hbuck] at hm
    have hold : old = writeAll (writes tr) := by
      have := hp.file
      rw [ho] at this
      exact Option.some.inj this
    have e1 : ∀ ev, ev = Ev.wrote r text K.base K.archive memory write →
        dispatched (tr ++ [ev]) = dispatched tr ∧ executed (tr ++ [ev]) = executed tr ++ [(r, text)] ∧
        writes (tr ++ [ev]) = writes tr ++ [write] ∧ acknowledged (tr ++ [ev]) = acknowledged tr ∧
        shutdowns (tr ++ [ev]) = shutdowns tr := by
      rintro ev rfl
      rw [dispatched_snoc, executed_snoc, writes_snoc, acknowledged_snoc, shutdowns_snoc]
      simp [dispatched, executed, writes, acknowledged, shutdowns]
    obtain ⟨e1, e2, e3, e4, e5⟩ := e1 _ rfl
    refine .post { g with wr := Function.update g.wr r true } pt
      ⟨by rw [hpend]; exact hc.pendOk, ?_⟩ ?_
    · intro a ha
      rw [hacks] at ha
      rcases List.mem_append.1 ha with ha | ha
      · exact hc.acksOk a ha
      · rw [List.mem_singleton.1 ha]; exact ⟨hr, rfl⟩
    · constructor
      · rw [hboss]; exact hp.boss
      · rw [e4]
        have := hp.at_
        cases pt <;> exact this
      · intro q hq
        by_cases hqr : q = r
        · subst hqr
          simp only [Function.update_self]
          rw [hloc]
          exact v7
        · simp only [Function.update_of_ne hqr]
          rw [hloc' q hqr]
          exact hp.views q hq
      · exact hp.orders
      · exact hp.outs
      · rw [e1]; exact hp.sentC
      · intro q hq
        rw [e1, e2, ofRank_append, hp.perRank q hq]
        by_cases hqr : q = r
        · subst hqr
          simp [v1, v2, ofRank]
        · simp [Function.update_of_ne hqr, ofRank, Ne.symm hqr]
      · rw [e1]; exact hp.dRanks
      · rw [e2]
        intro x hx
        rcases List.mem_append.1 hx with hx | hx
        · exact hp.eRanks x hx
        · rw [List.mem_singleton.1 hx]; exact hr
      · rw [e4]; exact hp.acked
      · rw [e4, e1]; exact hp.ackR
      · rw [e5]; exact hp.downs
      · rw [hfile, e3, hold]
        simp [writeAll]
      · refine hp.wrote.snoc ?_
        intro r' t ba ar me wq heq
        cases heq
        exact ⟨rfl, rfl, hm, hd⟩
      · exact hp.fresh
      · have := hp.len
        have hs2 := weight_local (K := K) (s := s) (s' := s') hr (fun q hqr => by rw [hloc' q hqr])
        have l1 : locW (s.loc r) = 2 * (s.bq r).length + 4 * (s.pq r).length + 3 := by
          simp [locW, Sys.loc, hs, statW]
        have l2 : locW (s'.loc r) = 2 * (s.bq r).length + 4 * (s.pq r).length + 1 := by
          rw [hloc]; simp [locW, statW]
        rw [l1, l2] at hs2
        unfold weight at this ⊢
        rw [hpend, hacks]
        simp only [List.length_append, List.length_singleton]
        omega

end Parfu
