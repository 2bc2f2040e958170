/-
Property theorems C66: a worker that stops costs only its own bundle.
-/
import Verif.PropsRun
set_option autoImplicit false

namespace Parfu.Props
open Parfu ProtocolSpec

/-- The event is the end - successful or not - of the work of rank `r` on a bundle. -/
def By (r : Nat) (e : Ev) : Prop := e = .failed r ∨ ∃ t ba ar m w, e = .wrote r t ba ar m w

/-- Worker `r` has stopped in the middle of a bundle: it is working on it, or has failed. -/
def Stopped (s : Sys) (r : Nat) : Prop := (∃ t, (s.w r).stat = .working t) ∨ ∃ e, (s.w r).stat = .dead e

section
variable {c : Cfg} {eager : Bool} {b : Nat} {archive base : Bytes} {orders : List Bytes}
  {file0 : Option Bytes} {tr : List Ev} {s : Sys}

theorem View.stopped {K : Konst} {N p x wr : Bool} {o : Option Bytes} {r : Nat} {s : Sys}
    (hv : View K N p x o wr (s.loc r)) (h : Stopped s r) :
    s.bq r = [] ∧ s.pq r = [] ∧ (∃ t, o = some t ∧ ∀ t', (s.w r).stat = .working t' → t' = t) ∧ wr = false := by
  have hno : ∀ w : WSt, s.w r = w → (w.stat = .wait ∨ w.stat = .acking ∨ w.stat = .ended 0) → False := by
    intro w hw h'
    rcases h with ⟨t, h⟩ | ⟨e, h⟩ <;> rw [hw] at h <;> rcases h' with h' | h' | h' <;> rw [h'] at h <;> cases h
  generalize hl : s.loc r = l at hv
  rw [Sys.loc] at hl
  cases hv with
  | ready => simp only [Loc.mk.injEq] at hl; exact (hno _ hl.1 (Or.inl rfl)).elim
  | before => simp only [Loc.mk.injEq] at hl; exact (hno _ hl.1 (Or.inl rfl)).elim
  | indiv => simp only [Loc.mk.injEq] at hl; exact (hno _ hl.1 (Or.inl rfl)).elim
  | based => simp only [Loc.mk.injEq] at hl; exact (hno _ hl.1 (Or.inl rfl)).elim
  | basedA => simp only [Loc.mk.injEq] at hl; exact (hno _ hl.1 (Or.inr (Or.inl rfl))).elim
  | work t =>
    simp only [Loc.mk.injEq] at hl
    refine ⟨hl.2.1, hl.2.2.1, ⟨t, rfl, fun t' ht' => ?_⟩, rfl⟩
    rw [hl.1] at ht'; cases ht'; rfl
  | done => simp only [Loc.mk.injEq] at hl; exact (hno _ hl.1 (Or.inl rfl)).elim
  | doneA => simp only [Loc.mk.injEq] at hl; exact (hno _ hl.1 (Or.inr (Or.inl rfl))).elim
  | gone => simp only [Loc.mk.injEq] at hl; exact (hno _ hl.1 (Or.inr (Or.inr rfl))).elim
  | dead t memory e hm he =>
    simp only [Loc.mk.injEq] at hl
    refine ⟨hl.2.1, hl.2.2.1, ⟨t, rfl, fun t' ht' => ?_⟩, rfl⟩
    rw [hl.1] at ht'; cases ht'

/-- **C66** Let some workers (`Q`) have stopped in the middle of their bundles - slow for ever, or
failed - while at least one other worker has not.  When nothing more happens but, possibly, the end
of the work of those workers, all bundles have been handed out, all those handed to other workers
have been carried out, and of those handed to each stopped worker all but the last. -/
theorem C66_only_own_bundles_missing (hL : Launch c b archive base orders)
    (h : CreateRun c eager b archive base orders file0 tr s)
    (Q : Nat → Prop) (hQ : ∀ r, Q r → c.worker r ∧ Stopped s r)
    (hq0 : ∃ r, Q r) (hq1 : ∃ r, c.worker r ∧ ¬ Q r)
    (hD : ∀ r, c.worker r → ¬ Q r → ∀ e, (s.w r).stat ≠ .dead e)
    (hstop : ∀ e s', Step c false s e s' → ∃ r, Q r ∧ By r e) :
    (dispatched tr).map Prod.snd = orders ∧
    (∀ r, c.worker r → ¬ Q r → ofRank r (executed tr) = ofRank r (dispatched tr)) ∧
    (∀ r, Q r → ∃ t, ofRank r (dispatched tr) = ofRank r (executed tr) ++ [t] ∧
      ∀ t', (s.w r).stat = .working t' → t' = t) := by
  obtain ⟨r0, hr0⟩ := hq0
  obtain ⟨r1, hr1, hr1Q⟩ := hq1
  have nBy : ∀ e, (∀ r, ¬ By r e) → ∀ s', ¬ Step c false s e s' := by
    intro e he s' hst
    obtain ⟨r, _, hb⟩ := hstop e s' hst
    exact he r hb
  have hI := run_inv' hL h
  cases hI with
  | pre i hc hq hi views len =>
    exfalso
    have hv := views r0 (hQ r0 hr0).1
    have hs := (hQ r0 hr0).2
    generalize hl : s.loc r0 = l at hv
    rw [Sys.loc] at hl
    cases hv <;> simp only [Loc.mk.injEq] at hl <;> unfold Stopped at hs <;> rw [hl.1] at hs <;>
      rcases hs with ⟨t, hs⟩ | ⟨t, hs⟩ <;> cases hs
  | failed x hc hq hb' views hfile len =>
    exfalso
    have hv := views r0 (hQ r0 hr0).1
    have hs := (hQ r0 hr0).2
    generalize hl : s.loc r0 = l at hv
    rw [Sys.loc] at hl
    cases hv <;> simp only [Loc.mk.injEq] at hl <;> unfold Stopped at hs <;> rw [hl.1] at hs <;>
      rcases hs with ⟨t, hs⟩ | ⟨t, hs⟩ <;> cases hs
  | post g pt hc hp =>
    obtain ⟨pt, hp, hn⟩ := hp.normal hL
    have hst := fun r (hr : Q r) => View.stopped (hp.views r (hQ r hr).1) (hQ r hr).2
    have hqu : ∀ r, c.worker r → ¬ Q r → s.bq r = [] ∧ s.pq r = [] ∧
        (g.out r = none ∨ ∃ t, g.out r = some t ∧ r ∈ s.acks.map Prod.fst) := by
      intro r hr hrQ
      have := View.quiescentX hr (hD r hr hrQ) ⟨_, hp.file⟩ (hp.views r hr) (fun e => ∃ r, Q r ∧ By r e)
        (by
          refine ⟨?_, ?_, ?_, ?_⟩
          · rintro m ⟨r', _, h | ⟨_, _, _, _, _, h⟩⟩ <;> cases h
          · rintro ⟨r', _, h | ⟨_, _, _, _, _, h⟩⟩ <;> cases h
          · rintro t ba ar m w ⟨r', hq, h | ⟨_, _, _, _, _, h⟩⟩
            · cases h
            · cases h; exact hrQ hq
          · rintro ⟨r', hq, h | ⟨_, _, _, _, _, h⟩⟩
            · cases h; exact hrQ hq
            · cases h) hstop
      refine ⟨this.1, this.2.1, ?_⟩
      rcases this.2.2 with h | ⟨t, h1, _, h2⟩ | h
      · exact Or.inl h.1
      · exact Or.inr ⟨t, h1, h2⟩
      · exact Or.inl h.1
    have hbp : ∀ r, c.worker r → s.bq r = [] ∧ s.pq r = [] := by
      intro r hr
      by_cases hrQ : Q r
      · exact ⟨(hst r hrQ).1, (hst r hrQ).2.1⟩
      · exact ⟨(hqu r hr hrQ).1, (hqu r hr hrQ).2.1⟩
    have eSend : ∀ r, ¬ By r .sendDone := by
      rintro r (h | ⟨_, _, _, _, _, h⟩) <;> cases h
    have eSent : ∀ q m r, ¬ By r (.sent q m) := by
      rintro q m r (h | ⟨_, _, _, _, _, h⟩) <;> cases h
    have eBc : ∀ m r, ¬ By r (.bcasted m) := by
      rintro m r (h | ⟨_, _, _, _, _, h⟩) <;> cases h
    have eAck : ∀ q r, ¬ By r (.acked q) := by
      rintro q r (h | ⟨_, _, _, _, _, h⟩) <;> cases h
    have hpend : s.pend = none := by
      cases hpd : s.pend with
      | none => rfl
      | some q =>
        cases q with
        | one r =>
          have hr := hc.pendOk r hpd
          exact absurd (Step.sendDone s r hpd (Or.inr (hbp r hr).2)) (nBy _ eSend _)
        | all => exact absurd (Step.bcastDone s hpd (Or.inr fun r hr => (hbp r hr).1)) (nBy _ eSend _)
    have hrecv : ∀ k, s.boss = .recv k → ∀ r, c.worker r → ¬ Q r → g.out r = none := by
      intro k hb r hr hrQ
      rcases (hqu r hr hrQ).2.2 with h | ⟨t, _, hm⟩
      · exact h
      · exfalso
        obtain ⟨⟨r', a⟩, ha, rfl⟩ := List.mem_map.1 hm
        obtain ⟨l1, l2, hl⟩ := List.append_of_mem ha
        exact nBy _ (eAck _) _ (.recv s k l1 l2 _ a hpend hb hl)
    have hat := hp.at_
    have hboss := hp.boss
    have key : g.no = orders.length → (∀ r, c.worker r → ¬ Q r → g.out r = none) →
        (dispatched tr).map Prod.snd = orders ∧
        (∀ r, c.worker r → ¬ Q r → ofRank r (executed tr) = ofRank r (dispatched tr)) ∧
        (∀ r, Q r → ∃ t, ofRank r (dispatched tr) = ofRank r (executed tr) ++ [t] ∧
      ∀ t', (s.w r).stat = .working t' → t' = t) := by
      intro hno hout
      refine ⟨?_, ?_, ?_⟩
      · have := hp.sentC
        rw [this, hno]; exact List.take_length
      · intro r hr hrQ
        have := hp.perRank r hr
        rw [hout r hr hrQ] at this
        simp at this
        exact this.symm
      · intro r hrQ
        have := hp.perRank r (hQ r hrQ).1
        obtain ⟨_, _, ⟨t, ht, ht'⟩, hw⟩ := hst r hrQ
        rw [ht, hw] at this
        exact ⟨t, by simpa using this, ht'⟩
    rcases prog_cases pt hn hp.at_ with ⟨_, h⟩ | ⟨j, rfl, hj, h⟩ | ⟨j, rfl, hj, hj2, h⟩ | ⟨m, rfl, h⟩ |
      ⟨no, rfl, _, h⟩ | ⟨no, r', rfl, h⟩ | ⟨m, rfl, h⟩ | ⟨j, rfl, hj, h⟩ | ⟨j, rfl, hj, h⟩ <;>
      rw [h] at hboss
    · exact absurd (Step.bcast s _ _ hpend hboss) (nBy _ (eBc _) _)
    · exact absurd (Step.send s _ _ _ hpend hboss ⟨hat.2.2.1, hj⟩) (nBy _ (eSent _ _) _)
    · exact absurd (Step.send s _ _ _ hpend hboss ⟨hat.2.2.2.1, hj⟩) (nBy _ (eSent _ _) _)
    · exact key hat.2.2.2.1 (hrecv _ hboss)
    · exfalso
      have h1 := hat.2.2.2.2.2 r1 hr1
      rw [hrecv _ hboss r1 hr1 hr1Q] at h1
      cases h1
    · exact absurd (Step.send s _ _ _ hpend hboss hat.2.2.2.2.2.1) (nBy _ (eSent _ _) _)
    · exact key hat.2.2.2.1 (hrecv _ hboss)
    · exfalso
      obtain ⟨_, _, ⟨t, ht, _⟩, _⟩ := hst r0 hr0
      rw [hat.2.2.2.2.2.2 r0 (hQ r0 hr0).1] at ht
      cases ht
    · exfalso
      obtain ⟨_, _, ⟨t, ht, _⟩, _⟩ := hst r0 hr0
      rw [hat.2.2.2.2.2.2 r0 (hQ r0 hr0).1] at ht
      cases ht

/-- A step of others does not move a worker that has stopped. -/
theorem stopped_stays {e : Ev} {s' : Sys} {r : Nat} (hr : c.worker r) (h : Stopped s r) (hst : Step c eager s e s')
    (hb : ¬ By r e) : (s'.w r).stat = (s.w r).stat := by
  have hup : ∀ (q : Nat) (w : WSt), q ≠ r → (Function.update s.w q w r).stat = (s.w r).stat := by
    intro q w hq
    rw [Function.update_of_ne (Ne.symm hq)]
  have hne : ∀ q, (s.w q).stat = .wait ∨ (s.w q).stat = .acking → q ≠ r := by
    rintro q hq rfl
    rcases h with ⟨t, h⟩ | ⟨t, h⟩ <;> rw [h] at hq <;> rcases hq with hq | hq <;> cases hq
  cases hst with
  | openFile name k hp hb' hw =>
    have := hw r hr
    rcases h with ⟨t, h⟩ | ⟨t, h⟩ <;> rw [h] at this <;> cases this
  | getBcast q m rest hq hs hm hq' => exact hup q _ (hne q (Or.inl hs))
  | getSend q m rest hq hs hm hq' => exact hup q _ (hne q (Or.inl hs))
  | work q text name memory old write hq hs hf hm ho hd =>
    exact hup q _ (by rintro rfl; exact hb (Or.inr ⟨_, _, _, _, _, rfl⟩))
  | workFails q text memory e hq hs hm hd =>
    exact hup q _ (by rintro rfl; exact hb (Or.inl rfl))
  | ackDone q hq hs hq' => exact hup q _ (hne q (Or.inr hs))
  | _ => rfl

/-- **C66** If every bundle can be carried out: from every moment at which some workers (but not
all) are working on bundles, the run can go on without anything being finished by these workers,
until every other bundle has been carried out. -/
theorem C66_others_go_on (hL : Launch c b archive base orders) (hW : Workable c b base orders)
    (h : CreateRun c eager b archive base orders file0 tr s)
    (Q : Nat → Prop) (hQ : ∀ r, Q r → c.worker r ∧ Stopped s r)
    (hq0 : ∃ r, Q r) (hq1 : ∃ r, c.worker r ∧ ¬ Q r) :
    ∃ more s', CreateRun c eager b archive base orders file0 (tr ++ more) s' ∧
      (∀ e ∈ more, ∀ r, Q r → ¬ By r e) ∧
      (∀ r, Q r → (s'.w r).stat = (s.w r).stat) ∧
      (dispatched (tr ++ more)).map Prod.snd = orders ∧
      (∀ r, c.worker r → ¬ Q r → ofRank r (executed (tr ++ more)) = ofRank r (dispatched (tr ++ more))) ∧
      (∀ r, Q r → ∃ t, ofRank r (dispatched (tr ++ more)) = ofRank r (executed (tr ++ more)) ++ [t] ∧
        ∀ t', (s.w r).stat = .working t' → t' = t) := by
  generalize hm : (2 * c.ranks + 6) * (8 + 6 * c.ranks + 3 * orders.length) - tr.length = m
  induction m using Nat.strongRecOn generalizing tr s with
  | ind m ih =>
    by_cases hstop : ∀ e s', Step c false s e s' → ∃ r, Q r ∧ By r e
    · have := C66_only_own_bundles_missing hL h Q hQ hq0 hq1 (by
        intro r hr _ e hd
        obtain ⟨t, ht, memory, hm, he⟩ := dead_had_bundle hL h r hr e hd
        obtain ⟨w, hw⟩ := hW t ht memory hm
        rw [he] at hw; cases hw) hstop
      exact ⟨[], s, by simpa using h, by simp, fun _ _ => rfl, by simpa using this⟩
    · have hstop' : ∃ e s', Step c false s e s' ∧ ∀ r, Q r → ¬ By r e := by
        by_contra hno
        apply hstop
        intro e s' hst
        by_contra hno'
        exact hno ⟨e, s', hst, fun r hr hb => hno' ⟨r, hr, hb⟩⟩
      obtain ⟨e, s', hst, hby⟩ := hstop'
      have hst' : Step c eager s e s' := by
        cases eager with
        | false => exact hst
        | true => exact hst.eager
      have hrun : CreateRun c eager b archive base orders file0 (tr ++ [e]) s' := .snoc h hst'
      have hb := C25_bounded hL hrun
      simp only [List.length_append, List.length_singleton] at hb
      have hsame : ∀ r, Q r → (s'.w r).stat = (s.w r).stat := fun r hr =>
        stopped_stays (hQ r hr).1 (hQ r hr).2 hst (hby r hr)
      obtain ⟨more, s2, h2, h3, h4, h5⟩ := ih _ (by
        rw [← hm]
        show (2 * c.ranks + 6) * (8 + 6 * c.ranks + 3 * orders.length) - (tr ++ [e]).length < _
        simp only [List.length_append, List.length_singleton]
        omega) hrun (by
          intro r hr
          refine ⟨(hQ r hr).1, ?_⟩
          have := (hQ r hr).2
          unfold Stopped at this ⊢
          rwa [hsame r hr]) rfl
      rw [show tr ++ [e] ++ more = tr ++ e :: more by simp] at h2 h5
      refine ⟨e :: more, s2, h2, ?_, ?_, h5.1, h5.2.1, ?_⟩
      · intro x hx
        rcases List.mem_cons.1 hx with rfl | hx
        · exact hby
        · exact h3 x hx
      · intro r hr
        rw [h4 r hr, hsame r hr]
      · intro r hr
        rw [← hsame r hr]
        exact h5.2.2 r hr

/-- **C66** ... whatever the schedule: a run in which these workers finish nothing has at most
`(2n+6)(8+6n+3m)` steps (`C25_bounded`) and cannot stop before every other bundle is done
(`C66_only_own_bundles_missing`).  For one stopped worker: exactly its bundle is missing. -/
theorem C66_one_bundle_missing (hL : Launch c b archive base orders)
    (h : CreateRun c eager b archive base orders file0 tr s) {r0 : Nat} (hr0 : c.worker r0)
    (hs : Stopped s r0) (hr3 : 3 ≤ c.ranks)
    (hD : ∀ r, c.worker r → r ≠ r0 → ∀ e, (s.w r).stat ≠ .dead e)
    (hstop : ∀ e s', Step c false s e s' → By r0 e) :
    ∃ t, (r0, t) ∈ dispatched tr ∧ (executed tr ++ [(r0, t)]).Perm (dispatched tr) ∧
      ((executed tr).map Prod.snd ++ [t]).Perm orders ∧ ∀ t', (s.w r0).stat = .working t' → t' = t := by
  obtain ⟨h1, h2, h3⟩ := C66_only_own_bundles_missing hL h (· = r0) (by rintro r rfl; exact ⟨hr0, hs⟩) ⟨r0, rfl⟩
    (by
      by_cases h1 : r0 = 1
      · exact ⟨2, ⟨by omega, by omega⟩, by omega⟩
      · exact ⟨1, ⟨by omega, by omega⟩, by omega⟩) hD (fun e s' hst => ⟨r0, rfl, hstop e s' hst⟩)
  obtain ⟨t, ht, htw⟩ := h3 r0 rfl
  obtain ⟨_, d1, d2, _⟩ := C22_dispatch_in_order hL h
  have hperm : (executed tr ++ [(r0, t)]).Perm (dispatched tr) := by
    refine perm_of_ofRank (c := c) ?_ d1 ?_
    · intro x hx
      rcases List.mem_append.1 hx with hx | hx
      · exact d2 x hx
      · simp only [List.mem_singleton] at hx; subst hx; exact hr0
    · intro r hr
      have happ : ofRank r (executed tr ++ [(r0, t)]) = ofRank r (executed tr) ++ ofRank r [(r0, t)] := by
        unfold ofRank; rw [List.filterMap_append]
      rw [happ]
      by_cases hrr : r = r0
      · subst hrr
        rw [ht]; simp [ofRank]
      · rw [h2 r hr hrr]
        simp [ofRank, Ne.symm hrr]
  refine ⟨t, hperm.mem_iff.1 (by simp), hperm, ?_, htw⟩
  have := hperm.map Prod.snd
  rw [h1, List.map_append] at this
  exact this

/-- A worker that has stopped has been given a bundle, so the archive exists. -/
theorem stopped_file (hL : Launch c b archive base orders) (h : CreateRun c eager b archive base orders file0 tr s)
    {r : Nat} (hr : c.worker r) (hs : Stopped s r) : ∃ f, s.file = some f := by
  cases run_inv' hL h with
  | pre i hc hq hi views len =>
    exfalso
    have hv := views r hr
    generalize hl : s.loc r = l at hv
    rw [Sys.loc] at hl
    cases hv <;> simp only [Loc.mk.injEq] at hl <;> unfold Stopped at hs <;> rw [hl.1] at hs <;>
      rcases hs with ⟨t, hs⟩ | ⟨t, hs⟩ <;> cases hs
  | failed x hc hq hb' views hfile len =>
    exfalso
    have hv := views r hr
    generalize hl : s.loc r = l at hv
    rw [Sys.loc] at hl
    cases hv <;> simp only [Loc.mk.injEq] at hl <;> unfold Stopped at hs <;> rw [hl.1] at hs <;>
      rcases hs with ⟨t, hs⟩ | ⟨t, hs⟩ <;> cases hs
  | post g pt hc hp => exact ⟨_, hp.file⟩

/-- Just before a bundle is carried out, the worker is working on it. -/
theorem passes_working {p : Boss} (h : Run c eager (Sys.start p file0) tr s) {r : Nat} {t : Bytes}
    (hm : (r, t) ∈ executed tr) :
    ∃ tr0 rest s0, tr = tr0 ++ rest ∧ Run c eager (Sys.start p file0) tr0 s0 ∧ c.worker r ∧
      (s0.w r).stat = .working t := by
  induction h with
  | nil => simp [executed] at hm
  | @snoc tr s s' e h st ih =>
    have hx : executed (tr ++ [e]) = executed tr ++ executed [e] := by
      unfold executed; rw [List.filterMap_append]
    rw [hx, List.mem_append] at hm
    rcases hm with hm | hm
    · obtain ⟨tr0, rest, s0, e1, e2⟩ := ih hm
      exact ⟨tr0, rest ++ [e], s0, by rw [e1, List.append_assoc], e2⟩
    · cases st with
      | work r' text name memory old write hr hs hf hm' ho hd =>
        simp only [executed, List.filterMap_cons, List.filterMap_nil, List.mem_singleton, Prod.mk.injEq] at hm
        obtain ⟨rfl, rfl⟩ := hm
        exact ⟨tr, _, s, rfl, h, hr, hs⟩
      | _ => simp [executed] at hm

/-- **C66** With at least two workers, for every bundle there is a run in which a worker stops on it
and everything else has been carried out. -/
theorem C66_every_bundle_can_be_missing (hL : Launch c b archive base orders) (hW : Workable c b base orders)
    (hr3 : 3 ≤ c.ranks) (h : CreateRun c eager b archive base orders file0 tr s) (hx : s.boss = .exit 0)
    (t : Bytes) (ht : t ∈ orders) :
    ∃ tr' s' r, CreateRun c eager b archive base orders file0 tr' s' ∧ c.worker r ∧ (s'.w r).stat = .working t ∧
      ((executed tr').map Prod.snd ++ [t]).Perm orders := by
  obtain ⟨h1, h2⟩ := C22_exactly_once hL h hx
  have hm : t ∈ (executed tr).map Prod.snd := by
    rw [(h2.map Prod.snd).mem_iff, h1]; exact ht
  obtain ⟨⟨r, t'⟩, hm', rfl⟩ := List.mem_map.1 hm
  obtain ⟨tr0, rest, s0, _, e2, e3, e4⟩ := passes_working h hm'
  obtain ⟨more, s', k1, k2, k3, k4, k5, k6⟩ := C66_others_go_on hL hW e2 (· = r)
    (by rintro q rfl; exact ⟨e3, Or.inl ⟨_, e4⟩⟩) ⟨r, rfl⟩ (by
      by_cases h1 : r = 1
      · exact ⟨2, ⟨by omega, by omega⟩, by omega⟩
      · exact ⟨1, ⟨by omega, by omega⟩, by omega⟩)
  refine ⟨_, s', r, k1, e3, by rw [k3 r rfl]; exact e4, ?_⟩
  obtain ⟨t, k6, k7⟩ := k6 r rfl
  have := k7 _ e4
  subst this
  obtain ⟨_, d1, d2, _⟩ := C22_dispatch_in_order hL k1
  have hperm : (executed (tr0 ++ more) ++ [(r, t')]).Perm (dispatched (tr0 ++ more)) := by
    refine perm_of_ofRank (c := c) ?_ d1 ?_
    · intro x hx
      rcases List.mem_append.1 hx with hx | hx
      · exact d2 x hx
      · simp only [List.mem_singleton] at hx; subst hx; exact e3
    · intro q hq
      have happ : ofRank q (executed (tr0 ++ more) ++ [(r, t')]) =
          ofRank q (executed (tr0 ++ more)) ++ ofRank q [(r, t')] := by
        unfold ofRank; rw [List.filterMap_append]
      rw [happ]
      by_cases hrr : q = r
      · subst hrr
        rw [k6]; simp [ofRank]
      · rw [k5 q hq hrr]
        simp [ofRank, Ne.symm hrr]
  have := hperm.map Prod.snd
  rw [k4, List.map_append] at this
  exact this

end

/-- The demo job with two workers: a run in which a worker is still at the bundle of the directories
while the other bundle has been carried out. -/
example : ∃ tr s r, CreateRun demoCfg true 102400 [97] demoBase (demoBundles.map printBundle) none tr s ∧
    demoCfg.worker r ∧ Stopped s r ∧ (executed tr).length = 1 ∧ 3 ≤ demoCfg.ranks ∧
    Workable demoCfg 102400 demoBase (demoBundles.map printBundle) ∧ ∃ f, s.file = some f := by
  have hL := job_launch demo_job' demo_launchable
  have hW := job_workable demo_job'
  obtain ⟨_, _, tr, s, h, hf⟩ := C19_runs_succeed demo_job' demo_launchable (by decide) rfl Run.nil
  rw [List.nil_append] at h
  obtain ⟨tr', s', r, k1, k2, k3, k4⟩ := C66_every_bundle_can_be_missing hL hW (by decide) h hf.1
    (printBundle (demoBundles.head (by decide))) (List.mem_map.2 ⟨_, List.head_mem _, rfl⟩)
  have hst : Stopped s' r := Or.inl ⟨_, k3⟩
  refine ⟨tr', s', r, k1, k2, hst, ?_, by decide, hW, stopped_file hL k1 k2 hst⟩
  have := k4.length_eq
  have h2 : (demoBundles.map printBundle).length = 2 := rfl
  rw [h2] at this
  simpa using this

end Parfu.Props
