/-
Lemmas about failing memory, reads and writes (Verif/Faults.lean).
-/
import Verif.FaultsSpec
import Verif.ProtocolBoss
import Verif.MoveLemmas
set_option autoImplicit false

namespace Parfu
open ProtocolSpec FaultsSpec MoveSpec

/-! ### one bundle -/

theorem readIntoF_ok {fs : FS} {full : Bytes} {off size loc : Nat} {buf buf1 bufF : Bytes} (lim : Nat)
    (h : readInto fs full off size buf loc = .ok buf1) (hl : bufF.length = buf.length) :
    ∃ b, readIntoF lim fs full off size bufF loc = .ok b ∧ b.length = buf1.length := by
  unfold readInto at h
  unfold readIntoF
  cases hc : fs.read full with
  | none => rw [hc] at h; cases h
  | some c =>
    rw [hc] at h
    simp only at h ⊢
    by_cases hs : 2 ^ 31 ≤ size
    · rw [if_pos hs] at h; cases h
    · rw [if_neg hs] at h ⊢
      obtain ⟨h1, h2, _⟩ := blit_get h
      have h3 : (((c.drop off).take size).take lim).length ≤ ((c.drop off).take size).length := by
        rw [List.length_take]; omega
      obtain ⟨b, hb⟩ := blit_ok (buf := bufF) (data := ((c.drop off).take size).take lim) (off := loc) (by omega)
      obtain ⟨_, b2, _⟩ := blit_get hb
      exact ⟨b, hb, by omega⟩

theorem makeHeaderAt_ok {env : Env} {fs : FS} {full : Bytes} {loc : Nat} {buf buf1 bufF : Bytes}
    (h : makeHeaderAt env fs full buf loc = .ok buf1) (hl : bufF.length = buf.length) :
    ∃ b, makeHeaderAt env fs full bufF loc = .ok b ∧ b.length = buf1.length := by
  unfold makeHeaderAt at h ⊢
  cases he : tarentryCtor fs.lstat full 0 with
  | error e => rw [he] at h; cases h
  | ok t =>
    rw [he] at h
    cases hh : makeTarHeader env t with
    | error e => simp only [bind, Except.bind, hh] at h; cases h
    | ok x =>
      simp only [bind, Except.bind, hh] at h ⊢
      obtain ⟨h1, h2, _⟩ := blit_get h
      obtain ⟨b, hb⟩ := blit_ok (buf := bufF) (data := x) (off := loc) (by omega)
      obtain ⟨_, b2, _⟩ := blit_get hb
      exact ⟨b, hb, by omega⟩

theorem moveOneF_ok {env : Env} {fs : FS} {base : Bytes} {start : Nat} {w : WOrder} {buf buf1 bufF : Bytes}
    (lim : Nat) (h : moveOne env fs base start buf w = .ok buf1) (hl : bufF.length = buf.length) :
    ∃ b, moveOneF lim env fs base start bufF w = .ok b ∧ b.length = buf1.length := by
  unfold moveOne at h
  unfold moveOneF
  have h0 : ∃ m mF, (if w.hdr ≠ 0 then makeHeaderAt env fs (fullName base w.rel) buf (usub64 w.pos start)
         else .ok buf) = .ok m ∧ (if w.hdr ≠ 0 then makeHeaderAt env fs (fullName base w.rel) bufF (usub64 w.pos start)
         else .ok bufF) = .ok mF ∧ mF.length = m.length := by
    by_cases hh : w.hdr ≠ 0
    · rw [if_pos hh] at h
      rw [if_pos hh, if_pos hh]
      cases hm : makeHeaderAt env fs (fullName base w.rel) buf (usub64 w.pos start) with
      | error e => rw [hm] at h; cases h
      | ok m =>
        obtain ⟨mF, h1, h2⟩ := makeHeaderAt_ok hm hl
        exact ⟨m, mF, rfl, h1, h2⟩
    · rw [if_neg hh, if_neg hh]
      exact ⟨buf, bufF, rfl, rfl, hl⟩
  obtain ⟨m, mF, e1, e2, e3⟩ := h0
  rw [e1] at h
  rw [e2]
  simp only at h ⊢
  by_cases hs : w.size ≠ 0
  · rw [if_pos hs] at h ⊢
    exact readIntoF_ok lim h e3
  · rw [if_neg hs] at h ⊢
    cases h
    exact ⟨mF, rfl, e3⟩

theorem moveLoopF_ok {env : Env} {fs : FS} {base : Bytes} {start : Nat} (reads : Nat → Nat) :
    ∀ (ws : List WOrder) (i : Nat) (buf buf1 bufF : Bytes),
      moveLoop env fs base start ws buf = .ok buf1 → bufF.length = buf.length →
      ∃ b, moveLoopF reads env fs base start i ws bufF = .ok b ∧ b.length = buf1.length := by
  intro ws
  induction ws with
  | nil => intro i buf buf1 bufF h hl; cases h; exact ⟨bufF, rfl, hl⟩
  | cons w ws ih =>
    intro i buf buf1 bufF h hl
    unfold moveLoop at h
    unfold moveLoopF
    cases hm : moveOne env fs base start buf w with
    | error e => rw [hm] at h; cases h
    | ok m =>
      rw [hm] at h
      obtain ⟨mF, h1, h2⟩ := moveOneF_ok (reads i) hm hl
      rw [h1]
      exact ih (i + 1) m buf1 mF h h2

/-- Whatever fails, a worker that could carry out a bundle goes on; what it writes starts where it
should and is no longer than it should be. -/
theorem moveDataF_ok {env : Env} {fs : FS} {base garbage : Bytes} {ws : List WOrder} {w : WriteReq} (F : Faults)
    (h : moveData env fs base garbage ws = .ok w) :
    ∃ o, moveDataF F env fs base garbage ws = .ok o ∧
      ∀ v, o = some v → v.1 = w.1 ∧ v.2.length ≤ w.2.length := by
  unfold moveDataF
  by_cases hmem : F.memory = true
  · rw [if_pos hmem]
    unfold moveData at h
    cases h1 : ws.head? with
    | none => rw [h1] at h; cases h
    | some first =>
      cases h2 : ws.getLast? with
      | none => rw [h1, h2] at h; cases h
      | some last =>
        rw [h1, h2] at h
        simp only at h ⊢
        cases hm : moveLoop env fs base first.pos ws garbage with
        | error e => rw [hm] at h; cases h
        | ok buf =>
          rw [hm] at h
          obtain ⟨bF, e1, e2⟩ := moveLoopF_ok F.reads ws 0 garbage buf garbage hm rfl
          rw [e1]
          simp only at h ⊢
          generalize totalLen first last = T at h ⊢
          have h3 : ∃ p pF, (if nextBlock T - T ≠ 0 then blit buf T (zeros (nextBlock T - T)) else .ok buf) = .ok p ∧
              (if nextBlock T - T ≠ 0 then blit bF T (zeros (nextBlock T - T)) else .ok bF) = .ok pF ∧
              pF.length = p.length := by
            by_cases hz : nextBlock T - T ≠ 0
            · rw [if_pos hz] at h
              rw [if_pos hz, if_pos hz]
              cases hb : blit buf T (zeros (nextBlock T - T)) with
              | error e => rw [hb] at h; cases h
              | ok p =>
                obtain ⟨k1, k2, _⟩ := blit_get hb
                obtain ⟨pF, hpF⟩ := blit_ok (buf := bF) (data := zeros (nextBlock T - T)) (off := T) (by omega)
                obtain ⟨_, k3, _⟩ := blit_get hpF
                exact ⟨p, pF, rfl, hpF, by omega⟩
            · rw [if_neg hz, if_neg hz]
              exact ⟨buf, bF, rfl, rfl, e2⟩
          obtain ⟨p, pF, k1, k2, k3⟩ := h3
          rw [k1] at h
          rw [k2]
          simp only at h ⊢
          by_cases hle : nextBlock T ≤ p.length
          · rw [if_pos hle] at h
            rw [if_pos (by omega)]
            cases h
            refine ⟨_, rfl, ?_⟩
            intro v hv
            by_cases h0 : F.write = 0
            · rw [if_pos h0] at hv; cases hv
            · rw [if_neg h0] at hv
              cases hv
              refine ⟨rfl, ?_⟩
              simp only [List.length_take]
              omega
          · rw [if_neg hle] at h; cases h
  · rw [if_neg hmem]
    exact ⟨none, rfl, fun v hv => by cases hv⟩

theorem workerDoF_ok {env : Env} {fs : FS} {base garbage text : Bytes} {w : WriteReq} (F : Faults)
    (h : workerDo env fs base garbage text = .ok w) :
    ∃ o, workerDoF F env fs base garbage text = .ok o ∧
      ∀ v, o = some v → v.1 = w.1 ∧ v.2.length ≤ w.2.length := by
  unfold workerDo at h
  unfold workerDoF
  cases hp : parseOrders text with
  | error e => rw [hp] at h; cases h
  | ok ws =>
    rw [hp] at h
    cases ht : totalSize ws with
    | error e => simp only [bind, Except.bind, ht] at h; cases h
    | ok n =>
      cases hn : orderNFilename ws 0 with
      | error e => simp only [bind, Except.bind, ht, hn] at h; cases h
      | ok x =>
        simp only [bind, Except.bind, ht, hn] at h ⊢
        exact moveDataF_ok F h

/-! nothing fails -/

theorem readIntoF_all {lim : Nat} (hl : 2 ^ 31 ≤ lim) (fs : FS) (full : Bytes) (off size : Nat) (buf : Bytes)
    (loc : Nat) : readIntoF lim fs full off size buf loc = readInto fs full off size buf loc := by
  unfold readIntoF readInto
  cases fs.read full with
  | none => rfl
  | some c =>
    simp only
    by_cases hs : 2 ^ 31 ≤ size
    · rw [if_pos hs, if_pos hs]
    · rw [if_neg hs, if_neg hs, List.take_of_length_le (i := lim)]
      rw [List.length_take]
      omega

theorem moveLoopF_all {reads : Nat → Nat} (hl : ∀ i, 2 ^ 31 ≤ reads i) (env : Env) (fs : FS) (base : Bytes)
    (start : Nat) : ∀ (ws : List WOrder) (i : Nat) (buf : Bytes),
    moveLoopF reads env fs base start i ws buf = moveLoop env fs base start ws buf := by
  intro ws
  induction ws with
  | nil => intro i buf; rfl
  | cons w ws ih =>
    intro i buf
    unfold moveLoopF moveLoop
    have : moveOneF (reads i) env fs base start buf w = moveOne env fs base start buf w := by
      unfold moveOneF moveOne
      simp only [readIntoF_all (hl i)]
      generalize (if w.hdr ≠ 0 then makeHeaderAt env fs (fullName base w.rel) buf (usub64 w.pos start) else
        Except.ok buf) = x
      cases x <;> rfl
    rw [this]
    cases moveOne env fs base start buf w with
    | error e => rfl
    | ok b => exact ih (i + 1) b

/-- If nothing fails the worker writes what it should. -/
theorem workerDoF_all {F : Faults} {garbage : Bytes} (hm : F.memory = true) (hl : ∀ i, 2 ^ 31 ≤ F.reads i)
    (hw : F.write ≠ 0 ∧ garbage.length ≤ F.write) (env : Env) (fs : FS) (base text : Bytes) :
    workerDoF F env fs base garbage text = (workerDo env fs base garbage text).map some := by
  unfold workerDoF workerDo
  cases parseOrders text with
  | error e => rfl
  | ok ws =>
    simp only [bind, Except.bind]
    cases totalSize ws with
    | error e => rfl
    | ok n =>
      cases orderNFilename ws 0 with
      | error e => rfl
      | ok x =>
        simp only
        unfold moveDataF moveData
        rw [if_pos hm]
        cases ws.head? with
        | none => rfl
        | some first =>
          cases ws.getLast? with
          | none => rfl
          | some last =>
            simp only
            rw [moveLoopF_all hl]
            cases hmv : moveLoop env fs base first.pos ws garbage with
            | error e => rfl
            | ok buf =>
              simp only
              generalize totalLen first last = T
              cases hp : (if nextBlock T - T ≠ 0 then blit buf T (zeros (nextBlock T - T)) else .ok buf) with
              | error e => rfl
              | ok p =>
                simp only
                by_cases hle : nextBlock T ≤ p.length
                · rw [if_pos hle, if_pos hle, if_neg hw.1]
                  have : p.length = garbage.length := by
                    rw [← moveLoop_length ws garbage buf hmv]
                    split at hp
                    · exact blit_length hp
                    · cases hp; rfl
                  rw [List.take_of_length_le (i := F.write) (by rw [List.length_take]; omega)]
                  rfl
                · rw [if_neg hle, if_neg hle]; rfl

/-! ### runs -/

theorem SameEv.did_wrote {r : Nat} {t m ba ar : Bytes} {F : Faults} {o : Option WriteReq} {w : WriteReq}
    (h : ∀ v, o = some v → v.1 = w.1 ∧ v.2.length ≤ w.2.length) :
    SameEv (.did r t m F o) (.wrote r t ba ar m w) := ⟨rfl, rfl, rfl, h⟩

theorem withFile_self (s : Sys) : s.withFile s.file = s := rfl

/-- Nothing but the contents of the archive depends on the contents of the archive. -/
theorem step_withFile {c : Cfg} {eager : Bool} {s s' : Sys} {e : Ev} (h : Step c eager s e s') (f : Option Bytes)
    (hf : f.isSome = s.file.isSome) :
    ∃ f', f'.isSome = s'.file.isSome ∧ Step c eager (s.withFile f) e (s'.withFile f') := by
  cases h with
  | bcast m k hp hb => exact ⟨f, hf, Step.bcast (s.withFile f) m k hp hb⟩
  | bcastDone hp hq => exact ⟨f, hf, Step.bcastDone (s.withFile f) hp hq⟩
  | send r m k hp hb hr => exact ⟨f, hf, Step.send (s.withFile f) r m k hp hb hr⟩
  | sendBad r m k hp hb hr => exact ⟨f, hf, Step.sendBad (s.withFile f) r m k hp hb hr⟩
  | sendDone r hp hq => exact ⟨f, hf, Step.sendDone (s.withFile f) r hp hq⟩
  | recv k l1 l2 r a hp hb ha => exact ⟨f, hf, Step.recv (s.withFile f) k l1 l2 r a hp hb ha⟩
  | openFile name k hp hb hw =>
    have ho : openResult c f = openResult c s.file := by
      cases f <;> cases hs : s.file <;> simp_all [openResult]
    refine ⟨if (openResult c s.file).isSome then openResult c s.file else f, ?_, ?_⟩
    · show _ = (if (openResult c s.file).isSome then openResult c s.file else s.file).isSome
      split
      · rfl
      · exact hf
    · have := Step.openFile (c := c) (eager := eager) (s.withFile f) name k hp hb hw
      have hfile : (s.withFile f).file = f := rfl
      rw [hfile, ho] at this
      exact this
  | getBcast r m rest hr hs hm hq => exact ⟨f, hf, Step.getBcast (s.withFile f) r m rest hr hs hm hq⟩
  | getSend r m rest hr hs hm hq => exact ⟨f, hf, Step.getSend (s.withFile f) r m rest hr hs hm hq⟩
  | work r text name memory old write hr hs hfl hm ho hd =>
    rw [ho] at hf
    cases f with
    | none => cases hf
    | some g =>
      exact ⟨some (writeAt g write), rfl,
        Step.work (s.withFile (some g)) r text name memory g write hr hs hfl hm rfl hd⟩
  | workFails r text memory e hr hs hm hd =>
    exact ⟨f, hf, Step.workFails (s.withFile f) r text memory e hr hs hm hd⟩
  | ackDone r hr hs hq => exact ⟨f, hf, Step.ackDone (s.withFile f) r hr hs hq⟩

variable {c : Cfg} {eager : Bool} {b : Nat} {archive base : Bytes} {orders : List Bytes}
  {file0 : Option Bytes}

/-- A worker that carries out a bundle has been sent it and has its settings. -/
theorem working_has {tr : List Ev} {s : Sys}
    (hI : Inv ⟨c, b, archive, base, orders, file0⟩ tr s) {r : Nat} (hr : c.worker r) {t : Bytes}
    (hs : (s.w r).stat = .working t) :
    t ∈ orders ∧ (s.w r).base = base ∧ (s.w r).bucket = b ∧ (s.w r).file = some (some archive) ∧ s.file.isSome := by
  cases hI with
  | pre i hc hq hi views len =>
    have hv := views r hr
    generalize hl : s.loc r = l at hv
    rw [Sys.loc] at hl
    cases hv <;> simp only [Loc.mk.injEq] at hl <;> rw [hl.1] at hs <;> cases hs
  | failed x hc hq hb' views hfile len =>
    have hv := views r hr
    generalize hl : s.loc r = l at hv
    rw [Sys.loc] at hl
    cases hv <;> simp only [Loc.mk.injEq] at hl <;> rw [hl.1] at hs <;> cases hs
  | post g pt hc hp =>
    have hv := hp.views r hr
    rw [Sys.loc] at hv
    obtain ⟨h1, _, _, _, _, h2, _⟩ := hv.working hs
    refine ⟨hp.orders r t hr h1, ?_, ?_, ?_, ?_⟩
    · rw [h2]; rfl
    · rw [h2]; rfl
    · rw [h2]; rfl
    · rw [hp.file]; rfl

/-- Every run with failures has, event for event, a run without, in which all processes are in the same
state. -/
theorem frun_plain (hL : Launch c b archive base orders) (hW : Workable c b base orders) {trF : List FEv} {s : Sys}
    (h : FRun c eager (Sys.start (bossRun c.ranks b archive base orders) file0) trF s) :
    ∃ tr f, Run c eager (Sys.start (bossRun c.ranks b archive base orders) file0) tr (s.withFile f) ∧
      f.isSome = s.file.isSome ∧ List.Forall₂ SameEv trF tr := by
  induction h with
  | nil => exact ⟨[], file0, .nil, rfl, .nil⟩
  | @snoc trF s s' e _ st ih =>
    obtain ⟨tr, f, h1, h2, h3⟩ := ih
    have hI := run_inv (K := ⟨c, b, archive, base, orders, file0⟩) hL h1
    cases st with
    | @same _ ev st =>
      obtain ⟨f', k1, k2⟩ := step_withFile st f h2
      exact ⟨tr ++ [ev], f', .snoc h1 k2, k1, List.rel_append h3 (List.Forall₂.cons (show SameEv _ _ from rfl) .nil)⟩
    | work r text name memory old F write hr hs hf hm ho hd =>
      obtain ⟨w1, w2, w3, w4, w5⟩ := working_has hI hr (show ((s.withFile f).w r).stat = .working text from hs)
      have w2' : (s.w r).base = base := w2
      have w3' : (s.w r).bucket = b := w3
      obtain ⟨w, hw⟩ := hW text w1 memory (by rw [hm, w3'])
      have hsh : ∀ v, write = some v → v.1 = w.1 ∧ v.2.length ≤ w.2.length := by
        obtain ⟨o, ho', hsh⟩ := workerDoF_ok F hw
        rw [w2', ho'] at hd
        cases hd
        exact hsh
      rw [ho] at h2
      cases f with
      | none => cases h2
      | some g =>
        refine ⟨tr ++ [.wrote r text (s.w r).base name memory w], some (writeAt g w), .snoc h1 ?_, rfl,
          List.rel_append h3 (.cons (SameEv.did_wrote (F := F) (o := write) hsh) .nil)⟩
        exact Step.work (s.withFile (some g)) r text name memory g w hr hs hf hm rfl (by
          show workerDo c.env c.fs (s.w r).base memory text = .ok w
          rw [w2']; exact hw)
    | workFails r text memory F e hr hs hm hd =>
      exfalso
      obtain ⟨w1, w2, w3, w4, w5⟩ := working_has hI hr (show ((s.withFile f).w r).stat = .working text from hs)
      have w2' : (s.w r).base = base := w2
      have w3' : (s.w r).bucket = b := w3
      obtain ⟨w, hw⟩ := hW text w1 memory (by rw [hm, w3'])
      obtain ⟨o, ho, _⟩ := workerDoF_ok F hw
      rw [w2', ho] at hd
      cases hd

/-- From every state every continuation without failures has, event for event, a continuation with any
failures whatever, through which all processes are in the same state. -/
theorem frun_faulty (P : Nat → Bytes → Faults) {s0 : Sys} {tr : List Ev} {s : Sys} (h : Run c eager s0 tr s)
    {f0 : Option Bytes} (hf0 : f0.isSome = s0.file.isSome) :
    ∃ trF f, FRun c eager (s0.withFile f0) trF (s.withFile f) ∧
      f.isSome = s.file.isSome ∧ List.Forall₂ SameEv trF tr ∧ Follows P trF := by
  induction h with
  | nil => exact ⟨[], f0, .nil, hf0, .nil, by simp [Follows]⟩
  | @snoc tr s s' e _ st ih =>
    obtain ⟨trF, f, h1, h2, h3, h4⟩ := ih
    by_cases hw : ∃ r t b a m w, e = .wrote r t b a m w
    · obtain ⟨r, t, b, a, m, w, rfl⟩ := hw
      cases st with
      | work _ _ _ _ old _ hr hs hf hm ho hd =>
        obtain ⟨o, k1, k2⟩ := workerDoF_ok (P r t) hd
        rw [ho] at h2
        cases f with
        | none => cases h2
        | some g =>
          refine ⟨trF ++ [.did r t m (P r t) o], some (writeSome g o), .snoc h1 ?_, rfl,
            List.rel_append h3 (.cons (SameEv.did_wrote (F := P r t) (o := o) k2) .nil), ?_⟩
          · exact FStep.work (s.withFile (some g)) r t a m g (P r t) o hr hs hf hm rfl k1
          · constructor
            · intro r' t' m' F w' hmem
              rcases List.mem_append.1 hmem with hmem | hmem
              · exact h4.1 r' t' m' F w' hmem
              · simp only [List.mem_singleton, FEv.did.injEq] at hmem
                obtain ⟨rfl, rfl, _, rfl, _⟩ := hmem
                rfl
            · intro r' t' b' a' m' w' hmem
              rcases List.mem_append.1 hmem with hmem | hmem
              · exact h4.2 _ _ _ _ _ _ hmem
              · simp at hmem
    · obtain ⟨f', k1, k2⟩ := step_withFile st f h2
      refine ⟨trF ++ [.ev e], f', .snoc h1 (.same k2), k1, List.rel_append h3 (List.Forall₂.cons (show SameEv (.ev e) e from rfl) .nil), ?_⟩
      constructor
      · intro r' t' m' F w' hmem
        rcases List.mem_append.1 hmem with hmem | hmem
        · exact h4.1 r' t' m' F w' hmem
        · simp at hmem
      · intro r' t' b' a' m' w' hmem
        rcases List.mem_append.1 hmem with hmem | hmem
        · exact h4.2 _ _ _ _ _ _ hmem
        · simp only [List.mem_singleton, FEv.ev.injEq] at hmem
          exact hw ⟨_, _, _, _, _, _, hmem.symm⟩

theorem FRun.append {s0 s1 s2 : Sys} {t1 t2 : List FEv} (h1 : FRun c eager s0 t1 s1) (h2 : FRun c eager s1 t2 s2) :
    FRun c eager s0 (t1 ++ t2) s2 := by
  induction h2 with
  | nil => simpa using h1
  | snoc _ st ih => rw [← List.append_assoc]; exact .snoc ih st

theorem Run.toF {s0 s : Sys} {tr : List Ev} (h : Run c eager s0 tr s) : FRun c eager s0 (tr.map .ev) s := by
  induction h with
  | nil => exact .nil
  | snoc _ st ih => rw [List.map_append]; exact .snoc ih (.same st)

/-- A new archive holds what reached it. -/
theorem frun_file {p : Boss} {trF : List FEv} {s : Sys} (h : FRun c eager (Sys.start p none) trF s) :
    (s.file = none ∧ writesF trF = []) ∨ s.file = some (writeAll (writesF trF)) := by
  induction h with
  | nil => left; exact ⟨rfl, rfl⟩
  | @snoc trF s s' e _ st ih =>
    have hsn : writesF (trF ++ [e]) = writesF trF ++ writesF [e] := List.filterMap_append ..
    rw [hsn]
    have hW : ∀ w, writeAll (writesF trF ++ [w]) = writeAt (writeAll (writesF trF)) w := by
      intro w; simp [writeAll]
    cases st with
    | @same _ ev st =>
      cases st with
      | work r text name memory old write hr hs hfl hm ho hd =>
        right
        show some (writeAt old write) = _
        rcases ih with ⟨ih, _⟩ | ih
        · rw [ih] at ho; cases ho
        · rw [ih] at ho
          cases ho
          have : writesF [FEv.ev (Ev.wrote r text (s.w r).base name memory write)] = [write] := rfl
          rw [this, hW]
      | openFile name k hp hb hw =>
        have : writesF [FEv.ev (Ev.opened (openResult c s.file).isSome)] = [] := rfl
        rw [this, List.append_nil]
        rcases ih with ⟨ih, ih2⟩ | ih
        · rw [ih, ih2]
          simp only [openResult]
          by_cases hcr : c.creatable = true <;> simp [writeAll, hcr]
        · rw [ih]
          simp [openResult]
      | _ => simpa [writesF] using ih
    | work r text name memory old F write hr hs hf hm ho hd =>
      right
      show some (writeSome old write) = _
      rcases ih with ⟨ih, _⟩ | ih
      · rw [ih] at ho; cases ho
      · rw [ih] at ho
        cases ho
        cases write with
        | none =>
          have : writesF [FEv.did r text memory F none] = [] := rfl
          rw [this, List.append_nil]; rfl
        | some w =>
          have : writesF [FEv.did r text memory F (some w)] = [w] := rfl
          rw [this, hW]; rfl
    | workFails r text memory F e hr hs hm hd => simpa [writesF] using ih

/-- What reached the archive is part of what should have. -/
theorem shrunk_writes {trF : List FEv} {tr : List Ev} (h : List.Forall₂ SameEv trF tr) :
    ∃ ws, ws.Sublist (writes tr) ∧
      List.Forall₂ (fun v w : WriteReq => v.1 = w.1 ∧ v.2.length ≤ w.2.length) (writesF trF) ws := by
  induction h with
  | nil => exact ⟨[], List.Sublist.refl _, .nil⟩
  | @cons e e' trF tr he _ ih =>
    obtain ⟨ws, h1, h2⟩ := ih
    have hc : writes (e' :: tr) = writes [e'] ++ writes tr := List.filterMap_append (l := [e']) ..
    have hcF : writesF (e :: trF) = writesF [e] ++ writesF trF := List.filterMap_append (l := [e]) ..
    rw [hc, hcF]
    cases e with
    | ev x =>
      have he : x = e' := he
      subst he
      cases x with
      | wrote r t ba ar m w => exact ⟨w :: ws, h1.cons_cons w, .cons ⟨rfl, Nat.le_refl _⟩ h2⟩
      | _ => exact ⟨ws, h1, h2⟩
    | did r t m F o =>
      cases e' with
      | wrote r' t' ba ar m' w =>
        obtain ⟨_, _, _, hs⟩ := he
        cases o with
        | none => exact ⟨ws, h1.cons w, h2⟩
        | some v => exact ⟨w :: ws, h1.cons_cons w, .cons (hs v rfl) h2⟩
      | _ => cases he

theorem shrunk_apart {vs ws : List WriteReq}
    (h : List.Forall₂ (fun v w : WriteReq => v.1 = w.1 ∧ v.2.length ≤ w.2.length) vs ws)
    (hp : ws.Pairwise (fun a b : WriteReq => Apart a.1 a.2.length b.1 b.2.length)) :
    vs.Pairwise (fun a b : WriteReq => Apart a.1 a.2.length b.1 b.2.length) := by
  induction h with
  | nil => exact .nil
  | @cons v w vs ws hvw h ih =>
    rw [List.pairwise_cons] at hp ⊢
    refine ⟨?_, ih hp.2⟩
    intro v' hv'
    have : ∀ vs ws : List WriteReq,
        List.Forall₂ (fun v w : WriteReq => v.1 = w.1 ∧ v.2.length ≤ w.2.length) vs ws → v' ∈ vs →
        ∃ w' ∈ ws, v'.1 = w'.1 ∧ v'.2.length ≤ w'.2.length := by
      intro vs ws h
      induction h with
      | nil => intro hm; cases hm
      | cons hab _ ih2 =>
        intro hm
        rcases List.mem_cons.1 hm with rfl | hm
        · exact ⟨_, List.mem_cons_self, hab⟩
        · obtain ⟨w', h1, h2⟩ := ih2 hm
          exact ⟨w', List.mem_cons_of_mem _ h1, h2⟩
    obtain ⟨w', hw', e1, e2⟩ := this vs ws h hv'
    have := hp.1 w' hw'
    unfold Apart at this ⊢
    omega

/-- A run in which nothing fails is a run without failures. -/
theorem frun_all (hL : Launch c b archive base orders) (hW : Workable c b base orders) {trF : List FEv} {s : Sys}
    (h : FRun c eager (Sys.start (bossRun c.ranks b archive base orders) file0) trF s)
    (hn : ∀ r t m F w, FEv.did r t m F w ∈ trF → NothingFails F m) :
    ∃ tr, Run c eager (Sys.start (bossRun c.ranks b archive base orders) file0) tr s ∧ List.Forall₂ SameEv trF tr := by
  induction h with
  | nil => exact ⟨[], .nil, .nil⟩
  | @snoc trF s s' e _ st ih =>
    obtain ⟨tr, h1, h3⟩ := ih (fun r t m F w hm => hn r t m F w (List.mem_append_left _ hm))
    have hI := run_inv (K := ⟨c, b, archive, base, orders, file0⟩) hL h1
    cases st with
    | @same _ ev st =>
      exact ⟨tr ++ [ev], .snoc h1 st, List.rel_append h3 (List.Forall₂.cons (show SameEv _ _ from rfl) .nil)⟩
    | work r text name memory old F write hr hs hf hm ho hd =>
      obtain ⟨n1, n2, n3, n4⟩ := hn r text memory F write (by simp)
      rw [workerDoF_all n1 n2 ⟨n3, n4⟩] at hd
      cases hw : workerDo c.env c.fs (s.w r).base memory text with
      | error e => rw [hw] at hd; cases hd
      | ok w =>
        rw [hw] at hd
        have hd : write = some w := (Except.ok.inj hd).symm
        subst hd
        refine ⟨tr ++ [.wrote r text (s.w r).base name memory w], .snoc h1 (Step.work s r text name memory old w hr hs hf hm ho hw),
          List.rel_append h3 (.cons (SameEv.did_wrote ?_) .nil)⟩
        intro v hv
        cases hv
        exact ⟨rfl, Nat.le_refl _⟩
    | workFails r text memory F e hr hs hm hd =>
      exfalso
      obtain ⟨w1, w2, w3, w4, w5⟩ := working_has hI hr hs
      obtain ⟨w, hw⟩ := hW text w1 memory (by rw [hm, w3])
      obtain ⟨o, ho, _⟩ := workerDoF_ok F hw
      rw [w2, ho] at hd
      cases hd

end Parfu
