/-
The protocol invariant is kept by every step: the steps of rank 0, and the induction.
-/
import Verif.ProtocolStep
set_option autoImplicit false

namespace Parfu
open ProtocolSpec

variable {K : Konst}

/-! ### rank 0's next operation -/

theorem prog_p {j : Nat} (h : j < K.c.ranks) : K.prog (.p j) = .send j K.mP (K.prog (.p (j + 1))) := by
  simp only [Konst.prog, Konst.progP]
  rw [sendAll, dif_pos h]

theorem prog_d1 {j : Nat} (h1 : 1 ≤ j) (h : j < K.c.ranks ∧ j - 1 < K.orders.length) :
    K.prog (.d1 j) = .send j (Konst.mC (K.orders.getD (j - 1) [])) (K.prog (.d1 (j + 1))) := by
  simp only [Konst.prog, Konst.progD1]
  rw [phase1, dif_pos h]
  rw [show j - 1 + 1 = j + 1 - 1 by omega]
  rfl

theorem prog_d2 {no : Nat} (h : no < K.orders.length) :
    K.prog (.d2 no) = .recv fun a =>
      match stoi (recvMsg a) with
      | .error e => .fail e
      | .ok v => if v < 0 then .fail .ub else K.prog (.d2s no v.toNat) := by
  simp only [Konst.prog, Konst.progD2]
  rw [phase2, dif_pos h]
  rfl

theorem prog_x {j : Nat} (h : j < K.c.ranks) : K.prog (.x j) = .send j Konst.mX (K.prog (.x (j + 1))) := by
  simp only [Konst.prog, Konst.progX]
  rw [sendAll, dif_pos h]

theorem prog_x_end {j : Nat} (h : ¬ j < K.c.ranks) : K.prog (.x j) = .exit 0 := by
  simp only [Konst.prog, Konst.progX]
  rw [sendAll, dif_neg h]

/-- What rank 0 does next at a normal program point. -/
theorem prog_cases {g : Ghost} {na : Nat} (pt : Pt) (hn : Normal K pt) (ha : AtPt K g na pt) :
    (pt = .n ∧ K.prog pt = .bcast Konst.mN (K.prog (.p 1))) ∨
    (∃ j, pt = .p j ∧ j < K.c.ranks ∧ K.prog pt = .send j K.mP (K.prog (.p (j + 1)))) ∨
    (∃ j, pt = .d1 j ∧ j < K.c.ranks ∧ j - 1 < K.orders.length ∧
      K.prog pt = .send j (Konst.mC (K.orders.getD (j - 1) [])) (K.prog (.d1 (j + 1)))) ∨
    (∃ m, pt = .all (m + 1) ∧ K.prog pt = .recv fun _ => K.prog (.all m)) ∨
    (∃ no, pt = .d2 no ∧ no < K.orders.length ∧ K.prog pt = .recv fun a =>
      match stoi (recvMsg a) with
      | .error e => .fail e
      | .ok v => if v < 0 then .fail .ub else K.prog (.d2s no v.toNat)) ∨
    (∃ no r, pt = .d2s no r ∧
      K.prog pt = .send r (Konst.mC (K.orders.getD no [])) (K.prog (.d2 (no + 1)))) ∨
    (∃ m, pt = .last (m + 1) ∧ K.prog pt = .recv fun _ => K.prog (.last m)) ∨
    (∃ j, pt = .x j ∧ j < K.c.ranks ∧ K.prog pt = .send j Konst.mX (K.prog (.x (j + 1)))) ∨
    (∃ j, pt = .x j ∧ j = K.c.ranks ∧ K.prog pt = .exit 0) := by
  cases pt with
  | n => exact Or.inl ⟨rfl, rfl⟩
  | p j => exact Or.inr (Or.inl ⟨j, rfl, hn, prog_p hn⟩)
  | d1 j => exact Or.inr (Or.inr (Or.inl ⟨j, rfl, hn.1, hn.2, prog_d1 ha.2.2.2.1 hn⟩))
  | all m =>
    obtain ⟨m, rfl⟩ := Nat.exists_eq_add_one_of_ne_zero (Nat.ne_of_gt hn)
    exact Or.inr (Or.inr (Or.inr (Or.inl ⟨m, rfl, rfl⟩)))
  | d2 no => exact Or.inr (Or.inr (Or.inr (Or.inr (Or.inl ⟨no, rfl, hn, prog_d2 hn⟩))))
  | d2s no r => exact Or.inr (Or.inr (Or.inr (Or.inr (Or.inr (Or.inl ⟨no, r, rfl, rfl⟩)))))
  | last m =>
    obtain ⟨m, rfl⟩ := Nat.exists_eq_add_one_of_ne_zero (Nat.ne_of_gt hn)
    exact Or.inr (Or.inr (Or.inr (Or.inr (Or.inr (Or.inr (Or.inl ⟨m, rfl, rfl⟩))))))
  | x j =>
    by_cases hj : j < K.c.ranks
    · exact Or.inr (Or.inr (Or.inr (Or.inr (Or.inr (Or.inr (Or.inr (Or.inl ⟨j, rfl, hj, prog_x hj⟩)))))))
    · have : j = K.c.ranks := by have : j ≤ K.c.ranks := hn; omega
      exact Or.inr (Or.inr (Or.inr (Or.inr (Or.inr (Or.inr (Or.inr (Or.inr ⟨j, rfl, this, prog_x_end hj⟩)))))))

/-! ### the individual messages of rank 0 -/

/-- The event of rank 0 sending message `m` to worker `r`. -/
theorem sent_traces (tr : List Ev) (r : Nat) (m : Bytes) :
    executed (tr ++ [.sent r m]) = executed tr ∧ writes (tr ++ [.sent r m]) = writes tr ∧
    acknowledged (tr ++ [.sent r m]) = acknowledged tr := by
  rw [executed_snoc, writes_snoc, acknowledged_snoc]
  simp [executed, writes, acknowledged]

theorem sent_P (tr : List Ev) (r : Nat) :
    dispatched (tr ++ [.sent r K.mP]) = dispatched tr ∧ shutdowns (tr ++ [.sent r K.mP]) = shutdowns tr := by
  rw [dispatched_snoc, shutdowns_snoc]
  simp [dispatched, shutdowns, Konst.mP, sendMsg]

theorem sent_X (tr : List Ev) (r : Nat) :
    dispatched (tr ++ [.sent r Konst.mX]) = dispatched tr ∧
    shutdowns (tr ++ [.sent r Konst.mX]) = shutdowns tr ++ [r] := by
  rw [dispatched_snoc, shutdowns_snoc]
  simp [dispatched, shutdowns, Konst.mX, sendMsg]

theorem sent_C (tr : List Ev) (r : Nat) (t : Bytes) :
    dispatched (tr ++ [.sent r (Konst.mC t)]) = dispatched tr ++ [(r, t)] ∧
    shutdowns (tr ++ [.sent r (Konst.mC t)]) = shutdowns tr := by
  rw [dispatched_snoc, shutdowns_snoc]
  simp [dispatched, shutdowns, Konst.mC, sendMsg]

/-- The state after rank 0 sends `m` to worker `r`. -/
structure SentTo (s s' : Sys) (r : Nat) (m : Bytes) (k : Boss) : Prop where
  boss : s'.boss = k
  pend : s'.pend = some (.one r)
  acks : s'.acks = s.acks
  file : s'.file = s.file
  loc : s'.loc r = ⟨s.w r, s.bq r, s.pq r ++ [m], (s.acks.map Prod.fst).count r⟩
  loc' : ∀ q, q ≠ r → s'.loc q = s.loc q

theorem SentTo.weight {s s' : Sys} {r : Nat} {m : Bytes} {k : Boss} (h : SentTo s s' r m k)
    (hr : K.c.worker r) : weight K s' ≤ weight K s + 5 := by
  have h1 := weight_local (K := K) hr (fun q hq => by rw [h.loc' q hq] : ∀ q, q ≠ r → locW (s'.loc q) = locW (s.loc q))
  have h2 : locW (s'.loc r) = locW (s.loc r) + 4 := by
    rw [h.loc]; simp [locW, Sys.loc]; omega
  unfold Parfu.weight
  rw [h.pend, h.acks]
  simp only [Option.isSome_some, if_true]
  omega

theorem opCost_mul {a b : Nat} (h : b + 1 ≤ a) : opCost K * b + opCost K ≤ opCost K * a := by
  have := Nat.mul_le_mul_left (opCost K) h
  rw [Nat.mul_add, Nat.mul_one] at this
  exact this

/-- Sending something that is not a bundle. -/
theorem Post.sendMisc {g g' : Ghost} {pt pt' : Pt} {tr : List Ev} {s s' : Sys} {r : Nat} {m : Bytes}
    (hp : Post K g pt tr s) (hr : K.c.worker r) (hs : SentTo s s' r m (K.prog pt'))
    (hd : dispatched (tr ++ [.sent r m]) = dispatched tr)
    (hx : shutdowns (tr ++ [.sent r m]) = List.range' 1 (g'.xj - 1))
    (hno : g'.no = g.no) (hout : g'.out = g.out) (hwr : g'.wr = g.wr) (hnn : g'.nn = g.nn)
    (hpj : ∀ q, q ≠ r → decide (q < g'.pj) = decide (q < g.pj))
    (hxj : ∀ q, q ≠ r → decide (q < g'.xj) = decide (q < g.xj))
    (hv : View K g.nn (decide (r < g'.pj)) (decide (r < g'.xj)) (g.out r) (g.wr r) (s'.loc r))
    (hat : AtPt K g' (acknowledged tr).length pt') (hleft : K.left pt' + 1 ≤ K.left pt) :
    Post K g' pt' (tr ++ [.sent r m]) s' := by
  obtain ⟨e2, e3, e4⟩ := sent_traces tr r m
  constructor
  · exact hs.boss
  · rw [e4]; exact hat
  · intro q hq
    by_cases hqr : q = r
    · subst hqr; rw [hout, hwr, hnn]; exact hv
    · rw [hout, hwr, hnn, hpj q hqr, hxj q hqr, hs.loc' q hqr]
      exact hp.views q hq
  · rw [hout]; exact hp.orders
  · rw [hout]; exact hp.outs
  · rw [hd, hno]; exact hp.sentC
  · rw [hd, e2, hwr, hout]; exact hp.perRank
  · rw [hd]; exact hp.dRanks
  · rw [e2]; exact hp.eRanks
  · rw [e4, hno, hout]; exact hp.acked
  · rw [e4, hd, hout]; exact hp.ackR
  · exact hx
  · rw [e3, hs.file]; exact hp.file
  · refine hp.wrote.snoc ?_
    intro _ _ _ _ _ _ h; cases h
  · exact hp.fresh
  · have h1 := hp.len
    have h2 := hs.weight hr
    have h3 := opCost_mul (K := K) hleft
    have h4 : 6 ≤ opCost K := by unfold opCost; omega
    simp only [List.length_append, List.length_singleton]
    omega

theorem View.unwritten {N p x wr : Bool} {l : Loc} (h : View K N p x none wr l) : wr = false := by
  cases h <;> rfl

/-- Sending the next bundle. -/
theorem Post.sendBundle (hL : Launch K.c K.b K.archive K.base K.orders) {g : Ghost} {pt pt' : Pt}
    {tr : List Ev} {s s' : Sys} {r : Nat}
    (hp : Post K g pt tr s) (hr : K.c.worker r)
    (hs : SentTo s s' r (Konst.mC (K.orders.getD g.no [])) (K.prog pt'))
    (hno : g.no < K.orders.length) (hout : g.out r = none) (hnn : g.nn = true)
    (hpj : g.pj = K.c.ranks) (hxj : g.xj = 1)
    (hat : AtPt K { g with no := g.no + 1, out := Function.update g.out r (some (K.orders.getD g.no [])) }
      (acknowledged tr).length pt') (hleft : K.left pt' + 1 ≤ K.left pt) :
    Post K { g with no := g.no + 1, out := Function.update g.out r (some (K.orders.getD g.no [])) } pt'
      (tr ++ [.sent r (Konst.mC (K.orders.getD g.no []))]) s' := by
  obtain ⟨e2, e3, e4⟩ := sent_traces tr r (Konst.mC (K.orders.getD g.no []))
  obtain ⟨e1, e5⟩ := sent_C tr r (K.orders.getD g.no [])
  have hget : K.orders.getD g.no [] = K.orders[g.no] := by
    rw [List.getD_eq_getElem?_getD, List.getElem?_eq_getElem hno]; rfl
  have hview := hp.views r hr
  have hp1 : decide (r < g.pj) = true := by rw [hpj]; exact decide_eq_true hr.2
  have hx1 : decide (r < g.xj) = false := by rw [hxj]; exact decide_eq_false (by have := hr.1; omega)
  rw [hnn, hp1, hx1, hout] at hview
  have hwr : g.wr r = false := hview.unwritten
  constructor
  · exact hs.boss
  · rw [e4]; exact hat
  · intro q hq
    by_cases hqr : q = r
    · subst hqr
      simp only [Function.update_self]
      rw [hnn, hp1, hx1, hs.loc]
      exact hview.sendC _
    · simp only [Function.update_of_ne hqr]
      rw [hs.loc' q hqr]
      exact hp.views q hq
  · intro q t hq
    by_cases hqr : q = r
    · subst hqr
      simp only [Function.update_self]
      intro h
      rw [← Option.some.inj h, hget]
      exact List.getElem_mem _
    · simp only [Function.update_of_ne hqr]
      exact hp.orders q t hq
  · intro q hq
    have hqr : q ≠ r := by rintro rfl; exact hq hr
    simp only [Function.update_of_ne hqr]
    exact hp.outs q hq
  · rw [e1, List.map_append, hp.sentC, List.take_add_one]
    simp only [List.map_cons, List.map_nil]
    rw [List.getElem?_eq_getElem hno, hget]
    rfl
  · intro q hq
    rw [e1, e2, ofRank_append, hp.perRank q hq]
    by_cases hqr : q = r
    · subst hqr
      simp [hout, hwr, ofRank]
    · simp [Function.update_of_ne hqr, ofRank, Ne.symm hqr]
  · rw [e1]
    intro x hx
    rcases List.mem_append.1 hx with hx | hx
    · exact hp.dRanks x hx
    · rw [List.mem_singleton.1 hx]; exact hr
  · rw [e2]; exact hp.eRanks
  · rw [e4]
    have := hp.acked
    simp only
    rw [nOut_add _ hr.1 hr.2 hout]
    omega
  · intro q hq
    rw [e1, e4, ofRank_append, List.length_append, hp.ackR q hq]
    by_cases hqr : q = r
    · subst hqr
      simp [hout, ofRank]
    · simp [Function.update_of_ne hqr, ofRank, Ne.symm hqr]
  · rw [e5]; exact hp.downs
  · rw [e3, hs.file]; exact hp.file
  · refine hp.wrote.snoc ?_
    intro _ _ _ _ _ _ h; cases h
  · exact hp.fresh
  · have h1 := hp.len
    have h2 := hs.weight hr
    have h3 := opCost_mul (K := K) hleft
    have h4 : 6 ≤ opCost K := by unfold opCost; omega
    simp only [List.length_append, List.length_singleton]
    omega

theorem Inv.send (hL : Launch K.c K.b K.archive K.base K.orders) {tr : List Ev} {s s' : Sys} {r : Nat}
    {m : Bytes} {k : Boss} (h : Inv K tr s) (hb : s.boss = .send r m k) :
    K.c.worker r ∧ (SentTo s s' r m k → Inv K (tr ++ [.sent r m]) s') := by
  cases h with
  | pre i hc hq hi views len =>
    exfalso
    rcases hi with ⟨_, h⟩ | ⟨k, _, h1, h⟩ | ⟨k, _, h1, h⟩
    · rw [h] at hb; cases hb
    · cases h1; rw [h] at hb; cases hb
    · cases h1; rw [h] at hb; cases hb
  | failed x hc hq hb' views hfile len =>
    exfalso
    rw [hb'] at hb; cases x <;> cases hb
  | post g pt hc hp =>
    obtain ⟨pt, hp, hn⟩ := hp.normal hL
    have hC : ∀ {ev}, K.c.worker r → SentTo s s' r m k → Common K (tr ++ [ev]) s' := by
      intro ev hr hs
      refine ⟨?_, by rw [hs.acks]; exact hc.acksOk⟩
      intro q hq
      rw [hs.pend] at hq
      cases hq
      exact hr
    rcases prog_cases pt hn hp.at_ with ⟨_, h⟩ | ⟨j, rfl, hj, h⟩ | ⟨j, rfl, hj, hj2, h⟩ | ⟨_, _, h⟩ |
      ⟨_, _, _, h⟩ | ⟨no, r', rfl, h⟩ | ⟨_, _, h⟩ | ⟨j, rfl, hj, h⟩ | ⟨_, _, _, h⟩ <;>
      rw [hp.boss, h] at hb <;> cases hb
    · -- P
      obtain ⟨a1, a2, a3, a4, a5, a6, a7, a8⟩ := hp.at_
      have hr : K.c.worker r := ⟨a3, hj⟩
      refine ⟨hr, fun hs => ?_⟩
      have hview := hp.views r hr
      have hp1 : decide (r < g.pj) = false := by rw [a2]; simp
      have hx1 : decide (r < g.xj) = false := by rw [a5]; exact decide_eq_false (by omega)
      refine .post { g with pj := r + 1 } (.p (r + 1)) (hC hr hs) (hp.sendMisc hr hs (sent_P tr r).1 ?_ rfl rfl rfl rfl ?_ ?_ ?_ ?_ ?_)
      · rw [(sent_P tr r).2]; exact hp.downs
      · intro q hqr; simp only [decide_eq_decide]; omega
      · intro q hqr; rfl
      · rw [hx1, hs.loc, a1, a7 r]
        rw [hp1, hx1, a1, a7 r] at hview
        simp only [Nat.lt_add_one, decide_true]
        exact hview.sendP
      · exact ⟨a1, rfl, by omega, by omega, a5, a6, a7, a8⟩
      · simp [Konst.left]; omega
    · -- first bundles
      obtain ⟨a1, a2, a3, a4, a5, a6, a7, a8, a9⟩ := hp.at_
      have hr : K.c.worker r := ⟨a4, hj⟩
      refine ⟨hr, fun hs => ?_⟩
      have hout : g.out r = none := by
        have := (a8 r).not.2 (by omega)
        simpa using this
      rw [← a6] at hs ⊢
      refine .post _ (.d1 (r + 1)) (hC hr (by rw [a6] at hs; exact hs)) (hp.sendBundle hL hr hs (by omega) hout a1 a2 a3 ?_ ?_)
      · refine ⟨a1, a2, a3, by omega, by omega, by simp only; omega, by simp only; omega, ?_, a9⟩
        intro q
        by_cases hqr : q = r
        · subst hqr; simp; omega
        · simp only [Function.update_of_ne hqr]
          rw [a8 q]; omega
      · simp [Konst.left]; omega
    · -- next bundle
      obtain ⟨a1, a2, a3, a4, a5, a6, a7, a8⟩ := hp.at_
      refine ⟨a6, fun hs => ?_⟩
      subst a4
      refine .post _ (.d2 (g.no + 1)) (hC a6 hs) (hp.sendBundle hL a6 hs a5 a7 a1 a2 a3 ?_ ?_)
      · refine ⟨a1, a2, a3, rfl, by omega, ?_⟩
        intro q hq
        by_cases hqr : q = r
        · subst hqr; simp
        · simp only [Function.update_of_ne hqr]
          exact a8 q hq hqr
      · simp [Konst.left]; omega
    · -- X
      obtain ⟨a1, a2, a3, a4, a5, a6, a7⟩ := hp.at_
      have hr : K.c.worker r := ⟨a4, hj⟩
      refine ⟨hr, fun hs => ?_⟩
      have hview := hp.views r hr
      have hp1 : decide (r < g.pj) = true := by rw [a2]; exact decide_eq_true hj
      have hx1 : decide (r < g.xj) = false := by rw [a3]; simp
      refine .post { g with xj := r + 1 } (.x (r + 1)) (hC hr hs) (hp.sendMisc hr hs (sent_X tr r).1 ?_ rfl rfl rfl rfl ?_ ?_ ?_ ?_ ?_)
      · rw [(sent_X tr r).2, hp.downs, a3]
        have : r = r - 1 + 1 := by omega
        simp only [Nat.add_sub_cancel]
        conv_rhs => rw [this, List.range'_concat]
        congr 2; omega
      · intro q hqr; rfl
      · intro q hqr; simp only [decide_eq_decide]; omega
      · rw [hs.loc, a1, a7 r hr, hp1]
        rw [hp1, hx1, a1, a7 r hr] at hview
        simp only [Nat.lt_add_one, decide_true]
        exact hview.sendX
      · exact ⟨a1, a2, rfl, by omega, by omega, a6, a7⟩
      · simp [Konst.left]; omega

/-! ### receiving a report -/

theorem acked_traces (tr : List Ev) (r : Nat) :
    dispatched (tr ++ [.acked r]) = dispatched tr ∧ executed (tr ++ [.acked r]) = executed tr ∧
    writes (tr ++ [.acked r]) = writes tr ∧ shutdowns (tr ++ [.acked r]) = shutdowns tr ∧
    (acknowledged (tr ++ [.acked r])).length = (acknowledged tr).length + 1 := by
  rw [dispatched_snoc, executed_snoc, writes_snoc, shutdowns_snoc, acknowledged_snoc]
  simp [dispatched, executed, writes, shutdowns, acknowledged]

theorem Inv.recv (hL : Launch K.c K.b K.archive K.base K.orders) {tr : List Ev} {s s' : Sys}
    {k : Bytes → Boss} {l1 l2 : List (Nat × Bytes)} {r : Nat} {a : Bytes} (h : Inv K tr s)
    (hb : s.boss = .recv k) (ha : s.acks = l1 ++ (r, a) :: l2)
    (hs' : s' = { s with boss := if a.length ≤ 20 then k a else .fail .ub, acks := l1 ++ l2 }) :
    Inv K (tr ++ [.acked r]) s' := by
  cases h with
  | pre i hc hq hi views len =>
    exfalso
    rw [hq.noAcks] at ha; simp at ha
  | failed x hc hq hb' views hfile len =>
    exfalso
    rw [hq.noAcks] at ha; simp at ha
  | post g pt hc hp =>
    obtain ⟨pt, hp, hn⟩ := hp.normal hL
    obtain ⟨hr, haa⟩ := hc.acksOk (r, a) (by rw [ha]; simp)
    simp only at hr haa
    subst haa
    have hr31 : r < 2 ^ 31 := by have := hr.2; have := hL.ranksInt; omega
    have hlen : (ackMsg r).length ≤ 20 := ackMsg_length r hr31
    rw [if_pos hlen] at hs'
    have hcount : (s.acks.map Prod.fst).count r = ((l1 ++ l2).map Prod.fst).count r + 1 := by
      rw [ha]; simp [List.count_append, List.count_cons]; omega
    have hcount' : ∀ q, q ≠ r → (s.acks.map Prod.fst).count q = ((l1 ++ l2).map Prod.fst).count q := by
      intro q hq
      rw [ha]; simp [List.count_append, List.count_cons, Ne.symm hq]
    have hview := hp.views r hr
    have hl : s.loc r = ⟨s.w r, s.bq r, s.pq r, ((l1 ++ l2).map Prod.fst).count r + 1⟩ := by
      rw [Sys.loc, hcount]
    rw [hl] at hview
    obtain ⟨v1, ⟨t, v2⟩, v3, v4, v5, v6, v7⟩ := hview.recvAck
    have hboss : s'.boss = k (ackMsg r) := by subst hs'; rfl
    have hpend : s'.pend = s.pend := by subst hs'; rfl
    have hacks : s'.acks = l1 ++ l2 := by subst hs'; rfl
    have hfile : s'.file = s.file := by subst hs'; rfl
    have hlocw : ∀ q, locW (s'.loc q) = locW (s.loc q) := by subst hs'; intro q; rfl
    have hloc : s'.loc r = ⟨s.w r, s.bq r, s.pq r, ((l1 ++ l2).map Prod.fst).count r⟩ := by
      subst hs'; rfl
    have hloc' : ∀ q, q ≠ r → s'.loc q = s.loc q := by
      intro q hq
      unfold Sys.loc
      rw [hcount' q hq]
      subst hs'; rfl
    clear hs'
    obtain ⟨e1, e2, e3, e5, e4⟩ := acked_traces tr r
    have hout1 : (g.out r).isSome = true := by rw [v2]; rfl
    have hnout := nOut_sub hr.1 hr.2 hout1
    have key : ∀ pt', s'.boss = K.prog pt' → K.left pt' ≤ K.left pt →
        AtPt K { g with out := Function.update g.out r none, wr := Function.update g.wr r false }
          ((acknowledged tr).length + 1) pt' → Inv K (tr ++ [.acked r]) s' := by
      intro pt' hb' hleft hat
      refine .post _ pt' ⟨by rw [hpend]; exact hc.pendOk, ?_⟩ (?_ : Post K { g with out := Function.update g.out r none, wr := Function.update g.wr r false } pt' _ s')
      · intro x hx
        apply hc.acksOk
        rw [hacks] at hx
        rw [ha]
        rcases List.mem_append.1 hx with hx | hx
        · exact List.mem_append_left _ hx
        · exact List.mem_append_right _ (List.mem_cons_of_mem _ hx)
      · constructor
        · exact hb'
        · rw [e4]; exact hat
        · intro q hq
          by_cases hqr : q = r
          · subst hqr
            simp only [Function.update_self]
            rw [hloc]; exact v7
          · simp only [Function.update_of_ne hqr]
            rw [hloc' q hqr]; exact hp.views q hq
        · intro q t' hq
          by_cases hqr : q = r
          · subst hqr; simp
          · simp only [Function.update_of_ne hqr]; exact hp.orders q t' hq
        · intro q hq
          have hqr : q ≠ r := by rintro rfl; exact hq hr
          simp only [Function.update_of_ne hqr]; exact hp.outs q hq
        · rw [e1]; exact hp.sentC
        · intro q hq
          rw [e1, e2, hp.perRank q hq]
          by_cases hqr : q = r
          · subst hqr; simp [v1]
          · simp [Function.update_of_ne hqr]
        · rw [e1]; exact hp.dRanks
        · rw [e2]; exact hp.eRanks
        · rw [e4]
          have := hp.acked
          simp only
          omega
        · intro q hq
          have hcnt : (acknowledged (tr ++ [.acked r])).count q =
              (acknowledged tr).count q + if r = q then 1 else 0 := by
            rw [acknowledged_snoc]
            simp [acknowledged, List.count_append, List.count_singleton]
          rw [e1, hcnt, hp.ackR q hq]
          by_cases hqr : q = r
          · subst hqr; simp [v2]
          · simp [Function.update_of_ne hqr, Ne.symm hqr]
        · rw [e5]; exact hp.downs
        · rw [e3, hfile]; exact hp.file
        · refine hp.wrote.snoc ?_
          intro _ _ _ _ _ _ h; cases h
        · exact hp.fresh
        · have h1 := hp.len
          have h2 := Nat.mul_le_mul_left (opCost K) hleft
          have h3 : weight K s' + 1 = weight K s := by
            unfold weight
            rw [hpend, hacks, ha]
            have : ∑ q ∈ Finset.Ico 1 K.c.ranks, locW (s'.loc q) = ∑ q ∈ Finset.Ico 1 K.c.ranks, locW (s.loc q) :=
              Finset.sum_congr rfl fun q _ => hlocw q
            rw [this]
            simp only [List.length_append, List.length_cons]
            omega
          simp only [List.length_append, List.length_singleton]
          omega
    rcases prog_cases pt hn hp.at_ with ⟨_, h⟩ | ⟨j, rfl, hj, h⟩ | ⟨j, rfl, hj, hj2, h⟩ | ⟨m, rfl, h⟩ |
      ⟨no, rfl, hno, h⟩ | ⟨no, r', rfl, h⟩ | ⟨m, rfl, h⟩ | ⟨j, rfl, hj, h⟩ | ⟨_, _, _, h⟩ <;>
      rw [hp.boss, h] at hb <;> cases hb
    · obtain ⟨a1, a2, a3, a4, a5⟩ := hp.at_
      refine key (.all m) hboss (by simp [Konst.left]) ⟨a1, a2, a3, a4, ?_⟩
      simp only; omega
    · obtain ⟨a1, a2, a3, a4, a5, a6⟩ := hp.at_
      refine key (.d2s no r) ?_ (by simp [Konst.left]) ⟨a1, a2, a3, a4, hno, hr, by simp, ?_⟩
      · rw [hboss]
        simp only
        rw [ackMsg_stoi r hr31]
        simp only [Int.toNat_natCast]
        rw [if_neg (by omega)]
      · intro q hq hqr
        simp only [Function.update_of_ne hqr]
        exact a6 q hq
    · obtain ⟨a1, a2, a3, a4, a5⟩ := hp.at_
      refine key (.last m) hboss (by simp [Konst.left]) ⟨a1, a2, a3, a4, ?_⟩
      simp only; omega

/-! ### broadcasts and the open -/

/-- The state after a broadcast. -/
theorem bcast_loc {s s' : Sys} {m : Bytes} {k : Boss}
    (hs' : s' = { s with boss := k, pend := some .all, bq := fun r => s.bq r ++ [m] }) :
    s'.boss = k ∧ s'.pend = some .all ∧ s'.acks = s.acks ∧ s'.file = s.file ∧
    (∀ q, s'.loc q = ⟨(s.loc q).w, (s.loc q).bq ++ [m], (s.loc q).pq, (s.loc q).na⟩) ∧
    (∀ K : Konst, weight K s' ≤ weight K s + 2 * (K.c.ranks - 1) + 1) := by
  subst hs'
  refine ⟨rfl, rfl, rfl, rfl, fun _ => rfl, ?_⟩
  intro K
  have := weight_all (K := K) (s := s)
    (s' := { s with boss := k, pend := some .all, bq := fun r => s.bq r ++ [m] }) (d := 2) (by
      intro r _; simp [locW, Sys.loc]; omega)
  unfold weight
  simp only [Option.isSome_some, if_true]
  omega

theorem PreView.bcastU {l : Loc} (h : PreView K 0 l) :
    PreView K 1 ⟨l.w, l.bq ++ [K.mU], l.pq, l.na⟩ := by
  cases h; exact .b1

theorem PreView.bcastA {l : Loc} (h : PreView K 1 l) :
    PreView K 2 ⟨l.w, l.bq ++ [K.mA], l.pq, l.na⟩ := by
  cases h
  · exact .b2
  · exact .b2'

theorem FailView.bcastBye {l : Loc} (h : FailView K false l) :
    FailView K true ⟨l.w, l.bq ++ [Konst.mBye], l.pq, l.na⟩ := by
  cases h; exact .after

theorem Inv.bcast (hL : Launch K.c K.b K.archive K.base K.orders) {tr : List Ev} {s s' : Sys}
    {m : Bytes} {k : Boss} (h : Inv K tr s) (hb : s.boss = .bcast m k)
    (hs' : s' = { s with boss := k, pend := some .all, bq := fun r => s.bq r ++ [m] }) :
    Inv K (tr ++ [.bcasted m]) s' := by
  obtain ⟨hboss, hpend, hacks, hfile, hloc, hw⟩ := bcast_loc hs'
  have hw := hw K
  have hcost : opCost K = 2 * K.c.ranks + 6 := rfl
  clear hs'
  cases h with
  | pre i hc hq hi views len =>
    have hq' := hq.snoc (e := .bcasted m) (s' := s') trivial hfile hacks (by rw [hpend]; simp)
    have hc' : Common K (tr ++ [.bcasted m]) s' :=
      ⟨by rw [hpend]; simp, by rw [hacks]; exact hc.acksOk⟩
    rcases hi with ⟨rfl, h⟩ | ⟨k', rfl, h1, h⟩ | ⟨k', rfl, h1, h⟩
    · have h0 := h
      rw [hb] at h; unfold bossRun at h; cases h
      refine .pre 1 hc' hq' (Or.inr (Or.inl ⟨_, rfl, rfl, hboss⟩)) ?_ ?_
      · intro r hr; rw [hloc]; exact (views r hr).bcastU
      · have := opCost_mul (K := K) (a := 8 + 6 * K.c.ranks + 3 * K.orders.length - 0)
          (b := 8 + 6 * K.c.ranks + 3 * K.orders.length - 1) (by omega)
        simp only [List.length_append, List.length_singleton]
        omega
    · rw [hb] at h; cases h1; cases h
      refine .pre 2 hc' hq' (Or.inr (Or.inr ⟨_, rfl, rfl, hboss⟩)) ?_ ?_
      · intro r hr; rw [hloc]; exact (views r hr).bcastA
      · have := opCost_mul (K := K) (a := 8 + 6 * K.c.ranks + 3 * K.orders.length - 1)
          (b := 8 + 6 * K.c.ranks + 3 * K.orders.length - 2) (by omega)
        simp only [List.length_append, List.length_singleton]
        omega
    · rw [hb] at h; cases h1; cases h
  | failed x hc hq hb' views hfile' len =>
    have hq' := hq.snoc (e := .bcasted m) (s' := s') trivial hfile hacks (by rw [hpend]; simp)
    have hc' : Common K (tr ++ [.bcasted m]) s' :=
      ⟨by rw [hpend]; simp, by rw [hacks]; exact hc.acksOk⟩
    cases x with
    | true => rw [hb] at hb'; cases hb'
    | false =>
      rw [hb] at hb'; cases hb'
      refine .failed true hc' hq' hboss ?_ hfile' ?_
      · intro r hr; rw [hloc]; exact (views r hr).bcastBye
      · simp only [List.length_append, List.length_singleton, if_true]
        simp at len
        omega
  | post g pt hc hp =>
    obtain ⟨pt, hp, hn⟩ := hp.normal hL
    have hc' : Common K (tr ++ [.bcasted m]) s' :=
      ⟨by rw [hpend]; simp, by rw [hacks]; exact hc.acksOk⟩
    rcases prog_cases pt hn hp.at_ with ⟨rfl, h⟩ | ⟨j, rfl, hj, h⟩ | ⟨j, rfl, hj, hj2, h⟩ | ⟨m, rfl, h⟩ |
      ⟨no, rfl, hno, h⟩ | ⟨no, r', rfl, h⟩ | ⟨m, rfl, h⟩ | ⟨j, rfl, hj, h⟩ | ⟨_, _, _, h⟩ <;>
      rw [hp.boss, h] at hb <;> cases hb
    obtain ⟨t1, t2, t3, t4, t5⟩ := silent_traces (e := .bcasted Konst.mN) trivial
    have e1 : dispatched (tr ++ [.bcasted Konst.mN]) = dispatched tr := by rw [dispatched_snoc, t1, List.append_nil]
    have e2 : executed (tr ++ [.bcasted Konst.mN]) = executed tr := by rw [executed_snoc, t2, List.append_nil]
    have e3 : writes (tr ++ [.bcasted Konst.mN]) = writes tr := by rw [writes_snoc, t3, List.append_nil]
    have e4 : acknowledged (tr ++ [.bcasted Konst.mN]) = acknowledged tr := by
      rw [acknowledged_snoc, t4, List.append_nil]
    have e5 : shutdowns (tr ++ [.bcasted Konst.mN]) = shutdowns tr := by rw [shutdowns_snoc, t5, List.append_nil]
    obtain ⟨a1, a2, a3, a4, a5, a6⟩ := hp.at_
    refine .post { g with nn := true } (.p 1) hc' ?_
    constructor
    · exact hboss
    · rw [e4]; exact ⟨rfl, a2, Nat.le_refl _, hL.ranks, a3, a4, a5, a6⟩
    · intro r hr
      have hv := hp.views r hr
      have hp1 : decide (r < g.pj) = false := by rw [a2]; exact decide_eq_false (by have := hr.1; omega)
      have hx1 : decide (r < g.xj) = false := by rw [a3]; exact decide_eq_false (by have := hr.1; omega)
      rw [a1, hp1, hx1, a5 r] at hv
      have hwr := hv.unwritten
      rw [hwr] at hv
      rw [hloc]
      simp only
      rw [hp1, hx1, a5 r, hwr]
      exact hv.sendN
    · exact hp.orders
    · exact hp.outs
    · rw [e1]; exact hp.sentC
    · rw [e1, e2]; exact hp.perRank
    · rw [e1]; exact hp.dRanks
    · rw [e2]; exact hp.eRanks
    · rw [e4]; exact hp.acked
    · rw [e4, e1]; exact hp.ackR
    · rw [e5]; exact hp.downs
    · rw [hfile, hp.file, e3]
    · refine hp.wrote.snoc ?_
      intro _ _ _ _ _ _ h; cases h
    · exact hp.fresh
    · have h1 := hp.len
      have h3 := opCost_mul (K := K) (a := K.left .n) (b := K.left (.p 1)) (by
        simp [Konst.left]; have := hL.ranks; omega)
      simp only [List.length_append, List.length_singleton]
      omega

theorem PreView.opening {l : Loc} {name : Bytes} (h : PreView K 2 l) (hs : l.w.stat = .opening name) :
    l = ⟨{ K.w1 with stat := .opening K.archive }, [], [], 0⟩ := by
  cases h
  · cases hs
  · cases hs
  · rfl

theorem Inv.openFile (hL : Launch K.c K.b K.archive K.base K.orders) {tr : List Ev} {s s' : Sys}
    {name : Bytes} {k : Bool → Boss} (h : Inv K tr s) (hb : s.boss = .openFile name k)
    (hw : ∀ r, K.c.worker r → (s.w r).stat = .opening name) (hpn : s.pend = none)
    (hs' : s' = { s with
                 boss := k (openResult K.c s.file).isSome,
                 file := if (openResult K.c s.file).isSome then openResult K.c s.file else s.file,
                 w := fun r => { s.w r with
                        stat := .wait,
                        file := if (openResult K.c s.file).isSome then some (some name) else some none } }) :
    Inv K (tr ++ [.opened (openResult K.c s.file).isSome]) s' := by
  cases h with
  | failed x hc hq hb' views hfile len => exfalso; rw [hb'] at hb; cases x <;> cases hb
  | post g pt hc hp =>
    exfalso
    obtain ⟨pt, hp, hn⟩ := hp.normal hL
    rcases prog_cases pt hn hp.at_ with ⟨rfl, h⟩ | ⟨j, rfl, hj, h⟩ | ⟨j, rfl, hj, hj2, h⟩ | ⟨m, rfl, h⟩ |
      ⟨no, rfl, hno, h⟩ | ⟨no, r', rfl, h⟩ | ⟨m, rfl, h⟩ | ⟨j, rfl, hj, h⟩ | ⟨_, _, _, h⟩ <;>
      rw [hp.boss, h] at hb <;> cases hb
  | pre i hc hq hi views len =>
    rcases hi with ⟨rfl, h⟩ | ⟨k', rfl, h1, h⟩ | ⟨k', rfl, h1, h⟩
    · rw [hb] at h; cases h
    · rw [hb] at h; cases h1; cases h
    rw [hb] at h
    unfold bossRun at h1
    injection h1 with _ h1
    injection h1 with _ h1
    rw [← h1] at h
    injection h with hn hk
    subst hn
    have hloc : ∀ q, K.c.worker q → s.loc q = ⟨{ K.w1 with stat := .opening K.archive }, [], [], 0⟩ :=
      fun q hq => (views q hq).opening (hw q hq)
    have hlw : ∀ q, K.c.worker q → locW (s'.loc q) ≤ locW (s.loc q) + 0 := by
      intro q hq
      have h1 := hloc q hq
      have h2 : (s'.loc q).w.stat = .wait := by subst hs'; rfl
      have h3 : (s'.loc q).bq = (s.loc q).bq := by subst hs'; rfl
      have h4 : (s'.loc q).pq = (s.loc q).pq := by subst hs'; rfl
      unfold locW
      rw [h2, h3, h4]
      simp [statW]
    have hW := weight_all (K := K) hlw
    have hacks : s'.acks = s.acks := by subst hs'; rfl
    have hpend : s'.pend = s.pend := by subst hs'; rfl
    have hwt : weight K s' ≤ weight K s := by
      unfold weight; rw [hacks, hpend]; omega
    rw [hq.file] at hs' ⊢
    have hview : ∀ q, K.c.worker q → s'.loc q = ⟨{ K.w1 with
        file := if (openResult K.c K.file0).isSome then some (some K.archive) else some none },
        [], [], 0⟩ := by
      intro q hq
      have h1 := hloc q hq
      unfold Sys.loc at h1 ⊢
      simp only [Loc.mk.injEq] at h1
      obtain ⟨b1, b2, b3, b4⟩ := h1
      subst hs'
      simp only [b1, b2, b3, b4]
      rfl
    have hboss : s'.boss = k (openResult K.c K.file0).isSome := by subst hs'; rfl
    have hfile' : s'.file = if (openResult K.c K.file0).isSome then openResult K.c K.file0 else K.file0 := by
      subst hs'; simp only [hq.file]
    clear hs'
    rw [hk] at hboss
    have hcost : 6 ≤ opCost K := by unfold opCost; omega
    cases hres : openResult K.c K.file0 with
    | none =>
      rw [hres] at hboss hfile' hview
      simp only [Option.isSome_none, Bool.false_eq_true, if_false] at hboss hfile' hview
      refine .failed false ⟨by rw [hpend]; exact hc.pendOk, by rw [hacks]; exact hc.acksOk⟩
        (hq.snoc trivial (by rw [hfile', hq.file]) hacks (by rw [hpend]; exact hq.noP2p)) hboss ?_ hres ?_
      · intro q hq; rw [hview q hq]; exact .before
      · have := opCost_mul (K := K) (a := 8 + 6 * K.c.ranks + 3 * K.orders.length - 2) (b := 1) (by omega)
        simp only [List.length_append, List.length_singleton, Bool.false_eq_true, if_false]
        omega
    | some f =>
      have hf0 : K.file0 = none ∧ f = [] := by
        unfold openResult at hres
        cases hf : K.file0 with
        | some _ => rw [hf] at hres; cases hres
        | none =>
          rw [hf] at hres
          simp only at hres
          split at hres
          · cases hres; exact ⟨rfl, rfl⟩
          · cases hres
      rw [hres] at hboss hfile' hview
      simp only [Option.isSome_some, if_true] at hboss hfile' hview ⊢
      have hd : ∀ e ∈ tr ++ [.opened true], (∀ r m, e ≠ .sent r m) ∧
          (∀ r t ba ar me wq, e ≠ Ev.wrote r t ba ar me wq) ∧ (∀ r, e ≠ .acked r) := by
        intro e he
        rcases List.mem_append.1 he with he | he
        · refine ⟨?_, ?_, ?_⟩
          · rintro r m rfl; exact hq.noSend r m he
          · rintro r t ba ar me wq rfl; exact hq.noWrite r t ba ar me wq he
          · rintro r rfl; exact hq.noAck r he
        · rw [List.mem_singleton.1 he]; simp
      have e1 : dispatched (tr ++ [.opened true]) = [] := by
        rw [dispatched, List.filterMap_eq_nil_iff]
        intro e he
        have := hd e he
        cases e <;> first | rfl | exact absurd rfl (this.1 _ _) | exact absurd rfl (this.2.1 _ _ _ _ _ _) | exact absurd rfl (this.2.2 _)
      have e2 : executed (tr ++ [.opened true]) = [] := by
        rw [executed, List.filterMap_eq_nil_iff]
        intro e he
        have := hd e he
        cases e <;> first | rfl | exact absurd rfl (this.1 _ _) | exact absurd rfl (this.2.1 _ _ _ _ _ _) | exact absurd rfl (this.2.2 _)
      have e3 : writes (tr ++ [.opened true]) = [] := by
        rw [writes, List.filterMap_eq_nil_iff]
        intro e he
        have := hd e he
        cases e <;> first | rfl | exact absurd rfl (this.1 _ _) | exact absurd rfl (this.2.1 _ _ _ _ _ _) | exact absurd rfl (this.2.2 _)
      have e4 : acknowledged (tr ++ [.opened true]) = [] := by
        rw [acknowledged, List.filterMap_eq_nil_iff]
        intro e he
        have := hd e he
        cases e <;> first | rfl | exact absurd rfl (this.1 _ _) | exact absurd rfl (this.2.1 _ _ _ _ _ _) | exact absurd rfl (this.2.2 _)
      have e5 : shutdowns (tr ++ [.opened true]) = [] := by
        rw [shutdowns, List.filterMap_eq_nil_iff]
        intro e he
        have := hd e he
        cases e <;> first | rfl | exact absurd rfl (this.1 _ _) | exact absurd rfl (this.2.1 _ _ _ _ _ _) | exact absurd rfl (this.2.2 _)
      refine .post ⟨false, 1, 1, 0, fun _ => none, fun _ => false⟩ .n
        ⟨by rw [hpend]; exact hc.pendOk, by rw [hacks]; exact hc.acksOk⟩ ?_
      constructor
      · exact hboss
      · rw [e4]; exact ⟨rfl, rfl, rfl, rfl, fun _ => rfl, rfl⟩
      · intro q hq
        have h1 : decide (q < 1) = false := decide_eq_false (by have := hq.1; omega)
        rw [hview q hq]
        simp only [h1]
        exact .before
      · intro r t _ h; cases h
      · intro r _; rfl
      · rw [e1]; simp
      · intro r _; rw [e1, e2]; rfl
      · rw [e1]; simp
      · rw [e2]; simp
      · rw [e4]
        simp only [List.length_nil, Nat.zero_add]
        exact nOut_none (fun _ _ _ => rfl)
      · intro r _; rw [e1, e4]; rfl
      · rw [e5]; simp
      · rw [hfile', e3, hf0.2]; rfl
      · intro r t ba ar me wq hm
        exact absurd rfl ((hd _ hm).2.1 r t ba ar me wq)
      · exact hf0.1
      · have := opCost_mul (K := K) (a := 8 + 6 * K.c.ranks + 3 * K.orders.length - 2) (b := K.left .n) (by
          simp [Konst.left]; omega)
        simp only [List.length_append, List.length_singleton]
        omega

/-! ### the induction -/

theorem Inv.done {tr : List Ev} {s s' : Sys} (h : Inv K tr s) (hp : s.pend ≠ none)
    (hs' : s' = { s with pend := none }) : Inv K (tr ++ [.sendDone]) s' := by
  have hboss : s'.boss = s.boss := by subst hs'; rfl
  have hpend : s'.pend = none := by subst hs'; rfl
  have hacks : s'.acks = s.acks := by subst hs'; rfl
  have hfile : s'.file = s.file := by subst hs'; rfl
  have hloc : ∀ q, s'.loc q = s.loc q := by subst hs'; intro q; rfl
  have hw : weight K s' + 1 ≤ weight K s := by
    unfold weight
    rw [hpend, hacks]
    have : ∑ q ∈ Finset.Ico 1 K.c.ranks, locW (s'.loc q) = ∑ q ∈ Finset.Ico 1 K.c.ranks, locW (s.loc q) :=
      Finset.sum_congr rfl fun q _ => by rw [hloc]
    rw [this]
    have : s.pend.isSome = true := by
      cases h : s.pend with
      | none => exact absurd h hp
      | some _ => rfl
    rw [this]
    simp; omega
  clear hs'
  have hC : Common K tr s → Common K (tr ++ [.sendDone]) s' := fun hc =>
    ⟨by rw [hpend]; simp, by rw [hacks]; exact hc.acksOk⟩
  cases h with
  | pre i hc hq hi views len =>
    refine .pre i (hC hc) (hq.snoc trivial hfile hacks (by rw [hpend]; simp)) (by rw [hboss]; exact hi)
      (fun r hr => by rw [hloc]; exact views r hr) ?_
    simp only [List.length_append, List.length_singleton]; omega
  | failed x hc hq hb' views hfile' len =>
    refine .failed x (hC hc) (hq.snoc trivial hfile hacks (by rw [hpend]; simp)) (by rw [hboss]; exact hb')
      (fun r hr => by rw [hloc]; exact views r hr) hfile' ?_
    simp only [List.length_append, List.length_singleton]; omega
  | post g pt hc hp' =>
    exact .post g pt (hC hc) (hp'.silent trivial hboss hfile (fun r hr => by rw [hloc]; exact hp'.views r hr) hw)

theorem step_inv (hL : Launch K.c K.b K.archive K.base K.orders) {tr : List Ev} {s s' : Sys} {e : Ev}
    (h : Inv K tr s) (st : Step K.c true s e s') : Inv K (tr ++ [e]) s' := by
  cases st with
  | bcast m k hp hb => exact h.bcast hL hb rfl
  | bcastDone hp hq => exact h.done (by rw [hp]; simp) rfl
  | send r m k hp hb hr =>
    refine (h.send hL hb).2 ⟨rfl, rfl, rfl, rfl, ?_, ?_⟩
    · simp [Sys.loc]
    · intro q hq; simp [Sys.loc, Function.update_of_ne hq]
  | sendBad r m k hp hb hr => exact absurd (h.send (s' := s) hL hb).1 hr
  | sendDone r hp hq => exact h.done (by rw [hp]; simp) rfl
  | recv k l1 l2 r a hp hb ha => exact h.recv hL hb ha rfl
  | openFile name k hp hb hw => exact h.openFile hL hb hw hp rfl
  | getBcast r m rest hr hs hm hq =>
    have hl : s.loc r = ⟨s.w r, m :: rest, s.pq r, (s.acks.map Prod.fst).count r⟩ := by rw [Sys.loc, hq]
    have hl' : ({ s with w := Function.update s.w r (onBcast (s.w r) m),
                         bq := Function.update s.bq r rest } : Sys).loc r =
        ⟨onBcast (s.w r) m, rest, s.pq r, (s.acks.map Prod.fst).count r⟩ := by simp [Sys.loc]
    have hstat : statW (onBcast (s.w r) m).stat ≤ 1 := by
      cases h with
      | pre i hc hq' hi views len => have := views r hr; rw [hl] at this; exact (this.getBcast hL).2
      | failed x hc hq' hb' views hfile len =>
        have := views r hr; rw [hl] at this; have := this.getBcast.2; omega
      | post g pt hc hp => have := hp.views r hr; rw [hl] at this; have := this.getBcast.2; omega
    refine h.local hr trivial rfl rfl rfl rfl ?_ ?_ ?_ ?_ ?_
    · intro q hq; simp [Sys.loc, Function.update_of_ne hq]
    · rw [hl', hl]; simp only [locW, List.length_cons]; omega
    · intro i hv; rw [hl'] ; rw [hl] at hv; exact (hv.getBcast hL).1
    · intro i hv; rw [hl'] ; rw [hl] at hv; exact hv.getBcast.1
    · intro N p x o wr ho hv; rw [hl'] ; rw [hl] at hv; exact hv.getBcast.1
  | getSend r m rest hr hs hm hq =>
    have hl : s.loc r = ⟨s.w r, s.bq r, m :: rest, (s.acks.map Prod.fst).count r⟩ := by rw [Sys.loc, hq]
    have hl' : ({ s with w := Function.update s.w r (onSend (s.w r) m),
                         pq := Function.update s.pq r rest } : Sys).loc r =
        ⟨onSend (s.w r) m, s.bq r, rest, (s.acks.map Prod.fst).count r⟩ := by simp [Sys.loc]
    have hpre : ∀ i, ¬ PreView K i (s.loc r) := by
      intro i hv; rw [hl] at hv
      generalize hpq : m :: rest = pq at hv
      generalize s.w r = w at hv
      generalize s.bq r = bq at hv
      generalize (s.acks.map Prod.fst).count r = na at hv
      cases hv <;> cases hpq
    have hfail : ∀ i, ¬ FailView K i (s.loc r) := by
      intro i hv; rw [hl] at hv
      generalize hpq : m :: rest = pq at hv
      generalize s.w r = w at hv
      generalize s.bq r = bq at hv
      generalize (s.acks.map Prod.fst).count r = na at hv
      cases hv <;> cases hpq
    have hstat : statW (onSend (s.w r) m).stat ≤ 3 := by
      cases h with
      | pre i hc hq' hi views len => exact absurd (views r hr) (hpre _)
      | failed x hc hq' hb' views hfile len => exact absurd (views r hr) (hfail _)
      | post g pt hc hp =>
        have := hp.views r hr; rw [hl] at this
        exact (this.getSend hL hs hm (fun t ht => hp.orders r t hr ht)).2
    refine h.local hr trivial rfl rfl rfl rfl ?_ ?_ ?_ ?_ ?_
    · intro q hq; simp [Sys.loc, Function.update_of_ne hq]
    · rw [hl', hl]; simp only [locW, List.length_cons]; omega
    · intro i hv; exact absurd hv (hpre i)
    · intro i hv; exact absurd hv (hfail i)
    · intro N p x o wr ho hv; rw [hl'] ; rw [hl] at hv; exact (hv.getSend hL hs hm ho).1
  | work r text name memory old write hr hs hf hm ho hd => exact h.work hr hs hf hm ho hd rfl
  | workFails r text memory e hr hs hm hd =>
    refine h.local hr trivial rfl rfl rfl rfl ?_ ?_ ?_ ?_ ?_
    · intro q hq; simp [Sys.loc, Function.update_of_ne hq]
    · simp [locW, Sys.loc, hs, statW]
    · intro i hv
      exfalso
      unfold Sys.loc at hv
      generalize s.w r = w at hv hs
      generalize s.bq r = bq at hv
      generalize s.pq r = pq at hv
      generalize (s.acks.map Prod.fst).count r = na at hv
      cases hv <;> cases hs
    · intro i hv
      exfalso
      unfold Sys.loc at hv
      generalize s.w r = w at hv hs
      generalize s.bq r = bq at hv
      generalize s.pq r = pq at hv
      generalize (s.acks.map Prod.fst).count r = na at hv
      cases hv <;> cases hs
    · intro N p x o wr ho hv
      obtain ⟨v1, v2, v3, v4, v5, v6, v7, v8⟩ := hv.working hs
      have hbase : (s.w r).base = K.base := by rw [v6]; rfl
      have hbuck : (s.w r).bucket = K.b := by rw [v6]; rfl
      have hfile : (s.w r).file = some (some K.archive) := by rw [v6]; rfl
      rcases hd with hd | ⟨_, hd⟩
      · rw [hbase] at hd
        have := v8 memory e (by rw [hm, hbuck]) hd
        simpa [Sys.loc] using this
      · exact absurd hfile (hd _)
  | ackDone r hr hs hq =>
    refine h.local hr trivial rfl rfl rfl rfl ?_ ?_ ?_ ?_ ?_
    · intro q hq; simp [Sys.loc, Function.update_of_ne hq]
    · simp [locW, Sys.loc, hs, statW]
    · intro i hv
      exfalso
      unfold Sys.loc at hv
      generalize s.w r = w at hv hs
      generalize s.bq r = bq at hv
      generalize s.pq r = pq at hv
      generalize (s.acks.map Prod.fst).count r = na at hv
      cases hv <;> cases hs
    · intro i hv
      exfalso
      unfold Sys.loc at hv
      generalize s.w r = w at hv hs
      generalize s.bq r = bq at hv
      generalize s.pq r = pq at hv
      generalize (s.acks.map Prod.fst).count r = na at hv
      cases hv <;> cases hs
    · intro N p x o wr ho hv
      have := hv.ackDone hs
      simpa [Sys.loc] using this

theorem Step.eager {c : Cfg} {b : Bool} {s s' : Sys} {e : Ev} (h : Step c b s e s') : Step c true s e s' := by
  cases h with
  | bcast m k hp hb => exact .bcast s m k hp hb
  | bcastDone hp hq => exact .bcastDone s hp (Or.inl rfl)
  | send r m k hp hb hr => exact .send s r m k hp hb hr
  | sendBad r m k hp hb hr => exact .sendBad s r m k hp hb hr
  | sendDone r hp hq => exact .sendDone s r hp (Or.inl rfl)
  | recv k l1 l2 r a hp hb ha => exact .recv s k l1 l2 r a hp hb ha
  | openFile name k hp hb hw => exact .openFile s name k hp hb hw
  | getBcast r m rest hr hs hm hq => exact .getBcast s r m rest hr hs hm hq
  | getSend r m rest hr hs hm hq => exact .getSend s r m rest hr hs hm hq
  | work r text name memory old write hr hs hf hm ho hd => exact .work s r text name memory old write hr hs hf hm ho hd
  | workFails r text memory e hr hs hm hd => exact .workFails s r text memory e hr hs hm hd
  | ackDone r hr hs hq => exact .ackDone s r hr hs (Or.inl rfl)

theorem run_inv (hL : Launch K.c K.b K.archive K.base K.orders) {eager : Bool} {tr : List Ev} {s : Sys}
    (h : Run K.c eager (Sys.start (bossRun K.c.ranks K.b K.archive K.base K.orders) K.file0) tr s) :
    Inv K tr s := by
  induction h with
  | nil =>
    refine .pre 0 ⟨by simp [Sys.start], by simp [Sys.start]⟩
      ⟨by simp, by simp, by simp, rfl, rfl, by simp [Sys.start]⟩ (Or.inl ⟨rfl, rfl⟩) ?_ ?_
    · intro r _; exact .b0
    · have : weight K (Sys.start (bossRun K.c.ranks K.b K.archive K.base K.orders) K.file0) = 0 := by
        unfold weight
        simp [Sys.start, Sys.loc, locW, WSt.init, statW]
      rw [this]; simp [bound]
  | snoc _ st ih => exact step_inv hL ih st.eager

end Parfu
