/-
The invariant of the protocol.
-/
import Verif.ProtocolSpec
import Verif.MarchLemmas
import Mathlib.Algebra.BigOperators.Group.Finset.Basic
import Mathlib.Algebra.Order.BigOperators.Group.Finset
import Mathlib.Order.Interval.Finset.Nat
set_option autoImplicit false

namespace Parfu
open ProtocolSpec

/-! ### messages -/

theorem recvMsg_clean (m : Bytes) (h : (0 : UInt8) ∉ m) : recvMsg (m ++ [0]) = m := by
  unfold recvMsg
  rw [takeWhile_append_of_all]
  · intro c hc
    simp only [ne_eq, decide_not, Bool.not_eq_eq_eq_not, Bool.not_true, decide_eq_false_iff_not]
    rintro rfl; exact h hc
  · simp

theorem recvMsg_send (c : UInt8) (m : Bytes) (hc : c ≠ 0) (h : (0 : UInt8) ∉ m) :
    recvMsg (sendMsg [c] m) = c :: m := by
  rw [sendMsg, recvMsg_clean]
  · rfl
  · simp [h, Ne.symm hc]

theorem onBcast_U (w : WSt) (b : Nat) (hb : b < 2 ^ 31) :
    onBcast w (sendMsg [85] (digits 10 b)) = { w with bucket := b } := by
  unfold onBcast
  rw [recvMsg_send _ _ (by decide) (digits_no 0 (by decide) b)]
  have : stoi (digits 10 b) = .ok (b : Int) := by
    have := stoi_decInt (b : Int) (by omega) (by omega)
    simpa [decInt] using this
  simp [this, u64_nat (show b < 2 ^ 64 by omega)]

theorem onBcast_A (w : WSt) (n : Bytes) (h : (0 : UInt8) ∉ n) :
    onBcast w (sendMsg [65] n) = { w with stat := .opening n } := by
  unfold onBcast
  rw [recvMsg_send _ _ (by decide) h]
  simp

theorem onBcast_N (w : WSt) (n : Bytes) (h : (0 : UInt8) ∉ n) :
    onBcast w (sendMsg [78] n) = { w with mode := .indiv } := by
  unfold onBcast
  rw [recvMsg_send _ _ (by decide) h]
  simp

theorem onBcast_X (w : WSt) (n : Bytes) (h : (0 : UInt8) ∉ n) :
    onBcast w (sendMsg [88] n) = { w with stat := .ended 0 } := by
  unfold onBcast
  rw [recvMsg_send _ _ (by decide) h]
  simp

theorem onSend_P (w : WSt) (n : Bytes) (h : (0 : UInt8) ∉ n) :
    onSend w (sendMsg [80] n) = { w with base := n } := by
  unfold onSend
  rw [recvMsg_send _ _ (by decide) h]
  simp

theorem onSend_C (w : WSt) (n : Bytes) (h : (0 : UInt8) ∉ n) (hb : w.bucket ≠ 0) :
    onSend w (sendMsg [67] n) = { w with stat := .working n } := by
  unfold onSend
  rw [recvMsg_send _ _ (by decide) h]
  simp [hb]

theorem onSend_X (w : WSt) (n : Bytes) (h : (0 : UInt8) ∉ n) :
    onSend w (sendMsg [88] n) = { w with stat := .ended 0 } := by
  unfold onSend
  rw [recvMsg_send _ _ (by decide) h]
  simp

theorem ackMsg_stoi (r : Nat) (h : r < 2 ^ 31) : stoi (recvMsg (ackMsg r)) = .ok (r : Int) := by
  unfold ackMsg
  rw [recvMsg_clean _ (digits_no 0 (by decide) r)]
  have := stoi_decInt (r : Int) (by omega) (by omega)
  simpa [decInt] using this

theorem ackMsg_length (r : Nat) (h : r < 2 ^ 31) : (ackMsg r).length ≤ 20 := by
  unfold ackMsg
  have := digits_length_le (b := 10) (by omega) 10 r (by omega) (by omega)
  simp; omega

/-! ### what one worker is up to -/

/-- A worker's state, the messages on their way to it, and the number of its reports on their way to
rank 0. -/
structure Loc where
  w : WSt
  bq : List Bytes
  pq : List Bytes
  na : Nat

def Sys.loc (s : Sys) (r : Nat) : Loc := ⟨s.w r, s.bq r, s.pq r, (s.acks.map Prod.fst).count r⟩

/-- The fixed data of a launch. -/
structure Konst where
  c : Cfg
  b : Nat
  archive : Bytes
  base : Bytes
  orders : List Bytes
  file0 : Option Bytes

namespace Konst
variable (K : Konst)
def mU : Bytes := sendMsg [85] (digits 10 K.b)
def mA : Bytes := sendMsg [65] K.archive
def mN : Bytes := sendMsg [78] [105, 110, 100, 105, 118, 105, 100, 117, 97, 108]
def mP : Bytes := sendMsg [80] K.base
def mX : Bytes := sendMsg [88] [115, 104, 117, 116, 100, 111, 119, 110]
def mBye : Bytes := sendMsg [88] [98, 121, 101]
def mC (t : Bytes) : Bytes := sendMsg [67] t

/-- Worker states: bucket size known; file opened; opening failed. -/
def w1 : WSt := { WSt.init with bucket := K.b }
def wO : WSt := { WSt.init with bucket := K.b, file := some (some K.archive) }
def wF : WSt := { WSt.init with bucket := K.b, file := some none }
/-- In individual mode, with base path. -/
def wI : WSt := { K.wO with mode := .indiv }
def wB : WSt := { K.wI with base := K.base }

/-- Messages of the individual phase not yet received. -/
def msgs (p : Bool) (o : Option Bytes) (x : Bool) : List Bytes :=
  (if p then [K.mP] else []) ++ (o.toList.map mC) ++ (if x then [mX] else [])
end Konst

/-- Worker before the collective open, after `i` broadcasts. -/
inductive PreView (K : Konst) : Nat → Loc → Prop
  | b0 : PreView K 0 ⟨WSt.init, [], [], 0⟩
  | b1 : PreView K 1 ⟨WSt.init, [K.mU], [], 0⟩
  | b1' : PreView K 1 ⟨K.w1, [], [], 0⟩
  | b2 : PreView K 2 ⟨WSt.init, [K.mU, K.mA], [], 0⟩
  | b2' : PreView K 2 ⟨K.w1, [K.mA], [], 0⟩
  | b2'' : PreView K 2 ⟨{ K.w1 with stat := .opening K.archive }, [], [], 0⟩

/-- Worker after the open has failed; `x`: the shutdown has been broadcast. -/
inductive FailView (K : Konst) : Bool → Loc → Prop
  | before : FailView K false ⟨K.wF, [], [], 0⟩
  | after : FailView K true ⟨K.wF, [Konst.mBye], [], 0⟩
  | gone : FailView K true ⟨{ K.wF with stat := .ended 0 }, [], [], 0⟩

/-- Worker after the open.  `N`, `p`, `x`: the messages 'N', 'P', 'X' have been sent to it; `o`: the
bundle sent to it whose report rank 0 has not received; `wr`: that bundle has been written. -/
inductive View (K : Konst) : Bool → Bool → Bool → Option Bytes → Bool → Loc → Prop
  | ready (p x : Bool) (o : Option Bytes) (hp : p = false → o = none ∧ x = false)
      (hx : x = true → o = none) : View K true p x o false ⟨K.wO, [Konst.mN], K.msgs p o x, 0⟩
  | before : View K false false false none false ⟨K.wO, [], [], 0⟩
  | indiv (p x : Bool) (o : Option Bytes) (hp : p = false → o = none ∧ x = false)
      (hx : x = true → o = none) : View K true p x o false ⟨K.wI, [], K.msgs p o x, 0⟩
  | based (x : Bool) (o : Option Bytes) (hx : x = true → o = none) : View K true true x o false ⟨K.wB, [], K.msgs false o x, 0⟩
  | basedA (x : Bool) (o : Option Bytes) (hx : x = true → o = none) :
      View K true true x o false ⟨{ K.wB with stat := .acking }, [], K.msgs false o x, 0⟩
  | work (t : Bytes) :
      View K true true false (some t) false ⟨{ K.wB with stat := .working t }, [], [], 0⟩
  | done (t : Bytes) : View K true true false (some t) true ⟨K.wB, [], [], 1⟩
  | doneA (t : Bytes) :
      View K true true false (some t) true ⟨{ K.wB with stat := .acking }, [], [], 1⟩
  | gone : View K true true true none false ⟨{ K.wB with stat := .ended 0 }, [], [], 0⟩
  | dead (t memory : Bytes) (e : Err) (hm : memory.length = K.b)
      (he : workerDo K.c.env K.c.fs K.base memory t = .error e) :
      View K true true false (some t) false ⟨{ K.wB with stat := .dead e }, [], [], 0⟩

/-! ### where rank 0 is -/

/-- Program points of rank 0 after the open. -/
inductive Pt where
  | n
  | p (j : Nat)
  | d1 (j : Nat)
  | all (m : Nat)
  | d2 (no : Nat)
  | d2s (no r : Nat)
  | last (m : Nat)
  | x (j : Nat)

namespace Konst
variable (K : Konst)

def progX (j : Nat) : Boss := sendAll mX K.c.ranks j (.exit 0)
def progLast (m : Nat) : Boss := recvN m (K.progX 1)
def progD2 (no : Nat) : Boss := phase2 K.orders no (K.progLast (K.c.ranks - 1))
def progD1 (j : Nat) : Boss := phase1 K.orders K.c.ranks j (j - 1) fun no =>
    if no ≥ K.orders.length then recvN K.orders.length (K.progX 1) else K.progD2 no
def progP (j : Nat) : Boss := sendAll K.mP K.c.ranks j (K.progD1 1)

def prog : Pt → Boss
  | .n => .bcast mN (K.progP 1)
  | .p j => K.progP j
  | .d1 j => K.progD1 j
  | .all m => recvN m (K.progX 1)
  | .d2 no => K.progD2 no
  | .d2s no r => .send r (mC (K.orders.getD no [])) (K.progD2 (no + 1))
  | .last m => K.progLast m
  | .x j => K.progX j

/-- Bound on the number of operations rank 0 has left. -/
def left : Pt → Nat
  | .n => 5 + 6 * K.c.ranks + 3 * K.orders.length
  | .p j => 4 + 5 * K.c.ranks + 3 * K.orders.length + (K.c.ranks - j)
  | .d1 j => 3 + 4 * K.c.ranks + K.orders.length + 2 * (K.orders.length + 1 - j)
  | .all m => 2 + K.c.ranks + m
  | .d2 no => 2 + 2 * K.c.ranks + 2 * (K.orders.length - no)
  | .d2s no _ => 1 + 2 * K.c.ranks + 2 * (K.orders.length - no)
  | .last m => 1 + K.c.ranks + m
  | .x j => K.c.ranks - j
end Konst

/-- What rank 0 has done, for the invariant: broadcast 'N'; sent 'P' to the ranks below `pj`; sent
the first `no` bundles; sent 'X' to the ranks below `xj`; bundles not yet acknowledged, and whether
they have been written. -/
structure Ghost where
  nn : Bool
  pj : Nat
  xj : Nat
  no : Nat
  out : Nat → Option Bytes
  wr : Nat → Bool

/-- Number of workers with an unacknowledged bundle. -/
def nOut (ranks : Nat) (out : Nat → Option Bytes) : Nat :=
  ((Finset.Ico 1 ranks).filter fun r => (out r).isSome = true).card

/-- What holds at a program point. -/
def AtPt (K : Konst) (g : Ghost) (na : Nat) : Pt → Prop
  | .n => g.nn = false ∧ g.pj = 1 ∧ g.xj = 1 ∧ g.no = 0 ∧ (∀ r, g.out r = none) ∧ na = 0
  | .p j => g.nn = true ∧ g.pj = j ∧ 1 ≤ j ∧ j ≤ K.c.ranks ∧ g.xj = 1 ∧ g.no = 0 ∧
      (∀ r, g.out r = none) ∧ na = 0
  | .d1 j => g.nn = true ∧ g.pj = K.c.ranks ∧ g.xj = 1 ∧ 1 ≤ j ∧ j ≤ K.c.ranks ∧ g.no = j - 1 ∧
      g.no ≤ K.orders.length ∧ (∀ r, (g.out r).isSome = true ↔ 1 ≤ r ∧ r < j) ∧ na = 0
  | .all m => g.nn = true ∧ g.pj = K.c.ranks ∧ g.xj = 1 ∧ g.no = K.orders.length ∧
      nOut K.c.ranks g.out = m
  | .d2 no => g.nn = true ∧ g.pj = K.c.ranks ∧ g.xj = 1 ∧ g.no = no ∧ no ≤ K.orders.length ∧
      (∀ r, K.c.worker r → (g.out r).isSome = true)
  | .d2s no r => g.nn = true ∧ g.pj = K.c.ranks ∧ g.xj = 1 ∧ g.no = no ∧ no < K.orders.length ∧
      K.c.worker r ∧ g.out r = none ∧ (∀ r', K.c.worker r' → r' ≠ r → (g.out r').isSome = true)
  | .last m => g.nn = true ∧ g.pj = K.c.ranks ∧ g.xj = 1 ∧ g.no = K.orders.length ∧
      nOut K.c.ranks g.out = m
  | .x j => g.nn = true ∧ g.pj = K.c.ranks ∧ g.xj = j ∧ 1 ≤ j ∧ j ≤ K.c.ranks ∧
      g.no = K.orders.length ∧ (∀ r, K.c.worker r → g.out r = none)

/-- Program points at which rank 0's next operation is not hidden behind a finished loop. -/
def Normal (K : Konst) : Pt → Prop
  | .n => True
  | .p j => j < K.c.ranks
  | .d1 j => j < K.c.ranks ∧ j - 1 < K.orders.length
  | .all m => 0 < m
  | .d2 no => no < K.orders.length
  | .d2s _ _ => True
  | .last m => 0 < m
  | .x j => j ≤ K.c.ranks

/-- Work left in the processes and queues. -/
def statW : WStat → Nat
  | .wait => 0
  | .opening _ => 1
  | .working _ => 3
  | .acking => 1
  | .ended _ => 0
  | .dead _ => 0

def locW (l : Loc) : Nat := 2 * l.bq.length + 4 * l.pq.length + statW l.w.stat

def weight (K : Konst) (s : Sys) : Nat :=
  (if s.pend.isSome then 1 else 0) + s.acks.length + ∑ r ∈ Finset.Ico 1 K.c.ranks, locW (s.loc r)

/-- Cost of one operation of rank 0. -/
def opCost (K : Konst) : Nat := 2 * K.c.ranks + 6

/-- Bound on the length of a run. -/
def bound (K : Konst) : Nat := opCost K * (8 + 6 * K.c.ranks + 3 * K.orders.length)

/-- Every completion in the trace was configured as intended. -/
def WroteOk (K : Konst) (tr : List Ev) : Prop :=
  ∀ r t ba ar me wq, Ev.wrote r t ba ar me wq ∈ tr →
    ba = K.base ∧ ar = K.archive ∧ me.length = K.b ∧ workerDo K.c.env K.c.fs K.base me t = .ok wq

/-- What holds in every state. -/
structure Common (K : Konst) (tr : List Ev) (s : Sys) : Prop where
  pendOk : ∀ r, s.pend = some (.one r) → K.c.worker r
  acksOk : ∀ a ∈ s.acks, K.c.worker a.1 ∧ a.2 = ackMsg a.1

/-- Before the open and after a failed one nothing is dispatched. -/
structure Quiet (K : Konst) (tr : List Ev) (s : Sys) : Prop where
  noSend : ∀ r m, Ev.sent r m ∉ tr
  noWrite : ∀ r t ba ar me wq, Ev.wrote r t ba ar me wq ∉ tr
  noAck : ∀ r, Ev.acked r ∉ tr
  file : s.file = K.file0
  noAcks : s.acks = []
  noP2p : ∀ r, s.pend ≠ some (.one r)

/-- The state after the open. -/
structure Post (K : Konst) (g : Ghost) (pt : Pt) (tr : List Ev) (s : Sys) : Prop where
  boss : s.boss = K.prog pt
  at_ : AtPt K g (acknowledged tr).length pt
  views : ∀ r, K.c.worker r →
    View K g.nn (decide (r < g.pj)) (decide (r < g.xj)) (g.out r) (g.wr r) (s.loc r)
  orders : ∀ r t, K.c.worker r → g.out r = some t → t ∈ K.orders
  outs : ∀ r, ¬ K.c.worker r → g.out r = none
  sentC : (dispatched tr).map Prod.snd = K.orders.take g.no
  perRank : ∀ r, K.c.worker r → ofRank r (dispatched tr) =
    ofRank r (executed tr) ++ (if g.wr r then [] else (g.out r).toList)
  dRanks : ∀ x ∈ dispatched tr, K.c.worker x.1
  eRanks : ∀ x ∈ executed tr, K.c.worker x.1
  acked : (acknowledged tr).length + nOut K.c.ranks g.out = g.no
  ackR : ∀ r, K.c.worker r → (ofRank r (dispatched tr)).length =
    (acknowledged tr).count r + if (g.out r).isSome then 1 else 0
  downs : shutdowns tr = List.range' 1 (g.xj - 1)
  file : s.file = some (writeAll (writes tr))
  wrote : WroteOk K tr
  fresh : K.file0 = none
  len : tr.length + weight K s + opCost K * K.left pt ≤ bound K

/-- The invariant. -/
inductive Inv (K : Konst) (tr : List Ev) (s : Sys) : Prop
  | pre (i : Nat) (hc : Common K tr s) (hq : Quiet K tr s)
      (hi : (i = 0 ∧ s.boss = bossRun K.c.ranks K.b K.archive K.base K.orders) ∨
        (∃ k, i = 1 ∧ bossRun K.c.ranks K.b K.archive K.base K.orders = .bcast K.mU k ∧ s.boss = k) ∨
        (∃ k, i = 2 ∧ bossRun K.c.ranks K.b K.archive K.base K.orders = .bcast K.mU (.bcast K.mA k) ∧
          s.boss = k))
      (views : ∀ r, K.c.worker r → PreView K i (s.loc r))
      (len : tr.length + weight K s + opCost K * (8 + 6 * K.c.ranks + 3 * K.orders.length - i) ≤ bound K)
  | failed (x : Bool) (hc : Common K tr s) (hq : Quiet K tr s)
      (hb : s.boss = if x then .exit 1 else .bcast Konst.mBye (.exit 1))
      (views : ∀ r, K.c.worker r → FailView K x (s.loc r))
      (hfile : openResult K.c K.file0 = none)
      (len : tr.length + weight K s + opCost K * (if x then 0 else 1) ≤ bound K)
  | post (g : Ghost) (pt : Pt) (hc : Common K tr s) (hp : Post K g pt tr s)

end Parfu
