/-
Runs on the level of single MPI calls are runs of `Verif.Protocol` in which nothing is lost.
-/
import Verif.WireSpec
import Verif.ProtocolBoss
set_option autoImplicit false

namespace Parfu
open WireSpec

/-- The orders whose bytes are in a queue. -/
def bodies (q : List Packet) : List Bytes :=
  q.filterMap fun p => match p with
    | .len _ => none
    | .body m => some m

@[simp] theorem bodies_nil : bodies [] = [] := rfl
@[simp] theorem bodies_len (n : Int) (q : List Packet) : bodies (.len n :: q) = bodies q := rfl
@[simp] theorem bodies_body (m : Bytes) (q : List Packet) : bodies (.body m :: q) = m :: bodies q := rfl
@[simp] theorem bodies_append (q q' : List Packet) : bodies (q ++ q') = bodies q ++ bodies q' :=
  List.filterMap_append ..

/-- The order of which all workers have been sent the length only. -/
def comingAll : Option WPend → List Bytes
  | some (.lenAll m) => [m]
  | _ => []

/-- The order of which worker `r` alone has been sent the length only. -/
def comingOne (r : Nat) : Option WPend → List Bytes
  | some (.lenOne r' m) => if r' = r then [m] else []
  | _ => []

/-- The call rank 0 is in, without telling length and bytes apart. -/
def absPend : WPend → Pend
  | .lenOne r _ => .one r
  | .bodyOne r => .one r
  | .lenAll _ => .all
  | .bodyAll => .all

/-- The state as `Verif.Protocol` sees it: an order is sent when its length is, and received when its
bytes are. -/
def WSys.abs (s : WSys) : Sys :=
  { boss := s.boss, pend := s.pend.map absPend,
    bq := fun r => bodies (s.bq r) ++ comingAll s.pend,
    pq := fun r => bodies (s.pq r) ++ comingOne r s.pend,
    acks := s.acks, w := s.w, file := s.file }

/-- What is on its way to a worker which has received the length `g` (or none) is framed. -/
def FramedFor : Option Int → List Packet → Prop
  | none, l => ∃ ms, l = framed ms
  | some n, l => ∃ (m : Bytes) (ms : List Bytes), n = (m.length : Int) ∧ l = .body m :: framed ms

/-- The invariant of runs on this level. -/
structure WInv (s : WSys) : Prop where
  short : ShortOrders s.boss
  all : ∀ r, FramedFor (if (s.w r).mode = .bcast then s.got r else none)
    (s.bq r ++ (comingAll s.pend).map .body)
  one : ∀ r, FramedFor (if (s.w r).mode = .bcast then none else s.got r)
    (s.pq r ++ (comingOne r s.pend).map .body)

theorem intOfSize_small {n : Nat} (h : n < 2 ^ 31) : intOfSize n = (n : Int) := by
  unfold intOfSize
  rw [Int.bmod_def]
  have : (2 : Nat) ^ 31 = 2147483648 := by rfl
  have h2 : ((2 ^ 32 : Nat) : Int) = 4294967296 := by rfl
  rw [h2]
  split <;> omega

theorem framed_append (a b : List Bytes) : framed (a ++ b) = framed a ++ framed b := by
  simp [framed]

theorem framed_one (m : Bytes) : framed [m] = [.len m.length, .body m] := rfl

theorem FramedFor.snoc {g : Option Int} {l : List Packet} (h : FramedFor g l) (m : Bytes) :
    FramedFor g (l ++ [.len m.length, .body m]) := by
  cases g with
  | none =>
    obtain ⟨ms, rfl⟩ := h
    exact ⟨ms ++ [m], by rw [framed_append, framed_one]⟩
  | some n =>
    obtain ⟨m', ms, hn, rfl⟩ := h
    exact ⟨m', ms ++ [m], hn, by rw [framed_append, framed_one]; rfl⟩

theorem FramedFor.len {n : Int} {l : List Packet} (h : FramedFor none (.len n :: l)) :
    FramedFor (some n) l := by
  obtain ⟨ms, h⟩ := h
  cases ms with
  | nil => cases h
  | cons m ms =>
    simp only [framed, List.flatMap_cons, List.cons_append, List.nil_append, List.cons.injEq,
      Packet.len.injEq] at h
    exact ⟨m, ms, h.1, h.2⟩

theorem FramedFor.notBody {m : Bytes} {l : List Packet} (h : FramedFor none (.body m :: l)) : False := by
  obtain ⟨ms, h⟩ := h
  cases ms with
  | nil => cases h
  | cons m ms => simp [framed] at h

theorem FramedFor.body {n : Int} {p : Packet} {l : List Packet} (h : FramedFor (some n) (p :: l)) :
    ∃ m : Bytes, p = .body m ∧ n = (m.length : Int) ∧ FramedFor none l := by
  obtain ⟨m, ms, hn, h⟩ := h
  injection h with h1 h2
  exact ⟨m, h1, hn, ms, h2⟩

theorem takeBody_exact (w : WSt) (m : Bytes) :
    takeBody w (m.length : Int) (.body m) = some (match w.mode with
      | .bcast => onBcast w m
      | .indiv => onSend w m) := by
  unfold takeBody bodyFits
  cases w.mode <;> simp

theorem abs_bq (s : WSys) (r : Nat) : s.abs.bq r = bodies (s.bq r) ++ comingAll s.pend := rfl
theorem abs_pq (s : WSys) (r : Nat) : s.abs.pq r = bodies (s.pq r) ++ comingOne r s.pend := rfl

theorem sys_ext {s t : Sys} (h1 : s.boss = t.boss) (h2 : s.pend = t.pend) (h3 : ∀ r, s.bq r = t.bq r)
    (h4 : ∀ r, s.pq r = t.pq r) (h5 : s.acks = t.acks) (h6 : s.w = t.w) (h7 : s.file = t.file) : s = t := by
  cases s; cases t
  simp only at *
  obtain rfl := funext h3
  obtain rfl := funext h4
  subst h1 h2 h5 h6 h7
  rfl

/-- What one step on this level is in `Verif.Protocol`. -/
def Matches (c : Cfg) (s : Sys) (s' : Sys) : WEv → Prop
  | .ev e => Step c true s e s'
  | .lenDone => s' = s
  | .lenGot _ _ => s' = s
  | .misread _ => False

theorem update_at {α : Type} (f : Nat → α) (r q : Nat) (v : α) :
    Function.update f r v q = if q = r then v else f q := by
  by_cases h : q = r
  · subst h; simp
  · simp [h]

theorem step_to {c : Cfg} {b : Bool} {s t t' : Sys} {e : Ev} (h : Step c b s e t) (ht : t' = t) :
    Step c b s e t' := ht ▸ h

/-- The invariant is about the queues, the modes and what rank 0 may still send. -/
theorem WInv.same {s s' : WSys} (h : WInv s) (hs : ShortOrders s'.boss) (hb : s'.bq = s.bq)
    (hp : s'.pq = s.pq) (hpa : comingAll s'.pend = comingAll s.pend)
    (hpo : ∀ r, comingOne r s'.pend = comingOne r s.pend) (hg : s'.got = s.got)
    (hm : ∀ r, (s'.w r).mode = (s.w r).mode) : WInv s' := by
  refine ⟨hs, ?_, ?_⟩
  · intro r
    rw [hb, hpa, hg, hm]; exact h.all r
  · intro r
    rw [hp, hpo, hg, hm]; exact h.one r

theorem mode_update {s : WSys} {r : Nat} {w' : WSt} (h : w'.mode = (s.w r).mode) (q : Nat) :
    (Function.update s.w r w' q).mode = (s.w q).mode := by
  rw [update_at]
  split
  · next hq => rw [h, hq]
  · rfl

theorem wstep_inv {c : Cfg} {eager : Bool} {s s' : WSys} {e : WEv} (h : WInv s)
    (st : WStep c eager s e s') : WInv s' ∧ Matches c s.abs s'.abs e := by
  cases st with
  | bcastLen m k hp hb =>
    have hs := h.short
    rw [hb] at hs
    cases hs with
    | bcast _ _ hm hk =>
      refine ⟨⟨hk, ?_, ?_⟩, ?_⟩
      · intro r
        have := (h.all r)
        rw [hp] at this
        have h2 := this.snoc m
        simpa [comingAll, intOfSize_small hm, List.append_assoc] using h2
      · intro r
        have := h.one r
        rw [hp] at this
        simpa [comingOne] using this
      · have := Step.bcast (c := c) (eager := true) s.abs m k (by simp [WSys.abs, hp]) hb
        refine step_to this ?_
        refine sys_ext rfl rfl (fun r => ?_) (fun r => ?_) rfl rfl rfl
        · simp [WSys.abs, hp, comingAll]
        · simp [WSys.abs, hp, comingOne]
  | bcastLenDone m hp hq =>
    refine ⟨⟨h.short, ?_, ?_⟩, ?_⟩
    · intro r
      have := h.all r
      rw [hp] at this
      simpa [comingAll] using this
    · intro r
      have := h.one r
      rw [hp] at this
      simpa [comingOne] using this
    · refine sys_ext rfl ?_ (fun r => ?_) (fun r => ?_) rfl rfl rfl
      · simp [WSys.abs, hp, absPend]
      · simp [WSys.abs, hp, comingAll]
      · simp [WSys.abs, hp, comingOne]
  | bcastDone hp hq =>
    refine ⟨h.same h.short rfl rfl ?_ ?_ rfl fun _ => rfl, ?_⟩
    · simp [hp, comingAll]
    · simp [hp, comingOne]
    · refine step_to (Step.bcastDone s.abs ?_ (Or.inl rfl)) ?_
      · simp [WSys.abs, hp, absPend]
      · refine sys_ext rfl rfl (fun r => ?_) (fun r => ?_) rfl rfl rfl
        · simp [WSys.abs, hp, comingAll]
        · simp [WSys.abs, hp, comingOne]
  | sendLen r m k hp hb hr =>
    have hs := h.short
    rw [hb] at hs
    cases hs with
    | send _ _ _ hm hk =>
      refine ⟨⟨hk, ?_, ?_⟩, ?_⟩
      · intro q
        have := h.all q
        rw [hp] at this
        simpa [comingAll] using this
      · intro q
        have := h.one q
        rw [hp] at this
        by_cases hq : q = r
        · subst hq
          have h2 := this.snoc m
          simpa [comingOne, intOfSize_small hm, List.append_assoc] using h2
        · simpa [comingOne, update_at, hq, Ne.symm hq] using this
      · have := Step.send (c := c) (eager := true) s.abs r m k (by simp [WSys.abs, hp]) hb hr
        refine step_to this ?_
        refine sys_ext rfl rfl (fun q => ?_) (fun q => ?_) rfl rfl rfl
        · simp [WSys.abs, hp, comingAll]
        · by_cases hq : q = r
          · subst hq; simp [WSys.abs, hp, comingOne]
          · simp [WSys.abs, hp, comingOne, update_at, hq, Ne.symm hq]
  | sendBad r m k hp hb hr =>
    refine ⟨h.same (.fail _) rfl rfl rfl (fun _ => rfl) rfl fun _ => rfl, ?_⟩
    exact step_to (Step.sendBad s.abs r m k (by simp [WSys.abs, hp]) hb hr)
      (sys_ext rfl rfl (fun _ => rfl) (fun _ => rfl) rfl rfl rfl)
  | sendLenDone r m hp hq =>
    refine ⟨⟨h.short, ?_, ?_⟩, ?_⟩
    · intro q
      have := h.all q
      rw [hp] at this
      simpa [comingAll] using this
    · intro q
      have := h.one q
      rw [hp] at this
      by_cases hq : q = r
      · subst hq; simpa [comingOne] using this
      · simpa [comingOne, update_at, hq, Ne.symm hq] using this
    · refine sys_ext rfl ?_ (fun q => ?_) (fun q => ?_) rfl rfl rfl
      · simp [WSys.abs, hp, absPend]
      · simp [WSys.abs, hp, comingAll]
      · by_cases hq : q = r
        · subst hq; simp [WSys.abs, hp, comingOne]
        · simp [WSys.abs, hp, comingOne, update_at, hq, Ne.symm hq]
  | sendDone r hp hq =>
    refine ⟨h.same h.short rfl rfl ?_ ?_ rfl fun _ => rfl, ?_⟩
    · simp [hp, comingAll]
    · simp [hp, comingOne]
    · refine step_to (Step.sendDone s.abs r ?_ (Or.inl rfl)) ?_
      · simp [WSys.abs, hp, absPend]
      · refine sys_ext rfl rfl (fun r => ?_) (fun r => ?_) rfl rfl rfl
        · simp [WSys.abs, hp, comingAll]
        · simp [WSys.abs, hp, comingOne]
  | recv k l1 l2 r a hp hb ha =>
    refine ⟨h.same ?_ rfl rfl rfl (fun _ => rfl) rfl fun _ => rfl, ?_⟩
    · have hs := h.short
      rw [hb] at hs
      cases hs with
      | recv _ hk =>
        show ShortOrders (if a.length ≤ 20 then k a else .fail .ub)
        split
        · exact hk a
        · exact .fail _
    · exact step_to (Step.recv s.abs k l1 l2 r a (by simp [WSys.abs, hp]) hb ha)
        (sys_ext rfl rfl (fun _ => rfl) (fun _ => rfl) rfl rfl rfl)
  | openFile name k hp hb hw =>
    refine ⟨h.same ?_ rfl rfl rfl (fun _ => rfl) rfl fun _ => rfl, ?_⟩
    · have hs := h.short
      rw [hb] at hs
      cases hs with
      | openFile _ _ hk => exact hk _
    · exact step_to (Step.openFile s.abs name k (by simp [WSys.abs, hp]) hb hw)
        (sys_ext rfl rfl (fun _ => rfl) (fun _ => rfl) rfl rfl rfl)
  | getLen r n rest hr hs hg hq =>
    refine ⟨⟨h.short, ?_, ?_⟩, ?_⟩
    · intro q
      have := h.all q
      by_cases hqr : q = r
      · subst hqr
        rw [hq.1, hq.2, if_pos rfl, hg] at this
        simpa [hq.1] using FramedFor.len this
      · simpa [update_at, hqr] using this
    · intro q
      have := h.one q
      by_cases hqr : q = r
      · subst hqr
        simpa [hq.1] using this
      · simpa [update_at, hqr] using this
    · refine sys_ext rfl rfl (fun q => ?_) (fun _ => rfl) rfl rfl rfl
      by_cases hqr : q = r
      · subst hqr; simp [WSys.abs, hq.2]
      · simp [WSys.abs, update_at, hqr]
  | getLenSent r n rest hr hs hg hq =>
    refine ⟨⟨h.short, ?_, ?_⟩, ?_⟩
    · intro q
      have := h.all q
      by_cases hqr : q = r
      · subst hqr
        simpa [hq.1] using this
      · simpa [update_at, hqr] using this
    · intro q
      have := h.one q
      by_cases hqr : q = r
      · subst hqr
        rw [hq.1, hq.2, if_neg (by decide), hg] at this
        simpa [hq.1] using FramedFor.len this
      · simpa [update_at, hqr] using this
    · refine sys_ext rfl rfl (fun _ => rfl) (fun q => ?_) rfl rfl rfl
      by_cases hqr : q = r
      · subst hqr; simp [WSys.abs, hq.2]
      · simp [WSys.abs, update_at, hqr]
  | noLen r m rest hr hs hg hq =>
    exfalso
    rcases hq with hq | hq
    · have := h.all r
      rw [hq.1, hq.2, if_pos rfl, hg] at this
      exact FramedFor.notBody this
    · have := h.one r
      rw [hq.1, hq.2, if_neg (by decide), hg] at this
      exact FramedFor.notBody this
  | getBody r n m rest w' hr hs hg hq ht =>
    have hfr := h.all r
    rw [hq.1, hq.2, if_pos rfl, hg] at hfr
    obtain ⟨m', h1, hn, hrest⟩ := FramedFor.body hfr
    cases h1
    subst hn
    rw [takeBody_exact, hq.1] at ht
    injection ht with ht
    have hone := h.one r
    rw [hq.1, if_pos rfl] at hone
    refine ⟨⟨h.short, ?_, ?_⟩, ?_⟩
    · intro q
      by_cases hqr : q = r
      · subst hqr
        simp only [update_at, if_true]
        split <;> exact hrest
      · simpa [update_at, hqr] using h.all q
    · intro q
      by_cases hqr : q = r
      · subst hqr
        simp only [update_at, if_true]
        split <;> exact hone
      · simpa [update_at, hqr] using h.one q
    · refine step_to (Step.getBcast s.abs r m (bodies rest ++ comingAll s.pend) hr hs hq.1 ?_) ?_
      · simp [WSys.abs, hq.2]
      · refine sys_ext rfl rfl (fun q => ?_) (fun _ => rfl) rfl ?_ rfl
        · by_cases hqr : q = r
          · subst hqr; simp [WSys.abs]
          · simp [WSys.abs, update_at, hqr]
        · show Function.update s.w r w' = _
          rw [← ht]; rfl
  | getBodySent r n m rest w' hr hs hg hq ht =>
    have hfr := h.one r
    rw [hq.1, hq.2, if_neg (by decide), hg] at hfr
    obtain ⟨m', h1, hn, hrest⟩ := FramedFor.body hfr
    cases h1
    subst hn
    rw [takeBody_exact, hq.1] at ht
    injection ht with ht
    have hall := h.all r
    rw [hq.1, if_neg (by decide)] at hall
    refine ⟨⟨h.short, ?_, ?_⟩, ?_⟩
    · intro q
      by_cases hqr : q = r
      · subst hqr
        simp only [update_at, if_true]
        split <;> exact hall
      · simpa [update_at, hqr] using h.all q
    · intro q
      by_cases hqr : q = r
      · subst hqr
        simp only [update_at, if_true]
        split <;> exact hrest
      · simpa [update_at, hqr] using h.one q
    · refine step_to (Step.getSend s.abs r m (bodies rest ++ comingOne r s.pend) hr hs hq.1 ?_) ?_
      · simp [WSys.abs, hq.2]
      · refine sys_ext rfl rfl (fun _ => rfl) (fun q => ?_) rfl ?_ rfl
        · by_cases hqr : q = r
          · subst hqr; simp [WSys.abs]
          · simp [WSys.abs, update_at, hqr]
        · show Function.update s.w r w' = _
          rw [← ht]; rfl
  | noBody r n p rest hr hs hg hq ht =>
    exfalso
    have key : ∃ l, FramedFor (some n) (p :: l) := by
      rcases hq with hq | hq
      · have := h.all r
        rw [hq.1, hq.2, if_pos rfl, hg] at this
        exact ⟨_, this⟩
      · have := h.one r
        rw [hq.1, hq.2, if_neg (by decide), hg] at this
        exact ⟨_, this⟩
    obtain ⟨l, hl⟩ := key
    obtain ⟨m, rfl, rfl, _⟩ := FramedFor.body hl
    rw [takeBody_exact] at ht
    cases ht
  | work r text name memory old write hr hs hf hm ho hd =>
    refine ⟨h.same h.short rfl rfl rfl (fun _ => rfl) rfl (mode_update rfl), ?_⟩
    exact step_to (Step.work s.abs r text name memory old write hr hs hf hm ho hd)
      (sys_ext rfl rfl (fun _ => rfl) (fun _ => rfl) rfl rfl rfl)
  | workFails r text memory e hr hs hm hd =>
    refine ⟨h.same h.short rfl rfl rfl (fun _ => rfl) rfl (mode_update rfl), ?_⟩
    exact step_to (Step.workFails s.abs r text memory e hr hs hm hd)
      (sys_ext rfl rfl (fun _ => rfl) (fun _ => rfl) rfl rfl rfl)
  | ackDone r hr hs hq =>
    refine ⟨h.same h.short rfl rfl rfl (fun _ => rfl) rfl (mode_update rfl), ?_⟩
    exact step_to (Step.ackDone s.abs r hr hs (Or.inl rfl))
      (sys_ext rfl rfl (fun _ => rfl) (fun _ => rfl) rfl rfl rfl)

/-- Nothing has been sent. -/
structure Unsent (s : Sys) : Prop where
  pend : s.pend = none
  bq : ∀ r, s.bq r = []
  pq : ∀ r, s.pq r = []

theorem begin_inv {s : Sys} (hs : ShortOrders s.boss) : WInv (WSys.begin s) := by
  refine ⟨hs, fun r => ?_, fun r => ?_⟩ <;>
  · show FramedFor (if _ then none else none) _
    split <;> exact ⟨[], rfl⟩

theorem begin_abs {s : Sys} (hu : Unsent s) : (WSys.begin s).abs = s :=
  sys_ext rfl (by rw [hu.pend]; rfl) (fun r => by rw [hu.bq]; rfl) (fun r => by rw [hu.pq]; rfl) rfl rfl rfl

theorem seen_snoc (tr : List WEv) (e : WEv) : seen (tr ++ [e]) = seen tr ++ seen [e] :=
  List.filterMap_append ..

/-- Every run on the level of single calls is a run of `Verif.Protocol`. -/
theorem wrun_inv {c : Cfg} {eager : Bool} {s0 : Sys} (hs : ShortOrders s0.boss) (hu : Unsent s0)
    {tr : List WEv} {s : WSys} (h : WRun c eager (WSys.begin s0) tr s) :
    WInv s ∧ Run c true s0 (seen tr) s.abs ∧ ∀ r, WEv.misread r ∉ tr := by
  induction h with
  | nil => exact ⟨begin_inv hs, by rw [begin_abs hu]; exact .nil, by simp⟩
  | snoc h st ih =>
    obtain ⟨h1, h2, h3⟩ := ih
    obtain ⟨h4, h5⟩ := wstep_inv h1 st
    refine ⟨h4, ?_, ?_⟩
    · rw [seen_snoc]
      rename_i e
      cases e with
      | ev e => exact .snoc h2 h5
      | lenDone => have h5 : _ = _ := h5; rw [h5]; simpa [seen] using h2
      | lenGot r n => have h5 : _ = _ := h5; rw [h5]; simpa [seen] using h2
      | misread r => exact h5.elim
    · intro r hr
      rcases List.mem_append.1 hr with hr | hr
      · exact h3 r hr
      · rw [List.mem_singleton] at hr
        rw [← hr] at h5
        exact h5

end Parfu
