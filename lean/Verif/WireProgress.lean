/-
Runs on the level of single MPI calls: progress and length.
-/
import Verif.WireLemmas
set_option autoImplicit false

namespace Parfu
open WireSpec ProtocolSpec

variable {c : Cfg} {eager : Bool} {s s' : WSys}

theorem FramedFor.head_some {n : Int} {p : Packet} {q l : List Packet}
    (h : FramedFor (some n) (p :: q ++ l)) : ∃ m : Bytes, p = .body m ∧ n = (m.length : Int) := by
  obtain ⟨m, h1, h2, _⟩ := FramedFor.body (l := q ++ l) h
  exact ⟨m, h1, h2⟩

theorem FramedFor.head_none {p : Packet} {q l : List Packet}
    (h : FramedFor none (p :: q ++ l)) : ∃ n, p = .len n := by
  cases p with
  | len n => exact ⟨n, rfl⟩
  | body m => exact (FramedFor.notBody (l := q ++ l) h).elim

/-- A waiting worker in broadcast mode takes what is there. -/
theorem get_all (h : WInv s) {r : Nat} (hr : c.worker r) (hs : (s.w r).stat = .wait)
    (hm : (s.w r).mode = .bcast) (hq : s.bq r ≠ []) : ∃ e s', WStep c eager s e s' := by
  have hf := h.all r
  rw [hm, if_pos rfl] at hf
  cases hb : s.bq r with
  | nil => exact absurd hb hq
  | cons p rest =>
    rw [hb] at hf
    cases hg : s.got r with
    | none =>
      rw [hg] at hf
      obtain ⟨n, rfl⟩ := hf.head_none
      exact ⟨_, _, .getLen s r n rest hr hs hg ⟨hm, hb⟩⟩
    | some n =>
      rw [hg] at hf
      obtain ⟨m, rfl, rfl⟩ := hf.head_some
      exact ⟨_, _, .getBody s r _ m rest _ hr hs hg ⟨hm, hb⟩ (takeBody_exact _ _)⟩

/-- A waiting worker in individual mode takes what is there. -/
theorem get_one (h : WInv s) {r : Nat} (hr : c.worker r) (hs : (s.w r).stat = .wait)
    (hm : (s.w r).mode = .indiv) (hq : s.pq r ≠ []) : ∃ e s', WStep c eager s e s' := by
  have hf := h.one r
  rw [hm, if_neg (by decide)] at hf
  cases hb : s.pq r with
  | nil => exact absurd hb hq
  | cons p rest =>
    rw [hb] at hf
    cases hg : s.got r with
    | none =>
      rw [hg] at hf
      obtain ⟨n, rfl⟩ := hf.head_none
      exact ⟨_, _, .getLenSent s r n rest hr hs hg ⟨hm, hb⟩⟩
    | some n =>
      rw [hg] at hf
      obtain ⟨m, rfl, rfl⟩ := hf.head_some
      exact ⟨_, _, .getBodySent s r _ m rest _ hr hs hg ⟨hm, hb⟩ (takeBody_exact _ _)⟩

/-- A queue with lengths only, and nothing announced, is empty. -/
theorem FramedFor.empty {g : Option Int} {q : List Packet} (h : FramedFor g q) (hb : bodies q = []) :
    q = [] := by
  cases g with
  | none =>
    obtain ⟨ms, rfl⟩ := h
    cases ms with
    | nil => rfl
    | cons m ms => simp [framed] at hb
  | some n =>
    obtain ⟨m, ms, _, rfl⟩ := h
    simp at hb

/-- Whenever `Verif.Protocol` allows a step, there is one on the level of single calls, even if all
sends wait for their receivers. -/
theorem wire_progress (h : WInv s) (hw : ∀ r, c.worker r → s.abs.bq r ≠ [] →
      (s.w r).stat = .wait ∧ (s.w r).mode = .bcast)
    {e : Ev} {t : Sys} (st : Step c false s.abs e t) : ∃ e' s', WStep c false s e' s' := by
  have none_of : ∀ {p : Option WPend}, p.map absPend = none → p = none := by
    intro p hp; cases p with
    | none => rfl
    | some p => cases hp
  -- a broadcast whose length is out
  have lenAll : ∀ m, s.pend = some (.lenAll m) → ∃ e' s', WStep c false s e' s' := by
    intro m hp
    by_cases hx : ∀ r, c.worker r → s.bq r = []
    · exact ⟨_, _, .bcastLenDone s m hp (Or.inr hx)⟩
    · simp only [not_forall] at hx
      obtain ⟨r, hr, hne⟩ := hx
      obtain ⟨h1, h2⟩ := hw r hr (by rw [abs_bq, hp]; simp [comingAll])
      exact get_all h hr h1 h2 hne
  cases st with
  | bcast m k hp hb => exact ⟨_, _, .bcastLen s m k (none_of hp) hb⟩
  | bcastDone hp hq =>
    have hq := hq.resolve_left (by decide)
    cases hpp : s.pend with
    | none => simp [WSys.abs, hpp] at hp
    | some p =>
      cases p with
      | lenOne r m => simp [WSys.abs, hpp, absPend] at hp
      | bodyOne r => simp [WSys.abs, hpp, absPend] at hp
      | lenAll m => exact lenAll m hpp
      | bodyAll =>
        refine ⟨_, _, .bcastDone s hpp (Or.inr fun r hr => ?_)⟩
        have h1 := hq r hr
        rw [abs_bq, hpp] at h1
        have h2 := h.all r
        rw [hpp] at h2
        simp only [comingAll, List.append_nil, List.map_nil] at h1 h2
        exact h2.empty h1
  | send r m k hp hb hr => exact ⟨_, _, .sendLen s r m k (none_of hp) hb hr⟩
  | sendBad r m k hp hb hr => exact ⟨_, _, .sendBad s r m k (none_of hp) hb hr⟩
  | sendDone r hp hq =>
    have hq := hq.resolve_left (by decide)
    cases hpp : s.pend with
    | none => simp [WSys.abs, hpp] at hp
    | some p =>
      cases p with
      | lenOne r' m =>
        have : r' = r := by simpa [WSys.abs, hpp, absPend] using hp
        subst this
        rw [abs_pq, hpp] at hq
        simp [comingOne] at hq
      | bodyOne r' =>
        have : r' = r := by simpa [WSys.abs, hpp, absPend] using hp
        subst this
        refine ⟨_, _, .sendDone s r' hpp (Or.inr ?_)⟩
        rw [abs_pq, hpp] at hq
        have h2 := h.one r'
        rw [hpp] at h2
        simp only [comingOne, List.append_nil, List.map_nil] at hq h2
        exact h2.empty hq
      | lenAll m => simp [WSys.abs, hpp, absPend] at hp
      | bodyAll => simp [WSys.abs, hpp, absPend] at hp
  | recv k l1 l2 r a hp hb ha => exact ⟨_, _, .recv s k l1 l2 r a (none_of hp) hb ha⟩
  | openFile name k hp hb hw' => exact ⟨_, _, .openFile s name k (none_of hp) hb hw'⟩
  | getBcast r m rest hr hs hm hq =>
    by_cases hb : s.bq r = []
    · rw [abs_bq, hb] at hq
      cases hpp : s.pend with
      | none => rw [hpp] at hq; cases hq
      | some p =>
        rw [hpp] at hq
        cases p with
        | lenAll m => exact lenAll m hpp
        | _ => cases hq
    · exact get_all h hr hs hm hb
  | getSend r m rest hr hs hm hq =>
    by_cases hb : s.pq r = []
    · rw [abs_pq, hb] at hq
      cases hpp : s.pend with
      | none => rw [hpp] at hq; cases hq
      | some p =>
        rw [hpp] at hq
        cases p with
        | lenOne r' m =>
          by_cases hrr : r' = r
          · subst hrr
            exact ⟨_, _, .sendLenDone s r' m hpp (Or.inr hb)⟩
          · simp [comingOne, hrr] at hq
        | _ => cases hq
    · exact get_one h hr hs hm hb
  | work r text name memory old write hr hs hf hm ho hd =>
    exact ⟨_, _, .work s r text name memory old write hr hs hf hm ho hd⟩
  | workFails r text memory e hr hs hm hd => exact ⟨_, _, .workFails s r text memory e hr hs hm hd⟩
  | ackDone r hr hs hq => exact ⟨_, _, .ackDone s r hr hs hq⟩

/-- In every state of a run of the create program, a worker to whom a broadcast is on its way waits
for broadcasts. -/
theorem bcast_waiting {K : Konst} {tr : List Ev} {s : Sys} (h : Inv K tr s) {r : Nat} (hr : K.c.worker r)
    (hb : s.bq r ≠ []) : (s.w r).stat = .wait ∧ (s.w r).mode = .bcast := by
  cases h with
  | pre i hc hq hi views len =>
    have hv := views r hr
    generalize hl : s.loc r = l at hv
    rw [Sys.loc] at hl
    cases hv <;> simp only [Loc.mk.injEq] at hl <;> first
      | (rw [hl.1]; exact ⟨rfl, rfl⟩)
      | exact absurd hl.2.1 hb
  | failed x hc hq hb' views hfile len =>
    have hv := views r hr
    generalize hl : s.loc r = l at hv
    rw [Sys.loc] at hl
    cases hv <;> simp only [Loc.mk.injEq] at hl <;> first
      | (rw [hl.1]; exact ⟨rfl, rfl⟩)
      | exact absurd hl.2.1 hb
  | post g pt hc hp =>
    have hv := hp.views r hr
    generalize hl : s.loc r = l at hv
    rw [Sys.loc] at hl
    generalize decide (r < g.pj) = p at hv
    generalize decide (r < g.xj) = x at hv
    generalize g.nn = N at hv
    generalize g.out r = o at hv
    generalize g.wr r = wr at hv
    cases hv <;> simp only [Loc.mk.injEq] at hl <;> first
      | exact absurd hl.2.1 hb
      | (rw [hl.1]; exact ⟨rfl, rfl⟩)

/-- The number of lengths received whose bytes are not, and the call for a length rank 0 is in. -/
def lenPend : Option WPend → Nat
  | some (.lenOne _ _) => 1
  | some (.lenAll _) => 1
  | _ => 0

def gotCount (c : Cfg) (s : WSys) : Nat :=
  ∑ r ∈ Finset.Ico 1 c.ranks, if (s.got r).isSome then 1 else 0

theorem gotCount_le (c : Cfg) (s : WSys) : gotCount c s ≤ c.ranks - 1 := by
  unfold gotCount
  calc _ ≤ ∑ r ∈ Finset.Ico 1 c.ranks, 1 := Finset.sum_le_sum fun r _ => by split <;> omega
    _ = c.ranks - 1 := by simp

theorem gotCount_update {r : Nat} (hr : c.worker r) (f : Nat → Option Int) (v : Option Int) :
    (∑ q ∈ Finset.Ico 1 c.ranks, if (Function.update f r v q).isSome then 1 else 0) +
      (if (f r).isSome then 1 else 0) =
    (∑ q ∈ Finset.Ico 1 c.ranks, if (f q).isSome then 1 else 0) + (if v.isSome then 1 else 0) := by
  have hm : r ∈ Finset.Ico 1 c.ranks := Finset.mem_Ico.2 hr
  rw [← Finset.add_sum_erase _ _ hm, ← Finset.add_sum_erase (Finset.Ico 1 c.ranks) (fun q => if (f q).isSome then 1 else 0) hm]
  have : ∑ q ∈ (Finset.Ico 1 c.ranks).erase r, (if (Function.update f r v q).isSome then 1 else 0) =
      ∑ q ∈ (Finset.Ico 1 c.ranks).erase r, (if (f q).isSome then 1 else 0) := by
    refine Finset.sum_congr rfl fun q hq => ?_
    rw [Function.update_of_ne (Finset.ne_of_mem_erase hq)]
  rw [this, Function.update_self]
  omega

/-- On this level a run has at most twice as many steps, and one per worker. -/
theorem wire_length {s0 : Sys} (hs : ShortOrders s0.boss) {tr : List WEv}
    (hu : Unsent s0) (h : WRun c eager (WSys.begin s0) tr s) :
    tr.length + lenPend s.pend ≤ 2 * (seen tr).length + gotCount c s := by
  induction h with
  | nil => simp [lenPend, WSys.begin]
  | @snoc tr s s' e h st ih =>
    have h3 := (wrun_inv hs hu (.snoc h st)).2.2
    rw [seen_snoc, List.length_append, List.length_append]
    cases st with
    | bcastLen m k hp hb =>
      rw [hp] at ih
      simp only [lenPend, seen, gotCount] at *
      simp only [List.length_singleton, List.filterMap_cons, List.filterMap_nil]
      omega
    | bcastLenDone m hp hq =>
      rw [hp] at ih
      simp only [lenPend, seen, gotCount] at *
      simp only [List.length_singleton, List.filterMap_cons, List.filterMap_nil, List.length_nil]
      omega
    | bcastDone hp hq =>
      rw [hp] at ih
      simp only [lenPend, seen, gotCount] at *
      simp only [List.length_singleton, List.filterMap_cons, List.filterMap_nil]
      omega
    | sendLen r m k hp hb hr =>
      rw [hp] at ih
      simp only [lenPend, seen, gotCount] at *
      simp only [List.length_singleton, List.filterMap_cons, List.filterMap_nil]
      omega
    | sendLenDone r m hp hq =>
      rw [hp] at ih
      simp only [lenPend, seen, gotCount] at *
      simp only [List.length_singleton, List.filterMap_cons, List.filterMap_nil, List.length_nil]
      omega
    | sendDone r hp hq =>
      rw [hp] at ih
      simp only [lenPend, seen, gotCount] at *
      simp only [List.length_singleton, List.filterMap_cons, List.filterMap_nil]
      omega
    | getLen r n rest hr hs hg hq =>
      have := gotCount_update hr s.got (some n)
      rw [hg] at this
      simp only [seen, gotCount] at *
      simp only [List.length_singleton, List.filterMap_cons, List.filterMap_nil, List.length_nil,
        Option.isSome_none, Option.isSome_some, if_true, Bool.false_eq_true, if_false] at *
      omega
    | getLenSent r n rest hr hs hg hq =>
      have := gotCount_update hr s.got (some n)
      rw [hg] at this
      simp only [seen, gotCount] at *
      simp only [List.length_singleton, List.filterMap_cons, List.filterMap_nil, List.length_nil,
        Option.isSome_none, Option.isSome_some, if_true, Bool.false_eq_true, if_false] at *
      omega
    | getBody r n m rest w' hr hs hg hq ht =>
      have := gotCount_update hr s.got none
      rw [hg] at this
      simp only [seen, gotCount] at *
      simp only [List.length_singleton, List.filterMap_cons, List.filterMap_nil, List.length_nil,
        Option.isSome_none, Option.isSome_some, if_true, Bool.false_eq_true, if_false] at *
      omega
    | getBodySent r n m rest w' hr hs hg hq ht =>
      have := gotCount_update hr s.got none
      rw [hg] at this
      simp only [seen, gotCount] at *
      simp only [List.length_singleton, List.filterMap_cons, List.filterMap_nil, List.length_nil,
        Option.isSome_none, Option.isSome_some, if_true, Bool.false_eq_true, if_false] at *
      omega
    | noLen r m rest hr hs hg hq => exact absurd (by simp) (h3 r)
    | noBody r n p rest hr hs hg hq ht => exact absurd (by simp) (h3 r)
    | _ =>
      simp only [seen, gotCount] at *
      simp only [List.length_singleton, List.filterMap_cons, List.filterMap_nil, List.length_nil] at *
      omega

end Parfu
