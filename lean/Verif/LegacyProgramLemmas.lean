/-
Lemmas about ranks that proceed together (`LegacyProgram`).
-/
import Verif.LegacyProgram
set_option autoImplicit false

namespace Parfu

/-- The write an action makes. -/
def LAct.req : LAct → Option WriteReq
  | .write w => some w
  | _ => none

/-- The collective operations of a list of actions. -/
def collsOf (as : List LAct) : List LAct := as.filter LAct.coll

theorem collsOf_append (a b : List LAct) : collsOf (a ++ b) = collsOf a ++ collsOf b := by simp [collsOf]

/-- What holds in every state of a run. -/
structure RanksInv (P : Nat → RankProg) (n : Nat) (old : Bytes) (s : LSys) : Prop where
  split : ∀ r, ∃ pre, (P r).acts = pre ++ s.todo r ∧ s.cnt r = (collsOf pre).length ∧
    pre.filterMap LAct.req = (s.log.filter (fun e => e.1 == r)).map Prod.snd
  ranks : ∀ e ∈ s.log, e.1 < n
  file : s.file = (s.log.map Prod.snd).foldl writeAt old
  /-- nobody leaves a barrier before all are in -/
  barrier : ∀ r < n, ∀ c < s.cnt r, (collsOf (P r).acts)[c]? = some .sync → ∀ q < n, entered s q c
  /-- nobody gets a broadcast before rank 0 is there -/
  root : ∀ r < n, ∀ c < s.cnt r, (collsOf (P r).acts)[c]? = some .bcast → entered s 0 c

theorem entered_mono_write {s : LSys} {r q c : Nat} {w : WriteReq} {k : List LAct} (h : s.todo r = .write w :: k)
    {l : List (Nat × WriteReq)} {f : Bytes} (he : entered s q c) : entered ⟨Function.update s.todo r k, s.cnt, l, f⟩ q c := by
  unfold entered at *
  by_cases hq : q = r
  · subst hq
    rw [h] at he
    rcases he with he | ⟨_, he⟩
    · exact .inl he
    · simp [LAct.coll] at he
  · simp only [Function.update_of_ne hq]; exact he

theorem entered_mono_leave {s : LSys} {r q c : Nat} {a : LAct} {k : List LAct}
    {l : List (Nat × WriteReq)} {f : Bytes} (he : entered s q c) :
    entered ⟨Function.update s.todo r k, Function.update s.cnt r (s.cnt r + 1), l, f⟩ q c := by
  unfold entered at *
  by_cases hq : q = r
  · subst hq
    simp only [Function.update_self]
    left
    rcases he with he | ⟨he, _⟩ <;> omega
  · simp only [Function.update_of_ne hq]; exact he

theorem RanksInv.start (P : Nat → RankProg) (n : Nat) (old : Bytes) : RanksInv P n old (.start P old) where
  split r := ⟨[], rfl, rfl, rfl⟩
  ranks := by intro e h; cases h
  file := rfl
  barrier := by intro r _ c h; cases h
  root := by intro r _ c h; cases h

theorem RanksInv.step {P : Nat → RankProg} {n : Nat} {eager : Bool} {old : Bytes} {s t : LSys} (hi : RanksInv P n old s)
    (hs : LStep n eager s t) : RanksInv P n old t := by
  cases hs with
  | @write r w k hr h =>
    refine ⟨?_, ?_, ?_, ?_, ?_⟩
    · intro q
      obtain ⟨pre, h1, h2, h3⟩ := hi.split q
      by_cases hq : q = r
      · subst hq
        refine ⟨pre ++ [.write w], ?_, ?_, ?_⟩
        · simp only [Function.update_self]; rw [h1, h]; simp
        · simp only; rw [h2, collsOf_append]; simp [collsOf, LAct.coll]
        · simp only [List.filterMap_append, h3, List.filter_append, List.map_append]
          simp [LAct.req]
      · refine ⟨pre, ?_, h2, ?_⟩
        · simp only [Function.update_of_ne hq]; exact h1
        · simp only [List.filter_append, List.map_append, h3]
          have : (r == q) = false := by simpa using fun h => hq h.symm
          simp [this]
    · intro e he
      rcases List.mem_append.1 he with he | he
      · exact hi.ranks e he
      · simp at he; subst he; exact hr
    · simp only [List.map_append, List.foldl_append, ← hi.file]; rfl
    · intro q hq c hc hb p hp
      exact entered_mono_write h (hi.barrier q hq c hc hb p hp)
    · intro q hq c hc hb
      exact entered_mono_write h (hi.root q hq c hc hb)
  | @leave r a k hr h hc hl =>
    have hcur : (collsOf (P r).acts)[s.cnt r]? = some a := by
      obtain ⟨pre, h1, h2, h3⟩ := hi.split r
      rw [h1, collsOf_append, h, h2, List.getElem?_append_right (Nat.le_refl _)]
      simp [collsOf, hc]
    refine ⟨?_, hi.ranks, hi.file, ?_, ?_⟩
    · intro q
      obtain ⟨pre, h1, h2, h3⟩ := hi.split q
      by_cases hq : q = r
      · subst hq
        refine ⟨pre ++ [a], ?_, ?_, ?_⟩
        · simp only [Function.update_self]; rw [h1, h]; simp
        · simp only [Function.update_self]; rw [h2, collsOf_append]; simp [collsOf, hc]
        · rw [List.filterMap_append, h3]
          cases a <;> simp [LAct.req, LAct.coll] at hc ⊢
      · refine ⟨pre, ?_, ?_, h3⟩
        · simp only [Function.update_of_ne hq]; exact h1
        · simp only [Function.update_of_ne hq]; exact h2
    · intro q hq c hcc hb p hp
      apply entered_mono_leave (a := a)
      by_cases hqr : q = r
      · subst hqr
        simp only [Function.update_self] at hcc
        rcases Nat.lt_or_ge c (s.cnt q) with hlt | hge
        · exact hi.barrier q hq c hlt hb p hp
        · have : c = s.cnt q := by omega
          subst this
          rw [hcur] at hb; cases hb
          exact hl p hp
      · simp only [Function.update_of_ne hqr] at hcc
        exact hi.barrier q hq c hcc hb p hp
    · intro q hq c hcc hb
      apply entered_mono_leave (a := a)
      by_cases hqr : q = r
      · subst hqr
        simp only [Function.update_self] at hcc
        rcases Nat.lt_or_ge c (s.cnt q) with hlt | hge
        · exact hi.root q hq c hlt hb
        · have : c = s.cnt q := by omega
          subst this
          rw [hcur] at hb; cases hb
          unfold mayLeave at hl
          by_cases h0 : q = 0
          · subst h0; exact .inr ⟨rfl, by rw [h]; rfl⟩
          · simp only [if_neg h0] at hl; exact hl
      · simp only [Function.update_of_ne hqr] at hcc
        exact hi.root q hq c hcc hb

theorem LReach.inv {P : Nat → RankProg} {n : Nat} {eager : Bool} {old : Bytes} {s : LSys} (h : LReach P n eager old s) :
    RanksInv P n old s := by
  induction h with
  | start => exact .start P n old
  | step _ hs ih => exact ih.step hs

/-- A finite set of ranks with a member that is smallest in `f`. -/
theorem exists_min_rank (n : Nat) (f : Nat → Nat) (p : Nat → Prop) (h : ∃ r < n, p r) :
    ∃ r < n, p r ∧ ∀ q < n, p q → f r ≤ f q := by
  induction n with
  | zero => obtain ⟨r, h, _⟩ := h; omega
  | succ n ih =>
    by_cases h' : ∃ r < n, p r
    · obtain ⟨r, h1, h2, h3⟩ := ih h'
      by_cases hn : p n ∧ f n < f r
      · refine ⟨n, by omega, hn.1, fun q hq hp => ?_⟩
        rcases Nat.lt_or_ge q n with hlt | hge
        · have := h3 q hlt hp; omega
        · have : q = n := by omega
          subst this; exact Nat.le_refl _
      · refine ⟨r, by omega, h2, fun q hq hp => ?_⟩
        rcases Nat.lt_or_ge q n with hlt | hge
        · exact h3 q hlt hp
        · have : q = n := by omega
          subst this
          rcases Nat.lt_or_ge (f q) (f r) with h | h
          · exact absurd ⟨hp, h⟩ hn
          · exact h
    · obtain ⟨r, hr, hp⟩ := h
      refine ⟨r, hr, hp, fun q hq hq' => ?_⟩
      have : r = n := by
        rcases Nat.lt_or_ge r n with hlt | hge
        · exact absurd ⟨r, hlt, hp⟩ h'
        · omega
      have : q = n := by
        rcases Nat.lt_or_ge q n with hlt | hge
        · exact absurd ⟨q, hlt, hq'⟩ h'
        · omega
      simp_all

/-- If all ranks have equally many collective operations, nobody waits for ever. -/
theorem LReach.progress {P : Nat → RankProg} {n : Nat} {eager : Bool} {old : Bytes} {s : LSys} (h : LReach P n eager old s)
    {K : Nat} (hK : ∀ r < n, (collsOf (P r).acts).length = K) (hne : ∃ r < n, ¬ s.ended r) :
    ∃ t, LStep n eager s t := by
  have hi := h.inv
  by_cases hw : ∃ r < n, ∃ w k, s.todo r = .write w :: k
  · obtain ⟨r, hr, w, k, h⟩ := hw
    exact ⟨_, .write hr h⟩
  · obtain ⟨r, hr, hp, hmin⟩ := exists_min_rank n s.cnt (fun r => ¬ s.ended r) hne
    have head : ∀ q < n, ¬ s.ended q → ∃ a k, s.todo q = a :: k ∧ a.coll = true := by
      intro q hq he
      cases hs : s.todo q with
      | nil => exact absurd hs he
      | cons a k =>
        cases a with
        | write w => exact absurd ⟨q, hq, w, k, hs⟩ hw
        | bcast => exact ⟨_, _, rfl, rfl⟩
        | sync => exact ⟨_, _, rfl, rfl⟩
    obtain ⟨a, k, hd, hc⟩ := head r hr hp
    have hlt : s.cnt r < K := by
      obtain ⟨pre, h1, h2, -⟩ := hi.split r
      rw [← hK r hr, h1, collsOf_append, h2, hd]
      simp [collsOf, hc]
    have hall : ∀ q < n, entered s q (s.cnt r) := by
      intro q hq
      by_cases he : s.ended q
      · left
        obtain ⟨pre, h1, h2, -⟩ := hi.split q
        have hq' := hK q hq
        unfold LSys.ended at he
        rw [h1, he, List.append_nil, ← h2] at hq'
        omega
      · have := hmin q hq he
        rcases Nat.lt_or_ge (s.cnt r) (s.cnt q) with h' | h'
        · exact .inl h'
        · right
          obtain ⟨b, k', hd', hc'⟩ := head q hq he
          exact ⟨by omega, by rw [hd']; simp [hc']⟩
    refine ⟨_, .leave hr hd hc ?_⟩
    cases a with
    | write w => cases hc
    | sync => exact hall
    | bcast =>
      unfold mayLeave
      by_cases h0 : r = 0
      · simp only [if_pos h0]; exact .inr hall
      · simp only [if_neg h0]; exact hall 0 (by omega)

/-- What is left to do. -/
def workLeft (n : Nat) (s : LSys) : Nat := ((List.range n).map fun r => (s.todo r).length).sum

theorem sum_update (n r : Nat) (hr : r < n) (f : Nat → List LAct) (a : LAct) (k : List LAct) (h : f r = a :: k) :
    ((List.range n).map fun q => (f q).length).sum =
      ((List.range n).map fun q => (Function.update f r k q).length).sum + 1 := by
  induction n with
  | zero => omega
  | succ n ih =>
    rw [List.range_succ, List.map_append, List.map_append, List.sum_append, List.sum_append]
    by_cases hn : r = n
    · subst hn
      have : (List.range r).map (fun q => (Function.update f r k q).length) = (List.range r).map fun q => (f q).length := by
        apply List.map_congr_left
        intro q hq
        have : q ≠ r := by simp at hq; omega
        rw [Function.update_of_ne this]
      rw [this]; simp [h]; omega
    · rw [ih (by omega)]
      simp only [List.map_cons, List.map_nil, Function.update_of_ne (Ne.symm hn)]
      omega

/-- Every step leaves less to do. -/
theorem LStep.workLeft_lt {n : Nat} {eager : Bool} {s t : LSys} (h : LStep n eager s t) : workLeft n s = workLeft n t + 1 := by
  cases h with
  | write hr h => exact sum_update _ _ hr _ _ _ h
  | leave hr h hc hl => exact sum_update _ _ hr _ _ _ h

/-- A rank that has more collective operations than another cannot get past the one where the other is
missing. -/
theorem LReach.stuck {P : Nat → RankProg} {n : Nat} {eager : Bool} {old : Bytes} {s : LSys} (h : LReach P n eager old s)
    {a b : Nat} (ha : a < n) (hb : b < n) {c : Nat} (hc : (collsOf (P a).acts).length ≤ c)
    (hcb : (collsOf (P b).acts)[c]? = some .sync ∨ ((collsOf (P b).acts)[c]? = some .bcast ∧ a = 0)) :
    ¬ s.ended b := by
  have hi := h.inv
  have hne : ¬ entered s a c := by
    obtain ⟨pre, h1, h2, -⟩ := hi.split a
    rw [h1, collsOf_append, List.length_append, ← h2] at hc
    rintro (h' | ⟨h', h''⟩)
    · omega
    · cases hd : s.todo a with
      | nil => rw [hd] at h''; simp at h''
      | cons x k =>
        rw [hd] at h'' hc
        simp at h''
        simp [collsOf, h''] at hc
        omega
  intro he
  have hcnt : c < s.cnt b := by
    obtain ⟨pre, h1, h2, -⟩ := hi.split b
    unfold LSys.ended at he
    rw [h1, he, List.append_nil] at hcb
    rw [h2]
    rcases hcb with h' | ⟨h', -⟩
    · exact (List.getElem?_eq_some_iff.1 h').1
    · exact (List.getElem?_eq_some_iff.1 h').1
  rcases hcb with h' | ⟨h', rfl⟩
  · exact hne (hi.barrier b hb c hcnt h' a ha)
  · exact hne (hi.root b hb c hcnt h')

/-- In the end a rank has made all of its writes, in order. -/
theorem LReach.writes_of {P : Nat → RankProg} {n : Nat} {eager : Bool} {old : Bytes} {s : LSys} (h : LReach P n eager old s)
    {r : Nat} (he : s.ended r) : (s.log.filter (fun e => e.1 == r)).map Prod.snd = (P r).acts.filterMap LAct.req := by
  obtain ⟨pre, h1, -, h3⟩ := h.inv.split r
  unfold LSys.ended at he
  rw [← h3, h1, he, List.append_nil]

/-- A log, rank by rank. -/
theorem log_perm {log : List (Nat × WriteReq)} {n : Nat} (h : ∀ e ∈ log, e.1 < n) :
    (log.map Prod.snd).Perm ((List.range n).flatMap fun r => (log.filter (fun e => e.1 == r)).map Prod.snd) := by
  induction n generalizing log with
  | zero =>
    cases log with
    | nil => simp
    | cons e _ => exact absurd (h e (by simp)) (by omega)
  | succ n ih =>
    rw [List.range_succ, List.flatMap_append]
    simp only [List.flatMap_cons, List.flatMap_nil, List.append_nil]
    have hp : log.Perm (log.filter (fun e => decide (e.1 < n)) ++ log.filter (fun e => !decide (e.1 < n))) :=
      (List.filter_append_perm _ _).symm
    have e1 : log.filter (fun e => !decide (e.1 < n)) = log.filter (fun e => e.1 == n) := by
      apply List.filter_congr
      intro e he
      have := h e he
      by_cases h1 : e.1 < n
      · have : ¬ e.1 = n := by omega
        simp [h1, this]
      · have : e.1 = n := by omega
        simp [this]
    have e2 : ∀ r < n, (log.filter (fun e => decide (e.1 < n))).filter (fun e => e.1 == r) = log.filter (fun e => e.1 == r) := by
      intro r hr
      rw [List.filter_filter]
      apply List.filter_congr
      intro e _
      by_cases h1 : e.1 = r
      · simp [h1, hr]
      · simp [h1]
    have hih := ih (log := log.filter (fun e => decide (e.1 < n))) (by intro e he; simpa using (List.mem_filter.1 he).2)
    rw [e1] at hp
    refine (hp.map _).trans ?_
    rw [List.map_append]
    refine List.Perm.append_right _ (hih.trans ?_)
    apply List.Perm.of_eq
    rw [List.flatMap_def, List.flatMap_def]
    congr 1
    apply List.map_congr_left
    intro r hr
    rw [e2 r (by simpa using hr)]

end Parfu
