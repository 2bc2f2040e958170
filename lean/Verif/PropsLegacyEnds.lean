/-
C56: exactly when all ranks of a create run of parfu 0.5.1 come to their end, and the statuses they end with.
-/
import Verif.PropsLegacyHang
set_option autoImplicit false

namespace Parfu.Props
open Parfu ScanSpec LegacyScanSpec MoveSpec TarSpec LegacyRunSpec RanksSpec

/-- Some schedule comes to a state where nobody can do anything. -/
theorem reach_terminal {P : Nat → RankProg} {n : Nat} {eager : Bool} {old : Bytes} :
    ∃ s, LReach P n eager old s ∧ ¬ ∃ t, LStep n eager s t := by
  have key : ∀ k s, LReach P n eager old s → workLeft n s ≤ k → ∃ s, LReach P n eager old s ∧ ¬ ∃ t, LStep n eager s t := by
    intro k
    induction k with
    | zero =>
      intro s hs hk
      refine ⟨s, hs, ?_⟩
      rintro ⟨t, ht⟩
      have := ht.workLeft_lt
      omega
    | succ k ih =>
      intro s hs hk
      by_cases h : ∃ t, LStep n eager s t
      · obtain ⟨t, ht⟩ := h
        have := ht.workLeft_lt
        exact ih t (.step hs ht) (by omega)
      · exact ⟨s, hs, h⟩
  exact key _ _ .start (Nat.le_refl _)

/-- A rank that never ends: not all end. -/
theorem not_allEnd {P : Nat → RankProg} {n r : Nat} (hr : r < n) (h : NeverEnds P n r) : ¬ AllEnd P n := by
  intro ha
  obtain ⟨s, h1, h2⟩ := reach_terminal (P := P) (n := n) (eager := true) (old := [])
  exact h _ _ s h1 (ha.complete _ _ s h1 h2 r hr)

/-- C56: on one rank the program always comes to its end. -/
theorem C56_one_rank (L : LegEnv) (Q : QSort Frag) (nul : Bytes) (tree : Bytes → Option FNode × FNode) (args : List Bytes)
    (openOk : Bool) : AllEnd (rankMain L Q nul tree args 1 openOk) 1 :=
  allEnd_of (K := (collsOf (rankMain L Q nul tree args 1 openOk 0).acts).length) (by intro r hr; rw [show r = 0 by omega])

/-- Rank 0 stops while the others wait for what it has to tell them: it cannot make the list, the
catalog, (once the archive is open) the headers in front of the data, or the layout. -/
inductive Rank0Stops (L : LegEnv) (Q : QSort Frag) (nul arc top : Bytes) (seen : Option FNode) (opened : FNode) :
    Bool → LStop → Prop
  | scan {o : Bool} {st : LStop} : rank0List Q top seen opened = .error st → Rank0Stops L Q nul arc top seen opened o st
  | catalog {o : Bool} {st : LStop} {es : List Frag} : rank0List Q top seen opened = .ok es →
      rank0Catalog nul legBucket arc es = .error st → Rank0Stops L Q nul arc top seen opened o st
  | front {e : Err} {es : List Frag} {cat : Bytes} : rank0List Q top seen opened = .ok es →
      rank0Catalog nul legBucket arc es = .ok cat → frontWrites L 512 4194304 cat = .error e →
      Rank0Stops L Q nul arc top seen opened true (.crashed e)
  | layout {st : LStop} {es : List Frag} {cat : Bytes} {front : List WriteReq} : rank0List Q top seen opened = .ok es →
      rank0Catalog nul legBucket arc es = .ok cat → frontWrites L 512 4194304 cat = .ok front →
      rank0Plan nul legBlock legBucket blockingName es = .error st → Rank0Stops L Q nul arc top seen opened true st

section
variable (L : LegEnv) (Q : QSort Frag) (nul arc top : Bytes) (tree : Bytes → Option FNode × FNode) (args : List Bytes)

/-- Rank 0 stops: the others never end. -/
theorem rank0_stops (hc : CreateCall args arc top) (n : Nat) (openOk : Bool) (st : LStop)
    (h : Rank0Stops L Q nul arc top (tree top).1 (tree top).2 openOk st) (r : Nat) (h0 : 0 < r) (hr : r < n) :
    NeverEnds (rankMain L Q nul tree args n openOk) n r ∧ (rankMain L Q nul tree args n openOk 0).stop = st := by
  cases h with
  | scan h1 =>
    refine waits_hang (h := fun _ => []) (k := 0) (fun _ => rfl) ?_ r h0 hr
    intro q
    rw [rankMain_create hc]
    unfold rankCreate
    rw [h1]; rfl
  | catalog h1 h2 =>
    refine waits_hang (h := fun _ => [.bcast, .bcast, .sync]) (k := 3) (fun _ => rfl) ?_ r h0 hr
    intro q
    rw [rankMain_create hc]
    unfold rankCreate
    rw [h1]
    simp only []
    unfold rankTransfer
    rw [h2]
  | @front e es cat h1 h2 h3 =>
    refine waits_hang (h := fun _ => [.bcast, .bcast, .sync] ++ [.bcast, .bcast, .sync]) (k := 6) (fun _ => rfl) ?_ r h0 hr
    intro q
    rw [rankMain_create hc]
    unfold rankCreate
    rw [h1]
    simp only []
    unfold rankTransfer
    rw [h2]
    simp only [show legBlock.toNat = 512 from rfl, show legBucket.toNat = 4194304 from rfl, h3, Bool.true_eq_false, if_false]
    simp only [after_after]
  | layout h1 h2 h3 h4 => exact C56_rank0_fails L Q nul arc top tree args hc n st (.layout h1 h2 h3 h4) r h0 hr

/-- The four ways a create run can go. -/
theorem create_ways (hc : CreateCall args arc top) (n : Nat) (openOk : Bool) :
    (∃ st, Rank0Stops L Q nul arc top (tree top).1 (tree top).2 openOk st) ∨
    (openOk = false ∧ ∀ r, rankMain L Q nul tree args n openOk r =
      ⟨[.bcast, .bcast, .sync, .bcast, .bcast, .sync], .exited 243⟩) ∨
    (openOk = true ∧ ∃ front cat text call fr, Goes L Q nul arc top (tree top).1 (tree top).2 front cat text call fr) ∨
    (openOk = true ∧ (¬ ∃ front cat text call fr, Goes L Q nul arc top (tree top).1 (tree top).2 front cat text call fr) ∧
      ∃ K st, (∀ r, (collsOf (rankMain L Q nul tree args n openOk r).acts).length = K ∧
        (rankMain L Q nul tree args n openOk r).stop = st) ∧ (st = .exited 243 ∨ ∃ e, st = .crashed e)) := by
  cases h1 : rank0List Q top (tree top).1 (tree top).2 with
  | error st => exact .inl ⟨st, .scan h1⟩
  | ok es =>
    cases h2 : rank0Catalog nul legBucket arc es with
    | error st => exact .inl ⟨st, .catalog h1 h2⟩
    | ok cat =>
      cases openOk with
      | false =>
        refine .inr (.inl ⟨rfl, ?_⟩)
        intro r
        rw [rankMain_create hc]
        unfold rankCreate
        rw [h1]
        simp only []
        unfold rankTransfer
        rw [h2]
        rfl
      | true =>
        cases h3 : frontWrites L 512 4194304 cat with
        | error e => exact .inl ⟨_, .front h1 h2 h3⟩
        | ok front =>
          cases h4 : rank0Plan nul legBlock legBucket blockingName es with
          | error st => exact .inl ⟨st, .layout h1 h2 h3 h4⟩
          | ok p =>
            obtain ⟨text, call⟩ := p
            refine .inr (.inr ?_)
            have hP : ∀ r, rankMain L Q nul tree args n true r =
                .after ([.bcast, .bcast, .sync] ++ ([.bcast, .bcast, .sync] ++ ((if r = 0 then front.map .write else []) ++ [.bcast])))
                  (rankEnd L legBlock legBucket (dataOffset 4194304 (512 + cat.length)) text call n r) := by
              intro r
              rw [rankMain_create hc]
              unfold rankCreate
              rw [h1]
              simp only []
              unfold rankTransfer
              rw [h2]
              simp only [show legBlock.toNat = 512 from rfl, show legBucket.toNat = 4194304 from rfl, h3, Bool.true_eq_false, if_false]
              rw [h4]
              simp only [after_after]
            have hpre : ∀ r, (collsOf ([LAct.bcast, .bcast, .sync] ++ ([.bcast, .bcast, .sync] ++
                ((if r = 0 then front.map .write else []) ++ [.bcast])))).length = 7 := by
              intro r
              simp only [collsOf_append, List.length_append]
              have : collsOf (if r = 0 then front.map LAct.write else []) = [] := by
                split
                · exact collsOf_writes _
                · rfl
              rw [this]; rfl
            have huniq : ∀ {front' cat' text' call' fr'}, Goes L Q nul arc top (tree top).1 (tree top).2 front' cat' text' call' fr' →
                text' = text ∧ call' = call := by
              intro front' cat' text' call' fr' g
              obtain ⟨es', k1, k2, k3⟩ := g.plan
              rw [h1] at k1; cases k1
              rw [h4] at k3; cases k3
              exact ⟨rfl, rfl⟩
            cases h5 : readFullCatalog text with
            | error e =>
              refine .inr ⟨rfl, ?_, 9, .crashed e, ?_, .inr ⟨e, rfl⟩⟩
              · rintro ⟨_, _, _, _, _, g⟩
                obtain ⟨rfl, _⟩ := huniq g
                obtain ⟨a, k⟩ := g.read
                rw [h5] at k; cases k
              · intro r
                rw [hP]
                simp only [rankEnd, h5, RankProg.after, collsOf_append, List.length_append] at hpre ⊢
                rw [hpre]
                exact ⟨rfl, trivial⟩
            | ok o =>
              cases o with
              | none =>
                refine .inr ⟨rfl, ?_, 9, .exited 243, ?_, .inl rfl⟩
                · rintro ⟨_, _, _, _, _, g⟩
                  obtain ⟨rfl, _⟩ := huniq g
                  obtain ⟨a, k⟩ := g.read
                  rw [h5] at k; cases k
                · intro r
                  rw [hP]
                  simp only [rankEnd, h5, RankProg.after, collsOf_append, List.length_append] at hpre ⊢
                  rw [hpre]
                  exact ⟨rfl, trivial⟩
              | some x =>
                obtain ⟨a, fr⟩ := x
                cases h6 : checkCalls fr call with
                | true => exact .inl ⟨rfl, front, cat, text, call, fr, ⟨⟨es, h1, h2, h4⟩, h3, ⟨a, h5⟩, h6⟩⟩
                | false =>
                  refine .inr ⟨rfl, ?_, 11, .exited 243, ?_, .inl rfl⟩
                  · rintro ⟨_, _, _, _, _, g⟩
                    obtain ⟨rfl, rfl⟩ := huniq g
                    obtain ⟨a, k⟩ := g.read
                    rw [h5] at k; cases k
                    have := g.check
                    rw [h6] at this; cases this
                  · intro r
                    rw [hP]
                    simp only [rankEnd, h5, h6, RankProg.after, collsOf_append, List.length_append, if_true] at hpre ⊢
                    rw [hpre]
                    exact ⟨rfl, trivial⟩

/-- Two ways for the data to come out of the same run: they are the same. -/
theorem goes_unique {front front' : List WriteReq} {cat cat' text text' : Bytes} {call call' : List Nat} {fr fr' : List Frag}
    {seen : Option FNode} {opened : FNode}
    (g : Goes L Q nul arc top seen opened front cat text call fr) (g' : Goes L Q nul arc top seen opened front' cat' text' call' fr') :
    cat = cat' ∧ call = call' ∧ fr = fr' := by
  obtain ⟨es, k1, k2, k3⟩ := g.plan
  obtain ⟨es', k1', k2', k3'⟩ := g'.plan
  rw [k1] at k1'; cases k1'
  rw [k2] at k2'; cases k2'
  rw [k3] at k3'; cases k3'
  obtain ⟨a, k⟩ := g.read
  obtain ⟨a', k'⟩ := g'.read
  rw [k] at k'; cases k'
  exact ⟨rfl, rfl, rfl⟩

/-- C56, exactly: on two or more ranks, all ranks of a create run come to their end if and only if
rank 0 does not stop before the layout is sent, and, where the run comes to the data, either no rank
fails at its buckets or every rank does. -/
theorem C56_ends_iff (hc : CreateCall args arc top) (n : Nat) (hn : 2 ≤ n) (openOk : Bool) :
    AllEnd (rankMain L Q nul tree args n openOk) n ↔
      (¬ ∃ st, Rank0Stops L Q nul arc top (tree top).1 (tree top).2 openOk st) ∧
      (openOk = true → ∀ front cat text call fr, Goes L Q nul arc top (tree top).1 (tree top).2 front cat text call fr →
        (∀ r < n, (dataRun L cat call fr n r).2 = none) ∨ (∀ r < n, (dataRun L cat call fr n r).2 ≠ none)) := by
  constructor
  · intro h
    constructor
    · rintro ⟨st, hst⟩
      exact not_allEnd (r := 1) (by omega) (rank0_stops L Q nul arc top tree args hc n openOk st hst 1 (by omega) (by omega)).1 h
    · rintro rfl front cat text call fr g
      apply Classical.byContradiction
      intro hne
      obtain ⟨b, hb, hbn⟩ : ∃ b < n, (dataRun L cat call fr n b).2 = none := by
        apply Classical.byContradiction
        intro hx
        exact hne (.inr fun r hr he => hx ⟨r, hr, he⟩)
      obtain ⟨a, ha, st, han⟩ : ∃ a < n, ∃ st, (dataRun L cat call fr n a).2 = some st := by
        apply Classical.byContradiction
        intro hx
        refine hne (.inl fun r hr => ?_)
        cases hd : (dataRun L cat call fr n r).2 with
        | none => rfl
        | some st => exact absurd ⟨r, hr, st, hd⟩ hx
      exact not_allEnd hb (C56_bucket_fails L Q nul arc top tree args hc front cat text call fr g n a b ha hb st han hbn).1 h
  · rintro ⟨h1, h2⟩
    rcases create_ways L Q nul arc top tree args hc n openOk with h | ⟨_, h⟩ | ⟨rfl, front, cat, text, call, fr, g⟩ | ⟨_, _, K, st, h, _⟩
    · exact absurd h h1
    · exact allEnd_of (K := 6) (fun r _ => by rw [h]; rfl)
    · rcases h2 rfl _ _ _ _ _ g with h | h
      · refine allEnd_of (K := 14) ?_
        intro r hr
        obtain ⟨k, k1, k2⟩ := goes_colls g hc n r
        rw [k2, if_pos (h r hr), List.length_append, k1]; rfl
      · refine allEnd_of (K := 12) ?_
        intro r hr
        obtain ⟨k, k1, k2⟩ := goes_colls g hc n r
        rw [k2, if_neg (h r hr), List.length_append, k1]; rfl
    · exact allEnd_of (K := K) (fun r _ => (h r).1)

/-- C56: it does not depend on the schedule: where not all ranks end, some rank never ends in any schedule. -/
theorem C56_hangs_always (hc : CreateCall args arc top) (n : Nat) (openOk : Bool)
    (h : ¬ AllEnd (rankMain L Q nul tree args n openOk) n) : ∃ r < n, NeverEnds (rankMain L Q nul tree args n openOk) n r := by
  rcases Nat.lt_or_ge n 2 with hn | hn
  · exfalso
    apply h
    have : n = 0 ∨ n = 1 := by omega
    rcases this with rfl | rfl
    · exact allEnd_of (K := 0) (fun r hr => by omega)
    · exact C56_one_rank L Q nul tree args openOk
  · rw [C56_ends_iff L Q nul arc top tree args hc n hn openOk] at h
    by_cases h1 : ∃ st, Rank0Stops L Q nul arc top (tree top).1 (tree top).2 openOk st
    · obtain ⟨st, hst⟩ := h1
      exact ⟨1, by omega, (rank0_stops L Q nul arc top tree args hc n openOk st hst 1 (by omega) (by omega)).1⟩
    · apply Classical.byContradiction
      intro hx
      refine h ⟨h1, ?_⟩
      rintro rfl front cat text call fr g
      apply Classical.byContradiction
      intro hne
      obtain ⟨b, hb, hbn⟩ : ∃ b < n, (dataRun L cat call fr n b).2 = none := by
        apply Classical.byContradiction
        intro hx
        exact hne (.inr fun r hr he => hx ⟨r, hr, he⟩)
      obtain ⟨a, ha, st, han⟩ : ∃ a < n, ∃ st, (dataRun L cat call fr n a).2 = some st := by
        apply Classical.byContradiction
        intro hx
        refine hne (.inl fun r hr => ?_)
        cases hd : (dataRun L cat call fr n r).2 with
        | none => rfl
        | some st => exact absurd ⟨r, hr, st, hd⟩ hx
      exact hx ⟨b, hb, (C56_bucket_fails L Q nul arc top tree args hc front cat text call fr g n a b ha hb st han hbn).1⟩

/-- What a shell sees of the value `main` returns. -/
def shellStatus (code : Int) : Nat := (code % 256).toNat

/-- No bucket ends a rank with any status but 243. -/
theorem dataRun_stop {cat : Bytes} {call : List Nat} {fr : List Frag} {n r : Nat} {st : LStop}
    (h : (dataRun L cat call fr n r).2 = some st) : st = .exited 243 ∨ ∃ e, st = .crashed e := by
  unfold dataRun at h
  generalize rankBuckets n call.length r = is at h
  generalize zeros 4194304 = buf at h
  induction is generalizing buf with
  | nil => simp [bucketsRun] at h
  | cons i is ih =>
    unfold bucketsRun at h
    split at h
    · simp at h; exact .inr ⟨_, h.symm⟩
    · simp at h; exact .inl h.symm
    · exact ih _ h

/-- Where rank 0 stops, its status. -/
theorem rank0Stops_code {seen : Option FNode} {opened : FNode} {openOk : Bool} {st : LStop}
    (h : Rank0Stops L Q nul arc top seen opened openOk st) :
    (st = .exited 333 ∧ legacyScan top seen opened = .ok none) ∨ st = .exited 243 ∨ ∃ e, st = .crashed e := by
  cases h with
  | scan h1 =>
    unfold rank0List at h1
    split at h1
    · cases h1; exact .inr (.inr ⟨_, rfl⟩)
    · rename_i hs; cases h1; exact .inl ⟨rfl, hs⟩
    · split at h1
      · cases h1; exact .inr (.inr ⟨_, rfl⟩)
      · cases h1
  | catalog _ h1 =>
    unfold rank0Catalog at h1
    split at h1
    · cases h1; exact .inr (.inr ⟨_, rfl⟩)
    · cases h1; exact .inr (.inl rfl)
    · split at h1
      · cases h1; exact .inr (.inl rfl)
      · cases h1
  | front => exact .inr (.inr ⟨_, rfl⟩)
  | layout _ _ _ h1 =>
    unfold rank0Plan at h1
    split at h1
    · cases h1; exact .inr (.inr ⟨_, rfl⟩)
    · cases h1; exact .inr (.inl rfl)
    · cases h1

/-- C56: the statuses of a create run: 0, 243, or (rank 0 alone, exactly when the directory tree could not be
read) 333. -/
theorem C56_statuses (hc : CreateCall args arc top) (n : Nat) (hn : 0 < n) (openOk : Bool) (r : Nat) (hr : r < n) (code : Int)
    (h : (rankMain L Q nul tree args n openOk r).stop = .exited code) :
    code = 0 ∨ code = 243 ∨ (code = 333 ∧ r = 0 ∧ legacyScan top (tree top).1 (tree top).2 = .ok none) := by
  rcases create_ways L Q nul arc top tree args hc n openOk with ⟨st, hst⟩ | ⟨_, h1⟩ | ⟨rfl, front, cat, text, call, fr, g⟩ | ⟨_, _, K, st, h1, h2⟩
  · by_cases h0 : r = 0
    · subst h0
      have hstop : (rankMain L Q nul tree args n openOk 0).stop = st := by
        have e0 : (rankMain L Q nul tree args n openOk 0).stop = (rankMain L Q nul tree args 2 openOk 0).stop := by
          rw [rankMain_create hc, rankMain_create hc]
          cases hst with
          | scan h1 => unfold rankCreate; rw [h1]
          | catalog h1 h2 => unfold rankCreate; rw [h1]; simp only [RankProg.after]; unfold rankTransfer; rw [h2]
          | front h1 h2 h3 =>
            unfold rankCreate; rw [h1]; simp only [RankProg.after]; unfold rankTransfer; rw [h2]
            simp only [show legBlock.toNat = 512 from rfl, show legBucket.toNat = 4194304 from rfl, h3]
          | layout h1 h2 h3 h4 =>
            unfold rankCreate; rw [h1]; simp only [RankProg.after]; unfold rankTransfer; rw [h2]
            simp only [show legBlock.toNat = 512 from rfl, show legBucket.toNat = 4194304 from rfl, h3]
            rw [h4]
        rw [e0]
        exact (rank0_stops L Q nul arc top tree args hc 2 openOk st hst 1 (by omega) (by omega)).2
      rw [hstop] at h
      subst h
      rcases rank0Stops_code L Q nul arc top hst with ⟨k, ks⟩ | k | ⟨e, k⟩
      · cases k; exact .inr (.inr ⟨rfl, rfl, ks⟩)
      · cases k; exact .inr (.inl rfl)
      · cases k
    · exfalso
      rw [rankMain_create hc] at h
      cases hst with
      | scan h1 => unfold rankCreate at h; rw [h1] at h; simp [waits, h0] at h
      | catalog h1 h2 =>
        unfold rankCreate at h; rw [h1] at h; simp only [RankProg.after] at h; unfold rankTransfer at h; rw [h2] at h
        simp [waits, h0] at h
      | front h1 h2 h3 =>
        unfold rankCreate at h; rw [h1] at h; simp only [RankProg.after] at h; unfold rankTransfer at h; rw [h2] at h
        simp [show legBlock.toNat = 512 from rfl, show legBucket.toNat = 4194304 from rfl, h3, waits, h0, RankProg.after] at h
      | layout h1 h2 h3 h4 =>
        unfold rankCreate at h; rw [h1] at h; simp only [RankProg.after] at h; unfold rankTransfer at h; rw [h2] at h
        simp [show legBlock.toNat = 512 from rfl, show legBucket.toNat = 4194304 from rfl, h3, h4, waits, h0, RankProg.after] at h
  · rw [h1] at h; cases h; exact .inr (.inl rfl)
  · rw [(goes_acts g hc n r).2] at h
    cases hd : (dataRun L cat call fr n r).2 with
    | none => rw [hd] at h; cases h; exact .inl rfl
    | some st =>
      rw [hd] at h
      simp only [Option.getD_some] at h
      subst h
      rcases dataRun_stop L hd with k | ⟨e, k⟩
      · cases k; exact .inr (.inl rfl)
      · cases k
  · rw [(h1 r).2] at h
    subst h
    rcases h2 with k | ⟨e, k⟩
    · cases k; exact .inr (.inl rfl)
    · cases k

/-- C56: the shell sees 0 exactly if `main` returns 0. -/
theorem C56_shell_status (hc : CreateCall args arc top) (n : Nat) (hn : 0 < n) (openOk : Bool) (r : Nat) (hr : r < n) (code : Int)
    (h : (rankMain L Q nul tree args n openOk r).stop = .exited code) : shellStatus code = 0 ↔ code = 0 := by
  rcases C56_statuses L Q nul arc top tree args hc n hn openOk r hr code h with rfl | rfl | ⟨rfl, _⟩ <;> decide

end

/-- The hypotheses and both sides of `C56_ends_iff`: nothing at the path: rank 0 stops. -/
example (L : LegEnv) (Q : QSort Frag) (openOk : Bool) :
    ¬ AllEnd (rankMain L Q glibcNull (fun _ => (none, .reg ⟨0, 0, 0, 0⟩ [])) [[112], [67], [97], [100], [120]] 4 openOk) 4 := by
  rw [C56_ends_iff L Q glibcNull [97] [100] _ _ ⟨[112], [], rfl⟩ 4 (by omega) openOk]
  rintro ⟨h, -⟩
  refine h ⟨.exited 333, .scan ?_⟩
  unfold rank0List
  rw [C32_refuses [100] none (.reg ⟨0, 0, 0, 0⟩ []) (.inl rfl)]

/-- All files gone, one bucket, two ranks: rank 1 has nothing to do and waits for rank 0, which has died. -/
example : ¬ AllEnd (rankMain gone insQSort glibcNull (fun _ => (some legDemo, legDemo)) [[112], [67], [97], [100]] 2 true) 2 :=
  not_allEnd (r := 1) (by omega) gone_hangs.1

end Parfu.Props
