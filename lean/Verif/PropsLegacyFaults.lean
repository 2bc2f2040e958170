/-
C74: a create run of parfu 0.5.1 in which a write (or read) fails never reports success.
-/
import Verif.PropsLegacyEnds
import Verif.PropsLegacyDemo
import Verif.LegacyFaults
set_option autoImplicit false

namespace Parfu.Props
open Parfu ScanSpec LegacyScanSpec MoveSpec TarSpec LegacyRunSpec RanksSpec

theorem upToWrite_split {k : Nat} {acts as : List LAct} {w : WriteReq} (h : upToWrite k acts = some (as, w)) :
    ∃ rest, acts = as ++ .write w :: rest ∧ (as.filterMap LAct.req).length = k := by
  induction acts generalizing k as with
  | nil => simp [upToWrite] at h
  | cons a acts ih =>
    cases a with
    | write v =>
      cases k with
      | zero =>
        simp only [upToWrite, Option.some.injEq, Prod.mk.injEq] at h
        obtain ⟨rfl, rfl⟩ := h
        exact ⟨acts, rfl, rfl⟩
      | succ k =>
        simp only [upToWrite, Option.map_eq_some_iff, Prod.exists, Prod.mk.injEq] at h
        obtain ⟨as', w1, w2, h1, rfl, rfl⟩ := h
        obtain ⟨rest, rfl, h3⟩ := ih h1
        exact ⟨rest, rfl, by simp [LAct.req, h3]⟩
    | bcast =>
      have h' : (upToWrite k acts).map (fun (as, v) => (LAct.bcast :: as, v)) = some (as, w) := by
        cases k <;> simpa only [upToWrite] using h
      simp only [Option.map_eq_some_iff, Prod.exists, Prod.mk.injEq] at h'
      obtain ⟨as', w1, w2, h1, rfl, rfl⟩ := h'
      obtain ⟨rest, rfl, h3⟩ := ih h1
      exact ⟨rest, rfl, h3⟩
    | sync =>
      have h' : (upToWrite k acts).map (fun (as, v) => (LAct.sync :: as, v)) = some (as, w) := by
        cases k <;> simpa only [upToWrite] using h
      simp only [Option.map_eq_some_iff, Prod.exists, Prod.mk.injEq] at h'
      obtain ⟨as', w1, w2, h1, rfl, rfl⟩ := h'
      obtain ⟨rest, rfl, h3⟩ := ih h1
      exact ⟨rest, rfl, h3⟩

theorem upToWrite_some {k : Nat} {acts : List LAct} (h : k < (acts.filterMap LAct.req).length) :
    ∃ as w, upToWrite k acts = some (as, w) := by
  induction acts generalizing k with
  | nil => simp at h
  | cons a acts ih =>
    cases a with
    | write v =>
      cases k with
      | zero => exact ⟨[], v, rfl⟩
      | succ k =>
        obtain ⟨as, w, h1⟩ := ih (k := k) (by simpa [LAct.req] using h)
        exact ⟨.write v :: as, w, by simp [upToWrite, h1]⟩
    | bcast =>
      obtain ⟨as, w, h1⟩ := ih (k := k) h
      exact ⟨.bcast :: as, w, by cases k <;> simp [upToWrite, h1]⟩
    | sync =>
      obtain ⟨as, w, h1⟩ := ih (k := k) h
      exact ⟨.sync :: as, w, by cases k <;> simp [upToWrite, h1]⟩

/-- A rank that has a failure, and comes to it. -/
theorem withFault_hit {p : RankProg} {f : LFault} (h : f.num < (p.acts.filterMap LAct.req).length) :
    ∃ as w rest, p.acts = as ++ .write w :: rest ∧ (as.filterMap LAct.req).length = f.num ∧
      p.withFault (some f) = ⟨as ++ [.write (w.1, w.2.take f.stored)], .exited 243⟩ := by
  obtain ⟨as, w, h1⟩ := upToWrite_some h
  obtain ⟨rest, h2, h3⟩ := upToWrite_split h1
  exact ⟨as, w, rest, h2, h3, by simp [RankProg.withFault, h1]⟩

theorem withFault_zero {p : RankProg} {f : Option LFault} (h : (p.withFault f).stop = .exited 0) : p.withFault f = p := by
  cases f with
  | none => rfl
  | some f =>
    simp only [RankProg.withFault] at h ⊢
    split at h
    · rfl
    · cases h

/-- The state with the programs of ranks that are not there replaced. -/
def _root_.Parfu.LSys.others (s : LSys) (n : Nat) (P : Nat → RankProg) : LSys :=
  ⟨fun r => if r < n then s.todo r else (P r).acts, s.cnt, s.log, s.file⟩

theorem entered_others {s : LSys} {n : Nat} {P : Nat → RankProg} {q c : Nat} (hq : q < n) :
    entered (s.others n P) q c ↔ entered s q c := by
  simp [entered, LSys.others, hq]

/-- Only the programs of the ranks that are there matter. -/
theorem _root_.Parfu.LReach.others {P P' : Nat → RankProg} {n : Nat} {eager : Bool} {old : Bytes} {s : LSys} (h : LReach P n eager old s)
    (hP : ∀ r < n, P r = P' r) : LReach P' n eager old (s.others n P') := by
  have hup : ∀ (s : LSys) (r : Nat) (k : List LAct), r < n →
      (fun q => if q < n then Function.update s.todo r k q else (P' q).acts) = Function.update (s.others n P').todo r k := by
    intro s r k hr
    funext q
    by_cases hqr : q = r
    · subst hqr; simp [hr]
    · simp [Function.update_of_ne hqr, LSys.others]
  induction h with
  | start =>
    have : (LSys.start P old).others n P' = LSys.start P' old := by
      unfold LSys.others LSys.start
      congr 1
      funext r
      by_cases hr : r < n
      · simp [hr, hP r hr]
      · simp [hr]
    rw [this]
    exact .start
  | @step s t _ hs ih =>
    refine ih.step ?_
    cases hs with
    | @write r w k hr h =>
      have := LStep.write (n := n) (eager := eager) (s := s.others n P') (r := r) (w := w) (k := k) hr (by simp [LSys.others, hr, h])
      rw [← hup s r k hr] at this
      exact this
    | @leave r a k hr h hc hl =>
      have hl' : mayLeave n eager (s.others n P') r a := by
        have h0 : 0 < n := by omega
        cases a with
        | bcast =>
          simp only [mayLeave] at hl ⊢
          split
          · rename_i e
            rw [if_pos e] at hl
            rcases hl with hl | hl
            · exact .inl hl
            · exact .inr fun q hq => (entered_others hq).2 (hl q hq)
          · rename_i e
            rw [if_neg e] at hl
            exact (entered_others h0).2 hl
        | sync => exact fun q hq => (entered_others hq).2 (hl q hq)
        | write w => exact fun q hq => (entered_others hq).2 (hl q hq)
      have := LStep.leave (n := n) (eager := eager) (s := s.others n P') (r := r) (a := a) (k := k) hr (by simp [LSys.others, hr, h]) hc hl'
      rw [← hup s r k hr] at this
      exact this

section
variable (L : LegEnv) (Q : QSort Frag) (nul : Bytes) (tree : Bytes → Option FNode × FNode) (args : List Bytes)

/-- A call with two arguments after the mode C, or more, is a create call. -/
theorem createCall_of (h1 : ¬ (args.length < 3 ∨ (args.length = 3 ∧ ((args[1]?.getD []).head?).getD 0 ≠ 84)))
    (h2 : ((args[1]?.getD []).head?).getD 0 = 67) : ∃ arc top, CreateCall args arc top := by
  match args with
  | [] => simp at h2
  | [_] => simp at h2
  | [_, m] => simp at h1
  | [_, m, _] =>
    exfalso
    apply h1
    right
    refine ⟨rfl, ?_⟩
    rw [h2]; decide
  | p :: m :: a :: t :: _ =>
    simp only [List.getElem?_cons_succ, List.getElem?_cons_zero, Option.getD_some] at h2
    cases m with
    | nil => simp at h2
    | cons c m =>
      simp only [List.head?_cons, Option.getD_some] at h2
      subst h2
      exact ⟨a, t, p, m, rfl⟩

/-- Only create calls write. -/
theorem writes_create {n : Nat} {openOk : Bool} {r : Nat}
    (h : (rankMain L Q nul tree args n openOk r).acts.filterMap LAct.req ≠ []) : ∃ arc top, CreateCall args arc top := by
  by_cases h1 : args.length < 3 ∨ (args.length = 3 ∧ ((args[1]?.getD []).head?).getD 0 ≠ 84)
  · exfalso; apply h; unfold rankMain; simp only []; rw [if_pos h1]; rfl
  · by_cases h2 : ((args[1]?.getD []).head?).getD 0 = 67
    · exact createCall_of args h1 h2
    · exfalso
      apply h
      unfold rankMain
      simp only []
      rw [if_neg h1, if_neg h2]
      split
      · rfl
      · split <;> rfl

/-- A rank of a create run whose program returns 0 comes to the data, and makes all its buckets. -/
theorem zero_goes {arc top : Bytes} (hc : CreateCall args arc top) {n : Nat} {openOk : Bool} {r : Nat}
    (h : (rankMain L Q nul tree args n openOk r).stop = .exited 0) :
    openOk = true ∧ ∃ front cat text call fr, Goes L Q nul arc top (tree top).1 (tree top).2 front cat text call fr ∧
      (dataRun L cat call fr n r).2 = none := by
  rcases create_ways L Q nul arc top tree args hc n openOk with ⟨st, hst⟩ | ⟨_, h1⟩ | ⟨rfl, front, cat, text, call, fr, g⟩ | ⟨_, _, K, st, h1, h2⟩
  · exfalso
    have hw : ∀ st', Rank0Stops L Q nul arc top (tree top).1 (tree top).2 openOk st' → (waits r st').stop ≠ .exited 0 := by
      intro st' hs' e
      unfold waits at e
      split at e
      · simp only at e
        subst e
        rcases rank0Stops_code L Q nul arc top hs' with ⟨k, _⟩ | k | ⟨_, k⟩ <;> cases k
      · cases e
    have hs := hw _ hst
    rw [rankMain_create hc] at h
    cases hst with
    | scan h1 => unfold rankCreate at h; rw [h1] at h; exact hs h
    | catalog h1 h2 =>
      unfold rankCreate at h; rw [h1] at h; simp only [RankProg.after] at h; unfold rankTransfer at h; rw [h2] at h
      exact hs h
    | front h1 h2 h3 =>
      unfold rankCreate at h; rw [h1] at h; simp only [RankProg.after] at h; unfold rankTransfer at h; rw [h2] at h
      simp only [show legBlock.toNat = 512 from rfl, show legBucket.toNat = 4194304 from rfl, h3, RankProg.after,
        Bool.true_eq_false, if_false] at h
      exact hs h
    | layout h1 h2 h3 h4 =>
      unfold rankCreate at h; rw [h1] at h; simp only [RankProg.after] at h; unfold rankTransfer at h; rw [h2] at h
      simp only [show legBlock.toNat = 512 from rfl, show legBucket.toNat = 4194304 from rfl, h3, RankProg.after,
        Bool.true_eq_false, if_false] at h
      rw [h4] at h
      exact hs h
  · rw [h1] at h; cases h
  · refine ⟨rfl, front, cat, text, call, fr, g, ?_⟩
    rw [(goes_acts g hc n r).2] at h
    cases hd : (dataRun L cat call fr n r).2 with
    | none => rfl
    | some st =>
      rw [hd] at h
      simp only [Option.getD_some] at h
      subst h
      rcases dataRun_stop L hd with k | ⟨e, k⟩ <;> cases k
  · rw [(h1 r).2] at h
    subst h
    rcases h2 with k | ⟨e, k⟩ <;> cases k

/-- C74: if a write of any rank fails, no rank ever ends with status 0: in every run on any number of
ranks, with any failures, whatever the schedule and whatever the failing writes have stored, a rank whose
program would return 0 waits for ever. -/
theorem C74_no_success (fault : Nat → Option LFault) (n : Nat) (openOk : Bool) (q : Nat) (hq : q < n) (f : LFault)
    (hf : fault q = some f) (hit : f.num < ((rankMain L Q nul tree args n openOk q).acts.filterMap LAct.req).length)
    (r : Nat) (hr : r < n) (hz : (faultyMain fault L Q nul tree args n openOk r).stop = .exited 0) :
    NeverEnds (faultyMain fault L Q nul tree args n openOk) n r := by
  obtain ⟨arc, top, hc⟩ := writes_create L Q nul tree args (n := n) (openOk := openOk) (r := q)
    (fun e => by rw [e] at hit; simp at hit)
  have e : faultyMain fault L Q nul tree args n openOk r = rankMain L Q nul tree args n openOk r := withFault_zero hz
  have hz' := hz
  rw [e] at hz'
  obtain ⟨rfl, front, cat, text, call, fr, g, hd⟩ := zero_goes L Q nul tree args hc hz'
  obtain ⟨as, w, rest, h1, _, h3⟩ := withFault_hit hit
  have hcolls : (collsOf as).length ≤ 12 := by
    have ha := (goes_acts g hc n q).1
    rw [h1, ← List.append_assoc] at ha
    have hcl : (collsOf (headActs front q ++ (dataRun L cat call fr n q).1.map .write)).length = 12 := by
      rw [collsOf_append, collsOf_writes, List.append_nil, headActs_colls]
    rcases List.append_eq_append_iff.1 ha with ⟨u, k1, k2⟩ | ⟨u, k1, k2⟩
    · rw [k1, collsOf_append, List.length_append] at hcl
      omega
    · exfalso
      have hm : LAct.write w ∈ (if (dataRun L cat call fr n q).2 = none then [LAct.sync, .sync] else []) := by
        rw [k2]; simp
      split at hm <;> simp at hm
  intro eager old s hs
  obtain ⟨h2, k2, e2⟩ := goes_colls g hc n r
  refine hs.stuck hq hr (c := 12) ?_ (.inl ?_)
  · show (collsOf ((rankMain L Q nul tree args n true q).withFault (fault q)).acts).length ≤ 12
    rw [hf, h3, collsOf_append]
    have : collsOf [LAct.write (w.1, w.2.take f.stored)] = [] := rfl
    rw [this, List.append_nil]
    exact hcolls
  · rw [e, e2, if_pos hd, List.getElem?_append_right (by omega), k2]; rfl

/-- C74: the failing rank itself returns 243, which the shell sees as a failure. -/
theorem C74_failing_rank (fault : Nat → Option LFault) (n : Nat) (openOk : Bool) (q : Nat) (f : LFault)
    (hf : fault q = some f) (hit : f.num < ((rankMain L Q nul tree args n openOk q).acts.filterMap LAct.req).length) :
    (faultyMain fault L Q nul tree args n openOk q).stop = .exited 243 ∧ shellStatus 243 ≠ 0 := by
  obtain ⟨as, w, rest, _, _, h3⟩ := withFault_hit hit
  refine ⟨?_, by decide⟩
  unfold faultyMain
  rw [hf, h3]

/-- C74: so a rank that has ended with status 0 in some run tells that no write failed on any rank. -/
theorem C74_status_zero (fault : Nat → Option LFault) (n : Nat) (openOk : Bool) (r : Nat) (hr : r < n) (eager : Bool)
    (old : Bytes) (s : LSys) (hs : LReach (faultyMain fault L Q nul tree args n openOk) n eager old s) (he : s.ended r)
    (hz : (faultyMain fault L Q nul tree args n openOk r).stop = .exited 0) :
    ∀ q < n, faultyMain fault L Q nul tree args n openOk q = rankMain L Q nul tree args n openOk q := by
  intro q hq
  unfold faultyMain
  cases hf : fault q with
  | none => rfl
  | some f =>
    by_cases hit : f.num < ((rankMain L Q nul tree args n openOk q).acts.filterMap LAct.req).length
    · exact absurd he (C74_no_success L Q nul tree args fault n openOk q hq f hf hit r hr hz eager old s hs)
    · simp only [RankProg.withFault]
      cases hu : upToWrite f.num (rankMain L Q nul tree args n openOk q).acts with
      | none => rfl
      | some x =>
        obtain ⟨as, w⟩ := x
        obtain ⟨rest, h1, h2⟩ := upToWrite_split hu
        exfalso
        apply hit
        rw [h1, List.filterMap_append, List.length_append, h2]
        simp [LAct.req]

/-- C74: if any one rank has ended with status 0, the archive could be made and every write of every rank is
in the file as it should be, whatever failures the run might have had. -/
theorem C74_status_zero_written (fault : Nat → Option LFault) {arc top : Bytes} (hc : CreateCall args arc top) (harc : arc ≠ [])
    (n : Nat) (openOk : Bool) (r : Nat) (hr : r < n) (eager : Bool)
    (old : Bytes) (s : LSys) (hs : LReach (faultyMain fault L Q nul tree args n openOk) n eager old s) (he : s.ended r)
    (hz : (faultyMain fault L Q nul tree args n openOk r).stop = .exited 0) :
    ∃ front wss, legacyMain L Q nul top (tree top).1 (tree top).2 n = .ok (some (front, wss)) ∧
      ∃ ws : List WriteReq, ws.Perm (front ++ wss.flatten) ∧ s.file = ws.foldl writeAt old := by
  have hP := C74_status_zero L Q nul tree args fault n openOk r hr eager old s hs he hz
  have hs' := hs.others hP
  have he' : (s.others n (rankMain L Q nul tree args n openOk)).ended r := by
    simp only [LSys.ended, LSys.others, hr, if_true]; exact he
  rw [hP r hr] at hz
  exact C56_status_zero L Q nul arc top tree args hc harc n openOk eager old (s.others n _) hs' r hr he' hz

end

/-- The directory of the example on five ranks, and rank 0's second write, the catalog, fails after 100 bytes:
rank 0 returns 243, and the other four, which have nothing wrong, wait for ever. -/
example (Q : QSort Frag) (r : Nat) (h0 : 0 < r) (h5 : r < 5) :
    NeverEnds (faultyMain (fun q => if q = 0 then some ⟨1, 100⟩ else none) legEnv Q glibcNull (fun _ => (some legDemo, legDemo))
      [[112], [67], [97], [100]] 5 true) 5 r ∧
    (faultyMain (fun q => if q = 0 then some ⟨1, 100⟩ else none) legEnv Q glibcNull (fun _ => (some legDemo, legDemo))
      [[112], [67], [97], [100]] 5 true 0).stop = .exited 243 := by
  have hc : CreateCall [[112], [67], [97], [100]] [97] [100] := ⟨[112], [], rfl⟩
  obtain ⟨front, wss, h, _⟩ := leg_demo_run Q
  obtain ⟨cat, text, call, fr, g, hf⟩ := (legacyMain_iff (arc := [97]) (by omega) (by decide)).1 h
  have hlen : 2 ≤ front.length := by
    have := g.front
    unfold frontWrites at this
    split at this
    · cases this
    · split at this
      · cases this
      · cases this; simp
  have hit : 1 < ((rankMain legEnv Q glibcNull (fun _ => (some legDemo, legDemo)) [[112], [67], [97], [100]] 5 true 0).acts.filterMap
      LAct.req).length := by
    rw [goes_writes (tree := fun _ => (some legDemo, legDemo)) g hc 5 0]
    simp only [if_true, List.length_append]
    omega
  refine ⟨C74_no_success legEnv Q glibcNull _ _ _ 5 true 0 (by omega) ⟨1, 100⟩ rfl hit r h5 ?_,
    (C74_failing_rank legEnv Q glibcNull _ _ _ 5 true 0 ⟨1, 100⟩ rfl hit).1⟩
  have hr0 : r ≠ 0 := by omega
  unfold faultyMain
  simp only [hr0, if_false, RankProg.withFault]
  rw [(goes_acts (tree := fun _ => (some legDemo, legDemo)) g hc 5 r).2, (forall2_flatten hf).2 r h5]; rfl

/-- Without a failure all five ranks of the same run end with status 0 (`C56_success_partial`), as
`C74_status_zero_written` supposes. -/
example (Q : QSort Frag) (r : Nat) (h5 : r < 5) :
    (faultyMain (fun _ => none) legEnv Q glibcNull (fun _ => (some legDemo, legDemo)) [[112], [67], [97], [100]] 5 true r).stop = .exited 0 := by
  obtain ⟨front, wss, h, _⟩ := leg_demo_run Q
  exact (C56_success_partial legEnv Q glibcNull [97] [100] (fun _ => (some legDemo, legDemo)) _ ⟨[112], [], rfl⟩ (by decide) 5 (by omega)
    front wss h).2.1 r h5

end Parfu.Props
