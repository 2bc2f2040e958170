/-
Lemmas: the programs of the ranks in a run of parfu 0.5.1 that creates an archive.
-/
import Verif.LegacyProgramLemmas
import Verif.LegacyProgramSpec
import Verif.PropsLegacyCatalog
set_option autoImplicit false

namespace Parfu
open Props RanksSpec

theorem bucketsRun_iff (L : LegEnv) (bl acc : Int) (dstart : Nat) (fr : List Frag) (call : List Nat) (is : List Nat) :
    ∀ (buf : Bytes) (ws : List WriteReq), bucketsLoop L bl acc dstart fr call is buf = .ok (some ws) ↔
      bucketsRun L bl acc dstart fr call is buf = (ws, none) := by
  induction is with
  | nil => intro buf ws; simp [bucketsLoop, bucketsRun]
  | cons i is ih =>
    intro buf ws
    unfold bucketsLoop bucketsRun
    cases h : oneBucket L bl acc dstart fr call i buf with
    | error e => simp
    | ok o =>
      cases o with
      | none => simp
      | some p =>
        obtain ⟨buf', ws1⟩ := p
        simp only [bindRO_some]
        constructor
        · intro h2
          obtain ⟨ws2, h3, h4⟩ := bindRO_eq h2
          rw [(ih buf' ws2).1 h3]
          simp at h4; subst h4; rfl
        · intro h2
          simp only [Prod.mk.injEq] at h2
          obtain ⟨h3, h4⟩ := h2
          rw [(ih buf' _).2 (Prod.ext rfl h4)]
          simp [h3]

theorem allRanks_iff (one : Nat → Res (Option (List WriteReq))) (rs : List Nat) : ∀ (wss : List (List WriteReq)),
    allRanks one rs = .ok (some wss) ↔ List.Forall₂ (fun r ws => one r = .ok (some ws)) rs wss := by
  induction rs with
  | nil => intro wss; simp [allRanks, eq_comm]
  | cons r rs ih =>
    intro wss
    simp only [allRanks]
    constructor
    · intro h
      obtain ⟨ws, h1, h2⟩ := bindRO_eq h
      obtain ⟨wss', h3, h4⟩ := bindRO_eq h2
      simp at h4; subst h4
      exact .cons h1 ((ih _).1 h3)
    · intro h
      cases h with
      | cons h1 h2 => rw [h1]; simp only [bindRO_some]; rw [(ih _).2 h2]; rfl

/-- What every rank does before the data, when all goes well. -/
def headActs (front : List WriteReq) (r : Nat) : List LAct :=
  [.bcast, .bcast, .sync] ++ ([.bcast, .bcast, .sync] ++ (((if r = 0 then front.map .write else []) ++ [.bcast]) ++
    ([.bcast, .bcast] ++ ([.bcast, .bcast] ++ [.sync]))))

/-- The end of a rank's program: its writes, and, if they were all made, barrier and `MPI_Finalize`. -/
def tailProg (b : List WriteReq × Option LStop) : RankProg :=
  .after (b.1.map .write) (match b.2 with | some st => ⟨[], st⟩ | none => ⟨[.sync, .sync], .exited 0⟩)

/-- A program that goes on to the data. -/
structure Goes (L : LegEnv) (Q : QSort Frag) (nul arc top : Bytes) (seen : Option FNode) (opened : FNode)
    (front : List WriteReq) (cat : Bytes) (text : Bytes) (call : List Nat) (fr : List Frag) : Prop where
  plan : ∃ es, rank0List Q top seen opened = .ok es ∧ rank0Catalog nul legBucket arc es = .ok cat ∧
    rank0Plan nul legBlock legBucket blockingName es = .ok (text, call)
  front : frontWrites L 512 4194304 cat = .ok front
  read : ∃ a, readFullCatalog text = .ok (some (a, fr))
  check : checkCalls fr call = true

/-- What rank `r` of `n` does to the data. -/
def dataRun (L : LegEnv) (cat : Bytes) (call : List Nat) (fr : List Frag) (n r : Nat) : List WriteReq × Option LStop :=
  bucketsRun L 512 4194304 (dataOffset 4194304 (512 + cat.length)) fr call (rankBuckets n call.length r) (zeros 4194304)

theorem after_after (a b : List LAct) (p : RankProg) : RankProg.after a (.after b p) = .after (a ++ b) p := by
  simp [RankProg.after]

section
variable {L : LegEnv} {Q : QSort Frag} {nul arc top : Bytes} {seen : Option FNode} {opened : FNode}
variable {front : List WriteReq} {cat text : Bytes} {call : List Nat} {fr : List Frag}

theorem rankCreate_goes (g : Goes L Q nul arc top seen opened front cat text call fr) (n r : Nat) :
    rankCreate L Q nul arc top seen opened n true r =
      .after (headActs front r) (tailProg (dataRun L cat call fr n r)) := by
  obtain ⟨⟨es, h1, h2, h3⟩, h4, ⟨a, h5⟩, h6⟩ := g
  unfold rankCreate
  rw [h1]
  simp only []
  unfold rankTransfer
  rw [h2]
  simp only [show legBlock.toNat = 512 from rfl, show legBucket.toNat = 4194304 from rfl, h4, Bool.true_eq_false, if_false]
  rw [h3]
  simp only []
  unfold rankEnd
  simp only [h5, h6, Bool.true_eq_false, if_false]
  rw [show legBucket.toNat = 4194304 from rfl]
  simp only [after_after, headActs, tailProg, dataRun]
  simp only [List.append_assoc]
  rfl

theorem rank0List_stop {st : LStop} (h : rank0List Q top seen opened = .error st) : st ≠ .exited 0 := by
  unfold rank0List at h
  split at h
  · cases h; simp
  · cases h; simp
  · split at h
    · cases h; simp
    · cases h

theorem rank0Catalog_stop {acc : Int} {es : List Frag} {st : LStop} (h : rank0Catalog nul acc arc es = .error st) :
    st ≠ .exited 0 := by
  unfold rank0Catalog at h
  split at h
  · cases h; simp
  · cases h; simp
  · split at h
    · cases h; simp
    · cases h

theorem rank0Plan_stop {bl acc : Int} {pad : Bytes} {es : List Frag} {st : LStop} (h : rank0Plan nul bl acc pad es = .error st) :
    st ≠ .exited 0 := by
  unfold rank0Plan at h
  split at h
  · cases h; simp
  · cases h; simp
  · cases h

theorem waits_stop {r : Nat} {st : LStop} (h : st ≠ .exited 0) : (waits r st).stop ≠ .exited 0 := by
  unfold waits
  split
  · exact h
  · simp

/-- A rank that ends with status 0 has come to the data. -/
theorem rankCreate_zero {n r : Nat} {openOk : Bool}
    (h : (rankCreate L Q nul arc top seen opened n openOk r).stop = .exited 0) :
    openOk = true ∧ ∃ front cat text call fr, Goes L Q nul arc top seen opened front cat text call fr := by
  unfold rankCreate at h
  cases h1 : rank0List Q top seen opened with
  | error st => rw [h1] at h; exact absurd h (waits_stop (rank0List_stop h1))
  | ok es =>
    rw [h1] at h
    simp only [RankProg.after] at h
    unfold rankTransfer at h
    cases h2 : rank0Catalog nul legBucket arc es with
    | error st => rw [h2] at h; exact absurd h (waits_stop (rank0Catalog_stop h2))
    | ok cat =>
      rw [h2] at h
      cases openOk with
      | false => simp [RankProg.after] at h
      | true =>
        simp only [RankProg.after, Bool.true_eq_false, if_false, show legBlock.toNat = 512 from rfl,
          show legBucket.toNat = 4194304 from rfl] at h
        cases h3 : frontWrites L 512 4194304 cat with
        | error e => rw [h3] at h; exact absurd h (waits_stop (by simp))
        | ok front =>
          rw [h3] at h
          cases h4 : rank0Plan nul legBlock legBucket blockingName es with
          | error st => rw [h4] at h; exact absurd h (waits_stop (rank0Plan_stop h4))
          | ok p =>
            obtain ⟨text, call⟩ := p
            rw [h4] at h
            simp only [rankEnd, RankProg.after] at h
            cases h5 : readFullCatalog text with
            | error e => rw [h5] at h; cases h
            | ok o =>
              cases o with
              | none => rw [h5] at h; cases h
              | some x =>
                obtain ⟨a, fr⟩ := x
                rw [h5] at h
                cases h6 : checkCalls fr call with
                | false => simp [h6] at h
                | true => exact ⟨rfl, front, cat, text, call, fr, ⟨es, h1, h2, h4⟩, h3, ⟨a, h5⟩, h6⟩

/-- A run of the writer that succeeds: every rank comes to the data and writes all of its buckets. -/
theorem legacyMain_iff {n : Nat} (hn : 0 < n) (harc : arc ≠ []) {wss : List (List WriteReq)} :
    legacyMain L Q nul top seen opened n = .ok (some (front, wss)) ↔
      ∃ cat text call fr, Goes L Q nul arc top seen opened front cat text call fr ∧
        List.Forall₂ (fun r ws => dataRun L cat call fr n r = (ws, none)) (List.range n) wss := by
  constructor
  · intro h
    unfold legacyMain at h
    obtain ⟨l, h1, h⟩ := bindRO_eq h
    cases h2 : fillRel top l.frags with
    | error e => rw [h2] at h; cases h
    | ok es0 =>
      rw [h2] at h
      simp only [legacyRun] at h
      obtain ⟨cat, h3, h⟩ := bindRO_eq h
      simp only [show legBlock.toNat = 512 from rfl, show legBucket.toNat = 4194304 from rfl] at h
      cases h4 : frontWrites L 512 4194304 cat with
      | error e => rw [h4] at h; cases h
      | ok fw =>
        rw [h4] at h
        obtain ⟨⟨gs, q⟩, h5, h⟩ := bindRO_eq h
        simp only [] at h
        obtain ⟨text, h6, h⟩ := bindRO_eq h
        obtain ⟨call, h7, h⟩ := bindRO_eq h
        cases h8 : checkCalls (outFrags gs) call with
        | false => simp [h8] at h
        | true =>
          simp only [h8, Bool.true_eq_false, if_false] at h
          obtain ⟨wss', h9, h⟩ := bindRO_eq h
          simp only [Except.ok.injEq, Option.some.injEq, Prod.mk.injEq] at h
          obtain ⟨rfl, rfl⟩ := h
          rw [allRanks_iff] at h9
          have hone : ∃ a fr, readFullCatalog text = .ok (some (a, fr)) ∧ checkCalls fr call = true := by
            cases n with
            | zero => omega
            | succ n =>
              rw [List.range_succ_eq_map] at h9
              cases h9 with
              | cons h10 _ =>
                unfold rankPart at h10
                obtain ⟨⟨a, fr⟩, h11, h12⟩ := bindRO_eq h10
                refine ⟨a, fr, h11, ?_⟩
                cases h13 : checkCalls fr call with
                | true => rfl
                | false => simp [h13] at h12
          obtain ⟨a, fr, h11, h12⟩ := hone
          refine ⟨cat, text, call, fr, ⟨⟨qsortEntries Q es0, ?_, ?_, ?_⟩, h4, ⟨a, h11⟩, h12⟩, ?_⟩
          · unfold rank0List; rw [h1]; simp only [h2]
          · unfold rank0Catalog; rw [h3]; simp only [if_neg harc]
          · unfold rank0Plan
            rw [h5]
            simp only [bindRO_some]
            rw [h6]
            simp only [bindRO_some]
            rw [h7]
            simp [h8]
          · refine h9.imp ?_
            intro r ws hr
            unfold rankPart at hr
            rw [h11] at hr
            simp only [bindRO_some, h12, Bool.true_eq_false, if_false] at hr
            exact (bucketsRun_iff _ _ _ _ _ _ _ _ _).1 hr
  · rintro ⟨cat, text, call, fr, ⟨⟨es, h1, h2, h3⟩, h4, ⟨a, h5⟩, h6⟩, h7⟩
    unfold rank0List at h1
    split at h1
    · cases h1
    · cases h1
    · rename_i l hl
      split at h1
      · cases h1
      · rename_i es0 hf
        cases h1
        unfold legacyMain
        rw [hl]
        simp only [bindRO_some, hf]
        unfold rank0Catalog at h2
        split at h2
        · cases h2
        · cases h2
        · rename_i cat' hc
          rw [if_neg harc] at h2
          cases h2
          unfold legacyRun
          rw [hc]
          simp only [bindRO_some, show legBlock.toNat = 512 from rfl, show legBucket.toNat = 4194304 from rfl, h4]
          unfold rank0Plan at h3
          split at h3
          · cases h3
          · cases h3
          · rename_i p hp
            cases h3
            obtain ⟨⟨gs, q⟩, k1, hp⟩ := bindRO_eq hp
            simp only [] at hp
            obtain ⟨text', k2, hp⟩ := bindRO_eq hp
            obtain ⟨call', k3, hp⟩ := bindRO_eq hp
            cases k4 : checkCalls (outFrags gs) call' with
            | false => simp [k4] at hp
            | true =>
              simp only [k4, Bool.true_eq_false, if_false, Except.ok.injEq, Option.some.injEq, Prod.mk.injEq] at hp
              obtain ⟨rfl, rfl⟩ := hp
              rw [k1]
              simp only [bindRO_some]
              rw [k2]
              simp only [bindRO_some]
              rw [k3]
              simp only [bindRO_some, k4, Bool.true_eq_false, if_false]
              rw [(allRanks_iff _ _ wss).2]
              · rfl
              · refine h7.imp ?_
                intro r ws hr
                unfold rankPart
                rw [h5]
                simp only [bindRO_some, h6, Bool.true_eq_false, if_false]
                exact (bucketsRun_iff _ _ _ _ _ _ _ _ _).2 hr

end

end Parfu
