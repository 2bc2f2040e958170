/-
C55: an interrupted legacy run whose writes were made in the order of their places in the file, as those
of a single rank always are, is recognisable.
-/
import Verif.LegacyPrefix
import Verif.PropsLegacyCrashDemo
set_option autoImplicit false

namespace Parfu.Props
open Parfu ScanSpec LegacyScanSpec MoveSpec TarSpec LegacyRunSpec RanksSpec

/-! ### lemmas -/

/-- Writes behind the end of a file leave what is there. -/
theorem writeAt_prefix {f g : Bytes} {w : WriteReq} (h : f <+: g) (hw : f.length ≤ w.1 ∨ w.2 = []) : f <+: writeAt g w := by
  unfold writeAt
  rcases hw with hw | hw
  · rw [List.append_assoc]
    refine List.IsPrefix.trans ?_ (List.prefix_append _ _)
    rw [List.prefix_take_iff]
    exact ⟨h.trans (List.prefix_append _ _), hw⟩
  · refine h.trans ?_
    rw [hw, List.append_nil, List.length_nil, Nat.add_zero]
    by_cases hp : w.1 ≤ g.length
    · rw [show w.1 - g.length = 0 by omega, show zeros 0 = [] from rfl, List.append_nil, List.take_append_drop]
    · rw [List.drop_of_length_le (by omega), List.append_nil, List.prefix_take_iff]
      exact ⟨List.prefix_append _ _, by omega⟩

theorem foldl_prefix (ws : List WriteReq) : ∀ (f g : Bytes), f <+: g → (∀ w ∈ ws, f.length ≤ w.1 ∨ w.2 = []) →
    f <+: ws.foldl writeAt g := by
  intro f
  induction ws with
  | nil => intro g h _; exact h
  | cons w ws ih =>
    intro g h hw
    exact ih _ (writeAt_prefix h (hw w (by simp))) fun v hv => hw v (by simp [hv])

/-- The writes of one bucket: the bucket, then perhaps the end mark. -/
theorem oneBucket_places {L : LegEnv} {bl acc : Int} {dstart : Nat} {fr : List Frag} {call : List Nat} {i : Nat} {buf buf' : Bytes}
    {ws : List WriteReq} (h : oneBucket L bl acc dstart fr call i buf = .ok (some (buf', ws))) :
    (ws.Pairwise fun a b => a.1 ≤ b.1) ∧ ∀ w ∈ ws, dstart + i * acc.toNat ≤ w.1 ∧ w.1 ≤ dstart + (i + 1) * acc.toNat := by
  have hm : i * acc.toNat ≤ (i + 1) * acc.toNat := Nat.mul_le_mul_right _ (by omega)
  unfold oneBucket at h
  split at h
  · cases h
  split at h
  · cases h
  split at h
  · cases h
  split at h
  · cases h
  obtain ⟨⟨s, rest⟩, _, h⟩ := bindRO_eq h
  simp only [] at h
  split at h
  · cases h
  split at h
  · cases h
  split at h
  · unfold terminate at h
    split at h
    · cases h
    · rename_i b t ht
      split at ht
      · cases ht
      · cases ht
        cases h
        constructor
        · simp only [List.pairwise_cons, List.mem_cons, List.not_mem_nil, or_false]
          refine ⟨?_, by simp, List.Pairwise.nil⟩
          rintro w rfl
          simp only []; omega
        · intro w hw
          simp only [List.mem_cons, List.not_mem_nil, or_false] at hw
          rcases hw with rfl | rfl
          · simp only []; omega
          · simp only []; omega
  · cases h
    constructor
    · simp
    · intro w hw
      simp only [List.mem_cons, List.not_mem_nil, or_false] at hw
      subst hw; simp only []; omega

/-- The writes of the buckets of a rank are made in the order of their places in the file. -/
theorem bucket_sorted (L : LegEnv) (bl acc : Int) (dstart : Nat) (fr : List Frag) (call : List Nat) :
    ∀ (is : List Nat) (buf : Bytes), is.Pairwise (· < ·) →
      ((bucketsRun L bl acc dstart fr call is buf).1.Pairwise fun a b => a.1 ≤ b.1) := by
  intro is
  induction is with
  | nil => intro buf _; simp [bucketsRun]
  | cons i is ih =>
    intro buf hi
    obtain ⟨hi1, hi2⟩ := List.pairwise_cons.1 hi
    unfold bucketsRun
    split
    · simp
    · simp
    · rename_i buf' ws h
      obtain ⟨p1, p2⟩ := oneBucket_places h
      simp only []
      rw [List.pairwise_append]
      refine ⟨p1, ih _ hi2, ?_⟩
      intro a ha b hb
      have h1 := (p2 a ha).2
      have h2 := bucket_pos L bl acc dstart fr call is (i + 1) (fun j hj => hi1 j hj) buf' b hb
      omega

/-- What rank 0 writes before the data is written in the order of its places in the file. -/
theorem front_sorted {L : LegEnv} {cat : Bytes} {front : List WriteReq} (h : frontWrites L 512 4194304 cat = .ok front) :
    front.Pairwise fun a b => a.1 ≤ b.1 := by
  unfold frontWrites at h
  split at h
  · cases h
  rename_i hs hhs
  split at h
  · cases h
  rename_i hne
  have hs512 : hs = 512 := by simpa using hne
  subst hs512
  simp only [Except.ok.injEq] at h
  unfold catalogGap at h
  split at h
  · subst h
    simp
  · rename_i loc sz hg
    split at hg
    · simp only [Option.some.injEq, Prod.mk.injEq] at hg
      obtain ⟨hg, _⟩ := hg
      subst h
      simp only [List.cons_append, List.nil_append, List.pairwise_cons, List.mem_cons, List.not_mem_nil, or_false]
      refine ⟨?_, ?_, by simp, List.Pairwise.nil⟩
      · rintro w (rfl | rfl) <;> simp
      · rintro w rfl
        simp only []
        split at hg <;> omega
    · cases hg

/-! ### C55 -/

/-- C55: if all writes made so far lie, in the file, before all those not made yet, then a new file is a
properly terminated archive exactly when every write has been made. -/
theorem C55_in_order {L : LegEnv} {Q : QSort Frag} {nul arc top : Bytes} {tree : Bytes → Option FNode × FNode} {args : List Bytes}
    {n : Nat} {front : List WriteReq} {wss : List (List WriteReq)} (hg : GoodRun L Q nul arc top tree args n front wss)
    (hgap : ∀ cat, (512, cat) ∈ front → (cat.length + 1024) % 4194304 ≠ 0)
    (eager : Bool) (s : LSys) (hs : LReach (rankMain L Q nul tree args n true) n eager [] s)
    (hord : ∀ w ∈ s.log.map Prod.snd, ∀ w' ∈ front ++ wss.flatten, w'.1 < w.1 → w' ∈ s.log.map Prod.snd) :
    terminated s.file = true ↔ ∀ w ∈ front ++ wss.flatten, w ∈ s.log.map Prod.snd := by
  obtain ⟨es, ms, h1, h3, h4, h5, h8, h9, h6, h7⟩ := main_run hg.platform hg.archivable Q
  have hmade := hg.made
  rw [h1 _ ((topAllowed_iff _).2 hg.seen)] at hmade
  obtain ⟨hap, cat', _, hcat', hfr, _⟩ := run_writes h3 blocking_free hg.platform.nul hg.ranks hmade
  obtain ⟨z, hcase, hzm, hopen, hdone⟩ := run_open h3 blocking_free hg.platform.nul hg.ranks hmade (by
    intro cat hc
    rw [hcat'] at hc
    simp only [Except.ok.injEq, Option.some.injEq] at hc
    subst hc
    have := hgap _ hfr.text
    have hb : legBucket.toNat = 4194304 := rfl
    rw [hb]
    omega)
  obtain ⟨hst, _, rest, hrest⟩ := C55_written_stays hg eager [] s hs
  constructor
  swap
  · intro hall
    refine hdone _ fun w hw => ?_
    obtain ⟨e, he, rfl⟩ := List.mem_map.1 (hall w hw)
    exact hst e he
  intro hterm
  apply Classical.byContradiction
  intro hmiss
  obtain ⟨w0, hw0, hw0m⟩ : ∃ w ∈ front ++ wss.flatten, w ∉ s.log.map Prod.snd := by
    apply Classical.byContradiction
    intro hx
    exact hmiss fun w hw => Classical.byContradiction fun h => hx ⟨w, hw, h⟩
  -- the end mark has not been written
  have hzn : ((z, zeros 1024) : WriteReq) ∉ s.log.map Prod.snd := by
    intro hz
    rcases hcase w0 hw0 with h | h
    · exact hw0m (by rw [h]; exact hz)
    · exact hw0m (hord _ hz _ hw0 h.1)
  have hpair : (s.log.map Prod.snd ++ rest).Pairwise WApart :=
    (hrest.pairwise_iff (fun {_ _} => WApart.symm)).2 hap
  have hlen : ∀ w ∈ s.log.map Prod.snd, w.1 + w.2.length ≤ z := by
    intro w hw
    rcases hcase w (hrest.mem_iff.1 (List.mem_append_left _ hw)) with h | h
    · exact absurd (h ▸ hw) hzn
    · exact h.2
  have hfl : s.file.length ≤ z := by
    rw [hs.inv.file]
    exact (foldl_writeAt_length _ [] z (by simp) hlen).1
  -- the finished file
  have hpre : s.file <+: rest.foldl writeAt s.file := by
    refine foldl_prefix rest _ _ (List.prefix_refl _) ?_
    intro w' hw'
    by_cases he : w'.2 = []
    · exact .inr he
    left
    have hpos : 0 < w'.2.length := List.length_pos_iff.2 he
    rw [hs.inv.file]
    refine (foldl_writeAt_length _ [] w'.1 (by simp) ?_).1
    intro w hw
    have hnlt : ¬ w'.1 < w.1 := by
      intro hlt
      have hm := hord w hw w' (hrest.mem_iff.1 (List.mem_append_right _ hw')) hlt
      have := (List.pairwise_append.1 hpair).2.2 w' hm w' hw'
      unfold WApart Apart at this
      omega
    have := (List.pairwise_append.1 hpair).2.2 w hw w' hw'
    unfold WApart Apart at this
    omega
  have hF : rest.foldl writeAt s.file = (s.log.map Prod.snd ++ rest).foldl writeAt [] := by
    rw [List.foldl_append, ← hs.inv.file]
  have hholds := (foldl_writeAt_holds (s.log.map Prod.snd ++ rest) [] hpair).1
  rw [← hF] at hholds
  have hall : ∀ w ∈ front ++ wss.flatten, Holds (rest.foldl writeAt s.file) w.1 w.2 := fun w hw => hholds w (hrest.mem_iff.2 hw)
  generalize rest.foldl writeAt s.file = F at hpre hall
  have hz := holds_le (hall _ (List.mem_append_right _ hzm)) (by unfold zeros; exact List.cons_ne_nil _ _)
  simp only [] at hz
  have hB : (F.take z).length = z := by rw [List.length_take]; omega
  have := hopen (F.take z) hB (by
    intro w hw hne
    have h1 := hall w hw
    have h2 : w.1 + w.2.length ≤ z := by
      rcases hcase w hw with h | h
      · exact absurd h hne
      · exact h.2
    unfold Holds at h1 ⊢
    rw [List.drop_take, List.take_take, show min w.2.length (z - w.1) = w.2.length by omega]
    exact h1) s.file (List.prefix_take_iff.2 ⟨hpre, hfl⟩)
  rw [this] at hterm
  cases hterm

/-- C55: what one rank alone leaves in a new file, at whatever point it is interrupted, is a properly
terminated archive exactly when the rank has made all its writes. -/
theorem C55_one_rank {L : LegEnv} {Q : QSort Frag} {nul arc top : Bytes} {tree : Bytes → Option FNode × FNode} {args : List Bytes}
    {front : List WriteReq} {wss : List (List WriteReq)} (hg : GoodRun L Q nul arc top tree args 1 front wss)
    (hgap : ∀ cat, (512, cat) ∈ front → (cat.length + 1024) % 4194304 ≠ 0)
    (eager : Bool) (s : LSys) (hs : LReach (rankMain L Q nul tree args 1 true) 1 eager [] s) :
    terminated s.file = true ↔ ∀ w ∈ front ++ wss.flatten, w ∈ s.log.map Prod.snd := by
  refine C55_in_order hg hgap eager s hs ?_
  obtain ⟨cat, text, call, fr, g, hf⟩ := (legacyMain_iff hg.ranks hg.arc).1 hg.made
  obtain ⟨hw, hnone⟩ := forall2_flatten hf
  have hall : front ++ wss.flatten = (rankMain L Q nul tree args 1 true 0).acts.filterMap LAct.req := by
    rw [goes_writes g hg.call, hw]
    simp
  have hlog : s.log.map Prod.snd <+: front ++ wss.flatten := by
    obtain ⟨pre, h1, _, h3⟩ := hs.inv.split 0
    have hr := hs.inv.ranks
    have hfil : s.log.filter (fun e => e.1 == 0) = s.log := by
      rw [List.filter_eq_self]
      intro e he
      have := hr e he
      simp; omega
    rw [hfil] at h3
    rw [hall, h1, List.filterMap_append, h3]
    exact List.prefix_append _ _
  have hclen : cat.length < 2 ^ 32 := by
    obtain ⟨es, _, h2, _⟩ := g.plan
    unfold rank0Catalog at h2
    split at h2
    · cases h2
    · cases h2
    · rename_i c hc'
      rw [if_neg hg.arc] at h2
      cases h2; exact listToBuffer_le hc'
  have hfront := frontWrites_ok (acc := 4194304) (by omega) (by omega) (by omega) hclen hg.platform.clockCat hg.platform.clockGap g.front
  have hsort : (front ++ wss.flatten).Pairwise fun a b => a.1 ≤ b.1 := by
    rw [hw, List.pairwise_append]
    have e : ((List.range 1).map fun r => (dataRun L cat call fr 1 r).1).flatten = (dataRun L cat call fr 1 0).1 := by
      simp
    rw [e]
    refine ⟨front_sorted g.front, bucket_sorted L 512 4194304 _ fr call _ _ (rankBuckets_sorted (by omega) 0), ?_⟩
    intro a ha b hb
    have h1 := hfront.below a ha
    have h2 := dataRun_pos L cat call fr 1 0 (by omega) b hb
    omega
  obtain ⟨u, hu⟩ := hlog
  intro w hwm w' hw' hlt
  rw [← hu] at hw' hsort
  rcases List.mem_append.1 hw' with h | h
  · exact h
  · have := (List.pairwise_append.1 hsort).2.2 w hwm w' h
    omega

/-! ### the hypotheses are met -/

/-- The directory with the large file is archived by one rank. -/
theorem big_good_one (Q : QSort Frag) : ∃ front wss, GoodRun bigEnv Q glibcNull [97] [100] (fun _ => (some bigDemo, bigDemo))
    [[112], [67], [97], [100]] 1 front wss ∧ ∀ cat, (512, cat) ∈ front → (cat.length + 1024) % 4194304 ≠ 0 := by
  obtain ⟨front, wss, h⟩ := C48_run_succeeds bigEnv Q glibcNull [100] bigDemo big_platform (by decide) big_archivable
    (some bigDemo) trivial 1 (by omega) big_short (by
      intro os hnd hv
      have hsub : os ⊆ [([], bigDemo), ([[97]], .reg ⟨0, 0, 0, 0⟩ bigData)] := by
        intro o ho
        rcases o with ⟨p, n⟩
        rcases big_cases (hv _ ho) with ⟨h1, h2⟩ | ⟨h1, h2⟩ <;> simp only [] at h1 h2 <;> rw [h1, h2] <;> simp
      have hl := (List.subperm_of_subset hnd hsub).length_le
      have hmul := sum_le_mul (fun o => fileLength o.2 / 4194304 + 2) os 10 (by
        intro o ho
        rcases o with ⟨p, n⟩
        rcases big_cases (hv _ ho) with ⟨_, h2⟩ | ⟨_, h2⟩ <;> simp only [] at h2 <;> rw [h2] <;> simp [fileLength, bigDemo, bigData_len])
      simp only [List.length_cons, List.length_nil] at hl
      omega)
  refine ⟨front, wss, ⟨⟨[112], [], rfl⟩, by decide, big_platform, big_archivable, trivial, by omega, h⟩, ?_⟩
  refine gap_of_few big_platform (by decide) big_archivable (seen := some bigDemo) trivial (n := 1) (by omega) big_short [[], [[97]]] ?_ (by simp) h
  intro p m hv
  rcases big_cases hv with ⟨rfl, _⟩ | ⟨rfl, _⟩ <;> simp

/-- One rank can always come to its end, and has then made all its writes. -/
theorem one_rank_ends {L : LegEnv} {Q : QSort Frag} {nul arc top : Bytes} {tree : Bytes → Option FNode × FNode} {args : List Bytes}
    {front : List WriteReq} {wss : List (List WriteReq)} (hg : GoodRun L Q nul arc top tree args 1 front wss) (eager : Bool) (old : Bytes) :
    ∃ s, LReach (rankMain L Q nul tree args 1 true) 1 eager old s ∧ ∀ w ∈ front ++ wss.flatten, w ∈ s.log.map Prod.snd := by
  obtain ⟨cat, text, call, fr, g, hf⟩ := (legacyMain_iff hg.ranks hg.arc).1 hg.made
  obtain ⟨hw, hnone⟩ := forall2_flatten hf
  obtain ⟨s, hs, he⟩ := reach_end (P := rankMain L Q nul tree args 1 true) (n := 1)
    (K := (collsOf (rankMain L Q nul tree args 1 true 0).acts).length) eager old (fun r hr => by rw [show r = 0 by omega])
  refine ⟨s, hs, fun w hwm => ?_⟩
  have h3 := hs.writes_of (he 0 (by omega))
  have : w ∈ (rankMain L Q nul tree args 1 true 0).acts.filterMap LAct.req := by
    rw [goes_writes g hg.call]
    rw [hw] at hwm
    simpa using hwm
  rw [← h3] at this
  obtain ⟨e, he1, he2⟩ := List.mem_map.1 this
  exact List.mem_map.2 ⟨e, (List.mem_filter.1 he1).1, he2⟩

/-- C55_one_rank, C55_in_order: such a run is there, in a state where the archive is complete and in one
where it is not. -/
example (Q : QSort Frag) (eager : Bool) : ∃ front wss, GoodRun bigEnv Q glibcNull [97] [100] (fun _ => (some bigDemo, bigDemo))
    [[112], [67], [97], [100]] 1 front wss ∧
    (∃ s, LReach (rankMain bigEnv Q glibcNull (fun _ => (some bigDemo, bigDemo)) [[112], [67], [97], [100]] 1 true) 1 eager [] s ∧
      terminated s.file = true) ∧
    ∃ s, LReach (rankMain bigEnv Q glibcNull (fun _ => (some bigDemo, bigDemo)) [[112], [67], [97], [100]] 1 true) 1 eager [] s ∧
      (∀ w ∈ s.log.map Prod.snd, ∀ w' ∈ front ++ wss.flatten, w'.1 < w.1 → w' ∈ s.log.map Prod.snd) ∧ terminated s.file = false := by
  obtain ⟨front, wss, hg, hgap⟩ := big_good_one Q
  obtain ⟨s, hs, hall⟩ := one_rank_ends hg eager []
  refine ⟨front, wss, hg, ⟨s, hs, (C55_one_rank hg hgap eager s hs).2 hall⟩, _, .start, by simp [LSys.start], ?_⟩
  rw [show (LSys.start (rankMain bigEnv Q glibcNull (fun _ => (some bigDemo, bigDemo)) [[112], [67], [97], [100]] 1 true) []).file = [] from rfl]
  cases h : terminated [] with
  | false => rfl
  | true => have := terminated_len [] h; simp at this

end Parfu.Props
