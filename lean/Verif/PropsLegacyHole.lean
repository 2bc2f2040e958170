/-
C55: an interrupted legacy run whose file has a hole reads as the finished archive cut there.
-/
import Verif.PropsLegacyOrder
set_option autoImplicit false

namespace Parfu.Props
open Parfu ScanSpec LegacyScanSpec MoveSpec TarSpec LegacyRunSpec RanksSpec

/-! ### lemmas -/

/-- Where the writes of a run are. -/
theorem run_shape {L : LegEnv} {nul pad : Bytes} {acc : Int} {es : List Frag} {ms : List Member} (hr : RunOk L acc es ms)
    (hpad : LegTabFree pad) (hnul : LegTabFree nul) {n : Nat} (hn : 0 < n) {front : List WriteReq} {wss : List (List WriteReq)}
    (h : legacyRun L nul 512 acc pad es n = .ok (some (front, wss))) :
    ∃ (cat : Bytes) (K : Nat) (D : Nat → Bytes), listToBuffer nul true acc es = .ok (some cat) ∧
      Front L acc.toNat cat front (dataOffset acc.toNat (512 + cat.length)) ∧ 0 < K ∧
      (∀ i < K, (dataOffset acc.toNat (512 + cat.length) + i * acc.toNat, D i) ∈ wss.flatten ∧
        0 < (D i).length ∧ (D i).length ≤ acc.toNat) ∧
      ∀ w ∈ wss.flatten, w = (dataOffset acc.toNat (512 + cat.length) + K * acc.toNat, zeros 1024) ∨
        ∃ i < K, w = (dataOffset acc.toNat (512 + cat.length) + i * acc.toNat, D i) := by
  obtain ⟨cat, gs, call, D, hcat, hfw, hready, hlaid, hent, hD, hperm⟩ := run_parts hr hpad hnul hn h
  have hs := hr.setup
  have hmin := hr.accMin
  have hmax := hr.accMax
  have hclen : cat.length < 2 ^ 32 := listToBuffer_le hcat
  have hdn : 512 ∣ acc.toNat := by have := hr.accDvd; omega
  have hfront := frontWrites_ok (acc := acc.toNat) (by omega) (by omega) hdn hclen hr.clockCat hr.clockGap hfw
  refine ⟨cat, call.length, D, hcat, hfront, hready.numbered.2, ?_, ?_⟩
  · intro i hi
    obtain ⟨rest, r1, r2, r3, r4⟩ := hready.drop hi
    obtain ⟨g1, g2, g3⟩ := hready.group hs.accDvd r2
    have hl := (hD i hi).length_le g3 g2 hs.accDvd
    have hz := g1.bounds.1
    refine ⟨?_, ?_, by omega⟩
    · rw [hperm.mem_iff]
      unfold writesFor
      rw [List.mem_flatMap]
      exact ⟨i, by simpa using hi, by simp [bucketWrites]⟩
    · by_cases hlt : endOfGroup (outFrags gs) i < acc * (i : Nat) + acc
      · have := ((hD i hi).filler hlt).1
        omega
      · have := (hD i hi).full (by omega)
        omega
  · intro w hw
    rw [hperm.mem_iff] at hw
    unfold writesFor at hw
    rw [List.mem_flatMap] at hw
    obtain ⟨i, hi, hw⟩ := hw
    have hi : i < call.length := by simpa using hi
    unfold bucketWrites at hw
    rcases List.mem_cons.1 hw with rfl | hw
    · exact .inr ⟨i, hi, rfl⟩
    · split at hw
      · rename_i hl
        simp only [decide_eq_true_eq] at hl
        simp at hw; subst hw
        left; rw [hl]
      · simp at hw

/-- Two files made by writes that are the same below some place, and both reach beyond it, are the same
up to there. -/
theorem take_of_same {l l' : List WriteReq} {p : Nat} (h : l.Pairwise WApart) (h' : l'.Pairwise WApart)
    (hs : ∀ w : WriteReq, w.1 < p → w.2 ≠ [] → (w ∈ l ↔ w ∈ l')) (hl : p ≤ (l.foldl writeAt []).length)
    (hl' : p ≤ (l'.foldl writeAt []).length) : (l.foldl writeAt []).take p = (l'.foldl writeAt []).take p := by
  apply List.ext_getElem?
  intro i
  rw [List.getElem?_take, List.getElem?_take]
  by_cases hi : i < p
  swap
  · rw [if_neg hi, if_neg hi]
  rw [if_pos hi, if_pos hi]
  have hold := (foldl_writeAt_holds l [] h).1
  have hold' := (foldl_writeAt_holds l' [] h').1
  have hget : ∀ (f : Bytes) (w : WriteReq), Holds f w.1 w.2 → w.1 ≤ i → i < w.1 + w.2.length → f[i]? = w.2[i - w.1]? := by
    intro f w hw h1 h2
    unfold Holds at hw
    rw [← hw, List.getElem?_take, if_pos (by omega), List.getElem?_drop, show w.1 + (i - w.1) = i by omega]
  by_cases hex : ∃ w ∈ l, w.1 ≤ i ∧ i < w.1 + w.2.length
  · obtain ⟨w, hw, h1, h2⟩ := hex
    have hne : w.2 ≠ [] := by intro he; rw [he] at h2; simp at h2; omega
    rw [hget _ w (hold w hw) h1 h2, hget _ w (hold' w ((hs w (by omega) hne).1 hw)) h1 h2]
  · have hnone : ∀ w ∈ l, Apart i 1 w.1 w.2.length := by
      intro w hw
      by_contra hc
      unfold Apart at hc
      exact hex ⟨w, hw, by omega, by omega⟩
    have hnone' : ∀ w ∈ l', Apart i 1 w.1 w.2.length := by
      intro w hw
      by_contra hc
      unfold Apart at hc
      have hne : w.2 ≠ [] := by intro he; rw [he] at hc; simp at hc; omega
      exact hex ⟨w, (hs w (by omega) hne).2 hw, by omega, by omega⟩
    have z1 := foldl_untouched hnone [] (by intro j _ _; left; rfl) i (by omega) (by omega)
    have z2 := foldl_untouched hnone' [] (by intro j _ _; left; rfl) i (by omega) (by omega)
    rcases z1 with z1 | z1
    · rw [List.getElem?_eq_none_iff] at z1; omega
    rcases z2 with z2 | z2
    · rw [List.getElem?_eq_none_iff] at z2; omega
    rw [z1, z2]

/-! ### C55 -/

/-- C55: if in an interrupted run into a new file the first missing write (by its place in the file) is
one of data, and something behind it is there, then up to there the file is as the finished one, and
1024 zero bytes follow.  So it reads as the finished archive cut there and ended. -/
theorem C55_hole {L : LegEnv} {Q : QSort Frag} {nul arc top : Bytes} {tree : Bytes → Option FNode × FNode} {args : List Bytes}
    {n : Nat} {front : List WriteReq} {wss : List (List WriteReq)} (hg : GoodRun L Q nul arc top tree args n front wss)
    (eager : Bool) (s : LSys) (hs : LReach (rankMain L Q nul tree args n true) n eager [] s)
    (w : WriteReq) (hw : w ∈ wss.flatten) (hmiss : w ∉ s.log.map Prod.snd)
    (hfirst : ∀ w' ∈ front ++ wss.flatten, w'.1 < w.1 → w' ∈ s.log.map Prod.snd)
    (hlater : ∃ w' ∈ s.log.map Prod.snd, w.1 < w'.1) :
    s.file.take (w.1 + 1024) = ((front ++ wss.flatten).foldl writeAt []).take w.1 ++ zeros 1024 ∧
    ∀ xs, ReadsAs (((front ++ wss.flatten).foldl writeAt []).take w.1 ++ zeros 1024) xs → ReadsAs s.file xs := by
  obtain ⟨es, ms, h1, h3, h4, h5, h8, h9, h6, h7⟩ := main_run hg.platform hg.archivable Q
  have hmade := hg.made
  rw [h1 _ ((topAllowed_iff _).2 hg.seen)] at hmade
  have hap := (run_writes h3 blocking_free hg.platform.nul hg.ranks hmade).1
  obtain ⟨cat, K, D, hcat, hfr, hK, hD, hshape⟩ := run_shape h3 blocking_free hg.platform.nul hg.ranks hmade
  obtain ⟨hst, _, rest, hrest⟩ := C55_written_stays hg eager [] s hs
  have hb : legBucket.toNat = 4194304 := rfl
  rw [hb] at hfr hD hshape
  generalize hds : dataOffset 4194304 (512 + cat.length) = ds at *
  have hlogmem : ∀ u ∈ s.log.map Prod.snd, u ∈ front ++ wss.flatten := fun u hu =>
    hrest.mem_iff.1 (List.mem_append_left _ hu)
  have hpair : (s.log.map Prod.snd ++ rest).Pairwise WApart :=
    (hrest.pairwise_iff (fun {_ _} => WApart.symm)).2 hap
  obtain ⟨w1, hw1, hlt1⟩ := hlater
  -- the missing write is the data of a bucket
  obtain ⟨i, hi, rfl⟩ : ∃ i < K, w = (ds + i * 4194304, D i) := by
    rcases hshape w hw with rfl | h
    · exfalso
      simp only [] at hlt1
      rcases List.mem_append.1 (hlogmem w1 hw1) with h | h
      · have := hfr.below w1 h; omega
      · rcases hshape w1 h with rfl | ⟨j, hj, rfl⟩
        · simp at hlt1
        · have : j * 4194304 ≤ K * 4194304 := Nat.mul_le_mul_right _ (by omega)
          simp only [] at hlt1; omega
    · exact h
  simp only [] at hlt1 hfirst ⊢
  -- what has been written is all before, or behind the bucket
  have hside : ∀ u ∈ s.log.map Prod.snd, u.1 + u.2.length ≤ ds + i * 4194304 ∨ ds + i * 4194304 + 4194304 ≤ u.1 := by
    intro u hu
    rcases List.mem_append.1 (hlogmem u hu) with h | h
    · have := hfr.below u h; left; omega
    · rcases hshape u h with rfl | ⟨j, hj, rfl⟩
      · right
        have : (i + 1) * 4194304 ≤ K * 4194304 := Nat.mul_le_mul_right _ (by omega)
        simp only []; omega
      · have hl := (hD j hj).2.2
        simp only []
        rcases Nat.lt_trichotomy j i with h | h | h
        · left
          have : (j + 1) * 4194304 ≤ i * 4194304 := Nat.mul_le_mul_right _ (by omega)
          omega
        · subst h; exact absurd hu hmiss
        · right
          have : (i + 1) * 4194304 ≤ j * 4194304 := Nat.mul_le_mul_right _ (by omega)
          omega
  have h1pos : ds + i * 4194304 + 4194304 ≤ w1.1 := by
    rcases hside w1 hw1 with h | h <;> omega
  have h1ne : w1.2 ≠ [] := by
    rcases List.mem_append.1 (hlogmem w1 hw1) with h | h
    · have := hfr.below w1 h
      omega
    · rcases hshape w1 h with rfl | ⟨j, hj, rfl⟩
      · unfold zeros; exact List.cons_ne_nil _ _
      · have := (hD j hj).2.1
        simp only []
        exact List.length_pos_iff.1 this
  have hlen : ds + i * 4194304 + 4194304 < s.file.length := by
    obtain ⟨e, he, rfl⟩ := List.mem_map.1 hw1
    have := holds_le (hst e he) h1ne
    have := List.length_pos_iff.2 h1ne
    omega
  have hFlen : ds + i * 4194304 < ((front ++ wss.flatten).foldl writeAt []).length := by
    have hne := (hD i hi).2.1
    have := holds_le ((foldl_writeAt_holds _ [] hap).1 _ (List.mem_append_right front hw)) (List.length_pos_iff.1 hne)
    simp only [] at this
    omega
  have hcut : s.file.take (ds + i * 4194304) = ((front ++ wss.flatten).foldl writeAt []).take (ds + i * 4194304) := by
    rw [hs.inv.file] at hlen ⊢
    refine take_of_same (List.pairwise_append.1 hpair).1 hap ?_ (by omega) (by omega)
    intro u hu _
    exact ⟨hlogmem u, fun h => hfirst u h hu⟩
  have hz : (s.file.drop (ds + i * 4194304)).take 1024 = zeros 1024 := by
    have hun := foldl_untouched (ws := s.log.map Prod.snd) (a := ds + i * 4194304) (n := 1024) (by
      intro u hu
      unfold Apart
      rcases hside u hu with h | h
      · right; exact h
      · left; omega) [] (by intro j _ _; left; rfl)
    rw [← hs.inv.file] at hun
    apply List.ext_getElem?
    intro j
    rw [List.getElem?_take]
    by_cases hj : j < 1024
    · rw [if_pos hj, List.getElem?_drop]
      rcases hun (ds + i * 4194304 + j) (by omega) (by omega) with h | h
      · rw [List.getElem?_eq_none_iff] at h; omega
      · rw [h]; unfold zeros; rw [List.getElem?_replicate, if_pos hj]
    · rw [if_neg hj]; unfold zeros; rw [List.getElem?_replicate, if_neg hj]
  have htake : s.file.take (ds + i * 4194304 + 1024) =
      ((front ++ wss.flatten).foldl writeAt []).take (ds + i * 4194304) ++ zeros 1024 := by
    rw [List.take_add, hcut, hz]
  refine ⟨htake, ?_⟩
  intro xs hxs
  rw [← htake] at hxs
  obtain ⟨t1, t2⟩ := terminated_append _ (s.file.drop (ds + i * 4194304 + 1024)) hxs.2
  rw [List.take_append_drop] at t1 t2
  exact ⟨by rw [t1]; exact hxs.1, t2⟩

/-! ### the hypotheses are met -/

/-- The directory with the large file is archived by two ranks, the second of which writes a bucket. -/
theorem big_good_two (Q : QSort Frag) : ∃ front wss, GoodRun bigEnv Q glibcNull [97] [100] (fun _ => (some bigDemo, bigDemo))
    [[112], [67], [97], [100]] 2 front wss ∧ (∀ cat, (512, cat) ∈ front → (cat.length + 1024) % 4194304 ≠ 0) ∧
    ∃ ws w, wss[1]? = some ws ∧ w ∈ ws ∧ w.2 ≠ [] := by
  obtain ⟨front, wss, h⟩ := C48_run_succeeds bigEnv Q glibcNull [100] bigDemo big_platform (by decide) big_archivable
    (some bigDemo) trivial 2 (by omega) big_short (by
      intro os hnd hv
      have hsub : os ⊆ [([], bigDemo), ([[97]], .reg ⟨0, 0, 0, 0⟩ bigData)] := by
        intro o ho
        rcases o with ⟨p, n⟩
        rcases big_cases (hv _ ho) with ⟨h1, h2⟩ | ⟨h1, h2⟩ <;> simp only [] at h1 h2 <;> rw [h1, h2] <;> simp
      have hl := (List.subperm_of_subset hnd hsub).length_le
      have hmul := sum_le_mul (fun o => fileLength o.2 / 4194304 + 2) os 10 (by
        intro o ho
        rcases o with ⟨p, n⟩
        rcases big_cases (hv _ ho) with ⟨_, h2⟩ | ⟨_, h2⟩ <;> simp only [] at h2 <;> rw [h2] <;> simp [fileLength, bigDemo, bigData_len])
      simp only [List.length_cons, List.length_nil] at hl
      omega)
  have hg : GoodRun bigEnv Q glibcNull [97] [100] (fun _ => (some bigDemo, bigDemo)) [[112], [67], [97], [100]] 2 front wss :=
    ⟨⟨[112], [], rfl⟩, by decide, big_platform, big_archivable, trivial, by omega, h⟩
  refine ⟨front, wss, hg, ?_, ?_⟩
  · refine gap_of_few big_platform (by decide) big_archivable (seen := some bigDemo) trivial (n := 2) (by omega) big_short [[], [[97]]] ?_ (by simp) h
    intro p m hv
    rcases big_cases hv with ⟨rfl, _⟩ | ⟨rfl, _⟩ <;> simp
  · exact second_bucket hg (by omega) big_visible (by rw [bigData_len]; omega)

/-- C55_hole: rank 0 of two has written only what comes before the data, rank 1 all it has to write; the
finished archive cut before the first bucket reads as parfu's own members. -/
example (Q : QSort Frag) (eager : Bool) : ∃ front wss s w xs, GoodRun bigEnv Q glibcNull [97] [100] (fun _ => (some bigDemo, bigDemo))
    [[112], [67], [97], [100]] 2 front wss ∧
    LReach (rankMain bigEnv Q glibcNull (fun _ => (some bigDemo, bigDemo)) [[112], [67], [97], [100]] 2 true) 2 eager [] s ∧
    w ∈ wss.flatten ∧ w ∉ s.log.map Prod.snd ∧ (∀ w' ∈ front ++ wss.flatten, w'.1 < w.1 → w' ∈ s.log.map Prod.snd) ∧
    (∃ w' ∈ s.log.map Prod.snd, w.1 < w'.1) ∧
    ReadsAs (((front ++ wss.flatten).foldl writeAt []).take w.1 ++ zeros 1024) xs ∧ ReadsAs s.file xs ∧
    ∀ m ∈ xs, ownMember m = true := by
  obtain ⟨front, wss, hg, hgap, ws, v, hws, hv, hvne⟩ := big_good_two Q
  obtain ⟨s, hs, k1, k2⟩ := C55_looks_complete_happens hg eager [] 1 (by decide) ws hws
  obtain ⟨es, ms, h1, h3, h4, h5, h8, h9, h6, h7⟩ := main_run hg.platform hg.archivable Q
  have hmade := hg.made
  rw [h1 _ ((topAllowed_iff _).2 hg.seen)] at hmade
  have hap := (run_writes h3 blocking_free hg.platform.nul hg.ranks hmade).1
  obtain ⟨cat, K, D, hcat, hfr, hK, hD, hshape⟩ := run_shape h3 blocking_free hg.platform.nul hg.ranks hmade
  have hb : legBucket.toNat = 4194304 := rfl
  rw [hb] at hfr hD hshape
  have hclen : cat.length < 2 ^ 32 := listToBuffer_le hcat
  obtain ⟨d1, d2, d3⟩ := dataOffset_spec (acc := 4194304) (len := 512 + cat.length) (by omega)
  have hg1 : 512 + cat.length + 512 ≠ dataOffset 4194304 (512 + cat.length) := by
    intro he
    apply hgap cat hfr.text
    rw [show cat.length + 1024 = 512 + cat.length + 512 by omega, he]
    exact Nat.mod_eq_zero_of_dvd d1
  generalize hds : dataOffset 4194304 (512 + cat.length) = ds at *
  obtain ⟨q1, q2, q3⟩ := hD 0 hK
  rw [show ds + 0 * 4194304 = ds by omega] at q1
  have hvlog : v ∈ s.log.map Prod.snd := List.mem_map_of_mem (k1 v hv)
  have hvm : v ∈ wss.flatten := List.mem_flatten.2 ⟨ws, List.mem_of_getElem? hws, hv⟩
  obtain ⟨cat', text, call, fr, g, hf⟩ := (legacyMain_iff hg.ranks hg.arc).1 hg.made
  have hcat' : ∃ es', listToBuffer glibcNull true legBucket es' = .ok (some cat') := by
    obtain ⟨es', _, h2, _⟩ := g.plan
    refine ⟨es', ?_⟩
    unfold rank0Catalog at h2
    split at h2
    · cases h2
    · cases h2
    · rename_i c hc'
      rw [if_neg hg.arc] at h2
      cases h2; exact hc'
  obtain ⟨es', hcat'⟩ := hcat'
  have hfr' := frontWrites_ok (acc := 4194304) (by omega) (by omega) (by omega) (listToBuffer_le hcat') hg.platform.clockCat hg.platform.clockGap g.front
  have hpos : ∀ {es : List Frag} {cat : Bytes}, listToBuffer glibcNull true legBucket es = .ok (some cat) → 0 < cat.length := by
    intro es cat h
    rw [(listToBuffer_text h).1]; simp [catText]
  have hce : cat' = cat := by
    by_contra hne
    have hsym : Std.Symm WApart := ⟨fun _ _ => WApart.symm⟩
    have := hfr.apart.forall hfr.text hfr'.text (by simp; exact fun h => hne h.symm)
    have p1 := hpos hcat
    have p2 := hpos hcat'
    unfold WApart Apart at this
    simp only [] at this
    omega
  subst hce
  have hrank : ∀ q u, (q, u) ∈ s.log → u ∈ front ∨ ds + 4194304 ≤ u.1 := by
    intro q u he
    by_cases hq : q = 0
    · subst hq; exact .inl (k2 u he)
    · right
      obtain ⟨pre, p1, _, p3⟩ := hs.inv.split q
      have hm : u ∈ (rankMain bigEnv Q glibcNull (fun _ => (some bigDemo, bigDemo)) [[112], [67], [97], [100]] 2 true q).acts.filterMap LAct.req := by
        rw [p1, List.filterMap_append, p3]
        exact List.mem_append_left _ (List.mem_map.2 ⟨(q, u), by simp [List.mem_filter, he], rfl⟩)
      rw [goes_writes g hg.call, if_neg hq, List.nil_append] at hm
      have := dataRun_pos bigEnv cat' call fr 2 q hg.ranks u hm
      rw [hds] at this
      have : 1 * 4194304 ≤ q * 4194304 := Nat.mul_le_mul_right _ (by omega)
      omega
  have hmiss : ((ds, D 0) : WriteReq) ∉ s.log.map Prod.snd := by
    intro h
    obtain ⟨⟨q, u⟩, he, rfl⟩ := List.mem_map.1 h
    rcases hrank q _ he with h | h
    · have := hfr.below _ h; simp only [] at this; omega
    · simp only [] at h; omega
  have hlater : ∃ w' ∈ s.log.map Prod.snd, ds < w'.1 := by
    refine ⟨v, hvlog, ?_⟩
    rcases hshape v hvm with rfl | ⟨j, hj, rfl⟩
    · simp only []; omega
    · by_cases h0 : j = 0
      · subst h0
        rw [show ds + 0 * 4194304 = ds by omega] at hvlog
        exact absurd hvlog hmiss
      · simp only []; omega
  have hfirst : ∀ w' ∈ front ++ wss.flatten, w'.1 < ds → w' ∈ s.log.map Prod.snd := by
    intro w' hw' hlt
    rcases List.mem_append.1 hw' with h | h
    · exact List.mem_map_of_mem (f := Prod.snd) (goes_front g hg.call hs (k1 v hv) (fun h => absurd h.1 (by decide)) w' h)
    · rcases hshape w' h with rfl | ⟨j, hj, rfl⟩ <;> simp only [] at hlt <;> omega
  have hFlen : ds ≤ ((front ++ wss.flatten).foldl writeAt []).length := by
    have := holds_le ((foldl_writeAt_holds _ [] hap).1 _ (List.mem_append_right front q1)) (List.length_pos_iff.1 q2)
    simp only [] at this
    omega
  have hcl : (((front ++ wss.flatten).foldl writeAt []).take ds).length = ds := by rw [List.length_take]; omega
  obtain ⟨m, xs, m1, m2, m3, m4⟩ := readsTo_front (A := ((front ++ wss.flatten).foldl writeAt []).take ds ++ zeros 1024)
    (by omega) hclen hg.platform.clockCat hg.platform.clockGap hfr hg1 (by rw [List.length_append]; omega) (by
      intro u hu
      have h1 := (foldl_writeAt_holds _ [] hap).1 u (List.mem_append_left _ hu)
      have h2 := hfr.below u hu
      unfold Holds at h1 ⊢
      rw [List.drop_append_of_le_length (by omega), List.take_append_of_le_length (by rw [List.length_drop]; omega),
        List.drop_take, List.take_take, show min u.2.length (ds - u.1) = u.2.length by omega]
      exact h1)
  have hz : (zeros 1024).take 1024 = zeros 1024 := by
    rw [List.take_of_length_le]; unfold zeros; rw [List.length_replicate]
  have hread : ReadsAs (((front ++ wss.flatten).foldl writeAt []).take ds ++ zeros 1024) (m :: xs) := by
    have := m4 [] (by
      rw [List.drop_append_of_le_length (by omega), List.drop_of_length_le (by omega), List.nil_append]
      exact ⟨by rw [readArchive, if_pos (.inr hz)], by rw [terminated, if_pos hz]⟩)
    simpa using this
  refine ⟨front, wss, s, (ds, D 0), m :: xs, hg, hs, q1, hmiss, hfirst, hlater, hread,
    (C55_hole hg eager s hs _ q1 hmiss hfirst hlater).2 _ hread, ?_⟩
  intro x hx
  rcases List.mem_cons.1 hx with rfl | hx
  · simp [ownMember, m1.1, m1.2, catalogName]
  · exact m3 x hx

end Parfu.Props
