/-
C55: what is in the file when a legacy run is interrupted.
-/
import Verif.PropsLegacyHang
set_option autoImplicit false

namespace Parfu.Props
open Parfu ScanSpec LegacyScanSpec MoveSpec TarSpec LegacyRunSpec RanksSpec

/-! ### lemmas -/

theorem reach_extend {P P' : Nat → RankProg} {n : Nat} {eager : Bool} {old : Bytes} {rest : Nat → List LAct} {s : LSys}
    (hP : ∀ r, (P r).acts = (P' r).acts ++ rest r) (h : LReach P' n eager old s) :
    LReach P n eager old ⟨fun r => s.todo r ++ rest r, s.cnt, s.log, s.file⟩ := by
  have up : ∀ (f : Nat → List LAct) (r : Nat) (k : List LAct),
      (fun q => Function.update f r k q ++ rest q) = Function.update (fun q => f q ++ rest q) r (k ++ rest r) := by
    intro f r k
    funext q
    by_cases hq : q = r
    · subst hq; simp
    · simp [Function.update_of_ne hq]
  have ent : ∀ (s : LSys) q c, entered s q c → entered ⟨fun r => s.todo r ++ rest r, s.cnt, s.log, s.file⟩ q c := by
    intro s q c he
    rcases he with he | ⟨he, he'⟩
    · exact .inl he
    · refine .inr ⟨he, ?_⟩
      cases hd : s.todo q with
      | nil => rw [hd] at he'; simp at he'
      | cons a k => rw [hd] at he'; simpa [hd] using he'
  induction h with
  | start =>
    have : (⟨fun r => (LSys.start P' old).todo r ++ rest r, (LSys.start P' old).cnt, (LSys.start P' old).log,
        (LSys.start P' old).file⟩ : LSys) = .start P old := by
      simp only [LSys.start, hP]
    rw [this]; exact .start
  | @step s _ _ hst ih =>
    refine .step ih ?_
    cases hst with
    | @write r w k hr h =>
      simp only []
      rw [up]
      exact LStep.write (s := ⟨fun r => s.todo r ++ rest r, s.cnt, s.log, s.file⟩) hr (by simp [h])
    | @leave r a k hr h hc hl =>
      simp only []
      rw [up]
      refine LStep.leave (s := ⟨fun r => s.todo r ++ rest r, s.cnt, s.log, s.file⟩) (a := a) hr (by simp [h]) hc ?_
      cases a with
      | write w => cases hc
      | sync => exact fun q hq => ent s q _ (hl q hq)
      | bcast =>
        unfold mayLeave at hl ⊢
        by_cases h0 : r = 0
        · simp only [if_pos h0] at hl ⊢
          rcases hl with hl | hl
          · exact .inl hl
          · exact .inr fun q hq => ent s q _ (hl q hq)
        · simp only [if_neg h0] at hl ⊢
          exact ent s 0 _ hl

theorem reach_end {P : Nat → RankProg} {n K : Nat} (eager : Bool) (old : Bytes)
    (hK : ∀ r < n, (collsOf (P r).acts).length = K) : ∃ s, LReach P n eager old s ∧ ∀ r < n, s.ended r := by
  have key : ∀ m s, LReach P n eager old s → workLeft n s = m → ∃ s, LReach P n eager old s ∧ ∀ r < n, s.ended r := by
    intro m
    induction m with
    | zero =>
      intro s hs hm
      refine ⟨s, hs, ?_⟩
      apply Classical.byContradiction
      intro hne
      have : ∃ r < n, ¬ s.ended r := by
        apply Classical.byContradiction
        intro hx
        exact hne fun r hr => Classical.byContradiction fun he => hx ⟨r, hr, he⟩
      obtain ⟨t, ht⟩ := hs.progress hK this
      have := ht.workLeft_lt
      omega
    | succ m ih =>
      intro s hs hm
      by_cases hall : ∀ r < n, s.ended r
      · exact ⟨s, hs, hall⟩
      · have : ∃ r < n, ¬ s.ended r := by
          apply Classical.byContradiction
          intro hx
          exact hall fun r hr => Classical.byContradiction fun he => hx ⟨r, hr, he⟩
        obtain ⟨t, ht⟩ := hs.progress hK this
        have := ht.workLeft_lt
        exact ih t (.step hs ht) (by omega)
  exact key _ _ .start rfl

theorem reach_writes {P : Nat → RankProg} {n : Nat} {eager : Bool} {old : Bytes} {q : Nat} (hq : q < n) {k : List LAct}
    (ws : List WriteReq) : ∀ s, LReach P n eager old s → s.todo q = ws.map .write ++ k →
    ∃ t, LReach P n eager old t ∧ t.log = s.log ++ ws.map (fun w => (q, w)) := by
  induction ws with
  | nil => intro s hs _; exact ⟨s, hs, by simp⟩
  | cons w ws ih =>
    intro s hs h
    obtain ⟨t, h1, h2⟩ := ih _ (.step hs (.write hq h)) (by simp)
    exact ⟨t, h1, by rw [h2]; simp⟩

theorem flatMap_sublist {α β : Type} {f g : α → List β} (rs : List α) (h : ∀ r ∈ rs, (f r).Sublist (g r)) :
    (rs.flatMap f).Sublist (rs.flatMap g) := by
  induction rs with
  | nil => simp
  | cons r rs ih =>
    rw [List.flatMap_cons, List.flatMap_cons]
    exact (h r (by simp)).append (ih fun q hq => h q (by simp [hq]))

theorem bucket_pos (L : LegEnv) (bl acc : Int) (dstart : Nat) (fr : List Frag) (call : List Nat) (is : List Nat) (lo : Nat)
    (hlo : ∀ i ∈ is, lo ≤ i) :
    ∀ (buf : Bytes), ∀ w ∈ (bucketsRun L bl acc dstart fr call is buf).1, dstart + lo * acc.toNat ≤ w.1 := by
  have one : ∀ i buf buf' ws, oneBucket L bl acc dstart fr call i buf = .ok (some (buf', ws)) →
      ∀ w ∈ ws, dstart + i * acc.toNat ≤ w.1 := by
    intro i buf buf' ws h
    unfold oneBucket at h
    split at h
    · cases h
    split at h
    · cases h
    split at h
    · cases h
    split at h
    · cases h
    obtain ⟨⟨s, rest⟩, _, h⟩ := bindRO_eq h
    simp only [] at h
    split at h
    · cases h
    split at h
    · cases h
    split at h
    · unfold terminate at h
      split at h
      · cases h
      · rename_i b t ht
        split at ht
        · cases ht
        · cases ht
          cases h
          intro w hw
          simp only [List.mem_cons, List.not_mem_nil, or_false] at hw
          have : i * acc.toNat ≤ (i + 1) * acc.toNat := Nat.mul_le_mul_right _ (by omega)
          rcases hw with rfl | rfl
          · exact Nat.le_refl _
          · simp only []; omega
    · cases h
      intro w hw
      simp only [List.mem_cons, List.not_mem_nil, or_false] at hw
      subst hw; exact Nat.le_refl _
  induction is with
  | nil => intro buf w hw; simp [bucketsRun] at hw
  | cons i is ih =>
    intro buf w hw
    unfold bucketsRun at hw
    split at hw
    · simp at hw
    · simp at hw
    · rename_i buf' ws h
      rcases List.mem_append.1 hw with hw | hw
      · have := one i buf buf' ws h w hw
        have : lo * acc.toNat ≤ i * acc.toNat := Nat.mul_le_mul_right _ (hlo i (by simp))
        omega
      · exact ih (fun j hj => hlo j (by simp [hj])) _ w hw

theorem dataRun_pos (L : LegEnv) (cat : Bytes) (call : List Nat) (fr : List Frag) (n r : Nat) (hn : 0 < n) :
    ∀ w ∈ (dataRun L cat call fr n r).1, dataOffset 4194304 (512 + cat.length) + r * 4194304 ≤ w.1 :=
  bucket_pos L 512 4194304 _ fr call _ r (fun _ hi => ((mem_rankBuckets hn _ _).1 hi).1) _

section
variable {L : LegEnv} {Q : QSort Frag} {nul arc top : Bytes} {tree : Bytes → Option FNode × FNode} {args : List Bytes}
variable {front : List WriteReq} {cat text : Bytes} {call : List Nat} {fr : List Frag}

/-- The writes made so far are some of the writes of all ranks. -/
theorem goes_log (g : Goes L Q nul arc top (tree top).1 (tree top).2 front cat text call fr)
    (hc : CreateCall args arc top) {n : Nat} (hn : 0 < n) {eager : Bool} {old : Bytes} {s : LSys}
    (hs : LReach (rankMain L Q nul tree args n true) n eager old s) :
    ∃ l : List WriteReq, l.Perm (s.log.map Prod.snd) ∧
      l.Sublist (front ++ ((List.range n).map fun r => (dataRun L cat call fr n r).1).flatten) := by
  refine ⟨_, (log_perm hs.inv.ranks).symm, ?_⟩
  rw [← List.flatMap_def, ← flatMap_front n hn]
  apply flatMap_sublist
  intro r _
  rw [← goes_writes g hc n r]
  obtain ⟨pre, h1, _, h3⟩ := hs.inv.split r
  rw [← h3, h1, List.filterMap_append]
  exact List.sublist_append_left _ _

/-- A rank that has made a write of data has all of the head of its program behind it. -/
theorem goes_past_head (g : Goes L Q nul arc top (tree top).1 (tree top).2 front cat text call fr)
    (hc : CreateCall args arc top) {n : Nat} {eager : Bool} {old : Bytes} {s : LSys}
    (hs : LReach (rankMain L Q nul tree args n true) n eager old s) {r : Nat} {w : WriteReq} (hw : (r, w) ∈ s.log)
    (hd : ¬ (r = 0 ∧ w ∈ front)) : 12 ≤ s.cnt r := by
  obtain ⟨pre, h1, h2, h3⟩ := hs.inv.split r
  have hin : w ∈ pre.filterMap LAct.req := by
    rw [h3, List.mem_map]
    exact ⟨(r, w), by simp [List.mem_filter, hw], rfl⟩
  have ha := (goes_acts g hc n r).1
  rw [h1] at ha
  rcases List.append_eq_append_iff.1 ha with ⟨u, k1, k2⟩ | ⟨u, k1, k2⟩
  · exfalso
    have hm : w ∈ (headActs front r).filterMap LAct.req := by rw [k1, List.filterMap_append]; exact List.mem_append_left _ hin
    rw [headActs_writes] at hm
    split at hm
    · exact hd ⟨by assumption, hm⟩
    · cases hm
  · rw [h2, k1, collsOf_append, List.length_append, headActs_colls]; omega

/-- Once some rank has written data, rank 0 has written all that comes before the data. -/
theorem goes_front (g : Goes L Q nul arc top (tree top).1 (tree top).2 front cat text call fr)
    (hc : CreateCall args arc top) {n : Nat} {eager : Bool} {old : Bytes} {s : LSys}
    (hs : LReach (rankMain L Q nul tree args n true) n eager old s) {r : Nat} {w : WriteReq} (hw : (r, w) ∈ s.log)
    (hd : ¬ (r = 0 ∧ w ∈ front)) : ∀ u ∈ front, (0, u) ∈ s.log := by
  have hi := hs.inv
  have hr := hi.ranks _ hw
  have h12 := goes_past_head g hc hs hw hd
  have hsync : (collsOf (rankMain L Q nul tree args n true r).acts)[11]? = some .sync := by
    rw [(goes_acts g hc n r).1, collsOf_append, List.getElem?_append_left (by rw [headActs_colls]; omega)]
    unfold headActs
    simp only [collsOf_append]
    have : collsOf (if r = 0 then front.map LAct.write else []) = [] := by
      split
      · exact collsOf_writes _
      · rfl
    rw [this]; rfl
  have he := hi.barrier r hr 11 (by omega) hsync 0 (by simp only [] at hr; omega)
  obtain ⟨pre, h1, h2, h3⟩ := hi.split 0
  have ha := (goes_acts g hc n 0).1
  rw [h1] at ha
  have hcnt : 11 ≤ (collsOf pre).length := by rw [← h2]; rcases he with he | ⟨he, _⟩ <;> omega
  have hh : headActs front 0 = ([.bcast, .bcast, .sync, .bcast, .bcast, .sync] ++ front.map .write) ++
      [.bcast, .bcast, .bcast, .bcast, .bcast, .sync] := by
    unfold headActs; simp
  rw [hh, List.append_assoc] at ha
  intro u hu
  have hu' : u ∈ pre.filterMap LAct.req := by
    rcases List.append_eq_append_iff.1 ha with ⟨v, k1, k2⟩ | ⟨v, k1, k2⟩
    · exfalso
      have := congrArg (fun l => (collsOf l).length) k1
      simp only [collsOf_append, collsOf_writes, List.length_append] at this
      have e6 : (collsOf [LAct.bcast, .bcast, .sync, .bcast, .bcast, .sync]).length = 6 := rfl
      rw [e6] at this
      simp only [List.length_nil] at this
      omega
    · rw [k1, List.filterMap_append, List.filterMap_append, filterMap_writes]
      exact List.mem_append_left _ (List.mem_append_right _ hu)
  rw [h3, List.mem_map] at hu'
  obtain ⟨e, e1, e2⟩ := hu'
  obtain ⟨e3, e4⟩ := List.mem_filter.1 e1
  have : e = (0, u) := Prod.ext (by simpa using e4) e2
  rw [← this]; exact e3

end

/-! ### C55 -/

/-- What a run needs to be looked at here: it is a call in mode C on an archivable tree, and the archive
can be made. -/
structure GoodRun (L : LegEnv) (Q : QSort Frag) (nul arc top : Bytes) (tree : Bytes → Option FNode × FNode) (args : List Bytes)
    (n : Nat) (front : List WriteReq) (wss : List (List WriteReq)) : Prop where
  call : CreateCall args arc top
  arc : arc ≠ []
  platform : Platform L nul
  archivable : LegArchivable L.env L.fs top (tree top).2
  seen : DirOrLink (tree top).1
  ranks : 0 < n
  made : legacyMain L Q nul top (tree top).1 (tree top).2 n = .ok (some (front, wss))

/-- C55: at whatever point a run is interrupted, the file holds every write made so far, unchanged by the
others, and elsewhere what it held before; and the writes made so far are some of the writes of the
finished archive. -/
theorem C55_written_stays {L : LegEnv} {Q : QSort Frag} {nul arc top : Bytes} {tree : Bytes → Option FNode × FNode} {args : List Bytes}
    {n : Nat} {front : List WriteReq} {wss : List (List WriteReq)} (hg : GoodRun L Q nul arc top tree args n front wss)
    (eager : Bool) (old : Bytes) (s : LSys) (hs : LReach (rankMain L Q nul tree args n true) n eager old s) :
    (∀ e ∈ s.log, Holds s.file e.2.1 e.2.2) ∧
    (∀ pos b, Holds old pos b → (∀ e ∈ s.log, Apart pos b.length e.2.1 e.2.2.length) → Holds s.file pos b) ∧
    ∃ rest : List WriteReq, (s.log.map Prod.snd ++ rest).Perm (front ++ wss.flatten) := by
  obtain ⟨cat, text, call, fr, g, hf⟩ := (legacyMain_iff hg.ranks hg.arc).1 hg.made
  obtain ⟨hw, hnone⟩ := forall2_flatten hf
  obtain ⟨l, hl1, hl2⟩ := goes_log g hg.call hg.ranks hs
  rw [← hw] at hl2
  have hap := (C47_writes_apart L Q nul top (tree top).2 hg.platform hg.archivable (tree top).1 hg.seen n hg.ranks front wss hg.made).1
  have hp : (s.log.map Prod.snd).Pairwise WApart :=
    (hl1.pairwise_iff (fun {_ _} => WApart.symm)).1 (hap.sublist hl2)
  obtain ⟨h1, h2⟩ := foldl_writeAt_holds (s.log.map Prod.snd) old hp
  rw [← hs.inv.file] at h1 h2
  refine ⟨fun e he => h1 e.2 (List.mem_map_of_mem he), ?_, ?_⟩
  · intro pos b hb hb'
    refine h2 pos b hb ?_
    intro w hw
    obtain ⟨e, he, rfl⟩ := List.mem_map.1 hw
    exact hb' e he
  · obtain ⟨rest, hrest⟩ := hl2.exists_perm_append
    exact ⟨rest, (hl1.symm.append_right rest).trans hrest.symm⟩

/-- C55: the catalog and its filler are in the file before any data is. -/
theorem C55_catalog_first {L : LegEnv} {Q : QSort Frag} {nul arc top : Bytes} {tree : Bytes → Option FNode × FNode} {args : List Bytes}
    {n : Nat} {front : List WriteReq} {wss : List (List WriteReq)} (hg : GoodRun L Q nul arc top tree args n front wss)
    (eager : Bool) (old : Bytes) (s : LSys) (hs : LReach (rankMain L Q nul tree args n true) n eager old s)
    (e : Nat × WriteReq) (he : e ∈ s.log) (hd : e.2 ∉ front) : ∀ u ∈ front, Holds s.file u.1 u.2 := by
  obtain ⟨cat, text, call, fr, g, hf⟩ := (legacyMain_iff hg.ranks hg.arc).1 hg.made
  intro u hu
  have := goes_front g hg.call hs (r := e.1) (w := e.2) he (fun h => hd h.2) u hu
  exact (C55_written_stays hg eager old s hs).1 _ this

/-- C55 (violated): an interrupted run can leave a file that looks like a complete archive.  Whenever
in a new file some rank other than rank 0 has already written data and rank 0 has not, the file is a
properly terminated archive with none of the objects of the tree in it. -/
theorem C55_looks_complete {L : LegEnv} {Q : QSort Frag} {nul arc top : Bytes} {tree : Bytes → Option FNode × FNode} {args : List Bytes}
    {n : Nat} {front : List WriteReq} {wss : List (List WriteReq)} (hg : GoodRun L Q nul arc top tree args n front wss)
    (hgap : ∀ cat, (512, cat) ∈ front → (cat.length + 1024) % 4194304 ≠ 0)
    (eager : Bool) (s : LSys) (hs : LReach (rankMain L Q nul tree args n true) n eager [] s)
    (hq : ∃ q w, q ≠ 0 ∧ (q, w) ∈ s.log ∧ w.2 ≠ []) (h0 : ∀ w, (0, w) ∈ s.log → w ∈ front) :
    terminated s.file = true ∧ ∃ cat all, readArchive s.file = some (cat :: all) ∧ cat.path = catalogName ∧
      ∀ m ∈ all, ownMember m = true := by
  obtain ⟨cat, text, call, fr, g, hf⟩ := (legacyMain_iff hg.ranks hg.arc).1 hg.made
  obtain ⟨q, w, hq0, hqw, hwne⟩ := hq
  have hcat : ∃ es, listToBuffer nul true legBucket es = .ok (some cat) := by
    obtain ⟨es, _, h2, _⟩ := g.plan
    refine ⟨es, ?_⟩
    unfold rank0Catalog at h2
    split at h2
    · cases h2
    · cases h2
    · rename_i c hc'
      rw [if_neg hg.arc] at h2
      cases h2; exact hc'
  obtain ⟨es, hcat⟩ := hcat
  have hclen : cat.length < 2 ^ 32 := listToBuffer_le hcat
  have hfront := frontWrites_ok (acc := 4194304) (by omega) (by omega) (by omega) hclen hg.platform.clockCat hg.platform.clockGap g.front
  have hpos : ∀ e ∈ s.log, e.2 ∈ front ∨ dataOffset 4194304 (512 + cat.length) + 4194304 ≤ e.2.1 := by
    rintro ⟨r, u⟩ he
    by_cases hr : r = 0
    · subst hr; exact .inl (h0 u he)
    · right
      obtain ⟨pre, h1, _, h3⟩ := hs.inv.split r
      have hm : u ∈ (rankMain L Q nul tree args n true r).acts.filterMap LAct.req := by
        rw [h1, List.filterMap_append, h3]
        exact List.mem_append_left _ (List.mem_map.2 ⟨(r, u), by simp [List.mem_filter, he], rfl⟩)
      rw [goes_writes g hg.call, if_neg hr, List.nil_append] at hm
      have := dataRun_pos L cat call fr n r hg.ranks u hm
      have : 1 * 4194304 ≤ r * 4194304 := Nat.mul_le_mul_right _ (by omega)
      simp only []; omega
  have hholds : ∀ u ∈ front, Holds s.file u.1 u.2 := by
    intro u hu
    exact (C55_written_stays hg eager [] s hs).1 _ (goes_front g hg.call hs hqw (fun h => hq0 h.1) u hu)
  have hd3 := dataOffset_spec (acc := 4194304) (len := 512 + cat.length) (by omega)
  have hg1 : 512 + cat.length + 512 ≠ dataOffset 4194304 (512 + cat.length) := by
    intro he
    apply hgap cat hfront.text
    rw [show cat.length + 1024 = 512 + cat.length + 512 by omega, he]
    exact Nat.mod_eq_zero_of_dvd hd3.1
  have hwpos : dataOffset 4194304 (512 + cat.length) + 4194304 ≤ w.1 := by
    rcases hpos _ hqw with h | h
    · -- a write of rank q is not one of rank 0's
      obtain ⟨pre, h1, _, h3⟩ := hs.inv.split q
      have hm : w ∈ (rankMain L Q nul tree args n true q).acts.filterMap LAct.req := by
        rw [h1, List.filterMap_append, h3]
        exact List.mem_append_left _ (List.mem_map.2 ⟨(q, w), by simp [List.mem_filter, hqw], rfl⟩)
      rw [goes_writes g hg.call, if_neg hq0, List.nil_append] at hm
      have := dataRun_pos L cat call fr n q hg.ranks w hm
      have : 1 * 4194304 ≤ q * 4194304 := Nat.mul_le_mul_right _ (by omega)
      omega
    · exact h
  generalize hds : dataOffset 4194304 (512 + cat.length) = ds at *
  have hlen : ds + 4194304 < s.file.length := by
    have hh := (C55_written_stays hg eager [] s hs).1 _ hqw
    unfold Holds at hh
    have hl := congrArg List.length hh
    simp only [List.length_take, List.length_drop] at hl
    have : 0 < w.2.length := List.length_pos_iff.2 hwne
    omega
  have hz : (s.file.drop ds).take 1024 = zeros 1024 := by
    have hun := foldl_untouched (ws := s.log.map Prod.snd) (a := ds) (n := 1024) (by
      intro u hu
      obtain ⟨e, he, rfl⟩ := List.mem_map.1 hu
      rcases hpos e he with h | h
      · have := hfront.below _ h
        right; omega
      · left; omega) [] (by intro i _ _; left; rfl)
    rw [← hs.inv.file] at hun
    apply List.ext_getElem?
    intro i
    rw [List.getElem?_take]
    by_cases hi : i < 1024
    · rw [if_pos hi, List.getElem?_drop]
      rcases hun (ds + i) (by omega) (by omega) with h | h
      · rw [List.getElem?_eq_none_iff] at h; omega
      · rw [h]; unfold zeros; rw [List.getElem?_replicate, if_pos hi]
    · rw [if_neg hi]; unfold zeros; rw [List.getElem?_replicate, if_neg hi]
  obtain ⟨m, xs, m1, m2, m3, m4⟩ := readsTo_front (by omega) hclen hg.platform.clockCat hg.platform.clockGap hfront hg1
    (by omega) hholds
  have hend : ReadsAs (s.file.drop ds) [] := by
    constructor
    · rw [readArchive, if_pos (.inr hz)]
    · rw [terminated, if_pos hz]
  have := m4 [] hend
  simp only [List.drop_zero, List.append_nil] at this
  exact ⟨this.2, m, xs, this.1, m1.1, m3⟩

/-- C55 (violated): and this does happen: as soon as a rank other than rank 0 has anything to write,
some schedule leads there. -/
theorem C55_looks_complete_happens {L : LegEnv} {Q : QSort Frag} {nul arc top : Bytes} {tree : Bytes → Option FNode × FNode}
    {args : List Bytes} {n : Nat} {front : List WriteReq} {wss : List (List WriteReq)} (hg : GoodRun L Q nul arc top tree args n front wss)
    (eager : Bool) (old : Bytes) (q : Nat) (hq : q ≠ 0) (ws : List WriteReq) (hws : wss[q]? = some ws) :
    ∃ s, LReach (rankMain L Q nul tree args n true) n eager old s ∧ (∀ w ∈ ws, (q, w) ∈ s.log) ∧
      ∀ w, (0, w) ∈ s.log → w ∈ front := by
  obtain ⟨cat, text, call, fr, g, hf⟩ := (legacyMain_iff hg.ranks hg.arc).1 hg.made
  obtain ⟨hw, hnone⟩ := forall2_flatten hf
  have hqn : q < n := by
    have := (List.getElem?_eq_some_iff.1 hws).1
    rw [hw] at this; simpa using this
  have hwq : (dataRun L cat call fr n q).1 = ws := by
    rw [hw, List.getElem?_map, List.getElem?_range hqn] at hws
    simpa using hws
  obtain ⟨s, hs, he⟩ := reach_end (P := fun r => ⟨headActs front r, .exited 0⟩) (n := n) (K := 12) eager old
    (fun r _ => headActs_colls front r)
  have hs' := reach_extend (P := rankMain L Q nul tree args n true) (rest := fun r =>
    (dataRun L cat call fr n r).1.map .write ++ (if (dataRun L cat call fr n r).2 = none then [.sync, .sync] else []))
    (fun r => (goes_acts g hg.call n r).1) hs
  obtain ⟨t, ht, hl⟩ := reach_writes hqn (k := if (dataRun L cat call fr n q).2 = none then [.sync, .sync] else []) ws _ hs'
    (by have := he q hqn
        unfold LSys.ended at this
        simp only [this, List.nil_append, hwq])
  refine ⟨t, ht, ?_, ?_⟩
  · intro w hw'
    rw [hl]
    exact List.mem_append_right _ (List.mem_map_of_mem hw')
  · intro w hw'
    rw [hl] at hw'
    rcases List.mem_append.1 hw' with h | h
    · have h3 := hs.writes_of (he 0 hg.ranks)
      have hm : w ∈ (s.log.filter (fun e => e.1 == 0)).map Prod.snd :=
        List.mem_map.2 ⟨(0, w), by simp [List.mem_filter]; exact h, rfl⟩
      rw [h3, headActs_writes] at hm
      simpa using hm
    · obtain ⟨u, _, hu⟩ := List.mem_map.1 h
      simp only [Prod.mk.injEq] at hu
      exact absurd hu.1 hq

end Parfu.Props
