/-
C55: crash points of a legacy run.  C56: all ranks of a legacy run end, and status 0 means success.
C62: the modes X and T.
-/
import Verif.LegacyProgramCreate
import Verif.PropsLegacyDemo
set_option autoImplicit false

namespace Parfu.Props
open Parfu ScanSpec LegacyScanSpec MoveSpec TarSpec LegacyRunSpec RanksSpec

/-! ### general -/

theorem run_reach {P : Nat → RankProg} {n : Nat} {eager : Bool} {old : Bytes} {run : Nat → LSys}
    (h0 : run 0 = .start P old) : ∀ k, (∀ i < k, LStep n eager (run i) (run (i + 1))) →
    LReach P n eager old (run k) ∧ workLeft n (.start P old) = workLeft n (run k) + k := by
  intro k
  induction k with
  | zero => intro _; rw [h0]; exact ⟨.start, rfl⟩
  | succ k ih =>
    intro h
    obtain ⟨h1, h2⟩ := ih (fun i hi => h i (by omega))
    have h3 := h k (by omega)
    exact ⟨.step h1 h3, by rw [h2, h3.workLeft_lt]; omega⟩

theorem allEnd_of {P : Nat → RankProg} {n K : Nat} (hK : ∀ r < n, (collsOf (P r).acts).length = K) : AllEnd P n where
  finite := by
    refine ⟨((List.range n).map fun r => (P r).acts.length).sum, ?_⟩
    intro eager old run k h0 h
    have := (run_reach h0 k h).2
    have e : workLeft n (.start P old) = ((List.range n).map fun r => (P r).acts.length).sum := rfl
    omega
  complete := by
    intro eager old s h hno r hr
    apply Classical.byContradiction
    intro hne
    exact hno (h.progress hK ⟨r, hr, hne⟩)

theorem filterMap_writes (ws : List WriteReq) : (ws.map LAct.write).filterMap LAct.req = ws := by
  rw [List.filterMap_map]
  have : LAct.req ∘ LAct.write = some := rfl
  rw [this, List.filterMap_some]

theorem collsOf_writes (ws : List WriteReq) : collsOf (ws.map LAct.write) = [] := by
  unfold collsOf
  rw [List.filter_eq_nil_iff]
  intro a ha
  obtain ⟨w, _, rfl⟩ := List.mem_map.1 ha
  simp [LAct.coll]

theorem headActs_colls (front : List WriteReq) (r : Nat) : (collsOf (headActs front r)).length = 12 := by
  unfold headActs
  simp only [collsOf_append, List.length_append]
  have : collsOf (if r = 0 then front.map LAct.write else []) = [] := by
    split
    · exact collsOf_writes _
    · rfl
  rw [this]; rfl

theorem headActs_writes (front : List WriteReq) (r : Nat) :
    (headActs front r).filterMap LAct.req = if r = 0 then front else [] := by
  unfold headActs
  simp only [List.filterMap_append]
  have : (if r = 0 then front.map LAct.write else []).filterMap LAct.req = if r = 0 then front else [] := by
    split
    · exact filterMap_writes _
    · rfl
  rw [this]
  simp only [show List.filterMap LAct.req [LAct.bcast, .bcast, .sync] = [] from rfl,
    show List.filterMap LAct.req [LAct.bcast, .bcast] = [] from rfl,
    show List.filterMap LAct.req [LAct.bcast] = [] from rfl,
    show List.filterMap LAct.req [LAct.sync] = [] from rfl, List.nil_append, List.append_nil]

section
variable {L : LegEnv} {Q : QSort Frag} {nul arc top : Bytes} {tree : Bytes → Option FNode × FNode} {args : List Bytes}
variable {front : List WriteReq} {cat text : Bytes} {call : List Nat} {fr : List Frag}

theorem rankMain_create (h : CreateCall args arc top) (n : Nat) (openOk : Bool) (r : Nat) :
    rankMain L Q nul tree args n openOk r = rankCreate L Q nul arc top (tree top).1 (tree top).2 n openOk r := by
  obtain ⟨prog, mode, h⟩ := h
  obtain ⟨rest, rfl⟩ : ∃ rest, args = prog :: (67 :: mode) :: arc :: top :: rest :=
    ⟨args.drop 4, by conv_lhs => rw [← List.take_append_drop 4 args, h]
                     rfl⟩
  simp [rankMain]

/-- The program of a rank that comes to the data. -/
theorem goes_acts (g : Goes L Q nul arc top (tree top).1 (tree top).2 front cat text call fr)
    (hc : CreateCall args arc top) (n r : Nat) :
    (rankMain L Q nul tree args n true r).acts = headActs front r ++ ((dataRun L cat call fr n r).1.map .write ++
      (if (dataRun L cat call fr n r).2 = none then [.sync, .sync] else [])) ∧
    (rankMain L Q nul tree args n true r).stop = ((dataRun L cat call fr n r).2).getD (.exited 0) := by
  rw [rankMain_create hc, rankCreate_goes g]
  unfold RankProg.after tailProg RankProg.after
  cases (dataRun L cat call fr n r).2 <;> simp

theorem goes_colls (g : Goes L Q nul arc top (tree top).1 (tree top).2 front cat text call fr)
    (hc : CreateCall args arc top) (n r : Nat) :
    ∃ h, h.length = 12 ∧ collsOf (rankMain L Q nul tree args n true r).acts =
      h ++ if (dataRun L cat call fr n r).2 = none then [.sync, .sync] else [] := by
  refine ⟨collsOf (headActs front r), headActs_colls _ _, ?_⟩
  rw [(goes_acts g hc n r).1]
  simp only [collsOf_append, collsOf_writes, List.nil_append]
  congr 1
  split <;> rfl

theorem goes_writes (g : Goes L Q nul arc top (tree top).1 (tree top).2 front cat text call fr)
    (hc : CreateCall args arc top) (n r : Nat) :
    (rankMain L Q nul tree args n true r).acts.filterMap LAct.req =
      (if r = 0 then front else []) ++ (dataRun L cat call fr n r).1 := by
  rw [(goes_acts g hc n r).1]
  simp only [List.filterMap_append, headActs_writes, filterMap_writes]
  have : (if (dataRun L cat call fr n r).2 = none then [LAct.sync, .sync] else []).filterMap LAct.req = [] := by
    split <;> rfl
  rw [this]; simp

/-- A list of actions cut after more collective operations than `h ++ ws` has. -/
theorem pre_writes {as pre rest t : List LAct} (h : as ++ t = pre ++ rest) (hle : (collsOf as).length ≤ (collsOf pre).length)
    (hlast : rest.head?.map LAct.coll = some true ∨ (collsOf as).length < (collsOf pre).length)
    (ht : t.filterMap LAct.req = []) :
    pre.filterMap LAct.req = as.filterMap LAct.req := by
  rcases List.append_eq_append_iff.1 h with ⟨u, h1, h2⟩ | ⟨u, h1, h2⟩
  · rw [h1]
    rw [h2] at ht
    simp only [List.filterMap_append, List.append_eq_nil_iff] at ht
    simp [ht.1]
  · -- `as` is longer
    cases u with
    | nil => simp at h1; rw [h1]
    | cons a u =>
      exfalso
      rw [h1, collsOf_append, List.length_append] at hle hlast
      rcases hlast with h3 | h3
      · rw [h2] at h3
        simp at h3
        simp [collsOf, h3] at hle
      · omega

/-- Rank `q` has all its writes behind it once it has come to the barrier behind them. -/
theorem goes_all_written (g : Goes L Q nul arc top (tree top).1 (tree top).2 front cat text call fr)
    (hc : CreateCall args arc top) {n : Nat} {eager : Bool} {old : Bytes} {s : LSys}
    (hr : LReach (rankMain L Q nul tree args n true) n eager old s) {q : Nat} (he : entered s q 12) :
    (dataRun L cat call fr n q).2 = none ∧
    (s.log.filter (fun e => e.1 == q)).map Prod.snd = (if q = 0 then front else []) ++ (dataRun L cat call fr n q).1 := by
  obtain ⟨pre, h1, h2, h3⟩ := hr.inv.split q
  obtain ⟨h, hl, h4⟩ := goes_colls g hc n q
  have hn : (dataRun L cat call fr n q).2 = none := by
    apply Classical.byContradiction
    intro hne
    rw [if_neg hne, List.append_nil, h1, collsOf_append] at h4
    have := congrArg List.length h4
    rw [List.length_append, ← h2, hl] at this
    rcases he with he | ⟨he, he'⟩
    · omega
    · cases hd : s.todo q with
      | nil => rw [hd] at he'; simp at he'
      | cons a k =>
        rw [hd] at he' this
        simp at he'
        simp [collsOf, he'] at this
        omega
  refine ⟨hn, ?_⟩
  rw [← h3]
  have ha := (goes_acts g hc n q).1
  rw [if_pos hn, ← List.append_assoc, h1] at ha
  have hcl : (collsOf (headActs front q ++ (dataRun L cat call fr n q).1.map .write)).length = 12 := by
    rw [collsOf_append, collsOf_writes, List.append_nil, headActs_colls]
  rw [pre_writes ha.symm (by rw [hcl, ← h2]; rcases he with he | ⟨he, _⟩ <;> omega) ?_ rfl]
  · rw [List.filterMap_append, headActs_writes, filterMap_writes]
  · rw [hcl, ← h2]
    rcases he with he | ⟨_, he⟩
    · exact .inr he
    · exact .inl he

theorem flatMap_front (n : Nat) (hn : 0 < n) (front : List WriteReq) (f : Nat → List WriteReq) :
    ((List.range n).flatMap fun q => (if q = 0 then front else []) ++ f q) = front ++ (List.range n).flatMap f := by
  cases n with
  | zero => omega
  | succ n =>
    rw [List.range_succ_eq_map]
    simp only [List.flatMap_cons, if_pos, List.append_assoc, List.flatMap_map]
    simp

theorem forall2_flatten {n : Nat} {f : Nat → List WriteReq × Option LStop} {wss : List (List WriteReq)}
    (h : List.Forall₂ (fun r ws => f r = (ws, none)) (List.range n) wss) :
    wss = (List.range n).map (fun r => (f r).1) ∧ ∀ r < n, (f r).2 = none := by
  have key : ∀ (rs : List Nat) (wss : List (List WriteReq)), List.Forall₂ (fun r ws => f r = (ws, none)) rs wss →
      wss = rs.map (fun r => (f r).1) ∧ ∀ r ∈ rs, (f r).2 = none := by
    intro rs wss h
    induction h with
    | nil => simp
    | cons h1 _ ih => refine ⟨by simp [h1, ih.1], ?_⟩
                      intro r hr
                      rcases List.mem_cons.1 hr with rfl | hr
                      · simp [h1]
                      · exact ih.2 r hr
  obtain ⟨h1, h2⟩ := key _ _ h
  exact ⟨h1, fun r hr => h2 r (by simpa using hr)⟩

theorem forall2_of {n : Nat} {f : Nat → List WriteReq × Option LStop} (h : ∀ r < n, (f r).2 = none) :
    List.Forall₂ (fun r ws => f r = (ws, none)) (List.range n) ((List.range n).map fun r => (f r).1) := by
  rw [List.forall₂_map_right_iff, List.forall₂_same]
  intro r hr
  exact Prod.ext rfl (h r (by simpa using hr))

/-! ### C56 -/

/-- C56: if the archive can be made at all, then in every schedule all ranks come to their end, with
status 0, and what is then in the file is the result of all their writes.
(Missing: failing runs, see below.) -/
theorem C56_success_partial (L : LegEnv) (Q : QSort Frag) (nul arc top : Bytes) (tree : Bytes → Option FNode × FNode)
    (args : List Bytes) (hc : CreateCall args arc top) (harc : arc ≠ []) (n : Nat) (hn : 0 < n)
    (front : List WriteReq) (wss : List (List WriteReq))
    (h : legacyMain L Q nul top (tree top).1 (tree top).2 n = .ok (some (front, wss))) :
    AllEnd (rankMain L Q nul tree args n true) n ∧
    (∀ r < n, (rankMain L Q nul tree args n true r).stop = .exited 0) ∧
    ∀ eager old s, LReach (rankMain L Q nul tree args n true) n eager old s → (∀ r < n, s.ended r) →
      ∃ ws : List WriteReq, ws.Perm (front ++ wss.flatten) ∧ s.file = ws.foldl writeAt old := by
  obtain ⟨cat, text, call, fr, g, hf⟩ := (legacyMain_iff hn harc).1 h
  obtain ⟨hw, hnone⟩ := forall2_flatten hf
  refine ⟨allEnd_of (K := 14) ?_, ?_, ?_⟩
  · intro r hr
    obtain ⟨k, h1, h2⟩ := goes_colls g hc n r
    rw [h2, if_pos (hnone r hr), List.length_append, h1]; rfl
  · intro r hr
    rw [(goes_acts g hc n r).2, hnone r hr]; rfl
  · intro eager old s hs he
    have hi := hs.inv
    refine ⟨s.log.map Prod.snd, ?_, hi.file⟩
    refine (log_perm hi.ranks).trans (List.Perm.of_eq ?_)
    rw [hw, ← List.flatMap_def, ← flatMap_front n hn, List.flatMap_def, List.flatMap_def]
    congr 1
    apply List.map_congr_left
    intro r hr
    rw [hs.writes_of (he r (by simpa using hr)), goes_writes g hc n r]

/-- C56: status 0 means success: if any one rank has come to its end and returns 0, then the archive
could be made, and all writes of all ranks are in the file. -/
theorem C56_status_zero (L : LegEnv) (Q : QSort Frag) (nul arc top : Bytes) (tree : Bytes → Option FNode × FNode)
    (args : List Bytes) (hc : CreateCall args arc top) (harc : arc ≠ []) (n : Nat) (openOk eager : Bool) (old : Bytes) (s : LSys)
    (hs : LReach (rankMain L Q nul tree args n openOk) n eager old s) (r : Nat) (hr : r < n) (he : s.ended r)
    (hz : (rankMain L Q nul tree args n openOk r).stop = .exited 0) :
    ∃ front wss, legacyMain L Q nul top (tree top).1 (tree top).2 n = .ok (some (front, wss)) ∧
      ∃ ws : List WriteReq, ws.Perm (front ++ wss.flatten) ∧ s.file = ws.foldl writeAt old := by
  rw [rankMain_create hc] at hz
  obtain ⟨ho, front, cat, text, call, fr, g⟩ := rankCreate_zero hz
  subst ho
  rw [← rankMain_create (L := L) (Q := Q) (nul := nul) (tree := tree) hc n true r] at hz
  have hi := hs.inv
  have hrn : (dataRun L cat call fr n r).2 = none := by
    apply Classical.byContradiction
    intro hne
    rw [(goes_acts g hc n r).2] at hz
    cases hd : (dataRun L cat call fr n r).2 with
    | none => exact hne hd
    | some st =>
      rw [hd] at hz
      simp at hz
      subst hz
      -- no bucket ends a rank with 0
      exact absurd hd (by
        unfold dataRun
        generalize rankBuckets n call.length r = is
        generalize zeros 4194304 = buf
        intro hd
        induction is generalizing buf with
        | nil => simp [bucketsRun] at hd
        | cons i is ih =>
          unfold bucketsRun at hd
          split at hd
          · simp at hd
          · simp at hd
          · exact ih _ hd)
  have hent : ∀ q < n, entered s q 12 := by
    obtain ⟨h', hl, h4⟩ := goes_colls g hc n r
    rw [if_pos hrn] at h4
    apply hi.barrier r hr 12
    · obtain ⟨pre, h1, h2, -⟩ := hi.split r
      unfold LSys.ended at he
      rw [h1, he, List.append_nil] at h4
      rw [h2, h4, List.length_append, hl]; simp
    · rw [h4, List.getElem?_append_right (by omega), hl]; rfl
  have hall := fun q hq => goes_all_written g hc hs (hent q hq)
  refine ⟨front, _, (legacyMain_iff (by omega) harc).2 ⟨cat, text, call, fr, g, forall2_of fun q hq => (hall q hq).1⟩,
    s.log.map Prod.snd, ?_, hi.file⟩
  refine (log_perm hi.ranks).trans (List.Perm.of_eq ?_)
  rw [← List.flatMap_def, ← flatMap_front n (by omega), List.flatMap_def, List.flatMap_def]
  congr 1
  apply List.map_congr_left
  intro q hq
  exact (hall q (by simpa using hq)).2

/-- C56 and C46: if any one rank of a run on an archivable tree returns 0, the file is at that moment
an archive of the tree. -/
theorem C56_status_zero_archive_partial (L : LegEnv) (Q : QSort Frag) (nul arc top : Bytes) (tree : Bytes → Option FNode × FNode)
    (args : List Bytes) (hc : CreateCall args arc top) (harc : arc ≠ []) (hp : Platform L nul)
    (ha : LegArchivable L.env L.fs top (tree top).2) (n : Nat) (openOk eager : Bool) (old : Bytes) (s : LSys)
    (hs : LReach (rankMain L Q nul tree args n openOk) n eager old s) (r : Nat) (hr : r < n) (he : s.ended r)
    (hz : (rankMain L Q nul tree args n openOk r).stop = .exited 0)
    (hgap : ∀ front wss cat, legacyMain L Q nul top (tree top).1 (tree top).2 n = .ok (some (front, wss)) →
      (512, cat) ∈ front → (cat.length + 1024) % 4194304 ≠ 0) :
    ∃ cat all, readArchive s.file = some (cat :: all) ∧ terminated s.file = true ∧
      cat.path = catalogName ∧ MembersOf L.env top (tree top).2 (all.filter fun m => !ownMember m) := by
  obtain ⟨front, wss, h, ws, hws, hf⟩ := C56_status_zero L Q nul arc top tree args hc harc n openOk eager old s hs r hr he hz
  have hseen : DirOrLink (tree top).1 := by
    rw [← topAllowed_iff]
    cases ht : topAllowed (tree top).1 with
    | true => rfl
    | false =>
      unfold legacyMain legacyScan at h
      rw [show createList 100 = .ok (some ⟨100, 0, List.replicate 100 .blank⟩) by decide] at h
      simp [ht] at h
  obtain ⟨cat, all, k1, k2, k3, _, _, k6, _⟩ := C46_archive_partial L Q nul top (tree top).2 hp ha (tree top).1 hseen n (by omega) front wss h
    (fun cat hm => hgap front wss cat h hm) ws hws old
  rw [hf]
  exact ⟨cat, all, k1, k2, k3, k6⟩

end

end Parfu.Props
