/-
C63: what a run of parfu 0.6 that reports success has archived - outside the limits of C19.
-/
import Verif.PropsExit
set_option autoImplicit false

namespace Parfu.Props
open Parfu MainSpec MoveSpec TarSpec ScanSpec PlanSpec ProtocolSpec

/-- Every run that ends with success has carried out each bundle once, each with some contents of
the worker's memory, and the file is what these writes leave. -/
theorem run_worked {cfg : Cfg} {b : Nat} {archive base : Bytes} {orders : List Bytes} {eager : Bool} {file0 : Option Bytes}
    {tr : List Ev} {s : Sys} (hL : Launch cfg b archive base orders)
    (h : CreateRun cfg eager b archive base orders file0 tr s) (hb : s.boss = .exit 0) :
    ∃ W : List (Bytes × Bytes × WriteReq), (W.map Prod.fst).Perm orders ∧
      (∀ x ∈ W, x.2.1.length = b ∧ workerDo cfg.env cfg.fs base x.2.1 x.1 = .ok x.2.2) ∧
      s.file = some (writeAll (W.map fun x => x.2.2)) := by
  obtain ⟨h1, h2⟩ := C22_exactly_once hL h hb
  refine ⟨ran tr, ?_, ?_, ?_⟩
  · rw [ran_text, ← h1]
    exact h2.map _
  · rintro ⟨t, m, w⟩ hx
    unfold ran at hx
    obtain ⟨e, he, hee⟩ := List.mem_filterMap.1 hx
    cases e with
    | wrote r t ba ar me wq =>
      simp only [Option.some.injEq, Prod.mk.injEq] at hee
      obtain ⟨rfl, rfl, rfl⟩ := hee
      cases run_inv' hL h with
      | pre i hc hq hi views len => exact absurd he (hq.noWrite _ _ _ _ _ _)
      | failed x hc hq hb' views hfile len => exact absurd he (hq.noWrite _ _ _ _ _ _)
      | post g pt hc hp =>
        obtain ⟨_, _, h3, h4⟩ := hp.wrote _ _ _ _ _ _ he
        exact ⟨h3, h4⟩
    | _ => cases hee
  · rw [ran_writes]
    exact C28_new_archive_is_the_writes hL h hb

/-- The directory `/t` with one directory in it, whose path `/t/aaa...` has exactly 100 bytes. -/
def dir100 : FNode := .dir ⟨493, 0, 0, 0⟩ true (.cons (List.replicate 97 97) (.dir ⟨493, 0, 0, 0⟩ true .nil) .nil)

def dir100Fs : FS := fun path =>
  if path = [47, 116, 47] then some dir100
  else if path = [47, 116, 47] ++ List.replicate 97 97 then some (.dir ⟨493, 0, 0, 0⟩ true .nil) else none

def dir100Coll : Coll := match scan (fun _ => 0) [47, 116] dir100 with | .ok c => c | .error _ => ⟨[], []⟩

def dir100Bundles : List (List Order) :=
  (createOrders 0 4992000 7 (setOffsets (orderFiles demoSort2 dir100Coll))).getD []

theorem dir100_scanned : scan (fun _ => 0) [47, 116] dir100 = .ok dir100Coll ∧
    createOrders 0 4992000 7 (setOffsets (orderFiles demoSort2 dir100Coll)) = some dir100Bundles := by
  constructor <;> decide +kernel

/-- The header block of a directory of the example. -/
def dir100Header (path : Bytes) : Bytes :=
  match tarentryCtor dir100Fs.lstat path 0 with
  | .ok e => (match makeTarHeader demoEnv2 e with | .ok h => h | .error _ => [])
  | .error _ => []

/-- What ends up in the archive: the header of `/t/` and the first of the three blocks of the other. -/
def dir100Archive : Bytes := dir100Header [47, 116, 47] ++ (dir100Header ([47, 116, 47] ++ List.replicate 97 97)).take 512

theorem dir100_lens : (dir100Header [47, 116, 47]).length = 512 ∧
    (dir100Header ([47, 116, 47] ++ List.replicate 97 97)).length = 1536 := by decide +kernel

theorem dir100_parsed : ∃ w1 w2 : WOrder, dir100Bundles.map printBundle = [printBundle (dir100Bundles.headD [])] ∧
    parseOrders (printBundle (dir100Bundles.headD [])) = .ok [w1, w2] ∧
    w1.rel = [] ∧ w1.hdr = 512 ∧ w1.pos = 0 ∧ w1.size = 0 ∧
    w2.rel = List.replicate 97 97 ∧ w2.hdr = 512 ∧ w2.pos = 512 ∧ w2.size = 0 := by
  refine ⟨⟨0, [], 68, [], 0, 512, 0, 0⟩, ⟨0, List.replicate 97 97, 68, [], 0, 512, 512, 0⟩, ?_⟩
  decide +kernel

/-! ### one bundle, whatever is in the memory -/

theorem blit_eq {buf data : Bytes} {off : Nat} (h : off + data.length ≤ buf.length) :
    blit buf off data = .ok (buf.take off ++ data ++ buf.drop (off + data.length)) := by
  unfold blit; rw [if_pos h]

theorem dir100_headers :
    (tarentryCtor dir100Fs.lstat [47, 116, 47] 0).bind (makeTarHeader demoEnv2) = .ok (dir100Header [47, 116, 47]) ∧
    (tarentryCtor dir100Fs.lstat ([47, 116, 47] ++ List.replicate 97 97) 0).bind (makeTarHeader demoEnv2) =
      .ok (dir100Header ([47, 116, 47] ++ List.replicate 97 97)) := by
  constructor <;> decide +kernel

/-- Copying a header that was built. -/
theorem makeHeaderAt_of {env : Env} {fs : FS} {full buf h : Bytes} {loc : Nat}
    (hh : (tarentryCtor fs.lstat full 0).bind (makeTarHeader env) = .ok h) (hl : loc + h.length ≤ buf.length) :
    makeHeaderAt env fs full buf loc = .ok (buf.take loc ++ h ++ buf.drop (loc + h.length)) := by
  unfold makeHeaderAt
  cases he : tarentryCtor fs.lstat full 0 with
  | error e => rw [he] at hh; simp [Except.bind] at hh
  | ok e =>
    rw [he] at hh
    simp only [Except.bind] at hh
    show (do let h ← makeTarHeader env e; blit buf loc h) = _
    rw [hh]
    exact blit_eq hl

/-- Whatever the worker's memory holds, the write is the same. -/
theorem dir100_work (memory : Bytes) (hm : memory.length = 4992000) :
    workerDo demoEnv2 dir100Fs [47, 116] memory (printBundle (dir100Bundles.headD [])) = .ok (0, dir100Archive) := by
  obtain ⟨w1, w2, _, hp, a1, a2, a3, a4, b1, b2, b3, b4⟩ := dir100_parsed
  obtain ⟨l1, l2⟩ := dir100_lens
  obtain ⟨h1, h2⟩ := dir100_headers
  unfold workerDo
  rw [hp]
  have ht : totalLen w1 w2 = 1024 := by unfold totalLen; rw [a3, b2, b3, b4]; decide
  have hn : nextBlock 1024 = 1024 := by decide
  have f1 : fullName [47, 116] w1.rel = [47, 116, 47] := by rw [a1]; rfl
  have f2 : fullName [47, 116] w2.rel = [47, 116, 47] ++ List.replicate 97 97 := by rw [b1]; rfl
  have m1 : moveOne demoEnv2 dir100Fs [47, 116] 0 memory w1 =
      .ok (dir100Header [47, 116, 47] ++ memory.drop 512) := by
    unfold moveOne
    rw [if_pos (by rw [a2]; decide), f1, a3]
    have : usub64 0 0 = 0 := by decide
    rw [this, makeHeaderAt_of h1 (by rw [l1, hm]; decide), l1]
    simp only [a4, ne_eq, not_true, if_false, List.take_zero, List.nil_append, Nat.zero_add]
  have m2 : moveOne demoEnv2 dir100Fs [47, 116] 0 (dir100Header [47, 116, 47] ++ memory.drop 512) w2 =
      .ok (dir100Header [47, 116, 47] ++ dir100Header ([47, 116, 47] ++ List.replicate 97 97) ++
        (dir100Header [47, 116, 47] ++ memory.drop 512).drop 2048) := by
    unfold moveOne
    rw [if_pos (by rw [b2]; decide), f2, b3]
    have : usub64 512 0 = 512 := by decide
    rw [this, makeHeaderAt_of h2 (by rw [l2, List.length_append, l1, List.length_drop, hm]; decide), l2]
    simp only [b4, ne_eq, not_true, if_false]
    rw [List.take_append_of_le_length (by omega), List.take_of_length_le (by omega)]
  show (do
    let _ ← totalSize [w1, w2]
    let _ ← orderNFilename [w1, w2] 0
    moveData demoEnv2 dir100Fs [47, 116] memory [w1, w2]) = _
  have e1 : totalSize [w1, w2] = .ok 1024 := by
    show Except.ok (nextBlock (totalLen w1 w2)) = _; rw [ht, hn]
  have e2 : orderNFilename [w1, w2] 0 = .ok w1.rel := rfl
  have e3 : moveData demoEnv2 dir100Fs [47, 116] memory [w1, w2] = .ok (0, dir100Archive) := by
    unfold moveData
    simp only [List.head?_cons, List.getLast?_cons_cons, List.getLast?_singleton]
    unfold moveLoop
    rw [a3, m1]
    simp only
    unfold moveLoop
    rw [m2]
    simp only
    unfold moveLoop
    simp only [ht, hn, Nat.sub_self, ne_eq, not_true, if_false]
    rw [if_pos (by simp only [List.length_append, l1, l2]; omega)]
    unfold dir100Archive
    rw [List.append_assoc, List.take_append, l1, List.take_of_length_le (by rw [l1]; decide),
      List.take_append_of_le_length (by rw [l2]; decide)]
  rw [e1, e2]
  exact e3

/-! ### C63: status 0 for an archive nobody can read -/

theorem dir100_unreadable : readArchive dir100Archive = none := by
  have h1 : readMember dir100Archive = some (⟨[47, 116, 47], 53, [], 493, 0, 0, 0, [114], [103], 0, []⟩,
      (dir100Header ([47, 116, 47] ++ List.replicate 97 97)).take 512) := by decide +kernel
  have h2 : readMember ((dir100Header ([47, 116, 47] ++ List.replicate 97 97)).take 512) = none := by decide +kernel
  have h3 : ¬ (dir100Archive = [] ∨ dir100Archive.take 1024 = zeros 1024) := by decide +kernel
  have h4 : ¬ ((dir100Header ([47, 116, 47] ++ List.replicate 97 97)).take 512 = [] ∨
    ((dir100Header ([47, 116, 47] ++ List.replicate 97 97)).take 512).take 1024 = zeros 1024) := by decide +kernel
  rw [readArchive, if_neg h3, h1]
  simp only
  rw [readArchive, if_neg h4, h2]
  simp

/-- The example on `ranks` processes. -/
def dir100Cfg (ranks : Nat) : Cfg := ⟨ranks, demoEnv2, dir100Fs, true⟩

theorem dir100_launch (ranks : Nat) (h1 : 1 ≤ ranks) (h2 : ranks < 2 ^ 31) :
    Launch (dir100Cfg ranks) 4992000 [97] [47, 116] (dir100Bundles.map printBundle) where
  ranks := h1
  ranksInt := h2
  bucket := by decide
  bucketInt := by decide
  archiveText := by decide
  baseText := by decide
  orderText := by decide +kernel

theorem dir100_workable (ranks : Nat) : Workable (dir100Cfg ranks) 4992000 [47, 116] (dir100Bundles.map printBundle) := by
  intro t ht memory hm
  obtain ⟨_, _, hb, _⟩ := dir100_parsed
  rw [hb] at ht
  rw [List.mem_singleton.1 ht]
  exact ⟨_, dir100_work memory hm⟩

theorem writeAll_one (d : Bytes) : writeAll [(0, d)] = d := by
  simp [writeAll, writeAt]

/-- **C63 (violation)** `parfu archivefile=a /t`, where `/t` has one directory in it and the path of
that directory has exactly 100 bytes: on any number of processes, whatever the schedule and the
contents of the workers' memory, every run comes to an end with all processes finished and status 0 -
and the archive cannot be read: the header of the second directory is cut off after its first
block. -/
theorem C63_success_unreadable (ranks : Nat) (h2 : 2 ≤ ranks) (hI : ranks < 2 ^ 31) {tr : List Ev} {s : Sys}
    (h : MainRun demoSort2 (fun _ => 0) (fun _ => dir100) 7 [archivefile ++ [61, 97], [47, 116]] (dir100Cfg ranks) true none tr s) :
    (∃ more s', MainRun demoSort2 (fun _ => 0) (fun _ => dir100) 7 [archivefile ++ [61, 97], [47, 116]] (dir100Cfg ranks) true none
      (tr ++ more) s' ∧ Finished (dir100Cfg ranks) 0 s') ∧
    (Stuck (dir100Cfg ranks) s → Finished (dir100Cfg ranks) 0 s) ∧
    (Finished (dir100Cfg ranks) 0 s → ∃ A, s.file = some A ∧ readArchive A = none) := by
  have hL := dir100_launch ranks (by omega) hI
  have hW := dir100_workable ranks
  have hp : parseArgs [] (defaultOpts 7) [archivefile ++ [61, 97], [47, 116]] = .ok (some ([[47, 116]], ⟨4992000, 7, [97]⟩)) := by
    decide +kernel
  obtain ⟨hsc, hpl⟩ := dir100_scanned
  have hst := mainStart_job (S := demoSort2) (g := fun _ => 0) (look := fun _ => dir100) (c := dir100Cfg ranks) (file0 := none)
    (by simp) hp (by decide) hsc hpl
  unfold MainRun at h ⊢
  rw [hst] at h ⊢
  have hn1 : ∀ tr s, CreateRun (dir100Cfg ranks) true 4992000 [97] [47, 116] (dir100Bundles.map printBundle) none tr s →
      s.boss ≠ .exit 1 := by
    intro tr s h hb
    have := (C25_outcome hL h).2 hb
    simp [openResult, dir100Cfg] at this
  refine ⟨?_, ?_, ?_⟩
  · obtain ⟨more, s', h3, h4⟩ := C25_reaches_end hL hW h2 h
    rcases h4 with h4 | h4
    · exact ⟨more, s', h3, h4⟩
    · exact absurd h4.1 (hn1 _ _ h3)
  · intro hs
    rcases C25_no_deadlock hL hW h2 h with h0 | h1 | ⟨e, s', hst⟩
    · exact h0
    · exact absurd h1.1 (hn1 _ _ h)
    · exact absurd hst.eager (hs e s')
  · intro hf
    obtain ⟨W, hperm, hw, hfile⟩ := run_worked hL h hf.1
    obtain ⟨_, _, hb, _⟩ := dir100_parsed
    rw [hb] at hperm
    have hlen : W.length = 1 := by have := hperm.length_eq; simpa using this
    obtain ⟨x, rfl⟩ := List.length_eq_one_iff.1 hlen
    have hx : x.1 = printBundle (dir100Bundles.headD []) := by
      have := hperm.mem_iff (a := x.1)
      simpa using this
    obtain ⟨hm, hd⟩ := hw x (by simp)
    rw [hx] at hd
    have := dir100_work x.2.1 hm
    have heq : x.2.2 = (0, dir100Archive) := by
      have h' := hd.symm.trans this
      simpa using h'
    refine ⟨dir100Archive, ?_, dir100_unreadable⟩
    rw [hfile]
    simp only [List.map_cons, List.map_nil, heq, writeAll_one]

/-- Such a run exists. -/
example : ∃ tr s, MainRun demoSort2 (fun _ => 0) (fun _ => dir100) 7 [archivefile ++ [61, 97], [47, 116]] (dir100Cfg 3) true none tr s ∧
    Finished (dir100Cfg 3) 0 s ∧ ∃ A, s.file = some A ∧ readArchive A = none := by
  obtain ⟨⟨tr, s, h1, h2⟩, _⟩ := C63_success_unreadable 3 (by decide) (by decide) (tr := []) Run.nil
  exact ⟨_, s, h1, h2, (C63_success_unreadable 3 (by decide) (by decide) h1).2.2 h2⟩

/-- **C63 (partial)** If rank 0 ends with status 0 after making an archive of a tree within the limits
of `Job` (lengths of paths, no TABs, below 2 GiB, bundles that fit), the archive is the tar file of the
tree: every object of the tree that can be archived is there as the member specified for it, and there
is no other member.  Missing: trees outside these limits, see `C63_success_unreadable`. -/
theorem C63_success_means_archive_partial {cfg : Cfg} {base : Bytes} {root : FNode} {S : StdSort Ref} {g : Bytes → UInt8}
    {b mx : Nat} {coll : Coll} {bundles : List (List Order)} {archive : Bytes} {eager : Bool} {file0 : Option Bytes}
    {tr : List Ev} {s : Sys} (j : Job cfg.env cfg.fs base root S g b mx coll bundles) (hl : Launchable cfg b archive)
    (h : CreateRun cfg eager b archive base (bundles.map printBundle) file0 tr s) (hb : s.boss = .exit 0) :
    ∃ (A : Bytes) (ms : List Member), s.file = some A ∧ readArchive A = some ms ∧
      (∀ p n, Seen root p n → describe p n ≠ none → ∃ m, memberOf cfg.env base p n = some m ∧ m ∈ ms) ∧
      (∀ m ∈ ms, ∃ p n, Seen root p n ∧ memberOf cfg.env base p n = some m) := by
  obtain ⟨A, ms, objs, h1, h2, h3, h4, h5, _⟩ := C19_every_successful_run j hl h hb
  refine ⟨A, ms, h1, h2, ?_, ?_⟩
  rotate_left
  · intro m hm
    have : some m ∈ objs.map (fun x => memberOf cfg.env base x.1 x.2) := by rw [← h3]; exact List.mem_map.2 ⟨m, hm, rfl⟩
    obtain ⟨x, hx1, hx2⟩ := List.mem_map.1 this
    exact ⟨x.1, x.2, ((h5 x.1 x.2).1 hx1).1, hx2⟩
  intro p n hs hd
  have hm := (h5 p n).2 ⟨hs, hd⟩
  have : memberOf cfg.env base p n ∈ ms.map some := by
    rw [h3]; exact List.mem_map.2 ⟨(p, n), hm, rfl⟩
  obtain ⟨m, hm1, hm2⟩ := List.mem_map.1 this
  exact ⟨m, hm2.symm, hm1⟩

end Parfu.Props
