/-
Property theorems C63, continued: a run of parfu 0.6 that reports success and leaves a readable archive
in which one file is missing and its contents stand under the name of a directory.
-/
import Verif.PropsSilent
set_option autoImplicit false

namespace Parfu.Props
open Parfu MainSpec MoveSpec TarSpec ScanSpec PlanSpec ProtocolSpec

/-- A program start that leads to one bundle, which every worker carries out in the same way whatever is
in its memory: every run comes to its end, with this archive. -/
theorem one_bundle_run {S : StdSort Ref} {g : Bytes → UInt8} {look : Bytes → FNode} {mx0 : Nat} {args : List Bytes}
    {cfg : Cfg} {b : Nat} {archive base t A : Bytes} {eager : Bool}
    (hst : mainStart S g look mx0 cfg.ranks args none = Sys.start (bossRun cfg.ranks b archive base [t]) none)
    (hL : Launch cfg b archive base [t]) (h2 : 2 ≤ cfg.ranks) (hc : cfg.creatable = true)
    (hw : ∀ memory : Bytes, memory.length = b → workerDo cfg.env cfg.fs base memory t = .ok (0, A))
    {tr : List Ev} {s : Sys} (h : MainRun S g look mx0 args cfg eager none tr s) :
    (∃ more s', MainRun S g look mx0 args cfg eager none (tr ++ more) s' ∧ Finished cfg 0 s') ∧
    (Stuck cfg s → Finished cfg 0 s) ∧ (s.boss = .exit 0 → s.file = some A) := by
  have hW : Workable cfg b base [t] := by
    intro t' ht memory hm
    rw [List.mem_singleton.1 ht]
    exact ⟨_, hw memory hm⟩
  unfold MainRun at h ⊢
  rw [hst] at h ⊢
  have hn1 : ∀ tr s, CreateRun cfg eager b archive base [t] none tr s → s.boss ≠ .exit 1 := by
    intro tr s h hb
    have := (C25_outcome hL h).2 hb
    simp [openResult, hc] at this
  refine ⟨?_, ?_, ?_⟩
  · obtain ⟨more, s', h3, h4⟩ := C25_reaches_end hL hW h2 h
    rcases h4 with h4 | h4
    · exact ⟨more, s', h3, h4⟩
    · exact absurd h4.1 (hn1 _ _ h3)
  · intro hs
    rcases C25_no_deadlock hL hW h2 h with h0 | h1 | ⟨e, s', hst⟩
    · exact h0
    · exact absurd h1.1 (hn1 _ _ h)
    · exact absurd hst.eager (hs e s')
  · intro hf
    obtain ⟨W, hperm, hwk, hfile⟩ := run_worked hL h hf
    have hlen : W.length = 1 := by have := hperm.length_eq; simpa using this
    obtain ⟨x, rfl⟩ := List.length_eq_one_iff.1 hlen
    have hx : x.1 = t := by
      have := hperm.mem_iff (a := x.1)
      simpa using this
    obtain ⟨hm, hd⟩ := hwk x (by simp)
    rw [hx] at hd
    have heq : x.2.2 = (0, A) := by
      have h' := hd.symm.trans (hw x.2.1 hm)
      simpa using h'
    rw [hfile]
    simp only [List.map_cons, List.map_nil, heq, writeAll_one]

/-- Copying into a buffer whose first part is known and whose rest is still as it was. -/
theorem blit_front {X d memory : Bytes} {loc : Nat} (h1 : loc ≤ X.length) (h2 : X.length ≤ loc + d.length)
    (h3 : loc + d.length ≤ memory.length) :
    blit (X ++ memory.drop X.length) loc d =
      .ok ((X.take loc ++ d) ++ memory.drop (X.take loc ++ d).length) := by
  rw [blit_eq (by rw [List.length_append, List.length_drop]; omega)]
  have e1 : (X ++ memory.drop X.length).take loc = X.take loc := List.take_append_of_le_length h1
  have e2 : (X ++ memory.drop X.length).drop (loc + d.length) = memory.drop (loc + d.length) := by
    rw [List.drop_append, List.drop_of_length_le h2, List.nil_append, List.drop_drop]
    congr 1; omega
  have e3 : (X.take loc ++ d).length = loc + d.length := by
    rw [List.length_append, List.length_take]; omega
  rw [e1, e2, e3]

theorem moveOne_header {env : Env} {fs : FS} {base X memory h : Bytes} {w : WOrder} {loc : Nat}
    (hh : (tarentryCtor fs.lstat (fullName base w.rel) 0).bind (makeTarHeader env) = .ok h)
    (hn : w.hdr ≠ 0) (hs : w.size = 0) (hloc : usub64 w.pos 0 = loc) (h1 : loc ≤ X.length)
    (h2 : X.length ≤ loc + h.length) (h3 : loc + h.length ≤ memory.length) :
    moveOne env fs base 0 (X ++ memory.drop X.length) w =
      .ok ((X.take loc ++ h) ++ memory.drop (X.take loc ++ h).length) := by
  have hmk : makeHeaderAt env fs (fullName base w.rel) (X ++ memory.drop X.length) loc =
      .ok ((X.take loc ++ h) ++ memory.drop (X.take loc ++ h).length) := by
    rw [← blit_front h1 h2 h3]
    unfold makeHeaderAt
    cases he : tarentryCtor fs.lstat (fullName base w.rel) 0 with
    | error e => rw [he] at hh; simp [Except.bind] at hh
    | ok e =>
      rw [he] at hh
      simp only [Except.bind] at hh
      show (do let h ← makeTarHeader env e; blit _ loc h) = _
      rw [hh]
      rfl
  unfold moveOne
  rw [if_pos hn, hloc, hmk]
  simp only [hs, ne_eq, not_true, if_false]

/-- ... and with data behind the header. -/
theorem moveOne_file {env : Env} {fs : FS} {base X memory h d : Bytes} {w : WOrder} {loc : Nat}
    (hh : (tarentryCtor fs.lstat (fullName base w.rel) 0).bind (makeTarHeader env) = .ok h)
    (hn : w.hdr = h.length) (hn0 : w.hdr ≠ 0) (hs : w.size = d.length) (hs0 : w.size ≠ 0) (ho : w.off = 0)
    (hr : fs.read (fullName base w.rel) = some d) (hd31 : d.length < 2 ^ 31)
    (hloc : usub64 w.pos 0 = loc) (h1 : loc ≤ X.length)
    (h2 : X.length ≤ loc + h.length) (h3 : loc + h.length + d.length ≤ memory.length) :
    moveOne env fs base 0 (X ++ memory.drop X.length) w =
      .ok ((X.take loc ++ h ++ d) ++ memory.drop (X.take loc ++ h ++ d).length) := by
  have hlen : (X.take loc ++ h).length = loc + h.length := by rw [List.length_append, List.length_take]; omega
  have hmk : makeHeaderAt env fs (fullName base w.rel) (X ++ memory.drop X.length) loc =
      .ok ((X.take loc ++ h) ++ memory.drop (X.take loc ++ h).length) := by
    rw [← blit_front h1 h2 (by omega)]
    unfold makeHeaderAt
    cases he : tarentryCtor fs.lstat (fullName base w.rel) 0 with
    | error e => rw [he] at hh; simp [Except.bind] at hh
    | ok e =>
      rw [he] at hh
      simp only [Except.bind] at hh
      show (do let h ← makeTarHeader env e; blit _ loc h) = _
      rw [hh]
      rfl
  unfold moveOne
  rw [if_pos hn0, hloc, hmk]
  simp only
  rw [if_pos hs0]
  unfold readInto
  rw [hr]
  simp only
  have hd : (d.drop w.off).take w.size = d := by
    rw [ho, List.drop_zero, List.take_of_length_le (by omega)]
  rw [if_neg (by omega), hd, hn, ← hlen, blit_front (Nat.le_refl _) (by omega) (by omega), List.take_length]

/-! ### the example -/

/-- The directory `/t` with a file `z` in it, and a directory of 250 letters `a` with one of 248 letters
`b` in it: the path of the latter has 502 bytes. -/
def name250 : Bytes := List.replicate 250 97
def name248 : Bytes := List.replicate 248 98
def inner502 : FNode := .dir ⟨493, 0, 0, 0⟩ true .nil
def outer502 : FNode := .dir ⟨493, 0, 0, 0⟩ true (.cons name248 inner502 .nil)
def zFile : FNode := .reg ⟨420, 0, 0, 0⟩ [1, 2, 3]
def tree502 : FNode := .dir ⟨493, 0, 0, 0⟩ true (.cons name250 outer502 (.cons [122] zFile .nil))

def fs502 : FS := fun path =>
  if path = [47, 116, 47] then some tree502
  else if path = [47, 116, 47] ++ name250 then some outer502
  else if path = [47, 116, 47] ++ name250 ++ [47] ++ name248 then some inner502
  else if path = [47, 116, 47, 122] then some zFile else none

def coll502 : Coll := match scan (fun _ => 0) [47, 116] tree502 with | .ok c => c | .error _ => ⟨[], []⟩

def bundle502 : List Order :=
  [⟨0, [], .dir, [], 0, 512, 0, 0⟩, ⟨0, name250, .dir, [], 0, 1536, 512, 0⟩,
   ⟨0, name250 ++ [47] ++ name248, .dir, [], 0, 1536, 2048, 0⟩, ⟨0, [122], .reg, [], 3, 512, 3584, 0⟩]

theorem scan502 : scan (fun _ => 0) [47, 116] tree502 = .ok coll502 ∧
    createOrders 0 4992000 7 (setOffsets (orderFiles demoSort2 coll502)) = some [bundle502] := by
  constructor <;> decide +kernel

def header502 (path : Bytes) : Bytes :=
  match tarentryCtor fs502.lstat path 0 with
  | .ok e => (match makeTarHeader demoEnv2 e with | .ok h => h | .error _ => [])
  | .error _ => []

/-- What ends up in the archive: three headers, the last of them without its last block, and the header
and contents of `z`. -/
def archive502 : Bytes :=
  header502 [47, 116, 47] ++ header502 ([47, 116, 47] ++ name250) ++
  (header502 ([47, 116, 47] ++ name250 ++ [47] ++ name248)).take 1536 ++ header502 [47, 116, 47, 122] ++
  [1, 2, 3] ++ zeros 509

theorem lens502 : (header502 [47, 116, 47]).length = 512 ∧ (header502 ([47, 116, 47] ++ name250)).length = 1536 ∧
    (header502 ([47, 116, 47] ++ name250 ++ [47] ++ name248)).length = 2048 ∧
    (header502 [47, 116, 47, 122]).length = 512 := by decide +kernel

theorem headers502 :
    (tarentryCtor fs502.lstat [47, 116, 47] 0).bind (makeTarHeader demoEnv2) = .ok (header502 [47, 116, 47]) ∧
    (tarentryCtor fs502.lstat ([47, 116, 47] ++ name250) 0).bind (makeTarHeader demoEnv2) =
      .ok (header502 ([47, 116, 47] ++ name250)) ∧
    (tarentryCtor fs502.lstat ([47, 116, 47] ++ name250 ++ [47] ++ name248) 0).bind (makeTarHeader demoEnv2) =
      .ok (header502 ([47, 116, 47] ++ name250 ++ [47] ++ name248)) ∧
    (tarentryCtor fs502.lstat [47, 116, 47, 122] 0).bind (makeTarHeader demoEnv2) =
      .ok (header502 [47, 116, 47, 122]) := by
  refine ⟨?_, ?_, ?_, ?_⟩ <;> decide +kernel

theorem parsed502 : parseOrders (printBundle bundle502) =
    .ok [⟨0, [], 68, [], 0, 512, 0, 0⟩, ⟨0, name250, 68, [], 0, 1536, 512, 0⟩,
      ⟨0, name250 ++ [47] ++ name248, 68, [], 0, 1536, 2048, 0⟩, ⟨0, [122], 70, [], 3, 512, 3584, 0⟩] := by
  decide +kernel

theorem work502 (memory : Bytes) (hm : memory.length = 4992000) :
    workerDo demoEnv2 fs502 [47, 116] memory (printBundle bundle502) = .ok (0, archive502) := by
  obtain ⟨l1, l2, l3, l4⟩ := lens502
  obtain ⟨h1, h2, h3, h4⟩ := headers502
  generalize hA : header502 [47, 116, 47] = A at l1 h1
  generalize hB : header502 ([47, 116, 47] ++ name250) = B at l2 h2
  generalize hC : header502 ([47, 116, 47] ++ name250 ++ [47] ++ name248) = C at l3 h3
  generalize hD : header502 [47, 116, 47, 122] = D at l4 h4
  have e1 := moveOne_header (X := []) (memory := memory) (base := [47, 116]) (loc := 0)
    (w := ⟨0, [], 68, [], 0, 512, 0, 0⟩) h1 (by decide) rfl (by decide) (by decide) (by simp) (by omega)
  simp only [List.take_nil, List.nil_append, List.length_nil, List.drop_zero] at e1
  have e2 := moveOne_header (X := A) (memory := memory) (base := [47, 116]) (loc := 512)
    (w := ⟨0, name250, 68, [], 0, 1536, 512, 0⟩) h2 (by decide) rfl (by decide) (by omega) (by omega) (by omega)
  rw [List.take_of_length_le (by omega)] at e2
  have hAB : (A ++ B).length = 2048 := by rw [List.length_append]; omega
  have e3 := moveOne_header (X := A ++ B) (memory := memory) (base := [47, 116]) (loc := 2048)
    (w := ⟨0, name250 ++ [47] ++ name248, 68, [], 0, 1536, 2048, 0⟩)
    (show (tarentryCtor fs502.lstat ([47, 116] ++ [47] ++ (name250 ++ [47] ++ name248)) 0).bind (makeTarHeader demoEnv2) = .ok C by
      rw [← h3]; rfl)
    (by show (1536 : Nat) ≠ 0; decide) rfl (by show usub64 2048 0 = 2048; decide) (by omega) (by omega) (by omega)
  rw [List.take_of_length_le (by omega)] at e3
  have hABC : (A ++ B ++ C).length = 4096 := by rw [List.length_append]; omega
  have e4 := moveOne_file (X := A ++ B ++ C) (memory := memory) (base := [47, 116]) (loc := 3584) (d := [1, 2, 3])
    (w := ⟨0, [122], 70, [], 3, 512, 3584, 0⟩) h4 (by show 512 = _; omega) (by decide) rfl (by decide) rfl (by decide +kernel)
    (by decide) (by decide) (by omega) (by omega) (by show 3584 + D.length + 3 ≤ _; omega)
  have hX : (A ++ B ++ C).take 3584 = A ++ B ++ C.take 1536 := by
    rw [List.take_append, List.take_of_length_le (by omega), hAB]
  rw [hX] at e4
  have hlen : (A ++ B ++ C.take 1536 ++ D ++ [1, 2, 3]).length = 4099 := by
    simp only [List.length_append, List.length_take, List.length_cons, List.length_nil]; omega
  generalize hX4 : A ++ B ++ C.take 1536 ++ D ++ [1, 2, 3] = X4 at e4 hlen
  unfold workerDo
  rw [parsed502]
  have ht : totalLen ⟨0, [], 68, [], 0, 512, 0, 0⟩ ⟨0, [122], 70, [], 3, 512, 3584, 0⟩ = 4099 := by decide
  have hnb : nextBlock 4099 = 4608 := by decide
  have hmd : moveData demoEnv2 fs502 [47, 116] memory
      [⟨0, [], 68, [], 0, 512, 0, 0⟩, ⟨0, name250, 68, [], 0, 1536, 512, 0⟩,
      ⟨0, name250 ++ [47] ++ name248, 68, [], 0, 1536, 2048, 0⟩, ⟨0, [122], 70, [], 3, 512, 3584, 0⟩] =
      .ok (0, X4 ++ zeros 509) := by
    unfold moveData
    simp only [List.head?_cons, List.getLast?_cons_cons, List.getLast?_singleton]
    unfold moveLoop
    rw [e1]
    simp only
    unfold moveLoop
    rw [e2]
    simp only
    unfold moveLoop
    rw [e3]
    simp only
    unfold moveLoop
    rw [e4]
    simp only
    unfold moveLoop
    simp only [ht, hnb]
    have hz : (zeros (4608 - 4099)).length = 509 := List.length_replicate
    have hbf := blit_front (X := X4) (d := zeros (4608 - 4099)) (memory := memory) (loc := 4099) (by omega) (by omega) (by omega)
    rw [if_pos (by decide), hbf]
    simp only
    rw [List.take_of_length_le (by omega : X4.length ≤ 4099)]
    have hl2 : (X4 ++ zeros (4608 - 4099)).length = 4608 := by rw [List.length_append]; omega
    rw [if_pos (by rw [List.length_append, hl2]; omega), List.take_append_of_le_length (by omega),
      List.take_of_length_le (by omega)]
  unfold archive502
  rw [hA, hB, hC, hD, hX4]
  exact hmd

/-- What a tar reader finds: the two directories, and the contents of `z` as a file with the name of the
directory. -/
def found502 : List Member :=
  [⟨[47, 116, 47], 53, [], 493, 0, 0, 0, [114], [103], 0, []⟩,
   ⟨[47, 116, 47] ++ name250 ++ [47], 53, [], 493, 0, 0, 0, [114], [103], 0, []⟩,
   ⟨[47, 116, 47] ++ name250 ++ [47] ++ name248 ++ [47], 48, [], 420, 0, 0, 0, [114], [103], 3, [1, 2, 3]⟩]

theorem read502 : readArchive archive502 = some found502 := by
  have k1 : readMember archive502 = some (⟨[47, 116, 47], 53, [], 493, 0, 0, 0, [114], [103], 0, []⟩, archive502.drop 512) := by
    have p1 : parseBlock (archive502.take 512) =
        some ⟨[47, 116, 47], 493, 0, 0, 0, 0, 53, [], [114], [103]⟩ := by decide +kernel
    unfold readMember
    rw [p1]
    simp only
    rw [if_neg (by decide)]
    unfold takeData
    simp only [paxSizeVal, List.lookup_nil, Nat.not_lt_zero, if_false, Option.getD_none, List.take_zero]
    rfl
  have k2 : readMember (archive502.drop 512) =
      some (⟨[47, 116, 47] ++ name250 ++ [47], 53, [], 493, 0, 0, 0, [114], [103], 0, []⟩, archive502.drop 2048) := by
    decide +kernel
  have k3 : readMember (archive502.drop 2048) =
      some (⟨[47, 116, 47] ++ name250 ++ [47] ++ name248 ++ [47], 48, [], 420, 0, 0, 0, [114], [103], 3, [1, 2, 3]⟩, []) := by
    decide +kernel
  have n1 : ¬ (archive502 = [] ∨ archive502.take 1024 = zeros 1024) := by decide +kernel
  have n2 : ¬ (archive502.drop 512 = [] ∨ (archive502.drop 512).take 1024 = zeros 1024) := by decide +kernel
  have n3 : ¬ (archive502.drop 2048 = [] ∨ (archive502.drop 2048).take 1024 = zeros 1024) := by decide +kernel
  have l1 : archive502.length = 4608 := by decide +kernel
  rw [readArchive, if_neg n1, k1]
  simp only
  rw [dif_pos (by rw [List.length_drop]; omega), readArchive, if_neg n2, k2]
  simp only
  rw [dif_pos (by rw [List.length_drop, List.length_drop]; omega), readArchive, if_neg n3, k3]
  simp only
  rw [dif_pos (by rw [List.length_drop, l1]; decide), readArchive, if_pos (Or.inl rfl)]
  rfl

/-- The example on `ranks` processes. -/
def cfg502 (ranks : Nat) : Cfg := ⟨ranks, demoEnv2, fs502, true⟩

/-- **C63 (violation)** `parfu archivefile=a /t`, where a directory below `/t` has a path of exactly 502
bytes and the next entry of the archive is a file `z`: on any number of processes, whatever the schedule
and the contents of the workers' memory, every run comes to an end with all processes finished and status
0, and the archive reads without any complaint - but neither the directory nor `z` is in it: instead there
is a file with the name of the directory and the contents of `z`. -/
theorem C63_file_takes_name (ranks : Nat) (h2 : 2 ≤ ranks) (hI : ranks < 2 ^ 31) {tr : List Ev} {s : Sys} {eager : Bool}
    (h : MainRun demoSort2 (fun _ => 0) (fun _ => tree502) 7 [archivefile ++ [61, 97], [47, 116]] (cfg502 ranks) eager
      none tr s) :
    (∃ more s', MainRun demoSort2 (fun _ => 0) (fun _ => tree502) 7 [archivefile ++ [61, 97], [47, 116]] (cfg502 ranks)
      eager none (tr ++ more) s' ∧ Finished (cfg502 ranks) 0 s') ∧
    (Stuck (cfg502 ranks) s → Finished (cfg502 ranks) 0 s) ∧
    (s.boss = .exit 0 → ∃ A ms, s.file = some A ∧ readArchive A = some ms ∧
      Seen tree502 [[122]] zFile ∧ (∀ m ∈ ms, some m ≠ memberOf demoEnv2 [47, 116] [[122]] zFile) ∧
      Seen tree502 [name250, name248] inner502 ∧
      (∀ m ∈ ms, some m ≠ memberOf demoEnv2 [47, 116] [name250, name248] inner502) ∧
      ∃ m ∈ ms, m.path = archivedPath [47, 116] [name250, name248] inner502 ∧ m.flag = 48 ∧ m.data = contentOf zFile) := by
  have hp : parseArgs [] (defaultOpts 7) [archivefile ++ [61, 97], [47, 116]] = .ok (some ([[47, 116]], ⟨4992000, 7, [97]⟩)) := by
    decide +kernel
  obtain ⟨hsc, hpl⟩ := scan502
  have hst := mainStart_job (S := demoSort2) (g := fun _ => 0) (look := fun _ => tree502) (c := cfg502 ranks) (file0 := none)
    (by simp) hp (by decide) hsc hpl
  have hL : Launch (cfg502 ranks) 4992000 [97] [47, 116] [printBundle bundle502] :=
    { ranks := by show 1 ≤ ranks; omega
      ranksInt := hI
      bucket := by decide
      bucketInt := by decide
      archiveText := by decide
      baseText := by decide
      orderText := by decide +kernel }
  obtain ⟨r1, r2, r3⟩ := one_bundle_run hst hL h2 rfl work502 h
  refine ⟨r1, r2, fun hb => ⟨archive502, found502, r3 hb, read502, ?_, ?_, ?_, ?_, ?_⟩⟩
  · exact .step (.there (.here (by decide) (by decide))) (.self _)
  · decide +kernel
  · exact .step (.here (by decide) (by decide)) (.step (.here (by decide) (by decide)) (.self _))
  · decide +kernel
  · exact ⟨_, List.mem_cons_of_mem _ (List.mem_cons_of_mem _ List.mem_cons_self), by decide +kernel, rfl, rfl⟩

/-- Such a run exists. -/
example : ∃ tr s A ms m, MainRun demoSort2 (fun _ => 0) (fun _ => tree502) 7 [archivefile ++ [61, 97], [47, 116]] (cfg502 3)
      true none tr s ∧ Finished (cfg502 3) 0 s ∧ s.file = some A ∧ readArchive A = some ms ∧ m ∈ ms ∧
      m.path = archivedPath [47, 116] [name250, name248] inner502 ∧ m.data = [1, 2, 3] := by
  obtain ⟨⟨tr, s, h1, h2⟩, _⟩ := C63_file_takes_name 3 (by decide) (by decide) (eager := true) (tr := []) Run.nil
  obtain ⟨A, ms, h3, h4, _, _, _, _, m, h5, h6, _, h7⟩ := (C63_file_takes_name 3 (by decide) (by decide) h1).2.2 h2.1
  exact ⟨_, s, A, ms, m, h1, h2, h3, h4, h5, h6, h7⟩

end Parfu.Props
