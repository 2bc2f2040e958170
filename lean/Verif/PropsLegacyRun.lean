/-
Property theorems C46 to C51: whole runs of parfu 0.5.1, from the directory to the archive.
-/
import Verif.LegacyRunTotal
import Verif.LegacyArchiveWrites
set_option autoImplicit false

namespace Parfu.Props
open Parfu ScanSpec LegacyScanSpec MoveSpec TarSpec LegacyRunSpec SplitSpec

theorem topAllowed_iff (s : Option FNode) : topAllowed s = true ↔ DirOrLink s := by
  rcases s with _ | s
  · simp [topAllowed, DirOrLink]
  · cases s <;> simp [topAllowed, DirOrLink]

theorem blocking_free : LegTabFree blockingName := by
  constructor <;> decide

/-- A run on an archivable tree is a run on a list the writer can handle. -/
theorem main_run {L : LegEnv} {nul top : Bytes} {root : FNode} (hp : Platform L nul) (ha : LegArchivable L.env L.fs top root)
    (Q : QSort Frag) : ∃ es ms, (∀ seen, topAllowed seen = true → ∀ L' n, legacyMain L' Q nul top seen root n =
        legacyRun L' nul 512 legBucket blockingName es n) ∧ RunOk L legBucket es ms ∧ MembersOf L.env top root ms ∧
      (es.map Frag.arc).Nodup ∧
      (∀ p n, Visible root p n → describe p n ≠ none → ∃ e ∈ es, e.arc = pathText p) ∧ es.Pairwise (fun a b => a.size ≤ b.size) ∧
      ms.Pairwise (fun a b => ¬ (b.flag = 53 ∧ b.path <+: a.path)) ∧
      (∀ e ∈ es, ∃ p n, Visible root p n ∧ describe p n ≠ none ∧ e.arc = pathText p ∧
        Headed top p e ∧ Marks e n ∧
        ((archivedPath (baseOf top) p n).length ≤ 100 → (∀ m t, n = .lnk m t → t.length ≤ 100) →
          e.hdr = 512 ∧ e.target.length ≤ 100 ∧ e.rel.length ≤ 100 ∧ e.arc.length ≤ 100 ∧ e.padName = none)) := by
  obtain ⟨l, es, ms, h1, h2, h3, h4, h5, h8, h9, h6, h7⟩ := list_ok ha Q hp.lax hp.clock hp.clockCat hp.clockGap
  refine ⟨_, ms, ?_, h3, h4, h5, h8, h9, h6, h7⟩
  intro seen hseen L' n
  have hsc : legacyScan top seen root = legacyScan top (some root) root := by
    have hd : topAllowed (some root) = true := by
      have := ha.isDir
      cases root <;> simp [IsDir, topAllowed] at this ⊢
    unfold legacyScan
    simp only [hd, hseen]
  unfold legacyMain
  rw [hsc, h1, bindRO_some, h2]
  rfl

/-- **C46 (partial)** A successful run of parfu 0.5.1 in mode 'C' leaves an archive that a tar reader
can read to its end: it holds, besides parfu's own catalog and fillers, exactly the objects of the
tree whose names do not begin with a dot, each exactly once, with their paths, types, owners, times,
link targets and contents, every directory before what is inside it.  This is so whatever the number of
ranks, the order in which the writes reach the file, and what the file held before.
Missing: the tree must be `LegArchivable`, closing an unset handle must be harmless (see C50), and the
catalog must not end 512 bytes before the end of a bucket (see C51). -/
theorem C46_archive_partial (L : LegEnv) (Q : QSort Frag) (nul top : Bytes) (root : FNode) (hp : Platform L nul)
    (ha : LegArchivable L.env L.fs top root) (seen : Option FNode) (hseen : DirOrLink seen) (n : Nat) (hn : 0 < n)
    (front : List WriteReq) (wss : List (List WriteReq))
    (h : legacyMain L Q nul top seen root n = .ok (some (front, wss)))
    (hgap : ∀ cat, (512, cat) ∈ front → (cat.length + 1024) % 4194304 ≠ 0)
    (ws : List WriteReq) (hws : ws.Perm (front ++ wss.flatten)) (old : Bytes) :
    ∃ cat all, readArchive (ws.foldl writeAt old) = some (cat :: all) ∧ terminated (ws.foldl writeAt old) = true ∧
      cat.path = catalogName ∧ cat.flag = 48 ∧ (512, cat.data) ∈ front ∧
      MembersOf L.env top root (all.filter fun m => !ownMember m) ∧
      (all.filter fun m => !ownMember m).Pairwise (fun a b => ¬ (b.flag = 53 ∧ b.path <+: a.path)) := by
  obtain ⟨es, ms, h1, h3, h4, h5, h8, h9, h6, h7⟩ := main_run hp ha Q
  rw [h1 seen ((topAllowed_iff seen).2 hseen)] at h
  obtain ⟨hap, cat', z, hcat', hfr, _⟩ := run_writes h3 blocking_free hp.nul hn h
  obtain ⟨cat, m, all, k1, k2, k3, k4, k5⟩ := run_archive h3 blocking_free hp.nul hn h (by
    intro cat hc
    rw [hcat'] at hc
    simp only [Except.ok.injEq, Option.some.injEq] at hc
    subst hc
    have := hgap _ hfr.text
    have hb : legBucket.toNat = 4194304 := rfl
    rw [hb]
    omega) ws hws old
  rw [hcat'] at k1
  simp only [Except.ok.injEq, Option.some.injEq] at k1
  subst k1
  exact ⟨m, all, k2.1, k2.2, k3.1, k3.2, by rw [k4]; exact hfr.text, by rw [k5]; exact h4, by rw [k5]; exact h6⟩

/-- **C47** The writes all ranks make never overlap, so the archive has the same bytes in whatever order
they reach the file, and they end with the 1024 zero bytes of the end mark. -/
theorem C47_writes_apart (L : LegEnv) (Q : QSort Frag) (nul top : Bytes) (root : FNode) (hp : Platform L nul)
    (ha : LegArchivable L.env L.fs top root) (seen : Option FNode) (hseen : DirOrLink seen) (n : Nat) (hn : 0 < n)
    (front : List WriteReq) (wss : List (List WriteReq))
    (h : legacyMain L Q nul top seen root n = .ok (some (front, wss))) :
    (front ++ wss.flatten).Pairwise (fun a b => Apart a.1 a.2.length b.1 b.2.length) ∧
    (∀ ws ws' : List WriteReq, ws.Perm (front ++ wss.flatten) → ws'.Perm (front ++ wss.flatten) →
      ∀ old, ws.foldl writeAt old = ws'.foldl writeAt old) ∧
    ∃ z, 4194304 ∣ z ∧ (z, List.replicate 1024 0) ∈ wss.flatten ∧
      ∀ w ∈ front ++ wss.flatten, w.1 + w.2.length ≤ z + 1024 := by
  obtain ⟨es, ms, h1, h3, h4, h5, h8, h9, h6, h7⟩ := main_run hp ha Q
  rw [h1 seen ((topAllowed_iff seen).2 hseen)] at h
  obtain ⟨hap, cat', z, hcat', hfr, k1, k2, k3, k4, k5⟩ := run_writes h3 blocking_free hp.nul hn h
  refine ⟨hap, ?_, z, k1, k2, k5⟩
  intro ws ws' hw hw' old
  rw [foldl_perm hw ?_ old, foldl_perm hw' ?_ old]
  · have hs : Std.Symm WApart := ⟨fun _ _ => WApart.symm⟩
    exact (hw'.pairwise_iff (fun {_ _} => WApart.symm)).2 hap
  · exact (hw.pairwise_iff (fun {_ _} => WApart.symm)).2 hap

/-- The number of fragments, in terms of the tree. -/
theorem tree_count {root : FNode} {es : List Frag} {c : Nat} (hnd : (es.map Frag.arc).Nodup)
    (hone : ∀ e ∈ es, ∃ o : List Bytes × FNode, Visible root o.1 o.2 ∧ e.arc = pathText o.1 ∧ e.size = markOf o.2)
    (hcount : ∀ os : List (List Bytes × FNode), os.Nodup → (∀ o ∈ os, Visible root o.1 o.2) →
      (os.map fun o => fileLength o.2 / 4194304 + 2).sum ≤ c) :
    (es.map fun e => max e.size 0 / legBucket + 2).sum ≤ c := by
  obtain ⟨os, hos⟩ := forall2_of_forall hone
  have hnd' : os.Nodup :=
    forall2_pairwise (S := fun a b => a.arc ≠ b.arc) (T := (· ≠ ·))
      (fun a b o o' hab h h' hoo => hab (by rw [h.2.1, h'.2.1, hoo])) hos (List.pairwise_map.1 hnd)
  have hsum := hcount os hnd' (fun o ho => by
    obtain ⟨e, _, he⟩ := forall2_mem_right hos o ho
    exact he.1)
  have hb : legBucket = 4194304 := rfl
  have heq : (es.map fun e => max e.size 0 / legBucket + 2).sum = ((os.map fun o => fileLength o.2 / 4194304 + 2).sum : Nat) := by
    clear hsum hnd' hnd hone hcount
    induction hos with
    | nil => rfl
    | cons h _ ih =>
      simp only [List.map_cons, List.sum_cons]
      rw [ih, h.2.2, hb]
      rename_i o _ _ _
      push_cast
      congr 2
      rcases o with ⟨p, m⟩
      cases m <;> simp [markOf, fileLength]
  rw [heq]
  omega

/-- **C48** A run on an archivable tree succeeds, whatever the number of ranks, if all paths and link
targets are at most 100 bytes long and the tree is not too large: the number of buckets its files fill
plus two for every object is at most 500000. -/
theorem C48_run_succeeds (L : LegEnv) (Q : QSort Frag) (nul top : Bytes) (root : FNode) (hp : Platform L nul)
    (hnl : nul.length ≤ 100) (ha : LegArchivable L.env L.fs top root) (seen : Option FNode) (hseen : DirOrLink seen) (n : Nat) (hn : 0 < n)
    (hshort : ∀ p m, Visible root p m → (archivedPath (baseOf top) p m).length ≤ 100 ∧ ∀ d t, m = .lnk d t → t.length ≤ 100)
    (hcount : ∀ os : List (List Bytes × FNode), os.Nodup → (∀ o ∈ os, Visible root o.1 o.2) →
      (os.map fun o => fileLength o.2 / 4194304 + 2).sum ≤ 500000) :
    ∃ front wss, legacyMain L Q nul top seen root n = .ok (some (front, wss)) := by
  obtain ⟨es, ms, h1, h3, h4, h5, h8, h9, h6, h7⟩ := main_run hp ha Q
  rw [h1 seen ((topAllowed_iff seen).2 hseen)]
  refine run_total h3 blocking_free hp.nul (by decide) hnl hn ?_ (tree_count h5 ?_ hcount)
  · intro e he
    obtain ⟨p, m, k1, _, k3, _, k5, k6⟩ := h7 e he
    obtain ⟨a, b, c, d, f⟩ := k6 (hshort p m k1).1 (hshort p m k1).2
    exact ⟨a, c, d, b, f⟩
  · intro e he
    obtain ⟨p, m, k1, _, k3, _, k5, _⟩ := h7 e he
    exact ⟨(p, m), k1, k3, k5.1⟩

/-- **C48** A run on an archivable tree with names of any length succeeds, whatever the number of ranks, if
link targets are at most 100 bytes long, no file ends in the last 44304 bytes of a bucket's length (the size of every file, divided by the
bucket size 4194304, leaves at most 4150000), and the number of buckets the files fill plus two for every
object is at most 50000. -/
theorem C48_long_names (L : LegEnv) (Q : QSort Frag) (nul top : Bytes) (root : FNode) (hp : Platform L nul)
    (hnl : nul.length ≤ 100) (ha : LegArchivable L.env L.fs top root) (seen : Option FNode) (hseen : DirOrLink seen) (n : Nat) (hn : 0 < n)
    (hlinks : ∀ p d t, Visible root p (.lnk d t) → t.length ≤ 100)
    (hsizes : ∀ p m, Visible root p m → fileLength m % 4194304 ≤ 4150000)
    (hcount : ∀ os : List (List Bytes × FNode), os.Nodup → (∀ o ∈ os, Visible root o.1 o.2) →
      (os.map fun o => fileLength o.2 / 4194304 + 2).sum ≤ 50000) :
    ∃ front wss, legacyMain L Q nul top seen root n = .ok (some (front, wss)) := by
  obtain ⟨es, ms, h1, h3, h4, h5, h8, h9, h6, h7⟩ := main_run hp ha Q
  rw [h1 seen ((topAllowed_iff seen).2 hseen)]
  have hb : legBucket = 4194304 := rfl
  have hsz : ∀ e ∈ es, 512 ≤ e.hdr ∧ e.hdr ≤ 20000 ∧ dataLen e % 4194304 ≤ 4150000 := by
    intro e he
    obtain ⟨p, m, k1, _, _, k4, k5, _⟩ := h7 e he
    refine ⟨k4.min, k4.max, ?_⟩
    have := hsizes p m k1
    unfold dataLen
    rw [k5.1]
    cases m <;> simp [markOf, fileLength] at this ⊢
    omega
  have hsf : SmallFirst 512 legBucket es := by
    refine List.Pairwise.imp_of_mem ?_ h9
    intro a b ha' hb' hab hsm
    obtain ⟨a1, a2, a3⟩ := hsz a ha'
    obtain ⟨b1, b2, b3⟩ := hsz b hb'
    have hle : dataLen a ≤ dataLen b := by unfold dataLen; omega
    unfold Small room at hsm ⊢
    rw [hb] at hsm ⊢
    omega
  refine run_total_gen h3 blocking_free hp.nul (by decide) hnl hn (R := 4096) (c := 50000) ?_ hsf ?_ (tree_count h5 ?_ hcount)
    (by omega) (by omega)
  · intro e he
    obtain ⟨p, m, k1, _, k3, k4, k5, _⟩ := h7 e he
    obtain ⟨c1, c2, c3⟩ := hsz e he
    have hpl := ha.paths p m k1
    have hl := archivedPath_len (baseOf top) p m
    refine ⟨c1, c2, ?_, by rw [k3]; omega, ?_, k4.none⟩
    · rw [k4.rel]; simp only [List.length_append, List.length_singleton]; omega
    · rw [k5.2.2]
      cases m with
      | lnk d t => exact hlinks p d t k1
      | _ => simp [targetOf]
  · intro e he hbig
    obtain ⟨c1, c2, c3⟩ := hsz e (List.dropLast_subset _ he)
    refine Or.inr ?_
    unfold Small room at hbig
    unfold room
    rw [hb] at hbig ⊢
    omega
  · intro e he
    obtain ⟨p, m, k1, _, k3, _, k5, _⟩ := h7 e he
    exact ⟨(p, m), k1, k3, k5.1⟩

/-- A run with another number of ranks. -/
theorem run_any {L : LegEnv} {nul pad : Bytes} {acc : Int} {es : List Frag} {ms : List Member} (hr : RunOk L acc es ms)
    (hpad : LegTabFree pad) (hnul : LegTabFree nul) {n n' : Nat} (hn : 0 < n) (hn' : 0 < n') {front : List WriteReq} {wss : List (List WriteReq)}
    (h : legacyRun L nul 512 acc pad es n = .ok (some (front, wss))) :
    ∃ wss', legacyRun L nul 512 acc pad es n' = .ok (some (front, wss')) := by
  unfold legacyRun at h ⊢
  obtain ⟨cat, hcat, h⟩ := bindRO_eq h
  rw [hcat, bindRO_some]
  split at h
  · cases h
  rename_i fw hfw
  obtain ⟨⟨gs, r⟩, hsp, h⟩ := bindRO_eq h
  simp only [] at h
  obtain ⟨text, htx, h⟩ := bindRO_eq h
  obtain ⟨call, hcl, h⟩ := bindRO_eq h
  split at h
  · cases h
  rename_i hck
  obtain ⟨wss', hall, h⟩ := bindRO_eq h
  simp only [Except.ok.injEq, Option.some.injEq, Prod.mk.injEq] at h
  obtain ⟨rfl, rfl⟩ := h
  obtain ⟨_, _, wss2, e1, _⟩ := run_core hr hpad hnul hn'
    (dstart := dataOffset acc.toNat (512 + cat.length)) hsp htx hcl (by simpa using hck)
    (run_layout hr hpad hnul hn hsp htx hcl (by simpa using hck) hall)
  refine ⟨wss2, ?_⟩
  rw [hsp, bindRO_some]
  simp only []
  rw [htx, bindRO_some, hcl, bindRO_some, if_neg hck, e1, bindRO_some]

/-- **C49 (partial)** Whether a run succeeds, what it writes before the data, and which members the
archive has, in which order, does not depend on the number of ranks (nor on the order of the writes, nor
on what the file held before).
Missing: as for C46; the bytes between the members do depend on the number of ranks (C49_bytes, C49_two_files). -/
theorem C49_ranks_partial (L : LegEnv) (Q : QSort Frag) (nul top : Bytes) (root : FNode) (hp : Platform L nul)
    (ha : LegArchivable L.env L.fs top root) (seen : Option FNode) (hseen : DirOrLink seen) (n n' : Nat) (hn : 0 < n) (hn' : 0 < n')
    (front : List WriteReq) (wss : List (List WriteReq))
    (h : legacyMain L Q nul top seen root n = .ok (some (front, wss)))
    (hgap : ∀ cat, (512, cat) ∈ front → (cat.length + 1024) % 4194304 ≠ 0) :
    ∃ wss', legacyMain L Q nul top seen root n' = .ok (some (front, wss')) ∧
      ∀ (ws ws' : List WriteReq) (old old' : Bytes), ws.Perm (front ++ wss.flatten) → ws'.Perm (front ++ wss'.flatten) →
        ∃ cat cat' all all', readArchive (ws.foldl writeAt old) = some (cat :: all) ∧
          readArchive (ws'.foldl writeAt old') = some (cat' :: all') ∧ cat.path = cat'.path ∧ cat.data = cat'.data ∧
          (all.filter fun m => !ownMember m) = all'.filter fun m => !ownMember m := by
  obtain ⟨es, ms, h1, h3, h4, h5, h8, h9, h6, h7⟩ := main_run hp ha Q
  rw [h1 seen ((topAllowed_iff seen).2 hseen)] at h ⊢
  obtain ⟨wss', h'⟩ := run_any h3 blocking_free hp.nul hn hn' h
  refine ⟨wss', h', ?_⟩
  intro ws ws' old old' hw hw'
  obtain ⟨hap, cat', z, hcat', hfr, _⟩ := run_writes h3 blocking_free hp.nul hn h
  have hg : ∀ cat, listToBuffer nul true legBucket es = .ok (some cat) → (512 + cat.length + 512) % legBucket.toNat ≠ 0 := by
    intro cat hc
    rw [hcat'] at hc
    simp only [Except.ok.injEq, Option.some.injEq] at hc
    subst hc
    have := hgap _ hfr.text
    have hb : legBucket.toNat = 4194304 := rfl
    rw [hb]
    omega
  obtain ⟨cat, m, all, k1, k2, k3, k4, k5⟩ := run_archive h3 blocking_free hp.nul hn h hg ws hw old
  obtain ⟨cat2, m', all', q1, q2, q3, q4, q5⟩ := run_archive h3 blocking_free hp.nul hn' h' hg ws' hw' old'
  rw [k1] at q1
  simp only [Except.ok.injEq, Option.some.injEq] at q1
  subst q1
  exact ⟨m, m', all, all', k2.1, q2.1, by rw [k3.1, q3.1], by rw [k4, q4], by rw [k5, q5]⟩

/-! ### C51: the block left out after the catalog -/

theorem parseBlock_zeros : parseBlock (zeros 512) = none := by
  decide +kernel

theorem readMember_zero {b : Bytes} (h : b.take 512 = zeros 512) : readMember b = none := by
  unfold readMember
  rw [h, parseBlock_zeros]

theorem dataOffset_gap {acc len : Nat} (hacc : 512 < acc) (h : (len + 512) % acc = 0) : dataOffset acc len = len + 512 := by
  have h1 := dataOffset_spec (acc := acc) (len := len) (by omega)
  obtain ⟨⟨k, hk⟩, h2, h3⟩ := h1
  obtain ⟨j, hj⟩ := Nat.dvd_of_mod_eq_zero h
  have : k = j := by
    by_contra hne
    rcases Nat.lt_or_gt_of_ne hne with hlt | hlt
    · have := Nat.mul_le_mul_left acc (show k + 1 ≤ j by omega)
      rw [Nat.mul_add] at this
      omega
    · have := Nat.mul_le_mul_left acc (show j + 1 ≤ k by omega)
      rw [Nat.mul_add] at this
      omega
  rw [hk, this, ← hj]

/-- A list whose catalog ends 512 bytes before the end of a bucket. -/
theorem run_gap {L : LegEnv} {nul pad : Bytes} {acc : Int} {es : List Frag} {ms : List Member} (hr : RunOk L acc es ms)
    (hpad : LegTabFree pad) (hnul : LegTabFree nul) {n : Nat} (hn : 0 < n) {front : List WriteReq} {wss : List (List WriteReq)}
    (h : legacyRun L nul 512 acc pad es n = .ok (some (front, wss)))
    (hgap : ∀ cat, listToBuffer nul true acc es = .ok (some cat) → (512 + cat.length + 512) % acc.toNat = 0)
    (ws : List WriteReq) (hws : ws.Perm (front ++ wss.flatten)) : readArchive (ws.foldl writeAt []) = none := by
  obtain ⟨cat, all, hcat, hfw, hholds, hlen, hlow, hall, hms⟩ := run_data hr hpad hnul hn h ws hws []
  have hmin := hr.accMin
  have hmax := hr.accMax
  have hclen : cat.length < 2 ^ 32 := listToBuffer_le hcat
  have hdn : 512 ∣ acc.toNat := by have := hr.accDvd; omega
  have hg := hgap cat hcat
  have hc512 : 512 ∣ cat.length := by
    have := Nat.dvd_of_mod_eq_zero hg
    have := Dvd.dvd.trans hdn this
    omega
  have hds := dataOffset_gap (acc := acc.toNat) (len := 512 + cat.length) (by omega) hg
  rw [hds] at hlen hlow hall
  -- what is written before the data
  have hfr : front = [(0, legacyHeader catalogName cat.length L.nowCat), (512, cat)] := by
    unfold frontWrites at hfw
    rw [hdr512 (by decide) (by decide) (by omega)] at hfw
    simp only [] at hfw
    rw [if_neg (by simp)] at hfw
    unfold catalogGap at hfw
    rw [hds, if_neg (by omega)] at hfw
    simp only [Except.ok.injEq, List.append_nil] at hfw
    exact hfw.symm
  have hl1 := legacyHeader_length catalogName (size := cat.length) (mtime := L.nowCat) (by omega) hr.clockCat
  have hunt := foldl_untouched (ws := ws) (a := 512 + cat.length) (n := 512) (by
    intro w hw
    have := hws.mem_iff.1 hw
    rw [List.mem_append, hfr] at this
    rcases this with h | h
    · simp only [List.mem_cons, List.not_mem_nil, or_false] at h
      rcases h with rfl | rfl
      · right; simp only [hl1]; omega
      · right; simp only []; omega
    · left; have := hlow w h; omega) [] (by simp)
  generalize ws.foldl writeAt [] = A at *
  obtain ⟨m, _, _, _, _, m5⟩ := legacyHeader_read (name := catalogName) (size := cat.length) (mtime := L.nowCat)
    (by decide) (by decide) (by omega) hr.clockCat cat rfl
  have k1 := hholds (0, legacyHeader catalogName cat.length L.nowCat) (by rw [hfr]; simp)
  have k2 := hholds (512, cat) (by rw [hfr]; simp)
  have k3 : Holds A 0 (legacyHeader catalogName cat.length L.nowCat ++ cat) := by
    rw [holds_append]
    exact ⟨k1, by rw [hl1]; exact k2⟩
  have hsplit : A = legacyHeader catalogName cat.length L.nowCat ++ (cat ++ ([] ++ A.drop (512 + cat.length))) := by
    have hh := k3
    unfold Holds at hh
    rw [List.drop_zero] at hh
    conv => lhs; rw [← List.take_append_drop (legacyHeader catalogName cat.length L.nowCat ++ cat).length A, hh]
    rw [List.length_append, hl1]
    simp
  have hread := m5 [] (A.drop (512 + cat.length)) (by simp [pad512]; omega)
  rw [← hsplit] at hread
  -- the block after the catalog
  have hz : (A.drop (512 + cat.length)).take 512 = zeros 512 := by
    apply List.ext_getElem
    · rw [List.length_take, List.length_drop]
      unfold zeros; rw [List.length_replicate]; omega
    · intro i h1 h2
      rw [List.length_take, List.length_drop] at h1
      rw [List.getElem_take, List.getElem_drop]
      have h3 : 512 + cat.length + i < A.length := by omega
      rcases hunt (512 + cat.length + i) (by omega) (by omega) with h4 | h4
      · rw [List.getElem?_eq_getElem h3] at h4; cases h4
      · rw [List.getElem?_eq_getElem h3] at h4
        simp only [Option.some.injEq] at h4
        rw [h4]
        simp only [zeros, List.getElem_replicate]
  have hnz : (A.drop (512 + cat.length)).take 1024 ≠ zeros 1024 := by
    intro hz2
    have h5 : (A.drop (512 + cat.length + 512)).take 512 = zeros 512 := by
      have := congrArg (List.drop 512) hz2
      rw [List.drop_take, List.drop_drop] at this
      rw [this]
      simp only [zeros, List.drop_replicate]
    have h6 := hall.1
    rw [readArchive, readMember_zero h5] at h6
    split at h6
    · simp only [Option.some.injEq] at h6
      rw [← h6] at hms
      have h7 := hr.members.length_eq
      have h2 := hr.two
      rw [← hms] at h7
      simp only [List.filter_nil, List.length_nil] at h7
      omega
    · cases h6
  have hne : A ≠ [] := by
    rintro rfl
    simp at hlen
  have hrest : readArchive (A.drop (512 + cat.length)) = none := by
    rw [readArchive, readMember_zero hz, if_neg]
    rintro (h | h)
    · have := congrArg List.length h
      rw [List.length_drop] at this
      simp at this
      omega
    · exact hnz h
  rw [readArchive, hread, if_neg]
  · simp only [hrest]
    split <;> rfl
  · rintro (h | h)
    · exact hne h
    · exact legacyHeader_not_zero (name := catalogName) (size := cat.length) (by omega) hr.clockCat _ (by rw [← hsplit]; exact h)

/-- **C51, violated** If the catalog ends exactly 512 bytes before the end of a bucket, parfu puts
nothing into these 512 bytes; in a new file they are a zero block, and a tar reader stops with an error
after the catalog. -/
theorem C51_lone_zero_block (L : LegEnv) (Q : QSort Frag) (nul top : Bytes) (root : FNode) (hp : Platform L nul)
    (ha : LegArchivable L.env L.fs top root) (seen : Option FNode) (hseen : DirOrLink seen) (n : Nat) (hn : 0 < n)
    (front : List WriteReq) (wss : List (List WriteReq))
    (h : legacyMain L Q nul top seen root n = .ok (some (front, wss)))
    (cat : Bytes) (hc : (512, cat) ∈ front) (hgap : (cat.length + 1024) % 4194304 = 0)
    (ws : List WriteReq) (hws : ws.Perm (front ++ wss.flatten)) : readArchive (ws.foldl writeAt []) = none := by
  obtain ⟨es, ms, h1, h3, h4, h5, h8, h9, h6, h7⟩ := main_run hp ha Q
  rw [h1 seen ((topAllowed_iff seen).2 hseen)] at h
  refine run_gap h3 blocking_free hp.nul hn h ?_ ws hws
  intro cat' hc'
  obtain ⟨hap, cat2, z, hcat2, hfr, _⟩ := run_writes h3 blocking_free hp.nul hn h
  rw [hcat2] at hc'
  simp only [Except.ok.injEq, Option.some.injEq] at hc'
  subst hc'
  have hb : legBucket.toNat = 4194304 := rfl
  rw [hb]
  by_cases he : cat = cat2
  · subst he; omega
  · exfalso
    have hs : Std.Symm WApart := ⟨fun _ _ => WApart.symm⟩
    have := (List.pairwise_append.1 hap).1.forall hc hfr.text (by simpa using he)
    unfold WApart Apart at this
    simp only [] at this
    have h2 : 0 < cat2.length := by
      obtain ⟨t1, t2, t3⟩ := listToBuffer_text hcat2
      rw [t1]
      simp [catText]
    have h3 : 0 < cat.length := by
      by_contra hz
      rw [show cat.length = 0 by omega] at hgap
      simp at hgap
    omega

end Parfu.Props
