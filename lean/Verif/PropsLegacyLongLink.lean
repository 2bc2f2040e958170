/-
Property theorems for C44 on whole trees: a directory tree for which parfu 0.5.1 makes no layout.
-/
import Verif.PropsLegacyEnds
import Verif.PropsLegacyGap
set_option autoImplicit false

namespace Parfu.Props
open Parfu ScanSpec LegacyScanSpec MoveSpec TarSpec LegacyRunSpec RanksSpec

/-- A sorted list whose entries of size -3 are `k` many, and which has an entry of size -2: those `k`, then an entry
of size -2. -/
theorem sorted_marks {es : List Frag} (hs : es.Pairwise (fun a b => a.size ≤ b.size)) (hm : ∀ e ∈ es, -3 ≤ e.size)
    (hl : ∃ e ∈ es, e.size = -2) : ∃ ds e rest, es = ds ++ e :: rest ∧ ds = es.filter (fun d => d.size == -3) ∧ e.size = -2 := by
  induction es with
  | nil => obtain ⟨e, h, _⟩ := hl; cases h
  | cons x es ih =>
    rw [List.pairwise_cons] at hs
    by_cases hx : x.size = -3
    · obtain ⟨ds, e, rest, h1, h2, h3⟩ := ih hs.2 (fun e he => hm e (by simp [he])) (by
        obtain ⟨e, h, k⟩ := hl
        rcases List.mem_cons.1 h with rfl | h
        · omega
        · exact ⟨e, h, k⟩)
      refine ⟨x :: ds, e, rest, by rw [h1]; rfl, ?_, h3⟩
      simp [hx, h2]
    · have h3 := hm x (by simp)
      refine ⟨[], x, es, rfl, ?_, ?_⟩
      · symm
        rw [List.filter_eq_nil_iff]
        intro d hd
        simp only [beq_iff_eq]
        rcases List.mem_cons.1 hd with rfl | hd
        · exact hx
        · have := hs.1 d hd; omega
      · obtain ⟨e, h, k⟩ := hl
        rcases List.mem_cons.1 h with rfl | h
        · exact k
        · have := hs.1 e h; omega

/-- What makes the layout fail: the directories that are seen, the given one among them, are as many as fill a bucket
of 4 MiB but for one block, their paths take 100 bytes at most; there is a symbolic link, and the targets of all
links have more than 100 bytes. -/
structure LongLinks (top : Bytes) (root : FNode) (dirs : List (List Bytes)) : Prop where
  nodup : dirs.Nodup
  all : ∀ p, p ∈ dirs ↔ ∃ m o k, Visible root p (.dir m o k)
  number : dirs.length = 8191
  short : ∀ p m o k, Visible root p (.dir m o k) → (archivedPath (baseOf top) p (.dir m o k)).length ≤ 100
  link : ∃ p m t, Visible root p (.lnk m t)
  long : ∀ p m t, Visible root p (.lnk m t) → 100 < t.length

/-- The list of such a tree has no layout. -/
theorem longLinks_split {L : LegEnv} {nul top : Bytes} {root : FNode} (hp : Platform L nul)
    (ha : LegArchivable L.env L.fs top root) {dirs : List (List Bytes)} (hl : LongLinks top root dirs) (Q : QSort Frag)
    (seen : Option FNode) (hseen : DirOrLink seen) :
    ∃ es, rank0List Q top seen root = .ok es ∧ splitList 512 legBucket blockingName es = .ok none := by
  obtain ⟨l, es, ms, h1, h2, h3, h4, h5, h8, h9, h6, h7⟩ := list_ok ha Q hp.lax hp.clock hp.clockCat hp.clockGap
  have hd : topAllowed (some root) = true := by
    have := ha.isDir
    cases root <;> simp [IsDir, topAllowed] at this ⊢
  have hsc : legacyScan top seen root = legacyScan top (some root) root := by
    unfold legacyScan
    simp only [hd, (topAllowed_iff seen).2 hseen]
  refine ⟨qsortEntries Q es, ?_, ?_⟩
  · unfold rank0List
    rw [hsc, h1]
    simp only []
    rw [h2]
  generalize qsortEntries Q es = qs at *
  -- a link is in the list
  have hlk : ∃ e ∈ qs, e.size = -2 := by
    obtain ⟨p, m, t, hv⟩ := hl.link
    obtain ⟨e, he, harc⟩ := h8 p _ hv (by simp [describe])
    obtain ⟨p', n', hv', hd', harc', hh, hmk, _⟩ := h7 e he
    have hpp := pathText_inj (at_nameOk hv'.1 ha.treeOk) (at_nameOk hv.1 ha.treeOk) (harc'.symm.trans harc)
    subst hpp
    have hnn := at_functional ha.treeOk hv'.1 hv.1
    subst hnn
    exact ⟨e, he, hmk.1⟩
  obtain ⟨ds, e, rest, hqs, hds, hes⟩ := sorted_marks h9 (fun e he => by
    obtain ⟨p', n', _, _, _, _, hmk, _⟩ := h7 e he
    rw [hmk.1]; exact markOf_ge n') hlk
  -- what an entry of size -3, -2 is
  have hdir : ∀ d ∈ qs, d.size = -3 → ∃ p m o k, Visible root p (.dir m o k) ∧ d.arc = pathText p ∧ d.hdr = 512 := by
    intro d hd hsz
    obtain ⟨p', n', hv', hd', harc', hh, hmk, hsh⟩ := h7 d hd
    have := hmk.1
    rw [hsz] at this
    cases n' with
    | reg m c => simp [markOf] at this
    | lnk m t => simp [markOf] at this
    | other m => simp [markOf] at this
    | dir m o k => exact ⟨p', m, o, k, hv', harc', (hsh (hl.short p' m o k hv') (by intro _ _ h; cases h)).1⟩
  have heq : e ∈ qs := by rw [hqs]; simp
  have hlong : 512 < e.hdr ∧ e.hdr ≤ 20000 ∧ 100 < e.target.length := by
    obtain ⟨p', n', hv', hd', harc', hh, hmk, hsh⟩ := h7 e heq
    have := hmk.1
    rw [hes] at this
    cases n' with
    | reg m c => simp [markOf] at this
    | dir m o k => simp [markOf] at this
    | other m => simp [markOf] at this
    | lnk m t =>
      have ht : e.target = t := hmk.2.2
      have hlt := hl.long p' m t hv'
      obtain ⟨h, k1, k2⟩ := hdr_long (pad := e.rel) (t := e.target) (s := e.size) (by rw [ht]; exact hlt)
      have hmd := hh.made.2
      rw [k1] at hmd
      simp only [Except.ok.injEq] at hmd
      have := hh.max
      have := hh.min
      exact ⟨by omega, by omega, by rw [ht]; exact hlt⟩
  -- the number of directories
  have hnum : ds.length = 8191 := by
    have hnd : (ds.map Frag.arc).Nodup := by
      rw [hds]
      exact h5.sublist (List.filter_sublist.map Frag.arc)
    have hpm : (ds.map Frag.arc).Perm (dirs.map pathText) := by
      refine (List.perm_ext_iff_of_nodup hnd ?_).2 ?_
      · refine List.Nodup.map_on ?_ hl.nodup
        intro p h p' h' hpp
        obtain ⟨m, o, k, hv⟩ := (hl.all p).1 h
        obtain ⟨m', o', k', hv'⟩ := (hl.all p').1 h'
        exact pathText_inj (at_nameOk hv.1 ha.treeOk) (at_nameOk hv'.1 ha.treeOk) hpp
      · intro x
        rw [List.mem_map, List.mem_map]
        constructor
        · rintro ⟨d, hd, rfl⟩
          rw [hds, List.mem_filter] at hd
          obtain ⟨p, m, o, k, hv, harc, _⟩ := hdir d hd.1 (by simpa using hd.2)
          exact ⟨p, (hl.all p).2 ⟨m, o, k, hv⟩, harc.symm⟩
        · rintro ⟨p, hp', rfl⟩
          obtain ⟨m, o, k, hv⟩ := (hl.all p).1 hp'
          obtain ⟨d, hd, harc⟩ := h8 p _ hv (by simp [describe])
          refine ⟨d, ?_, harc⟩
          rw [hds, List.mem_filter]
          refine ⟨hd, ?_⟩
          obtain ⟨p', n', hv', hd', harc', hh, hmk, _⟩ := h7 d hd
          have hpp := pathText_inj (at_nameOk hv'.1 ha.treeOk) (at_nameOk hv.1 ha.treeOk) (harc'.symm.trans harc)
          subst hpp
          have hnn := at_functional ha.treeOk hv'.1 hv.1
          subst hnn
          rw [hmk.1]; rfl
    have := hpm.length_eq
    rw [List.length_map, List.length_map, hl.number] at this
    exact this
  have hb : legBucket = 4194304 := rfl
  rw [hqs]
  refine C44_long_target_fails legBucket blockingName ds e rest ?_ ?_ (by omega) ⟨hlong.1, by omega⟩ (by omega) hlong.2.2
  · intro d hd
    rw [hds, List.mem_filter] at hd
    have hsz : d.size = -3 := by simpa using hd.2
    obtain ⟨_, _, _, _, _, _, h⟩ := hdir d hd.1 hsz
    exact ⟨hsz, h⟩
  · rw [hb, hnum]; rfl

/-- **C44, violated on a tree** A readable tree, nothing wrong with any name in it, is never archived: no number of
ranks makes an archive of a tree with 8191 directories and links with long targets. -/
theorem C44_tree_fails (L : LegEnv) (Q : QSort Frag) (nul top : Bytes) (root : FNode) (hp : Platform L nul)
    (ha : LegArchivable L.env L.fs top root) (dirs : List (List Bytes)) (hl : LongLinks top root dirs)
    (seen : Option FNode) (hseen : DirOrLink seen) (n : Nat) (front : List WriteReq) (wss : List (List WriteReq)) :
    legacyMain L Q nul top seen root n ≠ .ok (some (front, wss)) := by
  intro h
  obtain ⟨es, h1, h2⟩ := longLinks_split hp ha hl Q seen hseen
  unfold rank0List at h1
  unfold legacyMain at h
  obtain ⟨l, k1, k⟩ := bindRO_eq h
  rw [k1] at h1
  simp only [] at h1
  cases hf : fillRel top l.frags with
  | error e => rw [hf] at h1; simp at h1
  | ok es' =>
    rw [hf] at h1 k
    simp only [Except.ok.injEq] at h1 k
    subst h1
    unfold legacyRun at k
    obtain ⟨cat, _, k2⟩ := bindRO_eq k
    split at k2
    · cases k2
    · obtain ⟨gs, k3, _⟩ := bindRO_eq k2
      rw [show legBlock = 512 from rfl, h2] at k3
      cases k3

/-- **C44, violated on a tree** What the user sees: rank 0 returns 243 or dies, all other ranks wait for ever, in
every schedule. -/
theorem C44_tree_hangs (L : LegEnv) (Q : QSort Frag) (nul arc top : Bytes) (tree : Bytes → Option FNode × FNode) (args : List Bytes)
    (hc : CreateCall args arc top) (hp : Platform L nul) (ha : LegArchivable L.env L.fs top (tree top).2) (dirs : List (List Bytes))
    (hl : LongLinks top (tree top).2 dirs) (hseen : DirOrLink (tree top).1) (n : Nat) (r : Nat) (h0 : 0 < r) (hr : r < n) :
    NeverEnds (rankMain L Q nul tree args n true) n r ∧
    ((rankMain L Q nul tree args n true 0).stop = .exited 243 ∨ ∃ e, (rankMain L Q nul tree args n true 0).stop = .crashed e) := by
  obtain ⟨es, h1, h2⟩ := longLinks_split hp ha hl Q (tree top).1 hseen
  have h3 : rank0Plan nul legBlock legBucket blockingName es = .error (.exited 243) := by
    unfold rank0Plan
    rw [show legBlock = 512 from rfl, h2]
    rfl
  have hst : ∃ st, Rank0Stops L Q nul arc top (tree top).1 (tree top).2 true st := by
    cases k2 : rank0Catalog nul legBucket arc es with
    | error st => exact ⟨st, .catalog h1 k2⟩
    | ok cat =>
      cases k3 : frontWrites L 512 4194304 cat with
      | error e => exact ⟨_, .front h1 k2 k3⟩
      | ok front => exact ⟨_, .layout h1 k2 k3 h3⟩
  obtain ⟨st, hst⟩ := hst
  obtain ⟨k1, k2⟩ := rank0_stops L Q nul arc top tree args hc n true st hst r h0 hr
  refine ⟨k1, ?_⟩
  rw [k2]
  rcases rank0Stops_code L Q nul arc top hst with ⟨_, k⟩ | k | k
  · exfalso
    unfold rank0List at h1
    rw [k] at h1
    cases h1
  · exact .inl k
  · exact .inr k

/-! Non-vacuity: a directory with 8190 empty directories and a link in it. -/

/-- The listing. -/
def wideKids (t : Bytes) : Nat → Kids
  | 0 => .cons [108] (.lnk manyMeta t) .nil
  | k + 1 => .cons (manyName k) (.dir manyMeta true .nil) (wideKids t k)

/-- The directory: `k` empty directories and a link with the target `t`. -/
def wideDir (t : Bytes) (k : Nat) : FNode := .dir manyMeta true (wideKids t k)

theorem manyName_ne_l (i : Nat) : manyName i ≠ [108] := by
  intro h
  have : (108:UInt8) ∈ manyName i := by rw [h]; simp
  have := manyName_mem this
  revert this; decide

theorem wide_child {t : Bytes} {k : Nat} {x : Bytes} {n : FNode} : Child (wideKids t k) x n ↔
    (∃ i < k, x = manyName i ∧ n = .dir manyMeta true .nil) ∨ (x = [108] ∧ n = .lnk manyMeta t) := by
  induction k with
  | zero =>
    constructor
    · intro h
      cases h with
      | here => exact .inr ⟨rfl, rfl⟩
      | there h => cases h
    · rintro (⟨i, hi, _⟩ | ⟨rfl, rfl⟩)
      · omega
      · exact .here (by decide) (by decide)
  | succ k ih =>
    constructor
    · intro h
      cases h with
      | here => exact .inl ⟨k, by omega, rfl, rfl⟩
      | there h =>
        rcases ih.1 h with ⟨i, hi, h1⟩ | h
        · exact .inl ⟨i, by omega, h1⟩
        · exact .inr h
    · rintro (⟨i, hi, rfl, rfl⟩ | h)
      · by_cases h : i = k
        · subst h
          exact .here (manyName_dots i).1 (manyName_dots i).2
        · exact .there (ih.2 (.inl ⟨i, by omega, rfl, rfl⟩))
      · exact .there (ih.2 (.inr h))

theorem wide_visible {t : Bytes} {k : Nat} {p : List Bytes} {n : FNode} : Visible (wideDir t k) p n ↔
    (p = [] ∧ n = wideDir t k) ∨ (∃ i < k, p = [manyName i] ∧ n = .dir manyMeta true .nil) ∨ (p = [[108]] ∧ n = .lnk manyMeta t) := by
  constructor
  · rintro ⟨h, _⟩
    unfold wideDir at h
    cases h with
    | self => exact .inl ⟨rfl, rfl⟩
    | step hc h' =>
      rcases wide_child.1 hc with ⟨i, hi, rfl, rfl⟩ | ⟨rfl, rfl⟩
      · cases h' with
        | self => exact .inr (.inl ⟨i, hi, rfl, rfl⟩)
        | step hc' _ => cases hc'
      · cases h'
        exact .inr (.inr ⟨rfl, rfl⟩)
  · rintro (⟨rfl, rfl⟩ | ⟨i, hi, rfl, rfl⟩ | ⟨rfl, rfl⟩)
    · exact ⟨.self _, by simp [NoHidden]⟩
    · refine ⟨.step (wide_child.2 (.inl ⟨i, hi, rfl, rfl⟩)) (.self _), ?_⟩
      intro x hx
      simp only [List.mem_singleton] at hx
      subst hx
      exact (manyName_ok i).2.2
    · refine ⟨.step (wide_child.2 (.inr ⟨rfl, rfl⟩)) (.self _), ?_⟩
      intro x hx
      simp only [List.mem_singleton] at hx
      subst hx
      decide

/-- The file system: the directory is `t`. -/
def wideFs (t : Bytes) (k : Nat) : FS := fun path =>
  if path = [116, 47] then some (wideDir t k)
  else if path = [116, 47, 108] then some (.lnk manyMeta t)
  else if ∃ i < k, path = [116, 47] ++ manyName i then some (.dir manyMeta true .nil) else none

theorem wide_treeOk (t : Bytes) (k : Nat) : TreeOk (wideDir t k) := by
  have hn : ∀ k, names (wideKids t k) = (List.range k).reverse.map manyName ++ [[108]] := by
    intro k
    induction k with
    | zero => rfl
    | succ k ih =>
      rw [List.range_succ, wideKids, names, if_neg (by simp [manyName_dots]), ih]
      simp
  have hk : ∀ k, KidsOk (wideKids t k) := by
    intro k
    induction k with
    | zero => exact ⟨fun _ => ⟨by constructor <;> decide, trivial⟩, trivial⟩
    | succ k ih => exact ⟨fun _ => ⟨(manyName_ok k).1, ⟨List.nodup_nil, trivial⟩⟩, ih⟩
  refine ⟨?_, hk k⟩
  rw [hn, List.nodup_append]
  refine ⟨?_, by simp, ?_⟩
  · refine List.Nodup.map (fun i j h => manyName_inj h) ?_
    rw [List.nodup_reverse]
    exact List.nodup_range
  · intro a ha b hb
    rw [List.mem_map] at ha
    obtain ⟨i, _, rfl⟩ := ha
    simp only [List.mem_singleton] at hb
    subst hb
    exact manyName_ne_l i

theorem wide_archivable (t : Bytes) (ht : t.length < 4096 ∧ (0:UInt8) ∉ t ∧ (9:UInt8) ∉ t) (k : Nat) (hk' : k ≤ 10 ^ 9) :
    LegArchivable demoEnv2 (wideFs t k) [116] (wideDir t k) := by
  have hb : baseOf [116] = [116] := rfl
  have hlen : ∀ p n, Visible (wideDir t k) p n → (archivedPath [116] p n).length ≤ 23 := by
    intro p n h
    rcases wide_visible.1 h with ⟨rfl, rfl⟩ | ⟨i, hi, rfl, rfl⟩ | ⟨rfl, rfl⟩
    · simp [archivedPath, wideDir]
    · have := manyName_length (i := i) (by omega)
      simp [archivedPath, pathText, this]
    · simp [archivedPath, pathText]
  constructor
  · trivial
  · exact wide_treeOk t k
  · intro p m o kk h
    rcases wide_visible.1 h with ⟨_, h1⟩ | ⟨i, hi, _, h1⟩ | ⟨_, h1⟩
    · simp only [wideDir, FNode.dir.injEq] at h1; exact h1.2.1
    · simp only [FNode.dir.injEq] at h1; exact h1.2.1
    · simp at h1
  · intro p n h
    rw [hb]
    rcases wide_visible.1 h with ⟨rfl, rfl⟩ | ⟨i, hi, rfl, rfl⟩ | ⟨rfl, rfl⟩
    · simp [wideFs, pathText]
    · have : [116] ++ [47] ++ pathText [manyName i] = [116, 47] ++ manyName i := rfl
      rw [this]
      unfold wideFs
      have h2 := manyName_length (i := i) (by omega)
      rw [if_neg, if_neg, if_pos ⟨i, hi, rfl⟩]
      · intro h
        have := congrArg List.length h
        rw [List.length_append, h2] at this
        simp at this
      · intro h
        have := congrArg List.length h
        rw [List.length_append, h2] at this
        simp at this
    · simp [wideFs, pathText]
  · decide
  · decide
  · intro p n h
    have := hlen p n h
    rw [hb]; omega
  · intro p m o kk h _
    rcases wide_visible.1 h with ⟨rfl, _⟩ | ⟨i, hi, rfl, h1⟩ | ⟨_, h1⟩
    · decide
    · have h2 := manyName_length (i := i) (by omega)
      have h3 : (fullPath [116] [manyName i]).length = 22 := by simp [fullPath, pathText, h2]
      rw [h3]; decide
    · cases h1
  · intro p m t' h
    rcases wide_visible.1 h with ⟨rfl, h1⟩ | ⟨i, hi, rfl, h1⟩ | ⟨_, h1⟩
    · cases h1
    · cases h1
    · cases h1; exact ht
  · intro p n h
    rcases wide_visible.1 h with ⟨rfl, rfl⟩ | ⟨i, hi, rfl, rfl⟩ | ⟨rfl, rfl⟩
    · simp [pathText]
    · exact (manyName_ok i).2.1
    · decide
  · intro p n h _
    have : metaOf n = ⟨420, 0, 0, 0⟩ := by
      rcases wide_visible.1 h with ⟨rfl, rfl⟩ | ⟨i, hi, rfl, rfl⟩ | ⟨rfl, rfl⟩ <;> rfl
    rw [this]
    exact ⟨by decide, by decide, by decide, by decide, ⟨[114], rfl, by decide, by decide⟩,
      ⟨[103], rfl, by decide, by decide⟩⟩
  · intro p m c h
    rcases wide_visible.1 h with ⟨_, h1⟩ | ⟨i, hi, _, h1⟩ | ⟨_, h1⟩ <;> cases h1
  · exact ⟨[[108]], .lnk manyMeta t, by simp, wide_visible.2 (.inr (.inr ⟨rfl, rfl⟩)), by simp [describe]⟩

theorem wide_longLinks (t : Bytes) (ht : 100 < t.length) :
    LongLinks [116] (wideDir t 8190) ([] :: (List.range 8190).map fun i => [manyName i]) := by
  constructor
  · rw [List.nodup_cons]
    refine ⟨by simp, List.Nodup.map (fun i j h => manyName_inj (by simpa using h)) List.nodup_range⟩
  · intro p
    constructor
    · intro h
      rcases List.mem_cons.1 h with rfl | h
      · exact ⟨manyMeta, true, wideKids t 8190, wide_visible.2 (.inl ⟨rfl, rfl⟩)⟩
      · rw [List.mem_map] at h
        obtain ⟨i, hi, rfl⟩ := h
        exact ⟨_, _, _, wide_visible.2 (.inr (.inl ⟨i, by simpa using hi, rfl, rfl⟩))⟩
    · rintro ⟨m, o, k, h⟩
      rcases wide_visible.1 h with ⟨rfl, _⟩ | ⟨i, hi, rfl, _⟩ | ⟨_, h1⟩
      · simp
      · exact List.mem_cons_of_mem _ (List.mem_map.2 ⟨i, by simpa using hi, rfl⟩)
      · cases h1
  · rw [List.length_cons, List.length_map, List.length_range]
  · intro p m o k h
    rcases wide_visible.1 h with ⟨rfl, _⟩ | ⟨i, hi, rfl, h1⟩ | ⟨_, h1⟩
    · simp [archivedPath, baseOf]
    · have := manyName_length (i := i) (by omega)
      simp [archivedPath, pathText, this, baseOf]
    · cases h1
  · exact ⟨[[108]], manyMeta, t, wide_visible.2 (.inr (.inr ⟨rfl, rfl⟩))⟩
  · intro p m t' h
    rcases wide_visible.1 h with ⟨rfl, h1⟩ | ⟨i, hi, rfl, h1⟩ | ⟨_, h1⟩
    · cases h1
    · cases h1
    · cases h1; exact ht

/-- A directory with 8190 empty directories and a link to something with 101 letters in its name: `parfu_0_5_1 C a t`
never makes an archive, and on 16 ranks 15 of them wait for ever. -/
example (Q : QSort Frag) (r : Nat) (h0 : 0 < r) (hr : r < 16) :
    NeverEnds (rankMain ⟨demoEnv2, wideFs (List.replicate 101 97) 8190, false, fun _ => 0, 0, 0⟩ Q glibcNull
      (fun _ => (some (wideDir (List.replicate 101 97) 8190), wideDir (List.replicate 101 97) 8190)) [[112], [67], [97], [116]] 16 true) 16 r :=
  (C44_tree_hangs _ Q glibcNull [97] [116]
    (fun _ => (some (wideDir (List.replicate 101 97) 8190), wideDir (List.replicate 101 97) 8190)) _ ⟨[112], [], rfl⟩ ⟨rfl, fun _ => by simp, by simp, by simp, by decide⟩
    (wide_archivable _ (by decide) 8190 (by omega)) _ (wide_longLinks _ (by decide)) trivial 16 r h0 hr).1

end Parfu.Props
