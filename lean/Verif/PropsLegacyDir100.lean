/-
Property theorem C46: a tree whose archive, made by parfu 0.5.1, cannot be read.  It is a directory with
one empty directory in it whose path has 100 bytes: the layout gives the header one block, but the path
recorded ends with a slash, so three blocks are made, and the filler overwrites the extended header's data.
-/
import Verif.LegacyDir100
set_option autoImplicit false

namespace Parfu.Props
open Parfu ScanSpec LegacyScanSpec MoveSpec TarSpec LegacyRunSpec SplitSpec

/-- A name of 98 bytes. -/
def hundredName : Bytes := List.replicate 98 98

/-- The empty directory. -/
def hundredDir : FNode := .dir ⟨0, 0, 0, 0⟩ true .nil

/-- The directory `d` with only that directory in it. -/
def hundredTree : FNode := .dir ⟨0, 0, 0, 0⟩ true (.cons hundredName hundredDir .nil)

/-- The file system. -/
def hundredFs : FS := fun path => if path = [100, 47] then some hundredTree
  else if path = [100, 47] ++ hundredName then some hundredDir else none

def hundredEnv : LegEnv := ⟨demoEnv2, hundredFs, false, fun _ => 1700000000, 1700000000, 1700000000⟩

def hundredTop : Frag := ⟨[100, 47], [], .dir, [], -3, 512, -1, -1, -1, none, -1, -1, -1, -1, -1⟩
def hundredSub : Frag := ⟨[100, 47] ++ hundredName, hundredName, .dir, [], -3, 512, -1, -1, -1, none, -1, -1, -1, -1, -1⟩

theorem hundred_setup : LegSetup hundredEnv 4194304 :=
  ⟨rfl, fun _ => by show 1700000000 < 2 ^ 64; omega, by show 1700000000 < 2 ^ 64; omega, by show 1700000000 < 2 ^ 64; omega,
    by omega, by omega, by omega⟩

theorem hundred_list : (legacyScan [100] (some hundredTree) hundredTree >>? fun l => match fillRel [100] l.frags with
    | .error e => .error e
    | .ok es => .ok (some es)) = .ok (some [hundredTop, hundredSub]) := by
  decide +kernel

/-- Any sort leaves the two in this order. -/
theorem hundred_sorted (Q : QSort Frag) : qsortEntries Q [hundredTop, hundredSub] = [hundredTop, hundredSub] := by
  exact sorted_two Q (by decide +kernel)

/-- The first header: a directory without data. -/
theorem hundred_top_header : (hdrOf hundredEnv [100, 47]).length = 512 ∧
    (parseBlock (hdrOf hundredEnv [100, 47])).map (fun r => (r.flag, r.size)) = some (53, 0) ∧
    hdrOf hundredEnv [100, 47] ≠ zeros 512 := by
  decide +kernel

/-- The second: an extended header. -/
theorem hundred_sub_header : (hdrOf hundredEnv ([100, 47] ++ hundredName)).length = 1536 ∧
    (parseBlock ((hdrOf hundredEnv ([100, 47] ++ hundredName)).take 512)).map (fun r => (r.flag, r.size)) = some (120, 111) ∧
    (hdrOf hundredEnv ([100, 47] ++ hundredName)).take 512 ≠ zeros 512 := by
  decide +kernel

theorem hundred_filler : (legacyHeader spacerName (4194304 - 1536) 1700000000).head? = some 46 ∧
    (legacyHeader spacerName (4194304 - 1536) 1700000000).length = 512 := by
  decide +kernel

theorem hundred_ent (e : Frag) (h : e = hundredTop ∨ e = hundredSub) : DirEnt hundredEnv e := by
  rcases h with rfl | rfl
  · refine ⟨⟨?_, ?_, ?_, ?_, ?_, ?_, ?_, ?_, ?_, ?_, ?_, ?_, ?_, ?_, ?_⟩, rfl, rfl, rfl, rfl, by decide, ?_⟩ <;>
      first
      | (refine made_of ?_; decide +kernel)
      | (unfold LegTabFree; decide +kernel)
      | (unfold FitsLong; decide)
      | (unfold FitsI32; decide)
      | (intro p hp; cases hp)
      | decide
  · refine ⟨⟨?_, ?_, ?_, ?_, ?_, ?_, ?_, ?_, ?_, ?_, ?_, ?_, ?_, ?_, ?_⟩, rfl, rfl, rfl, rfl, by decide, ?_⟩ <;>
      first
      | (refine made_of ?_; decide +kernel)
      | (unfold LegTabFree; decide +kernel)
      | (unfold FitsLong; decide)
      | (unfold FitsI32; decide)
      | (intro p hp; cases hp)
      | decide

theorem take_zeros1024 : (zeros 1024).take 512 = zeros 512 := by
  unfold zeros; rw [List.take_replicate]; congr 1

/-- An extended header whose data does not start with a digit. -/
theorem unread_pax {A X F : Bytes} {w : Nat} (hX : X.length = 512) (hp : (parseBlock X).map (fun r => (r.flag, r.size)) = some (120, 111))
    (hz : X ≠ zeros 512) (hF : F.head? = some 46) (hh : Holds A w (X ++ F)) : readArchive (A.drop w) = none := by
  obtain ⟨t, rfl⟩ : ∃ t, F = 46 :: t := by
    cases F with
    | nil => simp at hF
    | cons c t => simp at hF; exact ⟨t, by rw [hF]⟩
  obtain ⟨rest, hA⟩ : ∃ rest, A.drop w = X ++ 46 :: rest := by
    refine ⟨t ++ A.drop (w + (X ++ 46 :: t).length), ?_⟩
    unfold Holds at hh
    conv => lhs; rw [← List.take_append_drop (X ++ 46 :: t).length (A.drop w)]
    rw [hh, List.drop_drop]; simp
  rw [hA, readArchive, if_neg]
  · obtain ⟨r, hr, hr2⟩ := Option.map_eq_some_iff.1 hp
    simp only [Prod.mk.injEq] at hr2
    unfold readMember
    rw [List.take_left' hX, List.drop_left' hX, hr]
    simp only [hr2.1, hr2.2, if_true]
    by_cases hlen : (46 :: rest).length < 111
    · rw [if_pos hlen]
    · rw [if_neg hlen]
      have : parsePax ((46 :: rest).take 111) = none := by
        rw [List.take_succ_cons, parsePax, dif_neg (List.cons_ne_nil _ _)]
        have : readNum 10 (46 :: rest.take 110) = none := by
          simp [readNum, isDigit]
        rw [this]
      rw [this]
  · rintro (h | h)
    · simp at h
    · apply hz
      have := congrArg (List.take 512) h
      rw [List.take_take, show min 512 1024 = 512 by decide, List.take_left' hX] at this
      rw [this]; exact take_zeros1024

/-- **C46, violated** A directory with one empty directory whose path has 100 bytes: parfu 0.5.1 reports
success with any number of ranks, and the archive cannot be read, whatever order the writes are made in and
whatever was in the file before. -/
theorem C46_dir_100_unreadable (Q : QSort Frag) (n : Nat) (hn : 0 < n) : ∃ front wss,
    legacyMain hundredEnv Q glibcNull [100] (some hundredTree) hundredTree n = .ok (some (front, wss)) ∧
    ∀ ws : List WriteReq, ws.Perm (front ++ wss.flatten) → ∀ old, readArchive (ws.foldl writeAt old) = none := by
  have hs := hundred_setup
  obtain ⟨ta, tb, tc⟩ := hundred_top_header
  obtain ⟨sa, sb, sc⟩ := hundred_sub_header
  obtain ⟨fa, fb⟩ := hundred_filler
  obtain ⟨cat, front, hcat, hcl, hfr, hrun⟩ := two_run (nul := glibcNull) (pad := blockingName) hs (by omega) (by omega) (by unfold LegTabFree; decide)
    (by decide) (hundred_ent hundredTop (.inl rfl)) (hundred_ent hundredSub (.inr rfl)) ta sa hn
  have hmain : legacyMain hundredEnv Q glibcNull [100] (some hundredTree) hundredTree n =
      legacyRun hundredEnv glibcNull 512 4194304 blockingName [hundredTop, hundredSub] n := by
    obtain ⟨es, h1, h2⟩ := bindRO_eq hundred_list
    unfold legacyMain
    rw [h1, bindRO_some]
    cases hf : fillRel [100] es.frags with
    | error e => rw [hf] at h2; cases h2
    | ok fs =>
      rw [hf] at h2
      simp only [Except.ok.injEq, Option.some.injEq] at h2
      subst h2
      simp only []
      rw [hundred_sorted Q]
      rfl
  refine ⟨_, _, hmain.trans hrun, ?_⟩
  intro ws hws old
  have h4 : (4194304 : Int).toNat = 4194304 := rfl
  rw [h4] at hfr hws
  have hnow : hundredEnv.now 0 = 1700000000 := rfl
  have hrt : hundredTop.rel = [100, 47] := rfl
  have hrs : hundredSub.rel = [100, 47] ++ hundredName := rfl
  rw [hnow, hrt, hrs] at hws
  have hds : dataOffset 4194304 (512 + cat.length) = 4194304 := by
    unfold dataOffset
    rw [if_neg (by omega)]
    have : (512 + cat.length) / 4194304 = 0 := by omega
    rw [this]
  rw [hds] at hfr hws
  generalize hH : hdrOf hundredEnv [100, 47] = Ha at *
  generalize hG : hdrOf hundredEnv ([100, 47] ++ hundredName) = Hb at *
  generalize hFl : legacyHeader spacerName (4194304 - 1536) 1700000000 = Fl at *
  have lx : (Hb.take 512).length = 512 := by rw [List.length_take, sa]; decide
  have lz : (zeros 1024).length = 1024 := List.length_replicate ..
  have hp : ws.Perm (front ++ [(4194304, Ha ++ (Hb.take 512 ++ Fl)), (4194304 + 4194304, zeros 1024)]) := by
    refine hws.trans (List.Perm.append_left _ ?_)
    rw [List.flatten_cons]
    have : (List.replicate (n - 1) ([] : List WriteReq)).flatten = [] := by
      rw [List.flatten_eq_nil_iff]; intro l hl; exact List.eq_of_mem_replicate hl
    rw [this, List.append_nil]
  have hold := file_holds hfr.apart (rs := [(4194304, Ha ++ (Hb.take 512 ++ Fl)), (4194304 + 4194304, zeros 1024)]) (by
      rw [List.pairwise_cons]
      refine ⟨?_, by simp⟩
      intro w hw
      rw [List.mem_singleton] at hw
      subst hw
      left
      simp only [List.length_append, ta, lx, fb]
      omega) hfr.below (by
      intro w hw
      simp only [List.mem_cons, List.not_mem_nil, or_false] at hw
      rcases hw with rfl | rfl
      · exact le_refl _
      · simp only []; omega) hp old
  generalize ws.foldl writeAt old = A at hold
  have h1 := hold (4194304, Ha ++ (Hb.take 512 ++ Fl)) (by simp)
  have h2 := hold (4194304 + 4194304, zeros 1024) (by simp)
  simp only [] at h1 h2
  have hlen := holds_le h2 (by intro h; have := congrArg List.length h; rw [lz] at this; cases this)
  refine unread_front (by omega) (by omega) hs.clockCat hs.clockGap hfr (by omega) (by omega) (fun w hw => hold w (by simp [hw])) ?_
  have hx : Holds A (4194304 + 512) (Hb.take 512 ++ Fl) := by
    rw [holds_append, ta] at h1; exact h1.2
  have ht : Holds A 4194304 (Ha ++ []) := by
    rw [holds_append] at h1; rw [List.append_nil]; exact h1.1
  obtain ⟨r, hr, hr2⟩ := Option.map_eq_some_iff.1 tb
  simp only [Prod.mk.injEq] at hr2
  refine unread_member (m := ⟨r.name, r.flag, r.linkname, r.mode, r.uid, r.gid, r.mtime, r.uname, r.gname, 0, []⟩) ht (by omega) ?_ ?_ ?_ ?_
  · intro rest h
    apply tc
    have := congrArg (List.take 512) h
    rw [List.take_take, show min 512 1024 = 512 by decide, List.take_left' ta] at this
    rw [this]; exact take_zeros1024
  · rw [ta]; simp only [List.length_nil, pad512]; omega
  · intro padding rest hpad
    have : padding = [] := by
      have h0 : pad512 ([] : Bytes).length = 0 := rfl
      rw [h0] at hpad
      exact List.length_eq_zero_iff.1 (by simpa using hpad)
    subst this
    rw [List.nil_append, List.nil_append]
    unfold readMember
    rw [List.take_left' ta, List.drop_left' ta, hr]
    simp only [hr2.1]
    rw [if_neg (by decide)]
    unfold takeData
    simp only [paxSizeVal, List.lookup_nil, hr2.2]
    rw [if_neg (by omega)]
    simp [hr2.1, pad512]
  · rw [ta]
    have : 4194304 + 512 + pad512 ([] : Bytes).length = 4194304 + 512 := rfl
    rw [this]
    exact unread_pax lx sb sc fa hx

end Parfu.Props
