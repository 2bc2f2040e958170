/-
Property theorem C51: a directory whose archive, made by parfu 0.5.1, cannot be read.  It has 127067
empty files with names of 20 digits, so that its catalog takes 4193280 bytes: with its header, all
but 512 bytes of a bucket.
-/
import Verif.PropsLegacyRun
import Verif.PropsMove
import Verif.PropsCatalog
set_option autoImplicit false

namespace Parfu.Props
open Parfu ScanSpec LegacyScanSpec MoveSpec TarSpec LegacyRunSpec

theorem digits_length_ge : ∀ (k n : Nat), 10 ^ k ≤ n → k + 1 ≤ (digits 10 n).length := by
  intro k
  induction k with
  | zero => intro n _; exact digits_length_pos 10 n
  | succ k ih =>
    intro n h
    have h1 : ¬ n < 10 := by
      have : 10 ^ (k + 1) = 10 * 10 ^ k := by rw [Nat.pow_succ, Nat.mul_comm]
      have : 0 < 10 ^ k := Nat.pos_of_ne_zero (by simp)
      omega
    rw [digits, dif_neg (by omega)]
    have := ih (n / 10) (by rw [Nat.le_div_iff_mul_le (by omega)]; rw [← Nat.pow_succ]; exact h)
    rw [List.length_append, List.length_singleton]
    omega

/-- The name of file `i`: 20 digits. -/
def manyName (i : Nat) : Bytes := digits 10 (10 ^ 19 + i)

/-- Inode data. -/
def manyMeta : Meta := ⟨420, 0, 0, 0⟩

/-- The listing of a directory with `k` empty files. -/
def manyKids : Nat → Kids
  | 0 => .nil
  | k + 1 => .cons (manyName k) (.reg manyMeta []) (manyKids k)

/-- A directory with `k` empty files. -/
def manyDir (k : Nat) : FNode := .dir manyMeta true (manyKids k)

theorem manyName_length {i : Nat} (h : i < 10 ^ 19) : (manyName i).length = 20 := by
  have h1 := digits_length_ge 19 (10 ^ 19 + i) (by omega)
  have h2 := digits_length_le (b := 10) (by omega) 20 (10 ^ 19 + i) (by omega) (by omega)
  unfold manyName
  omega

theorem manyName_mem {i : Nat} {c : UInt8} (h : c ∈ manyName i) : 48 ≤ c.toNat ∧ c.toNat ≤ 57 :=
  (isDigit10 c).1 (digits_isDigit (by omega) (by omega) _ c h)

theorem manyName_inj {i j : Nat} (h : manyName i = manyName j) : i = j := by
  have := digits_inj' h
  omega

theorem manyName_ok (i : Nat) : NameOk (manyName i) ∧ (9:UInt8) ∉ manyName i ∧ (manyName i).head? ≠ some 46 := by
  refine ⟨⟨digits_ne_nil _ _, ?_, ?_⟩, ?_, ?_⟩
  · intro h; have := manyName_mem h; revert this; decide
  · intro h; have := manyName_mem h; revert this; decide
  · intro h; have := manyName_mem h; revert this; decide
  · intro h; have := manyName_mem (List.mem_of_mem_head? h); revert this; decide

theorem manyName_dots (i : Nat) : manyName i ≠ [46] ∧ manyName i ≠ [46, 46] := by
  constructor <;> (intro h; exact (manyName_ok i).2.2 (by rw [h]; rfl))

theorem many_child {k : Nat} {x : Bytes} {n : FNode} : Child (manyKids k) x n ↔ ∃ i < k, x = manyName i ∧ n = .reg manyMeta [] := by
  induction k with
  | zero =>
    constructor
    · intro h; cases h
    · rintro ⟨i, hi, _⟩; omega
  | succ k ih =>
    constructor
    · intro h
      cases h with
      | here => exact ⟨k, by omega, rfl, rfl⟩
      | there h =>
        obtain ⟨i, hi, h1⟩ := ih.1 h
        exact ⟨i, by omega, h1⟩
    · rintro ⟨i, hi, rfl, rfl⟩
      by_cases h : i = k
      · subst h
        exact .here (manyName_dots i).1 (manyName_dots i).2
      · exact .there (ih.2 ⟨i, by omega, rfl, rfl⟩)

theorem many_visible {k : Nat} {p : List Bytes} {n : FNode} : Visible (manyDir k) p n ↔
    (p = [] ∧ n = manyDir k) ∨ ∃ i < k, p = [manyName i] ∧ n = .reg manyMeta [] := by
  constructor
  · rintro ⟨h, _⟩
    unfold manyDir at h
    cases h with
    | self => exact .inl ⟨rfl, rfl⟩
    | step hc h' =>
      obtain ⟨i, hi, rfl, rfl⟩ := many_child.1 hc
      cases h'
      exact .inr ⟨i, hi, rfl, rfl⟩
  · rintro (⟨rfl, rfl⟩ | ⟨i, hi, rfl, rfl⟩)
    · exact ⟨.self _, by simp [NoHidden]⟩
    · refine ⟨.step (many_child.2 ⟨i, hi, rfl, rfl⟩) (.self _), ?_⟩
      intro x hx
      simp only [List.mem_singleton] at hx
      subst hx
      exact (manyName_ok i).2.2

/-- The file system: the directory is `t`. -/
def manyFs (k : Nat) : FS := fun path =>
  if path = [116, 47] then some (manyDir k)
  else if ∃ i < k, path = [116, 47] ++ manyName i then some (.reg manyMeta []) else none

theorem many_treeOk (k : Nat) : TreeOk (manyDir k) := by
  have hn : ∀ k, names (manyKids k) = (List.range k).reverse.map manyName := by
    intro k
    induction k with
    | zero => rfl
    | succ k ih =>
      rw [List.range_succ, manyKids, names, if_neg (by simp [manyName_dots]), ih]
      simp
  have hk : ∀ k, KidsOk (manyKids k) := by
    intro k
    induction k with
    | zero => trivial
    | succ k ih => exact ⟨fun _ => ⟨(manyName_ok k).1, trivial⟩, ih⟩
  refine ⟨?_, hk k⟩
  rw [hn]
  refine List.Nodup.map (fun i j h => manyName_inj h) ?_
  rw [List.nodup_reverse]
  exact List.nodup_range

theorem many_archivable (k : Nat) (hk : 0 < k) (hk' : k ≤ 10 ^ 9) : LegArchivable demoEnv2 (manyFs k) [116] (manyDir k) := by
  have hb : baseOf [116] = [116] := rfl
  have hlen : ∀ p n, Visible (manyDir k) p n → (archivedPath [116] p n).length ≤ 22 := by
    intro p n h
    rcases many_visible.1 h with ⟨rfl, rfl⟩ | ⟨i, hi, rfl, rfl⟩
    · simp [archivedPath, manyDir]
    · have := manyName_length (i := i) (by omega)
      simp [archivedPath, pathText, this]
  have hnl : ∀ p m t, ¬ Visible (manyDir k) p (.lnk m t) := by
    intro p m t h
    rcases many_visible.1 h with ⟨_, h⟩ | ⟨_, _, _, h⟩
    · cases h
    · cases h
  constructor
  · trivial
  · exact many_treeOk k
  · intro p m o kk h
    rcases many_visible.1 h with ⟨_, h1⟩ | ⟨i, hi, _, h1⟩
    · simp only [manyDir, FNode.dir.injEq] at h1; exact h1.2.1
    · simp at h1
  · intro p n h
    rw [hb]
    rcases many_visible.1 h with ⟨rfl, rfl⟩ | ⟨i, hi, rfl, rfl⟩
    · simp [manyFs, pathText]
    · have : [116] ++ [47] ++ pathText [manyName i] = [116, 47] ++ manyName i := rfl
      rw [this]
      unfold manyFs
      rw [if_neg, if_pos ⟨i, hi, rfl⟩]
      intro h
      have := congrArg List.length h
      have h2 := manyName_length (i := i) (by omega)
      rw [List.length_append, h2] at this
      simp at this
  · decide
  · decide
  · intro p n h
    have := hlen p n h
    rw [hb]; omega
  · intro p m o kk h _
    rcases many_visible.1 h with ⟨rfl, _⟩ | ⟨i, hi, rfl, h1⟩
    · decide
    · cases h1
  · intro p m t h
    exact absurd h (hnl p m t)
  · intro p n h
    rcases many_visible.1 h with ⟨rfl, rfl⟩ | ⟨i, hi, rfl, rfl⟩
    · simp [pathText]
    · exact (manyName_ok i).2.1
  · intro p n h _
    have : metaOf n = ⟨420, 0, 0, 0⟩ := by
      rcases many_visible.1 h with ⟨rfl, rfl⟩ | ⟨i, hi, rfl, rfl⟩ <;> rfl
    rw [this]
    exact ⟨by decide, by decide, by decide, by decide, ⟨[114], rfl, by decide, by decide⟩,
      ⟨[103], rfl, by decide, by decide⟩⟩
  · intro p m c h
    rcases many_visible.1 h with ⟨_, h1⟩ | ⟨i, hi, _, h1⟩
    · simp [manyDir] at h1
    · simp only [FNode.reg.injEq] at h1; rw [h1.2]; simp
  · exact ⟨[manyName 0], .reg manyMeta [], by simp, many_visible.2 (.inr ⟨0, hk, rfl, rfl⟩), by simp [describe]⟩

/-- The surroundings of the run. -/
def manyEnv (k : Nat) : LegEnv := ⟨demoEnv2, manyFs k, false, fun _ => 0, 0, 0⟩

theorem many_platform (k : Nat) : Platform (manyEnv k) glibcNull :=
  ⟨rfl, fun _ => by simp [manyEnv], by simp [manyEnv], by simp [manyEnv], by decide⟩

theorem many_short (k : Nat) (hk : k ≤ 10 ^ 9) : ∀ p m, Visible (manyDir k) p m → (archivedPath (baseOf [116]) p m).length ≤ 100 ∧
    ∀ d t, m = .lnk d t → t.length ≤ 100 := by
  intro p m h
  rcases many_visible.1 h with ⟨rfl, rfl⟩ | ⟨i, hi, rfl, rfl⟩
  · simp [archivedPath, manyDir, baseOf]
  · have := manyName_length (i := i) (by omega)
    refine ⟨?_, by rintro d t ⟨⟩⟩
    simp [archivedPath, pathText, this, baseOf]

theorem many_count (k : Nat) (hk : k ≤ 249999) (os : List (List Bytes × FNode)) (hnd : os.Nodup)
    (hv : ∀ o ∈ os, Visible (manyDir k) o.1 o.2) : (os.map fun o => fileLength o.2 / 4194304 + 2).sum ≤ 500000 := by
  have hsub : os ⊆ ([], manyDir k) :: (List.range k).map (fun i => ([manyName i], FNode.reg manyMeta [])) := by
    intro o ho
    rcases o with ⟨p, n⟩
    rcases many_visible.1 (hv _ ho) with ⟨rfl, rfl⟩ | ⟨i, hi, h1, h2⟩
    · simp
    · simp only [] at h1 h2
      subst h1; subst h2
      simp only [List.mem_cons, List.mem_map, List.mem_range]
      exact .inr ⟨i, hi, rfl⟩
  have hl := (List.subperm_of_subset hnd hsub).length_le
  simp only [List.length_cons, List.length_map, List.length_range] at hl
  have : ∀ o ∈ os, fileLength o.2 / 4194304 + 2 ≤ 2 := by
    intro o ho
    rcases o with ⟨p, n⟩
    rcases many_visible.1 (hv _ ho) with ⟨rfl, rfl⟩ | ⟨i, hi, h1, h2⟩
    · simp [fileLength, manyDir]
    · simp only [] at h2
      subst h2; simp [fileLength]
  have := sum_le_mul (fun o => fileLength o.2 / 4194304 + 2) os 2 this
  omega

theorem pad10_len {x : Int} (h0 : 0 ≤ x) (h : x < 10 ^ 10) : (pad10 x).length = 10 := pad10_length (by omega)

/-- The length of the catalog. -/
theorem many_catalog {L : LegEnv} {k : Nat} (hk : k ≤ 10 ^ 9) {es : List Frag} {ms : List Member} (hr : RunOk L legBucket es ms)
    (hnd : (es.map Frag.arc).Nodup)
    (hall : ∀ p n, Visible (manyDir k) p n → describe p n ≠ none → ∃ e ∈ es, e.arc = pathText p)
    (hes : ∀ e ∈ es, ∃ p n, Visible (manyDir k) p n ∧ describe p n ≠ none ∧ e.arc = pathText p ∧ Headed [116] p e ∧ Marks e n ∧
        ((archivedPath (baseOf [116]) p n).length ≤ 100 → (∀ m t, n = .lnk m t → t.length ≤ 100) →
          e.hdr = 512 ∧ e.target.length ≤ 100 ∧ e.rel.length ≤ 100 ∧ e.arc.length ≤ 100 ∧ e.padName = none))
    {nul cat : Bytes} (h : listToBuffer nul true legBucket es = .ok (some cat)) : cat.length = 69 + 33 * k := by
  have hperm : (es.map Frag.arc).Perm ([] :: (List.range k).map manyName) := by
    refine (List.perm_ext_iff_of_nodup hnd ?_).2 ?_
    · rw [List.nodup_cons]
      refine ⟨?_, List.Nodup.map (fun i j h => manyName_inj h) List.nodup_range⟩
      intro hm
      obtain ⟨i, _, hi⟩ := List.mem_map.1 hm
      exact (manyName_ok i).1.1 hi
    · intro a
      constructor
      · intro ha
        obtain ⟨e, he, rfl⟩ := List.mem_map.1 ha
        obtain ⟨p, n, hv, _, harc, _⟩ := hes e he
        rcases many_visible.1 hv with ⟨rfl, rfl⟩ | ⟨i, hi, rfl, rfl⟩
        · rw [harc]; simp [pathText]
        · rw [harc]; exact List.mem_cons_of_mem _ (List.mem_map.2 ⟨i, by simpa using hi, rfl⟩)
      · intro ha
        rcases List.mem_cons.1 ha with rfl | ha
        · obtain ⟨e, he, harc⟩ := hall [] (manyDir k) (many_visible.2 (.inl ⟨rfl, rfl⟩)) (by simp [describe, manyDir])
          exact List.mem_map.2 ⟨e, he, harc⟩
        · obtain ⟨i, hi, rfl⟩ := List.mem_map.1 ha
          obtain ⟨e, he, harc⟩ := hall [manyName i] (.reg manyMeta []) (many_visible.2 (.inr ⟨i, by simpa using hi, rfl, rfl⟩)) (by simp [describe])
          exact List.mem_map.2 ⟨e, he, harc⟩
  have hlen : ∀ e ∈ es, (catLine nul true e).length = (fun a : Bytes => if a = [] then 14 else 33) e.arc := by
    intro e he
    obtain ⟨p, n, hv, _, harc, _, ⟨m1, m2, m3⟩, hsh⟩ := hes e he
    obtain ⟨s1, s2⟩ := many_short k hk p n hv
    obtain ⟨q1, _⟩ := hsh s1 s2
    have d1 : (decInt (-1)).length = 2 := by decide +kernel
    have d2 : (decInt 512).length = 3 := by decide +kernel
    have d3 : (decInt (-3)).length = 2 := by decide +kernel
    have d4 : (decInt 0).length = 1 := by decide +kernel
    show (lineArc e).length = _
    unfold lineArc
    rcases many_visible.1 hv with ⟨rfl, rfl⟩ | ⟨i, hi, rfl, rfl⟩
    · simp only [List.length_append, List.length_singleton, harc, m1, m2, m3, q1, pathText, markOf, manyDir, targetOf, List.length_nil]
      simp only [d1, d2, d3]
      rfl
    · have hl := manyName_length (i := i) (by omega)
      have hne : pathText [manyName i] ≠ [] := (manyName_ok i).1.1
      simp only [List.length_append, List.length_singleton, harc, m1, m2, m3, q1, markOf, targetOf, List.length_nil]
      rw [if_neg hne]
      have d5 : (decInt ((0 : Nat) : Int)).length = 1 := d4
      simp only [pathText, hl, d1, d2, d5]
  have hsum : (es.map (fun e => (catLine nul true e).length)).sum = 14 + 33 * k := by
    have e1 : es.map (fun e => (catLine nul true e).length) = (es.map Frag.arc).map (fun a : Bytes => if a = [] then 14 else 33) := by
      rw [List.map_map]
      exact List.map_congr_left hlen
    rw [e1, (hperm.map _).sum_eq, List.map_cons, List.sum_cons, if_pos rfl, List.map_map]
    have e2 : (List.range k).map ((fun a : Bytes => if a = [] then 14 else 33) ∘ manyName) = List.replicate k 33 := by
      rw [List.eq_replicate_iff]
      refine ⟨by simp, ?_⟩
      intro b hb
      obtain ⟨i, _, rfl⟩ := List.mem_map.1 hb
      exact if_neg (manyName_ok i).1.1
    rw [e2, List.sum_replicate_nat]
    omega
  have hcount := listToBuffer_count h
  obtain ⟨t1, t2, _⟩ := listToBuffer_text h
  have hb : legBucket = 4194304 := rfl
  have hfl : ((es.map (catLine nul true)).flatten).length = 14 + 33 * k := by
    rw [List.length_flatten, List.map_map]; exact hsum
  rw [t1]
  have v1 : versionText.length = 10 := rfl
  have v2 : (typeText true).length = 10 := rfl
  simp only [catText, List.length_append, List.length_singleton, hfl, v1, v2]
  rw [pad10_len (by omega) (by omega), pad10_len (by omega) (by omega), pad10_len (by omega) (by omega)]
  omega

/-- **C51, violated** The archive of a directory with 127067 files, made with any number of ranks and
any sort in a new file, is unreadable although the run succeeds. -/
theorem C51_unreadable (Q : QSort Frag) (n : Nat) (hn : 0 < n) : ∃ front wss,
    legacyMain (manyEnv 127067) Q glibcNull [116] (some (manyDir 127067)) (manyDir 127067) n = .ok (some (front, wss)) ∧
    ∀ ws : List WriteReq, ws.Perm (front ++ wss.flatten) → readArchive (ws.foldl writeAt []) = none := by
  have ha := many_archivable 127067 (by omega) (by omega)
  have hp := many_platform 127067
  obtain ⟨front, wss, h⟩ := C48_run_succeeds (manyEnv 127067) Q glibcNull [116] (manyDir 127067) hp (by decide) ha
    (some (manyDir 127067)) trivial n hn (many_short 127067 (by omega)) (many_count 127067 (by omega))
  refine ⟨front, wss, h, ?_⟩
  intro ws hws
  obtain ⟨es, ms, h1, h3, h4, h5, h8, h9, h6, h7⟩ := main_run (L := manyEnv 127067) hp ha Q
  have h' := h
  rw [h1 _ rfl] at h'
  obtain ⟨_, cat, z, hcat, hfr, _⟩ := run_writes h3 blocking_free hp.nul hn h'
  have hl := many_catalog (by omega) h3 h5 h8 h7 hcat
  exact C51_lone_zero_block (manyEnv 127067) Q glibcNull [116] (manyDir 127067) hp ha (some (manyDir 127067)) trivial n hn front wss h cat hfr.text
    (by rw [hl]) ws hws

/-- With one file fewer C46 applies: the archive is readable. -/
example (Q : QSort Frag) (n : Nat) (hn : 0 < n) : ∃ front wss,
    legacyMain (manyEnv 127066) Q glibcNull [116] (some (manyDir 127066)) (manyDir 127066) n = .ok (some (front, wss)) ∧
    ∀ ws : List WriteReq, ws.Perm (front ++ wss.flatten) → ∀ old, readArchive (ws.foldl writeAt old) ≠ none := by
  have ha := many_archivable 127066 (by omega) (by omega)
  have hp := many_platform 127066
  obtain ⟨front, wss, h⟩ := C48_run_succeeds (manyEnv 127066) Q glibcNull [116] (manyDir 127066) hp (by decide) ha
    (some (manyDir 127066)) trivial n hn (many_short 127066 (by omega)) (many_count 127066 (by omega))
  refine ⟨front, wss, h, ?_⟩
  intro ws hws old
  obtain ⟨es, ms, h1, h3, h4, h5, h8, h9, h6, h7⟩ := main_run (L := manyEnv 127066) hp ha Q
  have h' := h
  rw [h1 _ rfl] at h'
  obtain ⟨hap, cat, z, hcat, hfr, _⟩ := run_writes h3 blocking_free hp.nul hn h'
  have hl := many_catalog (by omega) h3 h5 h8 h7 hcat
  obtain ⟨c, all, hr, _⟩ := C46_archive_partial (manyEnv 127066) Q glibcNull [116] (manyDir 127066) hp ha (some (manyDir 127066)) trivial n hn front wss h
    (by
      intro cat' hc
      by_cases he : cat' = cat
      · rw [he, hl]; decide
      · have hs : Std.Symm WApart := ⟨fun _ _ => WApart.symm⟩
        have := (List.pairwise_append.1 hap).1.forall hc hfr.text (by simpa using he)
        unfold WApart Apart at this
        simp only [] at this
        have : cat'.length = 0 := by omega
        rw [this]; decide) ws hws old
  rw [hr]; simp

end Parfu.Props
