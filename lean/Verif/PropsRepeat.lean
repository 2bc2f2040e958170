/-
Property theorems C83: a run that was interrupted is started again.
-/
import Verif.PropsLegacyCrashDemo
import Verif.PropsLegacyBytes
import Verif.PropsListing
import Verif.PropsLegacyEnds
import Verif.InterruptLemmas
set_option autoImplicit false

namespace Parfu.Props
open Parfu MoveSpec TarSpec ScanSpec PlanSpec ProtocolSpec LegacyRunSpec RanksSpec

/-- A part of a write: some consecutive bytes of it, at their place. -/
def PartOf (p w : WriteReq) : Prop := ∃ d k, p.1 = w.1 + d ∧ p.2 = (w.2.drop d).take k ∧ d ≤ w.2.length

/-- What an interrupted run may leave behind: the file as it was, and of the writes `all` of the run any
parts of any (an interrupted write need not be done in full, or from its start). -/
def LeftBehind (all : List WriteReq) (file f : Bytes) : Prop :=
  ∃ parts : List WriteReq, (∀ p ∈ parts, ∃ w ∈ all, PartOf p w) ∧ f = parts.foldl writeAt file

theorem PartOf.range {p w : WriteReq} (h : PartOf p w) : w.1 ≤ p.1 ∧ p.1 + p.2.length ≤ w.1 + w.2.length := by
  obtain ⟨d, k, h1, h2, h3⟩ := h
  rw [h1, h2]
  simp only [List.length_take, List.length_drop]
  omega

theorem PartOf.refl (w : WriteReq) : PartOf w w := ⟨0, w.2.length, by simp, by simp, by simp⟩

/-- Writes that do not meet make the same file over what parts of the same writes have left. -/
theorem over_parts {ws parts : List WriteReq} {E : Nat} (hap : ws.Pairwise (fun a b => Apart a.1 a.2.length b.1 b.2.length))
    (hle : ∀ w ∈ ws, w.1 + w.2.length ≤ E) (hE : ∃ w ∈ ws, w.1 + w.2.length = E)
    (hp : ∀ p ∈ parts, ∃ w ∈ ws, PartOf p w) :
    ws.foldl writeAt (parts.foldl writeAt []) = ws.foldl writeAt [] := by
  obtain ⟨z, hz, rfl⟩ := hE
  have hlp : (parts.foldl writeAt []).length ≤ z.1 + z.2.length := by
    refine (foldl_writeAt_length parts [] _ (by simp) ?_).1
    intro p h
    obtain ⟨w, hw, hpw⟩ := hp p h
    have := hpw.range; have := hle w hw; omega
  have l1 := foldl_writeAt_length ws (parts.foldl writeAt []) _ hlp hle
  have l2 := foldl_writeAt_length ws [] _ (by simp) hle
  have e1 := l1.2.2 z hz
  have e2 := l2.2.2 z hz
  apply List.ext_getElem?
  intro i
  by_cases hi : z.1 + z.2.length ≤ i
  · rw [List.getElem?_eq_none (by omega), List.getElem?_eq_none (by omega)]
  by_cases hc : ∃ w ∈ ws, w.1 ≤ i ∧ i < w.1 + w.2.length
  · obtain ⟨w, hw, h1, h2⟩ := hc
    have g1 := (holds_iff _ _ _).1 ((foldl_writeAt_holds ws (parts.foldl writeAt []) hap).1 w hw) (i - w.1) (by omega)
    have g2 := (holds_iff _ _ _).1 ((foldl_writeAt_holds ws [] hap).1 w hw) (i - w.1) (by omega)
    rw [show w.1 + (i - w.1) = i by omega] at g1 g2
    rw [g1, g2]
  · have hn : ∀ w ∈ ws, ¬ (w.1 ≤ i ∧ i < w.1 + w.2.length) := fun w hw h => hc ⟨w, hw, h⟩
    have hnp : ∀ p ∈ parts, ¬ (p.1 ≤ i ∧ i < p.1 + p.2.length) := by
      intro p h hh
      obtain ⟨w, hw, hpw⟩ := hp p h
      have := hpw.range
      exact hn w hw ⟨by omega, by omega⟩
    have g1 := foldl_writeAt_hole i ws (parts.foldl writeAt []) (foldl_writeAt_hole i parts [] (Or.inr (by simp)) hnp) hn
    have g2 := foldl_writeAt_hole i ws [] (Or.inr (by simp)) hn
    have n1 : (ws.foldl writeAt (parts.foldl writeAt []))[i]? ≠ none := by
      rw [ne_eq, List.getElem?_eq_none_iff]; omega
    have n2 : (ws.foldl writeAt [])[i]? ≠ none := by
      rw [ne_eq, List.getElem?_eq_none_iff]; omega
    rw [g1.resolve_right n1, g2.resolve_right n2]

/-- **C83** (0.5.1) A run into a new file is interrupted at any point, even in the middle of writes; then the
program is started again with the same arguments.  All ranks of the second run end with status 0, and whenever
they have, the file is, byte for byte, the one that a run that is not interrupted makes. -/
theorem C83_legacy_repeat {L : LegEnv} {Q : QSort Frag} {nul arc top : Bytes} {tree : Bytes → Option FNode × FNode} {args : List Bytes}
    {n : Nat} {front : List WriteReq} {wss : List (List WriteReq)} (hg : GoodRun L Q nul arc top tree args n front wss)
    {eager : Bool} {s : LSys} (hs : LReach (rankMain L Q nul tree args n true) n eager [] s)
    {f : Bytes} (hf : LeftBehind (front ++ wss.flatten) s.file f) :
    AllEnd (rankMain L Q nul tree args n true) n ∧ (∀ r < n, (rankMain L Q nul tree args n true r).stop = .exited 0) ∧
    ∀ (eager' eager'' : Bool) (s' u : LSys),
      LReach (rankMain L Q nul tree args n true) n eager' f s' → (∀ r < n, s'.ended r) →
      LReach (rankMain L Q nul tree args n true) n eager'' [] u → (∀ r < n, u.ended r) → s'.file = u.file := by
  obtain ⟨h1, h2, h3⟩ := C56_success_partial L Q nul arc top tree args hg.call hg.arc n hg.ranks front wss hg.made
  refine ⟨h1, h2, ?_⟩
  intro eager' eager'' s' u hs' he hu hue
  obtain ⟨ws, hws, hf'⟩ := h3 eager' f s' hs' he
  obtain ⟨ws2, hws2, hu'⟩ := h3 eager'' [] u hu hue
  obtain ⟨hap, hord, z, _, hz, hle⟩ := C47_writes_apart L Q nul top (tree top).2 hg.platform hg.archivable (tree top).1 hg.seen n hg.ranks front wss hg.made
  obtain ⟨parts, hparts, rfl⟩ := hf
  obtain ⟨_, _, rest, hrest⟩ := C55_written_stays hg eager [] s hs
  rw [hf', hu', hord ws2 ws hws2 hws, hs.inv.file]
  have key := over_parts (ws := ws) (parts := s.log.map Prod.snd ++ parts) (E := z + 1024)
    ((hws.symm.pairwise_iff (fun {_ _} => WApart.symm)).1 hap) (fun w hw => hle w (hws.mem_iff.1 hw))
    ⟨_, hws.mem_iff.2 (List.mem_append_right _ hz), by rw [List.length_replicate]⟩ ?_
  · rw [List.foldl_append] at key
    exact key
  intro p hp
  rcases List.mem_append.1 hp with hp | hp
  · exact ⟨p, hws.mem_iff.2 (hrest.mem_iff.1 (List.mem_append_left _ hp)), PartOf.refl p⟩
  · obtain ⟨w, hw, hpw⟩ := hparts p hp
    exact ⟨w, hws.mem_iff.2 hw, hpw⟩

/-- **C83** (0.5.1) ... and if the tree has changed since, or the number of ranks: whatever the first run has left
behind, when any rank of the second run returns 0 the file is a properly terminated archive of the tree as
the second run finds it. -/
theorem C83_legacy_repeat_changed {L L' : LegEnv} {Q Q' : QSort Frag} {nul nul' arc top : Bytes}
    {tree tree' : Bytes → Option FNode × FNode} {args : List Bytes} {n n' : Nat} {front front' : List WriteReq} {wss wss' : List (List WriteReq)}
    (_hg : GoodRun L Q nul arc top tree args n front wss) {eager : Bool} {s : LSys}
    (_hs : LReach (rankMain L Q nul tree args n true) n eager [] s) {f : Bytes} (_hf : LeftBehind (front ++ wss.flatten) s.file f)
    (hg' : GoodRun L' Q' nul' arc top tree' args n' front' wss')
    (hgap : ∀ cat, (512, cat) ∈ front' → (cat.length + 1024) % 4194304 ≠ 0)
    {eager' : Bool} {s' : LSys} (hs' : LReach (rankMain L' Q' nul' tree' args n' true) n' eager' f s') (r : Nat) (hr : r < n')
    (he : s'.ended r) :
    ∃ cat all, readArchive s'.file = some (cat :: all) ∧ terminated s'.file = true ∧
      cat.path = catalogName ∧ MembersOf L'.env top (tree' top).2 (all.filter fun m => !ownMember m) := by
  obtain ⟨_, h2, _⟩ := C56_success_partial L' Q' nul' arc top tree' args hg'.call hg'.arc n' hg'.ranks front' wss' hg'.made
  refine C56_status_zero_archive_partial L' Q' nul' arc top tree' args hg'.call hg'.arc hg'.platform hg'.archivable n' true eager' f s'
    hs' r hr he (h2 r hr) ?_
  intro fr ws cat hm hc
  rw [hg'.made] at hm
  cases hm
  exact hgap cat hc

/-- **C83** (0.6) A run is interrupted at any point, and the program is started again with the same arguments.
If the first run has made the file, the second ends with status 1 on rank 0, writes nothing and leaves the file
as it is, whatever is in it; if not, the second makes the whole archive. -/
theorem C83_repeat {cfg : Cfg} {base : Bytes} {root : FNode} {S : StdSort Ref} {g : Bytes → UInt8} {b mx : Nat} {c : Coll}
    {bundles : List (List Order)} {archive : Bytes} {eager : Bool} {tr tr' : List Ev} {s s' : Sys}
    (j : Job cfg.env cfg.fs base root S g b mx c bundles) (hl : Launchable cfg b archive) (hr : 2 ≤ cfg.ranks)
    (hc : cfg.creatable = true) (_h : CreateRun cfg eager b archive base (bundles.map printBundle) none tr s)
    (left : Option Bytes) (hleft : left = none ↔ s.file = none)
    (h' : CreateRun cfg true b archive base (bundles.map printBundle) left tr' s') (hstuck : Stuck cfg s') :
    (s.file ≠ none → Finished cfg 1 s' ∧ s'.file = left ∧ executed tr' = []) ∧
    (s.file = none → Finished cfg 0 s' ∧ ∃ A ms, s'.file = some A ∧ readArchive A = some ms ∧ ms.Nodup ∧
      ∀ m, m ∈ ms ↔ ∃ p n, Seen root p n ∧ memberOf cfg.env base p n = some m) := by
  constructor
  · intro hf
    cases left with
    | none => exact absurd (hleft.1 rfl) hf
    | some f =>
      obtain ⟨h1, h2, _⟩ := C28_existing_archive_untouched (job_launch j hl) f h'
      exact ⟨C28_refused (job_launch j hl) (job_workable j) hr f h' hstuck, h1, h2⟩
  · intro hf
    have := hleft.2 hf
    subst this
    have h0 := (C19_runs_succeed j hl hr hc h').2.1 hstuck
    exact ⟨h0, members_iff j hl h' h0.1⟩

/-- Where all ranks end in every schedule, they do end in some. -/
theorem some_end {P : Nat → RankProg} {n : Nat} (h : AllEnd P n) (eager : Bool) (old : Bytes) :
    ∃ s, LReach P n eager old s ∧ ∀ r < n, s.ended r := by
  obtain ⟨N, hN⟩ := h.finite
  have key : ∀ k, (∃ s, LReach P n eager old s ∧ ¬ ∃ t, LStep n eager s t) ∨
      ∃ run : Nat → LSys, run 0 = .start P old ∧ (∀ i < k, LStep n eager (run i) (run (i + 1))) ∧ LReach P n eager old (run k) := by
    intro k
    induction k with
    | zero => exact Or.inr ⟨fun _ => .start P old, rfl, fun i h => absurd h (by omega), .start⟩
    | succ k ih =>
      rcases ih with h | ⟨run, h0, hs, hr⟩
      · exact Or.inl h
      by_cases hst : ∃ t, LStep n eager (run k) t
      · obtain ⟨t, ht⟩ := hst
        refine Or.inr ⟨Function.update run (k + 1) t, ?_, ?_, ?_⟩
        · rw [Function.update_of_ne (by omega)]; exact h0
        · intro i hi
          by_cases hik : i = k
          · subst hik
            rw [Function.update_of_ne (by omega), Function.update_self]
            exact ht
          · rw [Function.update_of_ne (by omega), Function.update_of_ne (by omega)]
            exact hs i (by omega)
        · rw [Function.update_self]
          exact .step hr ht
      · exact Or.inl ⟨run k, hr, hst⟩
  rcases key (N + 1) with ⟨s, hr, hst⟩ | ⟨run, h0, hs, _⟩
  · exact ⟨s, hr, h.complete eager old s hr hst⟩
  · have := hN eager old run (N + 1) h0 hs
    omega

/-- Two ranks archive the directory with the large file; the run is interrupted when the file looks like a
complete archive with nothing of the tree in it, and the first byte of one more write is there too.  The
second run makes the archive, with the large file in it. -/
example (Q : QSort Frag) : ∃ (front : List WriteReq) (wss : List (List WriteReq)) (s : LSys) (f : Bytes) (s' : LSys),
    LReach (rankMain bigEnv Q glibcNull (fun _ => (some bigDemo, bigDemo)) [[112], [67], [97], [100]] 2 true) 2 true [] s ∧
    LeftBehind (front ++ wss.flatten) s.file f ∧ (∃ all, readArchive s.file = some all ∧ ∀ m ∈ all, m.path ≠ [100, 47, 97]) ∧
    LReach (rankMain bigEnv Q glibcNull (fun _ => (some bigDemo, bigDemo)) [[112], [67], [97], [100]] 2 true) 2 false f s' ∧
    (∃ all, readArchive s'.file = some all ∧ ∃ m ∈ all, m.path = [100, 47, 97] ∧ m.data = bigData) ∧
    ∃ u, LReach (rankMain bigEnv Q glibcNull (fun _ => (some bigDemo, bigDemo)) [[112], [67], [97], [100]] 2 true) 2 true [] u ∧
      (∀ r < 2, u.ended r) ∧ s'.file = u.file := by
  obtain ⟨front, wss, hg, hgap⟩ := big_good Q
  obtain ⟨s, hs, _, cat, all, hread, hcat, hown⟩ := C55_large_file hg hgap (by omega) big_visible (by rw [bigData_len]; omega) true
  obtain ⟨_, _, z, _, hz, _⟩ := C47_writes_apart bigEnv Q glibcNull [100] bigDemo hg.platform hg.archivable (some bigDemo) hg.seen 2 hg.ranks front wss hg.made
  have hleft : LeftBehind (front ++ wss.flatten) s.file (writeAt s.file (z, [0])) :=
    ⟨[(z, [0])], fun p hp => ⟨(z, List.replicate 1024 0), List.mem_append_right _ hz, 0, 1, by simpa using congrArg Prod.fst (List.mem_singleton.1 hp),
      by rw [List.mem_singleton.1 hp]; rfl, Nat.zero_le _⟩, rfl⟩
  obtain ⟨h1, h2, h3⟩ := C83_legacy_repeat hg hs hleft
  obtain ⟨s', hs', he'⟩ := some_end h1 false (writeAt s.file (z, [0]))
  obtain ⟨u, hu, hue⟩ := some_end h1 true []
  obtain ⟨cat', all', r', _, _, hm⟩ := C83_legacy_repeat_changed hg hs hleft hg hgap hs' 0 (by omega) (he' 0 (by omega))
  refine ⟨front, wss, s, _, s', hs, hleft, ⟨_, hread, ?_⟩, hs', ⟨_, r', ?_⟩, u, hu, hue, h3 false true s' u hs' he' hu hue⟩
  · intro m hmem hp
    rcases List.mem_cons.1 hmem with rfl | hmem
    · rw [hcat] at hp
      exact absurd hp (by decide)
    · have := hown m hmem
      unfold ownMember at this
      rw [decide_eq_true_iff] at this
      rcases this.2 with h | h <;> rw [h] at hp <;> exact absurd hp (by decide)
  · have := (hm.1 _).2 ⟨[[97]], .reg ⟨0, 0, 0, 0⟩ bigData, big_visible, rfl⟩
    exact ⟨_, List.mem_cons_of_mem _ (List.mem_filter.1 this).1, rfl, rfl⟩

/-- 0.6: the first run is interrupted at once, or after it has come to its end (its caller did not see it). -/
example : (∃ tr' s', CreateRun (swapCfg [97] [98]) true 102400 [97] [100] ((swapBundles [97] [98]).map printBundle) none tr' s' ∧
      Finished (swapCfg [97] [98]) 0 s') ∧
    ∀ tr' s', CreateRun (swapCfg [97] [98]) true 102400 [97] [100] ((swapBundles [97] [98]).map printBundle) (some [1, 2, 3]) tr' s' →
      Stuck (swapCfg [97] [98]) s' → Finished (swapCfg [97] [98]) 1 s' ∧ s'.file = some [1, 2, 3] := by
  have hj := swap_job (x := [97]) (y := [98]) (Or.inl ⟨rfl, rfl⟩)
  obtain ⟨tr, s, A, _, h1, h2, h3, _⟩ := swap_archive (x := [97]) (y := [98]) (Or.inl ⟨rfl, rfl⟩)
  refine ⟨?_, ?_⟩
  · obtain ⟨_, _, tr, s, h, hf⟩ := C19_runs_succeed hj (archive := [97]) (swap_launchable _ _) (show 2 ≤ 3 by decide) rfl Run.nil
    exact ⟨_, _, h, hf⟩
  · intro tr' s' h' hst
    have := (C83_repeat hj (swap_launchable _ _) (show 2 ≤ 3 by decide) rfl h1 (some [1, 2, 3]) (by rw [h3]; simp) h' hst).1 (by rw [h3]; simp)
    exact ⟨this.1, this.2.1⟩

end Parfu.Props
