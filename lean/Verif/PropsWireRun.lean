/-
Property theorems C70 for whole jobs and the whole program, call by call.
-/
import Verif.PropsWire
import Verif.PropsExit
set_option autoImplicit false

namespace Parfu.Props
open Parfu ProtocolSpec WireSpec TarSpec ScanSpec MoveSpec MainSpec

section
variable {cfg : Cfg} {eager : Bool} {base : Bytes} {root : FNode} {S : StdSort Ref} {g : Bytes → UInt8}
  {b mx : Nat} {c : Coll} {bundles : List (List Order)} {archive : Bytes} {file0 : Option Bytes}
  {tr : List WEv} {s : WSys}

theorem job_short (j : Job cfg.env cfg.fs base root S g b mx c bundles) (ha : archive.length < 4096) :
    ShortTexts archive base (bundles.map printBundle) := by
  refine ⟨by omega, ?_, ?_⟩
  · have := j.tree.paths [] root (.self _)
    omega
  · intro t ht
    obtain ⟨l, hl, rfl⟩ := List.mem_map.1 ht
    exact j.msgs l hl

/-- **C70** Every call-by-call run of a job that ends with success leaves an archive in which a tar
reader finds exactly the members specified for the objects of the tree that can be reached, each once,
a directory before what it contains. -/
theorem C70_every_successful_run (j : Job cfg.env cfg.fs base root S g b mx c bundles)
    (hl : Launchable cfg b archive) (ha : archive.length < 4096)
    (h : CreateWireRun cfg eager b archive base (bundles.map printBundle) file0 tr s)
    (hb : s.boss = .exit 0) :
    ∃ (A : Bytes) (ms : List Member) (objs : List (List Bytes × FNode)),
      s.file = some A ∧ readArchive A = some ms ∧
      ms.map some = objs.map (fun x => memberOf cfg.env base x.1 x.2) ∧
      (objs.map Prod.fst).Nodup ∧
      (∀ p n, (p, n) ∈ objs ↔ Seen root p n ∧ describe p n ≠ none) ∧
      (∀ pre x post, objs = pre ++ x :: post → pre ≠ [] →
        ∃ y ∈ pre, IsDir y.2 ∧ ∃ name, x.1 = y.1 ++ [name]) :=
  C19_every_successful_run j hl (wire_run (job_launch j hl) (job_short j ha) h).2.1 hb

/-- **C70** With at least one worker, no file of the archive's name, and a place where it can be created,
every call-by-call run of a job can be continued to its end, no run goes on for ever, and when no call
can go on any more all processes have ended, rank 0 with status 0, even if every send waits for its
receiver. -/
theorem C70_runs_succeed (j : Job cfg.env cfg.fs base root S g b mx c bundles)
    (hl : Launchable cfg b archive) (ha : archive.length < 4096) (hr : 2 ≤ cfg.ranks)
    (hc : cfg.creatable = true)
    (h : CreateWireRun cfg eager b archive base (bundles.map printBundle) none tr s) :
    tr.length ≤ 2 * ((2 * cfg.ranks + 6) * (8 + 6 * cfg.ranks + 3 * bundles.length)) + cfg.ranks ∧
    ((∀ e s', ¬ WStep cfg false s e s') → Ended cfg 0 s) ∧
    ∃ more s', CreateWireRun cfg eager b archive base (bundles.map printBundle) none (tr ++ more) s' ∧
      Ended cfg 0 s' := by
  have hL := job_launch j hl
  have hS := job_short j ha
  have hW := job_workable j
  have hn1 : ∀ tr s, CreateWireRun cfg eager b archive base (bundles.map printBundle) none tr s →
      s.boss ≠ .exit 1 := by
    intro tr s h hb
    have := (C25_outcome hL (wire_run hL hS h).2.1).2 hb
    simp [openResult, hc] at this
  refine ⟨?_, ?_, ?_⟩
  · have := C70_bounded hL hS h
    simpa using this
  · intro hs
    have hD : ∀ r, cfg.worker r → ∀ e, (s.w r).stat ≠ .dead e := by
      intro r hr e hd
      obtain ⟨t, ht, memory, hme, he⟩ := dead_had_bundle hL (wire_run hL hS h).2.1 r hr e hd
      obtain ⟨w, hw⟩ := hW t ht memory hme
      rw [he] at hw; cases hw
    rcases C70_no_deadlock hL hS hr h hD with h0 | h1 | ⟨e, s', hst⟩
    · exact h0
    · exact absurd h1.1 (hn1 _ _ h)
    · exact absurd hst (hs e s')
  · obtain ⟨more, s', h2, h3⟩ := C70_reaches_end hL hS hW hr h
    rcases h3 with h3 | h3
    · exact ⟨more, s', h2, h3⟩
    · exact absurd h3.1 (hn1 _ _ h2)

end

section
variable {c : Cfg} {eager : Bool} {S : StdSort Ref} {g : Bytes → UInt8} {look : Bytes → FNode} {mx0 : Nat}
  {args : List Bytes} {tr : List WEv} {s : WSys}

/-- A call-by-call run of the program with these arguments. -/
abbrev MainWireRun (S : StdSort Ref) (g : Bytes → UInt8) (look : Bytes → FNode) (mx0 : Nat)
    (args : List Bytes) (c : Cfg) (eager : Bool) (file0 : Option Bytes) (tr : List WEv) (s : WSys) : Prop :=
  WRun c eager (WSys.begin (mainStart S g look mx0 c.ranks args file0)) tr s

/-- **C70** The whole program, as in `C19_whole_program`, with the length and the bytes of every order
sent and received by separate calls, each of which may wait for the other side. -/
theorem C70_whole_program {t : Bytes} {o : Opts} (hsa : ShortArgs args)
    (hp : parseArgs [] (defaultOpts mx0) args = .ok (some ([t], o))) (ha : o.archive ≠ [])
    (hal : o.archive.length < 4096)
    (han : (0 : UInt8) ∉ o.archive) (hb1 : 100000 ≤ o.bucket) (hb2 : o.bucket < 2 ^ 31)
    (ht : ShortTree c.env c.fs t (look t)) (hg : ∀ r, g r = 0)
    (htotal : ∀ objs : List (List Bytes × FNode), (objs.map Prod.fst).Nodup →
      (∀ x ∈ objs, Seen (look t) x.1 x.2) → (objs.map (fun x => tarBytes x.2)).sum < 2 ^ 31)
    (hr2 : 2 ≤ c.ranks) (hrI : c.ranks < 2 ^ 31) (hc : c.creatable = true)
    (h : MainWireRun S g look mx0 args c eager none tr s) :
    (∃ N, ∀ tr' s', MainWireRun S g look mx0 args c eager none tr' s' → tr'.length ≤ N) ∧
    (∃ more s', MainWireRun S g look mx0 args c eager none (tr ++ more) s' ∧ Ended c 0 s') ∧
    ((∀ e s', ¬ WStep c false s e s') → Ended c 0 s ∧
      ∃ (A : Bytes) (ms : List Member) (objs : List (List Bytes × FNode)),
        s.file = some A ∧ readArchive A = some ms ∧
        ms.map some = objs.map (fun x => memberOf c.env t x.1 x.2) ∧
        (objs.map Prod.fst).Nodup ∧
        (∀ p n, (p, n) ∈ objs ↔ Seen (look t) p n ∧ describe p n ≠ none) ∧
        (∀ pre x post, objs = pre ++ x :: post → pre ≠ [] →
          ∃ y ∈ pre, IsDir y.2 ∧ ∃ name, x.1 = y.1 ++ [name])) := by
  have hne : args ≠ [] := by rintro rfl; simp [parseArgs] at hp
  obtain ⟨coll, bundles, j⟩ := C19_short_paths S g o.bucket o.mx ht hg (bucket_blocks hsa hp) hb1 htotal
  have hl : Launchable c o.bucket o.archive := ⟨by omega, hrI, hb2, han⟩
  have hst := mainStart_job (c := c) (file0 := none) hne hp ha j.scanned j.planned
  unfold MainWireRun at h ⊢
  rw [hst] at h ⊢
  obtain ⟨_, h2, h3⟩ := C70_runs_succeed j hl hal hr2 hc h
  refine ⟨⟨_, fun tr' s' h' => (C70_runs_succeed j hl hal hr2 hc h').1⟩, h3, ?_⟩
  intro hs
  have hf := h2 hs
  exact ⟨hf, C70_every_successful_run j hl hal h hf.1⟩

end

/-- `parfu archivefile=a /t` on the concrete tree with two workers, every send waiting for its receiver,
runs to its end. -/
example : ∃ tr s, MainWireRun demoSort2 (fun _ => 0) (fun _ => demoTree) 7 [archivefile ++ [61, 97], [47, 116]]
    demoCfg false none tr s ∧ Ended demoCfg 0 s ∧
    (∀ r, demoCfg.worker r → receivedBy r (seen tr) = sentTo r (seen tr)) := by
  have h := (C70_whole_program (S := demoSort2) (g := fun _ => 0) (look := fun _ => demoTree) (mx0 := 7)
    (args := [archivefile ++ [61, 97], [47, 116]]) (c := demoCfg) (eager := false) (t := [47, 116])
    (o := ⟨4992000, 7, [97]⟩)
    (by unfold ShortArgs; decide) (by decide +kernel) (by decide) (by decide) (by decide) (by decide) (by decide)
    demo_shortTree (fun _ => rfl) demo_total (by decide) (by decide) rfl WRun.nil).2.1
  obtain ⟨more, s, h1, h2⟩ := h
  obtain ⟨coll, bundles, j⟩ := C19_short_paths demoSort2 (fun _ => 0) 4992000 7 demo_shortTree (fun _ => rfl)
    (by decide) (by decide) demo_total
  have hl : Launchable demoCfg 4992000 [97] := by constructor <;> decide
  refine ⟨_, s, h1, h2, fun r hr => ?_⟩
  have hst := mainStart_job (S := demoSort2) (g := fun _ => 0) (look := fun _ => demoTree) (mx0 := 7)
    (args := [archivefile ++ [61, 97], [47, 116]]) (c := demoCfg) (file0 := none) (t := [47, 116])
    (o := ⟨4992000, 7, [97]⟩) (by decide) (by decide +kernel) (by decide) j.scanned j.planned
  unfold MainWireRun at h1
  rw [hst] at h1
  exact (C70_in_order (job_launch (cfg := demoCfg) j hl) (job_short (cfg := demoCfg) j (by decide)) h1 r hr).2 h2

end Parfu.Props
