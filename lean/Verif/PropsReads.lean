/-
Property theorems C71, continued: runs of parfu 0.6 in which reads of the archived files fall short.
-/
import Verif.FaultsReads
import Verif.PropsFaults
set_option autoImplicit false

namespace Parfu.Props
open Parfu ProtocolSpec FaultsSpec MoveSpec TarSpec ScanSpec PlanSpec

/-- What the workers did: bundle, previous contents of memory, failures, and what reached the archive. -/
def ranF (tr : List FEv) : List (Bytes × Bytes × Faults × Option WriteReq) :=
  tr.filterMap fun e => match e with
    | .did _ t m F w => some (t, m, F, w)
    | _ => none

section
variable {c : Cfg} {eager : Bool} {b : Nat} {archive base : Bytes} {orders : List Bytes}
  {file0 : Option Bytes} {tr : List Ev} {trF : List FEv} {s : Sys}

/-- Whatever a worker did, it did with a bundle of the plan, in memory of the size of the bucket. -/
theorem frun_did (hL : Launch c b archive base orders) (hW : Workable c b base orders)
    (h : FaultyRun c eager b archive base orders file0 trF s) :
    ∀ r t m F w, FEv.did r t m F w ∈ trF →
      c.worker r ∧ t ∈ orders ∧ m.length = b ∧ workerDoF F c.env c.fs base m t = .ok w := by
  induction h with
  | nil => intro r t m F w hm; cases hm
  | @snoc trF s s' e h' st ih =>
    intro r t m F w hm
    rcases List.mem_append.1 hm with hm | hm
    · exact ih r t m F w hm
    · rw [List.mem_singleton] at hm
      subst hm
      cases st with
      | work _ _ name _ old _ _ hr hs hf hml ho hd =>
        obtain ⟨tr, f, h1, h2, h3⟩ := frun_plain hL hW h'
        have hI := run_inv (K := ⟨c, b, archive, base, orders, file0⟩) hL h1
        obtain ⟨w1, w2, w3, w4, w5⟩ := working_has hI hr (show ((s.withFile f).w r).stat = .working t from hs)
        have w2' : (s.w r).base = base := w2
        have w3' : (s.w r).bucket = b := w3
        exact ⟨hr, w1, by rw [hml, w3'], by rw [← w2']; exact hd⟩

theorem ranF_text (h : List.Forall₂ SameEv trF tr) (hn : ∀ r t b a m w, FEv.ev (.wrote r t b a m w) ∉ trF) :
    (ranF trF).map Prod.fst = (ran tr).map Prod.fst := by
  induction h with
  | nil => rfl
  | @cons x y trF tr hxy _ ih =>
    have ih' := ih (fun r t b a m w hm => hn r t b a m w (List.mem_cons_of_mem _ hm))
    cases x with
    | did r t m F w =>
      cases y with
      | wrote r' t' ba ar m' w' =>
        obtain ⟨_, rfl, _⟩ := (id hxy : r = r' ∧ t = t' ∧ m = m' ∧ _)
        show t :: (ranF trF).map Prod.fst = t :: (ran tr).map Prod.fst
        rw [ih']
      | _ => exact False.elim hxy
    | ev e =>
      have hxy' : e = y := hxy
      subst hxy'
      cases e with
      | wrote r t b a m w => exact absurd (List.mem_cons_self) (hn r t b a m w)
      | _ => exact ih'

theorem ranF_writes (hn : ∀ r t b a m w, FEv.ev (.wrote r t b a m w) ∉ trF) :
    writesF trF = (ranF trF).filterMap (fun x => x.2.2.2) := by
  unfold writesF ranF
  rw [List.filterMap_filterMap]
  apply List.filterMap_congr
  intro e he
  cases e with
  | did r t m F w => rfl
  | ev e =>
    cases e with
    | wrote r t b a m w => exact absurd he (hn r t b a m w)
    | _ => rfl

theorem mem_ranF {x : Bytes × Bytes × Faults × Option WriteReq} :
    x ∈ ranF trF ↔ ∃ r, FEv.did r x.1 x.2.1 x.2.2.1 x.2.2.2 ∈ trF := by
  unfold ranF
  rw [List.mem_filterMap]
  constructor
  · rintro ⟨e, he, h⟩
    cases e with
    | did r t m F w => cases h; exact ⟨r, he⟩
    | ev e => cases h
  · rintro ⟨r, h⟩
    exact ⟨_, h, rfl⟩

theorem workerDoF_some {F : Faults} {env : Env} {fs : FS} {m t : Bytes} {o : Option WriteReq} (h1 : F.memory = true)
    (h2 : F.write ≠ 0) (hd : workerDoF F env fs base m t = .ok o) : ∃ w, o = some w := by
  unfold workerDoF at hd
  cases hp : parseOrders t with
  | error e => rw [hp] at hd; cases hd
  | ok ws =>
    rw [hp] at hd
    simp only [bind, Except.bind] at hd
    cases ht : totalSize ws with
    | error e => rw [ht] at hd; cases hd
    | ok n =>
      cases hn : orderNFilename ws 0 with
      | error e => rw [ht, hn] at hd; cases hd
      | ok x =>
        rw [ht, hn] at hd
        simp only at hd
        unfold moveDataF at hd
        rw [if_pos h1] at hd
        split at hd
        · split at hd
          · cases hd
          · simp only at hd
            split at hd
            · cases hd
            · split at hd
              · exact ⟨_, (Except.ok.inj hd).symm⟩
              · cases hd
        · cases hd

end

/-- Put what was done beside the bundles. -/
theorem tasksF_of (B : List (List Order)) (W : List (Bytes × Bytes × Faults × Option WriteReq))
    (h : W.map Prod.fst = B.map printBundle) (hs : ∀ x ∈ W, ∃ w, x.2.2.2 = some w) :
    ∃ X : List (Task × Faults), X.map (fun x => x.1.bundle) = B ∧
      X.map (fun x => (printBundle x.1.bundle, x.1.memory, x.2, some x.1.write)) = W := by
  induction B generalizing W with
  | nil =>
    cases W with
    | nil => exact ⟨[], rfl, rfl⟩
    | cons w W => simp at h
  | cons l B ih =>
    cases W with
    | nil => simp at h
    | cons x W =>
      simp only [List.map_cons, List.cons.injEq] at h
      obtain ⟨X, h1, h2⟩ := ih W h.2 (fun y hy => hs y (by simp [hy]))
      obtain ⟨w, hw⟩ := hs x (by simp)
      refine ⟨(⟨l, x.2.1, w⟩, x.2.2.1) :: X, by simp [h1], ?_⟩
      simp only [List.map_cons, h2, List.cons.injEq, and_true]
      rw [← h.1, ← hw]

section
variable {cfg : Cfg} {eager : Bool} {base : Bytes} {root : FNode} {S : StdSort Ref} {g : Bytes → UInt8}
  {b mx : Nat} {c : Coll} {bundles : List (List Order)} {archive : Bytes} {file0 : Option Bytes}
  {trF : List FEv} {s : Sys}

/-- **C71, violated** Of the failures of a run let only reads be failures, any of them and at any byte.
When rank 0 has ended with status 0, a tar reader takes the archive for complete: one member for each
object, with the right name, size, owner and so on; but in the place of each byte that was not read there
is what was in the worker's memory when it was given the bundle (`m`, at the place in the bucket). -/
theorem C71_unread_data_is_memory (j : Job cfg.env cfg.fs base root S g b mx c bundles)
    (hl : Launchable cfg b archive)
    (h : FaultyRun cfg eager b archive base (bundles.map printBundle) none trF s)
    (hn : ∀ r t b a m w, FEv.ev (.wrote r t b a m w) ∉ trF)
    (hF : ∀ r t m F w, FEv.did r t m F w ∈ trF → OnlyReadsFail F m) (hb : s.boss = .exit 0) :
    ∃ (A : Bytes) (ms : List Member) (objs : List (List Bytes × FNode)) (got : List Bytes → Bytes),
      s.file = some A ∧ readArchive A = some ms ∧
      (objs.map Prod.fst).Nodup ∧ (∀ p n, (p, n) ∈ objs ↔ Seen root p n ∧ describe p n ≠ none) ∧
      ms.map some = objs.map (fun x => (memberOf cfg.env base x.1 x.2).map ({ · with data := got x.1 })) ∧
      (∀ x ∈ objs, (got x.1).length = (contentOf x.2).length) ∧
      (∀ l ∈ bundles, ∃ r m F w, FEv.did r (printBundle l) m F w ∈ trF) ∧
      ∀ r t m F w, FEv.did r t m F w ∈ trF → ∃ l ∈ bundles, t = printBundle l ∧
        ∀ (k : Nat) (o : Order), l[k]? = some o → o.size ≠ 0 →
          ∃ y ∈ objs, pathText y.1 = o.rel ∧ o.off + o.size ≤ (contentOf y.2).length ∧
            ∀ i, i < o.size → (got y.1)[o.off + i]? =
              if i < F.reads k then (contentOf y.2)[o.off + i]? else m[o.pos - startOf l + o.hdr + i]? := by
  have hL := job_launch j hl
  have hW := job_workable j
  obtain ⟨tr, f, h1, h2, h3⟩ := frun_plain hL hW h
  have hdid := frun_did hL hW h
  obtain ⟨e1, e2⟩ := C22_exactly_once hL h1 hb
  have htext : ((ranF trF).map Prod.fst).Perm (bundles.map printBundle) := by
    rw [ranF_text h3 hn, ran_text, ← e1]
    exact e2.map _
  obtain ⟨W, hW1, hW2⟩ := perm_of_map_perm Prod.fst htext (ranF trF) rfl
  have hsome : ∀ x ∈ W, ∃ w, x.2.2.2 = some w := by
    intro x hx
    obtain ⟨r, hr⟩ := mem_ranF.1 (hW1.mem_iff.1 hx)
    have hf := hF _ _ _ _ _ hr
    exact workerDoF_some hf.1 hf.2.1 (hdid _ _ _ _ _ hr).2.2.2
  obtain ⟨X, hX1, hX2⟩ := tasksF_of bundles W hW2 hsome
  have hmem : ∀ x ∈ X, x.1.bundle ∈ bundles ∧ ∃ r, FEv.did r (printBundle x.1.bundle) x.1.memory x.2 (some x.1.write) ∈ trF := by
    intro x hx
    refine ⟨by rw [← hX1]; exact List.mem_map.2 ⟨x, hx, rfl⟩, ?_⟩
    have : (printBundle x.1.bundle, x.1.memory, x.2, some x.1.write) ∈ W := by
      rw [← hX2]; exact List.mem_map.2 ⟨x, hx, rfl⟩
    exact mem_ranF.1 (hW1.mem_iff.1 this)
  have hws : (writesF trF).Perm (X.map fun x => x.1.write) := by
    rw [ranF_writes hn]
    have hp := (hW1.symm.filterMap (fun x => x.2.2.2))
    refine hp.trans ?_
    rw [← hX2, List.filterMap_map]
    have : (List.filterMap ((fun x : Bytes × Bytes × Faults × Option WriteReq => x.2.2.2) ∘
        fun x : Task × Faults => (printBundle x.1.bundle, x.1.memory, x.2, some x.1.write)) X) =
        X.map fun x => x.1.write := by
      induction X with
      | nil => rfl
      | cons x X ih => simp
    rw [this]
  obtain ⟨ms, objs, got, a1, a2, a3, a4, a5, a6⟩ := unread_archive j X hX1 (by
    intro x hx
    obtain ⟨hxb, r, hr⟩ := hmem x hx
    obtain ⟨_, _, d1, d2⟩ := hdid _ _ _ _ _ hr
    refine ⟨d1, hF _ _ _ _ _ hr, ?_⟩
    rw [job_received j _ hxb]
    exact d2) (writesF trF) hws
  refine ⟨writeAll (writesF trF), ms, objs, got, ?_, a1, a2, a3, a4, a5, ?_, ?_⟩
  · rcases frun_file h with ⟨h0, _⟩ | h0
    · exfalso
      have hs := C28_new_archive_is_the_writes hL h1 hb
      have hs' : f = some (writeAll (writes tr)) := hs
      rw [hs', h0] at h2
      cases h2
    · exact h0
  · intro l hlm
    rw [← hX1] at hlm
    obtain ⟨x, hx, rfl⟩ := List.mem_map.1 hlm
    obtain ⟨_, r, hr⟩ := hmem x hx
    exact ⟨r, _, _, _, hr⟩
  · intro r t m F w hm
    have : (t, m, F, w) ∈ W := hW1.mem_iff.2 (mem_ranF.2 ⟨r, hm⟩)
    rw [← hX2] at this
    obtain ⟨x, hx, he⟩ := List.mem_map.1 this
    simp only [Prod.mk.injEq] at he
    obtain ⟨rfl, rfl, rfl, rfl⟩ := he
    exact ⟨_, (hmem x hx).1, rfl, a6 x hx⟩

end

end Parfu.Props
