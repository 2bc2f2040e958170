/-
C63, exactly: which runs of parfu 0.6 that report success have made an archive of the whole tree.
-/
import Verif.PropsFits
import Verif.TarRoom
set_option autoImplicit false

namespace Parfu.Props
open Parfu MainSpec MoveSpec TarSpec ScanSpec PlanSpec ProtocolSpec

/-! ### lengths -/

theorem moveData_end {env : Env} {fs : FS} {base memory : Bytes} {ws : List WOrder} {q : WriteReq} {first last : WOrder}
    (h0 : ws.head? = some first) (h1 : ws.getLast? = some last)
    (h : moveData env fs base memory ws = .ok q) : q.1 = first.pos ∧ q.2.length = nextBlock (totalLen first last) := by
  unfold moveData at h
  rw [h0, h1] at h
  simp only at h
  cases h2 : moveLoop env fs base first.pos ws memory with
  | error e => rw [h2] at h; cases h
  | ok buf =>
    rw [h2] at h
    simp only at h
    cases h3 : (if nextBlock (totalLen first last) - totalLen first last ≠ 0 then
        blit buf (totalLen first last) (zeros (nextBlock (totalLen first last) - totalLen first last)) else .ok buf) with
    | error e => rw [h3] at h; cases h
    | ok buf' =>
      rw [h3] at h
      simp only at h
      by_cases h4 : nextBlock (totalLen first last) ≤ buf'.length
      · rw [if_pos h4] at h
        cases h
        exact ⟨rfl, by rw [List.length_take]; omega⟩
      · rw [if_neg h4] at h; cases h

/-- Where a bundle that is carried out goes, whatever is in it. -/
theorem loose_written {env : Env} {fs : FS} {base : Bytes} {root : FNode} {S : StdSort Ref} {g : Bytes → UInt8} {b mx : Nat}
    {c : Coll} {bundles : List (List Order)} (j : LooseJob env fs base root S g b mx c bundles) {l : List Order}
    (hl : l ∈ bundles) {memory : Bytes} {w : WriteReq} (hw : workerDo env fs base memory (printBundle l) = .ok w) :
    (∀ o ∈ l, FitsInt o) ∧ w.1 + w.2.length = up512 (endOf l) := by
  obtain ⟨hok, hb5, hn, hne, hch⟩ := j.setup
  have hsub : ∀ o ∈ l, o ∈ bundles.flatten := fun o ho => List.mem_flatten.2 ⟨l, hl, ho⟩
  have hmsg := j.msgs l hl
  have hpar := C17_accepts_iff l (fun o ho => (hn o (hsub o ho)).1) (by omega)
  obtain ⟨k1, _, _⟩ := chainTo_bundles bundles 0 _ hne (by omega) hch
  obtain ⟨hchl, hmod, _⟩ := k1 l hl
  obtain ⟨first, hfirst⟩ : ∃ o, l.head? = some o := by
    cases l with
    | nil => exact absurd rfl (hne [] hl)
    | cons o os => exact ⟨o, rfl⟩
  obtain ⟨last, hlast⟩ : ∃ o, l.getLast? = some o := by
    cases hg : l.getLast? with
    | none => exact absurd (List.getLast?_eq_none_iff.1 hg) (hne l hl)
    | some o => exact ⟨o, rfl⟩
  have hstart := startOf_head hfirst
  have hend := endOf_getLast hlast
  have hlm := List.mem_of_getLast? hlast
  have hpw := chainTo_pairwise hchl
  have hsl := hpw.2 last hlm
  have hb0 : (l.map asReceived).head? = some (asReceived first) := by rw [List.head?_map, hfirst]; rfl
  have hb1 : (l.map asReceived).getLast? = some (asReceived last) := by rw [List.getLast?_map, hlast]; rfl
  have hz : orderNFilename (l.map asReceived) 0 = .ok (asReceived first).rel := by
    unfold orderNFilename
    rw [if_neg (by omega), ← List.head?_eq_getElem?, hb0]
  have hup : up512 (endOf l) = startOf l + up512 (endOf l - startOf l) := by
    rw [← up512_add hmod]; congr 1; omega
  by_cases hf : ∀ o ∈ l, FitsInt o
  · refine ⟨hf, ?_⟩
    rw [if_pos hf] at hpar
    have hlf := hf last hlm
    unfold FitsInt at hlf
    have htot : totalLen (asReceived first) (asReceived last) = endOf l - startOf l := by
      unfold totalLen
      show usub64 ((last.pos + last.hdr + last.size) % 2 ^ 64) first.pos = _
      rw [Nat.mod_eq_of_lt (by omega), usub64_of_le (by rw [← hstart]; omega), hend, hstart]
    unfold workerDo at hw
    rw [hpar] at hw
    simp only [bind, Except.bind, totalSize, hb0, hb1, hz] at hw
    obtain ⟨e1, e2⟩ := moveData_end hb0 hb1 hw
    rw [e1, e2, htot, nextBlock_eq, hup]
    show first.pos + _ = _
    rw [hstart]
  · rw [if_neg hf] at hpar
    unfold workerDo at hw
    rw [hpar] at hw
    cases hw

theorem endPos_mod : ∀ (ps : List Placed) (w : Nat), w % 512 = 0 → endPos w ps % 512 = 0
  | [], w, h => h
  | _ :: ps, _, _ => endPos_mod ps _ (up512_mod _)

theorem headRoom_mod (m : Member) : headRoom m % 512 = 0 := by
  unfold headRoom paxHdrSz roundToBlock blk
  split <;> omega

/-- Entries that plan for no more than their members need, and one that plans for less. -/
theorem endPos_room (mem : Placed → Member) : ∀ (ps : List Placed) (w : Nat), w % 512 = 0 →
    (∀ q ∈ ps, q.ref.hdr ≤ headRoom (mem q) ∧ (mem q).size = q.ref.ent.size) →
    endPos w ps ≤ w + (ps.map fun q => room (mem q)).sum ∧
    ((∃ q ∈ ps, q.ref.hdr + 512 ≤ headRoom (mem q)) → endPos w ps < w + (ps.map fun q => room (mem q)).sum)
  | [], w, _, _ => by simp [endPos]
  | p :: ps, w, hw, h => by
    obtain ⟨h1, h2⟩ := h p (by simp)
    obtain ⟨i1, i2⟩ := endPos_room mem ps (up512 (w + p.ref.hdr + p.ref.ent.size)) (up512_mod _)
      (fun q hq => h q (by simp [hq]))
    have hm := headRoom_mod (mem p)
    have hr : room (mem p) = headRoom (mem p) + pad512 p.ref.ent.size := by unfold room; rw [h2]
    simp only [endPos, List.map_cons, List.sum_cons, hr]
    have hup : up512 (w + p.ref.hdr + p.ref.ent.size) ≤ w + (headRoom (mem p) + pad512 p.ref.ent.size) := by
      unfold up512 pad512; omega
    refine ⟨by omega, ?_⟩
    rintro ⟨q, hq, hlt⟩
    rcases List.mem_cons.1 hq with rfl | hq
    · have : up512 (w + q.ref.hdr + q.ref.ent.size) < w + (headRoom (mem q) + pad512 q.ref.ent.size) := by
        unfold up512 pad512; omega
      omega
    · have := i2 ⟨q, hq, hlt⟩
      omega

/-! ### planned too short -/

/-- The size planned for a directory of one of the nine lengths is too small, by a block or more. -/
theorem hdr_slash_bad (s : Bytes) (hb : s.length ∈ badDirLengths) (h : Nat)
    (hh : computeHdrSize s [] 0 = .ok h) : h + 512 ≤ blk + paxHdrSz (longRoom kPath (s ++ [47]) + longRoom kLinkpath []) := by
  unfold computeHdrSize at hh
  rw [hdrSize_eq] at hh
  have hh' := Except.ok.inj hh
  have hlen : s.length ≤ 4096 ∧ 100 ≤ s.length := by
    simp only [badDirLengths, List.mem_cons, List.not_mem_nil, or_false] at hb
    omega
  have hl2 : longRoom kLinkpath [] = 0 := rfl
  obtain ⟨m, k3, _, _, k4, k5⟩ := recText_spec kwPath (s ++ [47])
  have hm := path_record (s ++ [47]) (by simp; omega) (by simp; omega) m k3
  have hkk : kPath = kwPath := rfl
  have hl1 : longRoom kPath (s ++ [47]) = m := by
    unfold longRoom; rw [if_pos (by simp; omega), hkk, k4]
  rw [hl1, hl2, show m + 0 = m from rfl, paxHdrSz_pos k5]
  by_cases h1 : s.length = 100
  · have e1 : ¬ (s.length > 100) := by omega
    simp [paxPairs, maxFileSize, recTexts, e1] at hh'
    have : paxHdrSz 0 = 0 := rfl
    omega
  · obtain ⟨n, k1, _, _, k2, k2'⟩ := recText_spec kwPath s
    have hn := path_record s (by omega) (by omega) n k1
    have g1 : s.length > 100 := by omega
    simp [paxPairs, maxFileSize, g1, recTexts, k2, paxHdrSz_pos k2'] at hh'
    simp only [List.length_append, List.length_cons, List.length_nil] at hm
    simp only [badDirLengths, List.mem_cons, List.not_mem_nil, or_false] at hb
    rw [hn] at hh'
    rw [hm]
    unfold pad512 at *
    split at hh' <;> split <;> omega

theorem memberOf_kind {env : Env} {base : Bytes} {p : List Bytes} {n : FNode} {m : Member}
    (h : memberOf env base p n = some m) : m.path = archivedPath base p n ∧
    (m.flag = 53 ↔ ∃ mm o k, n = .dir mm o k) := by
  unfold memberOf at h
  cases n with
  | reg mm c =>
    simp only at h
    split at h
    · cases h; exact ⟨rfl, by simp⟩
    · cases h
  | lnk mm c =>
    simp only at h
    split at h
    · cases h; exact ⟨rfl, by simp⟩
    · cases h
  | dir mm o k =>
    simp only at h
    split at h
    · cases h; exact ⟨rfl, by simp⟩
    · cases h
  | other mm => simp at h

/-- Two objects of a tree with the same member are at the same place. -/
theorem member_place {env : Env} {base : Bytes} {p p' : List Bytes} {n n' : FNode} {m : Member}
    (h : memberOf env base p n = some m) (h' : memberOf env base p' n' = some m) : pathText p = pathText p' := by
  obtain ⟨h1, h2⟩ := memberOf_kind h
  obtain ⟨h3, h4⟩ := memberOf_kind h'
  have h5 := h1.symm.trans h3
  by_cases hd : m.flag = 53
  · obtain ⟨mm, o, k, rfl⟩ := h2.1 hd
    obtain ⟨mm', o', k', rfl⟩ := h4.1 hd
    simp only [archivedPath] at h5
    by_cases hp : p = []
    · by_cases hp' : p' = []
      · rw [hp, hp']
      · rw [if_pos hp, if_neg hp'] at h5
        have := congrArg List.length h5
        simp at this
    · by_cases hp' : p' = []
      · rw [if_neg hp, if_pos hp'] at h5
        have := congrArg List.length h5
        simp at this
      · rw [if_neg hp, if_neg hp'] at h5
        exact List.append_cancel_left (List.append_cancel_right h5)
  · have e1 : archivedPath base p n = base ++ [47] ++ pathText p := by
      cases n with
      | dir a b c => exact absurd (h2.2 ⟨a, b, c, rfl⟩) hd
      | reg _ _ => rfl
      | lnk _ _ => rfl
      | other _ => rfl
    have e2 : archivedPath base p' n' = base ++ [47] ++ pathText p' := by
      cases n' with
      | dir a b c => exact absurd (h4.2 ⟨a, b, c, rfl⟩) hd
      | reg _ _ => rfl
      | lnk _ _ => rfl
      | other _ => rfl
    rw [e1, e2] at h5
    exact List.append_cancel_left h5

/-! ### C63 -/

section
variable {cfg : Cfg} {base : Bytes} {root : FNode} {S : StdSort Ref} {g : Bytes → UInt8} {b mx : Nat}
    {c : Coll} {bundles : List (List Order)} {archive : Bytes} {eager : Bool} {file0 : Option Bytes} {tr : List Ev} {s : Sys}

/-- A run that ends with success: all numbers were `int`s, and the file ends where the plan ends. -/
theorem success_facts (j : LooseJob cfg.env cfg.fs base root S g b mx c bundles) (hl : Launchable cfg b archive)
    (h : CreateRun cfg eager b archive base (bundles.map printBundle) file0 tr s) (hb : s.boss = .exit 0) :
    (∀ o ∈ bundles.flatten, FitsInt o) ∧
    ∃ A, s.file = some A ∧ A.length ≤ endPos 0 (setOffsets (orderFiles S c)).all := by
  obtain ⟨W, hperm, hw, hfile⟩ := run_worked (looseJob_launch j hl) h hb
  obtain ⟨hok, hb5, hn, hne, hch⟩ := j.setup
  obtain ⟨k1, _, _⟩ := chainTo_bundles bundles 0 _ hne (by omega) hch
  refine ⟨?_, _, hfile, ?_⟩
  · intro o ho
    obtain ⟨l, hlb, hol⟩ := List.mem_flatten.1 ho
    have hm : printBundle l ∈ W.map Prod.fst := hperm.mem_iff.2 (List.mem_map.2 ⟨l, hlb, rfl⟩)
    obtain ⟨x, hx, he⟩ := List.mem_map.1 hm
    obtain ⟨_, h4⟩ := hw x hx
    rw [he] at h4
    exact (loose_written j hlb h4).1 o hol
  · refine (foldl_writeAt_length _ [] _ (by simp) ?_).1
    intro w hwm
    obtain ⟨x, hx, rfl⟩ := List.mem_map.1 hwm
    obtain ⟨_, h4⟩ := hw x hx
    have hm : x.1 ∈ bundles.map printBundle := hperm.mem_iff.1 (List.mem_map.2 ⟨x, hx, rfl⟩)
    obtain ⟨l, hlb, he⟩ := List.mem_map.1 hm
    rw [← he] at h4
    rw [(loose_written j hlb h4).2]
    exact (k1 l hlb).2.2

/-- Without a directory of one of the nine lengths, a run that ends with success is one of a `Job`. -/
theorem success_job (j : AnyJob cfg.env cfg.fs base root S g b mx c bundles) (hl : Launchable cfg b archive)
    (h : CreateRun cfg eager b archive base (bundles.map printBundle) file0 tr s) (hb : s.boss = .exit 0) :
    Job cfg.env cfg.fs base root S g b mx c bundles := by
  refine j.job ?_ (success_facts j.loose hl h hb).1
  intro l hlb
  apply Classical.byContradiction
  intro hbig
  exact C13_overflow_never_succeeds j hl h l hlb (by omega) hb

/-- **C63, exactly** If rank 0 ends with status 0 - whatever the number of processes, the schedule and the
sizes of the files - the archive holds the member of every object of the tree if and only if no directory below
the target has a path of exactly 100, 502, 1013, 1525, 2037, 2549, 3061, 3573 or 4085 bytes. -/
theorem C63_complete_iff (j : LooseJob cfg.env cfg.fs base root S g b mx c bundles) (hl : Launchable cfg b archive)
    (h : CreateRun cfg eager b archive base (bundles.map printBundle) file0 tr s) (hb : s.boss = .exit 0) :
    (∃ (A : Bytes) (ms : List Member), s.file = some A ∧ readArchive A = some ms ∧
      ∀ p n, Seen root p n → describe p n ≠ none → ∃ m, memberOf cfg.env base p n = some m ∧ m ∈ ms) ↔
    (∀ p m o k, Seen root p (.dir m o k) → p ≠ [] →
      (base ++ [47] ++ pathText p).length ∉ [100, 502, 1013, 1525, 2037, 2549, 3061, 3573, 4085]) := by
  constructor
  · rintro ⟨A, ms, hA, hread, hall⟩ p m o k hseen hp hbad
    obtain ⟨hsmall, A', hA', hlen⟩ := success_facts j hl h hb
    rw [hA] at hA'
    cases hA'
    have ha := j.tree
    obtain ⟨c', h', hex, _, _, _⟩ := C07_scan_exact g base root ha.isDir ha.treeOk j.luck
    rw [j.scanned] at h'
    have := Except.ok.inj h'
    subst this
    obtain ⟨hok, _, _, _, _⟩ := j.setup
    obtain ⟨hflat, hs, hhdr, hnd, hcont, _⟩ := plan_flat hok j.planned
    have hrelp : ∀ p n e, describe p n = some e → e.rel = pathText p := by
      intro p n e hd
      cases n <;> simp [describe] at hd <;> subst hd <;> rfl
    have hpm : ((orderFiles S c).dirs ++ (orderFiles S c).files).Perm (c.dirs ++ c.files) :=
      List.Perm.append_left _ (C09_order_files S c).2.1
    have hm : ∀ r ∈ c.dirs ++ c.files, mkRef base r.ent = .ok r := by
      have hscan := j.scanned
      unfold scan at hscan
      split at hscan
      · cases hscan
      · exact (collect_spec hscan).2.2
    have hrefs : (setOffsets (orderFiles S c)).all.map Placed.ref =
        (orderFiles S c).dirs ++ (orderFiles S c).files := by
      rw [setOffsets_all, placeFrom_refs]
    have hmem : ∀ q ∈ (setOffsets (orderFiles S c)).all, q.ref ∈ c.dirs ++ c.files := by
      intro q hq
      apply hpm.mem_iff.1
      rw [← hrefs]; exact List.mem_map.2 ⟨q, hq, rfl⟩
    have h11 := C11_every_byte_once 0 b mx (orderFiles S c) bundles hok j.planned
    have hsz : ∀ q ∈ (setOffsets (orderFiles S c)).all, q.ref.ent.size < 2 ^ 32 := by
      intro q hq
      by_cases h0 : q.ref.ent.size = 0
      · omega
      · have hcnt := (h11.1 q.ref (hpm.mem_iff.2 (hmem q hq))).2 (q.ref.ent.size - 1)
        rw [if_pos (by omega)] at hcnt
        obtain ⟨o, ho, hmv⟩ := List.countP_pos_iff.1 (Nat.lt_of_lt_of_eq Nat.one_pos hcnt.symm)
        have hmv' := hmv
        simp [Moves] at hmv'
        have hst := hsmall o ho
        unfold FitsInt at hst
        omega
    have hent : ∀ q : Placed, ∃ (p : List Bytes) (n : FNode) (m : Member),
        q ∈ (setOffsets (orderFiles S c)).all → Seen root p n ∧ describe p n = some q.ref.ent ∧
          memberOf cfg.env base p n = some m ∧ m.size = q.ref.ent.size ∧ q.ref.hdr ≤ headRoom m ∧
          (p ≠ [] → (∃ m o k, n = .dir m o k) → (base ++ [47] ++ pathText p).length ∈ badDirLengths →
            q.ref.hdr + 512 ≤ headRoom m) := by
      intro q
      by_cases hq : q ∈ (setOffsets (orderFiles S c)).all
      · have hqm := hmem q hq
        obtain ⟨p, n, hseen, hd⟩ := (hex q.ref.ent).1 (List.mem_map.2 ⟨q.ref, hqm, rfl⟩)
        have hq31 := hsz q hq
        obtain ⟨e, H, m, k1, k2, k3, k4, ⟨k5, k6, k7, k8⟩, k9, _⟩ := object_header_any ha hseen hd (by omega)
        have hhs : headerSize base q.ref.ent = .ok q.ref.hdr := by
          have := hm _ hqm
          unfold mkRef at this
          cases hh : headerSize base q.ref.ent with
          | error e => rw [hh] at this; simp [bind, Except.bind] at this
          | ok v =>
            rw [hh] at this
            simp only [bind, Except.bind] at this
            exact congrArg Except.ok (congrArg Ref.hdr (Except.ok.inj this))
        have hroom := made_room k3 k5 k6 k8
        have hbadcase : p ≠ [] → (∃ m o k, n = .dir m o k) → (base ++ [47] ++ pathText p).length ∈ badDirLengths →
            q.ref.hdr + 512 ≤ headRoom m := by
          rintro hp ⟨mm, o, k, rfl⟩ hbad
          have hpath := (memberOf_kind k9).1
          simp only [archivedPath, if_neg hp] at hpath
          have hlink : m.linkpath = [] := by
            unfold memberOf at k9
            simp only at k9
            split at k9
            · cases k9; rfl
            · cases k9
          unfold headRoom
          rw [hpath, hlink]
          refine hdr_slash_bad _ hbad _ ?_
          simp only [describe, Option.some.injEq] at hd
          unfold headerSize absolutePath at hhs
          rw [← hd] at hhs
          exact hhs
        refine ⟨p, n, m, fun _ => ⟨hseen, hd, k9, k7, ?_, hbadcase⟩⟩
        by_cases hcase : p ≠ [] ∧ (∃ m o k, n = .dir m o k) ∧ (base ++ [47] ++ pathText p).length ∈ badDirLengths
        · have := hbadcase hcase.1 hcase.2.1 hcase.2.2; omega
        · have := k4.2 hcase
          rw [hhs] at this
          have := Except.ok.inj this
          omega
      · exact ⟨[], .other ⟨0, 0, 0, 0⟩, ⟨[], 0, [], 0, 0, 0, 0, [], [], 0, []⟩, fun h => absurd h hq⟩
    choose path node mem hE using hent
    -- the directory in question is an entry, for which too little is planned
    obtain ⟨r, hr, hre⟩ := List.mem_map.1 ((hex ⟨pathText p, .dir, [], 0⟩).2 ⟨p, _, hseen, rfl⟩)
    rw [← hpm.mem_iff, ← hrefs] at hr
    obtain ⟨q, hq, rfl⟩ := List.mem_map.1 hr
    have hshort : q.ref.hdr + 512 ≤ headRoom (mem q) := by
      obtain ⟨e1, e2, _, _, _, e6⟩ := hE q hq
      have hpt : pathText (path q) = pathText p := by
        rw [← hrelp _ _ _ e2, hre]
      apply e6
      · intro h0
        rw [h0] at hpt
        have := pathText_ne_nil (fun n hn => (at_nameOk (seen_at hseen) ha.treeOk n hn).1) hp
        exact this hpt.symm
      · rw [hre] at e2
        cases hn : node q with
        | dir a b c => exact ⟨a, b, c, rfl⟩
        | reg _ _ => rw [hn] at e2; simp [describe] at e2
        | lnk _ _ => rw [hn] at e2; simp [describe] at e2
        | other _ => rw [hn] at e2; simp [describe] at e2
      · rw [hpt]; exact hbad
    -- count
    have hcount := (endPos_room mem (setOffsets (orderFiles S c)).all 0 (by omega)
      (fun q hq => ⟨(hE q hq).2.2.2.2.1, (hE q hq).2.2.2.1⟩)).2 ⟨q, hq, hshort⟩
    have hroom := readArchive_room _ A (Nat.le_refl _) ms hread
    have hmod := endPos_mod (setOffsets (orderFiles S c)).all 0 (by omega)
    have hpad : pad512 A.length ≤ endPos 0 (setOffsets (orderFiles S c)).all := by unfold pad512; omega
    have hnodup : ((setOffsets (orderFiles S c)).all.map mem).Nodup := by
      have hrel : ∀ x ∈ (setOffsets (orderFiles S c)).all, ∀ y ∈ (setOffsets (orderFiles S c)).all, mem x = mem y →
          x.ref.ent.rel = y.ref.ent.rel := by
        intro x hx y hy hxy
        obtain ⟨_, x2, x3, _⟩ := hE x hx
        obtain ⟨_, y2, y3, _⟩ := hE y hy
        rw [hrelp _ _ _ x2, hrelp _ _ _ y2]
        exact member_place x3 (hxy ▸ y3)
      generalize (setOffsets (orderFiles S c)).all = L at hnd hrel
      induction L with
      | nil => simp
      | cons x L ih =>
        rw [List.map_cons, List.nodup_cons] at hnd ⊢
        refine ⟨?_, ih hnd.2 (fun a ha b hb => hrel a (by simp [ha]) b (by simp [hb]))⟩
        intro hx
        obtain ⟨y, hy, hxy⟩ := List.mem_map.1 hx
        exact hnd.1 (List.mem_map.2 ⟨y, hy, (hrel x (by simp) y (by simp [hy]) hxy.symm).symm⟩)
    have hsub : ∀ x ∈ (setOffsets (orderFiles S c)).all.map mem, x ∈ ms := by
      intro x hx
      obtain ⟨y, hy, rfl⟩ := List.mem_map.1 hx
      obtain ⟨y1, y2, y3, _⟩ := hE y hy
      obtain ⟨m', m1, m2⟩ := hall _ _ y1 (by rw [y2]; simp)
      rw [y3] at m1
      cases m1
      exact m2
    have := sum_room_le (f := room) _ ms hnodup hsub
    rw [List.map_map] at this
    have he : (room ∘ mem) = fun q => room (mem q) := rfl
    rw [he] at this
    omega
  · intro hdirs
    have ja : AnyJob cfg.env cfg.fs base root S g b mx c bundles :=
      ⟨⟨j.tree, hdirs⟩, j.luck, j.blocks, j.scanned, j.planned, j.msgs⟩
    obtain ⟨A, ms, h1, h2, h3, _⟩ := C63_success_means_archive_partial (success_job ja hl h hb) hl h hb
    exact ⟨A, ms, h1, h2, h3⟩

end

/-! ### both sides occur -/

theorem dir100_seen {p : List Bytes} {n : FNode} (h : Seen dir100 p n) :
    (p = [] ∧ n = dir100) ∨ (p = [List.replicate 97 97] ∧ n = .dir ⟨493, 0, 0, 0⟩ true .nil) := by
  unfold dir100 at h
  cases h with
  | self => exact Or.inl ⟨rfl, rfl⟩
  | step hc h' =>
    cases hc with
    | here h1 h2 =>
      cases h' with
      | self => exact Or.inr ⟨rfl, rfl⟩
      | step hc => cases hc
    | there hc => cases hc

theorem dir100_loose (ranks : Nat) : LooseJob (dir100Cfg ranks).env (dir100Cfg ranks).fs [47, 116] dir100 demoSort2 (fun _ => 0)
    4992000 7 dir100Coll dir100Bundles := by
  have hm : ∀ k, MetaOk demoEnv2 ⟨k, 0, 0, 0⟩ := fun k => ⟨by simp, by simp, by simp, by simp,
    ⟨[114], rfl, by decide, by decide⟩, ⟨[103], rfl, by decide, by decide⟩⟩
  refine ⟨⟨trivial, ?_, ?_, by decide, by decide, ?_, ?_, ?_, ?_⟩, fun _ => rfl, by decide, dir100_scanned.1,
    dir100_scanned.2, by decide +kernel⟩
  · have hn : NameOk (List.replicate 97 97) := by unfold NameOk; decide
    simp only [TreeOk, dir100, KidsOk, names]
    exact ⟨by decide +kernel, fun _ => ⟨hn, by simp [names]⟩, trivial⟩
  · intro p n h
    rcases dir100_seen h with ⟨rfl, rfl⟩ | ⟨rfl, rfl⟩ <;> rfl
  · intro p n h
    rcases dir100_seen h with ⟨rfl, rfl⟩ | ⟨rfl, rfl⟩ <;> decide
  · intro p m t h
    rcases dir100_seen h with ⟨_, h⟩ | ⟨_, h⟩ <;> cases h
  · intro p n h
    rcases dir100_seen h with ⟨rfl, rfl⟩ | ⟨rfl, rfl⟩ <;> decide
  · intro p n h _
    rcases dir100_seen h with ⟨rfl, rfl⟩ | ⟨rfl, rfl⟩ <;> exact hm _

/-- A run with status 0 of a tree with a directory of 100 bytes. -/
example : ∃ tr s, CreateRun (dir100Cfg 3) true 4992000 [97] [47, 116] (dir100Bundles.map printBundle) none tr s ∧
    s.boss = .exit 0 ∧ ¬ ∃ (A : Bytes) (ms : List Member), s.file = some A ∧ readArchive A = some ms ∧
      ∀ p n, Seen dir100 p n → describe p n ≠ none → ∃ m, memberOf demoEnv2 [47, 116] p n = some m ∧ m ∈ ms := by
  have hl : Launchable (dir100Cfg 3) 4992000 [97] := ⟨by decide, by decide, by decide, by decide⟩
  obtain ⟨tr, s, h, hf⟩ := C25_reaches_end (eager := true) (file0 := none) (dir100_launch 3 (by decide) (by decide))
    (dir100_workable 3) (by decide) Run.nil
  have hf : s.boss = .exit 0 := by
    rcases hf with hf | hf
    · exact hf.1
    · have := (C25_outcome (dir100_launch 3 (by decide) (by decide)) h).2 hf.1
      simp [openResult, dir100Cfg] at this
  refine ⟨_, s, h, hf, fun hall => ?_⟩
  have := (C63_complete_iff (dir100_loose 3) hl h hf).1 hall [List.replicate 97 97] ⟨493, 0, 0, 0⟩ true .nil
    (Seen.step (Child.here (by decide) (by decide)) (Seen.self _)) (by simp)
  exact this (by decide)

/-- A run with status 0 of a tree without such a directory. -/
example : ∃ tr s, CreateRun demoCfg true 102400 [97] demoBase (demoBundles.map printBundle) none tr s ∧ s.boss = .exit 0 ∧
    LooseJob demoCfg.env demoCfg.fs demoBase demoTree demoSort2 (fun _ => 0) 102400 3 demoC demoBundles := by
  have j := demo_job'
  obtain ⟨_, _, more, s, h, hb⟩ := C19_runs_succeed j demo_launchable (by decide) rfl Run.nil
  exact ⟨_, s, h, hb.1, ⟨j.tree.toStorable, j.luck, j.blocks, j.scanned, j.planned, j.msgs⟩⟩

end Parfu.Props
