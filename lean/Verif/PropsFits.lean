/-
C13 and C19, exactly: which jobs of parfu 0.6 can end with success.
-/
import Verif.PropsSilent
import Verif.PropsOutcome
set_option autoImplicit false

namespace Parfu.Props
open Parfu MainSpec MoveSpec TarSpec ScanSpec PlanSpec ProtocolSpec

/-- A job of which neither the lengths of directories' paths nor sizes and positions are restricted. -/
structure LooseJob (env : Env) (fs : FS) (base : Bytes) (root : FNode) (S : StdSort Ref) (g : Bytes → UInt8)
    (b mx : Nat) (c : Coll) (bundles : List (List Order)) : Prop where
  tree : Storable env fs base root
  luck : ∀ r, g r = 0
  blocks : b % 512 = 0
  scanned : scan g base root = .ok c
  planned : createOrders 0 b mx (setOffsets (orderFiles S c)) = some bundles
  msgs : ∀ l ∈ bundles, (printBundle l).length + 2 < 2 ^ 31

/-- A job of which nothing is assumed about sizes and positions: neither that its bundles fit the
bucket nor that its numbers fit an `int`. -/
structure AnyJob (env : Env) (fs : FS) (base : Bytes) (root : FNode) (S : StdSort Ref) (g : Bytes → UInt8)
    (b mx : Nat) (c : Coll) (bundles : List (List Order)) : Prop where
  tree : Archivable env fs base root
  luck : ∀ r, g r = 0
  blocks : b % 512 = 0
  scanned : scan g base root = .ok c
  planned : createOrders 0 b mx (setOffsets (orderFiles S c)) = some bundles
  msgs : ∀ l ∈ bundles, (printBundle l).length + 2 < 2 ^ 31

theorem AnyJob.job {env : Env} {fs : FS} {base : Bytes} {root : FNode} {S : StdSort Ref} {g : Bytes → UInt8} {b mx : Nat}
    {c : Coll} {bundles : List (List Order)} (j : AnyJob env fs base root S g b mx c bundles)
    (h1 : ∀ l ∈ bundles, up512 (endOf l) - startOf l ≤ b) (h2 : ∀ o ∈ bundles.flatten, FitsInt o) :
    Job env fs base root S g b mx c bundles :=
  ⟨j.tree, j.luck, j.blocks, j.scanned, j.planned, h1, h2, j.msgs⟩

theorem AnyJob.loose {env : Env} {fs : FS} {base : Bytes} {root : FNode} {S : StdSort Ref} {g : Bytes → UInt8} {b mx : Nat}
    {c : Coll} {bundles : List (List Order)} (j : AnyJob env fs base root S g b mx c bundles) :
    LooseJob env fs base root S g b mx c bundles :=
  ⟨j.tree.toStorable, j.luck, j.blocks, j.scanned, j.planned, j.msgs⟩

/-- The plan of such a job: the scan can be planned, names can be sent, bundles are not empty, one order
follows the other. -/
theorem LooseJob.setup {env : Env} {fs : FS} {base : Bytes} {root : FNode} {S : StdSort Ref} {g : Bytes → UInt8} {b mx : Nat}
    {c : Coll} {bundles : List (List Order)} (j : LooseJob env fs base root S g b mx c bundles) :
    CollOk b (orderFiles S c) ∧
    100000 ≤ b ∧ (∀ o ∈ bundles.flatten, NoTab o ∧ NoNul o) ∧ (∀ l ∈ bundles, l ≠ []) ∧
    ChainTo 0 bundles.flatten (endPos 0 (setOffsets (orderFiles S c)).all) := by
  have ha := j.tree
  obtain ⟨c', h', hex, _, _, _⟩ := C07_scan_exact g base root ha.isDir ha.treeOk j.luck
  rw [j.scanned] at h'
  have := Except.ok.inj h'
  subst this
  have hb5 : 100000 ≤ b := by
    apply Classical.byContradiction
    intro hlt
    have := j.planned
    rw [(C16_refused_iff 0 b mx (orderFiles S c)).2 (Or.inl (by omega))] at this
    cases this
  have hrelp : ∀ p n e, describe p n = some e → e.rel = pathText p := by
    intro p n e hd
    cases n <;> simp [describe] at hd <;> subst hd <;> rfl
  have hok := (scan_collOk S g base root ha.isDir ha.treeOk j.luck (by
    intro p n e hs hd
    refine ⟨by rw [hrelp p n e hd]; exact ha.paths p n hs, ?_⟩
    cases n with
    | lnk m t => simp [describe] at hd; subst hd; have := (ha.links p m t hs).1; simp only; omega
    | reg m t => simp [describe] at hd; subst hd; simp
    | dir m o k => simp [describe] at hd; subst hd; simp
    | other m => simp [describe] at hd) b hb5 c j.scanned).2
  have hpm : ((orderFiles S c).dirs ++ (orderFiles S c).files).Perm (c.dirs ++ c.files) :=
    List.Perm.append_left _ (C09_order_files S c).2.1
  obtain ⟨hflat, hs, hhdr, hnd, hcont, _⟩ := plan_flat hok j.planned
  have hrefs : (setOffsets (orderFiles S c)).all.map Placed.ref =
      (orderFiles S c).dirs ++ (orderFiles S c).files := by
    rw [setOffsets_all, placeFrom_refs]
  have hchain := flatMap_chain 0 b j.blocks (setOffsets (orderFiles S c)).all 0 hs (fun p hp => (hhdr p hp).2)
    (by omega) hcont
  rw [← hflat] at hchain
  refine ⟨hok, hb5, ?_, fun l hl => (C14_limit 0 b mx (orderFiles S c) bundles j.blocks hok j.planned l hl).1, hchain⟩
  intro o ho
  rw [hflat] at ho
  obtain ⟨q, hq, hf⟩ := List.mem_flatMap.1 ho
  have hsp := frags_spec 0 b q (hs q hq) (hhdr q hq).2 o hf
  have hqm : q.ref ∈ c.dirs ++ c.files := by
    apply hpm.mem_iff.1
    rw [← hrefs]; exact List.mem_map.2 ⟨q, hq, rfl⟩
  obtain ⟨p, n, hseen, hd⟩ := (hex q.ref.ent).1 (List.mem_map.2 ⟨q.ref, hqm, rfl⟩)
  have hr := hrelp _ _ _ hd
  have hn : ((0:UInt8) ∉ q.ref.ent.target ∧ (9:UInt8) ∉ q.ref.ent.target) ∧
      (9:UInt8) ∉ q.ref.ent.rel ∧ (0:UInt8) ∉ q.ref.ent.rel := by
    refine ⟨?_, by rw [hr]; exact ha.noTab _ _ hseen, by rw [hr]; exact pathText_chars (at_nameOk (seen_at hseen) ha.treeOk)⟩
    cases n with
    | lnk mm t => simp [describe] at hd; rw [← hd]; exact (ha.links _ mm t hseen).2
    | reg mm t => simp [describe] at hd; rw [← hd]; simp
    | dir mm o k => simp [describe] at hd; rw [← hd]; simp
    | other mm => simp [describe] at hd
  refine ⟨⟨by rw [hsp.2.1]; exact hn.2.1, by rw [hsp.2.2.2.1]; exact hn.1.2, ?_, ?_⟩,
    by rw [hsp.2.1]; exact hn.2.2, by rw [hsp.2.2.2.1]; exact hn.1.1⟩ <;> rw [hsp.1] <;> omega

/-- The bundles of a job: names can be sent, bundles are not empty, one order follows the other. -/
theorem AnyJob.setup {env : Env} {fs : FS} {base : Bytes} {root : FNode} {S : StdSort Ref} {g : Bytes → UInt8} {b mx : Nat}
    {c : Coll} {bundles : List (List Order)} (j : AnyJob env fs base root S g b mx c bundles) :
    100000 ≤ b ∧ (∀ o ∈ bundles.flatten, NoTab o ∧ NoNul o) ∧ (∀ l ∈ bundles, l ≠ []) ∧
    ∃ E, ChainTo 0 bundles.flatten E := by
  obtain ⟨_, h1, h2, h3, h4⟩ := j.loose.setup
  exact ⟨h1, h2, h3, _, h4⟩

theorem looseJob_launch {cfg : Cfg} {base : Bytes} {root : FNode} {S : StdSort Ref} {g : Bytes → UInt8} {b mx : Nat}
    {c : Coll} {bundles : List (List Order)} {archive : Bytes}
    (j : LooseJob cfg.env cfg.fs base root S g b mx c bundles) (hl : Launchable cfg b archive) :
    Launch cfg b archive base (bundles.map printBundle) where
  ranks := hl.ranks
  ranksInt := hl.ranksInt
  bucket := by have := j.setup.2.1; omega
  bucketInt := hl.bucketInt
  archiveText := hl.archiveText
  baseText := j.tree.base_nul
  orderText := by
    intro t ht
    obtain ⟨l, hl, rfl⟩ := List.mem_map.1 ht
    exact print_no_nul l (fun o ho => (j.setup.2.2.1 o (List.mem_flatten.2 ⟨l, hl, ho⟩)).2)

theorem anyJob_launch {cfg : Cfg} {base : Bytes} {root : FNode} {S : StdSort Ref} {g : Bytes → UInt8} {b mx : Nat}
    {c : Coll} {bundles : List (List Order)} {archive : Bytes}
    (j : AnyJob cfg.env cfg.fs base root S g b mx c bundles) (hl : Launchable cfg b archive) :
    Launch cfg b archive base (bundles.map printBundle) := looseJob_launch j.loose hl

/-! ### the staging buffer -/

/-- A worker that carries out its orders has not used more than its staging buffer. -/
theorem moveData_fits {env : Env} {fs : FS} {base memory : Bytes} {ws : List WOrder} {q : WriteReq} {first last : WOrder}
    (h0 : ws.head? = some first) (h1 : ws.getLast? = some last)
    (h : moveData env fs base memory ws = .ok q) : nextBlock (totalLen first last) ≤ memory.length := by
  unfold moveData at h
  rw [h0, h1] at h
  simp only at h
  cases h2 : moveLoop env fs base first.pos ws memory with
  | error e => rw [h2] at h; cases h
  | ok buf =>
    rw [h2] at h
    simp only at h
    have hb := moveLoop_length ws memory buf h2
    cases h3 : (if nextBlock (totalLen first last) - totalLen first last ≠ 0 then
        blit buf (totalLen first last) (zeros (nextBlock (totalLen first last) - totalLen first last)) else .ok buf) with
    | error e => rw [h3] at h; cases h
    | ok buf' =>
      rw [h3] at h
      simp only at h
      have hb' : buf'.length = buf.length := by
        split at h3
        · exact blit_length h3
        · cases h3; rfl
      by_cases h4 : nextBlock (totalLen first last) ≤ buf'.length
      · omega
      · rw [if_neg h4] at h; cases h

/-- The header of an object, without any assumption on the size of a file: it is made, and it has the
planned length. -/
theorem object_made {env : Env} {fs : FS} {base : Bytes} {root : FNode}
    (ha : Archivable env fs base root) {p : List Bytes} {n : FNode} {ent : Ent} (hs : Seen root p n)
    (hd : describe p n = some ent) :
    ∃ e H, tarentryCtor fs.lstat (fullName base ent.rel) 0 = .ok e ∧ makeTarHeader env e = .ok H ∧
      headerSize base ent = .ok H.length ∧ (contentOf n).length = ent.size ∧
      (ent.size ≠ 0 → fs.read (fullName base ent.rel) = some (contentOf n)) := by
  by_cases hsz : ent.size < 2 ^ 33 - 1
  · obtain ⟨e, H, m, h1, h2, h3, h4, _, h5, _⟩ := object_header ha hs hd hsz
    refine ⟨e, H, h2, h3, h4, h5, fun h0 => ?_⟩
    unfold FS.read
    rw [h1, ha.fs p n hs]
    cases n with
    | reg m c => rfl
    | lnk m t => simp [contentOf] at h5; omega
    | dir m o' k => simp [contentOf] at h5; omega
    | other m => simp [contentOf] at h5; omega
  · cases n with
    | lnk m t => simp [describe] at hd; subst hd; simp at hsz
    | dir m o k => simp [describe] at hd; subst hd; simp at hsz
    | other m => simp [describe] at hd
    | reg m c =>
      simp only [describe, Option.some.injEq] at hd
      have hrel : ent.rel = pathText p := by rw [← hd]
      have hsize : ent.size = c.length := by rw [← hd]
      have htgt : ent.target = [] := by rw [← hd]
      have hfull : fullName base ent.rel = base ++ [47] ++ pathText p := by
        unfold fullName
        have := List.length_pos_iff.2 ha.base_ne
        rw [if_pos (by omega), hrel]
      have hfs : fs.lstat (base ++ [47] ++ pathText p) = some (lstatNode (.reg m c)) := by
        unfold FS.lstat; rw [ha.fs p _ hs]; rfl
      obtain ⟨_, _, _, _, ⟨u, hun, _⟩, ⟨g, hgn, _⟩⟩ := ha.owners p _ hs (by simp [describe])
      let e : TarEntry := { offset := 0, stat := ⟨.reg, m.perm, m.uid, m.gid, (c.length : Int), m.mtime⟩,
                            filename := base ++ [47] ++ pathText p, linkname := [] }
      have he : tarentryCtor fs.lstat (base ++ [47] ++ pathText p) 0 = .ok e := by
        unfold tarentryCtor; rw [hfs]; simp [lstatNode, e]
      obtain ⟨H, hH⟩ := C01_header_made env e u g (by simp [e]) hun hgn
      refine ⟨e, H, by rw [hfull]; exact he, hH, ?_, by simp [contentOf, hsize], ?_⟩
      · have := C05_planned_size_partial env fs.lstat _ _ _ 0 e H hfs (Or.inl rfl) (by simp [lstatNode]) he hH
        unfold headerSize absolutePath
        rw [htgt, hsize, hrel]
        simpa [lstatNode] using this
      · intro _
        unfold FS.read
        rw [hfull, ha.fs p _ hs]; rfl

/-- Every order of such a job that can be sent can be loaded. -/
theorem AnyJob.loads {env : Env} {fs : FS} {base : Bytes} {root : FNode} {S : StdSort Ref} {g : Bytes → UInt8} {b mx : Nat}
    {c : Coll} {bundles : List (List Order)} (j : AnyJob env fs base root S g b mx c bundles) :
    ∀ o ∈ bundles.flatten, FitsInt o →
      Loads env fs base (asReceived o) (loadOf env fs base (asReceived o)) := by
  have ha := j.tree
  obtain ⟨c', h', hex, _, _, _⟩ := C07_scan_exact g base root ha.isDir ha.treeOk j.luck
  rw [j.scanned] at h'
  have := Except.ok.inj h'
  subst this
  have hb5 := j.setup.1
  have hrelp : ∀ p n e, describe p n = some e → e.rel = pathText p := by
    intro p n e hd
    cases n <;> simp [describe] at hd <;> subst hd <;> rfl
  have hok := (scan_collOk S g base root ha.isDir ha.treeOk j.luck (by
    intro p n e hs hd
    refine ⟨by rw [hrelp p n e hd]; exact ha.paths p n hs, ?_⟩
    cases n with
    | lnk m t => simp [describe] at hd; subst hd; have := (ha.links p m t hs).1; simp only; omega
    | reg m t => simp [describe] at hd; subst hd; simp
    | dir m o k => simp [describe] at hd; subst hd; simp
    | other m => simp [describe] at hd) b hb5 c j.scanned).2
  have hpm : ((orderFiles S c).dirs ++ (orderFiles S c).files).Perm (c.dirs ++ c.files) :=
    List.Perm.append_left _ (C09_order_files S c).2.1
  obtain ⟨hflat, hs, hhdr, _, _, _⟩ := plan_flat hok j.planned
  have hrefs : (setOffsets (orderFiles S c)).all.map Placed.ref =
      (orderFiles S c).dirs ++ (orderFiles S c).files := by
    rw [setOffsets_all, placeFrom_refs]
  have hm : ∀ r ∈ c.dirs ++ c.files, mkRef base r.ent = .ok r := by
    have := j.scanned
    unfold scan at this
    split at this
    · cases this
    · exact (collect_spec this).2.2
  intro o ho hfo
  unfold FitsInt at hfo
  rw [hflat] at ho
  obtain ⟨q, hq, hf⟩ := List.mem_flatMap.1 ho
  obtain ⟨s1, s2, s3, s4, s5, s6, s7, s8⟩ := frags_spec 0 b q (hs q hq) (hhdr q hq).2 o hf
  have hqm : q.ref ∈ c.dirs ++ c.files := by
    apply hpm.mem_iff.1
    rw [← hrefs]; exact List.mem_map.2 ⟨q, hq, rfl⟩
  obtain ⟨p, n, hseen, hd⟩ := (hex q.ref.ent).1 (List.mem_map.2 ⟨q.ref, hqm, rfl⟩)
  obtain ⟨e, H, k1, k2, k3, k4, k5⟩ := object_made ha hseen hd
  have hhl : H.length = q.ref.hdr := by
    have := hm _ hqm
    unfold mkRef at this
    simp only [bind, Except.bind, k3] at this
    exact congrArg Ref.hdr (Except.ok.inj this)
  have hread : (match fs.read (fullName base o.rel) with
      | some c => (c.drop o.off).take o.size
      | none => []) = ((contentOf n).drop o.off).take o.size := by
    by_cases h0 : q.ref.ent.size = 0
    · have hz : o.size = 0 := by omega
      rw [hz]
      cases fs.read (fullName base o.rel) <;> simp
    · rw [s2, k5 h0]
  have hload : loadOf env fs base (asReceived o) =
      (if o.hdr ≠ 0 then H else []) ++ ((contentOf n).drop o.off).take o.size := by
    unfold loadOf
    simp only [asReceived, s2, k1, k2]
    rw [s2] at hread
    exact congrArg _ hread
  rw [hload]
  have hlh : (if o.hdr ≠ 0 then H else []).length = o.hdr := by
    split
    · rw [hhl]; omega
    · simp; omega
  constructor
  · simp only [asReceived, List.length_append, hlh, List.length_take, List.length_drop]; omega
  · intro h0
    simp only [asReceived] at h0 ⊢
    refine ⟨e, by rw [s2]; exact k1, ?_⟩
    rw [List.take_append_of_le_length (by omega), List.take_of_length_le (by omega), if_pos h0]
    exact k2
  · intro h0
    simp only [asReceived] at h0 ⊢
    refine ⟨contentOf n, by rw [s2]; exact k5 (by omega), ?_⟩
    rw [List.drop_append_of_le_length (by omega), List.drop_of_length_le (by omega), List.nil_append]
  · exact hfo.1

theorem moveOne_error {env : Env} {fs : FS} {base : Bytes} {w : WOrder} {s : Bytes} (h : Loads env fs base w s)
    {start : Nat} {buf : Bytes} {e : Err} (he : moveOne env fs base start buf w = .error e) : e = .ub := by
  have hblit : ∀ {b : Bytes} {o : Nat} {d : Bytes} {e : Err}, blit b o d = .error e → e = .ub := by
    intro b o d e h
    unfold blit at h
    split at h
    · cases h
    · cases h; rfl
  unfold moveOne at he
  cases h1 : (if w.hdr ≠ 0 then makeHeaderAt env fs (fullName base w.rel) buf (usub64 w.pos start) else .ok buf) with
  | error e' =>
    rw [h1] at he
    cases he
    split at h1
    · rename_i h0
      obtain ⟨t, ht, hm⟩ := h.hdr h0
      unfold makeHeaderAt at h1
      simp only [ht, hm, bind, Except.bind] at h1
      exact hblit h1
    · cases h1
  | ok buf1 =>
    rw [h1] at he
    simp only at he
    split at he
    · unfold readInto at he
      split at he
      · cases he; rfl
      · split at he
        · cases he; rfl
        · exact hblit he
    · cases he

theorem moveLoop_error {env : Env} {fs : FS} {base : Bytes} {start : Nat} : ∀ (ws : List WOrder) (buf : Bytes) (e : Err),
    (∀ w ∈ ws, ∃ s, Loads env fs base w s) → moveLoop env fs base start ws buf = .error e → e = .ub := by
  intro ws
  induction ws with
  | nil => intro buf e _ h; unfold moveLoop at h; cases h
  | cons w ws ih =>
    intro buf e hl h
    unfold moveLoop at h
    obtain ⟨s, hs⟩ := hl w (by simp)
    cases h1 : moveOne env fs base start buf w with
    | error e' => rw [h1] at h; cases h; exact moveOne_error hs h1
    | ok b1 => rw [h1] at h; exact ih b1 e (fun v hv => hl v (by simp [hv])) h

theorem moveData_error {env : Env} {fs : FS} {base memory : Bytes} {ws : List WOrder} {e : Err}
    (hl : ∀ w ∈ ws, ∃ s, Loads env fs base w s) (h : moveData env fs base memory ws = .error e) : e = .ub := by
  unfold moveData at h
  split at h
  · rename_i first last _ _
    cases h2 : moveLoop env fs base first.pos ws memory with
    | error e' => rw [h2] at h; cases h; exact moveLoop_error ws memory _ hl h2
    | ok buf =>
      rw [h2] at h
      simp only at h
      cases h3 : (if nextBlock (totalLen first last) - totalLen first last ≠ 0 then
          blit buf (totalLen first last) (zeros (nextBlock (totalLen first last) - totalLen first last)) else .ok buf) with
      | error e' =>
        rw [h3] at h
        cases h
        split at h3
        · unfold blit at h3
          split at h3
          · cases h3
          · cases h3; rfl
        · cases h3
      | ok buf' =>
        rw [h3] at h
        simp only at h
        split at h
        · cases h
        · cases h; rfl
  · cases h; rfl

section
variable {cfg : Cfg} {base : Bytes} {root : FNode} {S : StdSort Ref} {g : Bytes → UInt8} {b mx : Nat}
    {c : Coll} {bundles : List (List Order)} {archive : Bytes} {tr : List Ev} {s : Sys}

/-- **C13, exactly** What a worker does with a bundle of a job, whatever its memory holds: if some number
in the bundle is no `int` the worker throws; otherwise, if the bundle spans more than a bucket the behaviour is
undefined; otherwise the whole blocks of the bundle are written to their place, each order's header and data in it. -/
theorem C13_worker_outcome (j : AnyJob cfg.env cfg.fs base root S g b mx c bundles) (l : List Order) (hl : l ∈ bundles)
    (memory : Bytes) (hm : memory.length = b) :
    ((∃ o ∈ l, ¬ FitsInt o) → workerDo cfg.env cfg.fs base memory (printBundle l) = .error .thrown) ∧
    ((∀ o ∈ l, FitsInt o) → b < up512 (endOf l) - startOf l →
      workerDo cfg.env cfg.fs base memory (printBundle l) = .error .ub) ∧
    ((∀ o ∈ l, FitsInt o) → up512 (endOf l) - startOf l ≤ b →
      ∃ data, workerDo cfg.env cfg.fs base memory (printBundle l) = .ok (startOf l, data) ∧
        startOf l + data.length = up512 (endOf l) ∧
        ∀ o ∈ l, Holds data (o.pos - startOf l) (loadOf cfg.env cfg.fs base (asReceived o))) := by
  obtain ⟨hb5, hn, hne, E, hch⟩ := j.setup
  have hsub : ∀ o ∈ l, o ∈ bundles.flatten := fun o ho => List.mem_flatten.2 ⟨l, hl, ho⟩
  have hmsg := j.msgs l hl
  have hpar := C17_accepts_iff l (fun o ho => (hn o (hsub o ho)).1) (by omega)
  obtain ⟨k1, _, _⟩ := chainTo_bundles bundles 0 E hne (by omega) hch
  obtain ⟨hchl, hmod, _⟩ := k1 l hl
  obtain ⟨first, hfirst⟩ : ∃ o, l.head? = some o := by
    cases l with
    | nil => exact absurd rfl (hne [] hl)
    | cons o os => exact ⟨o, rfl⟩
  obtain ⟨last, hlast⟩ : ∃ o, l.getLast? = some o := by
    cases hg : l.getLast? with
    | none => exact absurd (List.getLast?_eq_none_iff.1 hg) (hne l hl)
    | some o => exact ⟨o, rfl⟩
  have hstart := startOf_head hfirst
  have hend := endOf_getLast hlast
  have hlm := List.mem_of_getLast? hlast
  have hpw := chainTo_pairwise hchl
  have hsl := hpw.2 last hlm
  have hb0 : (l.map asReceived).head? = some (asReceived first) := by rw [List.head?_map, hfirst]; rfl
  have hb1 : (l.map asReceived).getLast? = some (asReceived last) := by rw [List.getLast?_map, hlast]; rfl
  have hz : orderNFilename (l.map asReceived) 0 = .ok (asReceived first).rel := by
    unfold orderNFilename
    rw [if_neg (by omega), ← List.head?_eq_getElem?, hb0]
  have hup : up512 (endOf l) = startOf l + up512 (endOf l - startOf l) := by
    rw [← up512_add hmod]; congr 1; omega
  refine ⟨?_, ?_, ?_⟩
  · rintro ⟨o, ho, hbad⟩
    rw [if_neg (fun h => hbad (h o ho))] at hpar
    unfold workerDo
    rw [hpar]; rfl
  · intro hf hbig
    rw [if_pos hf] at hpar
    have hlf := hf last hlm
    unfold FitsInt at hlf
    have htot : totalLen (asReceived first) (asReceived last) = endOf l - startOf l := by
      unfold totalLen
      show usub64 ((last.pos + last.hdr + last.size) % 2 ^ 64) first.pos = _
      rw [Nat.mod_eq_of_lt (by omega), usub64_of_le (by rw [← hstart]; omega), hend, hstart]
    unfold workerDo
    rw [hpar]
    simp only [bind, Except.bind, totalSize, hb0, hb1, hz]
    cases hw : moveData cfg.env cfg.fs base memory (l.map asReceived) with
    | error e =>
      rw [moveData_error ?_ hw]
      intro w hw
      obtain ⟨o, ho, rfl⟩ := List.mem_map.1 hw
      exact ⟨_, j.loads o (hsub o ho) (hf o ho)⟩
    | ok q =>
      exfalso
      have := moveData_fits hb0 hb1 hw
      rw [htot, hm, nextBlock_eq] at this
      omega
  · intro hf hfit
    rw [if_pos hf] at hpar
    have hlf := hf last hlm
    unfold FitsInt at hlf
    have hcalc : (asReceived last).pos + (asReceived last).hdr + (asReceived last).size -
        (asReceived first).pos = endOf l - startOf l := by
      rw [hend, hstart]; rfl
    obtain ⟨data, e1, e2, e3, _, _⟩ := moveData_loads (env := cfg.env) (fs := cfg.fs) (base := base)
      (loadOf cfg.env cfg.fs base) (l.map asReceived) memory (asReceived first) (asReceived last) hb0 hb1
      (by intro w hw; obtain ⟨o, ho, rfl⟩ := List.mem_map.1 hw; exact j.loads o (hsub o ho) (hf o ho))
      (by rw [List.pairwise_map]; exact hpw.1.imp (fun hab => hab))
      (by simp only [asReceived]; omega) (by rw [hcalc, hm]; omega)
    have hfp : (asReceived first).pos = startOf l := hstart.symm
    rw [hcalc] at e2
    rw [hfp] at e1 e3
    refine ⟨data, ?_, by omega, ?_⟩
    · unfold workerDo
      rw [hpar]
      simp only [bind, Except.bind, totalSize, hb0, hb1, hz]
      exact e1
    · intro o ho
      exact e3 (asReceived o) (List.mem_map.2 ⟨o, ho, rfl⟩)

/-- **C13 and C19, exactly** A job on at least two processes with an archive that can be created: every
run can come to an end with success if all bundles fit the bucket and all numbers are below 2^31; and if not,
no run ever ends with success. -/
theorem C13_success_iff (j : AnyJob cfg.env cfg.fs base root S g b mx c bundles) (hl : Launchable cfg b archive)
    (h2 : 2 ≤ cfg.ranks) (hc : cfg.creatable = true) :
    (∃ tr s, CreateRun cfg true b archive base (bundles.map printBundle) none tr s ∧ s.boss = .exit 0) ↔
      (∀ l ∈ bundles, up512 (endOf l) - startOf l ≤ b) ∧ (∀ o ∈ bundles.flatten, FitsInt o) := by
  constructor
  · rintro ⟨tr, s, h, hb⟩
    obtain ⟨W, hperm, hw, _⟩ := run_worked (anyJob_launch j hl) h hb
    have key : ∀ l ∈ bundles, (∀ o ∈ l, FitsInt o) ∧ up512 (endOf l) - startOf l ≤ b := by
      intro l hlb
      have hm : printBundle l ∈ W.map Prod.fst := hperm.mem_iff.2 (List.mem_map.2 ⟨l, hlb, rfl⟩)
      obtain ⟨x, hx, he⟩ := List.mem_map.1 hm
      obtain ⟨h3, h4⟩ := hw x hx
      rw [he] at h4
      obtain ⟨k1, k2, _⟩ := C13_worker_outcome j l hlb x.2.1 h3
      have hf : ∀ o ∈ l, FitsInt o := by
        intro o ho
        apply Classical.byContradiction
        intro hbad
        rw [k1 ⟨o, ho, hbad⟩] at h4; cases h4
      refine ⟨hf, ?_⟩
      apply Classical.byContradiction
      intro hbig
      rw [k2 hf (by omega)] at h4; cases h4
    refine ⟨fun l hlb => (key l hlb).2, ?_⟩
    intro o ho
    obtain ⟨l, hlb, hol⟩ := List.mem_flatten.1 ho
    exact (key l hlb).1 o hol
  · rintro ⟨h3, h4⟩
    obtain ⟨_, _, more, s, h5, h6⟩ := C19_runs_succeed (j.job h3 h4) hl h2 hc Run.nil
    exact ⟨_, s, h5, h6.1⟩

/-- **C13, violation carried through** If some bundle spans more than a bucket, then no run of the
program on any number of processes, whatever the schedule, ends with status 0. -/
theorem C13_overflow_never_succeeds (j : AnyJob cfg.env cfg.fs base root S g b mx c bundles) (hl : Launchable cfg b archive)
    {eager : Bool} {file0 : Option Bytes} (h : CreateRun cfg eager b archive base (bundles.map printBundle) file0 tr s)
    (l : List Order) (hlb : l ∈ bundles) (hbig : b < up512 (endOf l) - startOf l) : s.boss ≠ .exit 0 := by
  intro hb
  obtain ⟨W, hperm, hw, _⟩ := run_worked (anyJob_launch j hl) h hb
  have hm : printBundle l ∈ W.map Prod.fst := hperm.mem_iff.2 (List.mem_map.2 ⟨l, hlb, rfl⟩)
  obtain ⟨x, hx, he⟩ := List.mem_map.1 hm
  obtain ⟨h3, h4⟩ := hw x hx
  rw [he] at h4
  obtain ⟨k1, k2, _⟩ := C13_worker_outcome j l hlb x.2.1 h3
  by_cases hf : ∀ o ∈ l, FitsInt o
  · rw [k2 hf hbig] at h4; cases h4
  · have : ∃ o ∈ l, ¬ FitsInt o := by
      apply Classical.byContradiction
      intro hx
      exact hf fun o ho => Classical.byContradiction fun hbad => hx ⟨o, ho, hbad⟩
    rw [k1 this] at h4; cases h4

/-- **C13, violation carried through** ... and when such a run cannot go on, some worker has failed
(and the other processes wait for it for ever). -/
theorem C13_overflow_kills (j : AnyJob cfg.env cfg.fs base root S g b mx c bundles) (hl : Launchable cfg b archive)
    (h2 : 2 ≤ cfg.ranks) (hc : cfg.creatable = true)
    {eager : Bool} (h : CreateRun cfg eager b archive base (bundles.map printBundle) none tr s)
    (l : List Order) (hlb : l ∈ bundles) (hbig : b < up512 (endOf l) - startOf l) (hs : Stuck cfg s) :
    ∃ r, cfg.worker r ∧ ∃ e, (s.w r).stat = .dead e := by
  apply Classical.byContradiction
  intro hx
  have hL := anyJob_launch j hl
  rcases C25_only_failure_stops hL h2 h (fun r hr e hd => hx ⟨r, hr, e, hd⟩) with hf | hf | ⟨e, s', hst⟩
  · exact C13_overflow_never_succeeds j hl h l hlb hbig hf.1
  · have := (C25_outcome hL h).2 hf.1
    simp [openResult, hc] at this
  · exact hs e s' hst.eager

end

/-! ### a directory tree for which it happens -/

def ovA : Bytes := List.replicate 255 97
def ovB : Bytes := List.replicate 255 98

/-- `/t` with a file `f` of 101375 bytes two directories down (a path of 516 bytes), an empty directory,
an empty file, and a file of 101376 bytes. -/
def ovTree (d1 d2 : Bytes) : FNode :=
  .dir ⟨493, 0, 0, 0⟩ true (.cons ovA (.dir ⟨493, 0, 0, 0⟩ true
      (.cons ovB (.dir ⟨493, 0, 0, 0⟩ true (.cons [102] (.reg ⟨420, 0, 0, 0⟩ d1) .nil)) .nil))
    (.cons [99] (.dir ⟨493, 0, 0, 0⟩ true .nil)
    (.cons [121] (.reg ⟨420, 0, 0, 0⟩ d2) (.cons [122] (.reg ⟨420, 0, 0, 0⟩ []) .nil))))

def ovFs (d1 d2 : Bytes) : FS := fun path =>
  if path = [47, 116, 47] then some (ovTree d1 d2)
  else if path = [47, 116, 47] ++ ovA then some (.dir ⟨493, 0, 0, 0⟩ true
      (.cons ovB (.dir ⟨493, 0, 0, 0⟩ true (.cons [102] (.reg ⟨420, 0, 0, 0⟩ d1) .nil)) .nil))
  else if path = [47, 116, 47] ++ ovA ++ [47] ++ ovB then some (.dir ⟨493, 0, 0, 0⟩ true (.cons [102] (.reg ⟨420, 0, 0, 0⟩ d1) .nil))
  else if path = [47, 116, 47] ++ ovA ++ [47] ++ ovB ++ [47, 102] then some (.reg ⟨420, 0, 0, 0⟩ d1)
  else if path = [47, 116, 47, 99] then some (.dir ⟨493, 0, 0, 0⟩ true .nil)
  else if path = [47, 116, 47, 121] then some (.reg ⟨420, 0, 0, 0⟩ d2)
  else if path = [47, 116, 47, 122] then some (.reg ⟨420, 0, 0, 0⟩ []) else none

/-- What is found. -/
def ovColl : Coll :=
  { dirs := [⟨-12, ⟨[], .dir, [], 0⟩, 512⟩, ⟨-12, ⟨ovA, .dir, [], 0⟩, 1536⟩, ⟨-12, ⟨[99], .dir, [], 0⟩, 512⟩,
      ⟨-12, ⟨ovA ++ [47] ++ ovB, .dir, [], 0⟩, 2048⟩],
    files := [⟨101376, ⟨[121], .reg, [], 101376⟩, 512⟩, ⟨0, ⟨[122], .reg, [], 0⟩, 512⟩,
      ⟨101375, ⟨ovA ++ [47] ++ ovB ++ [47, 102], .reg, [], 101375⟩, 2048⟩] }

def ovSorted : Coll :=
  { ovColl with files := [⟨0, ⟨[122], .reg, [], 0⟩, 512⟩,
      ⟨101375, ⟨ovA ++ [47] ++ ovB ++ [47, 102], .reg, [], 101375⟩, 2048⟩, ⟨101376, ⟨[121], .reg, [], 101376⟩, 512⟩] }

def ovBundles : List (List Order) := (createOrders 0 102400 2 (setOffsets ovSorted)).getD []

theorem ov_planned : createOrders 0 102400 2 (setOffsets ovSorted) = some ovBundles := by decide +kernel

/-- The last bundle spans a bucket and a block. -/
theorem ov_overflow : ∃ l ∈ ovBundles, up512 (endOf l) - startOf l = 102912 := by decide +kernel

set_option maxRecDepth 20000 in
theorem ov_scanned {d1 d2 : Bytes} (h1 : d1.length = 101375) (h2 : d2.length = 101376) :
    scan (fun _ => 0) demoBase (ovTree d1 d2) = .ok ovColl := by
  have h : spiderDir (fun _ => 0) [] (ovTree d1 d2) =
      .ok (.mk ⟨[], .dir, [], 0⟩ [.mk ⟨ovA, .dir, [], 0⟩ [.mk ⟨ovA ++ [47] ++ ovB, .dir, [], 0⟩ []
        [⟨ovA ++ [47] ++ ovB ++ [47, 102], .reg, [], d1.length⟩]] [], .mk ⟨[99], .dir, [], 0⟩ [] []]
        [⟨[121], .reg, [], d2.length⟩, ⟨[122], .reg, [], 0⟩]) := by
    rfl
  unfold scan
  rw [h, h1, h2]
  decide +kernel

/-- Whatever `std::sort` is used, the files come in this order. -/
theorem ov_ordered (S : StdSort Ref) : orderFiles S ovColl = ovSorted := by
  have hsw : StrictWeak sortBySize := sortBySize_strictWeak
  have hp := S.perm sortBySize ovColl.files hsw
  have hs := S.sorted sortBySize ovColl.files hsw
  have hp2 : (S.run sortBySize ovColl.files).Perm ovSorted.files := hp.trans (by decide +kernel)
  have : S.run sortBySize ovColl.files = ovSorted.files := by
    refine hp2.eq_of_pairwise (le := fun a b => sortBySize b a = false) ?_ hs (by decide +kernel)
    intro a b ha hb h3 h4
    have ha' := hp2.mem_iff.1 ha
    revert h3 h4
    have key : ∀ a ∈ ovSorted.files, ∀ b ∈ ovSorted.files, sortBySize b a = false → sortBySize a b = false → a = b := by
      decide +kernel
    exact key a ha' b hb
  unfold orderFiles
  rw [this]
  rfl

theorem ov_seen {d1 d2 : Bytes} {p : List Bytes} {n : FNode} (h : Seen (ovTree d1 d2) p n) :
    (p = [] ∧ n = ovTree d1 d2) ∨
    (p = [ovA] ∧ n = .dir ⟨493, 0, 0, 0⟩ true
      (.cons ovB (.dir ⟨493, 0, 0, 0⟩ true (.cons [102] (.reg ⟨420, 0, 0, 0⟩ d1) .nil)) .nil)) ∨
    (p = [ovA, ovB] ∧ n = .dir ⟨493, 0, 0, 0⟩ true (.cons [102] (.reg ⟨420, 0, 0, 0⟩ d1) .nil)) ∨
    (p = [ovA, ovB, [102]] ∧ n = .reg ⟨420, 0, 0, 0⟩ d1) ∨
    (p = [[99]] ∧ n = .dir ⟨493, 0, 0, 0⟩ true .nil) ∨
    (p = [[121]] ∧ n = .reg ⟨420, 0, 0, 0⟩ d2) ∨ (p = [[122]] ∧ n = .reg ⟨420, 0, 0, 0⟩ []) := by
  unfold ovTree at h
  cases h with
  | self => exact Or.inl ⟨rfl, rfl⟩
  | step hc h' =>
    cases hc with
    | here _ _ =>
      cases h' with
      | self => exact Or.inr (Or.inl ⟨rfl, rfl⟩)
      | step hc h' =>
        cases hc with
        | there hc => cases hc
        | here _ _ =>
          cases h' with
          | self => exact Or.inr (Or.inr (Or.inl ⟨rfl, rfl⟩))
          | step hc h' =>
            cases hc with
            | there hc => cases hc
            | here _ _ => cases h'; exact Or.inr (Or.inr (Or.inr (Or.inl ⟨rfl, rfl⟩)))
    | there hc =>
      cases hc with
      | here _ _ =>
        cases h' with
        | self => exact Or.inr (Or.inr (Or.inr (Or.inr (Or.inl ⟨rfl, rfl⟩))))
        | step hc _ => cases hc
      | there hc =>
        cases hc with
        | here _ _ => cases h'; exact Or.inr (Or.inr (Or.inr (Or.inr (Or.inr (Or.inl ⟨rfl, rfl⟩)))))
        | there hc =>
          cases hc with
          | here _ _ => cases h'; exact Or.inr (Or.inr (Or.inr (Or.inr (Or.inr (Or.inr ⟨rfl, rfl⟩)))))
          | there hc => cases hc

theorem ovA_name : NameOk ovA ∧ ovA ≠ [46] ∧ ovA ≠ [46, 46] := by
  unfold NameOk; decide +kernel

theorem ovB_name : NameOk ovB ∧ ovB ≠ [46] ∧ ovB ≠ [46, 46] := by
  unfold NameOk; decide +kernel

set_option maxRecDepth 20000 in
theorem ov_archivable (d1 d2 : Bytes) : Archivable demoEnv2 (ovFs d1 d2) demoBase (ovTree d1 d2) := by
  have hm : ∀ k, MetaOk demoEnv2 ⟨k, 0, 0, 0⟩ := fun k => ⟨by simp, by simp, by simp, by simp,
    ⟨[114], rfl, by decide, by decide⟩, ⟨[103], rfl, by decide, by decide⟩⟩
  refine ⟨⟨?_, ?_, ?_, ?_, ?_, ?_, ?_, ?_, ?_⟩, ?_⟩
  · trivial
  · have k1 := ovA_name
    have k2 := ovB_name
    have k3 : ovA ≠ [(99 : UInt8)] ∧ ovA ≠ [(121 : UInt8)] ∧ ovA ≠ [(122 : UInt8)] := by decide +kernel
    unfold NameOk at k1 k2
    simp [TreeOk, ovTree, KidsOk, NameOk, names, k1.2, k2.2, k3]
    exact ⟨k1.1, k2.1⟩
  · intro p n h
    rcases ov_seen h with ⟨rfl, rfl⟩ | ⟨rfl, rfl⟩ | ⟨rfl, rfl⟩ | ⟨rfl, rfl⟩ | ⟨rfl, rfl⟩ | ⟨rfl, rfl⟩ | ⟨rfl, rfl⟩ <;> rfl
  · decide
  · decide
  · intro p n h
    rcases ov_seen h with ⟨rfl, rfl⟩ | ⟨rfl, rfl⟩ | ⟨rfl, rfl⟩ | ⟨rfl, rfl⟩ | ⟨rfl, rfl⟩ | ⟨rfl, rfl⟩ | ⟨rfl, rfl⟩ <;> decide +kernel
  · intro p m t h
    rcases ov_seen h with ⟨_, h⟩ | ⟨_, h⟩ | ⟨_, h⟩ | ⟨_, h⟩ | ⟨_, h⟩ | ⟨_, h⟩ | ⟨_, h⟩ <;> cases h
  · intro p n h
    rcases ov_seen h with ⟨rfl, rfl⟩ | ⟨rfl, rfl⟩ | ⟨rfl, rfl⟩ | ⟨rfl, rfl⟩ | ⟨rfl, rfl⟩ | ⟨rfl, rfl⟩ | ⟨rfl, rfl⟩ <;> decide +kernel
  · intro p n h _
    rcases ov_seen h with ⟨rfl, rfl⟩ | ⟨rfl, rfl⟩ | ⟨rfl, rfl⟩ | ⟨rfl, rfl⟩ | ⟨rfl, rfl⟩ | ⟨rfl, rfl⟩ | ⟨rfl, rfl⟩ <;> exact hm _
  · intro p m o k h hp
    rcases ov_seen h with ⟨rfl, _⟩ | ⟨rfl, _⟩ | ⟨rfl, _⟩ | ⟨_, h⟩ | ⟨rfl, _⟩ | ⟨_, h⟩ | ⟨_, h⟩
    · exact absurd rfl hp
    · decide +kernel
    · decide +kernel
    · cases h
    · decide
    · cases h
    · cases h

theorem ov_job (S : StdSort Ref) {d1 d2 : Bytes} (h1 : d1.length = 101375) (h2 : d2.length = 101376) :
    AnyJob demoEnv2 (ovFs d1 d2) demoBase (ovTree d1 d2) S (fun _ => 0) 102400 2 ovColl ovBundles where
  tree := ov_archivable d1 d2
  luck := fun _ => rfl
  blocks := by decide
  scanned := ov_scanned h1 h2
  planned := by rw [ov_ordered]; exact ov_planned
  msgs := by decide +kernel

/-- **C13, violated** `parfu archivefile=a bucketsize=102400 maxorders=2 /t` for the tree above, whatever the
two files hold: on any number of processes and in every schedule no run ends with status 0, and when
nothing can happen any more some worker has failed: the program never ends in all processes. -/
theorem C13_tree_overflows (S : StdSort Ref) {d1 d2 : Bytes} (h1 : d1.length = 101375) (h2 : d2.length = 101376) (mx0 ranks : Nat)
    (h3 : 2 ≤ ranks) (h4 : ranks < 2 ^ 31) {eager : Bool} {tr : List Ev} {s : Sys}
    (h : MainRun S (fun _ => 0) (fun _ => ovTree d1 d2) mx0
      [archivefile ++ [61, 97], bucketsize ++ [61, 49, 48, 50, 52, 48, 48], maxorders ++ [61, 50], [47, 116]]
      ⟨ranks, demoEnv2, ovFs d1 d2, true⟩ eager none tr s) :
    s.boss ≠ .exit 0 ∧ (Stuck ⟨ranks, demoEnv2, ovFs d1 d2, true⟩ s → ¬ AllEnded ⟨ranks, demoEnv2, ovFs d1 d2, true⟩ s) := by
  have j := ov_job S h1 h2
  have hp : parseArgs [] (defaultOpts mx0)
      [archivefile ++ [61, 97], bucketsize ++ [61, 49, 48, 50, 52, 48, 48], maxorders ++ [61, 50], [47, 116]] =
      .ok (some ([[47, 116]], ⟨102400, 2, [97]⟩)) := by
    have k : ∀ o : Opts, parseArgs [] o
        [archivefile ++ [61, 97], bucketsize ++ [61, 49, 48, 50, 52, 48, 48], maxorders ++ [61, 50], [47, 116]] =
        .ok (some ([[47, 116]], ⟨102400, 2, [97]⟩)) := by
      intro o; cases o; rfl
    exact k _
  unfold MainRun at h
  rw [mainStart_job (S := S) (g := fun _ => 0) (look := fun _ => ovTree d1 d2) (c := ⟨ranks, demoEnv2, ovFs d1 d2, true⟩) (file0 := none)
    (by simp) hp (by decide) j.scanned j.planned] at h
  have hl : Launchable ⟨ranks, demoEnv2, ovFs d1 d2, true⟩ 102400 [97] := ⟨by simp only; omega, h4, by decide, by decide⟩
  obtain ⟨l, hlb, hbig⟩ := ov_overflow
  refine ⟨C13_overflow_never_succeeds (cfg := ⟨ranks, demoEnv2, ovFs d1 d2, true⟩) j hl h l hlb (by omega), ?_⟩
  intro hs hA
  obtain ⟨r, hr, e, hd⟩ := C13_overflow_kills (cfg := ⟨ranks, demoEnv2, ovFs d1 d2, true⟩) j hl h3 rfl h l hlb (by omega) hs
  obtain ⟨n, hn⟩ := hA.2 r hr
  rw [hd] at hn; cases hn

/-- The hypotheses of `C13_success_iff` and of the theorem above. -/
example : ∃ d1 d2 : Bytes, d1.length = 101375 ∧ d2.length = 101376 :=
  ⟨List.replicate 101375 1, List.replicate 101376 2, List.length_replicate, List.length_replicate⟩

end Parfu.Props
