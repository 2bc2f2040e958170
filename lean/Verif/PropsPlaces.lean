/-
Property theorems C85: objects that have not changed stay where they were (parfu 0.6).
-/
import Verif.PropsChange
import Verif.PropsExtract
set_option autoImplicit false

namespace Parfu.Props
open Parfu MoveSpec TarSpec ScanSpec PlanSpec ProtocolSpec

/-- An object that has not changed: the same inode data and the same contents or link target (of a directory: the same
inode data, whatever has become of what is in it). -/
def Unchanged : FNode → FNode → Prop
  | .reg m c, .reg m' c' => m = m' ∧ c = c'
  | .lnk m t, .lnk m' t' => m = m' ∧ t = t'
  | .dir m _ _, .dir m' _ _ => m = m'
  | .other m, .other m' => m = m'
  | _, _ => False

theorem Unchanged.same {n n' : FNode} (h : Unchanged n n') : lstatNode n = lstatNode n' ∧ contentOf n = contentOf n' := by
  cases n <;> cases n' <;> simp only [Unchanged] at h <;> simp_all [lstatNode, contentOf]

/-- Every byte of the archive is planned: it belongs to an order, or to the padding. -/
theorem byte_planned {env : Env} {fs : FS} {base : Bytes} {b E : Nat} {bundles : List (List Order)}
    (hr : Runnable env fs base b bundles E) {i : Nat} (hi : i < E) :
    (∃ l ∈ bundles, endOf l ≤ i ∧ i < up512 (endOf l)) ∨ InnerPadding bundles i ∨
      ∃ o ∈ bundles.flatten, o.pos ≤ i ∧ i < Order.stop o := by
  have hcov : ∀ (bs : List (List Order)) (w w' : Nat), (∀ l ∈ bs, l ≠ []) → ChainTo w bs.flatten w' →
      w ≤ i → i < w' → ∃ l ∈ bs, startOf l ≤ i ∧ i < up512 (endOf l) := by
    intro bs
    induction bs with
    | nil => intro w w' _ h; simp [ChainTo] at h; omega
    | cons x bs ih =>
      intro w w' hne hch h1 h2
      rw [List.flatten_cons, chainTo_append] at hch
      obtain ⟨k, c1, c2⟩ := hch
      have hx := hne x (by simp)
      have hst := chainTo_start c1 hx
      have hen := chainTo_end c1 hx
      by_cases hk : i < k
      · exact ⟨x, by simp, by omega, by omega⟩
      · obtain ⟨l, hl, h⟩ := ih k w' (fun l hl => hne l (by simp [hl])) c2 (by omega) h2
        exact ⟨l, by simp [hl], h⟩
  obtain ⟨l, hl, h1, h2⟩ := hcov bundles 0 _ hr.nonempty hr.chain (by omega) hi
  by_cases he : endOf l ≤ i
  · exact Or.inl ⟨l, hl, he, h2⟩
  · by_cases ho : ∃ o ∈ l, o.pos ≤ i ∧ i < Order.stop o
    · obtain ⟨o, ho, h⟩ := ho
      exact Or.inr (Or.inr ⟨o, List.mem_flatten.2 ⟨l, hl, ho⟩, h⟩)
    · refine Or.inr (Or.inl ⟨l, hl, h1, by omega, fun o hoo => ?_⟩)
      by_cases h3 : o.pos ≤ i
      · exact Or.inr (Nat.le_of_not_lt fun h4 => ho ⟨o, hoo, h3, h4⟩)
      · exact Or.inl (by omega)

theorem slot_bounds : ∀ (ps : List Placed) (w : Nat), w % 512 = 0 → Contiguous w ps →
    (∀ q ∈ ps, q.ref.hdr % 512 = 0) → ∀ q ∈ ps, q.slice.offArch % 512 = 0 ∧
      q.slice.offArch + q.ref.hdr + pad512 q.ref.ent.size ≤ endPos w ps := by
  intro ps
  induction ps with
  | nil => intro w _ _ _ q hq; simp at hq
  | cons x ps ih =>
    intro w hw hc hh q hq
    simp only [Contiguous] at hc
    have hle : ∀ (l : List Placed) (v : Nat), v ≤ endPos v l := by
      intro l
      induction l with
      | nil => intro v; simp [endPos]
      | cons q l ihl =>
        intro v; simp only [endPos]
        have := ihl (up512 (v + q.ref.hdr + q.ref.ent.size))
        have := le_up512 (v + q.ref.hdr + q.ref.ent.size)
        omega
    rcases List.mem_cons.1 hq with rfl | hq
    · have h1 := hh q (by simp)
      refine ⟨by rw [hc.1]; exact hw, ?_⟩
      simp only [endPos]
      have h2 := hle ps (up512 (w + q.ref.hdr + q.ref.ent.size))
      have h3 : up512 (w + q.ref.hdr + q.ref.ent.size) = w + q.ref.hdr + pad512 q.ref.ent.size := by
        unfold up512 pad512; omega
      rw [hc.1]; omega
    · exact ih _ (up512_mod _) hc.2 (fun y hy => hh y (by simp [hy])) q hq

/-- A successful run's archive, laid out: each object's header and contents are at its planned place, and reading
the archive from there gives its member. -/
theorem job_places {cfg : Cfg} {base : Bytes} {root : FNode} {S : StdSort Ref} {g : Bytes → UInt8}
    {b mx : Nat} {c : Coll} {bundles : List (List Order)} {archive : Bytes} {eager : Bool}
    {file0 : Option Bytes} {tr : List Ev} {s : Sys} (j : Job cfg.env cfg.fs base root S g b mx c bundles)
    (hl : Launchable cfg b archive)
    (h : CreateRun cfg eager b archive base (bundles.map printBundle) file0 tr s) (hb : s.boss = .exit 0) :
    ∃ (A : Bytes) (path : Placed → List Bytes) (node : Placed → FNode) (H : Placed → Bytes) (m : Placed → Member),
      s.file = some A ∧ A.length = endPos 0 (setOffsets (orderFiles S c)).all ∧
      readArchive A = some ((setOffsets (orderFiles S c)).all.map m) ∧
      (∀ l ∈ bundles, ∀ i, endOf l ≤ i → i < up512 (endOf l) → A[i]? = some 0) ∧
      ∀ q ∈ (setOffsets (orderFiles S c)).all, Entry cfg.env cfg.fs base root q (path q) (node q) (H q) (m q) ∧
        q.slice.offArch % 512 = 0 ∧ Holds A q.slice.offArch (H q ++ contentOf (node q)) ∧
        readMember (A.drop q.slice.offArch) = some (m q, A.drop (q.slice.offArch + q.ref.hdr + pad512 q.ref.ent.size)) := by
  obtain ⟨xs, h1, h2, h3⟩ := run_carried j hl h hb
  obtain ⟨hok, ⟨path, node, H, m, hE⟩, hr⟩ := j.setup
  obtain ⟨hlen, hA, hz, _⟩ := run_all hr xs h1 _ h2
  obtain ⟨hflat, hs, hhdr, hnd, hcont, _⟩ := plan_flat hok j.planned
  have hold : ∀ q ∈ (setOffsets (orderFiles S c)).all, Holds (writeAll (writes tr)) q.slice.offArch (H q ++ contentOf (node q)) :=
    fun q hq => archive_holds j.tree hok j.planned j.small _ (fun o ho _ => hA o ho) hq (hE q hq)
  have hread := readArchive_placed (env := cfg.env) (writeAll (writes tr)) m H (fun q => contentOf (node q))
    (setOffsets (orderFiles S c)).all 0 hcont hlen (by omega) (by
      intro q hq
      have he := hE q hq
      refine ⟨he.hlen, by rw [he.dlen], hold q hq, ?_, ?_⟩
      · obtain ⟨e, _, h⟩ := he.made; exact ⟨e, h⟩
      · intro padding rest hp
        rw [he.dlen] at hp
        exact he.reads padding rest hp)
  rw [List.drop_zero] at hread
  have hh512 : ∀ q ∈ (setOffsets (orderFiles S c)).all, q.ref.hdr % 512 = 0 := by
    intro q hq
    obtain ⟨e, _, h⟩ := (hE q hq).made
    have := C01_header_length cfg.env e (H q) h
    rw [(hE q hq).hlen] at this
    omega
  refine ⟨_, path, node, H, m, h3, hlen, hread, hz, fun q hq => ?_⟩
  have he := hE q hq
  have hbd := slot_bounds (setOffsets (orderFiles S c)).all 0 (by omega) hcont hh512 q hq
  refine ⟨he, hbd.1, hold q hq, ?_⟩
  have hh := hold q hq
  clear hread hold hA hz h3
  generalize writeAll (writes tr) = A at hh hlen ⊢
  unfold Holds at hh
  have e1 : A.drop q.slice.offArch = (H q ++ contentOf (node q)) ++
      (A.drop q.slice.offArch).drop (H q ++ contentOf (node q)).length := by
    exact ((congrArg (· ++ (A.drop q.slice.offArch).drop (H q ++ contentOf (node q)).length) hh.symm).trans
      (List.take_append_drop _ _)).symm
  have hle : q.ref.ent.size ≤ pad512 q.ref.ent.size := by unfold pad512; omega
  generalize hX : (A.drop q.slice.offArch).drop (H q ++ contentOf (node q)).length = X at e1
  have hXl : X.length = A.length - q.slice.offArch - ((H q).length + (contentOf (node q)).length) := by
    rw [← hX, List.length_drop, List.length_append, List.length_drop]
  have h4 := he.hlen
  have h5 := he.dlen
  have hrest : A.drop (q.slice.offArch + q.ref.hdr + pad512 q.ref.ent.size) = X.drop (pad512 q.ref.ent.size - q.ref.ent.size) := by
    rw [← hX, List.drop_drop, List.drop_drop, List.length_append]
    congr 1
    omega
  rw [hrest, e1, List.append_assoc]
  have := he.reads (X.take (pad512 q.ref.ent.size - q.ref.ent.size)) (X.drop (pad512 q.ref.ent.size - q.ref.ent.size))
    (by rw [List.length_take]; omega)
  rwa [List.take_append_drop] at this

theorem entry_rel {env : Env} {fs : FS} {base : Bytes} {root : FNode} {q : Placed} {p : List Bytes} {n : FNode}
    {H : Bytes} {m : Member} (he : Entry env fs base root q p n H m) : q.ref.ent.rel = pathText p := by
  have hd := he.desc
  cases n <;> simp [describe] at hd <;> rw [← hd]

theorem entry_kind {env : Env} {fs : FS} {base : Bytes} {root : FNode} {q : Placed} {p : List Bytes} {n : FNode}
    {H : Bytes} {m : Member} (he : Entry env fs base root q p n H m) :
    m.path = if q.ref.ent.kind = .dir then (if p = [] then base ++ [47] else base ++ [47] ++ pathText p ++ [47])
      else base ++ [47] ++ pathText p := by
  have hd := he.desc
  have hm := he.memb
  cases n <;> simp only [describe, Option.some.injEq, reduceCtorEq] at hd <;> rw [← hd] <;>
    simp only [memberOf, archivedPath] at hm <;> split at hm <;> simp only [Option.some.injEq, reduceCtorEq] at hm <;>
    rw [← hm] <;> simp

/-- The header of an entry depends on the object only. -/
theorem entry_header {env : Env} {fs fs' : FS} {base : Bytes} {root root' : FNode} {q : Placed} {p : List Bytes} {n n' : FNode}
    {H H' : Bytes} {m m' : Member} (ha : Archivable env fs base root) (ha' : Archivable env fs' base root')
    (hn : Unchanged n n') (he : Entry env fs base root q p n H m) (he' : Entry env fs' base root' q p n' H' m') : H = H' := by
  obtain ⟨e, h1, h2⟩ := he.made
  obtain ⟨e', h3, h4⟩ := he'.made
  have hf := ha.fs _ _ he.seen
  have hf' := ha'.fs _ _ he'.seen
  have hfull := he.full
  rw [hfull] at h1 h3
  unfold tarentryCtor FS.lstat at h1 h3
  rw [hf, Option.map_some, hn.same.1] at h1
  rw [hf', Option.map_some] at h3
  rw [h1] at h3
  cases h3
  rw [h2] at h4
  exact Except.ok.inj h4

section
variable {cfg cfg' : Cfg} {base : Bytes} {root root' : FNode} {S : StdSort Ref} {g : Bytes → UInt8}
  {b mx : Nat} {c c' : Coll} {bundles bundles' : List (List Order)} {archive archive' : Bytes} {eager eager' : Bool}
  {file0 file0' : Option Bytes} {tr tr' : List Ev} {s s' : Sys}

/-- **C85** Two successful runs, on a tree as it was at two times, with nothing added, removed, renamed, resized or
relinked in between, leave archives of the same length with the members in the same order.  Each object has one place
(`place p`) at which it is read in both, with a header of the same length; an object that has not changed has the same
header and contents, byte for byte.  And a byte in which the archives differ belongs to the member of an object that
has changed (between its place and `stop`, where reading it ends), or to the padding between members of one bundle.
Whatever the numbers of processes and the schedules. -/
theorem C85_same_places (henv : cfg'.env = cfg.env) (hsh : SameShape root root')
    (j : Job cfg.env cfg.fs base root S g b mx c bundles) (j' : Job cfg'.env cfg'.fs base root' S g b mx c' bundles')
    (hl : Launchable cfg b archive) (hl' : Launchable cfg' b archive')
    (h : CreateRun cfg eager b archive base (bundles.map printBundle) file0 tr s) (hb : s.boss = .exit 0)
    (h' : CreateRun cfg' eager' b archive' base (bundles'.map printBundle) file0' tr' s') (hb' : s'.boss = .exit 0) :
    ∃ (A A' : Bytes) (ms ms' : List Member) (place stop : List Bytes → Nat),
      s.file = some A ∧ s'.file = some A' ∧ A.length = A'.length ∧
      readArchive A = some ms ∧ readArchive A' = some ms' ∧ ms.map (fun m => m.path) = ms'.map (fun m => m.path) ∧
      (∀ p n, Seen root p n → describe p n ≠ none →
        ∃ n' m m' H H', Seen root' p n' ∧ describe p n' = describe p n ∧
          memberOf cfg.env base p n = some m ∧ memberOf cfg.env base p n' = some m' ∧ place p % 512 = 0 ∧
          readMember (A.drop (place p)) = some (m, A.drop (stop p)) ∧
          readMember (A'.drop (place p)) = some (m', A'.drop (stop p)) ∧ stop p ≤ A.length ∧
          Holds A (place p) (H ++ contentOf n) ∧ Holds A' (place p) (H' ++ contentOf n') ∧
          512 ≤ H.length ∧ H'.length = H.length ∧ (Unchanged n n' → H = H' ∧ contentOf n = contentOf n')) ∧
      ∀ i, A[i]? ≠ A'[i]? → InnerPadding bundles i ∨
        ∃ p n n', Seen root p n ∧ Seen root' p n' ∧ ¬ Unchanged n n' ∧ place p ≤ i ∧ i < stop p := by
  have hcc : c' = c := by
    have := j'.scanned
    rw [← scan_shape g base _ _ hsh, j.scanned] at this
    exact (Except.ok.inj this).symm
  subst hcc
  have hbb : bundles' = bundles := by
    have := j'.planned
    rw [j.planned] at this
    exact (Option.some.inj this).symm
  subst hbb
  obtain ⟨A, path, node, H, m, a1, a2, a3, az, a4⟩ := job_places j hl h hb
  obtain ⟨A', path', node', H', m', b1, b2, b3, bz, b4⟩ := job_places j' hl' h' hb'
  obtain ⟨hok, _, hr⟩ := j.setup
  obtain ⟨hflat, hsl, hhdr, hnd, hcont, _⟩ := plan_flat hok j.planned
  have hpp : ∀ q ∈ (setOffsets (orderFiles S c')).all, path' q = path q := by
    intro q hq
    apply pathText_inj (at_nameOk (seen_at (b4 q hq).1.seen) j'.tree.treeOk) (at_nameOk (seen_at (a4 q hq).1.seen) j.tree.treeOk)
    rw [← entry_rel (b4 q hq).1, ← entry_rel (a4 q hq).1]
  classical
  have hplace : ∀ p, ∃ k e : Nat, ∀ q ∈ (setOffsets (orderFiles S c')).all, path q = p →
      q.slice.offArch = k ∧ q.slice.offArch + q.ref.hdr + pad512 q.ref.ent.size = e := by
    intro p
    by_cases hex : ∃ q ∈ (setOffsets (orderFiles S c')).all, path q = p
    · obtain ⟨q, hq, hqp⟩ := hex
      refine ⟨q.slice.offArch, q.slice.offArch + q.ref.hdr + pad512 q.ref.ent.size, fun r hr hrp => ?_⟩
      have : r = q := by
        apply List.inj_on_of_nodup_map hnd hr hq
        rw [entry_rel (a4 r hr).1, entry_rel (a4 q hq).1, hrp, hqp]
      rw [this]; exact ⟨rfl, rfl⟩
    · exact ⟨0, 0, fun q hq hqp => absurd ⟨q, hq, hqp⟩ hex⟩
  choose place stop hpl using hplace
  have hjt := j'.tree
  rw [henv] at hjt
  have hh512 : ∀ q ∈ (setOffsets (orderFiles S c')).all, q.ref.hdr % 512 = 0 ∧ 512 ≤ q.ref.hdr := by
    intro q hq
    obtain ⟨e, _, h⟩ := (a4 q hq).1.made
    have := C01_header_length cfg.env e (H q) h
    rw [(a4 q hq).1.hlen] at this
    omega
  have hbd := slot_bounds (setOffsets (orderFiles S c')).all 0 (by omega) hcont (fun q hq => (hh512 q hq).1)
  have hent' : ∀ q ∈ (setOffsets (orderFiles S c')).all, Entry cfg.env cfg'.fs base root' q (path q) (node' q) (H' q) (m' q) := by
    intro q hq
    have := (b4 q hq).1
    rwa [henv, hpp q hq] at this
  refine ⟨A, A', _, _, place, stop, a1, b1, by rw [a2, b2], a3, b3, ?_, ?_, ?_⟩
  · rw [List.map_map, List.map_map]
    apply List.map_congr_left
    intro q hq
    have e1 := entry_kind (a4 q hq).1
    have e2 := entry_kind (hent' q hq)
    simp only [Function.comp_apply]
    rw [e1, e2]
  · intro p n hn hd
    obtain ⟨q, hq, hqp, hqd⟩ := job_entry (cfg := cfg) j hn hd (fun q hq => (a4 q hq).1)
    obtain ⟨c1, c2, c3, c4⟩ := a4 q hq
    obtain ⟨_, _, d3, d4⟩ := b4 q hq
    have d1 := hent' q hq
    rw [hqp] at d1
    rw [hqp] at c1
    have hnn : node q = n := seen_functional j.tree.treeOk c1.seen hn
    rw [hnn] at c1 c3
    obtain ⟨k1, k2⟩ := hpl p q hq hqp
    have hq2 := (hbd q hq).2
    rw [k2] at c4 d4 hq2
    rw [k1] at c2 c3 c4 d3 d4
    refine ⟨node' q, m q, m' q, H q, H' q, d1.seen, by rw [d1.desc, hqd], c1.memb, d1.memb, c2, c4, d4, by rw [a2]; exact hq2,
      c3, d3, ?_, ?_, ?_⟩
    · rw [c1.hlen]; exact (hh512 q hq).2
    · rw [c1.hlen, d1.hlen]
    · intro hee
      exact ⟨entry_header j.tree hjt hee c1 d1, hee.same.2⟩
  · intro i hne
    by_cases hiE : i < endPos 0 (setOffsets (orderFiles S c')).all
    · rcases byte_planned hr hiE with ⟨l, hl1, h1, h2⟩ | hpad | ⟨o, ho, h1, h2⟩
      · exact absurd (by rw [az l hl1 i h1 h2, bz l hl1 i h1 h2]) hne
      · exact Or.inl hpad
      · rw [hflat] at ho
        obtain ⟨q, hq, hf⟩ := List.mem_flatMap.1 ho
        have hsp := frags_spec 0 b q (hsl q hq) (hhdr q hq).2 o hf
        unfold Order.stop at h2
        have hlo : q.slice.offArch ≤ i ∧ i < q.slice.offArch + q.ref.hdr + q.ref.ent.size := by
          obtain ⟨_, _, _, _, f1, f2, f3, f4⟩ := hsp
          rcases f1 with f1 | f1 <;> omega
        obtain ⟨c1, c2, c3, c4⟩ := a4 q hq
        obtain ⟨_, _, d3, d4⟩ := b4 q hq
        have d1 := hent' q hq
        have hle : q.ref.ent.size ≤ pad512 q.ref.ent.size := by unfold pad512; omega
        obtain ⟨k1, k2⟩ := hpl _ q hq rfl
        refine Or.inr ⟨path q, node q, node' q, c1.seen, d1.seen, ?_, by omega, by omega⟩
        intro hu
        apply hne
        have eH := entry_header j.tree hjt hu c1 d1
        rw [← eH, ← hu.same.2] at d3
        have l1 := c1.hlen
        have l2 := c1.dlen
        have g1 := (holds_iff _ _ _).1 c3 (i - q.slice.offArch) (by rw [List.length_append]; omega)
        have g2 := (holds_iff _ _ _).1 d3 (i - q.slice.offArch) (by rw [List.length_append]; omega)
        rw [show q.slice.offArch + (i - q.slice.offArch) = i by omega] at g1 g2
        rw [g1, g2]
    · exact absurd (by rw [List.getElem?_eq_none (by omega), List.getElem?_eq_none (by omega)]) hne

end

/-! ### a concrete case -/

/-- A directory with the files `a` and `b`; `b` holds one byte. -/
def locTree (z : UInt8) : FNode :=
  .dir ⟨420, 0, 0, 0⟩ true (.cons [97] (.reg ⟨420, 0, 0, 0⟩ [1, 2]) (.cons [98] (.reg ⟨420, 0, 0, 0⟩ [z]) .nil))

theorem loc_cases {z : UInt8} {p : List Bytes} {n : FNode} (h : Seen (locTree z) p n) :
    (p = [] ∧ n = locTree z) ∨ (p = [[97]] ∧ n = .reg ⟨420, 0, 0, 0⟩ [1, 2]) ∨ (p = [[98]] ∧ n = .reg ⟨420, 0, 0, 0⟩ [z]) := by
  have h := seen_at h
  unfold locTree at h
  cases h with
  | self => simp [locTree]
  | step hc h' =>
    cases hc with
    | here => cases h'; simp
    | there hc =>
    cases hc with
    | here => cases h'; simp
    | there hc => cases hc

def locFs (z : UInt8) : FS := fun path =>
  if path = [100, 47] then some (locTree z)
  else if path = [100, 47, 97] then some (.reg ⟨420, 0, 0, 0⟩ [1, 2])
  else if path = [100, 47, 98] then some (.reg ⟨420, 0, 0, 0⟩ [z]) else none

def locCfg (z : UInt8) : Cfg := ⟨3, demoEnv2, locFs z, true⟩

theorem loc_archivable (z : UInt8) : Archivable demoEnv2 (locFs z) [100] (locTree z) := by
  refine ⟨⟨trivial, ?_, ?_, ?_, ?_, ?_, ?_, ?_, ?_⟩, ?_⟩
  · simp [locTree, TreeOk, KidsOk, names, NameOk]
  · intro p n h
    rcases loc_cases h with ⟨rfl, rfl⟩ | ⟨rfl, rfl⟩ | ⟨rfl, rfl⟩ <;> rfl
  · decide
  · decide
  · intro p n h
    rcases loc_cases h with ⟨rfl, rfl⟩ | ⟨rfl, rfl⟩ | ⟨rfl, rfl⟩ <;> decide
  · intro p m t h
    rcases loc_cases h with ⟨_, h⟩ | ⟨_, h⟩ | ⟨_, h⟩ <;> simp [locTree] at h
  · intro p n h
    rcases loc_cases h with ⟨rfl, rfl⟩ | ⟨rfl, rfl⟩ | ⟨rfl, rfl⟩ <;> decide
  · intro p n h _
    have hm : metaOf n = ⟨420, 0, 0, 0⟩ := by
      rcases loc_cases h with ⟨rfl, rfl⟩ | ⟨rfl, rfl⟩ | ⟨rfl, rfl⟩ <;> rfl
    rw [hm]
    exact ⟨by decide, by decide, by decide, by decide, ⟨[114], rfl, by decide, by decide⟩, ⟨[103], rfl, by decide, by decide⟩⟩
  · intro p m o k h hne
    rcases loc_cases h with ⟨h, _⟩ | ⟨_, h⟩ | ⟨_, h⟩
    · exact absurd h hne
    · cases h
    · cases h

def locC : Coll :=
  { dirs := [⟨-12, ⟨[], .dir, [], 0⟩, 512⟩],
    files := [⟨2, ⟨[97], .reg, [], 2⟩, 512⟩, ⟨1, ⟨[98], .reg, [], 1⟩, 512⟩] }

def locBundles : List (List Order) :=
  [[⟨0, [], .dir, [], 0, 512, 0, 0⟩, ⟨0, [98], .reg, [], 1, 512, 512, 0⟩, ⟨0, [97], .reg, [], 2, 512, 1536, 0⟩]]

theorem loc_job {z : UInt8} (hz : z = 5 ∨ z = 6) : Job (locCfg z).env (locCfg z).fs [100] (locTree z) demoSort2
    (fun _ => 0) 102400 3 locC locBundles := by
  constructor
  · exact loc_archivable z
  · intro _; rfl
  · decide
  all_goals rcases hz with rfl | rfl <;> decide +kernel

theorem loc_launchable (z : UInt8) : Launchable (locCfg z) 102400 [97] := by
  have h3 : (locCfg z).ranks = 3 := rfl
  constructor <;> first | decide | (rw [h3]; decide)

/-- `b` is overwritten with another byte between two runs: `a`, and the directory, are in both archives at the same
places with the same bytes. -/
example : ∃ (A A' : Bytes) (pos : Nat) (H : Bytes),
    (∃ tr s, CreateRun (locCfg 5) true 102400 [97] [100] (locBundles.map printBundle) none tr s ∧ s.boss = .exit 0 ∧ s.file = some A) ∧
    (∃ tr s, CreateRun (locCfg 6) true 102400 [97] [100] (locBundles.map printBundle) none tr s ∧ s.boss = .exit 0 ∧ s.file = some A') ∧
    Holds A pos (H ++ [1, 2]) ∧ Holds A' pos (H ++ [1, 2]) := by
  obtain ⟨_, _, tr, s, h, hf⟩ := C19_runs_succeed (loc_job (Or.inl rfl)) (archive := [97]) (loc_launchable 5) (show 2 ≤ 3 by decide) rfl Run.nil
  obtain ⟨_, _, tr', s', h', hf'⟩ := C19_runs_succeed (loc_job (Or.inr rfl)) (archive := [97]) (loc_launchable 6) (show 2 ≤ 3 by decide) rfl Run.nil
  rw [List.nil_append] at h h'
  obtain ⟨A, A', _, _, place, _, a1, a2, _, _, _, _, a3, _⟩ := C85_same_places (cfg := locCfg 5) (cfg' := locCfg 6) rfl
    (by simp [locTree, SameShape, SameKids]) (loc_job (Or.inl rfl)) (loc_job (Or.inr rfl)) (loc_launchable 5) (loc_launchable 6)
    h hf.1 h' hf'.1
  have hs : ∀ z, Seen (locTree z) [[97]] (.reg ⟨420, 0, 0, 0⟩ [1, 2]) := fun z => .step (.here (by decide) (by decide)) (.self _)
  obtain ⟨n', _, _, H, H', e1, _, _, _, _, _, _, _, e2, e3, _, _, e4⟩ := a3 _ _ (hs 5) (by simp [describe])
  have := seen_functional (loc_archivable 6).treeOk e1 (hs 6)
  rw [this] at e3 e4
  rw [← (e4 ⟨rfl, rfl⟩).1] at e3
  exact ⟨A, A', place [[97]], H, ⟨tr, s, h, hf.1, a1⟩, ⟨tr', s', h', hf'.1, a2⟩, e2, e3⟩

end Parfu.Props
