/-
The header made for an object of the tree, and reading an archive member by member.
-/
import Verif.MoveLemmas
import Verif.PropsTarExact
import Verif.PropsScan
import Verif.PropsPlan
import Verif.PropsMarch
set_option autoImplicit false

namespace Parfu.MoveSpec
open Parfu TarSpec ScanSpec

/-- Everything about the tree, its place in the file system and its owners that the archiving run
relies on, except for the lengths of the directories' paths.  `fs` is not changed during the run. -/
structure Storable (env : Env) (fs : FS) (base : Bytes) (root : FNode) : Prop where
  isDir : IsDir root
  treeOk : TreeOk root
  /-- the tree is what is found below the target path -/
  fs : ∀ p n, Seen root p n → fs (base ++ [47] ++ pathText p) = some n
  base_ne : base ≠ []
  base_nul : (0:UInt8) ∉ base
  /-- PATH_MAX -/
  paths : ∀ p n, Seen root p n → base.length + 1 + (pathText p).length ≤ 4096
  links : ∀ p m t, Seen root p (.lnk m t) → t.length < 4096 ∧ (0:UInt8) ∉ t ∧ (9:UInt8) ∉ t
  /-- no TAB in a name -/
  noTab : ∀ p n, Seen root p n → (9:UInt8) ∉ pathText p
  owners : ∀ p n, Seen root p n → describe p n ≠ none → MetaOk env (metaOf n)

/-- ... and no directory has a path of a length the program plans wrongly. -/
structure Archivable (env : Env) (fs : FS) (base : Bytes) (root : FNode) : Prop
    extends Storable env fs base root where
  /-- no directory has one of the nine lengths for which too short a header is planned (C05, C63) -/
  dirs : ∀ p m o k, Seen root p (.dir m o k) → p ≠ [] →
    (base ++ [47] ++ pathText p).length ∉ badDirLengths

/-- The data of an object: the bytes of a regular file. -/
def contentOf : FNode → Bytes
  | .reg _ c => c
  | _ => []

end Parfu.MoveSpec

namespace Parfu
open MoveSpec TarSpec ScanSpec Props

theorem pathText_chars {p : List Bytes} (hp : ∀ n ∈ p, NameOk n) : (0:UInt8) ∉ pathText p := by
  induction p with
  | nil => simp [pathText]
  | cons a r ih =>
    cases r with
    | nil => simpa [pathText] using (hp a (by simp)).2.2
    | cons b r =>
      simp only [pathText]
      have h1 := (hp a (by simp)).2.2
      have h2 := ih (fun n hn => hp n (by simp [hn]))
      simp only [List.mem_append, List.mem_singleton, not_or]
      exact ⟨⟨h1, by decide⟩, h2⟩

theorem pathText_last {p : List Bytes} (hp : ∀ n ∈ p, NameOk n) (hne : p ≠ []) :
    ∃ c, (pathText p).getLast? = some c ∧ c ≠ 47 := by
  induction p with
  | nil => exact absurd rfl hne
  | cons a r ih =>
    cases r with
    | nil =>
      have ha := hp a (by simp)
      simp only [pathText]
      cases h : a.getLast? with
      | none => exact absurd (List.getLast?_eq_none_iff.1 h) ha.1
      | some c =>
        refine ⟨c, rfl, ?_⟩
        rintro rfl
        exact ha.2.1 (List.mem_of_getLast? h)
    | cons b r =>
      obtain ⟨c, h1, h2⟩ := ih (fun n hn => hp n (by simp [hn])) (by simp)
      refine ⟨c, ?_, h2⟩
      simp only [pathText]
      rw [List.getLast?_append, h1]; rfl

/-- The header made for one object, whose path is `base/...`. -/
theorem object_core_any {env : Env} {fs : FS} {base : Bytes} {p : List Bytes} {n : FNode} {ent : Ent}
    (hd : describe p n = some ent) (hsz : ent.size < 2 ^ 33 - 1) (hname : ∀ x ∈ p, NameOk x)
    (hbn : (0:UInt8) ∉ base) (hlen : base.length + 1 + (pathText p).length ≤ 4096)
    (hfs0 : fs (base ++ [47] ++ pathText p) = some n) (hown : MetaOk env (metaOf n))
    (hlink : ∀ m t, n = .lnk m t → t.length < 4096 ∧ (0:UInt8) ∉ t) :
    ∃ e H m, tarentryCtor fs.lstat (base ++ [47] ++ pathText p) 0 = .ok e ∧ makeTarHeader env e = .ok H ∧
      (computeHdrSize (base ++ [47] ++ pathText p) ent.target (ent.size : Int) = .ok H.length ↔
        ¬ (p ≠ [] ∧ (∃ m o k, n = .dir m o k) ∧ (base ++ [47] ++ pathText p).length ∈ badDirLengths)) ∧
      (m.path = e.filename ∧ m.linkpath = e.linkname ∧ m.size = ent.size ∧ (e.stat.kind = .reg → e.stat.size ≤ maxFileSize)) ∧
      memberOf env base p n = some m ∧ (contentOf n).length = ent.size ∧
      (∀ padding rest : Bytes, ent.size + padding.length = pad512 ent.size →
        readMember (H ++ (contentOf n ++ (padding ++ rest))) = some (m, rest)) := by
  have hnul : (0:UInt8) ∉ base ++ [47] ++ pathText p := by
    simp only [List.mem_append, List.mem_singleton, not_or]
    exact ⟨⟨hbn, by decide⟩, pathText_chars hname⟩
  have hfs : fs.lstat (base ++ [47] ++ pathText p) = some (lstatNode n) := by
    unfold FS.lstat; rw [hfs0]; rfl
  obtain ⟨hu, hg, hm0, hm1, ⟨u, hun, hu0, hul⟩, ⟨g, hgn, hg0, hgl⟩⟩ := hown
  have hll : (base ++ [47] ++ pathText p).length ≤ 4096 := by
    simp only [List.length_append, List.length_singleton]; omega
  cases n with
  | reg m c =>
    simp only [describe, Option.some.injEq] at hd
    have hsize : ent.size = c.length := by rw [← hd]
    have htgt : ent.target = [] := by rw [← hd]
    simp only [metaOf] at hu hg hm0 hm1 hun hgn
    let e : TarEntry := { offset := 0, stat := ⟨.reg, m.perm, m.uid, m.gid, (c.length : Int), m.mtime⟩,
                          filename := base ++ [47] ++ pathText p, linkname := [] }
    have he : tarentryCtor fs.lstat (base ++ [47] ++ pathText p) 0 = .ok e := by
      unfold tarentryCtor; rw [hfs]; simp [lstatNode, e]
    obtain ⟨H, hH⟩ := C01_header_made env e u g (by simp [e]) hun hgn
    refine ⟨e, H, ⟨base ++ [47] ++ pathText p, 48, [], m.perm % 4096, m.uid, m.gid, m.mtime.toNat, u, g,
      c.length, c⟩, he, hH, ?_, ⟨rfl, rfl, hsize.symm, fun _ => by simp only [e]; unfold maxFileSize; omega⟩, ?_,
      by simp [contentOf, hsize], ?_⟩
    · have := C05_planned_size_partial env fs.lstat _ _ _ 0 e H hfs (Or.inl rfl) (by simp [lstatNode]) he hH
      rw [htgt, hsize]
      refine iff_of_true (by simpa [lstatNode] using this) (by rintro ⟨_, ⟨m, o, k, hmk⟩, _⟩; cases hmk)
    · simp [memberOf, hun, hgn, archivedPath]
    · intro padding rest hp
      have := C04_header_readable_partial env e u g H c padding rest hH hun hgn hnul (by simp [e])
        (by simp only [e]; omega) (by simp [e]) (fun _ => rfl) ⟨hu0, hul⟩ ⟨hg0, hgl⟩ hu hg ⟨hm0, hm1⟩
        ⟨by simp [e], by simp only [e]; omega⟩ (by intro _; simp only [e]; omega) (by simp [e])
        (by rw [← hsize]; exact hp)
      simpa [e, contentOf, posixFlag] using this
  | lnk m t =>
    simp only [describe, Option.some.injEq] at hd
    have hsize : ent.size = 0 := by rw [← hd]
    have htgt : ent.target = t := by rw [← hd]
    simp only [metaOf] at hu hg hm0 hm1 hun hgn
    obtain ⟨ht1, ht2⟩ := hlink m t rfl
    let e : TarEntry := { offset := 0, stat := ⟨.lnk, m.perm, m.uid, m.gid, (t.length : Int), m.mtime⟩,
                          filename := base ++ [47] ++ pathText p, linkname := t }
    have he : tarentryCtor fs.lstat (base ++ [47] ++ pathText p) 0 = .ok e := by
      unfold tarentryCtor; rw [hfs]
      have hpm : ¬ ((t.length : Int) < 0 ∨ (pathMax : Int) ≤ (t.length : Int) ∨
          (t.length : Int) < (t.length : Int)) := by unfold pathMax; omega
      show (if (t.length : Int) < 0 ∨ (pathMax : Int) ≤ (t.length : Int) ∨
          (t.length : Int) < (t.length : Int) then Except.error Err.ub else _) = _
      rw [if_neg hpm]
      simp [e]
    obtain ⟨H, hH⟩ := C01_header_made env e u g (by simp [e]) hun hgn
    refine ⟨e, H, ⟨base ++ [47] ++ pathText p, 50, t, m.perm % 4096, m.uid, m.gid, m.mtime.toNat, u, g,
      0, []⟩, he, hH, ?_, ⟨rfl, rfl, hsize.symm, fun hk => by simp [e] at hk⟩, ?_, by simp [contentOf, hsize], ?_⟩
    · have := C05_planned_size_partial env fs.lstat _ _ _ 0 e H hfs (Or.inr rfl) (by simp [lstatNode]) he hH
      rw [htgt, hsize]
      refine iff_of_true (by simpa [lstatNode] using this) (by rintro ⟨_, ⟨m, o, k, hmk⟩, _⟩; cases hmk)
    · simp [memberOf, hun, hgn, archivedPath]
    · intro padding rest hp
      have := C04_header_readable_partial env e u g H [] padding rest hH hun hgn hnul ht2
        (by simp only [e]; omega) (by simp only [e]; omega) (by simp [e]) ⟨hu0, hul⟩ ⟨hg0, hgl⟩ hu hg
        ⟨hm0, hm1⟩ ⟨by simp [e], by simp only [e]; omega⟩ (by simp [e]) (by simp [e])
        (by rw [hsize] at hp; simpa using hp)
      simpa [e, contentOf, posixFlag] using this
  | dir m o k =>
    simp only [describe, Option.some.injEq] at hd
    have hsize : ent.size = 0 := by rw [← hd]
    have htgt : ent.target = [] := by rw [← hd]
    simp only [metaOf] at hu hg hm0 hm1 hun hgn
    -- the name in the header
    let fn := base ++ [47] ++ pathText p
    let e : TarEntry := { offset := 0, stat := ⟨.dir, m.perm, m.uid, m.gid, 4096, m.mtime⟩,
                          filename := archivedPath base p (.dir m o k), linkname := [] }
    have hlast : ∃ c, fn.getLast? = some c ∧ (c = 47 ↔ p = []) := by
      by_cases hp : p = []
      · subst hp; exact ⟨47, by simp [fn, pathText], by simp⟩
      · obtain ⟨c, h1, h2⟩ := pathText_last hname hp
        exact ⟨c, by simp only [fn]; rw [List.getLast?_append, h1]; rfl, by simp [hp, h2]⟩
    obtain ⟨c, hc, hciff⟩ := hlast
    have he : tarentryCtor fs.lstat fn 0 = .ok e := by
      unfold tarentryCtor; rw [hfs]
      simp only [lstatNode, hc]
      simp only [reduceCtorEq, if_false, if_true]
      by_cases hp : p = []
      · rw [if_pos (hciff.2 hp)]; simp [e, archivedPath, hp, fn, pathText]
      · rw [if_neg (fun h => hp (hciff.1 h))]; simp [e, archivedPath, hp, fn]
    obtain ⟨H, hH⟩ := C01_header_made env e u g (by simp [e]) hun hgn
    refine ⟨e, H, ⟨archivedPath base p (.dir m o k), 53, [], m.perm % 4096, m.uid, m.gid, m.mtime.toNat, u, g,
      0, []⟩, he, hH, ?_, ⟨rfl, rfl, hsize.symm, fun hk => by simp [e] at hk⟩, ?_, by simp [contentOf, hsize], ?_⟩
    · have key := C05_planned_iff env fs.lstat fn _ _ 0 e H hfs hll (by simp [lstatNode]) he hH
      rw [htgt, hsize]
      simp only [lstatNode, reduceCtorEq, if_false] at key
      rw [show ((0 : Nat) : Int) = 0 from rfl]
      refine key.trans (not_congr ⟨?_, ?_⟩)
      · rintro ⟨_, h1, h2⟩
        exact ⟨fun hp => h1 (by rw [hc, hciff.2 hp]), ⟨m, o, k, rfl⟩, h2⟩
      · rintro ⟨h1, _, h2⟩
        exact ⟨trivial, by rw [hc]; intro h; exact h1 (hciff.1 (Option.some.inj h)), h2⟩
    · simp [memberOf, hun, hgn]
    · intro padding rest hp
      have hl2 : (archivedPath base p (.dir m o k)).length ≤ 4097 := by
        simp only [List.length_append, List.length_singleton] at hll
        by_cases hp0 : p = []
        · simp [archivedPath, hp0]; omega
        · simp [archivedPath, hp0]; omega
      have hn2 : (0:UInt8) ∉ archivedPath base p (.dir m o k) := by
        simp only [List.mem_append, List.mem_singleton, not_or] at hnul
        by_cases hp0 : p = []
        · simp [archivedPath, hp0, hnul]
        · simp [archivedPath, hp0, hnul]
      have := C04_header_readable_partial env e u g H [] padding rest hH hun hgn hn2 (by simp [e])
        (by simp only [e]; omega) (by simp [e]) (fun _ => rfl) ⟨hu0, hul⟩ ⟨hg0, hgl⟩ hu hg
        ⟨hm0, hm1⟩ ⟨by simp [e], by simp only [e]; omega⟩ (by simp [e]) (by simp [e])
        (by rw [hsize] at hp; simpa using hp)
      simpa [e, contentOf, posixFlag] using this
  | other m => simp [describe] at hd

/-- The header made for one object that is not a directory with a path of one of the nine lengths. -/
theorem object_core {env : Env} {fs : FS} {base : Bytes} {p : List Bytes} {n : FNode} {ent : Ent}
    (hd : describe p n = some ent) (hsz : ent.size < 2 ^ 33 - 1) (hname : ∀ x ∈ p, NameOk x)
    (hbn : (0:UInt8) ∉ base) (hlen : base.length + 1 + (pathText p).length ≤ 4096)
    (hfs0 : fs (base ++ [47] ++ pathText p) = some n) (hown : MetaOk env (metaOf n))
    (hlink : ∀ m t, n = .lnk m t → t.length < 4096 ∧ (0:UInt8) ∉ t)
    (hdirs : ∀ m o k, n = .dir m o k → p ≠ [] → (base ++ [47] ++ pathText p).length ∉ badDirLengths) :
    ∃ e H m, tarentryCtor fs.lstat (base ++ [47] ++ pathText p) 0 = .ok e ∧ makeTarHeader env e = .ok H ∧
      computeHdrSize (base ++ [47] ++ pathText p) ent.target (ent.size : Int) = .ok H.length ∧
      memberOf env base p n = some m ∧ (contentOf n).length = ent.size ∧
      (∀ padding rest : Bytes, ent.size + padding.length = pad512 ent.size →
        readMember (H ++ (contentOf n ++ (padding ++ rest))) = some (m, rest)) := by
  obtain ⟨e, H, m, h1, h2, h3, _, h4, h5, h6⟩ := object_core_any hd hsz hname hbn hlen hfs0 hown hlink
  exact ⟨e, H, m, h1, h2, h3.2 (fun ⟨hp, ⟨m, o, k, hn⟩, hbad⟩ => hdirs m o k hn hp hbad), h4, h5, h6⟩

/-- The header of an object of a storable tree: it is made, it has the planned length unless the
object is a directory with a path of one of the nine lengths, and a reader that meets it with the object's
data behind it finds the member specified for the object. -/
theorem object_header_any {env : Env} {fs : FS} {base : Bytes} {root : FNode}
    (ha : Storable env fs base root) {p : List Bytes} {n : FNode} {ent : Ent} (hs : Seen root p n)
    (hd : describe p n = some ent) (hsz : ent.size < 2 ^ 33 - 1) :
    ∃ e H m, fullName base ent.rel = base ++ [47] ++ pathText p ∧
      tarentryCtor fs.lstat (fullName base ent.rel) 0 = .ok e ∧ makeTarHeader env e = .ok H ∧
      (headerSize base ent = .ok H.length ↔
        ¬ (p ≠ [] ∧ (∃ m o k, n = .dir m o k) ∧ (base ++ [47] ++ pathText p).length ∈ badDirLengths)) ∧
      (m.path = e.filename ∧ m.linkpath = e.linkname ∧ m.size = ent.size ∧ (e.stat.kind = .reg → e.stat.size ≤ maxFileSize)) ∧
      memberOf env base p n = some m ∧ (contentOf n).length = ent.size ∧
      (∀ padding rest : Bytes, ent.size + padding.length = pad512 ent.size →
        readMember (H ++ (contentOf n ++ (padding ++ rest))) = some (m, rest)) := by
  have hrel : ent.rel = pathText p := by
    cases n <;> simp [describe] at hd <;> subst hd <;> rfl
  have hfull : fullName base ent.rel = base ++ [47] ++ pathText p := by
    unfold fullName
    have := List.length_pos_iff.2 ha.base_ne
    rw [if_pos (by omega), hrel]
  obtain ⟨e, H, m, h1, h2, h3, hm, h4, h5, h6⟩ := object_core_any hd hsz (at_nameOk (seen_at hs) ha.treeOk) ha.base_nul
    (ha.paths p n hs) (ha.fs p n hs) (ha.owners p n hs (by rw [hd]; simp))
    (fun m t h => by subst h; exact ⟨(ha.links p m t hs).1, (ha.links p m t hs).2.1⟩)
  refine ⟨e, H, m, hfull, by rw [hfull]; exact h1, h2, ?_, hm, h4, h5, h6⟩
  unfold headerSize absolutePath
  rw [hrel]; exact h3

/-- The header of an object of an archivable tree: it is made, it has the planned length, and a
reader that meets it with the object's data behind it finds the member specified for the object. -/
theorem object_header {env : Env} {fs : FS} {base : Bytes} {root : FNode}
    (ha : Archivable env fs base root) {p : List Bytes} {n : FNode} {ent : Ent} (hs : Seen root p n)
    (hd : describe p n = some ent) (hsz : ent.size < 2 ^ 33 - 1) :
    ∃ e H m, fullName base ent.rel = base ++ [47] ++ pathText p ∧
      tarentryCtor fs.lstat (fullName base ent.rel) 0 = .ok e ∧ makeTarHeader env e = .ok H ∧
      headerSize base ent = .ok H.length ∧
      memberOf env base p n = some m ∧ (contentOf n).length = ent.size ∧
      (∀ padding rest : Bytes, ent.size + padding.length = pad512 ent.size →
        readMember (H ++ (contentOf n ++ (padding ++ rest))) = some (m, rest)) := by
  obtain ⟨e, H, m, h1, h2, h3, h4, _, h5, h6, h7⟩ := object_header_any ha.toStorable hs hd hsz
  refine ⟨e, H, m, h1, h2, h3, h4.2 ?_, h5, h6, h7⟩
  rintro ⟨hp, ⟨mm, o, k, rfl⟩, hbad⟩
  exact ha.dirs p mm o k hs hp hbad

/-! ### reading the archive -/

theorem not_zero_block {env : Env} {e : TarEntry} {H : Bytes} (hH : makeTarHeader env e = .ok H)
    (rest : Bytes) : (H ++ rest).take 1024 ≠ zeros 1024 := by
  intro h
  have hl := C01_header_length env e H hH
  have hc := (C03_checksums env e H hH).2
  have h2 : H.take 512 = zeros 512 := by
    have := congrArg (List.take 512) h
    rw [List.take_take, show min 512 1024 = 512 by rfl, List.take_append_of_le_length hl.2.2] at this
    rw [this]; unfold zeros; rw [List.take_replicate]; rfl
  rw [h2] at hc
  revert hc
  decide +kernel

/-- An archive that begins with the header and data of each placed entry, back to back, reads back
as the list of their members followed by what the rest reads as. -/
theorem readArchive_placed_then {env : Env} (A : Bytes) (mem : Placed → Member) (H D : Placed → Bytes) :
    ∀ (ps : List Placed) (w : Nat), PlanSpec.Contiguous w ps → endPos w ps ≤ A.length → w % 512 = 0 →
    (∀ p ∈ ps, (H p).length = p.ref.hdr ∧ pad512 (D p).length = pad512 p.ref.ent.size ∧
      Holds A p.slice.offArch (H p ++ D p) ∧ (∃ e, makeTarHeader env e = .ok (H p)) ∧
      ∀ padding rest : Bytes, (D p).length + padding.length = pad512 (D p).length →
        readMember (H p ++ (D p ++ (padding ++ rest))) = some (mem p, rest)) →
    readArchive (A.drop w) = (readArchive (A.drop (endPos w ps))).map (ps.map mem ++ ·) := by
  intro ps
  induction ps with
  | nil =>
    intro w _ _ _ _
    simp [endPos]
  | cons p ps ih =>
    intro w hcont hlen hw hps
    simp only [PlanSpec.Contiguous] at hcont
    obtain ⟨hoff, hcont⟩ := hcont
    simp only [endPos] at hlen
    obtain ⟨h1, h2, h3, ⟨e, he⟩, h4⟩ := hps p (by simp)
    rw [hoff] at h3
    have hle : ∀ (l : List Placed) (v : Nat), v ≤ endPos v l := by
      intro l
      induction l with
      | nil => intro v; simp [endPos]
      | cons q l ihl =>
        intro v; simp only [endPos]
        have := ihl (PlanSpec.up512 (v + q.ref.hdr + q.ref.ent.size))
        have := le_up512 (v + q.ref.hdr + q.ref.ent.size)
        omega
    have hle' := hle ps (PlanSpec.up512 (w + p.ref.hdr + p.ref.ent.size))
    have hup := le_up512 (w + p.ref.hdr + p.ref.ent.size)
    have hHl := C01_header_length env e (H p) he
    rw [h1] at hHl
    have hnx : PlanSpec.up512 (w + p.ref.hdr + p.ref.ent.size) = w + p.ref.hdr + pad512 (D p).length := by
      rw [h2]
      unfold PlanSpec.up512 pad512
      omega
    have hpl : (D p).length ≤ pad512 (D p).length := by unfold pad512; omega
    -- split the rest of the archive
    let nxt := PlanSpec.up512 (w + p.ref.hdr + p.ref.ent.size)
    let pad := (A.drop (w + (H p ++ D p).length)).take (nxt - (w + (H p ++ D p).length))
    have hpadl : pad.length = nxt - (w + p.ref.hdr + (D p).length) := by
      simp only [pad, nxt, List.length_take, List.length_drop, List.length_append, h1]; omega
    have hsplit : A.drop w = H p ++ (D p ++ (pad ++ A.drop nxt)) := by
      have a1 : A.drop w = (H p ++ D p) ++ A.drop (w + (H p ++ D p).length) := by
        unfold Holds at h3
        conv => lhs; rw [← List.take_append_drop (H p ++ D p).length (A.drop w)]
        rw [h3, List.drop_drop]
      have a2 : A.drop (w + (H p ++ D p).length) = pad ++ A.drop nxt := by
        conv => lhs; rw [← List.take_append_drop (nxt - (w + (H p ++ D p).length)) (A.drop (w + (H p ++ D p).length))]
        rw [List.drop_drop]
        congr 2
        simp only [nxt, List.length_append, h1]; omega
      rw [a1, a2]; simp
    have hread := h4 pad (A.drop nxt) (by
      rw [hpadl]
      simp only [nxt]
      omega)
    have hrec := ih nxt hcont hlen (up512_mod _) (fun q hq => hps q (by simp [hq]))
    rw [hsplit, readArchive, if_neg]
    · rw [hread]
      simp only [hrec, endPos, List.map_cons, List.cons_append]
      rw [dif_pos]
      · show _ = Option.map _ (readArchive (List.drop (endPos nxt ps) A))
        cases readArchive (List.drop (endPos nxt ps) A) <;> rfl
      rw [← hsplit]
      simp only [List.length_drop, nxt]
      omega
    · intro h
      rcases h with h | h
      · have := congrArg List.length h
        simp only [List.length_append, List.length_nil] at this
        omega
      · exact not_zero_block he _ h

/-- An archive that holds, back to back, the header and data of each placed entry reads back as
the list of their members. -/
theorem readArchive_placed {env : Env} (A : Bytes) (mem : Placed → Member) (H D : Placed → Bytes) :
    ∀ (ps : List Placed) (w : Nat), PlanSpec.Contiguous w ps → A.length = endPos w ps →
    w % 512 = 0 →
    (∀ p ∈ ps, (H p).length = p.ref.hdr ∧ pad512 (D p).length = pad512 p.ref.ent.size ∧
      Holds A p.slice.offArch (H p ++ D p) ∧ (∃ e, makeTarHeader env e = .ok (H p)) ∧
      ∀ padding rest : Bytes, (D p).length + padding.length = pad512 (D p).length →
        readMember (H p ++ (D p ++ (padding ++ rest))) = some (mem p, rest)) →
    readArchive (A.drop w) = some (ps.map mem) := by
  intro ps w hcont hlen hw hps
  rw [readArchive_placed_then A mem H D ps w hcont (by omega) hw hps, List.drop_of_length_le (by omega), readArchive]
  simp

/-- Such an archive is not terminated: there is nothing after the last member. -/
theorem terminated_placed {env : Env} (A : Bytes) (mem : Placed → Member) (H D : Placed → Bytes) :
    ∀ (ps : List Placed) (w : Nat), PlanSpec.Contiguous w ps → A.length = endPos w ps →
    w % 512 = 0 →
    (∀ p ∈ ps, (H p).length = p.ref.hdr ∧ (D p).length = p.ref.ent.size ∧
      Holds A p.slice.offArch (H p ++ D p) ∧ (∃ e, makeTarHeader env e = .ok (H p)) ∧
      ∀ padding rest : Bytes, (D p).length + padding.length = pad512 (D p).length →
        readMember (H p ++ (D p ++ (padding ++ rest))) = some (mem p, rest)) →
    terminated (A.drop w) = false := by
  intro ps
  induction ps with
  | nil =>
    intro w _ hlen _ _
    simp only [endPos] at hlen
    rw [List.drop_of_length_le (by omega)]
    decide +kernel
  | cons p ps ih =>
    intro w hcont hlen hw hps
    simp only [PlanSpec.Contiguous] at hcont
    obtain ⟨hoff, hcont⟩ := hcont
    simp only [endPos] at hlen
    obtain ⟨h1, h2, h3, ⟨e, he⟩, h4⟩ := hps p (by simp)
    rw [hoff] at h3
    have hle : ∀ (l : List Placed) (v : Nat), v ≤ endPos v l := by
      intro l
      induction l with
      | nil => intro v; simp [endPos]
      | cons q l ihl =>
        intro v; simp only [endPos]
        have := ihl (PlanSpec.up512 (v + q.ref.hdr + q.ref.ent.size))
        have := le_up512 (v + q.ref.hdr + q.ref.ent.size)
        omega
    have hle' := hle ps (PlanSpec.up512 (w + p.ref.hdr + p.ref.ent.size))
    have hup := le_up512 (w + p.ref.hdr + p.ref.ent.size)
    have hHl := C01_header_length env e (H p) he
    -- split the rest of the archive
    let nxt := PlanSpec.up512 (w + p.ref.hdr + p.ref.ent.size)
    let pad := (A.drop (w + (H p ++ D p).length)).take (nxt - (w + (H p ++ D p).length))
    have hpadl : pad.length = nxt - (w + p.ref.hdr + p.ref.ent.size) := by
      simp only [pad, nxt, List.length_take, List.length_drop, List.length_append, h1, h2]; omega
    have hsplit : A.drop w = H p ++ (D p ++ (pad ++ A.drop nxt)) := by
      have a1 : A.drop w = (H p ++ D p) ++ A.drop (w + (H p ++ D p).length) := by
        unfold Holds at h3
        conv => lhs; rw [← List.take_append_drop (H p ++ D p).length (A.drop w)]
        rw [h3, List.drop_drop]
      have a2 : A.drop (w + (H p ++ D p).length) = pad ++ A.drop nxt := by
        conv => lhs; rw [← List.take_append_drop (nxt - (w + (H p ++ D p).length)) (A.drop (w + (H p ++ D p).length))]
        rw [List.drop_drop]
        congr 2
        simp only [nxt, List.length_append, h1, h2]; omega
      rw [a1, a2]; simp
    have hread := h4 pad (A.drop nxt) (by
      rw [hpadl, h2]
      simp only [nxt]
      rw [h1] at hHl
      unfold PlanSpec.up512 pad512
      omega)
    have hrec := ih nxt hcont hlen (up512_mod _) (fun q hq => hps q (by simp [hq]))
    rw [hsplit, terminated, if_neg (not_zero_block he _), hread]
    simp only [hrec]
    split <;> rfl

end Parfu
