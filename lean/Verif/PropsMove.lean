/-
Property theorems C15 (any order of execution), C19, C20, C21: the finished archive.
-/
import Verif.MoveArchive
set_option autoImplicit false

namespace Parfu.Props
open Parfu MoveSpec TarSpec ScanSpec PlanSpec

/-- A job as the 0.6 main program runs it: the target tree is scanned, ordered, given offsets and
planned.  The last three fields are the limits outside of which the program misbehaves (C13, C17):
every bundle fits the bucket, the archive is shorter than 2 GiB, no message is 2 GiB long. -/
structure Job (env : Env) (fs : FS) (base : Bytes) (root : FNode) (S : StdSort Ref) (g : Bytes → UInt8)
    (b mx : Nat) (c : Coll) (bundles : List (List Order)) : Prop where
  tree : Archivable env fs base root
  luck : ∀ r, g r = 0
  blocks : b % 512 = 0
  scanned : scan g base root = .ok c
  planned : createOrders 0 b mx (setOffsets (orderFiles S c)) = some bundles
  fits : ∀ l ∈ bundles, up512 (endOf l) - startOf l ≤ b
  small : ∀ o ∈ bundles.flatten, FitsInt o
  msgs : ∀ l ∈ bundles, (printBundle l).length + 2 < 2 ^ 31

section
variable {env : Env} {fs : FS} {base : Bytes} {root : FNode} {S : StdSort Ref} {g : Bytes → UInt8}
  {b mx : Nat} {c : Coll} {bundles : List (List Order)}

theorem Job.setup (j : Job env fs base root S g b mx c bundles) :
    CollOk b (orderFiles S c) ∧
    (∃ (path : Placed → List Bytes) (node : Placed → FNode) (H : Placed → Bytes) (m : Placed → Member),
      ∀ q ∈ (setOffsets (orderFiles S c)).all, Entry env fs base root q (path q) (node q) (H q) (m q)) ∧
    Runnable env fs base b bundles (endPos 0 (setOffsets (orderFiles S c)).all) :=
  archive_setup S j.tree g j.luck b mx j.blocks c j.scanned bundles j.planned j.fits j.small j.msgs

/-- The tree being as it was scanned, every order brings all it was planned to bring. -/
theorem Job.full (j : Job env fs base root S g b mx c bundles) : ∀ o ∈ bundles.flatten,
    (loadOf env fs base (asReceived o)).length = o.hdr + o.size := by
  obtain ⟨hok, ⟨path, node, H, m, hE⟩, hr⟩ := j.setup
  obtain ⟨hflat, hs, hhdr, _, _, _⟩ := plan_flat hok j.planned
  intro o ho
  have h1 := j.small o ho
  rw [hflat] at ho
  obtain ⟨q, hq, hf⟩ := List.mem_flatMap.1 ho
  have hsp := frags_spec 0 b q (hs q hq) (hhdr q hq).2 o hf
  have he := hE q hq
  unfold FitsInt at h1
  rw [(entry_load j.tree he hsp.2.1 hsp.2.2.2.2.1 hsp.2.2.2.2.2.1 (by omega)).1]
  have hoff := hsp.2.2.2.2.2.1
  have hdl := he.dlen
  rw [List.length_append, List.length_take, List.length_drop]
  rcases hsp.2.2.2.2.1 with h | h
  · rw [h]; simp only [ne_eq, not_true, if_false, List.length_nil]; omega
  · have := hhdr q hq
    rw [if_pos (by omega), he.hlen]; omega

/-- **C08** Ordering the files by size keeps every directory before what it contains. -/
theorem C08_order_keeps_parents (j : Job env fs base root S g b mx c bundles) :
    (∃ r t, (orderFiles S c).dirs = r :: t ∧ r.ent.rel = []) ∧
    (∀ pre d post, ((orderFiles S c).dirs ++ (orderFiles S c).files) = pre ++ d :: post → pre ≠ [] →
      ∃ p ∈ pre, p.ent.kind = .dir ∧ ParentOf p.ent.rel d.ent.rel) :=
  ordered_parents S g base root j.tree.isDir j.tree.treeOk j.luck c j.scanned

/-- **C19** No bundle of a job makes its worker fail, crash or hang, whatever is in the worker's
buffer. -/
theorem C19_no_worker_fails (j : Job env fs base root S g b mx c bundles) (l : List Order)
    (hl : l ∈ bundles) (memory : Bytes) (hm : memory.length = b) :
    ∃ w, workerDo env fs base memory (received l) = .ok w := by
  obtain ⟨_, _, hr⟩ := j.setup
  obtain ⟨d, h, _⟩ := run_bundle hr l hl memory hm
  exact ⟨_, h⟩

/-- **C19 (partial)** When every bundle has been carried out once, by any workers, with any previous
contents of their memory, and the writes reached the archive in any order, a tar reader finds in the
archive exactly the members specified for the objects of the tree that can be reached: none is
missing, none occurs twice, each has its path, type, link target, mode, owner, group, time, and for
a regular file exactly its bytes; and every directory comes before what it contains.
Missing: jobs outside the limits of `Job` and of `Archivable` (2 GiB, TABs in names, oversized
bundles, directories whose planned header is too short, ...). -/
theorem C19_archive_is_tar_partial (j : Job env fs base root S g b mx c bundles) (xs : List Task)
    (hxs : Carried env fs base b bundles xs) (ws : List WriteReq) (hws : ws.Perm (xs.map Task.write)) :
    ∃ (ms : List Member) (objs : List (List Bytes × FNode)),
      readArchive (writeAll ws) = some ms ∧
      ms.map some = objs.map (fun x => memberOf env base x.1 x.2) ∧
      (objs.map Prod.fst).Nodup ∧
      (∀ p n, (p, n) ∈ objs ↔ Seen root p n ∧ describe p n ≠ none) ∧
      (∀ pre x post, objs = pre ++ x :: post → pre ≠ [] →
        ∃ y ∈ pre, IsDir y.2 ∧ ∃ name, x.1 = y.1 ++ [name]) := by
  obtain ⟨hok, ⟨path, node, H, m, hE⟩, hr⟩ := j.setup
  obtain ⟨hlen, hA, _, _⟩ := run_all hr xs hxs ws hws
  obtain ⟨hflat, hs, hhdr, hnd, hcont, _⟩ := plan_flat hok j.planned
  have hread := readArchive_placed (env := env) (writeAll ws) m H (fun q => contentOf (node q))
    (setOffsets (orderFiles S c)).all 0 hcont hlen (by omega) (by
      intro q hq
      have he := hE q hq
      refine ⟨he.hlen, by rw [he.dlen], archive_holds j.tree hok j.planned j.small _ (fun o ho _ => hA o ho) hq he, ?_, ?_⟩
      · obtain ⟨e, _, h⟩ := he.made; exact ⟨e, h⟩
      · intro padding rest hp
        rw [he.dlen] at hp
        exact he.reads padding rest hp)
  rw [List.drop_zero] at hread
  have hrel : ∀ q ∈ (setOffsets (orderFiles S c)).all, q.ref.ent.rel = pathText (path q) := by
    intro q hq
    have hd := (hE q hq).desc
    cases hn : node q <;> rw [hn] at hd <;> simp [describe] at hd <;> rw [← hd]
  have hname : ∀ q ∈ (setOffsets (orderFiles S c)).all, ∀ x ∈ path q, NameOk x := fun q hq =>
    at_nameOk (seen_at (hE q hq).seen) j.tree.treeOk
  have hrefs : (setOffsets (orderFiles S c)).all.map Placed.ref =
      (orderFiles S c).dirs ++ (orderFiles S c).files := by
    rw [setOffsets_all, placeFrom_refs]
  refine ⟨_, (setOffsets (orderFiles S c)).all.map (fun q => (path q, node q)), hread, ?_, ?_, ?_, ?_⟩
  · rw [List.map_map, List.map_map]
    apply List.map_congr_left
    intro q hq
    exact ((hE q hq).memb).symm
  · rw [List.map_map]
    have : (setOffsets (orderFiles S c)).all.map (fun p => p.ref.ent.rel) =
        ((setOffsets (orderFiles S c)).all.map (Prod.fst ∘ fun q => (path q, node q))).map pathText := by
      rw [List.map_map]
      exact List.map_congr_left hrel
    rw [this] at hnd
    exact hnd.of_map
  · intro p n
    constructor
    · intro h
      obtain ⟨q, hq, e⟩ := List.mem_map.1 h
      have he := hE q hq
      obtain ⟨rfl, rfl⟩ := Prod.mk.inj e
      exact ⟨he.seen, by rw [he.desc]; simp⟩
    · rintro ⟨hseen, hne⟩
      obtain ⟨e, hd⟩ := Option.ne_none_iff_exists'.1 hne
      obtain ⟨c', h', hex, _⟩ := C07_scan_exact g base root j.tree.isDir j.tree.treeOk j.luck
      rw [j.scanned] at h'
      have := Except.ok.inj h'
      subst this
      obtain ⟨r, hr', hre⟩ := List.mem_map.1 ((hex e).2 ⟨p, n, hseen, hd⟩)
      have hpm : ((orderFiles S c).dirs ++ (orderFiles S c).files).Perm (c.dirs ++ c.files) :=
        List.Perm.append_left _ (C09_order_files S c).2.1
      have hr2 := hpm.mem_iff.2 hr'
      rw [← hrefs] at hr2
      obtain ⟨q, hq, hqr⟩ := List.mem_map.1 hr2
      refine List.mem_map.2 ⟨q, hq, ?_⟩
      have he := hE q hq
      have hpp : path q = p := by
        apply pathText_inj (hname q hq) (at_nameOk (seen_at hseen) j.tree.treeOk)
        rw [← hrel q hq, hqr, hre]
        cases n <;> simp [describe] at hd <;> rw [← hd]
      have h1 := j.tree.fs _ _ he.seen
      have h2 := j.tree.fs _ _ hseen
      rw [hpp, h2] at h1
      rw [hpp, Option.some.inj h1]
  · intro pre x post heq hne
    obtain ⟨qs, rest, hall, hpre, hrest⟩ := List.map_eq_append_iff.1 heq
    obtain ⟨q, qs', rfl, hqx, hpost⟩ := List.map_eq_cons_iff.1 hrest
    have hpar := (ordered_parents S g base root j.tree.isDir j.tree.treeOk j.luck c j.scanned).2
      (qs.map Placed.ref) q.ref (qs'.map Placed.ref) (by rw [← hrefs, hall]; simp)
      (by intro h; apply hne; rw [← hpre]; simp at h; simp [h])
    obtain ⟨r, hr', hk, hp⟩ := hpar
    obtain ⟨q', hq', rfl⟩ := List.mem_map.1 hr'
    have hqm : q ∈ (setOffsets (orderFiles S c)).all := by rw [hall]; simp
    have hqm' : q' ∈ (setOffsets (orderFiles S c)).all := by rw [hall]; simp [hq']
    refine ⟨(path q', node q'), by rw [← hpre]; exact List.mem_map.2 ⟨q', hq', rfl⟩, ?_, ?_⟩
    · have hd := (hE q' hqm').desc
      cases hn : node q' <;> rw [hn] at hd <;> simp [describe] at hd <;> rw [← hd] at hk <;>
        simp at hk
      trivial
    · rw [hrel q hqm, hrel q' hqm'] at hp
      rw [← hqx]
      exact parentOf_path (hname q' hqm') (hname q hqm) hp

/-- **C15** The order in which the workers' writes reach the archive does not matter: any two
executions with the same writes leave the same file. -/
theorem C15_any_order (j : Job env fs base root S g b mx c bundles) (xs : List Task)
    (hxs : Carried env fs base b bundles xs) (ws ws' : List WriteReq)
    (hws : ws.Perm (xs.map Task.write)) (hws' : ws'.Perm (xs.map Task.write)) :
    writeAll ws = writeAll ws' := by
  obtain ⟨_, _, hr⟩ := j.setup
  have hap := (carried_apart hr xs hxs).2
  have hap' : ws.Pairwise (fun a b : WriteReq => Apart a.1 a.2.length b.1 b.2.length) :=
    (hws.pairwise_iff (by intro a b hab; exact hab.symm)).2 hap
  unfold writeAll
  apply List.Perm.foldl_eq' (hws.trans hws'.symm)
  intro x hx y hy f
  by_cases hxy : x = y
  · rw [hxy]
  · haveI : Std.Symm (fun a b : WriteReq => Apart a.1 a.2.length b.1 b.2.length) :=
      ⟨fun a b hab => hab.symm⟩
    have ha : Apart x.1 x.2.length y.1 y.2.length := hap'.forall hx hy hxy
    apply List.ext_getElem?
    intro i
    unfold Apart at ha
    simp only [writeAt_get, writeAt_length]
    split <;> split <;> (try (exfalso; omega)) <;> (try rfl) <;>
      (repeat' split) <;> (first | rfl | omega | (exfalso; omega))

/-- The archive byte lies in the padding between a member's data and the next member of the same
bundle. -/
def InnerPadding (bundles : List (List Order)) (i : Nat) : Prop :=
  ∃ l ∈ bundles, startOf l ≤ i ∧ i < endOf l ∧ ∀ o ∈ l, i < o.pos ∨ Order.stop o ≤ i

/-- **C20 (partial)** Two executions of a job leave archives of the same length that agree
everywhere but in the padding between members of one bundle.  Missing: that padding, see
`C20_padding_is_memory`. -/
theorem C20_determined_partial (j : Job env fs base root S g b mx c bundles) (xs xs' : List Task)
    (hxs : Carried env fs base b bundles xs) (hxs' : Carried env fs base b bundles xs')
    (ws ws' : List WriteReq) (hws : ws.Perm (xs.map Task.write)) (hws' : ws'.Perm (xs'.map Task.write)) :
    (writeAll ws).length = (writeAll ws').length ∧
    ∀ i, ¬ InnerPadding bundles i → (writeAll ws)[i]? = (writeAll ws')[i]? := by
  obtain ⟨_, _, hr⟩ := j.setup
  obtain ⟨a1, a2, a3, _⟩ := run_all hr xs hxs ws hws
  obtain ⟨b1, b2, b3, _⟩ := run_all hr xs' hxs' ws' hws'
  refine ⟨by rw [a1, b1], ?_⟩
  intro i hi
  by_cases hiE : i < endPos 0 (setOffsets (orderFiles S c)).all
  · -- some bundle covers the byte
    have hcov : ∀ (bs : List (List Order)) (w w' : Nat), (∀ l ∈ bs, l ≠ []) → ChainTo w bs.flatten w' →
        w ≤ i → i < w' → ∃ l ∈ bs, startOf l ≤ i ∧ i < up512 (endOf l) := by
      intro bs
      induction bs with
      | nil => intro w w' _ h; simp [ChainTo] at h; omega
      | cons x bs ih =>
        intro w w' hne hch h1 h2
        rw [List.flatten_cons, chainTo_append] at hch
        obtain ⟨k, c1, c2⟩ := hch
        have hx := hne x (by simp)
        have hst := chainTo_start c1 hx
        have hen := chainTo_end c1 hx
        by_cases hk : i < k
        · exact ⟨x, by simp, by omega, by omega⟩
        · obtain ⟨l, hl, h⟩ := ih k w' (fun l hl => hne l (by simp [hl])) c2 (by omega) h2
          exact ⟨l, by simp [hl], h⟩
    obtain ⟨l, hl, h1, h2⟩ := hcov bundles 0 _ hr.nonempty hr.chain (by omega) hiE
    by_cases he : endOf l ≤ i
    · rw [a3 l hl i he h2, b3 l hl i he h2]
    · have : ∃ o ∈ l, o.pos ≤ i ∧ i < Order.stop o := by
        by_contra hno
        apply hi
        refine ⟨l, hl, h1, by omega, ?_⟩
        intro o ho
        by_contra hc
        exact hno ⟨o, ho, by omega, by omega⟩
      obtain ⟨o, ho, h3, h4⟩ := this
      have hof : o ∈ bundles.flatten := List.mem_flatten.2 ⟨l, hl, ho⟩
      have hll' := j.full o hof
      unfold Order.stop at h4
      have e1 := (holds_iff _ _ _).1 (a2 o hof) (i - o.pos) (by omega)
      have e2 := (holds_iff _ _ _).1 (b2 o hof) (i - o.pos) (by omega)
      rw [show o.pos + (i - o.pos) = i by omega] at e1 e2
      rw [e1, e2]
  · rw [List.getElem?_eq_none (by omega), List.getElem?_eq_none (by omega)]

/-- **C20, violated** What is written into the padding between two members of a bundle is whatever
was in the worker's buffer before: freshly allocated memory is put into the archive. -/
theorem C20_padding_is_memory (j : Job env fs base root S g b mx c bundles) (xs : List Task)
    (hxs : Carried env fs base b bundles xs) (ws : List WriteReq) (hws : ws.Perm (xs.map Task.write))
    (x : Task) (hx : x ∈ xs) (i : Nat) (h1 : startOf x.bundle ≤ i) (h2 : i < endOf x.bundle)
    (h3 : ∀ o ∈ x.bundle, i < o.pos ∨ Order.stop o ≤ i) :
    (writeAll ws)[i]? = x.memory[i - startOf x.bundle]? := by
  obtain ⟨_, _, hr⟩ := j.setup
  refine (run_all hr xs hxs ws hws).2.2.2 x hx i h1 h2 (fun o ho => ?_)
  have hb : x.bundle ∈ bundles := by rw [← hxs.1]; exact List.mem_map.2 ⟨x, hx, rfl⟩
  have hl := (hr.loads o (List.mem_flatten.2 ⟨_, hb, ho⟩)).len.2
  have h3' := h3 o ho
  unfold Order.stop at h3'
  simp only [asReceived] at hl ⊢
  omega

/-- **C21, violated** No archive parfu makes is terminated: the two zero blocks that must follow the
last member are never written. -/
theorem C21_never_terminated (j : Job env fs base root S g b mx c bundles) (xs : List Task)
    (hxs : Carried env fs base b bundles xs) (ws : List WriteReq) (hws : ws.Perm (xs.map Task.write)) :
    terminated (writeAll ws) = false := by
  obtain ⟨hok, ⟨path, node, H, m, hE⟩, hr⟩ := j.setup
  obtain ⟨hlen, hA, _, _⟩ := run_all hr xs hxs ws hws
  obtain ⟨hflat, hs, hhdr, hnd, hcont, _⟩ := plan_flat hok j.planned
  have hread := terminated_placed (env := env) (writeAll ws) m H (fun q => contentOf (node q))
    (setOffsets (orderFiles S c)).all 0 hcont hlen (by omega) (by
      intro q hq
      have he := hE q hq
      refine ⟨he.hlen, he.dlen, archive_holds j.tree hok j.planned j.small _ (fun o ho _ => hA o ho) hq he, ?_, ?_⟩
      · obtain ⟨e, _, h⟩ := he.made; exact ⟨e, h⟩
      · intro padding rest hp
        rw [he.dlen] at hp
        exact he.reads padding rest hp)
  rw [List.drop_zero] at hread
  exact hread

end

/-! ### a concrete job -/

/-- Insertion into a sorted list. -/
def demoInsert (lt : Ref → Ref → Bool) (a : Ref) : List Ref → List Ref
  | [] => [a]
  | x :: l => if lt x a then x :: demoInsert lt a l else a :: x :: l

theorem demoInsert_perm (lt : Ref → Ref → Bool) (a : Ref) (l : List Ref) :
    (demoInsert lt a l).Perm (a :: l) := by
  induction l with
  | nil => exact List.Perm.refl _
  | cons x l ih =>
    unfold demoInsert
    split
    · exact (ih.cons x).trans (List.Perm.swap a x l)
    · exact List.Perm.refl _

/-- Another conforming sort: insertion sort, which can be computed. -/
def demoSort2 : StdSort Ref where
  run lt l := l.foldr (demoInsert lt) []
  perm lt l _ := by
    induction l with
    | nil => exact List.Perm.refl _
    | cons a l ih => exact (demoInsert_perm lt a _).trans (ih.cons a)
  sorted lt l h := by
    have hins : ∀ (a : Ref) (l : List Ref), l.Pairwise (fun a b => lt b a = false) →
        (demoInsert lt a l).Pairwise (fun a b => lt b a = false) := by
      intro a l
      induction l with
      | nil => intro _; simp [demoInsert]
      | cons x l ih =>
        intro hp
        rw [List.pairwise_cons] at hp
        unfold demoInsert
        by_cases hxa : lt x a = true
        · rw [if_pos hxa, List.pairwise_cons]
          refine ⟨?_, ih hp.2⟩
          intro y hy
          rcases List.mem_cons.1 ((demoInsert_perm lt a l).mem_iff.1 hy) with rfl | hy
          · cases hya : lt y x with
            | false => rfl
            | true =>
              have := h.trans x y x hxa hya
              rw [h.irrefl] at this; exact absurd this (by simp)
          · exact hp.1 y hy
        · rw [if_neg hxa]
          have hxa' : lt x a = false := by simpa using hxa
          refine List.pairwise_cons.2 ⟨?_, List.pairwise_cons.2 hp⟩
          intro y hy
          rcases List.mem_cons.1 hy with rfl | hy
          · exact hxa'
          · cases hya : lt y a with
            | false => rfl
            | true =>
              have hyx := hp.1 y hy
              cases hxy : lt x y with
              | true => have := h.trans x y a hxy hya; rw [this] at hxa'; exact absurd hxa' (by simp)
              | false =>
                cases hax : lt a x with
                | true =>
                  have := h.trans y a x hya hax
                  rw [this] at hyx; exact absurd hyx (by simp)
                | false =>
                  have := (h.incomp a x y hax hxa' hxy hyx).2
                  rw [this] at hya; exact absurd hya (by simp)
    induction l with
    | nil => exact List.Pairwise.nil
    | cons a l ih => exact hins a _ ih

/-- The target directory. -/
def demoBase : Bytes := [47, 116]

/-- User and group 0 have the names `r` and `g`. -/
def demoEnv2 : Env := ⟨fun u => if u = 0 then some [114] else none, fun u => if u = 0 then some [103] else none⟩

/-- Everything that can be reached in `demoTree`. -/
def demoSeen : List (List Bytes × FNode) :=
  let m : Meta := ⟨420, 0, 0, 0⟩
  [([], demoTree), ([[98]], .reg m [1, 2, 3]),
   ([[100]], .dir m true (.cons [46, 104] (.reg m [7]) (.cons [108] (.lnk m [116]) .nil))),
   ([[100], [46, 104]], .reg m [7]), ([[100], [108]], .lnk m [116]),
   ([[101]], .dir m false (.cons [120] (.reg m []) .nil)), ([[110]], .other m)]

theorem demo_seen {p : List Bytes} {n : FNode} (h : Seen demoTree p n) : (p, n) ∈ demoSeen := by
  unfold demoTree at h
  cases h with
  | self => simp [demoSeen, demoTree]
  | step hc h' =>
    cases hc with
    | here h1 h2 => exact absurd rfl h1
    | there hc =>
    cases hc with
    | here h1 h2 => exact absurd rfl h2
    | there hc =>
    cases hc with
    | here h1 h2 => cases h'; simp [demoSeen]
    | there hc =>
    cases hc with
    | here h1 h2 =>
      cases h' with
      | self => simp [demoSeen]
      | step hc h' =>
        cases hc with
        | here => cases h'; simp [demoSeen]
        | there hc =>
        cases hc with
        | here => cases h'; simp [demoSeen]
        | there hc => cases hc
    | there hc =>
    cases hc with
    | here h1 h2 => cases h'; simp [demoSeen]
    | there hc =>
    cases hc with
    | here h1 h2 => cases h'; simp [demoSeen]
    | there hc => cases hc

/-- The file system: `demoTree` below `/t`. -/
def demoFs : FS := fun path =>
  (demoSeen.find? (fun x => demoBase ++ [47] ++ pathText x.1 == path)).map Prod.snd

theorem demo_archivable : Archivable demoEnv2 demoFs demoBase demoTree := by
  refine ⟨⟨?_, ?_, ?_, ?_, ?_, ?_, ?_, ?_, ?_⟩, ?_⟩
  · exact demoTree_ok.1
  · exact demoTree_ok.2
  · intro p n h
    have := demo_seen h
    simp only [demoSeen, List.mem_cons, List.not_mem_nil, or_false, Prod.mk.injEq] at this
    rcases this with ⟨rfl, rfl⟩ | ⟨rfl, rfl⟩ | ⟨rfl, rfl⟩ | ⟨rfl, rfl⟩ | ⟨rfl, rfl⟩ | ⟨rfl, rfl⟩ | ⟨rfl, rfl⟩ <;> rfl
  · decide
  · decide
  · intro p n h
    have := demo_seen h
    simp only [demoSeen, List.mem_cons, List.not_mem_nil, or_false, Prod.mk.injEq] at this
    rcases this with ⟨rfl, rfl⟩ | ⟨rfl, rfl⟩ | ⟨rfl, rfl⟩ | ⟨rfl, rfl⟩ | ⟨rfl, rfl⟩ | ⟨rfl, rfl⟩ | ⟨rfl, rfl⟩ <;> decide
  · intro p m t h
    have := demo_seen h
    simp [demoSeen, demoTree] at this
    obtain ⟨_, _, rfl⟩ := this
    decide
  · intro p n h
    have := demo_seen h
    simp only [demoSeen, List.mem_cons, List.not_mem_nil, or_false, Prod.mk.injEq] at this
    rcases this with ⟨rfl, rfl⟩ | ⟨rfl, rfl⟩ | ⟨rfl, rfl⟩ | ⟨rfl, rfl⟩ | ⟨rfl, rfl⟩ | ⟨rfl, rfl⟩ | ⟨rfl, rfl⟩ <;> decide
  · intro p n h _
    have := demo_seen h
    have hm : metaOf n = ⟨420, 0, 0, 0⟩ := by
      simp only [demoSeen, List.mem_cons, List.not_mem_nil, or_false, Prod.mk.injEq] at this
      rcases this with ⟨rfl, rfl⟩ | ⟨rfl, rfl⟩ | ⟨rfl, rfl⟩ | ⟨rfl, rfl⟩ | ⟨rfl, rfl⟩ | ⟨rfl, rfl⟩ | ⟨rfl, rfl⟩ <;> rfl
    rw [hm]
    exact ⟨by decide, by decide, by decide, by decide, ⟨[114], rfl, by decide, by decide⟩,
      ⟨[103], rfl, by decide, by decide⟩⟩
  · intro p m o k h hp
    have := demo_seen h
    simp only [demoSeen, List.mem_cons, List.not_mem_nil, or_false, Prod.mk.injEq] at this
    rcases this with ⟨rfl, _⟩ | ⟨rfl, _⟩ | ⟨rfl, _⟩ | ⟨rfl, _⟩ | ⟨rfl, _⟩ | ⟨rfl, _⟩ | ⟨rfl, _⟩ <;> decide

/-- The collection scanned from `demoTree`. -/
def demoC : Coll :=
  { dirs := [⟨-12, ⟨[], .dir, [], 0⟩, 512⟩, ⟨-12, ⟨[100], .dir, [], 0⟩, 512⟩, ⟨-12, ⟨[101], .dir, [], 0⟩, 512⟩],
    files := [⟨3, ⟨[98], .reg, [], 3⟩, 512⟩, ⟨1, ⟨[100, 47, 46, 104], .reg, [], 1⟩, 512⟩,
              ⟨-11, ⟨[100, 47, 108], .lnk, [116], 0⟩, 512⟩] }

/-- Its plan, three orders to a bundle. -/
def demoBundles : List (List Order) :=
  [[⟨0, [], .dir, [], 0, 512, 0, 0⟩, ⟨0, [100], .dir, [], 0, 512, 512, 0⟩, ⟨0, [101], .dir, [], 0, 512, 1024, 0⟩],
   [⟨0, [100, 47, 108], .lnk, [116], 0, 512, 1536, 0⟩, ⟨0, [100, 47, 46, 104], .reg, [], 1, 512, 2048, 0⟩,
    ⟨0, [98], .reg, [], 3, 512, 3072, 0⟩]]

theorem demo_job : Job demoEnv2 demoFs demoBase demoTree demoSort2 (fun _ => 0) 102400 3 demoC demoBundles := by
  constructor
  · exact demo_archivable
  · intro _; rfl
  · decide
  · decide +kernel
  · decide +kernel
  · decide +kernel
  · decide +kernel
  · decide +kernel

/-- Any contents of the workers' buffers give an execution. -/
theorem demo_carried (m1 m2 : Bytes) (h1 : m1.length = 102400) (h2 : m2.length = 102400) :
    ∃ xs, Carried demoEnv2 demoFs demoBase 102400 demoBundles xs ∧ xs.map Task.memory = [m1, m2] := by
  obtain ⟨w1, e1⟩ := C19_no_worker_fails demo_job demoBundles[0] (by simp) m1 h1
  obtain ⟨w2, e2⟩ := C19_no_worker_fails demo_job demoBundles[1] (by simp) m2 h2
  refine ⟨[⟨_, m1, w1⟩, ⟨_, m2, w2⟩], ⟨rfl, ?_⟩, rfl⟩
  intro x hx
  simp only [List.mem_cons, List.not_mem_nil, or_false] at hx
  rcases hx with rfl | rfl
  · exact ⟨h1, e1⟩
  · exact ⟨h2, e2⟩

/-- The whole chain on the concrete job: an execution exists, its archive is readable and has the
six members. -/
example : ∃ xs ms, Carried demoEnv2 demoFs demoBase 102400 demoBundles xs ∧
    readArchive (writeAll (xs.map Task.write)) = some ms ∧
    (∃ m ∈ ms, m.path = [47, 116, 47, 98] ∧ m.data = [1, 2, 3] ∧ m.flag = 48) ∧
    terminated (writeAll (xs.map Task.write)) = false := by
  obtain ⟨xs, hxs, _⟩ := demo_carried (List.replicate 102400 7) (List.replicate 102400 9)
    (List.length_replicate ..) (List.length_replicate ..)
  obtain ⟨ms, objs, h1, h2, _, h4, _⟩ := C19_archive_is_tar_partial demo_job xs hxs _ (List.Perm.refl _)
  refine ⟨xs, ms, hxs, h1, ?_, C21_never_terminated demo_job xs hxs _ (List.Perm.refl _)⟩
  have hm := (h4 [[98]] (.reg ⟨420, 0, 0, 0⟩ [1, 2, 3])).2
    ⟨.step (.there (.there (.here (by decide) (by decide)))) (.self _), by simp [describe]⟩
  have : memberOf demoEnv2 demoBase [[98]] (.reg ⟨420, 0, 0, 0⟩ [1, 2, 3]) ∈ ms.map some := by
    rw [h2]; exact List.mem_map.2 ⟨_, hm, rfl⟩
  obtain ⟨m, hm1, hm2⟩ := List.mem_map.1 this
  refine ⟨m, hm1, ?_⟩
  have hm3 := Option.some.inj hm2
  rw [hm3]
  exact ⟨rfl, rfl, rfl⟩

/-- **C20, violated**: two executions of the same job, on the same tree, that differ only in what was
in memory before, leave different archives. -/
theorem C20_archives_differ : ∃ xs xs',
    Carried demoEnv2 demoFs demoBase 102400 demoBundles xs ∧
    Carried demoEnv2 demoFs demoBase 102400 demoBundles xs' ∧
    writeAll (xs.map Task.write) ≠ writeAll (xs'.map Task.write) := by
  have key : ∀ v : UInt8, ∃ xs, Carried demoEnv2 demoFs demoBase 102400 demoBundles xs ∧
      (writeAll (xs.map Task.write))[3000]? = some v := by
    intro v
    obtain ⟨xs, hxs, hm⟩ := demo_carried (List.replicate 102400 v) (List.replicate 102400 v)
      (List.length_replicate ..) (List.length_replicate ..)
    refine ⟨xs, hxs, ?_⟩
    obtain ⟨x, hx, hb⟩ : ∃ x ∈ xs, x.bundle = demoBundles[1] := by
      have : demoBundles[1] ∈ xs.map Task.bundle := by rw [hxs.1]; simp
      obtain ⟨x, hx, e⟩ := List.mem_map.1 this
      exact ⟨x, hx, e⟩
    have hxm : x.memory = List.replicate 102400 v := by
      have : x.memory ∈ xs.map Task.memory := List.mem_map.2 ⟨x, hx, rfl⟩
      rw [hm] at this
      rcases List.mem_cons.1 this with h | h
      · exact h
      · exact List.mem_singleton.1 h
    rw [C20_padding_is_memory demo_job xs hxs _ (List.Perm.refl _) x hx 3000
      (by rw [hb]; decide) (by rw [hb]; decide) (by rw [hb]; decide), hxm, List.getElem?_replicate]
    rw [if_pos (by omega)]
  obtain ⟨xs, h1, h2⟩ := key 0
  obtain ⟨xs', h3, h4⟩ := key 65
  refine ⟨xs, xs', h1, h3, ?_⟩
  intro h
  rw [h, h4] at h2
  exact absurd h2 (by decide)

end Parfu.Props
