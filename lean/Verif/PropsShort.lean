/-
C19 in terms of the tree alone: trees with short paths always make a good job.
-/
import Verif.PropsMove
set_option autoImplicit false

namespace Parfu.MoveSpec
open Parfu TarSpec ScanSpec

/-- A tree whose full paths and link targets fit the plain header fields, with known owners and
without TABs in names or link targets. -/
structure ShortTree (env : Env) (fs : FS) (base : Bytes) (root : FNode) : Prop where
  isDir : IsDir root
  treeOk : TreeOk root
  /-- the tree is what is found below the target path -/
  fs : ∀ p n, Seen root p n → fs (base ++ [47] ++ pathText p) = some n
  base_ne : base ≠ []
  base_nul : (0:UInt8) ∉ base
  paths : ∀ p n, Seen root p n → base.length + 1 + (pathText p).length < 100
  links : ∀ p m t, Seen root p (.lnk m t) → t.length ≤ 100 ∧ (0:UInt8) ∉ t ∧ (9:UInt8) ∉ t
  noTab : ∀ p n, Seen root p n → (9:UInt8) ∉ pathText p
  owners : ∀ p n, Seen root p n → describe p n ≠ none → MetaOk env (metaOf n)

/-- The blocks an object takes in a tar file with plain headers. -/
def tarBytes (n : FNode) : Nat := 512 + pad512 (contentOf n).length

end Parfu.MoveSpec

namespace Parfu.Props
open Parfu MoveSpec TarSpec ScanSpec PlanSpec

theorem chainTo_stop_le {w w' : Nat} {l : List Order} (h : ChainTo w l w') :
    ∀ o ∈ l, Order.stop o ≤ w' := by
  induction l generalizing w with
  | nil => simp
  | cons o l ih =>
    simp only [ChainTo] at h
    intro x hx
    rcases List.mem_cons.1 hx with rfl | hx
    · have := chainTo_le h.2; have := le_up512 (Order.stop x); omega
    · exact ih h.2 x hx

theorem chainTo_count {w w' : Nat} {l : List Order} (h : ChainTo w l w') (hw : w % 512 = 0)
    (hpos : ∀ o ∈ l, o.pos < Order.stop o) : w + 512 * l.length ≤ w' := by
  induction l generalizing w with
  | nil => simp only [ChainTo] at h; simp only [List.length_nil]; omega
  | cons o l ih =>
    simp only [ChainTo] at h
    have h1 := ih h.2 (up512_mod _) (fun x hx => hpos x (by simp [hx]))
    have h2 := hpos o (by simp)
    have h3 := h.1
    have h4 : w + 512 ≤ up512 (Order.stop o) := by unfold up512; omega
    calc w + 512 * (l.length + 1) = (w + 512) + 512 * l.length := by rw [Nat.mul_add, Nat.add_assoc, Nat.add_comm 512]
      _ ≤ up512 (Order.stop o) + 512 * l.length := Nat.add_le_add_right h4 _
      _ ≤ w' := h1

theorem endPos_uniform (ps : List Placed) (w : Nat) (hw : w % 512 = 0) (h : ∀ p ∈ ps, p.ref.hdr = 512) :
    endPos w ps = w + (ps.map (fun p => 512 + pad512 p.ref.ent.size)).sum := by
  induction ps generalizing w with
  | nil => simp [endPos]
  | cons p ps ih =>
    simp only [endPos, List.map_cons, List.sum_cons]
    rw [ih _ (up512_mod _) (fun q hq => h q (by simp [hq])), h p (by simp)]
    unfold up512 pad512
    omega

theorem frags_positive (idx : Int) (b : Nat) (p : Placed) (hs : p.slice.hdr = p.ref.hdr) (h0 : 0 < p.ref.hdr) :
    ∀ o ∈ frags idx b p, o.pos < Order.stop o := by
  intro o ho
  unfold frags at ho
  unfold Order.stop
  split at ho
  · simp only [List.mem_singleton] at ho; subst ho; simp [orderOf, orderRaw]; omega
  · rcases List.mem_cons.1 ho with rfl | ho
    · simp [orderRaw]; omega
    · have := restFrags_rel _ _ _ _ _ _ o ho; omega

theorem printOrder_length (o : Order) (h0 : o.idx = 0) (h1 : o.rel.length ≤ 100) (h2 : o.target.length ≤ 100)
    (h3 : FitsInt o) : (printOrder o).length ≤ 260 := by
  unfold FitsInt at h3
  have d : ∀ n, n < 2 ^ 31 → (digits 10 n).length ≤ 10 := fun n hn =>
    digits_length_le (by omega) _ _ (by omega) (by omega)
  have e0 : (decInt o.idx).length ≤ 10 := by rw [h0]; exact d 0 (by omega)
  have e1 := d o.size h3.1
  have e2 := d o.hdr h3.2.1
  have e3 := d o.pos h3.2.2.1
  have e4 := d o.off h3.2.2.2
  unfold printOrder
  simp only [List.length_append, List.length_cons, List.length_nil]
  omega

theorem printBundle_length (l : List Order) (h : ∀ o ∈ l, (printOrder o).length ≤ 260) :
    (printBundle l).length ≤ 260 * l.length := by
  induction l with
  | nil => simp [printBundle]
  | cons o l ih =>
    have h1 := ih (fun x hx => h x (by simp [hx]))
    have h2 := h o (by simp)
    unfold printBundle at h1 ⊢
    rw [List.flatMap_cons, List.length_append, List.length_cons]
    omega

/-- **C19** For every tree with full paths below 100 bytes, link targets of at most 100 bytes, no
TABs in names and known owners, every bucket size that is a multiple of 512 and at least 100000 and
every limit on orders: if the tree takes less than 2 GiB as a tar file, the scan and the planning
succeed and give a job - so no worker fails, and the archive that any execution leaves is exactly
the tar file of the tree (`C19_no_worker_fails`, `C19_archive_is_tar_partial`). -/
theorem C19_short_paths {env : Env} {fs : FS} {base : Bytes} {root : FNode} (S : StdSort Ref)
    (g : Bytes → UInt8) (b mx : Nat) (ht : ShortTree env fs base root) (hg : ∀ r, g r = 0)
    (hb : b % 512 = 0) (hb5 : 100000 ≤ b)
    (htotal : ∀ objs : List (List Bytes × FNode), (objs.map Prod.fst).Nodup →
      (∀ x ∈ objs, Seen root x.1 x.2) → (objs.map (fun x => tarBytes x.2)).sum < 2 ^ 31) :
    ∃ c bundles, Job env fs base root S g b mx c bundles := by
  have hrelp : ∀ p n e, describe p n = some e → e.rel = pathText p := by
    intro p n e hd
    cases n <;> simp [describe] at hd <;> subst hd <;> rfl
  have ha : Archivable env fs base root := by
    refine ⟨⟨?_, ?_, ?_, ?_, ?_, ?_, ?_, ?_, ?_⟩, ?_⟩
    · exact ht.isDir
    · exact ht.treeOk
    · exact ht.fs
    · exact ht.base_ne
    · exact ht.base_nul
    · intro p n h; have := ht.paths p n h; omega
    · intro p m t h; have := ht.links p m t h; exact ⟨by omega, this.2⟩
    · exact ht.noTab
    · exact ht.owners
    · intro p m o k h _
      have := ht.paths p _ h
      simp only [List.length_append, List.length_singleton, badDirLengths, List.mem_cons, List.not_mem_nil,
        or_false]
      omega
  obtain ⟨c, hscan, hex, hnd0, hdk, hfk⟩ := C07_scan_exact g base root ht.isDir ht.treeOk hg
  have hm : ∀ r ∈ c.dirs ++ c.files, mkRef base r.ent = .ok r := by
    have hscan' := hscan
    unfold scan at hscan'
    split at hscan'
    · cases hscan'
    · exact (collect_spec hscan').2.2
  have hpm : ((orderFiles S c).dirs ++ (orderFiles S c).files).Perm (c.dirs ++ c.files) :=
    List.Perm.append_left _ (C09_order_files S c).2.1
  -- every entry: its object, its size, its header
  have hobj : ∀ r ∈ c.dirs ++ c.files, ∃ p n, Seen root p n ∧ describe p n = some r.ent ∧
      r.ent.size = (contentOf n).length ∧ r.ent.target.length ≤ 100 ∧ r.ent.rel = pathText p := by
    intro r hr
    obtain ⟨p, n, hs, hd⟩ := (hex r.ent).1 (List.mem_map.2 ⟨r, hr, rfl⟩)
    refine ⟨p, n, hs, hd, ?_, ?_, hrelp p n _ hd⟩
    · cases n <;> simp [describe] at hd <;> rw [← hd] <;> rfl
    · cases n with
      | lnk m t => simp [describe] at hd; rw [← hd]; exact (ht.links p m t hs).1
      | reg m t => simp [describe] at hd; rw [← hd]; simp
      | dir m o k => simp [describe] at hd; rw [← hd]; simp
      | other m => simp [describe] at hd
  have hsz : ∀ r ∈ c.dirs ++ c.files, r.ent.size < 2 ^ 31 := by
    intro r hr
    obtain ⟨p, n, hs, hd, h1, _⟩ := hobj r hr
    have := htotal [(p, n)] (by simp) (by simpa using hs)
    simp [tarBytes, pad512] at this
    omega
  have hhdr : ∀ r ∈ c.dirs ++ c.files, r.hdr = 512 ∧
      r.orderSize = if r.ent.kind = .dir then orderSizeDir else if r.ent.target.length > 0 then orderSizeSymlink
        else (r.ent.size : Int) := by
    intro r hr
    obtain ⟨p, n, hs, hd, h1, h2, h3⟩ := hobj r hr
    have hp := ht.paths p n hs
    have hr2 := hsz r hr
    have hH : headerSize base r.ent = .ok 512 := by
      unfold headerSize computeHdrSize
      rw [hdrSize_eq]
      have : paxPairs (TarEntry.mk 0 ⟨.reg, 0, 0, 0, (r.ent.size : Int), 0⟩ (absolutePath base r.ent)
          r.ent.target) = [] := by
        unfold paxPairs
        have e1 : ¬ ((absolutePath base r.ent).length > 100) := by
          unfold absolutePath; rw [h3]; simp only [List.length_append, List.length_singleton]; omega
        have e2 : ¬ (r.ent.target.length > 100) := by omega
        have e3 : ¬ ((r.ent.size : Int) > maxFileSize) := by unfold maxFileSize; omega
        simp [e1, e2, e3]
      rw [this]; rfl
    have := hm r hr
    unfold mkRef at this
    simp only [bind, Except.bind, hH] at this
    have h4 := Except.ok.inj this
    exact ⟨(congrArg Ref.hdr h4).symm, (congrArg Ref.orderSize h4).symm⟩
  have hok : CollOk b (orderFiles S c) := by
    constructor
    · intro r hr
      have hr' : r ∈ c.dirs := hr
      obtain ⟨p, n, _, hd, _⟩ := hobj r (List.mem_append_left _ hr')
      have hk := hdk r hr'
      cases n <;> simp [describe] at hd <;> rw [← hd] at hk <;> simp at hk
      rw [← hd]
    · intro r hr
      have := (hhdr r (hpm.mem_iff.1 hr)).1
      omega
    · exact (hpm.map _).nodup_iff.2 hnd0
  have hdirs : ∃ r t, c.dirs = r :: t := by
    obtain ⟨r, t, h, _⟩ := (C08_parents_first g base root ht.treeOk c hscan).1
    exact ⟨r, t, h⟩
  cases hplan : createOrders 0 b mx (setOffsets (orderFiles S c)) with
  | none =>
    rcases (C16_refused_iff 0 b mx _).1 hplan with h | h
    · omega
    · obtain ⟨r, t, h'⟩ := hdirs
      have : c.dirs = [] := h.1
      rw [h'] at this; cases this
  | some bundles =>
  have hfilesm : ∀ r ∈ (orderFiles S c).files, r ∈ c.dirs ++ c.files := fun r hr =>
    hpm.mem_iff.1 (List.mem_append_right _ hr)
  have hfilek : ∀ r ∈ (orderFiles S c).files, r.ent.kind ≠ .dir := by
    intro r hr; exact hfk r ((C09_order_files S c).2.1.mem_iff.1 hr)
  have hlink0 : ∀ r ∈ c.dirs ++ c.files, 0 < r.ent.target.length → r.ent.size = 0 := by
    intro r hr h0
    obtain ⟨p, n, _, hd, _⟩ := hobj r hr
    cases n <;> simp [describe] at hd <;> rw [← hd] at h0 ⊢ <;> simp at h0
  have hfit := C13_bundle_fits_partial 0 b mx (orderFiles S c) bundles hb hok
    (C13_uniform_headers_ok b 512 (orderFiles S c) hok (C09_order_files S c).2.2.1
      (by
        intro r hr
        have h1 := (hhdr r (hfilesm r hr)).2
        rw [if_neg (hfilek r hr)] at h1
        by_cases h0 : r.ent.target.length > 0
        · left; exact hlink0 r (hfilesm r hr) h0
        · right; rw [if_neg h0] at h1; exact h1)
      (by
        intro r hr
        have h1 := (hhdr r (hfilesm r hr)).2
        rw [if_neg (hfilek r hr)] at h1
        rw [h1]
        split
        · simp [orderSizeSymlink]
        · exact Int.le_refl _)
      (fun r hr _ => (hhdr r (hfilesm r hr)).1)) hplan
  obtain ⟨hflat, hs, hh, hnd, hcont, _⟩ := plan_flat hok hplan
  have hrefs : (setOffsets (orderFiles S c)).all.map Placed.ref =
      (orderFiles S c).dirs ++ (orderFiles S c).files := by
    rw [setOffsets_all, placeFrom_refs]
  have hmem : ∀ q ∈ (setOffsets (orderFiles S c)).all, q.ref ∈ c.dirs ++ c.files := by
    intro q hq
    apply hpm.mem_iff.1
    rw [← hrefs]; exact List.mem_map.2 ⟨q, hq, rfl⟩
  have hchain := flatMap_chain 0 b hb (setOffsets (orderFiles S c)).all 0 hs (fun p hp => (hh p hp).2)
    (by omega) hcont
  rw [← hflat] at hchain
  have hE : endPos 0 (setOffsets (orderFiles S c)).all < 2 ^ 31 := by
    rw [endPos_uniform _ 0 (by omega) (fun q hq => (hhdr q.ref (hmem q hq)).1), Nat.zero_add]
    have hchoose : ∀ q : Placed, ∃ x : List Bytes × FNode, q ∈ (setOffsets (orderFiles S c)).all →
        Seen root x.1 x.2 ∧ q.ref.ent.size = (contentOf x.2).length ∧ q.ref.ent.rel = pathText x.1 := by
      intro q
      by_cases hq : q ∈ (setOffsets (orderFiles S c)).all
      · obtain ⟨p, n, h1, _, h2, _, h3⟩ := hobj q.ref (hmem q hq)
        exact ⟨(p, n), fun _ => ⟨h1, h2, h3⟩⟩
      · exact ⟨([], .other ⟨0, 0, 0, 0⟩), fun h => absurd h hq⟩
    choose obj hobj' using hchoose
    have := htotal ((setOffsets (orderFiles S c)).all.map obj) (by
      rw [List.map_map]
      have h2 : (setOffsets (orderFiles S c)).all.map (fun p => p.ref.ent.rel) =
          ((setOffsets (orderFiles S c)).all.map (Prod.fst ∘ obj)).map pathText := by
        rw [List.map_map]
        exact List.map_congr_left (fun q hq => (hobj' q hq).2.2)
      rw [h2] at hnd
      exact hnd.of_map) (by
      intro x hx
      obtain ⟨q, hq, rfl⟩ := List.mem_map.1 hx
      exact (hobj' q hq).1)
    rw [List.map_map] at this
    have h3 : (setOffsets (orderFiles S c)).all.map (fun p => 512 + pad512 p.ref.ent.size) =
        (setOffsets (orderFiles S c)).all.map ((fun x => tarBytes x.2) ∘ obj) := by
      apply List.map_congr_left
      intro q hq
      simp only [Function.comp, tarBytes, (hobj' q hq).2.1]
    rw [h3]; exact this
  have hsmall : ∀ o ∈ bundles.flatten, Order.stop o < 2 ^ 31 := by
    intro o ho
    have := chainTo_stop_le hchain o ho
    omega
  have hpos : ∀ o ∈ bundles.flatten, o.pos < Order.stop o := by
    intro o ho
    rw [hflat] at ho
    obtain ⟨q, hq, hoq⟩ := List.mem_flatMap.1 ho
    exact frags_positive 0 b q (hs q hq).1 (hh q hq).1 o hoq
  have hcnt := chainTo_count hchain (by omega) hpos
  have hfitsInt : ∀ o ∈ bundles.flatten, FitsInt o := by
    intro o ho
    have h4 := hsmall o ho
    have ho' := ho
    rw [hflat] at ho'
    obtain ⟨q, hq, hoq⟩ := List.mem_flatMap.1 ho'
    have hsp := frags_spec 0 b q (hs q hq) (hh q hq).2 o hoq
    unfold Order.stop at h4
    have h5 := hsz q.ref (hmem q hq)
    have h6 := hsp.2.2.2.2.2.1
    unfold FitsInt
    omega
  refine ⟨c, bundles, ⟨ha, hg, hb, hscan, hplan, hfit, hfitsInt, ?_⟩⟩
  intro l hl
  have h1 : (printBundle l).length ≤ 260 * l.length := by
    apply printBundle_length
    intro o ho
    have hof : o ∈ bundles.flatten := List.mem_flatten.2 ⟨l, hl, ho⟩
    have hof' := hof
    rw [hflat] at hof'
    obtain ⟨q, hq, hoq⟩ := List.mem_flatMap.1 hof'
    have hsp := frags_spec 0 b q (hs q hq) (hh q hq).2 o hoq
    obtain ⟨p, n, h1, _, _, h2, h3⟩ := hobj q.ref (hmem q hq)
    have hp := ht.paths p n h1
    apply printOrder_length o hsp.1
    · rw [hsp.2.1, h3]; omega
    · rw [hsp.2.2.2.1]; exact h2
    · have h4 := hsmall o hof
      unfold Order.stop at h4
      have h5 := hsz q.ref (hmem q hq)
      have h6 := hsp.2.2.2.2.2.1
      unfold FitsInt
      omega
  have h2 : l.length ≤ bundles.flatten.length := by
    have key : ∀ bs : List (List Order), l ∈ bs → l.length ≤ bs.flatten.length := by
      intro bs hl
      obtain ⟨x, y, rfl⟩ := List.append_of_mem hl
      simp only [List.flatten_append, List.flatten_cons, List.length_append]
      omega
    exact key bundles hl
  omega

theorem demo_shortTree : ShortTree demoEnv2 demoFs demoBase demoTree := by
  have ha := demo_archivable
  constructor
  · exact ha.isDir
  · exact ha.treeOk
  · exact ha.fs
  · exact ha.base_ne
  · exact ha.base_nul
  · intro p n h
    have := demo_seen h
    simp only [demoSeen, List.mem_cons, List.not_mem_nil, or_false, Prod.mk.injEq] at this
    rcases this with ⟨rfl, rfl⟩ | ⟨rfl, rfl⟩ | ⟨rfl, rfl⟩ | ⟨rfl, rfl⟩ | ⟨rfl, rfl⟩ | ⟨rfl, rfl⟩ | ⟨rfl, rfl⟩ <;>
      decide
  · intro p m t h
    have := demo_seen h
    simp [demoSeen, demoTree] at this
    obtain ⟨_, _, rfl⟩ := this
    decide
  · exact ha.noTab
  · exact ha.owners

/-- At most seven objects of at most 1024 bytes. -/
theorem demo_total : ∀ objs : List (List Bytes × FNode), (objs.map Prod.fst).Nodup →
    (∀ x ∈ objs, Seen demoTree x.1 x.2) → (objs.map (fun x => tarBytes x.2)).sum < 2 ^ 31 := by
  intro objs hnd hs
  have hlen : demoSeen.length = 7 := rfl
  have h1 : (objs.map Prod.fst).length ≤ 7 := by
    have : (objs.map Prod.fst).Subperm (demoSeen.map Prod.fst) := by
      apply List.subperm_of_subset hnd
      intro p hp
      obtain ⟨x, hx, rfl⟩ := List.mem_map.1 hp
      exact List.mem_map.2 ⟨(x.1, x.2), demo_seen (hs x hx), rfl⟩
    simpa [hlen] using this.length_le
  have h2 : ∀ x ∈ objs, tarBytes x.2 ≤ 1024 := by
    intro x hx
    have := demo_seen (hs x hx)
    have key : ∀ y ∈ demoSeen, tarBytes y.2 ≤ 1024 := by
      intro y hy
      simp only [demoSeen, List.mem_cons, List.not_mem_nil, or_false] at hy
      rcases hy with rfl | rfl | rfl | rfl | rfl | rfl | rfl <;> simp [tarBytes, contentOf, pad512, demoTree]
    exact key _ this
  have h3 : ∀ (l : List (List Bytes × FNode)), (∀ x ∈ l, tarBytes x.2 ≤ 1024) →
      (l.map (fun x => tarBytes x.2)).sum ≤ 1024 * l.length := by
    intro l
    induction l with
    | nil => simp
    | cons x l ih =>
      intro h
      have a := ih (fun y hy => h y (by simp [hy]))
      have b := h x (by simp)
      simp only [List.map_cons, List.sum_cons, List.length_cons]; omega
  have := h3 objs h2
  rw [List.length_map] at h1
  omega

/-- A concrete tree meets the hypotheses of `C19_short_paths`. -/
example : ∃ c bundles, Job demoEnv2 demoFs demoBase demoTree demoSort (fun _ => 0) 4992000 0 c bundles :=
  C19_short_paths demoSort (fun _ => 0) 4992000 0 demo_shortTree (fun _ => rfl) (by decide) (by decide) demo_total

end Parfu.Props
