/-
From a planned tree to the archive: the plan of a scanned, archivable tree can be carried out, and
what every execution leaves in the archive.
-/
import Verif.MoveRun
set_option autoImplicit false

namespace Parfu
open MoveSpec TarSpec ScanSpec PlanSpec Props

/-- Ordering the files keeps parents before their contents. -/
theorem ordered_parents (S : StdSort Ref) (g : Bytes → UInt8) (base : Bytes) (root : FNode)
    (hd : IsDir root) (hok : TreeOk root) (hg : ∀ r, g r = 0)
    (c : Coll) (h : scan g base root = .ok c) :
    (∃ r t, (orderFiles S c).dirs = r :: t ∧ r.ent.rel = []) ∧
    (∀ pre d post, ((orderFiles S c).dirs ++ (orderFiles S c).files) = pre ++ d :: post → pre ≠ [] →
      ∃ p ∈ pre, p.ent.kind = .dir ∧ ParentOf p.ent.rel d.ent.rel) := by
  obtain ⟨c', h', _, _, hdk, hfk⟩ := C07_scan_exact g base root hd hok hg
  rw [h] at h'
  have := Except.ok.inj h'
  subst this
  obtain ⟨h1, h2⟩ := C08_parents_first g base root hok c h
  obtain ⟨hod, hof, _⟩ := C09_order_files S c
  refine ⟨by rw [hod]; exact h1, ?_⟩
  intro pre d post hsplit hne
  rw [hod] at hsplit
  -- is `d` among the files?
  have hfile : ∀ a, pre = c.dirs ++ a → d ∈ (orderFiles S c).files →
      ∃ p ∈ pre, p.ent.kind = .dir ∧ ParentOf p.ent.rel d.ent.rel := by
    intro a hpre hdm
    have hdm' := hof.mem_iff.1 hdm
    obtain ⟨x, y, hxy⟩ := List.append_of_mem hdm'
    obtain ⟨r, t, hr, _⟩ := h1
    obtain ⟨p, hp, hpk, hpp⟩ := h2 (c.dirs ++ x) d y (by rw [hxy]; simp) (by rw [hr]; simp)
    refine ⟨p, ?_, hpk, hpp⟩
    rcases List.mem_append.1 hp with hp | hp
    · rw [hpre]; exact List.mem_append_left _ hp
    · exact absurd hpk (hfk p (by rw [hxy]; simp [hp]))
  rcases List.append_eq_append_iff.1 hsplit with ⟨a, e1, e2⟩ | ⟨a, e1, e2⟩
  · exact hfile a e1 (by rw [e2]; simp)
  · cases a with
    | nil =>
      simp only [List.append_nil, List.nil_append] at e1 e2
      exact hfile [] (by simp [e1]) (by rw [← e2]; simp)
    | cons w a =>
      simp only [List.cons_append, List.cons.injEq] at e2
      obtain ⟨rfl, e2⟩ := e2
      exact h2 pre d (a ++ c.files) (by rw [e1]; simp) hne

theorem parentOf_path {p q : List Bytes} (hp : ∀ n ∈ p, NameOk n) (hq : ∀ n ∈ q, NameOk n)
    (h : ParentOf (pathText p) (pathText q)) : ∃ n, q = p ++ [n] := by
  obtain ⟨n, hn, h⟩ := h
  refine ⟨n, ?_⟩
  have hj := joinRel_pathText p n (fun x hx => (hp x hx).1)
  apply pathText_inj hq
  · intro x hx
    rcases List.mem_append.1 hx with hx | hx
    · exact hp x hx
    · simp at hx; subst hx; exact hn
  · rw [← hj]
    unfold joinRel
    rcases h with ⟨h1, h2⟩ | ⟨h1, h2⟩
    · rw [h1, h2]; simp
    · rw [if_neg (by have := List.length_pos_iff.2 h1; omega), h2]

/-- What is known of each placed entry of an archivable tree. -/
structure Entry (env : Env) (fs : FS) (base : Bytes) (root : FNode) (q : Placed) (p : List Bytes) (n : FNode)
    (H : Bytes) (m : Member) : Prop where
  seen : Seen root p n
  desc : describe p n = some q.ref.ent
  full : fullName base q.ref.ent.rel = base ++ [47] ++ pathText p
  made : ∃ e, tarentryCtor fs.lstat (fullName base q.ref.ent.rel) 0 = .ok e ∧ makeTarHeader env e = .ok H
  hlen : H.length = q.ref.hdr
  memb : memberOf env base p n = some m
  dlen : (contentOf n).length = q.ref.ent.size
  reads : ∀ padding rest : Bytes, q.ref.ent.size + padding.length = pad512 q.ref.ent.size →
    readMember (H ++ (contentOf n ++ (padding ++ rest))) = some (m, rest)

theorem entry_load {env : Env} {fs : FS} {base : Bytes} {root : FNode} {q : Placed} {p : List Bytes} {n : FNode}
    {H : Bytes} {m : Member} (ha : Archivable env fs base root) (he : Entry env fs base root q p n H m)
    {o : Order} (hrel : o.rel = q.ref.ent.rel) (hh : o.hdr = 0 ∨ o.hdr = q.ref.hdr)
    (hoff : o.off + o.size ≤ q.ref.ent.size) (hs : o.size < 2 ^ 31) :
    loadOf env fs base (asReceived o) = (if o.hdr ≠ 0 then H else []) ++ ((contentOf n).drop o.off).take o.size ∧
    Loads env fs base (asReceived o) (loadOf env fs base (asReceived o)) := by
  obtain ⟨e, h1, h2⟩ := he.made
  have hdl := he.dlen
  have hread : (match fs.read (fullName base q.ref.ent.rel) with
      | some c => (c.drop o.off).take o.size
      | none => []) = ((contentOf n).drop o.off).take o.size ∧
      (o.size ≠ 0 → fs.read (fullName base q.ref.ent.rel) = some (contentOf n)) := by
    have hf := ha.fs p n he.seen
    unfold FS.read
    rw [he.full, hf]
    cases n with
    | reg m c => simp [contentOf]
    | lnk m t => simp [contentOf] at hdl ⊢; omega
    | dir m o' k => simp [contentOf] at hdl ⊢; omega
    | other m => simp [contentOf] at hdl ⊢; omega
  have hload : loadOf env fs base (asReceived o) =
      (if o.hdr ≠ 0 then H else []) ++ ((contentOf n).drop o.off).take o.size := by
    unfold loadOf
    simp only [asReceived, hrel, h1, h2]
    exact congrArg _ hread.1
  refine ⟨hload, ?_⟩
  rw [hload]
  have hlh : (if o.hdr ≠ 0 then H else []).length = o.hdr := by
    split
    · rw [he.hlen]; omega
    · simp; omega
  constructor
  · simp only [asReceived, List.length_append, hlh, List.length_take, List.length_drop]; omega
  · intro h0
    simp only [asReceived] at h0 ⊢
    refine ⟨e, by rw [hrel]; exact h1, ?_⟩
    rw [List.take_append_of_le_length (by omega), List.take_of_length_le (by omega), if_pos h0]
    exact h2
  · intro h0
    simp only [asReceived] at h0 ⊢
    refine ⟨contentOf n, by rw [hrel]; exact hread.2 h0, ?_⟩
    rw [List.drop_append_of_le_length (by omega), List.drop_of_length_le (by omega), List.nil_append]
  · exact hs

/-- The plan of a scanned archivable tree: its entries, and that it can be carried out. -/
theorem archive_setup {env : Env} {fs : FS} {base : Bytes} {root : FNode} (S : StdSort Ref)
    (ha : Archivable env fs base root) (g : Bytes → UInt8) (hg : ∀ r, g r = 0) (b mx : Nat)
    (hb : b % 512 = 0) (c : Coll) (hscan : scan g base root = .ok c) (bundles : List (List Order))
    (hplan : createOrders 0 b mx (setOffsets (orderFiles S c)) = some bundles)
    (hfit : ∀ l ∈ bundles, up512 (endOf l) - startOf l ≤ b)
    (hsmall : ∀ o ∈ bundles.flatten, FitsInt o)
    (hmsg : ∀ l ∈ bundles, (printBundle l).length + 2 < 2 ^ 31) :
    CollOk b (orderFiles S c) ∧ 
    (∃ (path : Placed → List Bytes) (node : Placed → FNode) (H : Placed → Bytes) (m : Placed → Member),
      ∀ q ∈ (setOffsets (orderFiles S c)).all, Entry env fs base root q (path q) (node q) (H q) (m q)) ∧
    Runnable env fs base b bundles (endPos 0 (setOffsets (orderFiles S c)).all) := by
  obtain ⟨c', h', hex, _, _, _⟩ := C07_scan_exact g base root ha.isDir ha.treeOk hg
  rw [hscan] at h'
  have := Except.ok.inj h'
  subst this
  have hb5 : 100000 ≤ b := by
    by_contra hlt
    rw [(C16_refused_iff 0 b mx (orderFiles S c)).2 (Or.inl (by omega))] at hplan
    cases hplan
  have hrelp : ∀ p n e, describe p n = some e → e.rel = pathText p := by
    intro p n e hd
    cases n <;> simp [describe] at hd <;> subst hd <;> rfl
  have hok := (scan_collOk S g base root ha.isDir ha.treeOk hg (by
    intro p n e hs hd
    refine ⟨by rw [hrelp p n e hd]; exact ha.paths p n hs, ?_⟩
    cases n with
    | lnk m t => simp [describe] at hd; subst hd; have := (ha.links p m t hs).1; simp only; omega
    | reg m t => simp [describe] at hd; subst hd; simp
    | dir m o k => simp [describe] at hd; subst hd; simp
    | other m => simp [describe] at hd) b hb5 c hscan).2
  have hpm : ((orderFiles S c).dirs ++ (orderFiles S c).files).Perm (c.dirs ++ c.files) :=
    List.Perm.append_left _ (C09_order_files S c).2.1
  have hm : ∀ r ∈ c.dirs ++ c.files, mkRef base r.ent = .ok r := by
    unfold scan at hscan
    split at hscan
    · cases hscan
    · exact (collect_spec hscan).2.2
  obtain ⟨hflat, hs, hhdr, hnd, hcont, _⟩ := plan_flat hok hplan
  have hrefs : (setOffsets (orderFiles S c)).all.map Placed.ref =
      (orderFiles S c).dirs ++ (orderFiles S c).files := by
    rw [setOffsets_all, placeFrom_refs]
  have hmem : ∀ q ∈ (setOffsets (orderFiles S c)).all, q.ref ∈ c.dirs ++ c.files := by
    intro q hq
    apply hpm.mem_iff.1
    rw [← hrefs]; exact List.mem_map.2 ⟨q, hq, rfl⟩
  have h11 := C11_every_byte_once 0 b mx (orderFiles S c) bundles hok hplan
  have hsz : ∀ q ∈ (setOffsets (orderFiles S c)).all, q.ref.ent.size < 2 ^ 32 := by
    intro q hq
    by_cases h0 : q.ref.ent.size = 0
    · omega
    · have hcnt := (h11.1 q.ref (hpm.mem_iff.2 (hmem q hq))).2 (q.ref.ent.size - 1)
      rw [if_pos (by omega)] at hcnt
      obtain ⟨o, ho, hmv⟩ := List.countP_pos_iff.1 (Nat.lt_of_lt_of_eq Nat.one_pos hcnt.symm)
      have hmv' := hmv
      simp [Moves] at hmv'
      have hst := hsmall o ho
      unfold FitsInt at hst
      omega
  have hent : ∀ q : Placed, ∃ (p : List Bytes) (n : FNode) (H : Bytes) (m : Member),
      q ∈ (setOffsets (orderFiles S c)).all → Entry env fs base root q p n H m := by
    intro q
    by_cases hq : q ∈ (setOffsets (orderFiles S c)).all
    · have hqm := hmem q hq
      obtain ⟨p, n, hseen, hd⟩ := (hex q.ref.ent).1 (List.mem_map.2 ⟨q.ref, hqm, rfl⟩)
      have hq31 := hsz q hq
      obtain ⟨e, H, m, k1, k2, k3, k4, k5, k6, k7⟩ := object_header ha hseen hd (by omega)
      refine ⟨p, n, H, m, fun _ => ⟨hseen, hd, k1, ⟨e, k2, k3⟩, ?_, k5, k6, k7⟩⟩
      have := hm _ hqm
      unfold mkRef at this
      simp only [bind, Except.bind, k4] at this
      exact congrArg Ref.hdr (Except.ok.inj this)
    · exact ⟨[], .other ⟨0, 0, 0, 0⟩, [], ⟨[], 0, [], 0, 0, 0, 0, [], [], 0, []⟩, fun h => absurd h hq⟩
  choose path node H m hE using hent
  refine ⟨hok, ⟨path, node, H, m, fun q hq => hE q hq⟩, ?_⟩
  have hlim := C14_limit 0 b mx (orderFiles S c) bundles hb hok hplan
  have hchain := flatMap_chain 0 b hb (setOffsets (orderFiles S c)).all 0 hs (fun p hp => (hhdr p hp).2)
    (by omega) hcont
  rw [← hflat] at hchain
  have hfr : ∀ o ∈ bundles.flatten, ∃ q ∈ (setOffsets (orderFiles S c)).all, o ∈ frags 0 b q := by
    intro o ho; rw [hflat] at ho
    obtain ⟨q, hq, h⟩ := List.mem_flatMap.1 ho
    exact ⟨q, hq, h⟩
  have hname : ∀ q ∈ (setOffsets (orderFiles S c)).all, q.ref.ent.rel = pathText (path q) ∧
      ((0:UInt8) ∉ q.ref.ent.target ∧ (9:UInt8) ∉ q.ref.ent.target) ∧
      (9:UInt8) ∉ q.ref.ent.rel ∧ (0:UInt8) ∉ q.ref.ent.rel := by
    intro q hq
    have he := hE q hq
    have hr := hrelp _ _ _ he.desc
    have hd := he.desc
    have hse := he.seen
    refine ⟨hr, ?_, by rw [hr]; exact ha.noTab _ _ hse,
      by rw [hr]; exact pathText_chars (at_nameOk (seen_at hse) ha.treeOk)⟩
    cases hn : node q with
    | lnk mm t =>
      rw [hn] at hd hse; simp [describe] at hd; rw [← hd]
      exact (ha.links _ mm t hse).2
    | reg mm t => rw [hn] at hd; simp [describe] at hd; rw [← hd]; simp
    | dir mm o k => rw [hn] at hd; simp [describe] at hd; rw [← hd]; simp
    | other mm => rw [hn] at hd; simp [describe] at hd
  constructor
  · intro h0
    subst h0
    have : (setOffsets (orderFiles S c)).all.flatMap (frags 0 b) = [] := by rw [← hflat]; rfl
    obtain ⟨st, _, hbun, _⟩ := (plan_flat hok hplan).2.2.2.2.2
    simp at hbun
  · exact fun l hl => (hlim l hl).1
  · exact hchain
  · exact hfit
  · exact hsmall
  · exact hmsg
  · intro o ho
    obtain ⟨q, hq, hf⟩ := hfr o ho
    have hsp := frags_spec 0 b q (hs q hq) (hhdr q hq).2 o hf
    have hn := hname q hq
    refine ⟨by rw [hsp.2.1]; exact hn.2.2.1, by rw [hsp.2.2.2.1]; exact hn.2.1.2, ?_, ?_⟩ <;> rw [hsp.1] <;> omega
  · intro o ho
    obtain ⟨q, hq, hf⟩ := hfr o ho
    have hsp := frags_spec 0 b q (hs q hq) (hhdr q hq).2 o hf
    have hn := hname q hq
    exact ⟨by rw [hsp.2.1]; exact hn.2.2.2, by rw [hsp.2.2.2.1]; exact hn.2.1.1⟩
  · intro o ho
    obtain ⟨q, hq, hf⟩ := hfr o ho
    have hsp := frags_spec 0 b q (hs q hq) (hhdr q hq).2 o hf
    have h1 := hsmall o ho
    unfold FitsInt at h1
    exact (entry_load ha (hE q hq) hsp.2.1 hsp.2.2.2.2.1 hsp.2.2.2.2.2.1 (by omega)).2

/-- Every entry's header and data are in the archive, at the planned place. -/
theorem archive_holds {env : Env} {fs : FS} {base : Bytes} {root : FNode} {c : Coll} {b mx : Nat}
    {bundles : List (List Order)}
    (ha : Archivable env fs base root) (hok : CollOk b c)
    (hplan : createOrders 0 b mx (setOffsets c) = some bundles)
    (hsmall : ∀ o ∈ bundles.flatten, FitsInt o)
    (A : Bytes) {q : Placed}
    (hA : ∀ o ∈ bundles.flatten, o.rel = q.ref.ent.rel → Holds A o.pos (loadOf env fs base (asReceived o)))
    (hq : q ∈ (setOffsets c).all) {p : List Bytes} {n : FNode} {H : Bytes} {m : Member}
    (he : Entry env fs base root q p n H m) : Holds A q.slice.offArch (H ++ contentOf n) := by
  obtain ⟨hflat, hs, hhdr, hnd, hcont, _⟩ := plan_flat hok hplan
  have hrefs : (setOffsets c).all.map Placed.ref = c.dirs ++ c.files := by
    rw [setOffsets_all, placeFrom_refs]
  have hqr : q.ref ∈ c.dirs ++ c.files := by rw [← hrefs]; exact List.mem_map.2 ⟨q, hq, rfl⟩
  have h11 := C11_every_byte_once 0 b mx c bundles hok hplan
  have hload : ∀ o ∈ bundles.flatten, o.rel = q.ref.ent.rel →
      (o.hdr = 0 ∨ o.hdr = q.ref.hdr) ∧ o.off + o.size ≤ q.ref.ent.size ∧
      loadOf env fs base (asReceived o) =
        (if o.hdr ≠ 0 then H else []) ++ ((contentOf n).drop o.off).take o.size := by
    intro o ho hrel
    obtain ⟨r, hr, e1, e2, e3, e4, e5⟩ := h11.2 o ho
    have hrq : r = q.ref := by
      have hnd' := hok.nodup
      have hinj : ∀ (l : List Ref), (l.map (fun r => r.ent.rel)).Nodup → r ∈ l → q.ref ∈ l → r = q.ref := by
        intro l hl h1 h2
        induction l with
        | nil => simp at h1
        | cons x l ih =>
          rw [List.map_cons, List.nodup_cons] at hl
          have hrr : r.ent.rel = q.ref.ent.rel := by rw [← e1, hrel]
          rcases List.mem_cons.1 h1 with h1 | h1 <;> rcases List.mem_cons.1 h2 with h2 | h2
          · rw [h1, h2]
          · exact absurd (List.mem_map.2 ⟨q.ref, h2, by rw [← hrr, h1]⟩) hl.1
          · exact absurd (List.mem_map.2 ⟨r, h1, by rw [hrr, h2]⟩) hl.1
          · exact ih hl.2 h1 h2
      exact hinj _ hnd' hr hqr
    subst hrq
    have h1 := hsmall o ho
    unfold FitsInt at h1
    exact ⟨e4, e5, (entry_load ha he hrel e4 e5 (by omega)).1⟩
  rw [holds_iff]
  intro i hi
  rw [List.length_append, he.hlen, he.dlen] at hi
  by_cases hih : i < q.ref.hdr
  · have hcnt := (h11.1 q.ref hqr).1
    obtain ⟨o, ho, hmv⟩ := List.countP_pos_iff.1 (Nat.lt_of_lt_of_eq Nat.one_pos hcnt.symm)
    simp [Heads] at hmv
    have h12 := (C12_bytes_in_place 0 b mx c bundles hok hplan q hq o ho hmv.1).1 hmv.2
    obtain ⟨l1, l2, l3⟩ := hload o ho hmv.1
    have hh := hA o ho hmv.1
    rw [l3, if_pos hmv.2, h12, holds_iff] at hh
    rw [hh i (by rw [List.length_append, he.hlen]; omega)]
    rw [List.getElem?_append_left (by rw [he.hlen]; omega), List.getElem?_append_left (by rw [he.hlen]; omega)]
  · have hcnt := (h11.1 q.ref hqr).2 (i - q.ref.hdr)
    rw [if_pos (by omega)] at hcnt
    obtain ⟨o, ho, hmv⟩ := List.countP_pos_iff.1 (Nat.lt_of_lt_of_eq Nat.one_pos hcnt.symm)
    have hmv' := hmv
    simp [Moves] at hmv'
    have h12 := (C12_bytes_in_place 0 b mx c bundles hok hplan q hq o ho hmv'.1).2 _ hmv
    obtain ⟨l1, l2, l3⟩ := hload o ho hmv'.1
    have hh := hA o ho hmv'.1
    have hlh : (if o.hdr ≠ 0 then H else []).length = o.hdr := by
      split
      · rw [he.hlen]; omega
      · simp; omega
    rw [l3, holds_iff] at hh
    have hk := hh (o.hdr + (i - q.ref.hdr - o.off)) (by
      rw [List.length_append, hlh, List.length_take, List.length_drop, he.dlen]; omega)
    rw [show o.pos + (o.hdr + (i - q.ref.hdr - o.off)) = q.slice.offArch + i by omega] at hk
    rw [hk, List.getElem?_append_right (by omega), List.getElem?_append_right (by rw [he.hlen]; omega), hlh,
      he.hlen, List.getElem?_take, if_pos (by omega), List.getElem?_drop]
    congr 1
    omega

end Parfu
