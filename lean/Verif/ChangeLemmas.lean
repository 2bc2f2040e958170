/-
What the workers leave in the archive when files have other contents or sizes than at the time of the
scan.
-/
import Verif.PropsMove
set_option autoImplicit false

namespace Parfu.MoveSpec
open Parfu TarSpec ScanSpec

/-- `now` can stand where `old` was when the tree was scanned, without other members being in the way:
an object of the same kind; a file that needs as many blocks; a link with the same target, or with
another one where neither is long. -/
def Alike : FNode → FNode → Prop
  | .reg _ c, .reg _ c' => pad512 c.length = pad512 c'.length
  | .lnk _ t, .lnk _ t' => t' = t ∨ (t.length ≤ 100 ∧ t'.length ≤ 100 ∧ (0:UInt8) ∉ t')
  | .dir _ _ _, .dir _ _ _ => True
  | _, _ => False

/-- `now` stands where `old` was when the tree was scanned: an object of the same kind, a file of any
size (up to 8 GiB) with anything in it. -/
def Changed : FNode → FNode → Prop
  | .reg _ _, .reg _ c' => c'.length < 2 ^ 33 - 1
  | .lnk _ t, .lnk _ t' => t' = t ∨ (t.length ≤ 100 ∧ t'.length ≤ 100 ∧ (0:UInt8) ∉ t')
  | .dir _ _ _, .dir _ _ _ => True
  | _, _ => False

/-- What is archived for an object that was `old` at the scan and is `now` when it is copied: `now`
itself; only, of a file that has become longer, no more than the old number of bytes is right. -/
def Stored : FNode → FNode → FNode → Prop
  | .reg _ c, .reg m c', st => ∃ d, st = .reg m d ∧ d.length = c'.length ∧ d.take c.length = c'.take c.length
  | _, now, st => st = now

/-- The object with other bytes in it. -/
def withData : FNode → Bytes → FNode
  | .reg m _, d => .reg m d
  | n, _ => n

end Parfu.MoveSpec

namespace Parfu
open MoveSpec TarSpec ScanSpec PlanSpec Props

/-- Header lengths do not depend on the size, nor on the target, of small objects. -/
theorem computeHdrSize_congr {name t t' : Bytes} {s s' : Int} (ht : t' = t ∨ (t.length ≤ 100 ∧ t'.length ≤ 100))
    (hs : s ≤ maxFileSize) (hs' : s' ≤ maxFileSize) : computeHdrSize name t s = computeHdrSize name t' s' := by
  unfold computeHdrSize
  rw [hdrSize_eq, hdrSize_eq]
  have h1 : ¬ (s > maxFileSize) := by omega
  have h2 : ¬ (s' > maxFileSize) := by omega
  rcases ht with rfl | ⟨h3, h4⟩
  · simp only [paxPairs, h1, h2, and_false, if_false]
  · have h5 : ¬ (t.length > 100) := by omega
    have h6 : ¬ (t'.length > 100) := by omega
    simp only [paxPairs, h1, h2, h5, h6, and_false, if_false]

/-- What is known of each placed entry, given what is there now. -/
structure AnyEntry (env : Env) (fs : FS) (base : Bytes) (root : FNode) (q : Placed) (p : List Bytes) (n n' : FNode)
    (H : Bytes) : Prop where
  seen : Seen root p n
  desc : describe p n = some q.ref.ent
  there : fs (base ++ [47] ++ pathText p) = some n'
  full : fullName base q.ref.ent.rel = base ++ [47] ++ pathText p
  made : ∃ e, tarentryCtor fs.lstat (fullName base q.ref.ent.rel) 0 = .ok e ∧ makeTarHeader env e = .ok H
  hlen : H.length = q.ref.hdr
  olen : (contentOf n).length = q.ref.ent.size
  changed : Changed n n'
  read : q.ref.ent.size ≠ 0 → fs.read (fullName base q.ref.ent.rel) = some (contentOf n')
  reads : ∀ D padding rest : Bytes, D.length = (contentOf n').length → D.length + padding.length = pad512 D.length →
    ∃ m, memberOf env base p (withData n' D) = some m ∧ readMember (H ++ (D ++ (padding ++ rest))) = some (m, rest)

/-- The same where every file takes as many blocks as before. -/
structure NowEntry (env : Env) (fs : FS) (base : Bytes) (root : FNode) (q : Placed) (p : List Bytes) (n n' : FNode)
    (H : Bytes) : Prop extends AnyEntry env fs base root q p n n' H where
  alike : Alike n n'
  blocks : pad512 (contentOf n').length = pad512 q.ref.ent.size

/-- The bytes an order brings, whatever the length of the file. -/
theorem now_load {env : Env} {fs : FS} {base : Bytes} {root : FNode} {q : Placed} {p : List Bytes} {n n' : FNode}
    {H : Bytes} (he : AnyEntry env fs base root q p n n' H)
    {o : Order} (hrel : o.rel = q.ref.ent.rel) (hh : o.hdr = 0 ∨ o.hdr = q.ref.hdr)
    (hoff : o.off + o.size ≤ q.ref.ent.size) (hs : o.size < 2 ^ 31) :
    loadOf env fs base (asReceived o) = (if o.hdr ≠ 0 then H else []) ++ ((contentOf n').drop o.off).take o.size ∧
    Loads env fs base (asReceived o) (loadOf env fs base (asReceived o)) := by
  obtain ⟨e, h1, h2⟩ := he.made
  have hread : (match fs.read (fullName base q.ref.ent.rel) with
      | some c => (c.drop o.off).take o.size
      | none => []) = ((contentOf n').drop o.off).take o.size ∧
      (o.size ≠ 0 → fs.read (fullName base q.ref.ent.rel) = some (contentOf n')) := by
    by_cases h0 : o.size = 0
    · rw [h0]
      refine ⟨?_, fun h => absurd rfl h⟩
      split <;> simp
    · have := he.read (by omega)
      rw [this]
      exact ⟨rfl, fun _ => rfl⟩
  have hload : loadOf env fs base (asReceived o) =
      (if o.hdr ≠ 0 then H else []) ++ ((contentOf n').drop o.off).take o.size := by
    unfold loadOf
    simp only [asReceived, hrel, h1, h2]
    exact congrArg _ hread.1
  refine ⟨hload, ?_⟩
  rw [hload]
  have hlh : (if o.hdr ≠ 0 then H else []).length = o.hdr := by
    split
    · rw [he.hlen]; omega
    · simp; omega
  constructor
  · simp only [asReceived, List.length_append, hlh, List.length_take, List.length_drop]; omega
  · intro h0
    simp only [asReceived] at h0 ⊢
    refine ⟨e, by rw [hrel]; exact h1, ?_⟩
    rw [List.take_append_of_le_length (by omega), List.take_of_length_le (by omega), if_pos h0]
    exact h2
  · intro h0
    simp only [asReceived] at h0 ⊢
    refine ⟨contentOf n', by rw [hrel]; exact hread.2 h0, ?_⟩
    rw [List.drop_append_of_le_length (by omega), List.drop_of_length_le (by omega), List.nil_append]
  · exact hs

/-- The header of what is there now, and the bytes of the file up to the scanned size, are in the
archive at the planned place. -/
theorem now_holds {env : Env} {fs : FS} {base : Bytes} {root : FNode} {c : Coll} {b mx : Nat}
    {bundles : List (List Order)} (hok : CollOk b c)
    (hplan : createOrders 0 b mx (setOffsets c) = some bundles)
    (hsmall : ∀ o ∈ bundles.flatten, FitsInt o)
    (A : Bytes) (hA : ∀ o ∈ bundles.flatten, Holds A o.pos (loadOf env fs base (asReceived o)))
    {q : Placed} (hq : q ∈ (setOffsets c).all) {p : List Bytes} {n n' : FNode} {H : Bytes}
    (he : AnyEntry env fs base root q p n n' H) :
    Holds A q.slice.offArch (H ++ (contentOf n').take q.ref.ent.size) := by
  obtain ⟨hflat, hs, hhdr, hnd, hcont, _⟩ := plan_flat hok hplan
  have hrefs : (setOffsets c).all.map Placed.ref = c.dirs ++ c.files := by
    rw [setOffsets_all, placeFrom_refs]
  have hqr : q.ref ∈ c.dirs ++ c.files := by rw [← hrefs]; exact List.mem_map.2 ⟨q, hq, rfl⟩
  have h11 := C11_every_byte_once 0 b mx c bundles hok hplan
  have hload : ∀ o ∈ bundles.flatten, o.rel = q.ref.ent.rel →
      (o.hdr = 0 ∨ o.hdr = q.ref.hdr) ∧ o.off + o.size ≤ q.ref.ent.size ∧
      loadOf env fs base (asReceived o) =
        (if o.hdr ≠ 0 then H else []) ++ ((contentOf n').drop o.off).take o.size := by
    intro o ho hrel
    obtain ⟨r, hr, e1, e2, e3, e4, e5⟩ := h11.2 o ho
    have hrq : r = q.ref := by
      have hnd' := hok.nodup
      have hinj : ∀ (l : List Ref), (l.map (fun r => r.ent.rel)).Nodup → r ∈ l → q.ref ∈ l → r = q.ref := by
        intro l hl h1 h2
        induction l with
        | nil => simp at h1
        | cons x l ih =>
          rw [List.map_cons, List.nodup_cons] at hl
          have hrr : r.ent.rel = q.ref.ent.rel := by rw [← e1, hrel]
          rcases List.mem_cons.1 h1 with h1 | h1 <;> rcases List.mem_cons.1 h2 with h2 | h2
          · rw [h1, h2]
          · exact absurd (List.mem_map.2 ⟨q.ref, h2, by rw [← hrr, h1]⟩) hl.1
          · exact absurd (List.mem_map.2 ⟨r, h1, by rw [hrr, h2]⟩) hl.1
          · exact ih hl.2 h1 h2
      exact hinj _ hnd' hr hqr
    subst hrq
    have h1 := hsmall o ho
    unfold FitsInt at h1
    exact ⟨e4, e5, (now_load he hrel e4 e5 (by omega)).1⟩
  rw [holds_iff]
  intro i hi
  rw [List.length_append, he.hlen, List.length_take] at hi
  by_cases hih : i < q.ref.hdr
  · have hcnt := (h11.1 q.ref hqr).1
    obtain ⟨o, ho, hmv⟩ := List.countP_pos_iff.1 (Nat.lt_of_lt_of_eq Nat.one_pos hcnt.symm)
    simp [Heads] at hmv
    have h12 := (C12_bytes_in_place 0 b mx c bundles hok hplan q hq o ho hmv.1).1 hmv.2
    obtain ⟨l1, l2, l3⟩ := hload o ho hmv.1
    have hh := hA o ho
    rw [l3, if_pos hmv.2, h12, holds_iff] at hh
    rw [hh i (by rw [List.length_append, he.hlen]; omega)]
    rw [List.getElem?_append_left (by rw [he.hlen]; omega), List.getElem?_append_left (by rw [he.hlen]; omega)]
  · have hcnt := (h11.1 q.ref hqr).2 (i - q.ref.hdr)
    rw [if_pos (by omega)] at hcnt
    obtain ⟨o, ho, hmv⟩ := List.countP_pos_iff.1 (Nat.lt_of_lt_of_eq Nat.one_pos hcnt.symm)
    have hmv' := hmv
    simp [Moves] at hmv'
    have h12 := (C12_bytes_in_place 0 b mx c bundles hok hplan q hq o ho hmv'.1).2 _ hmv
    obtain ⟨l1, l2, l3⟩ := hload o ho hmv'.1
    have hh := hA o ho
    have hlh : (if o.hdr ≠ 0 then H else []).length = o.hdr := by
      split
      · rw [he.hlen]; omega
      · simp; omega
    rw [l3, holds_iff] at hh
    have hk := hh (o.hdr + (i - q.ref.hdr - o.off)) (by
      rw [List.length_append, hlh, List.length_take, List.length_drop]; omega)
    rw [show o.pos + (o.hdr + (i - q.ref.hdr - o.off)) = q.slice.offArch + i by omega] at hk
    rw [hk, List.getElem?_append_right (by omega), List.getElem?_append_right (by rw [he.hlen]; omega), hlh,
      he.hlen, List.getElem?_take, if_pos (by omega), List.getElem?_drop, List.getElem?_take, if_pos (by omega)]
    congr 1
    omega

theorem tarentryCtor_congr {l l' : Bytes → Option (Stat × Bytes)} {fn : Bytes} (h : l fn = l' fn) :
    tarentryCtor l fn 0 = tarentryCtor l' fn 0 := by
  unfold tarentryCtor; rw [h]

theorem lstat_withData {n : FNode} {D : Bytes} (h : D.length = (contentOf n).length) : lstatNode (withData n D) = lstatNode n := by
  cases n <;> simp_all [withData, lstatNode, contentOf]

/-- The facts about one entry of a job, with what is there now. -/
theorem any_entry {env : Env} {fs0 fs : FS} {base : Bytes} {root : FNode} {q : Placed} {p : List Bytes} {n n' : FNode}
    {H0 : Bytes} {m0 : Member} (ha : Archivable env fs0 base root) (he : Entry env fs0 base root q p n H0 m0)
    (hsz : q.ref.ent.size < 2 ^ 32) (hthere : fs (base ++ [47] ++ pathText p) = some n') (halike : Changed n n')
    (hown : MetaOk env (metaOf n')) : ∃ H, AnyEntry env fs base root q p n n' H := by
  have hname := at_nameOk (seen_at he.seen) ha.treeOk
  have hpath := ha.paths p n he.seen
  -- how the new object would be listed
  obtain ⟨ent', hd', htgt, hs', hold⟩ : ∃ ent', describe p n' = some ent' ∧
      (ent'.target = q.ref.ent.target ∨ (q.ref.ent.target.length ≤ 100 ∧ ent'.target.length ≤ 100)) ∧
      ent'.size < 2 ^ 33 - 1 ∧ (contentOf n').length = ent'.size := by
    have hd := he.desc
    cases n <;> cases n' <;> simp only [Changed] at halike <;> try exact halike.elim
    · simp only [describe, Option.some.injEq] at hd
      exact ⟨_, rfl, Or.inl (by rw [← hd]), halike, rfl⟩
    · simp only [describe, Option.some.injEq] at hd
      refine ⟨_, rfl, ?_, by simp, rfl⟩
      rw [← hd]
      rcases halike with h | h
      · exact Or.inl h
      · exact Or.inr ⟨h.1, h.2.1⟩
    · simp only [describe, Option.some.injEq] at hd
      exact ⟨_, rfl, Or.inl (by rw [← hd]), by simp, rfl⟩
  have hs33 : ent'.size < 2 ^ 33 - 1 := hs'
  have hlink : ∀ m t, n' = .lnk m t → t.length < 4096 ∧ (0:UInt8) ∉ t := by
    rintro m t rfl
    cases n with
    | lnk m1 t1 =>
      rcases halike with rfl | h
      · have := ha.links p m1 t he.seen
        exact ⟨this.1, this.2.1⟩
      · exact ⟨by have := h.2.1; omega, h.2.2⟩
    | reg _ _ => exact halike.elim
    | dir _ _ _ => exact halike.elim
    | other _ => exact halike.elim
  have hdirs : ∀ m o k, n' = .dir m o k → p ≠ [] → (base ++ [47] ++ pathText p).length ∉ badDirLengths := by
    rintro m o k rfl hp
    cases n with
    | dir m1 o1 k1 => exact ha.dirs p m1 o1 k1 he.seen hp
    | reg _ _ => exact halike.elim
    | lnk _ _ => exact halike.elim
    | other _ => exact halike.elim
  obtain ⟨e, H, m, k1, k2, k3, k4, k5, _⟩ := object_core hd' hs33 hname ha.base_nul hpath hthere hown hlink hdirs
  obtain ⟨e0, H0', _, j1, j2, j3, j4, _⟩ := object_header ha he.seen he.desc (by omega)
  have hH : H.length = q.ref.hdr := by
    have h1 : H0' = H0 := by
      obtain ⟨e1, a1, a2⟩ := he.made
      rw [j2] at a1
      have := Except.ok.inj a1
      subst this
      rw [j3] at a2
      exact Except.ok.inj a2
    have hrel : q.ref.ent.rel = pathText p := by
      have hd := he.desc
      cases n <;> simp [describe] at hd <;> rw [← hd]
    have h2 : computeHdrSize (base ++ [47] ++ pathText p) q.ref.ent.target (q.ref.ent.size : Int) = .ok H0'.length := by
      have := j4
      unfold headerSize absolutePath at this
      rw [hrel] at this
      exact this
    have h3 := computeHdrSize_congr (name := base ++ [47] ++ pathText p) (t := q.ref.ent.target) (t' := ent'.target)
      (s := (q.ref.ent.size : Int)) (s' := (ent'.size : Int)) htgt (by unfold maxFileSize; omega) (by unfold maxFileSize; omega)
    rw [h2, k3] at h3
    rw [← he.hlen, ← h1]
    exact (Except.ok.inj h3).symm
  refine ⟨H, he.seen, he.desc, hthere, he.full, ⟨e, by rw [he.full]; exact k1, k2⟩, hH, he.dlen, halike, ?_, ?_⟩
  · intro h0
    unfold FS.read
    rw [he.full, hthere]
    have hdl := he.dlen
    cases n <;> cases n' <;> simp only [Changed] at halike <;> first | exact halike.elim | rfl | (exfalso; simp [contentOf] at hdl; omega)
  · intro D padding rest hD hpad
    have hdesc : ∃ entD, describe p (withData n' D) = some entD ∧ entD.size = D.length := by
      cases n' with
      | reg m c => exact ⟨_, rfl, rfl⟩
      | lnk m t => exact ⟨_, rfl, by simp [contentOf] at hD; simp [hD]⟩
      | dir m o k => exact ⟨_, rfl, by simp [contentOf] at hD; simp [hD]⟩
      | other m => simp [describe] at hd'
    obtain ⟨entD, hdD, hsD⟩ := hdesc
    have hcD : contentOf (withData n' D) = D := by
      cases n' with
      | reg m c => rfl
      | _ => simp only [contentOf, List.length_nil, List.length_eq_zero_iff] at hD; subst hD; rfl
    obtain ⟨eD, HD, mD, l1, l2, _, l4, _, l6⟩ := object_core (env := env) (fs := fun _ => some (withData n' D)) hdD
      (by omega) hname ha.base_nul hpath rfl
      (by cases n' <;> exact hown)
      (by intro m t h; cases n' <;> simp [withData] at h; exact hlink m t (by rw [h.1, h.2]))
      (by intro m o k h; cases n' <;> simp [withData] at h; exact hdirs _ _ _ rfl)
    have hee : eD = e := by
      have : tarentryCtor (FS.lstat (fun _ => some (withData n' D))) (base ++ [47] ++ pathText p) 0 =
          tarentryCtor fs.lstat (base ++ [47] ++ pathText p) 0 := by
        apply tarentryCtor_congr
        unfold FS.lstat
        rw [hthere]
        simp only [Option.map_some, lstat_withData hD]
      rw [this, k1] at l1
      exact (Except.ok.inj l1).symm
    subst hee
    rw [k2] at l2
    have := Except.ok.inj l2
    subst this
    rw [hcD] at l6
    refine ⟨mD, l4, l6 padding rest (by rw [hsD]; exact hpad)⟩

theorem alike_changed {n n' : FNode} (h : Alike n n') (hs : (contentOf n).length < 2 ^ 32) : Changed n n' := by
  cases n <;> cases n' <;> simp only [Alike] at h <;> first | exact h.elim | exact h | skip
  simp only [contentOf] at hs
  simp only [Changed]
  unfold pad512 at h
  omega

theorem now_entry {env : Env} {fs0 fs : FS} {base : Bytes} {root : FNode} {q : Placed} {p : List Bytes} {n n' : FNode}
    {H0 : Bytes} {m0 : Member} (ha : Archivable env fs0 base root) (he : Entry env fs0 base root q p n H0 m0)
    (hsz : q.ref.ent.size < 2 ^ 32) (hthere : fs (base ++ [47] ++ pathText p) = some n') (halike : Alike n n')
    (hown : MetaOk env (metaOf n')) : ∃ H, NowEntry env fs base root q p n n' H := by
  obtain ⟨H, h⟩ := any_entry ha he hsz hthere (alike_changed halike (by rw [he.dlen]; exact hsz)) hown
  refine ⟨H, h, halike, ?_⟩
  have hd := he.dlen
  cases n <;> cases n' <;> simp only [Alike] at halike <;> try exact halike.elim
  · rw [← hd]; exact halike.symm
  · rw [← hd]; rfl
  · rw [← hd]; rfl

end Parfu
