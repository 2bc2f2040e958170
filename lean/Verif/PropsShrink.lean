/-
C64: files that need fewer (or more) blocks when they are copied than when the tree was scanned.
-/
import Verif.PropsChange
set_option autoImplicit false

namespace Parfu.MoveSpec
open Parfu TarSpec ScanSpec

/-- An object of the tree: where it is, what it was when the tree was scanned, what it is when it is
copied. -/
structure Then where
  path : List Bytes
  old : FNode
  now : FNode

/-- The number of 512-byte blocks the contents of an object take. -/
def blocksOf (n : FNode) : Nat := (contentOf n).length / 512 + (if (contentOf n).length % 512 = 0 then 0 else 1)

end Parfu.MoveSpec

namespace Parfu.Props
open Parfu MainSpec MoveSpec TarSpec ScanSpec PlanSpec ProtocolSpec

theorem blocksOf_pad (n : FNode) : pad512 (contentOf n).length = 512 * blocksOf n := by
  unfold pad512 blocksOf
  split <;> omega

/-- Where the entries lie in front of and behind one of them. -/
theorem contiguous_around : ∀ (pre : List Placed) (x : Placed) (post : List Placed) (w : Nat), Contiguous w (pre ++ x :: post) →
    w % 512 = 0 →
    Contiguous w pre ∧ x.slice.offArch = endPos w pre ∧ endPos w pre % 512 = 0 ∧
    (∀ q ∈ pre, q.slice.offArch + q.ref.hdr + q.ref.ent.size ≤ x.slice.offArch) ∧
    (∀ q ∈ post, up512 (x.slice.offArch + x.ref.hdr + x.ref.ent.size) ≤ q.slice.offArch) ∧
    up512 (x.slice.offArch + x.ref.hdr + x.ref.ent.size) ≤ endPos w (pre ++ x :: post) := by
  have hle : ∀ (l : List Placed) (v : Nat), v ≤ endPos v l := by
    intro l
    induction l with
    | nil => intro v; simp [endPos]
    | cons q l ihl =>
      intro v; simp only [endPos]
      have := ihl (up512 (v + q.ref.hdr + q.ref.ent.size))
      have := le_up512 (v + q.ref.hdr + q.ref.ent.size)
      omega
  have hpost : ∀ (l : List Placed) (v : Nat), Contiguous v l → ∀ q ∈ l, v ≤ q.slice.offArch := by
    intro l
    induction l with
    | nil => intro v _ q hq; simp at hq
    | cons y l ihl =>
      intro v hc q hq
      simp only [Contiguous] at hc
      rcases List.mem_cons.1 hq with rfl | hq
      · omega
      · have := ihl _ hc.2 q hq
        have := le_up512 (v + y.ref.hdr + y.ref.ent.size)
        omega
  intro pre
  induction pre with
  | nil =>
    intro x post w hc hw
    simp only [List.nil_append, Contiguous] at hc
    refine ⟨trivial, hc.1, hw, by simp, ?_, ?_⟩
    · intro q hq
      rw [hc.1]
      exact hpost _ _ hc.2 q hq
    · rw [hc.1]
      simp only [List.nil_append, endPos]
      exact hle _ _
  | cons y pre ih =>
    intro x post w hc hw
    simp only [List.cons_append, Contiguous] at hc
    obtain ⟨h1, h2, h3, h4, h5, h6⟩ := ih x post _ hc.2 (up512_mod _)
    refine ⟨⟨hc.1, h1⟩, h2, h3, ?_, h5, h6⟩
    intro q hq
    rcases List.mem_cons.1 hq with rfl | hq
    · have := hle pre (up512 (w + q.ref.hdr + q.ref.ent.size))
      have := le_up512 (w + q.ref.hdr + q.ref.ent.size)
      rw [h2, hc.1]
      omega
    · exact h4 q hq

/-- At one path there is one object. -/
theorem at_same {root : FNode} (hok : TreeOk root) {p : List Bytes} {n n' : FNode} (h : At root p n) (h' : At root p n') :
    n = n' := by
  have h1 := (mem_objects_iff _ _ _).2 h
  have h2 := (mem_objects_iff _ _ _).2 h'
  have hnd := objects_nodup root hok
  generalize objects root = os at *
  induction os with
  | nil => simp at h1
  | cons x os ih =>
    rw [List.map_cons, List.nodup_cons] at hnd
    rcases List.mem_cons.1 h1 with e1 | h1 <;> rcases List.mem_cons.1 h2 with e2 | h2
    · rw [← e1] at e2; simpa using e2.symm
    · exact absurd (by rw [← e1]; exact List.mem_map.2 ⟨_, h2, rfl⟩) hnd.1
    · exact absurd (by rw [← e2]; exact List.mem_map.2 ⟨_, h1, rfl⟩) hnd.1
    · exact ih h1 h2 hnd.2

section
variable {cfg : Cfg} {fs0 : FS} {base : Bytes} {root : FNode} {S : StdSort Ref} {g : Bytes → UInt8}
  {b mx : Nat} {coll : Coll} {bundles : List (List Order)} {archive : Bytes} {eager : Bool} {file0 : Option Bytes}
  {tr : List Ev} {s : Sys}

/-- The files of a job are stored in the order of their sizes, directories and links first. -/
theorem all_by_size (j : Job cfg.env fs0 base root S g b mx coll bundles) :
    (setOffsets (orderFiles S coll)).all.Pairwise (fun p q => p.ref.ent.size ≤ q.ref.ent.size) := by
  obtain ⟨hok, ⟨path, node, H, m, hE⟩, _⟩ := j.setup
  have hrefs : (setOffsets (orderFiles S coll)).all.map Placed.ref =
      (orderFiles S coll).dirs ++ (orderFiles S coll).files := by
    rw [setOffsets_all, placeFrom_refs]
  have hkind : ∀ r ∈ (orderFiles S coll).dirs ++ (orderFiles S coll).files,
      r.ent.kind = .dir ∨ 0 < r.ent.target.length → r.ent.size = 0 := by
    intro r hr hk
    rw [← hrefs] at hr
    obtain ⟨q, hq, rfl⟩ := List.mem_map.1 hr
    have hd := (hE q hq).desc
    cases hn : node q <;> rw [hn] at hd <;> simp only [describe, Option.some.injEq, reduceCtorEq] at hd <;> rw [← hd] at hk ⊢ <;> simp at hk ⊢
  have hm : ∀ r ∈ (orderFiles S coll).files, mkRef base r.ent = .ok r := by
    intro r hr
    have hr' := (C09_order_files S coll).2.1.mem_iff.1 hr
    have h := j.scanned
    unfold scan at h
    split at h
    · cases h
    · exact (collect_spec h).2.2 r (List.mem_append_right _ hr')
  have hos : ∀ r ∈ (orderFiles S coll).files, (r.orderSize < 0 ∧ r.ent.size = 0) ∨ r.orderSize = (r.ent.size : Int) := by
    intro r hr
    have := hm r hr
    unfold mkRef at this
    simp only [bind, Except.bind] at this
    split at this
    · cases this
    · have h2 := congrArg Ref.orderSize (Except.ok.inj this)
      simp only [] at h2
      rw [← h2]
      have hk := hkind r (by simp [hr])
      by_cases h1 : r.ent.kind = .dir
      · rw [if_pos h1]; exact Or.inl ⟨by decide, hk (Or.inl h1)⟩
      · rw [if_neg h1]
        by_cases h3 : r.ent.target.length > 0
        · rw [if_pos h3]; exact Or.inl ⟨by decide, hk (Or.inr h3)⟩
        · rw [if_neg h3]; exact Or.inr rfl
  have : ((setOffsets (orderFiles S coll)).all.map Placed.ref).Pairwise (fun p q => p.ent.size ≤ q.ent.size) := by
    rw [hrefs, List.pairwise_append]
    refine ⟨?_, ?_, ?_⟩
    · refine List.Pairwise.imp_of_mem (R := fun _ _ => True) ?_ (List.pairwise_of_forall (fun _ _ => trivial))
      intro a b ha _ _
      rw [hok.dirs a ha]; omega
    · refine List.Pairwise.imp_of_mem ?_ (C09_order_files S coll).2.2.1
      intro a b ha hb hab
      have h1 := hos a ha
      have h2 := hos b hb
      omega
    · intro a ha b _
      rw [hok.dirs a ha]; omega
  rw [List.pairwise_map] at this
  exact this

/-- A byte that no order brings is 0 if the workers' buffers held zeros. -/
theorem unloaded_zero {env : Env} {fs : FS} {E : Nat} (h : Runnable env fs base b bundles E) (xs : List Task)
    (hxs : Carried env fs base b bundles xs) (ws : List WriteReq) (hperm : ws.Perm (xs.map Task.write))
    (hzero : ∀ x ∈ xs, ∀ v ∈ x.memory, v = 0) (l : List Order) (hl : l ∈ bundles) (i : Nat) (h1 : startOf l ≤ i)
    (h2 : i < up512 (endOf l))
    (hno : ∀ o ∈ l, i < o.pos ∨ o.pos + (loadOf env fs base (asReceived o)).length ≤ i) : (writeAll ws)[i]? = some 0 := by
  obtain ⟨r1, r2, r3, r4⟩ := run_all h xs hxs ws hperm
  by_cases he : endOf l ≤ i
  · exact r3 l hl i he h2
  · have hl' := hl
    rw [← hxs.1] at hl'
    obtain ⟨x, hx, rfl⟩ := List.mem_map.1 hl'
    rw [r4 x hx i h1 (by omega) hno]
    have hm := (hxs.2 x hx).1
    have hf := h.fits x.bundle hl
    have hlt : i - startOf x.bundle < x.memory.length := by omega
    rw [List.getElem?_eq_getElem hlt, hzero x hx _ (List.getElem_mem _)]

/-- The members in front of the first object that needs another number of blocks. -/
theorem any_prefix (j : Job cfg.env fs0 base root S g b mx coll bundles)
    {path : Placed → List Bytes} {node now : Placed → FNode} {H : Placed → Bytes}
    (hN : ∀ q ∈ (setOffsets (orderFiles S coll)).all, AnyEntry cfg.env cfg.fs base root q (path q) (node q) (now q) (H q))
    (hr : Runnable cfg.env cfg.fs base b bundles (endPos 0 (setOffsets (orderFiles S coll)).all))
    (xs : List Task) (hxs : Carried cfg.env cfg.fs base b bundles xs) (ws : List WriteReq)
    (hws : ws.Perm (xs.map Task.write)) (pre : List Placed) (x : Placed) (post : List Placed)
    (hall : (setOffsets (orderFiles S coll)).all = pre ++ x :: post)
    (hpre : ∀ q ∈ pre, blocksOf (now q) = blocksOf (node q)) :
    ∃ ms : List Member, readArchive (writeAll ws) = (readArchive ((writeAll ws).drop x.slice.offArch)).map (ms ++ ·) ∧
      List.Forall₂ (fun q m => ∃ st, Stored (node q) (now q) st ∧ memberOf cfg.env base (path q) st = some m) pre ms := by
  obtain ⟨hok, _, _⟩ := j.setup
  obtain ⟨hlen, hA, _, _⟩ := run_all hr xs hxs ws hws
  obtain ⟨hflat, hs, hhdr, hnd, hcont, _⟩ := plan_flat hok j.planned
  generalize writeAll ws = A at *
  have hsub : ∀ q ∈ pre, q ∈ (setOffsets (orderFiles S coll)).all := fun q hq => by rw [hall]; simp [hq]
  have hcont' := hcont
  rw [hall] at hcont' hlen
  obtain ⟨c1, c2, c3, c4, c5, c6⟩ := contiguous_around pre x post 0 hcont' (by omega)
  have hup := le_up512 (x.slice.offArch + x.ref.hdr + x.ref.ent.size)
  have hblocks : ∀ q ∈ pre, pad512 (contentOf (now q)).length = pad512 q.ref.ent.size := by
    intro q hq
    rw [blocksOf_pad, hpre q hq, ← blocksOf_pad, (hN q (hsub q hq)).olen]
  let D : Placed → Bytes := fun q => (A.drop (q.slice.offArch + q.ref.hdr)).take (contentOf (now q)).length
  have hh512 : ∀ q ∈ pre, q.ref.hdr % 512 = 0 := by
    intro q hq
    obtain ⟨e, _, h⟩ := (hN q (hsub q hq)).made
    have := C01_header_length cfg.env e (H q) h
    rw [(hN q (hsub q hq)).hlen] at this
    omega
  have hoff : ∀ q ∈ pre, q.slice.offArch % 512 = 0 := by
    intro q hq
    obtain ⟨a1, a2, ha⟩ := List.append_of_mem hq
    rw [ha, List.append_assoc, List.cons_append] at hcont'
    exact (contiguous_split (by omega) hcont').1
  have hDl : ∀ q ∈ pre, (D q).length = (contentOf (now q)).length := by
    intro q hq
    have h1 := c4 q hq
    have h2 := hblocks q hq
    have h3 : (contentOf (now q)).length ≤ pad512 (contentOf (now q)).length := by unfold pad512; omega
    have h4 := hoff q hq
    have h5 := hh512 q hq
    have h6 : q.slice.offArch + q.ref.hdr + pad512 q.ref.ent.size ≤ x.slice.offArch := by
      rw [c2] at h1 ⊢
      unfold pad512
      omega
    simp only [D, List.length_take, List.length_drop]
    omega
  have hHold : ∀ q ∈ pre, Holds A q.slice.offArch (H q ++ (contentOf (now q)).take q.ref.ent.size) :=
    fun q hq => now_holds hok j.planned j.small A hA (hsub q hq) (hN q (hsub q hq))
  have hmem : ∀ q : Placed, ∃ m : Member, q ∈ pre →
      memberOf cfg.env base (path q) (withData (now q) (D q)) = some m ∧
      ∀ padding rest : Bytes, (D q).length + padding.length = pad512 (D q).length →
        readMember (H q ++ (D q ++ (padding ++ rest))) = some (m, rest) := by
    intro q
    by_cases hq : q ∈ pre
    · have hpl : (D q).length ≤ pad512 (D q).length := by unfold pad512; omega
      obtain ⟨m, h1, _⟩ := (hN q (hsub q hq)).reads (D q) (zeros (pad512 (D q).length - (D q).length)) [] (hDl q hq)
        (by unfold zeros; rw [List.length_replicate]; omega)
      refine ⟨m, fun _ => ⟨h1, ?_⟩⟩
      intro padding rest hp
      obtain ⟨m', h3, h4⟩ := (hN q (hsub q hq)).reads (D q) padding rest (hDl q hq) hp
      rw [h1] at h3
      rw [Option.some.inj h3]
      exact h4
    · exact ⟨⟨[], 0, [], 0, 0, 0, 0, [], [], 0, []⟩, fun h => absurd h hq⟩
  choose m hm using hmem
  have hread := readArchive_placed_then (env := cfg.env) A m H D pre 0 c1 (by omega) (by omega) (by
    intro q hq
    have he := hN q (hsub q hq)
    refine ⟨he.hlen, by rw [hDl q hq]; exact hblocks q hq, ?_, ?_, (hm q hq).2⟩
    · rw [holds_append]
      refine ⟨(holds_append.1 (hHold q hq)).1, ?_⟩
      unfold Holds
      rw [he.hlen, hDl q hq]
    · obtain ⟨e, _, h⟩ := he.made; exact ⟨e, h⟩)
  rw [List.drop_zero, ← c2] at hread
  refine ⟨pre.map m, hread, ?_⟩
  rw [List.forall₂_map_right_iff]
  refine List.forall₂_same.2 ?_
  intro q hq
  refine ⟨withData (now q) (D q), ?_, (hm q hq).1⟩
  have he := hN q (hsub q hq)
  have hal := he.changed
  have hol := he.olen
  have hDq := hDl q hq
  have hpre' : (D q).take q.ref.ent.size = (contentOf (now q)).take q.ref.ent.size := by
    have h1 := (holds_append.1 (hHold q hq)).2
    unfold Holds at h1
    rw [he.hlen, List.length_take] at h1
    simp only [D]
    rw [List.take_take, h1]
  cases hn : node q <;> cases hn' : now q <;> rw [hn, hn'] at hal <;> simp only [Changed] at hal <;> try exact hal.elim
  · rw [hn] at hol
    rw [hn'] at hpre' hDq
    simp only [contentOf] at hol hpre' hDq
    exact ⟨D q, rfl, hDq, by rw [hol]; exact hpre'⟩
  · simp only [Stored, withData]
  · simp only [Stored, withData]

/-- What is read where a file lies that has lost two blocks or more. -/
theorem any_shrunk (j : Job cfg.env fs0 base root S g b mx coll bundles)
    {path : Placed → List Bytes} {node now : Placed → FNode} {H : Placed → Bytes}
    (hN : ∀ q ∈ (setOffsets (orderFiles S coll)).all, AnyEntry cfg.env cfg.fs base root q (path q) (node q) (now q) (H q))
    (hr : Runnable cfg.env cfg.fs base b bundles (endPos 0 (setOffsets (orderFiles S coll)).all))
    (xs : List Task) (hxs : Carried cfg.env cfg.fs base b bundles xs) (ws : List WriteReq)
    (hws : ws.Perm (xs.map Task.write)) (hzero : ∀ x ∈ xs, ∀ v ∈ x.memory, v = 0)
    (pre : List Placed) (x : Placed) (post : List Placed)
    (hall : (setOffsets (orderFiles S coll)).all = pre ++ x :: post)
    (hx : blocksOf (now x) + 2 ≤ blocksOf (node x)) :
    ∃ m, readArchive ((writeAll ws).drop x.slice.offArch) = some [m] ∧ memberOf cfg.env base (path x) (now x) = some m := by
  obtain ⟨hok, _, _⟩ := j.setup
  have hlen := (run_all hr xs hxs ws hws).1
  have hA := (run_all hr xs hxs ws hws).2.1
  obtain ⟨hflat, hs, hhdr, hnd, hcont, _⟩ := plan_flat hok j.planned
  have hzb := unloaded_zero hr xs hxs ws hws hzero
  generalize writeAll ws = A at *
  have hxin : x ∈ (setOffsets (orderFiles S coll)).all := by rw [hall]; simp
  have he := hN x hxin
  have hcont' := hcont
  rw [hall] at hcont' hlen
  obtain ⟨c1, c2, c3, c4, c5, c6⟩ := contiguous_around pre x post 0 hcont' (by omega)
  have h512 : x.ref.hdr % 512 = 0 ∧ 512 ≤ x.ref.hdr := by
    obtain ⟨e, _, h⟩ := he.made
    have := C01_header_length cfg.env e (H x) h
    rw [he.hlen] at this
    omega
  have hx0 : x.slice.offArch % 512 = 0 := by rw [c2]; exact c3
  have e1 := blocksOf_pad (now x)
  have e2 := blocksOf_pad (node x)
  rw [he.olen] at e2
  have hlt : (contentOf (now x)).length ≤ x.ref.ent.size := by
    unfold pad512 at e1 e2
    omega
  have hup : up512 (x.slice.offArch + x.ref.hdr + x.ref.ent.size) = x.slice.offArch + x.ref.hdr + pad512 x.ref.ent.size := by
    unfold up512 pad512; omega
  -- the bytes behind the data are zero
  have hz : ∀ i, x.slice.offArch + x.ref.hdr + (contentOf (now x)).length ≤ i →
      i < x.slice.offArch + x.ref.hdr + pad512 x.ref.ent.size → A[i]? = some 0 := by
    intro i hi1 hi2
    have h11 := C11_every_byte_once 0 b mx (orderFiles S coll) bundles hok j.planned
    have hrefs : (setOffsets (orderFiles S coll)).all.map Placed.ref =
        (orderFiles S coll).dirs ++ (orderFiles S coll).files := by
      rw [setOffsets_all, placeFrom_refs]
    have hsz0 : 0 < x.ref.ent.size := by
      apply Classical.byContradiction
      intro h0
      have : x.ref.ent.size = 0 := by omega
      rw [this] at e2
      unfold pad512 at e2
      omega
    have hcnt := (h11.1 x.ref (by rw [← hrefs]; exact List.mem_map.2 ⟨x, hxin, rfl⟩)).2
      (min (i - x.slice.offArch - x.ref.hdr) (x.ref.ent.size - 1))
    rw [if_pos (by omega)] at hcnt
    obtain ⟨o, ho, hmv⟩ := List.countP_pos_iff.1 (Nat.lt_of_lt_of_eq Nat.one_pos hcnt.symm)
    have hmv' := hmv
    simp [Moves] at hmv'
    have h12 := (C12_bytes_in_place 0 b mx _ bundles hok j.planned x hxin o ho hmv'.1).2 _ hmv
    obtain ⟨l, hl, hol⟩ := List.mem_flatten.1 ho
    obtain ⟨k1, _, _⟩ := chainTo_bundles bundles 0 _ hr.nonempty (by omega) hr.chain
    obtain ⟨hch, hmod, _⟩ := k1 l hl
    have hpw := chainTo_pairwise hch
    obtain ⟨last, hlast⟩ : ∃ o, l.getLast? = some o := by
      cases hg : l.getLast? with
      | none => exact absurd (List.getLast?_eq_none_iff.1 hg) (hr.nonempty l hl)
      | some o => exact ⟨o, rfl⟩
    have hend := endOf_getLast hlast
    have hstop : o.pos + o.hdr + o.size ≤ endOf l := by
      obtain ⟨a1, rfl⟩ : ∃ a1, l = a1 ++ [last] := by
        rcases List.eq_nil_or_concat l with rfl | ⟨ys, y, rfl⟩
        · simp at hlast
        · simp at hlast; subst hlast; exact ⟨ys, by simp⟩
      rcases List.mem_append.1 hol with h | h
      · have := (List.pairwise_append.1 hpw.1).2.2 o h last (by simp)
        unfold Order.stop at this
        omega
      · simp at h; subst h; omega
    have hupm : ∀ a c : Nat, a ≤ c → up512 a ≤ up512 c := by intro a c h; unfold up512; omega
    refine hzb l hl i ?_ ?_ ?_
    · have := hpw.2 o hol
      omega
    · by_cases hcase : i - x.slice.offArch - x.ref.hdr ≤ x.ref.ent.size - 1
      · have := le_up512 (endOf l)
        omega
      · have hm : min (i - x.slice.offArch - x.ref.hdr) (x.ref.ent.size - 1) = x.ref.ent.size - 1 := by omega
        rw [hm] at h12
        have h3 : x.slice.offArch + x.ref.hdr + x.ref.ent.size ≤ endOf l := by omega
        have := hupm _ _ h3
        omega
    · intro o' ho'
      have ho2 : o' ∈ bundles.flatten := List.mem_flatten.2 ⟨l, hl, ho'⟩
      have hsm := j.small o' ho2
      unfold FitsInt at hsm
      have ho3 := ho2
      rw [hflat] at ho2
      obtain ⟨q, hq, hf⟩ := List.mem_flatMap.1 ho2
      have hsp := frags_spec 0 b q (hs q hq) (hhdr q hq).2 o' hf
      obtain ⟨_, hrel, _, _, hh, hsz, hpos, hp0⟩ := hsp
      have hlo := (now_load (hN q hq) hrel hh hsz (by omega)).1
      have hlo2 := (now_load (hN q hq) hrel hh hsz (by omega)).2.len.2
      simp only [asReceived] at hlo2
      have hq' := hq
      rw [hall] at hq'
      rcases List.mem_append.1 hq' with hq1 | hq1
      · right
        have := c4 q hq1
        simp only [asReceived] at *
        omega
      · rcases List.mem_cons.1 hq1 with rfl | hq1
        · -- an order of the file itself
          rw [hlo]
          have hll : (if o'.hdr ≠ 0 then H q else []).length = o'.hdr := by
            split
            · rw [he.hlen]; omega
            · simp; omega
          rw [List.length_append, hll, List.length_take, List.length_drop]
          by_cases hb0 : o'.off ≤ (contentOf (now q)).length
          · right; omega
          · by_cases hh0 : o'.hdr = 0
            · omega
            · have := (hp0 hh0).2
              omega
        · left
          have h5 := c5 q hq1
          have h6 : q.slice.offArch ≤ o'.pos := by
            by_cases hh0 : o'.hdr = 0
            · omega
            · have := (hp0 hh0).1; omega
          omega
  -- the header and the data
  have hHold := now_holds hok j.planned j.small A hA hxin he
  rw [List.take_of_length_le hlt] at hHold
  let C := contentOf (now x)
  let k := x.slice.offArch + x.ref.hdr + pad512 C.length
  let pad := (A.drop (x.slice.offArch + x.ref.hdr + C.length)).take (pad512 C.length - C.length)
  have hpl : C.length ≤ pad512 C.length := by unfold pad512; omega
  have hAl : x.slice.offArch + x.ref.hdr + pad512 x.ref.ent.size ≤ A.length := by rw [hlen, ← hup]; exact c6
  have hbl : pad512 C.length + 1024 ≤ pad512 x.ref.ent.size := by
    simp only [C]
    omega
  have hpadl : pad.length = pad512 C.length - C.length := by
    simp only [pad, List.length_take, List.length_drop]
    omega
  have hsplit : A.drop x.slice.offArch = H x ++ (C ++ (pad ++ A.drop k)) := by
    have a1 : A.drop x.slice.offArch = (H x ++ C) ++ A.drop (x.slice.offArch + (H x ++ C).length) := by
      unfold Holds at hHold
      conv => lhs; rw [← List.take_append_drop (H x ++ C).length (A.drop x.slice.offArch)]
      rw [hHold, List.drop_drop]
    have a2 : A.drop (x.slice.offArch + (H x ++ C).length) = pad ++ A.drop k := by
      rw [List.length_append, he.hlen, ← Nat.add_assoc]
      conv => lhs; rw [← List.take_append_drop (pad512 C.length - C.length) (A.drop (x.slice.offArch + x.ref.hdr + C.length))]
      rw [List.drop_drop]
      congr 2
      simp only [k]
      omega
    rw [a1, a2]; simp
  obtain ⟨m, hm1, hm2⟩ := he.reads C pad (A.drop k) rfl (by rw [hpadl]; omega)
  have hwd : withData (now x) C = now x := by
    simp only [C]
    cases hn : now x <;> rfl
  rw [hwd] at hm1
  refine ⟨m, ?_, hm1⟩
  have hzk : (A.drop k).take 1024 = zeros 1024 := by
    apply List.ext_getElem?
    intro i
    unfold zeros
    rw [List.getElem?_take, List.getElem?_replicate]
    by_cases hi : i < 1024
    · rw [if_pos hi, if_pos hi, List.getElem?_drop]
      refine hz (k + i) ?_ ?_
      · simp only [k, C] at *; omega
      · simp only [k]; omega
    · rw [if_neg hi, if_neg hi]
  obtain ⟨e, _, hmk⟩ := he.made
  rw [hsplit, readArchive, if_neg, hm2]
  · simp only []
    rw [dif_pos, readArchive, if_pos (Or.inr hzk)]
    rw [← hsplit]
    simp only [List.length_drop, k]
    omega
  · rintro (h | h)
    · have := congrArg List.length h
      simp only [List.length_append, List.length_nil, he.hlen] at this
      omega
    · exact not_zero_block hmk _ h

/-- The launch of a job whose files have changed. -/
theorem any_launch (j : Job cfg.env fs0 base root S g b mx coll bundles) (hl : Launchable cfg b archive) :
    Launch cfg b archive base (bundles.map printBundle) := by
  have := job_launch (cfg := { cfg with fs := fs0 }) (archive := archive) j ⟨hl.ranks, hl.ranksInt, hl.bucketInt, hl.archiveText⟩
  exact ⟨this.ranks, this.ranksInt, this.bucket, this.bucketInt, this.archiveText, this.baseText, this.orderText⟩

/-- What the workers did in a run that ended with success, and with what in their memories. -/
theorem any_carried (j : Job cfg.env fs0 base root S g b mx coll bundles) (hl : Launchable cfg b archive)
    (h : CreateRun cfg eager b archive base (bundles.map printBundle) file0 tr s) (hb : s.boss = .exit 0) :
    ∃ (zs : List Task) (ws : List WriteReq), Carried cfg.env cfg.fs base b bundles zs ∧ ws.Perm (zs.map Task.write) ∧
      s.file = some (writeAll ws) ∧
      ∀ z ∈ zs, ∃ r t ba ar w, Ev.wrote r t ba ar z.memory w ∈ tr := by
  have hL := any_launch j hl
  have hrec : ∀ l ∈ bundles, received l = printBundle l := fun l hlm => job_received (cfg := { cfg with fs := fs0 }) j l hlm
  obtain ⟨c1, c2⟩ := C22_exactly_once hL h hb
  have hperm : ((ran tr).map Prod.fst).Perm (bundles.map printBundle) := by
    rw [ran_text, ← c1]
    exact c2.map _
  have hw : ∀ x ∈ ran tr, (x.2.1.length = b ∧ workerDo cfg.env cfg.fs base x.2.1 x.1 = .ok x.2.2) ∧
      ∃ r t ba ar w, Ev.wrote r t ba ar x.2.1 w ∈ tr := by
    rintro ⟨t, m, w⟩ hx
    unfold ran at hx
    obtain ⟨e, he, hee⟩ := List.mem_filterMap.1 hx
    cases e with
    | wrote r t ba ar me wq =>
      simp only [Option.some.injEq, Prod.mk.injEq] at hee
      obtain ⟨rfl, rfl, rfl⟩ := hee
      refine ⟨?_, _, _, _, _, _, he⟩
      cases run_inv' hL h with
      | pre i hc hq hi views len => exact absurd he (hq.noWrite _ _ _ _ _ _)
      | failed x hc hq hb' views hfile len => exact absurd he (hq.noWrite _ _ _ _ _ _)
      | post g pt hc hp =>
        obtain ⟨_, _, h3, h4⟩ := hp.wrote _ _ _ _ _ _ he
        exact ⟨h3, h4⟩
    | _ => cases hee
  have hfile : s.file = some (writeAll ((ran tr).map fun x => x.2.2)) := by
    rw [ran_writes]
    exact C28_new_archive_is_the_writes hL h hb
  obtain ⟨B', hB1, hB2⟩ := perm_of_map_perm printBundle hperm.symm bundles rfl
  obtain ⟨xs, hx1, hx2⟩ := tasks_of B' (ran tr) hB2
  obtain ⟨zs, hz1, hz2⟩ := perm_of_map_perm Task.bundle hB1 xs hx1
  have hin : ∀ z ∈ zs, (printBundle z.bundle, z.memory, z.write) ∈ ran tr := by
    intro z hz
    rw [← hx2]; exact List.mem_map.2 ⟨z, hz1.mem_iff.1 hz, rfl⟩
  refine ⟨zs, _, ⟨hz2, ?_⟩, ?_, hfile, fun z hz => (hw _ (hin z hz)).2⟩
  · intro z hz
    obtain ⟨⟨h1, h2⟩, _⟩ := hw _ (hin z hz)
    have hzb : z.bundle ∈ bundles := by rw [← hz2]; exact List.mem_map.2 ⟨z, hz, rfl⟩
    exact ⟨h1, by rw [hrec _ hzb]; exact h2⟩
  · have : (ran tr).map (fun x => x.2.2) = xs.map Task.write := by
      rw [← hx2, List.map_map]; rfl
    rw [this]
    exact (hz1.map _).symm

/-- **C64** Changes of length are never noticed: whatever has become of the lengths and contents of the
files since the scan (and of permissions, owners, times, short link targets), as long as every scanned
object is still an object of its kind with a known owner, every run can be continued until all processes
have ended normally, and a run that cannot go on has ended with status 0 everywhere. -/
theorem C64_never_noticed (j : Job cfg.env fs0 base root S g b mx coll bundles) (hl : Launchable cfg b archive)
    (hr2 : 2 ≤ cfg.ranks) (hc : cfg.creatable = true)
    (hnow : ∀ p n, Seen root p n → describe p n ≠ none →
      ∃ n', cfg.fs (base ++ [47] ++ pathText p) = some n' ∧ Changed n n' ∧ MetaOk cfg.env (metaOf n'))
    (h : CreateRun cfg true b archive base (bundles.map printBundle) none tr s) :
    (∃ more s', CreateRun cfg true b archive base (bundles.map printBundle) none (tr ++ more) s' ∧ Finished cfg 0 s') ∧
    (Stuck cfg s → Finished cfg 0 s) := by
  have hL := any_launch j hl
  obtain ⟨_, hrun⟩ := any_setup j hnow
  have hrec : ∀ l ∈ bundles, received l = printBundle l := fun l hlm => job_received (cfg := { cfg with fs := fs0 }) j l hlm
  have hW : Workable cfg b base (bundles.map printBundle) := by
    intro t ht memory hm
    obtain ⟨l, hlm, rfl⟩ := List.mem_map.1 ht
    obtain ⟨d, hd, _⟩ := run_bundle hrun l hlm memory hm
    rw [hrec l hlm] at hd
    exact ⟨_, hd⟩
  have hn1 : ∀ tr s, CreateRun cfg true b archive base (bundles.map printBundle) none tr s → s.boss ≠ .exit 1 := by
    intro tr s h hb
    have := (C25_outcome hL h).2 hb
    simp [openResult, hc] at this
  refine ⟨?_, ?_⟩
  · obtain ⟨more, s', h2, h3⟩ := C25_reaches_end hL hW hr2 h
    rcases h3 with h3 | h3
    · exact ⟨more, s', h2, h3⟩
    · exact absurd h3.1 (hn1 _ _ h2)
  · intro hs
    rcases C25_no_deadlock hL hW hr2 h with h0 | h1 | ⟨e, s', hst⟩
    · exact h0
    · exact absurd h1.1 (hn1 _ _ h)
    · exact absurd hst.eager (hs e s')

/-- **C64** How far the archive is right when files have become shorter or longer.  The scanned objects
have an order in which they are stored - by their sizes at the scan - such that whenever the first ones
of it (`pre`) need as many blocks as before, these are the first members that are read, each as its
object is now (`Stored`), whatever has become of the objects behind.

And the violation: if the next object (`x`) is a file that needs two blocks fewer or less, and the
memory that the workers were given held zeros (as fresh memory does), the member of `x` is the last one
that is read, and reading ends without error: the rest of the space that was kept for `x` is taken for
the end of the archive.  All objects behind `x`, changed or not, are missing, and the status is 0
(`C64_never_noticed`). -/
theorem C64_shrunk_file_hides_others (j : Job cfg.env fs0 base root S g b mx coll bundles) (hl : Launchable cfg b archive)
    (hnow : ∀ p n, Seen root p n → describe p n ≠ none →
      ∃ n', cfg.fs (base ++ [47] ++ pathText p) = some n' ∧ Changed n n' ∧ MetaOk cfg.env (metaOf n'))
    (h : CreateRun cfg eager b archive base (bundles.map printBundle) file0 tr s) (hb : s.boss = .exit 0) :
    ∃ (A : Bytes) (objs : List Then), s.file = some A ∧
      (objs.map Then.path).Nodup ∧
      (∀ x ∈ objs, Seen root x.path x.old ∧ cfg.fs (base ++ [47] ++ pathText x.path) = some x.now) ∧
      (∀ p n, Seen root p n → describe p n ≠ none → ∃ x ∈ objs, x.path = p ∧ x.old = n) ∧
      objs.Pairwise (fun x y => (contentOf x.old).length ≤ (contentOf y.old).length) ∧
      ∀ pre x post, objs = pre ++ x :: post → (∀ y ∈ pre, blocksOf y.now = blocksOf y.old) →
        ∃ (ms : List Member) (k : Nat), readArchive A = (readArchive (A.drop k)).map (ms ++ ·) ∧
          List.Forall₂ (fun y m => ∃ st, Stored y.old y.now st ∧ memberOf cfg.env base y.path st = some m) pre ms ∧
          (blocksOf x.now + 2 ≤ blocksOf x.old →
            (∀ r t ba ar memory w, Ev.wrote r t ba ar memory w ∈ tr → ∀ v ∈ memory, v = 0) →
            ∃ m, memberOf cfg.env base x.path x.now = some m ∧ readArchive A = some (ms ++ [m])) := by
  obtain ⟨⟨path, node, now, H, hN⟩, hr⟩ := any_setup j hnow
  obtain ⟨zs, ws, hcar, hws, hfile, htr⟩ := any_carried j hl h hb
  obtain ⟨hok, _, _⟩ := j.setup
  obtain ⟨_, _, _, hnd, _, _⟩ := plan_flat hok j.planned
  have hrel : ∀ q ∈ (setOffsets (orderFiles S coll)).all, q.ref.ent.rel = pathText (path q) := by
    intro q hq
    have hd := (hN q hq).desc
    cases hn : node q <;> rw [hn] at hd <;> simp [describe] at hd <;> rw [← hd]
  have hname : ∀ q ∈ (setOffsets (orderFiles S coll)).all, ∀ x ∈ path q, NameOk x := fun q hq =>
    at_nameOk (seen_at (hN q hq).seen) j.tree.treeOk
  have hrefs : (setOffsets (orderFiles S coll)).all.map Placed.ref =
      (orderFiles S coll).dirs ++ (orderFiles S coll).files := by
    rw [setOffsets_all, placeFrom_refs]
  refine ⟨writeAll ws, (setOffsets (orderFiles S coll)).all.map (fun q => ⟨path q, node q, now q⟩), hfile, ?_, ?_, ?_, ?_, ?_⟩
  · rw [List.map_map]
    have : (setOffsets (orderFiles S coll)).all.map (fun p => p.ref.ent.rel) =
        ((setOffsets (orderFiles S coll)).all.map (Then.path ∘ fun q => ⟨path q, node q, now q⟩)).map pathText := by
      rw [List.map_map]
      exact List.map_congr_left hrel
    rw [this] at hnd
    exact hnd.of_map
  · intro x hx
    obtain ⟨q, hq, rfl⟩ := List.mem_map.1 hx
    exact ⟨(hN q hq).seen, (hN q hq).there⟩
  · intro p n hseen hne
    obtain ⟨e, hd⟩ := Option.ne_none_iff_exists'.1 hne
    obtain ⟨c', h', hex, _⟩ := C07_scan_exact g base root j.tree.isDir j.tree.treeOk j.luck
    rw [j.scanned] at h'
    have := Except.ok.inj h'
    subst this
    obtain ⟨r, hr', hre⟩ := List.mem_map.1 ((hex e).2 ⟨p, n, hseen, hd⟩)
    have hpm : ((orderFiles S coll).dirs ++ (orderFiles S coll).files).Perm (coll.dirs ++ coll.files) :=
      List.Perm.append_left _ (C09_order_files S coll).2.1
    have hr2 := hpm.mem_iff.2 hr'
    rw [← hrefs] at hr2
    obtain ⟨q, hq, hqr⟩ := List.mem_map.1 hr2
    have hpath : path q = p := by
      apply pathText_inj (hname q hq) (at_nameOk (seen_at hseen) j.tree.treeOk)
      rw [← hrel q hq, hqr, hre]
      cases n <;> simp [describe] at hd <;> rw [← hd]
    refine ⟨_, List.mem_map.2 ⟨q, hq, rfl⟩, hpath, ?_⟩
    have h1 := (hN q hq).seen
    rw [hpath] at h1
    exact at_same j.tree.treeOk (seen_at h1) (seen_at hseen)
  · rw [List.pairwise_map]
    refine List.Pairwise.imp_of_mem ?_ (all_by_size j)
    intro x y hx hy hxy
    simp only [(hN x hx).olen, (hN y hy).olen]
    exact hxy
  · intro pre x post hsplit hpre
    obtain ⟨pre', l2, hall, e1, e2⟩ := List.map_eq_append_iff.1 hsplit
    obtain ⟨x', post', rfl, e3, e4⟩ := List.map_eq_cons_iff.1 e2
    subst e1 e3
    have hpre' : ∀ q ∈ pre', blocksOf (now q) = blocksOf (node q) := fun q hq => hpre _ (List.mem_map.2 ⟨q, hq, rfl⟩)
    obtain ⟨ms, h1, h2⟩ := any_prefix j hN hr zs hcar ws hws pre' x' post' hall hpre'
    refine ⟨ms, x'.slice.offArch, h1, List.forall₂_map_left_iff.2 h2, ?_⟩
    intro hx hz
    obtain ⟨m, h3, h4⟩ := any_shrunk j hN hr zs hcar ws hws
      (fun z hzin => by obtain ⟨r, t, ba, ar, w, hw⟩ := htr z hzin; exact hz _ _ _ _ _ _ hw) pre' x' post' hall hx
    exact ⟨m, h4, by rw [h1, h3]; rfl⟩

end

/-- Runs can be continued to their end with any given contents of the memory that the workers get. -/
theorem reaches_end_memory {c : Cfg} {b : Nat} {archive base : Bytes} {orders : List Bytes} {eager : Bool}
    {file0 : Option Bytes} {tr : List Ev} {s : Sys} (hL : Launch c b archive base orders) (hW : Workable c b base orders)
    (hr2 : 2 ≤ c.ranks) (mem : Bytes) (hmem : mem.length = b) (h : CreateRun c eager b archive base orders file0 tr s) :
    ∃ more s', CreateRun c eager b archive base orders file0 (tr ++ more) s' ∧ (Finished c 0 s' ∨ Finished c 1 s') ∧
      ∀ r t ba ar m w, Ev.wrote r t ba ar m w ∈ more → m = mem := by
  generalize hm : (2 * c.ranks + 6) * (8 + 6 * c.ranks + 3 * orders.length) - tr.length = m
  induction m using Nat.strongRecOn generalizing tr s with
  | ind m ih =>
    rcases C25_no_deadlock hL hW hr2 h with h0 | h1 | ⟨e, s', hst⟩
    · exact ⟨[], s, by simpa using h, Or.inl h0, by simp⟩
    · exact ⟨[], s, by simpa using h, Or.inr h1, by simp⟩
    · have hst' : Step c eager s e s' := by
        cases eager with
        | false => exact hst
        | true => exact hst.eager
      obtain ⟨e2, s2, hst2, hmm⟩ : ∃ e2 s2, Step c eager s e2 s2 ∧ ∀ r t ba ar m w, e2 = Ev.wrote r t ba ar m w → m = mem := by
        have hrun : CreateRun c eager b archive base orders file0 (tr ++ [e]) s' := .snoc h hst'
        by_cases hw : ∃ r t ba ar m w, e = Ev.wrote r t ba ar m w
        · obtain ⟨r, t, ba, ar, me, w, rfl⟩ := hw
          have hin : Ev.wrote r t ba ar me w ∈ tr ++ [Ev.wrote r t ba ar me w] := by simp
          have hto : t ∈ orders := by
            have hx : (r, t) ∈ executed (tr ++ [Ev.wrote r t ba ar me w]) := by
              unfold executed
              exact List.mem_filterMap.2 ⟨_, hin, rfl⟩
            have := (executed_subperm hL hrun).subset (List.mem_map.2 ⟨_, hx, rfl⟩)
            exact this
          obtain ⟨w0, hw0⟩ := hW t hto mem hmem
          cases run_inv' hL hrun with
          | pre i hc hq hi views len => exact absurd hin (hq.noWrite _ _ _ _ _ _)
          | failed x hc hq hb' views hfile len => exact absurd hin (hq.noWrite _ _ _ _ _ _)
          | post g pt hc hp =>
            obtain ⟨h1, h2, h3, h4⟩ := hp.wrote _ _ _ _ _ _ hin
            simp only at h1 h3
            cases hst' with
            | work =>
              have hm' : me.length = (s.w r).bucket := by assumption
              refine ⟨_, _, Step.work s r t ar mem _ w0 (by assumption) (by assumption) (by assumption) (by rw [← hm', h3, hmem])
                (by assumption) (by rw [h1]; exact hw0), ?_⟩
              rintro _ _ _ _ _ _ heq
              cases heq
              rfl
        · exact ⟨e, s', hst', fun r t ba ar m w heq => absurd ⟨r, t, ba, ar, m, w, heq⟩ hw⟩
      have hrun : CreateRun c eager b archive base orders file0 (tr ++ [e2]) s2 := .snoc h hst2
      have hb := C25_bounded hL hrun
      simp only [List.length_append, List.length_singleton] at hb
      obtain ⟨more, s3, h2, h3, h4⟩ := ih _ (by
        rw [← hm]
        show (2 * c.ranks + 6) * (8 + 6 * c.ranks + 3 * orders.length) - (tr ++ [e2]).length < _
        simp only [List.length_append, List.length_singleton]
        omega) hrun rfl
      refine ⟨e2 :: more, s3, by simpa using h2, h3, ?_⟩
      intro r t ba ar m w hin
      rcases List.mem_cons.1 hin with heq | hin
      · exact hmm _ _ _ _ _ _ heq.symm
      · exact h4 _ _ _ _ _ _ hin

/-! ### a concrete case -/

/-- The contents of the two files of the example. -/
def shrinkA : Bytes := List.replicate 1200 120
def shrinkB : Bytes := List.replicate 1300 121

theorem shrinkA_length : shrinkA.length = 1200 := List.length_replicate ..
theorem shrinkB_length : shrinkB.length = 1300 := List.length_replicate ..

/-- `/t` with a file `a` of 1200 bytes and a file `b` of 1300 bytes. -/
def shrinkTree : FNode :=
  .dir ⟨493, 0, 0, 0⟩ true (.cons [97] (.reg ⟨420, 0, 0, 0⟩ shrinkA)
    (.cons [98] (.reg ⟨420, 0, 0, 0⟩ shrinkB) .nil))

/-- When the workers come, `a` has one byte. -/
def shrinkFs (c : Bytes) : FS := fun path =>
  if path = [47, 116, 47] then some shrinkTree
  else if path = [47, 116, 47, 97] then some (.reg ⟨420, 0, 0, 0⟩ c)
  else if path = [47, 116, 47, 98] then some (.reg ⟨420, 0, 0, 0⟩ shrinkB)
  else none

theorem shrink_cases {p : List Bytes} {n : FNode} (h : Seen shrinkTree p n) :
    (p = [] ∧ n = shrinkTree) ∨ (p = [[97]] ∧ n = .reg ⟨420, 0, 0, 0⟩ shrinkA) ∨
    (p = [[98]] ∧ n = .reg ⟨420, 0, 0, 0⟩ shrinkB) := by
  have h := seen_at h
  unfold shrinkTree at h
  cases h with
  | self => exact Or.inl ⟨rfl, rfl⟩
  | step hc h' =>
    cases hc with
    | here => cases h'; exact Or.inr (Or.inl ⟨rfl, rfl⟩)
    | there hc =>
    cases hc with
    | here => cases h'; exact Or.inr (Or.inr ⟨rfl, rfl⟩)
    | there hc => cases hc

theorem shrink_meta {m : Meta} (h1 : m.uid = 0) (h2 : m.gid = 0) (h3 : m.mtime = 0) : MetaOk demoEnv2 m := by
  refine ⟨by omega, by omega, by omega, by omega, ⟨[114], ?_, by decide, by decide⟩, ⟨[103], ?_, by decide, by decide⟩⟩
  · rw [h1]; rfl
  · rw [h2]; rfl

theorem shrink_ok : TreeOk shrinkTree := by
  simp [shrinkTree, TreeOk, KidsOk, names, NameOk]

theorem shrink_short : ShortTree demoEnv2 (shrinkFs shrinkA) [47, 116] shrinkTree := by
  constructor
  · trivial
  · exact shrink_ok
  · intro p n h
    rcases shrink_cases h with ⟨rfl, rfl⟩ | ⟨rfl, rfl⟩ | ⟨rfl, rfl⟩ <;> rfl
  · decide
  · decide
  · intro p n h
    rcases shrink_cases h with ⟨rfl, rfl⟩ | ⟨rfl, rfl⟩ | ⟨rfl, rfl⟩ <;> decide
  · intro p m t h
    rcases shrink_cases h with ⟨_, h⟩ | ⟨_, h⟩ | ⟨_, h⟩ <;> simp [shrinkTree] at h
  · intro p n h
    rcases shrink_cases h with ⟨rfl, rfl⟩ | ⟨rfl, rfl⟩ | ⟨rfl, rfl⟩ <;> decide
  · intro p n h _
    rcases shrink_cases h with ⟨rfl, rfl⟩ | ⟨rfl, rfl⟩ | ⟨rfl, rfl⟩ <;> exact shrink_meta rfl rfl rfl

/-- At most three objects of at most 2048 bytes. -/
theorem shrink_total : ∀ objs : List (List Bytes × FNode), (objs.map Prod.fst).Nodup →
    (∀ x ∈ objs, Seen shrinkTree x.1 x.2) → (objs.map (fun x => tarBytes x.2)).sum < 2 ^ 31 := by
  intro objs hnd hs
  have h1 : (objs.map Prod.fst).length ≤ 3 := by
    have : (objs.map Prod.fst).Subperm [[], [[97]], [[98]]] := by
      apply List.subperm_of_subset hnd
      intro p hp
      obtain ⟨x, hx, rfl⟩ := List.mem_map.1 hp
      rcases shrink_cases (hs x hx) with ⟨h, _⟩ | ⟨h, _⟩ | ⟨h, _⟩ <;> rw [h] <;> simp
    simpa using this.length_le
  have h2 : ∀ x ∈ objs, tarBytes x.2 ≤ 2048 := by
    intro x hx
    rcases shrink_cases (hs x hx) with ⟨_, h⟩ | ⟨_, h⟩ | ⟨_, h⟩ <;> rw [h] <;> unfold tarBytes contentOf <;>
      simp only [shrinkTree, shrinkA_length, shrinkB_length, List.length_nil] <;> decide
  have h3 : ∀ (l : List (List Bytes × FNode)), (∀ x ∈ l, tarBytes x.2 ≤ 2048) →
      (l.map (fun x => tarBytes x.2)).sum ≤ 2048 * l.length := by
    intro l
    induction l with
    | nil => simp
    | cons y l ih =>
      intro h
      have := ih (fun x hx => h x (by simp [hx]))
      have := h y (by simp)
      simp only [List.map_cons, List.sum_cons, List.length_cons]
      omega
  have := h3 objs h2
  rw [List.length_map] at h1
  omega

def shrinkCfg : Cfg := ⟨3, demoEnv2, shrinkFs [120], true⟩

theorem shrink_now : ∀ p n, Seen shrinkTree p n → describe p n ≠ none →
    ∃ n', shrinkCfg.fs ([47, 116] ++ [47] ++ pathText p) = some n' ∧ Changed n n' ∧ MetaOk shrinkCfg.env (metaOf n') := by
  intro p n h _
  rcases shrink_cases h with ⟨rfl, rfl⟩ | ⟨rfl, rfl⟩ | ⟨rfl, rfl⟩
  · exact ⟨_, rfl, trivial, shrink_meta rfl rfl rfl⟩
  · exact ⟨_, rfl, show [(120 : UInt8)].length < 2 ^ 33 - 1 by decide, shrink_meta rfl rfl rfl⟩
  · refine ⟨_, rfl, ?_, shrink_meta rfl rfl rfl⟩
    show shrinkB.length < 2 ^ 33 - 1
    rw [shrinkB_length]
    decide

/-- There is a run of `parfu` on this tree, with three processes and with zeros in all memories, that
ends with status 0 and whose archive reads without error, has the member `a` of one byte, and no
member `b` - although `b` has not changed at all. -/
example : ∃ (bundles : List (List Order)) (tr : List Ev) (s : Sys) (A : Bytes) (ms : List Member),
    CreateRun shrinkCfg true 4992000 [97] [47, 116] (bundles.map printBundle) none tr s ∧ Finished shrinkCfg 0 s ∧
    s.file = some A ∧ readArchive A = some ms ∧
    (∃ m ∈ ms, m.path = [47, 116, 47, 97] ∧ m.data = [120]) ∧ ∀ m ∈ ms, m.path ≠ [47, 116, 47, 98] := by
  obtain ⟨coll, bundles, j⟩ := C19_short_paths demoSort2 (fun _ => 0) 4992000 7 shrink_short (fun _ => rfl) (by decide) (by decide)
    shrink_total
  have hl : Launchable shrinkCfg 4992000 [97] := by constructor <;> decide
  have j : Job shrinkCfg.env (shrinkFs shrinkA) [47, 116] shrinkTree demoSort2 (fun _ => 0) 4992000 7 coll bundles := j
  have hL := any_launch j hl
  obtain ⟨_, hrun⟩ := any_setup j shrink_now
  have hW : Workable shrinkCfg 4992000 [47, 116] (bundles.map printBundle) := by
    intro t ht memory hm
    obtain ⟨l, hlm, rfl⟩ := List.mem_map.1 ht
    obtain ⟨d, hd, _⟩ := run_bundle hrun l hlm memory hm
    rw [job_received (cfg := { shrinkCfg with fs := shrinkFs shrinkA }) j l hlm] at hd
    exact ⟨_, hd⟩
  obtain ⟨tr, s, h1, h2, h3⟩ := reaches_end_memory (eager := true) (file0 := none) hL hW (by decide) (zeros 4992000)
    (List.length_replicate ..) Run.nil
  rw [List.nil_append] at h1
  have hf : Finished shrinkCfg 0 s := by
    rcases h2 with h2 | h2
    · exact h2
    · have := (C25_outcome hL h1).2 h2.1
      simp [openResult, shrinkCfg] at this
  obtain ⟨A, objs, a1, a2, a3, a4, a5, a6⟩ := C64_shrunk_file_hides_others j hl shrink_now h1 hf.1
  have ha : Seen shrinkTree [[97]] (.reg ⟨420, 0, 0, 0⟩ shrinkA) :=
    .step (.here (by decide) (by decide)) (.self _)
  obtain ⟨x, hx, hx1, hx2⟩ := a4 _ _ ha (by simp [describe])
  obtain ⟨pre, post, rfl⟩ := List.append_of_mem hx
  have hxn : x.now = .reg ⟨420, 0, 0, 0⟩ [120] := by
    have := (a3 x hx).2
    rw [hx1] at this
    exact (Option.some.inj this).symm
  have hroot : ∀ y ∈ pre, y.path = [] ∧ y.old = shrinkTree := by
    intro y hy
    have hsm := (List.pairwise_append.1 a5).2.2 y hy x (by simp)
    rw [hx2] at hsm
    rcases shrink_cases (a3 y (by simp [hy])).1 with h | ⟨h, _⟩ | ⟨_, h⟩
    · exact h
    · rw [List.map_append, List.nodup_append] at a2
      exact absurd (h.trans hx1.symm) (a2.2.2 _ (List.mem_map.2 ⟨y, hy, rfl⟩) _ (by simp))
    · rw [h] at hsm
      simp only [contentOf, shrinkA_length, shrinkB_length] at hsm
      omega
  obtain ⟨ms, k, _, b1, b2⟩ := a6 pre x post rfl (by
    intro y hy
    have h4 := (a3 y (by simp [hy])).2
    rw [(hroot y hy).1] at h4
    have h5 : y.now = shrinkTree := (Option.some.inj h4).symm
    rw [h5, (hroot y hy).2])
  obtain ⟨m, b3, b4⟩ := b2 (by
    rw [hxn, hx2]
    unfold blocksOf contentOf
    simp only [shrinkA_length]
    decide) (by
      intro r t ba ar memory w hin v hv
      rw [h3 _ _ _ _ _ _ hin] at hv
      exact List.eq_of_mem_replicate hv)
  rw [hx1, hxn] at b3
  have hm : m.path = [47, 116, 47, 97] ∧ m.data = [120] := by
    rw [← Option.some.inj b3]
    exact ⟨rfl, rfl⟩
  refine ⟨bundles, tr, s, A, _, h1, hf, a1, b4, ⟨m, by simp, hm⟩, ?_⟩
  intro m' hm'
  rcases List.mem_append.1 hm' with h | h
  · obtain ⟨y, hy, st, h6, h7⟩ : ∃ y ∈ pre, ∃ st, Stored y.old y.now st ∧ memberOf shrinkCfg.env [47, 116] y.path st = some m' := by
      clear b4 b2 hm'
      obtain ⟨i, hi, rfl⟩ := List.mem_iff_getElem.1 h
      have hi' : i < pre.length := by rw [b1.length_eq]; exact hi
      exact ⟨pre[i], List.getElem_mem _, (List.forall₂_iff_get.1 b1).2 i hi' hi⟩
    have h4 := (a3 y (by simp [hy])).2
    rw [(hroot y hy).1] at h4
    have h5 : y.now = shrinkTree := (Option.some.inj h4).symm
    rw [h5, (hroot y hy).2] at h6
    have h6 : st = shrinkTree := h6
    rw [(hroot y hy).1, h6] at h7
    rw [← Option.some.inj h7]
    decide
  · rw [List.mem_singleton.1 h, hm.1]
    decide

end Parfu.Props
