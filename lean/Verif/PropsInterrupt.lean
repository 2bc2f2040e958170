/-
Property theorems C65: what a tar reader makes of the archive file of an interrupted run of
parfu 0.6.
-/
import Verif.InterruptLemmas
set_option autoImplicit false

namespace Parfu.Props
open Parfu MoveSpec TarSpec ScanSpec PlanSpec ProtocolSpec

theorem frag_nonempty (idx : Int) (b : Nat) (p : Placed) (hs : p.slice.hdr = p.ref.hdr) (hp : 0 < p.ref.hdr) :
    ∀ o ∈ frags idx b p, 0 < o.hdr + o.size := by
  intro o ho
  unfold frags at ho
  split at ho
  · simp only [List.mem_singleton] at ho
    subst ho
    simp [orderOf, orderRaw, hs]; omega
  · rcases List.mem_cons.1 ho with rfl | ho
    · simp [orderRaw]; omega
    · have := (restFrags_rel _ _ _ _ _ _ o ho).2.2.2.2.2.2.2.2
      omega

theorem chainTo_cover : ∀ (bs : List (List Order)) (w w' : Nat), (∀ l ∈ bs, l ≠ []) →
    ChainTo w bs.flatten w' → ∀ i, w ≤ i → i < w' → ∃ l ∈ bs, startOf l ≤ i ∧ i < up512 (endOf l) := by
  intro bs
  induction bs with
  | nil => intro w w' _ h i h1 h2; simp [ChainTo] at h; omega
  | cons x bs ih =>
    intro w w' hne hch i h1 h2
    rw [List.flatten_cons, chainTo_append] at hch
    obtain ⟨m, c1, c2⟩ := hch
    have hx := hne x (by simp)
    have hs := chainTo_start c1 hx
    have he := chainTo_end c1 hx
    by_cases him : i < m
    · exact ⟨x, by simp, by omega, by omega⟩
    · obtain ⟨l, hl, h⟩ := ih m w' (fun l hl => hne l (by simp [hl])) c2 i (by omega) h2
      exact ⟨l, by simp [hl], h⟩

section
variable {cfg : Cfg} {base : Bytes} {root : FNode} {S : StdSort Ref} {g : Bytes → UInt8}
  {b mx : Nat} {c : Coll} {bundles : List (List Order)} {archive : Bytes} {eager : Bool}
  {tr : List Ev} {s : Sys} {f : Bytes}

/-- The file at any moment: where something has been done it is as in some complete execution;
elsewhere it is zero or has not been reached. -/
theorem moment (j : Job cfg.env cfg.fs base root S g b mx c bundles) (hl : Launchable cfg b archive)
    (h : CreateRun cfg eager b archive base (bundles.map printBundle) none tr s) (hf : s.file = some f) :
    ∃ zs : List Task, ∃ ws : List WriteReq, Carried cfg.env cfg.fs base b bundles zs ∧
      ws.Perm (zs.map Task.write) ∧
      (∀ l ∈ bundles, DoneBundle tr l → ∀ i, startOf l ≤ i → i < up512 (endOf l) →
        f[i]? = (writeAll ws)[i]?) ∧
      (∀ i, (∀ l ∈ bundles, DoneBundle tr l → ¬ (startOf l ≤ i ∧ i < up512 (endOf l))) →
        f[i]? = some 0 ∨ f[i]? = none) ∧
      (∀ l ∈ bundles, DoneBundle tr l → up512 (endOf l) ≤ f.length) ∧
      (f.length = 0 ∨ ∃ l ∈ bundles, DoneBundle tr l ∧ f.length = up512 (endOf l)) := by
  have hL := job_launch j hl
  obtain ⟨_, _, hr⟩ := j.setup
  obtain ⟨xs, ys, zs, hx, hz, hc⟩ := run_tasks j hl h
  have hfile : f = writeAll (writes tr) := by
    cases run_inv' hL h with
    | pre i hcm hq hi views len => rw [hq.file] at hf; cases hf
    | failed x hcm hq hb' views hfile len => rw [hq.file] at hf; cases hf
    | post g pt hcm hp => rw [hp.file] at hf; exact (Option.some.inj hf).symm
  have hwr : writes tr = xs.map Task.write := by
    rw [← ran_writes, ← hx, List.map_map]; rfl
  have hperm : ((xs ++ ys).map Task.write).Perm (zs.map Task.write) := (hz.map Task.write).symm
  obtain ⟨hends, hap⟩ := carried_apart hr zs hc
  have hap' : ((xs ++ ys).map Task.write).Pairwise
      (fun a b : WriteReq => Apart a.1 a.2.length b.1 b.2.length) :=
    (hperm.pairwise_iff (by intro a b hab; exact hab.symm)).2 hap
  rw [List.map_append] at hap' hperm
  have hxz : ∀ x ∈ xs, x ∈ zs ∧ x.bundle ∈ bundles := by
    intro x hx
    have h1 : x ∈ zs := hz.mem_iff.2 (by simp [hx])
    exact ⟨h1, by rw [← hc.1]; exact List.mem_map.2 ⟨x, h1, rfl⟩⟩
  -- who did a bundle
  have hwho : ∀ l ∈ bundles, DoneBundle tr l → ∃ x ∈ xs, x.write.1 = startOf l ∧
      x.write.1 + x.write.2.length = up512 (endOf l) := by
    rintro l hlb ⟨r, hd⟩
    have hmem : printBundle l ∈ (ran tr).map Prod.fst := by
      rw [ran_text]; exact List.mem_map.2 ⟨_, hd, rfl⟩
    rw [← hx, List.map_map] at hmem
    obtain ⟨x, hxm, hxp⟩ := List.mem_map.1 hmem
    have hxp : printBundle x.bundle = printBundle l := hxp
    obtain ⟨hxz', hxb⟩ := hxz x hxm
    have hw1 := hc.2 x hxz'
    obtain ⟨dl, hdl, hlen, _⟩ := run_bundle hr l hlb x.memory hw1.1
    have hw2 := hw1.2
    rw [job_received j _ hxb, hxp, ← job_received j _ hlb, hdl] at hw2
    have hwx : x.write = (startOf l, dl) := (Except.ok.inj hw2).symm
    exact ⟨x, hxm, by rw [hwx], by rw [hwx]; exact hlen⟩
  have hdone : ∀ x ∈ xs, DoneBundle tr x.bundle := by
    intro x hxm
    have : printBundle x.bundle ∈ (executed tr).map Prod.snd := by
      rw [← ran_text, ← hx, List.map_map]; exact List.mem_map.2 ⟨x, hxm, rfl⟩
    obtain ⟨⟨r, t⟩, h1, h2⟩ := List.mem_map.1 this
    exact ⟨r, by rw [← h2]; exact h1⟩
  refine ⟨zs, _, hc, hperm, ?_, ?_, ?_, ?_⟩
  · intro l hlb hd i h1 h2
    obtain ⟨x, hxm, e1, e2⟩ := hwho l hlb hd
    rw [hfile, hwr]
    exact (writes_stay _ _ hap' x.write (List.mem_map.2 ⟨x, hxm, rfl⟩) i (by omega) (by omega)).1
  · intro i hi
    rw [hfile, hwr]
    refine foldl_writeAt_hole i _ [] (Or.inr rfl) ?_
    intro w hw
    obtain ⟨x, hxm, rfl⟩ := List.mem_map.1 hw
    obtain ⟨e1, e2⟩ := hends x (hxz x hxm).1
    rw [e2, e1]
    exact hi _ (hxz x hxm).2 (hdone x hxm)
  · intro l hlb hd
    obtain ⟨x, hxm, e1, e2⟩ := hwho l hlb hd
    obtain ⟨k1, _, _⟩ := chainTo_bundles bundles 0 _ hr.nonempty (by omega) hr.chain
    have hlen := (foldl_writeAt_length (xs.map Task.write) [] (endPos 0 (setOffsets (orderFiles S c)).all) (by simp) (by
      intro w hw
      obtain ⟨y, hym, rfl⟩ := List.mem_map.1 hw
      rw [(hends y (hxz y hym).1).2]
      exact (k1 _ (hxz y hym).2).2.2)).2.2 x.write (List.mem_map.2 ⟨x, hxm, rfl⟩)
    rw [hfile, hwr, ← e2]
    exact hlen
  · rcases foldl_writeAt_len (xs.map Task.write) [] with h0 | ⟨w, hw, h0⟩
    · left; rw [hfile, hwr]; exact h0
    · right
      obtain ⟨x, hxm, rfl⟩ := List.mem_map.1 hw
      obtain ⟨_, e2⟩ := hends x (hxz x hxm).1
      refine ⟨_, (hxz x hxm).2, hdone x hxm, ?_⟩
      rw [hfile, hwr, ← e2]
      exact h0

/-- The objects archived, in the order of the plan. -/
theorem entries_objects (j : Job cfg.env cfg.fs base root S g b mx c bundles)
    {path : Placed → List Bytes} {node : Placed → FNode} {H : Placed → Bytes} {m : Placed → Member}
    (hE : ∀ q ∈ (setOffsets (orderFiles S c)).all, Entry cfg.env cfg.fs base root q (path q) (node q) (H q) (m q)) :
    (((setOffsets (orderFiles S c)).all.map (fun q => (path q, node q))).map Prod.fst).Nodup ∧
    ∀ p n, (p, n) ∈ (setOffsets (orderFiles S c)).all.map (fun q => (path q, node q)) ↔
      Seen root p n ∧ describe p n ≠ none := by
  obtain ⟨hok, _, _⟩ := j.setup
  obtain ⟨hflat, hs, hhdr, hnd, hcont, _⟩ := plan_flat hok j.planned
  have hrel : ∀ q ∈ (setOffsets (orderFiles S c)).all, q.ref.ent.rel = pathText (path q) := by
    intro q hq
    have hd := (hE q hq).desc
    cases hn : node q <;> rw [hn] at hd <;> simp [describe] at hd <;> rw [← hd]
  have hname : ∀ q ∈ (setOffsets (orderFiles S c)).all, ∀ x ∈ path q, NameOk x := fun q hq =>
    at_nameOk (seen_at (hE q hq).seen) j.tree.treeOk
  have hrefs : (setOffsets (orderFiles S c)).all.map Placed.ref =
      (orderFiles S c).dirs ++ (orderFiles S c).files := by
    rw [setOffsets_all, placeFrom_refs]
  constructor
  · rw [List.map_map]
    have : (setOffsets (orderFiles S c)).all.map (fun p => p.ref.ent.rel) =
        ((setOffsets (orderFiles S c)).all.map (Prod.fst ∘ fun q => (path q, node q))).map pathText := by
      rw [List.map_map]
      exact List.map_congr_left hrel
    rw [this] at hnd
    exact hnd.of_map
  · intro p n
    constructor
    · intro h
      obtain ⟨q, hq, e⟩ := List.mem_map.1 h
      have he := hE q hq
      obtain ⟨rfl, rfl⟩ := Prod.mk.inj e
      exact ⟨he.seen, by rw [he.desc]; simp⟩
    · rintro ⟨hseen, hne⟩
      obtain ⟨e, hd⟩ := Option.ne_none_iff_exists'.1 hne
      obtain ⟨c', h', hex, _⟩ := C07_scan_exact g base root j.tree.isDir j.tree.treeOk j.luck
      rw [j.scanned] at h'
      have := Except.ok.inj h'
      subst this
      obtain ⟨r, hr', hre⟩ := List.mem_map.1 ((hex e).2 ⟨p, n, hseen, hd⟩)
      have hpm : ((orderFiles S c).dirs ++ (orderFiles S c).files).Perm (c.dirs ++ c.files) :=
        List.Perm.append_left _ (C09_order_files S c).2.1
      have hr2 := hpm.mem_iff.2 hr'
      rw [← hrefs] at hr2
      obtain ⟨q, hq, hqr⟩ := List.mem_map.1 hr2
      refine List.mem_map.2 ⟨q, hq, ?_⟩
      have he := hE q hq
      have hpp : path q = p := by
        apply pathText_inj (hname q hq) (at_nameOk (seen_at hseen) j.tree.treeOk)
        rw [← hrel q hq, hqr, hre]
        cases n <;> simp [describe] at hd <;> rw [← hd]
      have h1 := j.tree.fs _ _ he.seen
      have h2 := j.tree.fs _ _ hseen
      rw [hpp, h2] at h1
      rw [hpp, Option.some.inj h1]

/-- Every complete execution reads as all members. -/
theorem job_reads (j : Job cfg.env cfg.fs base root S g b mx c bundles)
    {path : Placed → List Bytes} {node : Placed → FNode} {H : Placed → Bytes} {m : Placed → Member}
    (hE : ∀ q ∈ (setOffsets (orderFiles S c)).all, Entry cfg.env cfg.fs base root q (path q) (node q) (H q) (m q))
    (xs : List Task) (hxs : Carried cfg.env cfg.fs base b bundles xs) (ws : List WriteReq)
    (hws : ws.Perm (xs.map Task.write)) :
    (writeAll ws).length = endPos 0 (setOffsets (orderFiles S c)).all ∧
    (∀ q ∈ (setOffsets (orderFiles S c)).all, Holds (writeAll ws) q.slice.offArch (H q ++ contentOf (node q))) ∧
    readArchive (writeAll ws) = some ((setOffsets (orderFiles S c)).all.map m) := by
  obtain ⟨hok, _, hr⟩ := j.setup
  obtain ⟨hlen, hA, _, _⟩ := run_all hr xs hxs ws hws
  obtain ⟨hflat, hs, hhdr, hnd, hcont, _⟩ := plan_flat hok j.planned
  have hhold : ∀ q ∈ (setOffsets (orderFiles S c)).all,
      Holds (writeAll ws) q.slice.offArch (H q ++ contentOf (node q)) := fun q hq =>
    archive_holds j.tree hok j.planned j.small _ (fun o ho _ => hA o ho) hq (hE q hq)
  refine ⟨hlen, hhold, ?_⟩
  have hread := readArchive_placed (env := cfg.env) (writeAll ws) m H (fun q => contentOf (node q))
    (setOffsets (orderFiles S c)).all 0 hcont hlen (by omega) (by
      intro q hq
      have he := hE q hq
      refine ⟨he.hlen, by rw [he.dlen], hhold q hq, ?_, ?_⟩
      · obtain ⟨e, _, h⟩ := he.made; exact ⟨e, h⟩
      · intro padding rest hp
        rw [he.dlen] at hp
        exact he.reads padding rest hp)
  rwa [List.drop_zero] at hread

theorem contiguous_parts (p1 : List Placed) : ∀ (w : Nat) (p2 : List Placed), Contiguous w (p1 ++ p2) →
    Contiguous w p1 ∧ Contiguous (endPos w p1) p2 := by
  induction p1 with
  | nil => intro w p2 h; exact ⟨trivial, h⟩
  | cons p p1 ih =>
    intro w p2 h
    simp only [List.cons_append, Contiguous, endPos] at h ⊢
    obtain ⟨h1, h2⟩ := h
    obtain ⟨h3, h4⟩ := ih _ p2 h2
    exact ⟨⟨h1, h3⟩, h4⟩

theorem endPos_le (p1 : List Placed) : ∀ w, w ≤ endPos w p1 ∧ (Contiguous w p1 → ∀ q ∈ p1,
    q.slice.offArch + q.ref.hdr + q.ref.ent.size ≤ endPos w p1) := by
  induction p1 with
  | nil => intro w; simp [endPos]
  | cons p p1 ih =>
    intro w
    obtain ⟨i1, i2⟩ := ih (up512 (w + p.ref.hdr + p.ref.ent.size))
    have hup := le_up512 (w + p.ref.hdr + p.ref.ent.size)
    simp only [endPos, Contiguous]
    refine ⟨by omega, ?_⟩
    rintro ⟨h1, h2⟩ q hq
    rcases List.mem_cons.1 hq with rfl | hq
    · rw [h1]; omega
    · exact i2 h2 q hq

/-- A file that is as a complete execution up to the end of the first entries. -/
theorem reads_front (j : Job cfg.env cfg.fs base root S g b mx c bundles)
    {path : Placed → List Bytes} {node : Placed → FNode} {H : Placed → Bytes} {m : Placed → Member}
    (hE : ∀ q ∈ (setOffsets (orderFiles S c)).all, Entry cfg.env cfg.fs base root q (path q) (node q) (H q) (m q))
    (A : Bytes) (hA : ∀ q ∈ (setOffsets (orderFiles S c)).all, Holds A q.slice.offArch (H q ++ contentOf (node q)))
    {p1 p2 : List Placed} (hp : (setOffsets (orderFiles S c)).all = p1 ++ p2) {n : Nat} (hn : endPos 0 p1 ≤ n)
    (hlen : n ≤ f.length) (hsame : ∀ i, i < n → f[i]? = A[i]?) :
    readArchive f = (readArchive (f.drop (endPos 0 p1))).map (p1.map m ++ ·) := by
  obtain ⟨hok, _, hr⟩ := j.setup
  obtain ⟨hflat, hs, hhdr, hnd, hcont, _⟩ := plan_flat hok j.planned
  rw [hp] at hcont
  obtain ⟨hc1, _⟩ := contiguous_parts p1 0 p2 hcont
  have := readArchive_placed_then (env := cfg.env) f m H (fun q => contentOf (node q)) p1 0 hc1 (by omega) (by omega) (by
    intro q hq
    have hqa : q ∈ (setOffsets (orderFiles S c)).all := by rw [hp]; simp [hq]
    have he := hE q hqa
    refine ⟨he.hlen, by rw [he.dlen], ?_, ?_, ?_⟩
    · have h1 := hA q hqa
      have h2 := (endPos_le p1 0).2 hc1 q hq
      apply holds_of_get h1
      intro i hi
      rw [List.length_append, he.hlen, he.dlen] at hi
      exact hsame _ (by omega)
    · obtain ⟨e, _, h⟩ := he.made; exact ⟨e, h⟩
    · intro padding rest hp
      rw [he.dlen] at hp
      exact he.reads padding rest hp)
  rwa [List.drop_zero] at this

/-- Facts about a moment at which the first bundles have been carried out. -/
theorem front_done (j : Job cfg.env cfg.fs base root S g b mx c bundles) (hl : Launchable cfg b archive)
    (h : CreateRun cfg eager b archive base (bundles.map printBundle) none tr s) (hf : s.file = some f)
    {B1 B2 : List (List Order)} {o : Order} {os : List Order} (hb : bundles = B1 ++ (o :: os) :: B2)
    (hdone : ∀ l ∈ B1, DoneBundle tr l) :
    ∃ zs : List Task, ∃ ws : List WriteReq, Carried cfg.env cfg.fs base b bundles zs ∧
      ws.Perm (zs.map Task.write) ∧
      (∀ i, i < o.pos → f[i]? = (writeAll ws)[i]?) ∧ o.pos ≤ f.length ∧
      ChainTo 0 B1.flatten o.pos ∧
      (∀ l ∈ B1, startOf l < o.pos ∧ up512 (endOf l) ≤ o.pos) ∧
      (∀ l ∈ (o :: os) :: B2, o.pos ≤ startOf l ∧ startOf l < up512 (endOf l)) := by
  obtain ⟨zs, ws, h1, h2, h3, h4, h5, h6⟩ := moment j hl h hf
  obtain ⟨hok, _, hr⟩ := j.setup
  obtain ⟨hflat, hs, hhdr, _⟩ := plan_flat hok j.planned
  have hch := hr.chain
  rw [hb, List.flatten_append, chainTo_append] at hch
  obtain ⟨m, c1, c2⟩ := hch
  have hne := hr.nonempty
  rw [hb] at hne
  have hm : m = o.pos := by
    have c2' := c2
    rw [List.flatten_cons, List.cons_append] at c2'
    simp only [ChainTo] at c2'
    exact c2'.1.symm
  subst hm
  have hne1 : ∀ l ∈ B1, l ≠ [] := fun l hl => hne l (by simp [hl])
  have hne2 : ∀ l ∈ (o :: os) :: B2, l ≠ [] := fun l hl => hne l (List.mem_append_right _ hl)
  have hmod := chainTo_bundles B1 0 _ hne1 (by omega) c1
  have hpos : ∀ l ∈ bundles, ∀ w, ChainTo (startOf l) l w → startOf l < up512 (endOf l) := by
    intro l hlb w hw
    have hnl := hr.nonempty l hlb
    obtain ⟨o', ho'⟩ : ∃ o', l.getLast? = some o' := ⟨_, List.getLast?_eq_some_getLast hnl⟩
    have hm := List.mem_of_getLast? ho'
    have hm' : o' ∈ bundles.flatten := List.mem_flatten.2 ⟨_, hlb, hm⟩
    rw [hflat] at hm'
    obtain ⟨q, hq, hqf⟩ := List.mem_flatMap.1 hm'
    have hp := frag_nonempty 0 b q (hs q hq).1 (hhdr q hq).1 o' hqf
    have hpw := (chainTo_pairwise hw).2 o' hm
    have hend := endOf_getLast ho'
    have hup := le_up512 (endOf l)
    unfold Order.stop at hend
    omega
  have hstart2 : ∀ (bs : List (List Order)) (w w' : Nat), (∀ l ∈ bs, l ≠ []) → ChainTo w bs.flatten w' →
      ∀ l ∈ bs, w ≤ startOf l ∧ ∃ w', ChainTo (startOf l) l w' := by
    intro bs
    induction bs with
    | nil => intro w w' _ _ l hl; cases hl
    | cons x bs ih =>
      intro w w' hne hch l hl
      rw [List.flatten_cons, chainTo_append] at hch
      obtain ⟨m, d1, d2⟩ := hch
      have hx := chainTo_start d1 (hne x (by simp))
      rcases List.mem_cons.1 hl with rfl | hl
      · exact ⟨by omega, m, by rw [hx]; exact d1⟩
      · have hle := chainTo_le d1
        obtain ⟨e1, e2⟩ := ih m w' (fun l hl => hne l (by simp [hl])) d2 l hl
        exact ⟨by omega, e2⟩
  have hlt1 : ∀ l ∈ B1, startOf l < o.pos ∧ up512 (endOf l) ≤ o.pos := by
    intro l hl
    have hx := hmod.1 l hl
    have := hpos l (by rw [hb]; simp [hl]) _ hx.1
    exact ⟨by omega, hx.2.2⟩
  refine ⟨zs, ws, h1, h2, ?_, ?_, c1, hlt1, ?_⟩
  · intro i hi
    obtain ⟨l, hl, e1, e2⟩ := chainTo_cover B1 0 _ hne1 c1 i (by omega) hi
    exact h3 l (by rw [hb]; simp [hl]) (hdone l hl) i e1 e2
  · by_cases hB : B1 = []
    · subst hB
      simp only [List.flatten_nil, ChainTo] at c1
      omega
    · obtain ⟨l, hl, e⟩ := hmod.2.1 hB
      rw [← e]
      exact h5 l (by rw [hb]; simp [hl]) (hdone l hl)
  · intro l hl
    obtain ⟨e1, w', e2⟩ := hstart2 _ _ _ hne2 c2 l hl
    exact ⟨e1, hpos l (by rw [hb]; exact List.mem_append_right _ hl) _ e2⟩

/-- **C65, violated** Take any moment of a run of a job at which the bundles before some point have
been carried out, the next bundle begins with the header of a member, and neither it nor anything in
the 1024 bytes after its start has been written.  If the run is interrupted then, a tar reader takes
the file for a complete archive: it reports no error and finds the members of the objects before
that point; at least one object is missing, and what a finished run of the same job archives begins
with the same members. -/
theorem C65_reads_as_complete (j : Job cfg.env cfg.fs base root S g b mx c bundles) (hl : Launchable cfg b archive)
    (h : CreateRun cfg eager b archive base (bundles.map printBundle) none tr s) (hf : s.file = some f)
    {B1 B2 : List (List Order)} {o : Order} {os : List Order} (hb : bundles = B1 ++ (o :: os) :: B2)
    (hhdr : o.hdr ≠ 0) (hdone : ∀ l ∈ B1, DoneBundle tr l)
    (hrest : ∀ l ∈ (o :: os) :: B2, DoneBundle tr l → o.pos + 1024 ≤ startOf l) :
    ∃ (ms : List Member) (found missing : List (List Bytes × FNode)),
      readArchive f = some ms ∧
      ms.map some = found.map (fun x => memberOf cfg.env base x.1 x.2) ∧ missing ≠ [] ∧
      ((found ++ missing).map Prod.fst).Nodup ∧
      (∀ p n, (p, n) ∈ found ++ missing ↔ Seen root p n ∧ describe p n ≠ none) ∧
      ∀ (cfg' : Cfg), cfg'.env = cfg.env → cfg'.fs = cfg.fs →
        ∀ (archive' : Bytes) (eager' : Bool) (file0' : Option Bytes) (tr' : List Ev) (s' : Sys),
        Launchable cfg' b archive' →
        CreateRun cfg' eager' b archive' base (bundles.map printBundle) file0' tr' s' → s'.boss = .exit 0 →
        ∃ A more, s'.file = some A ∧ readArchive A = some (ms ++ more) ∧ more.length = missing.length := by
  obtain ⟨hok, ⟨path, node, H, m, hE⟩, hr⟩ := j.setup
  obtain ⟨hflat, hs, hh, hnd, hcont, _⟩ := plan_flat hok j.planned
  obtain ⟨zs, ws, h1, h2, h3, h4, h5, h6, h7⟩ := front_done j hl h hf hb hdone
  obtain ⟨hol, hoh, _⟩ := job_reads j hE zs h1 ws h2
  -- the cut is between entries
  obtain ⟨p1, q, p2, e1, e2, e3⟩ := cut_at_header 0 b (setOffsets (orderFiles S c)).all B1.flatten
    (os ++ B2.flatten) o (fun p hp => ⟨(hs p hp).1, (hh p hp).1⟩)
    (by rw [← hflat, hb]; simp) hhdr
  have hend : endPos 0 p1 = o.pos := by
    have hc := hcont
    rw [e1] at hc
    have hmem : ∀ p ∈ p1, p ∈ (setOffsets (orderFiles S c)).all := fun p hp => by rw [e1]; simp [hp]
    have hx := flatMap_chain 0 b j.blocks p1 0 (fun p hp => hs p (hmem p hp)) (fun p hp => (hh p (hmem p hp)).2)
      (by omega) (contiguous_parts p1 0 _ hc).1
    rw [e2] at hx
    have : ∀ (l : List Order) (w a a' : Nat), ChainTo w l a → ChainTo w l a' → a = a' := by
      intro l
      induction l with
      | nil => intro w a a' x y; simp only [ChainTo] at x y; omega
      | cons z l ih => intro w a a' x y; simp only [ChainTo] at x y; exact ih _ _ _ x.2 y.2
    exact this _ _ _ _ hx h5
  have hread := reads_front j hE _ hoh e1 (n := o.pos) (by omega) h4 h3
  rw [hend] at hread
  -- what is behind the cut
  have htail : readArchive (f.drop o.pos) = some [] := by
    obtain ⟨_, _, _, _, _, k4, k5, k6⟩ := moment j hl h hf
    rw [readArchive, if_pos]
    by_cases hle : f.length ≤ o.pos
    · exact Or.inl (List.drop_of_length_le hle)
    · right
      have hlong : o.pos + 1024 ≤ f.length := by
        rcases k6 with k6 | ⟨l, hlb, hd, k6⟩
        · omega
        · rw [hb] at hlb
          rcases List.mem_append.1 hlb with hl1 | hl2
          · have := (h6 l hl1).2; omega
          · have := hrest l hl2 hd
            have := (h7 l hl2).2
            omega
      apply List.ext_getElem?
      intro i
      unfold zeros
      rw [List.getElem?_take, List.getElem?_replicate]
      by_cases hi : i < 1024
      · rw [if_pos hi, if_pos hi, List.getElem?_drop]
        have hz := k4 (o.pos + i) (by
          intro l hlb hd hcov
          rw [hb] at hlb
          rcases List.mem_append.1 hlb with hl1 | hl2
          · have := (h6 l hl1).2; omega
          · have := hrest l hl2 hd
            omega)
        rcases hz with hz | hz
        · exact hz
        · rw [List.getElem?_eq_none_iff] at hz; omega
      · rw [if_neg hi, if_neg hi]
  rw [htail] at hread
  obtain ⟨o1, o2⟩ := entries_objects j hE
  rw [e1, List.map_append] at o1 o2
  refine ⟨p1.map m, p1.map (fun q => (path q, node q)), (q :: p2).map (fun q => (path q, node q)), ?_, ?_, by simp,
    o1, o2, ?_⟩
  · simpa using hread
  · rw [List.map_map, List.map_map]
    apply List.map_congr_left
    intro x hx
    exact ((hE x (by rw [e1]; simp [hx])).memb).symm
  · intro cfg' he hfs archive' eager' file0' tr' s' hl' h' hb'
    have j' : Job cfg'.env cfg'.fs base root S g b mx c bundles := by rw [he, hfs]; exact j
    obtain ⟨xs, x1, x2, x3⟩ := run_carried j' hl' h' hb'
    rw [he, hfs] at x1
    obtain ⟨_, _, hrd⟩ := job_reads j hE xs x1 _ x2
    refine ⟨_, (q :: p2).map m, x3, ?_, by simp⟩
    rw [hrd, e1, List.map_append]

/-- **C65 (partial)** A run that is interrupted inside the data of a file - the next bundle
continues it, and nothing has been written behind that point - is noticed: a tar reader reports an
error.  Missing: the other moments (`C65_reads_as_complete`). -/
theorem C65_cut_in_file_noticed_partial (j : Job cfg.env cfg.fs base root S g b mx c bundles)
    (hl : Launchable cfg b archive)
    (h : CreateRun cfg eager b archive base (bundles.map printBundle) none tr s) (hf : s.file = some f)
    {B1 B2 : List (List Order)} {o : Order} {os : List Order} (hb : bundles = B1 ++ (o :: os) :: B2)
    (hhdr : o.hdr = 0) (hdone : ∀ l ∈ B1, DoneBundle tr l)
    (hrest : ∀ l ∈ (o :: os) :: B2, ¬ DoneBundle tr l) :
    readArchive f = none := by
  obtain ⟨hok, ⟨path, node, H, m, hE⟩, hr⟩ := j.setup
  obtain ⟨hflat, hs, hh, hnd, hcont, _⟩ := plan_flat hok j.planned
  obtain ⟨zs, ws, h1, h2, h3, h4, h5, h6, h7⟩ := front_done j hl h hf hb hdone
  obtain ⟨hol, hoh, _⟩ := job_reads j hE zs h1 ws h2
  obtain ⟨p1, q, p2, Z, W, e1, e2, e3, e4⟩ := cut_inside 0 b (setOffsets (orderFiles S c)).all B1.flatten
    (os ++ B2.flatten) o (fun p hp => ⟨(hs p hp).1, (hh p hp).1⟩)
    (by rw [← hflat, hb]; simp) hhdr
  have hq : q ∈ (setOffsets (orderFiles S c)).all := by rw [e1]; simp
  have hsp := frags_spec 0 b q (hs q hq) (hh q hq).2 o (by rw [e4]; simp)
  have hne := frag_nonempty 0 b q (hs q hq).1 (hh q hq).1 o (by rw [e4]; simp)
  have hcc := hcont
  rw [e1] at hcc
  obtain ⟨hc1, hc2⟩ := contiguous_parts p1 0 _ hcc
  simp only [Contiguous] at hc2
  have hoff := hc2.1
  have hpos := hsp.2.2.2.2.2.2.1
  have hlen : f.length = o.pos := by
    obtain ⟨_, _, _, _, _, _, _, k6⟩ := moment j hl h hf
    rcases k6 with k6 | ⟨l, hlb, hd, k6⟩
    · omega
    · rw [hb] at hlb
      rcases List.mem_append.1 hlb with hl1 | hl2
      · have := (h6 l hl1).2; omega
      · exact absurd hd (hrest l hl2)
  have he := hE q hq
  have hread := reads_front j hE _ hoh e1 (n := o.pos) (by omega) h4 h3
  have hsize : (m q).size = (contentOf (node q)).length := by
    have hm := he.memb
    unfold memberOf at hm
    cases hn : node q <;> rw [hn] at hm <;> simp only at hm
    · split at hm
      · rw [← Option.some.inj hm]; rfl
      · cases hm
    · split at hm
      · rw [← Option.some.inj hm]; rfl
      · cases hm
    · split at hm
      · rw [← Option.some.inj hm]; rfl
      · cases hm
    · cases hm
  obtain ⟨te, _, hmade⟩ := he.made
  have hHl := C01_header_length _ _ _ hmade
  have hpre : f.drop (endPos 0 p1) <+: H q ++ contentOf (node q) := by
    rw [← hoff]
    have hA := (holds_iff _ _ _).1 (hoh q hq)
    rw [List.length_append, he.hlen, he.dlen] at hA
    rw [List.prefix_iff_eq_take]
    apply List.ext_getElem?
    intro i
    rw [List.getElem?_drop, List.getElem?_take, List.length_drop, hlen]
    by_cases hi : i < o.pos - q.slice.offArch
    · rw [if_pos hi, h3 _ (by omega), hA i (by omega)]
    · rw [if_neg hi, List.getElem?_eq_none (by omega)]
  have hnone : readMember (f.drop (endPos 0 p1)) = none := by
    refine readMember_cut (H := H q) (D := contentOf (node q)) (m := m q) (by omega) hsize ?_ _ hpre ?_
    · intro padding rest hp
      rw [he.dlen] at hp
      exact he.reads padding rest hp
    · rw [List.length_drop, he.hlen, he.dlen]; omega
  have hz : readArchive (f.drop (endPos 0 p1)) = none := by
    rw [readArchive, if_neg, hnone]
    rintro (h0 | h0)
    · have := congrArg List.length h0
      rw [List.length_drop, List.length_nil] at this
      have := (hh q hq).1
      omega
    · obtain ⟨z, hz⟩ := hpre
      have h8 : f.drop (endPos 0 p1) = H q ++ (f.drop (endPos 0 p1)).drop (H q).length := by
        have hle : (H q).length ≤ (f.drop (endPos 0 p1)).length := by rw [List.length_drop, he.hlen]; omega
        have ht : (f.drop (endPos 0 p1)).take (H q).length = H q := by
          have := congrArg (List.take (H q).length) hz
          rwa [List.take_append_of_le_length hle, List.take_left] at this
        conv => lhs; rw [← List.take_append_drop (H q).length (f.drop (endPos 0 p1))]
        rw [ht]
      rw [h8] at h0
      exact not_zero_block hmade _ h0
  rw [hread, hz]; rfl

theorem print_start (j : Job cfg.env cfg.fs base root S g b mx c bundles) {l l' : List Order}
    (hl : l ∈ bundles) (hl' : l' ∈ bundles) (hp : printBundle l = printBundle l') : startOf l = startOf l' := by
  obtain ⟨_, _, hr⟩ := j.setup
  obtain ⟨d, h1, _⟩ := run_bundle hr l hl (List.replicate b 0) (by simp)
  obtain ⟨d', h2, _⟩ := run_bundle hr l' hl' (List.replicate b 0) (by simp)
  rw [job_received j _ hl, hp, ← job_received j _ hl', h2] at h1
  exact (Prod.mk.inj (Except.ok.inj h1)).1.symm

/-- With one worker the bundles are carried out in the order of the plan. -/
theorem one_worker_order {b : Nat} {archive base : Bytes} {orders : List Bytes} {file0 : Option Bytes}
    (hL : Launch cfg b archive base orders) (h2 : cfg.ranks = 2)
    (h : CreateRun cfg eager b archive base orders file0 tr s) :
    (executed tr).map Prod.snd = orders.take (executed tr).length := by
  obtain ⟨⟨n, h1⟩, h3, h4, h5⟩ := C22_dispatch_in_order hL h
  have hw : cfg.worker 1 := ⟨Nat.le_refl _, by omega⟩
  have hall : ∀ l : List (Nat × Bytes), (∀ x ∈ l, cfg.worker x.1) → ofRank 1 l = l.map Prod.snd := by
    intro l
    induction l with
    | nil => intro _; rfl
    | cons x l ih =>
      intro hx
      have h1 : x.1 = 1 := by
        have := hx x (by simp)
        unfold Cfg.worker at this
        omega
      have := ih (fun y hy => hx y (by simp [hy]))
      unfold ofRank at this ⊢
      rw [List.filterMap_cons]
      simp [h1, this]
  obtain ⟨rest, _, hr⟩ := h5 1 hw
  rw [hall _ h3, hall _ h4, h1] at hr
  have := congrArg (List.take (executed tr).length) hr
  rw [List.take_append_of_le_length (by simp),
    List.take_of_length_le (l := (executed tr).map Prod.snd) (by simp), List.take_take] at this
  rw [← this]
  have hlen := congrArg List.length hr
  simp only [List.length_take, List.length_append, List.length_map] at hlen
  rw [Nat.min_eq_left (by omega)]

/-- The situation with one worker, when `k` bundles have been carried out. -/
theorem one_worker_done (j : Job cfg.env cfg.fs base root S g b mx c bundles) (hl : Launchable cfg b archive)
    (h2 : cfg.ranks = 2) (h : CreateRun cfg eager b archive base (bundles.map printBundle) none tr s)
    (hf : s.file = some f) {B1 B2 : List (List Order)} {o : Order} {os : List Order}
    (hb : bundles = B1 ++ (o :: os) :: B2) (hk : (executed tr).length = B1.length) :
    (∀ l ∈ B1, DoneBundle tr l) ∧ ∀ l ∈ (o :: os) :: B2, ¬ DoneBundle tr l := by
  have ho := one_worker_order (job_launch j hl) h2 h
  have ht : (executed tr).map Prod.snd = B1.map printBundle := by
    rw [ho, hk, hb, List.map_append, List.take_append_of_le_length (by simp), List.take_of_length_le (by simp)]
  have hd : ∀ l ∈ B1, DoneBundle tr l := by
    intro l hl
    have : printBundle l ∈ (executed tr).map Prod.snd := by rw [ht]; exact List.mem_map.2 ⟨l, hl, rfl⟩
    obtain ⟨⟨r, t⟩, e1, e2⟩ := List.mem_map.1 this
    exact ⟨r, by rw [← e2]; exact e1⟩
  refine ⟨hd, ?_⟩
  rintro l hl2 ⟨r, hx⟩
  have : printBundle l ∈ (executed tr).map Prod.snd := List.mem_map.2 ⟨_, hx, rfl⟩
  rw [ht] at this
  obtain ⟨l', hl', hp⟩ := List.mem_map.1 this
  have hs := print_start j (l := l') (l' := l) (by rw [hb]; simp [hl']) (by rw [hb]; exact List.mem_append_right _ hl2) hp
  obtain ⟨_, _, _, _, _, _, _, h6, h7⟩ := front_done j hl h hf hb hd
  have := (h6 l' hl').1
  have := (h7 l hl2).1
  omega

/-- **C65** With one worker, the exact condition at any moment between the creation of the archive
and the end of the run: a tar reader takes what is there for a complete archive exactly if all
bundles have been carried out or the next one begins with the header of a member (rather than in the
middle of a file's data). -/
theorem C65_one_worker_iff (j : Job cfg.env cfg.fs base root S g b mx c bundles) (hl : Launchable cfg b archive)
    (h2 : cfg.ranks = 2) (h : CreateRun cfg eager b archive base (bundles.map printBundle) none tr s)
    (hf : s.file = some f) :
    (∃ ms, readArchive f = some ms) ↔ ((executed tr).length = bundles.length ∨
      ∃ o os, bundles[(executed tr).length]? = some (o :: os) ∧ o.hdr ≠ 0) := by
  have hL := job_launch j hl
  obtain ⟨hok, ⟨path, node, H, m, hE⟩, hr⟩ := j.setup
  have hle : (executed tr).length ≤ bundles.length := by
    have := congrArg List.length (one_worker_order hL h2 h)
    simp only [List.length_map, List.length_take] at this
    omega
  by_cases hall : (executed tr).length = bundles.length
  · refine ⟨fun _ => Or.inl hall, fun _ => ?_⟩
    obtain ⟨zs, ws, h1, h2', h3, h4, h5, h6⟩ := moment j hl h hf
    obtain ⟨r1, _, r3⟩ := job_reads j hE zs h1 ws h2'
    have hdone : ∀ l ∈ bundles, DoneBundle tr l := by
      intro l hlb
      have : printBundle l ∈ (executed tr).map Prod.snd := by
        rw [one_worker_order hL h2 h, hall, List.take_of_length_le (by simp)]
        exact List.mem_map.2 ⟨l, hlb, rfl⟩
      obtain ⟨⟨r, t⟩, e1, e2⟩ := List.mem_map.1 this
      exact ⟨r, by rw [← e2]; exact e1⟩
    obtain ⟨k1, k2, _⟩ := chainTo_bundles bundles 0 _ hr.nonempty (by omega) hr.chain
    refine ⟨(setOffsets (orderFiles S c)).all.map m, ?_⟩
    · rw [← r3]
      congr 1
      apply List.ext_getElem?
      intro i
      by_cases hi : i < endPos 0 (setOffsets (orderFiles S c)).all
      · obtain ⟨l, hlb, e1, e2⟩ := chainTo_cover bundles 0 _ hr.nonempty hr.chain i (by omega) hi
        exact h3 l hlb (hdone l hlb) i e1 e2
      · rw [List.getElem?_eq_none (l := writeAll ws) (by omega), List.getElem?_eq_none]
        rcases h6 with h6 | ⟨l, hlb, _, h6⟩
        · omega
        · have := (k1 l hlb).2.2
          omega
  · have hlt : (executed tr).length < bundles.length := by omega
    obtain ⟨o, os, hx⟩ : ∃ o os, bundles[(executed tr).length] = o :: os :=
      List.exists_cons_of_ne_nil (hr.nonempty _ (List.getElem_mem hlt))
    have hb : bundles = bundles.take (executed tr).length ++ (o :: os) :: bundles.drop ((executed tr).length + 1) := by
      rw [← hx, List.getElem_cons_drop, List.take_append_drop]
    obtain ⟨d1, d2⟩ := one_worker_done j hl h2 h hf hb (by rw [List.length_take]; omega)
    by_cases hh : o.hdr = 0
    · rw [C65_cut_in_file_noticed_partial j hl h hf hb hh d1 d2]
      constructor
      · rintro ⟨ms, hm⟩; cases hm
      · rintro (h0 | ⟨o', os', h0, h1⟩)
        · exact absurd h0 hall
        · rw [List.getElem?_eq_getElem hlt, hx] at h0
          obtain ⟨rfl, _⟩ := List.cons.inj (Option.some.inj h0)
          exact absurd hh h1
    · obtain ⟨ms, _, _, hm, _⟩ := C65_reads_as_complete j hl h hf hb hh d1 (fun l hl2 hd => absurd hd (d2 l hl2))
      exact ⟨fun _ => Or.inr ⟨o, os, by rw [List.getElem?_eq_getElem hlt, hx], hh⟩, fun _ => ⟨ms, hm⟩⟩

/-- Just before each write the archive is there. -/
theorem run_passes {p : Boss} {file0 : Option Bytes} (h : Run cfg eager (Sys.start p file0) tr s) (k : Nat)
    (hk : k < (executed tr).length) :
    ∃ tr0 rest s0 f0, tr = tr0 ++ rest ∧ Run cfg eager (Sys.start p file0) tr0 s0 ∧ (executed tr0).length = k ∧
      s0.file = some f0 := by
  induction h with
  | nil => simp [executed] at hk
  | @snoc tr s s' e h st ih =>
    by_cases hlt : k < (executed tr).length
    · obtain ⟨tr0, rest, s0, f0, e1, e2⟩ := ih hlt
      exact ⟨tr0, rest ++ [e], s0, f0, by rw [e1, List.append_assoc], e2⟩
    · have hx : executed (tr ++ [e]) = executed tr ++ executed [e] := by
        unfold executed; rw [List.filterMap_append]
      rw [hx, List.length_append] at hk
      cases st with
      | work r text name memory old write hr hs hf hm ho hd =>
        simp only [executed, List.filterMap_cons, List.filterMap_nil, List.length_cons, List.length_nil] at hk
        exact ⟨tr, _, s, old, rfl, h, by unfold executed at hlt ⊢; omega, ho⟩
      | _ => exact absurd hk (by simp [executed] at hlt ⊢; omega)

/-- **C65, violated, and it always can happen** Every successful run with one worker passes, for each
bundle that begins with the header of a member, through a moment at which a tar reader takes what is
there for a complete archive, although the members of that bundle and of all later ones are
missing. -/
theorem C65_every_run_passes (j : Job cfg.env cfg.fs base root S g b mx c bundles) (hl : Launchable cfg b archive)
    (h2 : cfg.ranks = 2) (h : CreateRun cfg eager b archive base (bundles.map printBundle) none tr s)
    (hx : s.boss = .exit 0) {k : Nat} {o : Order} {os : List Order} (hk : bundles[k]? = some (o :: os))
    (hh : o.hdr ≠ 0) :
    ∃ tr0 rest s0 f0 A ms more, tr = tr0 ++ rest ∧
      CreateRun cfg eager b archive base (bundles.map printBundle) none tr0 s0 ∧
      s0.file = some f0 ∧ (executed tr0).length = k ∧ readArchive f0 = some ms ∧
      s.file = some A ∧ readArchive A = some (ms ++ more) ∧ more ≠ [] := by
  have hL := job_launch j hl
  obtain ⟨hlt, hk'⟩ := List.getElem?_eq_some_iff.1 hk
  have hlen : (executed tr).length = bundles.length := by
    have h1 := C22_exactly_once hL h hx
    have h2 := congrArg List.length h1.1
    have h3 := h1.2.length_eq
    simp only [List.length_map] at h2
    omega
  obtain ⟨tr0, rest, s0, f0, e1, e2, e3, e4⟩ := run_passes h k (by omega)
  have hb : bundles = bundles.take k ++ (o :: os) :: bundles.drop (k + 1) := by
    rw [← hk', List.getElem_cons_drop, List.take_append_drop]
  obtain ⟨d1, d2⟩ := one_worker_done j hl h2 e2 e4 hb (by rw [List.length_take]; omega)
  obtain ⟨ms, found, missing, m1, m2, m3, _, _, m6⟩ :=
    C65_reads_as_complete j hl e2 e4 hb hh d1 (fun l hl2 hd => absurd hd (d2 l hl2))
  obtain ⟨A, more, a1, a2, a3⟩ := m6 cfg rfl rfl archive eager none tr s hl h hx
  exact ⟨tr0, rest, s0, f0, A, ms, more, e1, e2, e4, e3, m1, a1, a2, by
    intro h0; rw [h0] at a3; exact m3 (List.length_eq_zero_iff.1 a3.symm)⟩

/-- **C65, violated** With any number of workers, every successful run passes through a moment at
which the archive reads as a complete archive of nothing. -/
theorem C65_reads_as_empty (j : Job cfg.env cfg.fs base root S g b mx c bundles) (hl : Launchable cfg b archive)
    (h : CreateRun cfg eager b archive base (bundles.map printBundle) none tr s) (hx : s.boss = .exit 0) :
    ∃ tr0 rest s0 f0 A m more, tr = tr0 ++ rest ∧
      CreateRun cfg eager b archive base (bundles.map printBundle) none tr0 s0 ∧
      s0.file = some f0 ∧ readArchive f0 = some [] ∧
      s.file = some A ∧ readArchive A = some (m :: more) := by
  have hL := job_launch j hl
  obtain ⟨hok, ⟨path, node, H, m, hE⟩, hr⟩ := j.setup
  obtain ⟨hflat, hs, hh, hnd, hcont, st, _, _, _, hne⟩ := plan_flat hok j.planned
  have hlen : (executed tr).length = bundles.length := by
    have h1 := C22_exactly_once hL h hx
    have h2 := congrArg List.length h1.1
    have h3 := h1.2.length_eq
    simp only [List.length_map] at h2
    omega
  obtain ⟨tr0, rest, s0, f0, e1, e2, e3, e4⟩ := run_passes h 0 (by
    rw [hlen]; exact List.length_pos_iff.2 hr.ne)
  have hex : executed tr0 = [] := List.length_eq_zero_iff.1 e3
  have hf0 : f0 = [] := by
    obtain ⟨_, _, _, _, _, _, _, h6⟩ := moment j hl e2 e4
    rcases h6 with h6 | ⟨l, _, ⟨r, hd⟩, _⟩
    · exact List.length_eq_zero_iff.1 h6
    · rw [hex] at hd; cases hd
  obtain ⟨xs, x1, x2, x3⟩ := run_carried j hl h hx
  obtain ⟨_, _, hrd⟩ := job_reads j hE xs x1 _ x2
  obtain ⟨q, qs, hq⟩ := List.exists_cons_of_ne_nil hne
  refine ⟨tr0, rest, s0, f0, _, m q, qs.map m, e1, e2, e4, ?_, x3, ?_⟩
  · rw [hf0, readArchive]; simp
  · rw [hrd, hq]; rfl

end

/-! ### a concrete run -/

/-- Rank 0 and one worker. -/
def demoCfg1 : Cfg := ⟨2, demoEnv2, demoFs, true⟩

/-- The demo job has a successful run with one worker; interrupted between its two bundles it leaves
an archive of the three directories, without link and files, that reads as complete. -/
example : ∃ tr s f ms, CreateRun demoCfg1 true 102400 [97] demoBase (demoBundles.map printBundle) none tr s ∧
    s.file = some f ∧ readArchive f = some ms ∧ (executed tr).length = 1 ∧ demoBundles.length = 2 ∧ s.boss ≠ .exit 0 := by
  have j : Job demoCfg1.env demoCfg1.fs demoBase demoTree demoSort2 (fun _ => 0) 102400 3 demoC demoBundles := demo_job
  have hl : Launchable demoCfg1 102400 [97] := by constructor <;> decide
  obtain ⟨_, _, tr, s, h, hf⟩ := C19_runs_succeed j hl (by decide) rfl Run.nil
  rw [List.nil_append] at h
  obtain ⟨tr0, rest, s0, f0, A, ms, more, _, e2, e3, e4, e5, _⟩ :=
    C65_every_run_passes j hl rfl h hf.1 (k := 1) (o := ⟨0, [100, 47, 108], .lnk, [116], 0, 512, 1536, 0⟩) rfl (by decide)
  refine ⟨tr0, s0, f0, ms, e2, e3, e5, e4, rfl, ?_⟩
  intro hb
  have h1 := C22_exactly_once (job_launch j hl) e2 hb
  have h2 := congrArg List.length h1.1
  have h3 := h1.2.length_eq
  rw [e4, ← List.length_map (f := Prod.snd), h2] at h3
  revert h3; decide

/-- The target directory with one file `b` of the bytes `d`. -/
def oneFile (d : Bytes) : FNode := .dir ⟨493, 0, 0, 0⟩ true (.cons [98] (.reg ⟨420, 0, 0, 0⟩ d) .nil)

def oneFileFs (d : Bytes) : FS := fun path =>
  if path = [47, 116, 47] then some (oneFile d)
  else if path = [47, 116, 47, 98] then some (.reg ⟨420, 0, 0, 0⟩ d) else none

/-- A file longer than a bucket. -/
def longData : Bytes := List.replicate 110000 7

theorem longData_length : longData.length = 110000 := List.length_replicate

def longC : Coll :=
  { dirs := [⟨-12, ⟨[], .dir, [], 0⟩, 512⟩], files := [⟨110000, ⟨[98], .reg, [], 110000⟩, 512⟩] }

/-- Its plan: the directory, the first bucket of the file, the rest. -/
def longBundles : List (List Order) :=
  [[⟨0, [], .dir, [], 0, 512, 0, 0⟩], [⟨0, [98], .reg, [], 101888, 512, 512, 0⟩],
   [⟨0, [98], .reg, [], 8112, 0, 102912, 101888⟩]]

theorem oneFile_seen {d : Bytes} {p : List Bytes} {n : FNode} (h : Seen (oneFile d) p n) :
    (p = [] ∧ n = oneFile d) ∨ (p = [[98]] ∧ n = .reg ⟨420, 0, 0, 0⟩ d) := by
  unfold oneFile at h
  cases h with
  | self => exact Or.inl ⟨rfl, rfl⟩
  | step hc h' =>
    cases hc with
    | here h1 h2 => cases h'; exact Or.inr ⟨rfl, rfl⟩
    | there hc => cases hc

theorem oneFile_archivable (d : Bytes) : Archivable demoEnv2 (oneFileFs d) demoBase (oneFile d) := by
  have hm : ∀ k, MetaOk demoEnv2 ⟨k, 0, 0, 0⟩ := fun k => ⟨by simp, by simp, by simp, by simp,
    ⟨[114], rfl, by decide, by decide⟩, ⟨[103], rfl, by decide, by decide⟩⟩
  refine ⟨⟨?_, ?_, ?_, ?_, ?_, ?_, ?_, ?_, ?_⟩, ?_⟩
  · trivial
  · simp [TreeOk, oneFile, KidsOk, NameOk, names]
  · intro p n h
    rcases oneFile_seen h with ⟨rfl, rfl⟩ | ⟨rfl, rfl⟩ <;> rfl
  · decide
  · decide
  · intro p n h
    rcases oneFile_seen h with ⟨rfl, rfl⟩ | ⟨rfl, rfl⟩ <;> decide
  · intro p m t h
    rcases oneFile_seen h with ⟨_, h⟩ | ⟨_, h⟩ <;> cases h
  · intro p n h
    rcases oneFile_seen h with ⟨rfl, rfl⟩ | ⟨rfl, rfl⟩ <;> decide
  · intro p n h _
    rcases oneFile_seen h with ⟨rfl, rfl⟩ | ⟨rfl, rfl⟩ <;> exact hm _
  · intro p m o k h hp
    rcases oneFile_seen h with ⟨rfl, _⟩ | ⟨rfl, _⟩
    · exact absurd rfl hp
    · decide

theorem long_job : Job demoEnv2 (oneFileFs longData) demoBase (oneFile longData) demoSort2 (fun _ => 0) 102400 3 longC
    longBundles := by
  constructor
  · exact oneFile_archivable _
  · intro _; rfl
  · decide
  · have h : spiderDir (fun _ => 0) [] (oneFile longData) =
        .ok (.mk ⟨[], .dir, [], 0⟩ [] [⟨[98], .reg, [], longData.length⟩]) := by
      rfl
    unfold scan
    rw [h, longData_length]
    decide +kernel
  · decide +kernel
  · decide +kernel
  · decide +kernel
  · decide +kernel

/-- A successful run of this job passes through a moment at which the file is cut in two; then the
archive cannot be read. -/
example : ∃ tr s f, CreateRun ⟨2, demoEnv2, oneFileFs longData, true⟩ true 102400 [97] demoBase
      (longBundles.map printBundle) none tr s ∧ s.file = some f ∧ (executed tr).length = 2 ∧ readArchive f = none := by
  let cfg : Cfg := ⟨2, demoEnv2, oneFileFs longData, true⟩
  have j : Job cfg.env cfg.fs demoBase (oneFile longData) demoSort2 (fun _ => 0) 102400 3 longC longBundles := long_job
  have hl : Launchable cfg 102400 [97] := by constructor <;> decide
  obtain ⟨_, _, tr, s, h, hf⟩ := C19_runs_succeed j hl (by decide) rfl Run.nil
  rw [List.nil_append] at h
  have hlen : (executed tr).length = 3 := by
    have h1 := C22_exactly_once (job_launch j hl) h hf.1
    rw [h1.2.length_eq, ← List.length_map (f := Prod.snd), h1.1]; rfl
  obtain ⟨tr0, rest, s0, f0, e1, e2, e3, e4⟩ := run_passes h 2 (by omega)
  refine ⟨tr0, s0, f0, e2, e4, e3, ?_⟩
  have hi := C65_one_worker_iff j hl rfl e2 e4
  cases hr : readArchive f0 with
  | none => rfl
  | some ms =>
    rcases hi.1 ⟨ms, hr⟩ with h0 | ⟨o, os, h0, h1⟩
    · rw [e3] at h0; cases h0
    · rw [e3] at h0
      obtain ⟨rfl, _⟩ := List.cons.inj (Option.some.inj h0)
      exact absurd rfl h1

end Parfu.Props
