/-
Lemmas about bundles of which only reads fail (Verif/Faults.lean): what is not read is what was in the
worker's memory.  The bundle is then carried out as if the file had that contents.
-/
import Verif.FaultsLemmas
import Verif.PropsHole
import Verif.PropsChange
import Verif.PropsExtract
set_option autoImplicit false

namespace Parfu.FaultsSpec
open Parfu

/-- Memory is there and the write of a buffer of this size is complete; reads may fall short. -/
def OnlyReadsFail (F : Faults) (memory : Bytes) : Prop :=
  F.memory = true ∧ F.write ≠ 0 ∧ memory.length ≤ F.write

end Parfu.FaultsSpec

namespace Parfu
open ProtocolSpec FaultsSpec MoveSpec TarSpec ScanSpec PlanSpec Props

/-- What the file of an order must contain for a complete read of it to leave in memory what a read of
only `lim` bytes of the real file leaves there. -/
def Patched (fs fs' : FS) (base : Bytes) (start lim : Nat) (mem : Bytes) (w : WOrder) : Prop :=
  ∃ c c', fs.read (fullName base w.rel) = some c ∧ fs'.read (fullName base w.rel) = some c' ∧
    w.off + w.size ≤ c.length ∧ w.off + w.size ≤ c'.length ∧
    ∀ t, t < w.size → c'[w.off + t]? = if t < lim then c[w.off + t]? else mem[w.pos - start + w.hdr + t]?

theorem blit_patched {buf d d' : Bytes} {off lim : Nat} (hd : d.length = d'.length)
    (hfit : off + d.length ≤ buf.length)
    (h : ∀ t, t < d.length → d'[t]? = if t < lim then d[t]? else buf[off + t]?) :
    blit buf off (d.take lim) = blit buf off d' := by
  have hl : (d.take lim).length ≤ d.length := by rw [List.length_take]; omega
  obtain ⟨b1, e1⟩ := blit_ok (buf := buf) (data := d.take lim) (off := off) (by omega)
  obtain ⟨b2, e2⟩ := blit_ok (buf := buf) (data := d') (off := off) (by omega)
  rw [e1, e2]
  obtain ⟨_, l1, g1⟩ := blit_get e1
  obtain ⟨_, l2, g2⟩ := blit_get e2
  congr 1
  apply List.ext_getElem?
  intro i
  rw [g1, g2]
  rw [List.length_take] at *
  by_cases h1 : off ≤ i ∧ i < off + d'.length
  · rw [if_pos h1]
    have hi := h (i - off) (by omega)
    rw [show off + (i - off) = i by omega] at hi
    by_cases h2 : i - off < lim
    · rw [if_pos h2] at hi
      rw [if_pos (by omega), List.getElem?_take, if_pos h2, hi]
    · rw [if_neg h2] at hi
      rw [if_neg (by omega), hi]
  · rw [if_neg h1, if_neg (by omega)]

theorem moveOneF_patched {env : Env} {fs fs' : FS} {base : Bytes} (hst : fs'.lstat = fs.lstat) {lim start : Nat}
    {mem buf : Bytes} {w : WOrder} {s : Bytes} (hL : Loads env fs' base w s) (hs : start ≤ w.pos)
    (hfit : w.pos - start + w.hdr + w.size ≤ buf.length)
    (hp : w.size ≠ 0 → Patched fs fs' base start lim mem w)
    (hm : ∀ i, w.pos - start ≤ i → i < w.pos - start + w.hdr + w.size → buf[i]? = mem[i]?) :
    moveOneF lim env fs base start buf w = moveOne env fs' base start buf w := by
  have hu : usub64 w.pos start = w.pos - start := by unfold usub64; rw [if_pos hs]
  have hh : makeHeaderAt env fs (fullName base w.rel) buf (usub64 w.pos start) =
      makeHeaderAt env fs' (fullName base w.rel) buf (usub64 w.pos start) := by
    unfold makeHeaderAt; rw [hst]
  unfold moveOneF moveOne
  rw [hh]
  by_cases h0 : w.size = 0
  · simp only [h0, ne_eq, not_true_eq_false, if_false]
    generalize (if ¬w.hdr = 0 then makeHeaderAt env fs' (fullName base w.rel) buf (usub64 w.pos start) else Except.ok buf) = x
    cases x <;> rfl
  obtain ⟨c, c', k1, k2, k3, k4, k5⟩ := hp h0
  -- the buffer after the header
  have hb1 : ∃ buf1, (if w.hdr ≠ 0 then makeHeaderAt env fs' (fullName base w.rel) buf (usub64 w.pos start)
      else .ok buf) = .ok buf1 ∧ buf1.length = buf.length ∧
      ∀ i, w.pos - start + w.hdr ≤ i → buf1[i]? = buf[i]? := by
    by_cases hz : w.hdr = 0
    · exact ⟨buf, by simp [hz], rfl, fun _ _ => rfl⟩
    · obtain ⟨e, he, hmk⟩ := hL.hdr hz
      have hlen := hL.len
      have hhl : (s.take w.hdr).length = w.hdr := by rw [List.length_take]; omega
      obtain ⟨buf1, hb⟩ := blit_ok (buf := buf) (data := s.take w.hdr) (off := w.pos - start) (by omega)
      obtain ⟨_, b2, b3⟩ := blit_get hb
      refine ⟨buf1, ?_, b2, ?_⟩
      · rw [if_pos hz, hu]
        unfold makeHeaderAt
        simp only [he, hmk, bind, Except.bind]
        exact hb
      · intro i hi; rw [b3, if_neg (by omega)]
  obtain ⟨buf1, e1, l1, g1⟩ := hb1
  rw [e1]
  simp only []
  rw [if_pos h0, if_pos h0, hu]
  unfold readIntoF readInto
  rw [k1, k2]
  have hsm := hL.small
  simp only []
  rw [if_neg (by omega), if_neg (by omega)]
  have d1 : ((c.drop w.off).take w.size).length = w.size := by
    rw [List.length_take, List.length_drop]; omega
  have d2 : ((c'.drop w.off).take w.size).length = w.size := by
    rw [List.length_take, List.length_drop]; omega
  apply blit_patched (by omega) (by omega)
  intro t ht
  rw [d1] at ht
  rw [List.getElem?_take, if_pos ht, List.getElem?_drop, k5 t ht, List.getElem?_take, if_pos ht,
    List.getElem?_drop]
  by_cases hlt : t < lim
  · rw [if_pos hlt, if_pos hlt]
  · rw [if_neg hlt, if_neg hlt, g1 _ (by omega), hm _ (by omega) (by omega)]

theorem moveLoopF_patched {env : Env} {fs fs' : FS} {base : Bytes} (hst : fs'.lstat = fs.lstat)
    (reads : Nat → Nat) (start : Nat) (mem : Bytes) (P : WOrder → Bytes) :
    ∀ (ws : List WOrder) (i : Nat) (buf : Bytes), (∀ w ∈ ws, Loads env fs' base w (P w)) →
      (∀ w ∈ ws, start ≤ w.pos) → (∀ w ∈ ws, w.pos - start + w.hdr + w.size ≤ buf.length) →
      ws.Pairwise Before →
      (∀ (k : Nat) (w : WOrder), ws[k]? = some w → w.size ≠ 0 → Patched fs fs' base start (reads (i + k)) mem w) →
      (∀ w ∈ ws, ∀ t, w.pos - start ≤ t → t < w.pos - start + w.hdr + w.size → buf[t]? = mem[t]?) →
      moveLoopF reads env fs base start i ws buf = moveLoop env fs' base start ws buf := by
  intro ws
  induction ws with
  | nil => intro i buf _ _ _ _ _ _; rfl
  | cons w ws ih =>
    intro i buf hl hs hf hp hpa hm
    rw [List.pairwise_cons] at hp
    unfold moveLoopF moveLoop
    rw [moveOneF_patched hst (hl w (by simp)) (hs w (by simp)) (hf w (by simp))
      (fun h0 => (by simpa using hpa 0 w (by simp) h0 : Patched fs fs' base start (reads i) mem w)) (hm w (by simp))]
    obtain ⟨b1, e1, l1, _, g1⟩ := moveOne_loads (hl w (by simp)) start buf (hs w (by simp)) (hf w (by simp))
    rw [e1]
    simp only []
    refine ih (i + 1) b1 (fun v hv => hl v (by simp [hv])) (fun v hv => hs v (by simp [hv]))
      (fun v hv => by rw [l1]; exact hf v (by simp [hv])) hp.2 ?_ ?_
    · intro k v hv h0
      have := hpa (k + 1) v (by simpa using hv) h0
      rwa [show i + (k + 1) = i + 1 + k by omega] at this
    · intro v hv t h1 h2
      have hb := hp.1 v hv
      have := hs v (by simp [hv])
      have := hs w (by simp)
      unfold Before at hb
      have hlw := (hl w (by simp)).len
      rw [g1 t (by omega), hm v (by simp [hv]) t h1 h2]

/-- A worker of whose failures only reads are failures does, with the real files, what it would do
without failures with files in which its memory stands for what is not read. -/
theorem workerDoF_patched {env : Env} {fs fs' : FS} {base : Bytes} (hst : fs'.lstat = fs.lstat) {b E : Nat}
    {bundles : List (List Order)} (h : Runnable env fs' base b bundles E) (l : List Order) (hl : l ∈ bundles)
    (mem : Bytes) (hgl : mem.length = b) (F : Faults) (hF : OnlyReadsFail F mem)
    (hp : ∀ (k : Nat) (o : Order), l[k]? = some o → o.size ≠ 0 →
      Patched fs fs' base (startOf l) (F.reads k) mem (asReceived o)) :
    ∃ w, workerDoF F env fs base mem (received l) = .ok (some w) ∧
      workerDo env fs' base mem (received l) = .ok w := by
  obtain ⟨data, hd, _⟩ := run_bundle h l hl mem hgl
  refine ⟨_, ?_, hd⟩
  have hsub : ∀ o ∈ l, o ∈ bundles.flatten := fun o ho => List.mem_flatten.2 ⟨l, hl, ho⟩
  obtain ⟨k1, _, _⟩ := chainTo_bundles bundles 0 E h.nonempty (by omega) h.chain
  obtain ⟨hch, hmod, _⟩ := k1 l hl
  have hne := h.nonempty l hl
  obtain ⟨first, hfirst⟩ : ∃ o, l.head? = some o := by
    cases l with
    | nil => exact absurd rfl hne
    | cons o os => exact ⟨o, rfl⟩
  obtain ⟨last, hlast⟩ : ∃ o, l.getLast? = some o := by
    cases hg : l.getLast? with
    | none => exact absurd (List.getLast?_eq_none_iff.1 hg) hne
    | some o => exact ⟨o, rfl⟩
  have hstart := startOf_head hfirst
  have hend := endOf_getLast hlast
  have hpw := chainTo_pairwise hch
  have hmsg := h.msg l hl
  have hpar := (C17_roundtrip_partial l (fun o ho => h.noTab o (hsub o ho))
    (fun o ho => h.noNul o (hsub o ho))
    (fun o ho => h.small o (hsub o ho)) (by omega)).2
  have hpb : (l.map asReceived).Pairwise Before := by
    rw [List.pairwise_map]
    exact hpw.1.imp (fun hab => hab)
  have hb0 : (l.map asReceived).head? = some (asReceived first) := by rw [List.head?_map, hfirst]; rfl
  have hb1 : (l.map asReceived).getLast? = some (asReceived last) := by rw [List.getLast?_map, hlast]; rfl
  have hfp : (asReceived first).pos = startOf l := hstart.symm
  have hfit := h.fits l hl
  have hle := pairwise_before_le hpb _ _ hb0 hb1
  have hendr : (asReceived last).pos + (asReceived last).hdr + (asReceived last).size = endOf l := by
    rw [hend]; rfl
  have hup := le_up512 (endOf l)
  have hloop : moveLoopF F.reads env fs base (startOf l) 0 (l.map asReceived) mem =
      moveLoop env fs' base (startOf l) (l.map asReceived) mem := by
    refine moveLoopF_patched hst F.reads (startOf l) mem (loadOf env fs' base) _ 0 mem ?_ ?_ ?_ hpb ?_ ?_
    · intro w hw; obtain ⟨o, ho, rfl⟩ := List.mem_map.1 hw; exact h.loads o (hsub o ho)
    · intro w hw; have := (hle w hw).1; omega
    · intro w hw; have := hle w hw; omega
    · intro k w hw h0
      rw [List.getElem?_map] at hw
      cases ho : l[k]? with
      | none => rw [ho] at hw; cases hw
      | some o =>
        rw [ho] at hw
        cases hw
        rw [Nat.zero_add]
        exact hp k o ho h0
    · intro _ _ _ _ _; rfl
  unfold received at hd ⊢
  unfold workerDo at hd
  unfold workerDoF
  rw [hpar] at hd ⊢
  have hn : 0 < l.length := List.length_pos_iff.2 hne
  have hz : orderNFilename (l.map asReceived) 0 = .ok (asReceived first).rel := by
    unfold orderNFilename
    rw [if_neg (by omega)]
    rw [← List.head?_eq_getElem?, hb0]
  simp only [bind, Except.bind, totalSize, hb0, hb1, hz] at hd ⊢
  unfold moveData at hd
  unfold moveDataF
  rw [if_pos hF.1]
  simp only [hb0, hb1, hfp] at hd ⊢
  rw [hloop]
  cases hm : moveLoop env fs' base (startOf l) (l.map asReceived) mem with
  | error e => rw [hm] at hd; cases hd
  | ok buf =>
    have hbl := moveLoop_length _ _ _ hm
    rw [hm] at hd
    simp only at hd ⊢
    generalize totalLen (asReceived first) (asReceived last) = T at hd ⊢
    cases hq : (if nextBlock T - T ≠ 0 then blit buf T (zeros (nextBlock T - T)) else .ok buf) with
    | error e => rw [hq] at hd; cases hd
    | ok p =>
      have hpl : p.length = buf.length := by
        by_cases hz : nextBlock T - T ≠ 0
        · rw [if_pos hz] at hq; exact blit_length hq
        · rw [if_neg hz] at hq; cases hq; rfl
      rw [hq] at hd
      simp only at hd ⊢
      by_cases hc : nextBlock T ≤ p.length
      · rw [if_pos hc] at hd ⊢
        have hw := hF.2.2
        rw [if_neg hF.2.1, List.take_of_length_le (i := F.write) (by rw [List.length_take]; omega)]
        rw [Except.ok.injEq] at hd
        rw [hd]
      · rw [if_neg hc] at hd; cases hd

theorem pairwise_eq {α : Type} {R : α → α → Prop} {l : List α} (h : l.Pairwise R) {x y : α} (hx : x ∈ l)
    (hy : y ∈ l) (h1 : ¬ R x y) (h2 : ¬ R y x) : x = y := by
  induction l with
  | nil => cases hx
  | cons a l ih =>
    rw [List.pairwise_cons] at h
    rcases List.mem_cons.1 hx with e1 | m1 <;> rcases List.mem_cons.1 hy with e2 | m2
    · rw [e1, e2]
    · exact absurd (e1 ▸ h.1 _ m2) h1
    · exact absurd (e2 ▸ h.1 _ m1) h2
    · exact ih h.2 m1 m2

/-- The files as they end up in the archive. -/
def asStored (fs : FS) (val : Bytes → Nat → UInt8) : FS := fun path =>
  (fs path).map fun n => withData n ((List.range (contentOf n).length).map (val path))

theorem asStored_lstat (fs : FS) (val : Bytes → Nat → UInt8) : (asStored fs val).lstat = fs.lstat := by
  funext path
  unfold FS.lstat asStored
  cases fs path with
  | none => rfl
  | some n => simp only [Option.map_some]; rw [lstat_withData (by simp)]

/-- **The archive of a run in which only reads fall short**: `X` lists, bundle by bundle, what was in the
worker's memory, what it wrote, and which reads fell short. -/
theorem unread_archive {env : Env} {fs : FS} {base : Bytes} {root : FNode} {S : StdSort Ref} {g : Bytes → UInt8}
    {b mx : Nat} {c : Coll} {bundles : List (List Order)} (j : Job env fs base root S g b mx c bundles)
    (X : List (Task × Faults)) (hb : X.map (fun x => x.1.bundle) = bundles)
    (hX : ∀ x ∈ X, x.1.memory.length = b ∧ OnlyReadsFail x.2 x.1.memory ∧
      workerDoF x.2 env fs base x.1.memory (received x.1.bundle) = .ok (some x.1.write))
    (ws : List WriteReq) (hws : ws.Perm (X.map fun x => x.1.write)) :
    ∃ (ms : List Member) (objs : List (List Bytes × FNode)) (got : List Bytes → Bytes),
      readArchive (writeAll ws) = some ms ∧
      (objs.map Prod.fst).Nodup ∧ (∀ p n, (p, n) ∈ objs ↔ Seen root p n ∧ describe p n ≠ none) ∧
      ms.map some = objs.map (fun x => (memberOf env base x.1 x.2).map ({ · with data := got x.1 })) ∧
      (∀ x ∈ objs, (got x.1).length = (contentOf x.2).length) ∧
      ∀ x ∈ X, ∀ (k : Nat) (o : Order), x.1.bundle[k]? = some o → o.size ≠ 0 →
        ∃ y ∈ objs, pathText y.1 = o.rel ∧ o.off + o.size ≤ (contentOf y.2).length ∧
          ∀ i, i < o.size → (got y.1)[o.off + i]? =
            if i < x.2.reads k then (contentOf y.2)[o.off + i]?
            else x.1.memory[o.pos - startOf x.1.bundle + o.hdr + i]? := by
  let cfg : Cfg := ⟨2, env, fs, true⟩
  have j0 : Job cfg.env cfg.fs base root S g b mx c bundles := j
  obtain ⟨hok, ⟨path, node, H, m, hE⟩, hr⟩ := j.setup
  obtain ⟨hflat, hs, hhdr, hnd, hcont, _⟩ := plan_flat hok j.planned
  obtain ⟨hsp, hord⟩ := job_spans j0
  obtain ⟨kch, _, _⟩ := chainTo_bundles bundles 0 _ hr.nonempty (by omega) hr.chain
  have hmemb : ∀ x ∈ X, x.1.bundle ∈ bundles := by
    intro x hx; rw [← hb]; exact List.mem_map.2 ⟨x, hx, rfl⟩
  -- the object of an order
  have hobj : ∀ o ∈ bundles.flatten, ∃ q ∈ (setOffsets (orderFiles S c)).all, o.rel = q.ref.ent.rel ∧
      o.off + o.size ≤ q.ref.ent.size ∧ o.pos + o.hdr = q.slice.offArch + q.ref.hdr + o.off := by
    intro o ho
    rw [hflat] at ho
    obtain ⟨q, hq, hf⟩ := List.mem_flatMap.1 ho
    have hsq := frags_spec 0 b q (hs q hq) (hhdr q hq).2 o hf
    exact ⟨q, hq, hsq.2.1, hsq.2.2.2.2.2.1, hsq.2.2.2.2.2.2.1⟩
  have hrdq : ∀ q ∈ (setOffsets (orderFiles S c)).all, q.ref.ent.size ≠ 0 →
      fs.read (fullName base q.ref.ent.rel) = some (contentOf (node q)) := by
    intro q hq h0
    have he := hE q hq
    have hd := he.dlen
    have hf := j.tree.fs _ _ he.seen
    unfold FS.read
    rw [he.full, hf]
    cases hn : node q with
    | reg m' c' => rfl
    | _ => rw [hn] at hd; simp only [contentOf, List.length_nil] at hd; omega
  have hfull : ∀ r r' : Bytes, fullName base r = fullName base r' → r = r' := by
    intro r r' h
    have hne := j.tree.base_ne
    unfold fullName at h
    simpa [hne] using h
  -- the byte of a file that comes from memory or from the file
  let src : Task × Faults → Nat → Order → Nat → Option UInt8 := fun x k o i =>
    if i - o.off < x.2.reads k then ((fs.read (fullName base o.rel)).getD [])[i]?
    else x.1.memory[o.pos - startOf x.1.bundle + o.hdr + (i - o.off)]?
  have hflatmem : ∀ x ∈ X, ∀ (k : Nat) (o : Order), x.1.bundle[k]? = some o → o ∈ bundles.flatten := by
    intro x hx k o ho
    exact List.mem_flatten.2 ⟨_, hmemb x hx, List.mem_of_getElem? ho⟩
  have huniq : ∀ x ∈ X, ∀ (k : Nat) (o : Order), x.1.bundle[k]? = some o → ∀ i, o.off ≤ i → i < o.off + o.size →
      ∀ x' ∈ X, ∀ (k' : Nat) (o' : Order), x'.1.bundle[k']? = some o' → fullName base o'.rel = fullName base o.rel →
      o'.off ≤ i → i < o'.off + o'.size → x = x' ∧ k = k' ∧ o = o' := by
    intro x hx k o ho i h1 h2 x' hx' k' o' ho' hrel h1' h2'
    obtain ⟨q, hq, q1, q2, q3⟩ := hobj o (hflatmem x hx k o ho)
    obtain ⟨q', hq', q1', q2', q3'⟩ := hobj o' (hflatmem x' hx' k' o' ho')
    have hqq : q = q' := by
      have hr1 : q.ref.ent.rel = q'.ref.ent.rel := by rw [← q1, ← q1']; exact (hfull _ _ hrel).symm
      exact List.inj_on_of_nodup_map hnd hq hq' hr1
    subst hqq
    have p1 := hord _ (hmemb x hx) o (List.mem_of_getElem? ho)
    have p2 := hord _ (hmemb x' hx') o' (List.mem_of_getElem? ho')
    have hxx : x = x' := by
      rw [← hb, List.pairwise_map] at hsp
      refine pairwise_eq hsp hx hx' ?_ ?_ <;> intro hh <;> omega
    subst hxx
    refine ⟨rfl, ?_⟩
    have hpw := (chainTo_pairwise (kch _ (hmemb x hx)).1).1
    have hkk : k = k' := by
      rw [List.pairwise_iff_getElem] at hpw
      obtain ⟨g1, g2⟩ := List.getElem?_eq_some_iff.1 ho
      obtain ⟨g1', g2'⟩ := List.getElem?_eq_some_iff.1 ho'
      rcases Nat.lt_trichotomy k k' with h | h | h
      · have := hpw k k' g1 g1' h
        rw [g2, g2'] at this
        simp only [Order.stop] at this
        omega
      · exact h
      · have := hpw k' k g1' g1 h
        rw [g2, g2'] at this
        simp only [Order.stop] at this
        omega
    subst hkk
    exact ⟨rfl, by rw [ho] at ho'; exact Option.some.inj ho'⟩
  have hval : ∀ (pa : Bytes) (i : Nat), ∃ v : UInt8, ∀ x ∈ X, ∀ (k : Nat) (o : Order), x.1.bundle[k]? = some o →
      fullName base o.rel = pa → o.off ≤ i → i < o.off + o.size → src x k o i = some v := by
    intro pa i
    by_cases hex : ∃ x ∈ X, ∃ (k : Nat) (o : Order), x.1.bundle[k]? = some o ∧ fullName base o.rel = pa ∧
        o.off ≤ i ∧ i < o.off + o.size
    · obtain ⟨x, hx, k, o, ho, hrel, h1, h2⟩ := hex
      have hsome : ∃ v, src x k o i = some v := by
        obtain ⟨q, hq, q1, q2, q3⟩ := hobj o (hflatmem x hx k o ho)
        have he := hE q hq
        have p1 := hord _ (hmemb x hx) o (List.mem_of_getElem? ho)
        by_cases hlim : i - o.off < x.2.reads k
        · simp only [src, if_pos hlim]
          have hrd := hrdq q hq (by omega)
          have holen := he.dlen
          rw [q1, hrd]
          simp only [Option.getD_some]
          exact ⟨_, List.getElem?_eq_getElem (by omega)⟩
        · simp only [src, if_neg hlim]
          have hm := (hX x hx).1
          have hfit := j.fits _ (hmemb x hx)
          exact ⟨_, List.getElem?_eq_getElem (by omega)⟩
      obtain ⟨v, hv⟩ := hsome
      refine ⟨v, ?_⟩
      intro x' hx' k' o' ho' hrel' h1' h2'
      obtain ⟨rfl, rfl, rfl⟩ := huniq x hx k o ho i h1 h2 x' hx' k' o' ho' (hrel'.trans hrel.symm) h1' h2'
      exact hv
    · refine ⟨0, ?_⟩
      intro x hx k o ho hrel h1 h2
      exact absurd ⟨x, hx, k, o, ho, hrel, h1, h2⟩ hex
  choose val hv using hval
  have hthere : ∀ p n, Seen root p n → asStored fs val (base ++ [47] ++ pathText p) =
      some (withData n ((List.range (contentOf n).length).map (val (base ++ [47] ++ pathText p)))) := by
    intro p n hp
    unfold asStored
    rw [j.tree.fs p n hp]
    rfl
  have hnow : ∀ p n, Seen root p n → describe p n ≠ none →
      ∃ n', (⟨2, env, asStored fs val, true⟩ : Cfg).fs (base ++ [47] ++ pathText p) = some n' ∧ Alike n n' ∧
        MetaOk env (metaOf n') := by
    intro p n hp hd
    refine ⟨_, hthere p n hp, ?_, ?_⟩
    · cases n with
      | reg m' c' => simp [withData, Alike, contentOf]
      | lnk m' t' => simp [withData, Alike]
      | dir m' o' k' => simp [withData, Alike]
      | other m' => exact absurd rfl hd
    · have := j.tree.owners p n hp hd
      cases n <;> exact this
  obtain ⟨_, hrun⟩ := now_setup (cfg := ⟨2, env, asStored fs val, true⟩) j hnow
  have hcar : Carried env (asStored fs val) base b bundles (X.map Prod.fst) := by
    refine ⟨by rw [List.map_map]; exact hb, ?_⟩
    intro t ht
    obtain ⟨x, hx, rfl⟩ := List.mem_map.1 ht
    obtain ⟨hm, hF, hd⟩ := hX x hx
    refine ⟨hm, ?_⟩
    obtain ⟨w, w1, w2⟩ := workerDoF_patched (asStored_lstat fs val) hrun x.1.bundle (hmemb x hx) x.1.memory hm x.2 hF (by
      intro k o ho h0
      obtain ⟨q, hq, q1, q2, q3⟩ := hobj o (hflatmem x hx k o ho)
      have he := hE q hq
      have hlen := he.dlen
      have hfn : fullName base o.rel = base ++ [47] ++ pathText (path q) := by rw [q1]; exact he.full
      refine ⟨contentOf (node q), (List.range (contentOf (node q)).length).map (val (base ++ [47] ++ pathText (path q))),
        ?_, ?_, by show o.off + o.size ≤ _; omega, ?_, ?_⟩
      · show fs.read (fullName base o.rel) = _
        rw [q1]; exact hrdq q hq (by omega)
      · show (asStored fs val).read (fullName base o.rel) = _
        unfold FS.read
        rw [hfn, hthere _ _ he.seen]
        cases hn : node q with
        | reg m' c' => rfl
        | _ => rw [hn] at hlen; simp only [contentOf, List.length_nil] at hlen; omega
      · rw [List.length_map, List.length_range]; show o.off + o.size ≤ _; omega
      · intro t ht
        have ht' : t < o.size := ht
        show ((List.range (contentOf (node q)).length).map (val (base ++ [47] ++ pathText (path q))))[o.off + t]? =
          if t < x.2.reads k then (contentOf (node q))[o.off + t]? else x.1.memory[o.pos - startOf x.1.bundle + o.hdr + t]?
        rw [List.getElem?_map, List.getElem?_range (by omega)]
        simp only [Option.map_some]
        have := hv (base ++ [47] ++ pathText (path q)) (o.off + t) x hx k o ho hfn (by omega) (by omega)
        rw [← this]
        simp only [src]
        rw [show o.off + t - o.off = t by omega]
        have hrd : fs.read (fullName base o.rel) = some (contentOf (node q)) := by rw [q1]; exact hrdq q hq (by omega)
        rw [hrd]
        rfl)
    rw [hd] at w1
    simp only [Except.ok.injEq, Option.some.injEq] at w1
    rw [← w1] at w2
    exact w2
  obtain ⟨ms, objs0, a1, a2, a3, a4, a5⟩ := now_archive (cfg := ⟨2, env, asStored fs val, true⟩) j hnow
    (X.map Prod.fst) hcar ws (by rw [List.map_map]; exact hws)
  have hnode : ∀ p, ∃ n, (∃ n', Seen root p n' ∧ describe p n' ≠ none) → Seen root p n ∧ describe p n ≠ none := by
    intro p
    by_cases h : ∃ n', Seen root p n' ∧ describe p n' ≠ none
    · obtain ⟨n, h⟩ := h; exact ⟨n, fun _ => h⟩
    · exact ⟨.other ⟨0, 0, 0, 0⟩, fun h' => absurd h' h⟩
  choose nd hnd' using hnode
  let got : List Bytes → Bytes := fun p => (List.range (contentOf (nd p)).length).map (val (base ++ [47] ++ pathText p))
  have hst : ∀ p st, (p, st) ∈ objs0 → Seen root p (nd p) ∧ describe p (nd p) ≠ none ∧ st = withData (nd p) (got p) := by
    intro p st hm
    have hex := (a4 p).1 (List.mem_map.2 ⟨_, hm, rfl⟩)
    obtain ⟨k1, k2⟩ := hnd' p hex
    refine ⟨k1, k2, ?_⟩
    obtain ⟨n, n', b1, b2, b3⟩ := a5 p st hm
    have hn : n = nd p := seen_functional j.tree.treeOk b1 k1
    subst hn
    have b2' : asStored fs val (base ++ [47] ++ pathText p) = some n' := b2
    rw [hthere _ _ k1] at b2'
    have b2'' := Option.some.inj b2'
    subst b2''
    show st = withData (nd p) (got p)
    simp only [got]
    generalize val (base ++ [47] ++ pathText p) = f at b3 ⊢
    cases hn : nd p with
    | reg m' c' =>
      rw [hn] at b3
      simp only [withData, contentOf, Stored] at b3 ⊢
      obtain ⟨d, rfl, d1, d2⟩ := b3
      simp only [List.length_map, List.length_range] at d1
      rw [List.take_of_length_le (by omega), List.take_of_length_le (by simp)] at d2
      rw [d2]
    | lnk m' t' => rw [hn] at b3; exact b3
    | dir m' o' k' => rw [hn] at b3; exact b3
    | other m' => exact absurd (by rw [hn]; rfl) k2
  refine ⟨ms, objs0.map (fun x => (x.1, nd x.1)), got, a1, ?_, ?_, ?_, ?_, ?_⟩
  · rw [List.map_map]; exact a3
  · intro p n
    constructor
    · intro hm
      obtain ⟨⟨p', st⟩, hm', he⟩ := List.mem_map.1 hm
      simp only [Prod.mk.injEq] at he
      obtain ⟨rfl, rfl⟩ := he
      have := hst _ _ hm'
      exact ⟨this.1, this.2.1⟩
    · intro hp
      obtain ⟨⟨p', st⟩, hm', he⟩ := List.mem_map.1 ((a4 p).2 ⟨n, hp⟩)
      simp only at he
      subst he
      refine List.mem_map.2 ⟨_, hm', ?_⟩
      simp only [Prod.mk.injEq, true_and]
      exact seen_functional j.tree.treeOk (hst _ _ hm').1 hp.1
  · rw [a2, List.map_map]
    apply List.map_congr_left
    rintro ⟨p, st⟩ hm
    obtain ⟨_, k2, rfl⟩ := hst p st hm
    have hg : got p = (List.range (contentOf (nd p)).length).map (val (base ++ [47] ++ pathText p)) := rfl
    have hgl : (got p).length = (contentOf (nd p)).length := by rw [hg]; simp
    show memberOf env base p (withData (nd p) (got p)) = (memberOf env base p (nd p)).map _
    generalize got p = G at hgl ⊢
    cases hn : nd p with
    | reg m' c' =>
      rw [hn] at hgl
      simp only [contentOf] at hgl
      simp only [withData, memberOf]
      cases env.pwName m'.uid <;> cases env.grName m'.gid <;> simp [hgl, archivedPath]
    | lnk m' t' =>
      rw [hn] at hgl
      simp only [contentOf, List.length_nil] at hgl
      have := List.length_eq_zero_iff.1 hgl
      subst this
      simp only [withData, memberOf]
      cases env.pwName m'.uid <;> cases env.grName m'.gid <;> simp
    | dir m' o' k' =>
      rw [hn] at hgl
      simp only [contentOf, List.length_nil] at hgl
      have := List.length_eq_zero_iff.1 hgl
      subst this
      simp only [withData, memberOf]
      cases env.pwName m'.uid <;> cases env.grName m'.gid <;> simp
    | other m' => exact absurd (by rw [hn]; rfl) k2
  · intro x hx
    obtain ⟨y, _, rfl⟩ := List.mem_map.1 hx
    simp [got]
  · intro x hx k o ho h0
    obtain ⟨q, hq, q1, q2, q3⟩ := hobj o (hflatmem x hx k o ho)
    have he := hE q hq
    have hlen := he.dlen
    have hdn : describe (path q) (node q) ≠ none := by rw [he.desc]; simp
    have hrel : pathText (path q) = o.rel := by
      have := he.full
      rw [← q1] at this
      have hne := j.tree.base_ne
      unfold fullName at this
      simpa [hne] using this.symm
    have hfn : fullName base o.rel = base ++ [47] ++ pathText (path q) := by rw [q1]; exact he.full
    have hndq : nd (path q) = node q :=
      seen_functional j.tree.treeOk (hnd' _ ⟨_, he.seen, hdn⟩).1 he.seen
    obtain ⟨⟨p', st⟩, hm', hp'⟩ := List.mem_map.1 ((a4 (path q)).2 ⟨node q, he.seen, hdn⟩)
    simp only at hp'
    subst hp'
    refine ⟨(path q, nd (path q)), List.mem_map.2 ⟨_, hm', rfl⟩, hrel, ?_, ?_⟩
    · show o.off + o.size ≤ (contentOf (nd (path q))).length
      rw [hndq]; omega
    · intro t ht
      show (got (path q))[o.off + t]? = if t < x.2.reads k then (contentOf (nd (path q)))[o.off + t]? else _
      simp only [got]
      rw [hndq, List.getElem?_map, List.getElem?_range (by omega)]
      simp only [Option.map_some]
      have := hv (base ++ [47] ++ pathText (path q)) (o.off + t) x hx k o ho hfn (by omega) (by omega)
      rw [← this]
      simp only [src]
      rw [show o.off + t - o.off = t by omega]
      have hrd : fs.read (fullName base o.rel) = some (contentOf (node q)) := by rw [q1]; exact hrdq q hq (by omega)
      rw [hrd]
      rfl

end Parfu
