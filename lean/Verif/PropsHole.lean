/-
Property theorems C65, continued: an archive of parfu 0.6 with a hole in the data of a file reads as
complete.
-/
import Verif.PropsInterrupt
import Verif.PropsSlow
set_option autoImplicit false

namespace Parfu.Props
open Parfu MoveSpec TarSpec ScanSpec PlanSpec ProtocolSpec

/-- In a chain of bundles, the ranges of different bundles follow each other. -/
theorem spans_apart : ∀ (bs : List (List Order)) (w w' : Nat), (∀ l ∈ bs, l ≠ []) →
    ChainTo w bs.flatten w' →
    (∀ l ∈ bs, w ≤ startOf l) ∧ bs.Pairwise (fun a b => up512 (endOf a) ≤ startOf b) := by
  intro bs
  induction bs with
  | nil => intro w w' _ _; simp
  | cons x bs ih =>
    intro w w' hne hch
    rw [List.flatten_cons, chainTo_append] at hch
    obtain ⟨m, c1, c2⟩ := hch
    obtain ⟨i1, i2⟩ := ih m w' (fun l hl => hne l (by simp [hl])) c2
    have hs := chainTo_start c1 (hne x (by simp))
    have he := chainTo_end c1 (hne x (by simp))
    have hle := chainTo_le c1
    refine ⟨?_, List.pairwise_cons.2 ⟨?_, i2⟩⟩
    · intro l hl
      rcases List.mem_cons.1 hl with rfl | hl
      · omega
      · have := i1 l hl; omega
    · intro l hl
      have := i1 l hl
      omega

theorem chainTo_stop {w w' : Nat} {l : List Order} (h : ChainTo w l w') : ∀ o ∈ l, o.pos + o.hdr + o.size ≤ w' := by
  induction l generalizing w with
  | nil => simp
  | cons x l ih =>
    simp only [ChainTo] at h
    intro o ho
    rcases List.mem_cons.1 ho with rfl | ho
    · have := chainTo_le h.2
      have hup := le_up512 (w + o.hdr + o.size)
      have h1 := h.1
      first
        | (unfold Order.stop at *; omega)
        | (have hup' := le_up512 (Order.stop o); unfold Order.stop at *; omega)
    · exact ih h.2 o ho

section
variable {cfg : Cfg} {base : Bytes} {root : FNode} {S : StdSort Ref} {g : Bytes → UInt8}
  {b mx : Nat} {c : Coll} {bundles : List (List Order)} {archive : Bytes} {eager : Bool}
  {tr : List Ev} {s : Sys} {f : Bytes}

/-- The ranges of the bundles of a job: each is that of its orders, and they do not meet. -/
theorem job_spans (j : Job cfg.env cfg.fs base root S g b mx c bundles) :
    bundles.Pairwise (fun a b => startOf a < up512 (endOf a) ∧ up512 (endOf a) ≤ startOf b) ∧
    (∀ l ∈ bundles, ∀ o ∈ l, startOf l ≤ o.pos ∧ o.pos + o.hdr + o.size ≤ up512 (endOf l) ∧ 0 < o.hdr + o.size) := by
  obtain ⟨hok, _, hr⟩ := j.setup
  obtain ⟨hflat, hs, hhdr, _⟩ := plan_flat hok j.planned
  obtain ⟨k1, _, _⟩ := chainTo_bundles bundles 0 _ hr.nonempty (by omega) hr.chain
  have hord : ∀ l ∈ bundles, ∀ o ∈ l,
      startOf l ≤ o.pos ∧ o.pos + o.hdr + o.size ≤ up512 (endOf l) ∧ 0 < o.hdr + o.size := by
    intro l hl o ho
    have hk := (k1 l hl).1
    have hm' : o ∈ bundles.flatten := List.mem_flatten.2 ⟨_, hl, ho⟩
    rw [hflat] at hm'
    obtain ⟨q, hq, hqf⟩ := List.mem_flatMap.1 hm'
    exact ⟨(chainTo_pairwise hk).2 o ho, chainTo_stop hk o ho, frag_nonempty 0 b q (hs q hq).1 (hhdr q hq).1 o hqf⟩
  refine ⟨?_, hord⟩
  refine (spans_apart bundles 0 _ hr.nonempty hr.chain).2.imp_of_mem ?_
  intro x y hx _ h
  obtain ⟨o, os, ho⟩ := List.exists_cons_of_ne_nil (hr.nonempty x hx)
  have := hord x hx o (by rw [ho]; simp)
  exact ⟨by omega, h⟩

/-- Two bundles with a position in common are the same. -/
theorem same_bundle (j : Job cfg.env cfg.fs base root S g b mx c bundles) {l l' : List Order}
    (hl : l ∈ bundles) (hl' : l' ∈ bundles) {i : Nat} (h1 : startOf l ≤ i ∧ i < up512 (endOf l))
    (h2 : startOf l' ≤ i ∧ i < up512 (endOf l')) : l = l' := by
  have hp := (job_spans j).1
  by_contra hne
  have key : ∀ bs : List (List Order), bs.Pairwise (fun a b => startOf a < up512 (endOf a) ∧ up512 (endOf a) ≤ startOf b) →
      l ∈ bs → l' ∈ bs → False := by
    intro bs hb
    induction bs with
    | nil => intro h; cases h
    | cons x bs ih =>
      rw [List.pairwise_cons] at hb
      intro m1 m2
      rcases List.mem_cons.1 m1 with e1 | m1 <;> rcases List.mem_cons.1 m2 with e2 | m2
      · exact hne (e1.trans e2.symm)
      · have := (hb.1 l' m2).2; rw [← e1] at this; omega
      · have := (hb.1 l m1).2; rw [← e2] at this; omega
      · exact ih hb.2 m1 m2
  exact key bundles hp hl hl'

theorem print_same (j : Job cfg.env cfg.fs base root S g b mx c bundles) {l l' : List Order}
    (hl : l ∈ bundles) (hl' : l' ∈ bundles) (hp : printBundle l = printBundle l') : l = l' := by
  have hst := print_start j hl hl' hp
  obtain ⟨_, _, hr⟩ := j.setup
  have h2 := (job_spans j).2
  obtain ⟨o, os, ho⟩ := List.exists_cons_of_ne_nil (hr.nonempty l hl)
  obtain ⟨o', os', ho'⟩ := List.exists_cons_of_ne_nil (hr.nonempty l' hl')
  have e1 := h2 l hl o (by rw [ho]; simp)
  have e2 := h2 l' hl' o' (by rw [ho']; simp)
  exact same_bundle j hl hl' (i := startOf l) ⟨by omega, by omega⟩ ⟨by omega, by omega⟩

/-- **C65, violated** Let the run be interrupted at a moment at which every bundle that holds the header
of a member, and the last bundle, have been carried out; others - each consists of data of a file too
large for one bucket - need not have been.  Then a tar reader takes the file for a complete archive of
*all* objects: each member is as in a finished archive, except that the data of files have zeros
where bundles are missing. -/
theorem C65_hole_in_file (j : Job cfg.env cfg.fs base root S g b mx c bundles) (hl : Launchable cfg b archive)
    (h : CreateRun cfg eager b archive base (bundles.map printBundle) none tr s) (hf : s.file = some f)
    (hpart : ∀ l ∈ bundles, DoneBundle tr l ∨ ∀ o ∈ l, o.hdr = 0)
    (hlast : ∀ l, bundles.getLast? = some l → DoneBundle tr l) :
    ∃ (ms : List Member) (objs : List (List Bytes × FNode)) (got : List Bytes → Bytes),
      readArchive f = some ms ∧
      (objs.map Prod.fst).Nodup ∧ (∀ p n, (p, n) ∈ objs ↔ Seen root p n ∧ describe p n ≠ none) ∧
      ms.map some = objs.map (fun x => (memberOf cfg.env base x.1 x.2).map ({ · with data := got x.1 })) ∧
      (∀ x ∈ objs, (got x.1).length = (contentOf x.2).length ∧
        ∀ i : Nat, (got x.1)[i]? = (contentOf x.2)[i]? ∨ (got x.1)[i]? = some 0) ∧
      (∀ l ∈ bundles, ¬ DoneBundle tr l → ∀ o ∈ l, ∃ x ∈ objs, pathText x.1 = o.rel ∧ 0 < o.size ∧
        o.off + o.size ≤ (contentOf x.2).length ∧ ∀ i, o.off ≤ i → i < o.off + o.size → (got x.1)[i]? = some 0) := by
  obtain ⟨hok, ⟨path, node, H, m, hE⟩, hr⟩ := j.setup
  obtain ⟨hflat, hs, hhdr, hnd, hcont, _⟩ := plan_flat hok j.planned
  obtain ⟨zs, ws, h1, h2, h3, h4, h5, h6⟩ := moment j hl h hf
  obtain ⟨r1, r2, _⟩ := job_reads j hE zs h1 ws h2
  obtain ⟨hsp, hord⟩ := job_spans j
  obtain ⟨k1, _, _⟩ := chainTo_bundles bundles 0 _ hr.nonempty (by omega) hr.chain
  -- the length of the file
  have hlen : f.length = endPos 0 (setOffsets (orderFiles S c)).all := by
    have hle : f.length ≤ endPos 0 (setOffsets (orderFiles S c)).all := by
      rcases h6 with h6 | ⟨l, hlb, _, h6⟩
      · omega
      · rw [h6]; exact (k1 l hlb).2.2
    obtain ⟨l, hll⟩ : ∃ l, bundles.getLast? = some l := ⟨_, List.getLast?_eq_some_getLast hr.ne⟩
    have hlb := List.mem_of_getLast? hll
    have hge := h5 l hlb (hlast l hll)
    have : up512 (endOf l) = endPos 0 (setOffsets (orderFiles S c)).all := by
      obtain ⟨pre, hpre⟩ := List.getLast?_eq_some_iff.1 hll
      have hch := hr.chain
      rw [hpre, List.flatten_append, chainTo_append] at hch
      obtain ⟨w, _, c2⟩ := hch
      simp only [List.flatten_cons, List.flatten_nil, List.append_nil] at c2
      exact (chainTo_end c2 (hr.nonempty l hlb)).symm
    omega
  have hin : ∀ q ∈ (setOffsets (orderFiles S c)).all, q.slice.offArch + q.ref.hdr + q.ref.ent.size ≤ f.length := by
    intro q hq
    rw [hlen]; exact (endPos_le _ 0).2 hcont q hq
  have hrefs : (setOffsets (orderFiles S c)).all.map Placed.ref =
      (orderFiles S c).dirs ++ (orderFiles S c).files := by
    rw [setOffsets_all, placeFrom_refs]
  have h11 := C11_every_byte_once 0 b mx (orderFiles S c) bundles hok j.planned
  -- headers are there
  have hH : ∀ q ∈ (setOffsets (orderFiles S c)).all, ∀ i, i < q.ref.hdr →
      f[q.slice.offArch + i]? = (H q)[i]? := by
    intro q hq i hi
    have hqr : q.ref ∈ (orderFiles S c).dirs ++ (orderFiles S c).files := by
      rw [← hrefs]; exact List.mem_map.2 ⟨q, hq, rfl⟩
    have hcnt := (h11.1 q.ref hqr).1
    obtain ⟨o, ho, hmv⟩ := List.countP_pos_iff.1 (Nat.lt_of_lt_of_eq Nat.one_pos hcnt.symm)
    simp [Heads] at hmv
    have h12 := (C12_bytes_in_place 0 b mx _ bundles hok j.planned q hq o ho hmv.1).1 hmv.2
    obtain ⟨l, hlb, hol⟩ := List.mem_flatten.1 ho
    have hd : DoneBundle tr l := by
      rcases hpart l hlb with hd | hd
      · exact hd
      · exact absurd (hd o hol) hmv.2
    have hsp' := hord l hlb o hol
    have hoh : o.hdr = q.ref.hdr := by
      rw [hflat] at ho
      obtain ⟨q', hq', hqf⟩ := List.mem_flatMap.1 ho
      obtain ⟨r, hrm, e1, _, _, e4, _⟩ := h11.2 o (by rw [hflat]; exact List.mem_flatMap.2 ⟨q', hq', hqf⟩)
      have hrq : r = q.ref := by
        have hnd' := hok.nodup
        exact List.inj_on_of_nodup_map hnd' hrm hqr (by rw [← e1, hmv.1])
      rcases e4 with e4 | e4
      · exact absurd e4 hmv.2
      · rw [e4, hrq]
    rw [h3 l hlb hd _ (by omega) (by omega)]
    have hh := r2 q hq
    rw [holds_iff] at hh
    have he := (hE q hq).hlen
    rw [hh i (by rw [List.length_append]; omega), List.getElem?_append_left (by omega)]
  -- data
  have hD : ∀ q ∈ (setOffsets (orderFiles S c)).all, ∀ i, i < q.ref.ent.size →
      f[q.slice.offArch + q.ref.hdr + i]? = (contentOf (node q))[i]? ∨
      f[q.slice.offArch + q.ref.hdr + i]? = some 0 := by
    intro q hq i hi
    have hh := r2 q hq
    rw [holds_iff] at hh
    have he := (hE q hq).hlen
    have hd := (hE q hq).dlen
    by_cases hcov : ∃ l ∈ bundles, DoneBundle tr l ∧ startOf l ≤ q.slice.offArch + q.ref.hdr + i ∧
        q.slice.offArch + q.ref.hdr + i < up512 (endOf l)
    · obtain ⟨l, hlb, hdn, e1, e2⟩ := hcov
      left
      rw [h3 l hlb hdn _ e1 e2, Nat.add_assoc, hh (q.ref.hdr + i) (by rw [List.length_append]; omega),
        List.getElem?_append_right (by omega), he]
      congr 1; omega
    · right
      rcases h4 (q.slice.offArch + q.ref.hdr + i) (fun l hlb hdn hx => hcov ⟨l, hlb, hdn, hx⟩) with h0 | h0
      · exact h0
      · have := List.getElem?_eq_none_iff.1 h0
        have := hin q hq
        omega
  let got' : Placed → Bytes := fun q => (f.drop (q.slice.offArch + q.ref.hdr)).take q.ref.ent.size
  have hgl : ∀ q ∈ (setOffsets (orderFiles S c)).all, (got' q).length = q.ref.ent.size := by
    intro q hq
    have := hin q hq
    simp only [got', List.length_take, List.length_drop]; omega
  have hgi : ∀ q ∈ (setOffsets (orderFiles S c)).all, ∀ i, i < q.ref.ent.size →
      (got' q)[i]? = f[q.slice.offArch + q.ref.hdr + i]? := by
    intro q hq i hi
    simp only [got']
    rw [List.getElem?_take, if_pos hi, List.getElem?_drop]
  have hread := readArchive_placed (env := cfg.env) f (fun q => { m q with data := got' q }) H got'
    (setOffsets (orderFiles S c)).all 0 hcont hlen (by omega) (by
      intro q hq
      have he := hE q hq
      have hgl' := hgl q hq
      have hmod : (H q).length % 512 = 0 := by
        obtain ⟨e, _, h⟩ := he.made
        exact (C01_header_length _ _ _ h).2.1
      refine ⟨he.hlen, by rw [hgl'], ?_, ?_, ?_⟩
      · rw [holds_iff]
        intro i hi
        rw [List.length_append, he.hlen, hgl'] at hi
        by_cases hih : i < q.ref.hdr
        · rw [hH q hq i hih, List.getElem?_append_left (by rw [he.hlen]; exact hih)]
        · rw [List.getElem?_append_right (by rw [he.hlen]; omega), he.hlen, hgi q hq _ (by omega)]
          congr 1; omega
      · obtain ⟨e, _, h⟩ := he.made; exact ⟨e, h⟩
      · intro padding rest hp
        refine readMember_swap (D := contentOf (node q)) hmod ?_ ?_ (by rw [hgl', he.dlen]) padding rest hp
        · have hmm := he.memb
          revert hmm
          cases node q <;> unfold memberOf <;> simp only [contentOf] <;> intro hmm
          all_goals first
            | (cases hmm; done)
            | (split at hmm
               · rw [← Option.some.inj hmm]
               · cases hmm)
        · intro pd rs hpd
          rw [he.dlen] at hpd
          exact he.reads pd rs hpd)
  rw [List.drop_zero] at hread
  obtain ⟨e1, e2⟩ := entries_objects j hE
  have hrel : ∀ q ∈ (setOffsets (orderFiles S c)).all, q.ref.ent.rel = pathText (path q) := by
    intro q hq
    have hd := (hE q hq).desc
    cases hn : node q <;> rw [hn] at hd <;> simp [describe] at hd <;> rw [← hd]
  -- the data found, by path
  obtain ⟨got, hgot⟩ : ∃ got : List Bytes → Bytes, ∀ q ∈ (setOffsets (orderFiles S c)).all, got (path q) = got' q := by
    refine ⟨fun p => match (setOffsets (orderFiles S c)).all.find? (fun q => path q = p) with
      | some q => got' q
      | none => [], ?_⟩
    intro q hq
    rw [List.map_map] at e1
    cases hfd : (setOffsets (orderFiles S c)).all.find? (fun q' => path q' = path q) with
    | none => exact absurd (List.find?_eq_none.1 hfd q hq) (by simp)
    | some q' =>
      have hm := List.mem_of_find?_eq_some hfd
      have hp := List.find?_some hfd
      simp only [decide_eq_true_eq] at hp
      have : q' = q := List.inj_on_of_nodup_map e1 hm hq hp
      rw [← this]
      rw [← this] at hfd
      simp only [hfd]
  refine ⟨_, (setOffsets (orderFiles S c)).all.map (fun q => (path q, node q)), got, hread, e1, e2, ?_, ?_, ?_⟩
  · rw [List.map_map, List.map_map]
    apply List.map_congr_left
    intro q hq
    simp only [Function.comp]
    rw [(hE q hq).memb, hgot q hq]; rfl
  · intro x hx
    obtain ⟨q, hq, rfl⟩ := List.mem_map.1 hx
    simp only
    rw [hgot q hq]
    refine ⟨by rw [hgl q hq, (hE q hq).dlen], fun i => ?_⟩
    by_cases hi : i < q.ref.ent.size
    · rw [hgi q hq i hi]; exact hD q hq i hi
    · left
      rw [List.getElem?_eq_none (by rw [hgl q hq]; omega), List.getElem?_eq_none (by rw [(hE q hq).dlen]; omega)]
  · intro l hlb hdn o ho
    have h0 : o.hdr = 0 := by
      rcases hpart l hlb with hd | hd
      · exact absurd hd hdn
      · exact hd o ho
    have hof : o ∈ bundles.flatten := List.mem_flatten.2 ⟨_, hlb, ho⟩
    have hof' := hof
    rw [hflat] at hof'
    obtain ⟨q, hq, hqf⟩ := List.mem_flatMap.1 hof'
    obtain ⟨hsp1, hsp2, hsp3⟩ := hord l hlb o ho
    have hqr : q.ref ∈ (orderFiles S c).dirs ++ (orderFiles S c).files := by
      rw [← hrefs]; exact List.mem_map.2 ⟨q, hq, rfl⟩
    have hrelo : o.rel = q.ref.ent.rel := by
      by_contra hne
      have := frags_other 0 b q o.rel (fun h => hne h.symm) (fun o' => decide (o'.rel = o.rel)) (by simp)
      rw [List.countP_eq_zero] at this
      exact this o hqf (by simp)
    obtain ⟨r, hrm, t1, _, _, _, t5⟩ := h11.2 o hof
    have hrq : r = q.ref := List.inj_on_of_nodup_map hok.nodup hrm hqr (by rw [← t1, hrelo])
    rw [hrq] at t5
    refine ⟨(path q, node q), List.mem_map.2 ⟨q, hq, rfl⟩, by rw [hrelo]; exact (hrel q hq).symm, by omega,
      by rw [(hE q hq).dlen]; exact t5, fun i hi1 hi2 => ?_⟩
    simp only
    rw [hgot q hq, hgi q hq i (by omega)]
    have h12 := (C12_bytes_in_place 0 b mx _ bundles hok j.planned q hq o hof hrelo).2 i (by
      simp [Moves, hrelo]; omega)
    have hp : q.slice.offArch + q.ref.hdr + i = o.pos + (i - o.off) := by omega
    rcases h4 (q.slice.offArch + q.ref.hdr + i) (fun l' hlb' hdn' hx => by
      have := same_bundle j hlb hlb' (i := q.slice.offArch + q.ref.hdr + i) ⟨by omega, by omega⟩ hx
      exact hdn (this ▸ hdn')) with h0 | h0
    · exact h0
    · have := List.getElem?_eq_none_iff.1 h0
      have := hin q hq
      omega

/-- **C65** With two workers or more, for each bundle of a job there is a moment of some run at which
all other bundles have been carried out and this one has not. -/
theorem C65_any_one_missing (j : Job cfg.env cfg.fs base root S g b mx c bundles) (hl : Launchable cfg b archive)
    (hr3 : 3 ≤ cfg.ranks) (hc : cfg.creatable = true) {l : List Order} (hlb : l ∈ bundles) :
    ∃ tr s f, CreateRun cfg true b archive base (bundles.map printBundle) none tr s ∧ s.file = some f ∧
      ∀ l' ∈ bundles, (DoneBundle tr l' ↔ l' ≠ l) := by
  obtain ⟨_, _, tr, s, h, hfin⟩ := C19_runs_succeed j hl (by omega) hc Run.nil
  rw [List.nil_append] at h
  have hL := job_launch j hl
  obtain ⟨tr', s', r, k1, k2, k3, k4⟩ := C66_every_bundle_can_be_missing hL (job_workable j) hr3 h hfin.1
    (printBundle l) (List.mem_map.2 ⟨l, hlb, rfl⟩)
  obtain ⟨f, hf⟩ := stopped_file hL k1 k2 (Or.inl ⟨_, k3⟩)
  refine ⟨tr', s', f, k1, hf, ?_⟩
  have hnd : (bundles.map printBundle).Nodup := by
    have hb : bundles.Nodup := (job_spans j).1.imp (by
      rintro x y ⟨h1, h2⟩ rfl; omega)
    exact List.Nodup.map_on (fun x hx y hy hxy => print_same j hx hy hxy) hb
  have hnd' := k4.symm.nodup hnd
  rw [List.nodup_append] at hnd'
  have hdone : ∀ l', DoneBundle tr' l' ↔ printBundle l' ∈ (executed tr').map Prod.snd := by
    intro l'
    constructor
    · rintro ⟨q, hq⟩; exact List.mem_map.2 ⟨_, hq, rfl⟩
    · intro hm
      obtain ⟨⟨q, t⟩, e1, e2⟩ := List.mem_map.1 hm
      exact ⟨q, by rw [← e2]; exact e1⟩
  intro l' hlb'
  rw [hdone]
  constructor
  · rintro hm rfl
    exact hnd'.2.2 _ hm _ (List.mem_singleton.2 rfl) rfl
  · intro hne
    have : printBundle l' ∈ (executed tr').map Prod.snd ++ [printBundle l] :=
      k4.mem_iff.2 (List.mem_map.2 ⟨l', hlb', rfl⟩)
    rcases List.mem_append.1 this with hm | hm
    · exact hm
    · exact absurd (print_same j hlb' hlb (List.mem_singleton.1 hm)) hne

end

/-! ### a concrete run -/

/-- A file that takes three buckets. -/
def hugeData : Bytes := List.replicate 220000 7

theorem hugeData_length : hugeData.length = 220000 := List.length_replicate

def hugeC : Coll :=
  { dirs := [⟨-12, ⟨[], .dir, [], 0⟩, 512⟩], files := [⟨220000, ⟨[98], .reg, [], 220000⟩, 512⟩] }

/-- Its plan: the directory, and the file in three pieces. -/
def hugeBundles : List (List Order) :=
  [[⟨0, [], .dir, [], 0, 512, 0, 0⟩], [⟨0, [98], .reg, [], 101888, 512, 512, 0⟩],
   [⟨0, [98], .reg, [], 102400, 0, 102912, 101888⟩], [⟨0, [98], .reg, [], 15712, 0, 205312, 204288⟩]]

theorem huge_job : Job demoEnv2 (oneFileFs hugeData) demoBase (oneFile hugeData) demoSort2 (fun _ => 0) 102400 3 hugeC
    hugeBundles := by
  constructor
  · exact oneFile_archivable _
  · intro _; rfl
  · decide
  · have h : spiderDir (fun _ => 0) [] (oneFile hugeData) =
        .ok (.mk ⟨[], .dir, [], 0⟩ [] [⟨[98], .reg, [], hugeData.length⟩]) := by
      rfl
    unfold scan
    rw [h, hugeData_length]
    decide +kernel
  · decide +kernel
  · decide +kernel
  · decide +kernel
  · decide +kernel

/-- With three ranks there is a run that, interrupted, leaves an archive that reads as complete, in
which the file `b` of 220000 bytes 7 has the right size and 102400 zeros in the middle. -/
example : ∃ tr s f ms got, CreateRun ⟨3, demoEnv2, oneFileFs hugeData, true⟩ true 102400 [97] demoBase
      (hugeBundles.map printBundle) none tr s ∧ s.file = some f ∧ readArchive f = some ms ∧
    (memberOf demoEnv2 demoBase [[98]] (.reg ⟨420, 0, 0, 0⟩ hugeData)).map ({ · with data := got }) ∈ ms.map some ∧
    got.length = 220000 ∧ got[110000]? = some 0 ∧ hugeData[110000]? = some 7 := by
  let cfg : Cfg := ⟨3, demoEnv2, oneFileFs hugeData, true⟩
  have j : Job cfg.env cfg.fs demoBase (oneFile hugeData) demoSort2 (fun _ => 0) 102400 3 hugeC hugeBundles := huge_job
  have hl : Launchable cfg 102400 [97] := by constructor <;> decide
  have hmid : [(⟨0, [98], .reg, [], 102400, 0, 102912, 101888⟩ : Order)] ∈ hugeBundles := by decide
  obtain ⟨tr, s, f, h1, h2, h3⟩ := C65_any_one_missing j hl (by decide) rfl hmid
  obtain ⟨ms, objs, got, g1, _, g3, g4, g5, g6⟩ := C65_hole_in_file j hl h1 h2 (by
      intro l hlb
      by_cases hd : DoneBundle tr l
      · exact Or.inl hd
      · right
        have : l = _ := Classical.byContradiction fun hne => hd ((h3 l hlb).2 hne)
        rw [this]; decide) (by
      intro l hll
      refine (h3 l (List.mem_of_getLast? hll)).2 ?_
      have := hll.symm.trans (show hugeBundles.getLast? = some _ from rfl)
      rw [Option.some.inj this]; decide)
  obtain ⟨x, hx, x1, _, x3, x4⟩ := g6 _ hmid (fun hd => (h3 _ hmid).1 hd rfl) _ (List.mem_singleton.2 rfl)
  have hxs := (g3 x.1 x.2).1 hx
  rcases oneFile_seen hxs.1 with ⟨e1, _⟩ | ⟨e1, e2⟩
  · rw [e1] at x1; cases x1
  · refine ⟨tr, s, f, ms, got x.1, h1, h2, g1, ?_, ?_, ?_, ?_⟩
    · rw [g4]
      exact List.mem_map.2 ⟨x, hx, by rw [e2, e1]⟩
    · rw [(g5 x hx).1, e2]; exact hugeData_length
    · exact x4 110000 (by decide) (by decide)
    · unfold hugeData; rw [List.getElem?_replicate, if_pos (by decide)]

end Parfu.Props
