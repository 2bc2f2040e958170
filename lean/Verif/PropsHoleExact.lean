/-
Property theorems C65, continued: exactly when, and as what, the archive file of an interrupted run
of parfu 0.6 is read, for any number of workers and any moment.
-/
import Verif.PropsHole
import Verif.PropsComplete
set_option autoImplicit false

namespace Parfu.Props
open Parfu MoveSpec TarSpec ScanSpec PlanSpec ProtocolSpec

/-- `P` is where the first member begins whose header has not been written: all bundles with a header
before `P` have been carried out, and a bundle with the header at `P` has not been, or `P` is the end
of the archive. -/
def FirstMissing (bundles : List (List Order)) (tr : List Ev) (P : Nat) : Prop :=
  (∀ l ∈ bundles, ∀ o ∈ l, o.hdr ≠ 0 → o.pos < P → DoneBundle tr l) ∧
  ((∃ l ∈ bundles, ∃ o ∈ l, o.hdr ≠ 0 ∧ o.pos = P ∧ ¬ DoneBundle tr l) ∨
    ∃ l, bundles.getLast? = some l ∧ P = up512 (endOf l))

theorem not_zero_first {env : Env} {e : TarEntry} {H : Bytes} (hH : makeTarHeader env e = .ok H) :
    H.take 512 ≠ zeros 512 := by
  intro h2
  have hc := (C03_checksums env e H hH).2
  rw [h2] at hc
  revert hc
  decide +kernel

theorem parse_zero_block : parseBlock (zeros 512) = none := by decide +kernel

section
variable {cfg : Cfg} {base : Bytes} {root : FNode} {S : StdSort Ref} {g : Bytes → UInt8}
  {b mx : Nat} {c : Coll} {bundles : List (List Order)} {archive : Bytes} {eager : Bool}
  {tr : List Ev} {s : Sys} {f : Bytes}

/-- The order that brings the header of an entry. -/
theorem head_order (j : Job cfg.env cfg.fs base root S g b mx c bundles) {q : Placed}
    (hq : q ∈ (setOffsets (orderFiles S c)).all) :
    ∃ l ∈ bundles, ∃ o ∈ l, o ∈ frags 0 b q ∧ o.rel = q.ref.ent.rel ∧ o.hdr = q.ref.hdr ∧ o.hdr ≠ 0 ∧
      o.pos = q.slice.offArch := by
  obtain ⟨hok, _, hr⟩ := j.setup
  obtain ⟨hflat, hs, hhdr, hnd, hcont, _⟩ := plan_flat hok j.planned
  obtain ⟨o, os, h1, h2, _⟩ := frags_cons 0 b q (hs q hq).1 (hhdr q hq).1
  have ho : o ∈ frags 0 b q := by rw [h1]; simp
  have hsp := frags_spec 0 b q (hs q hq) (hhdr q hq).2 o ho
  obtain ⟨l, hl, hol⟩ := List.mem_flatten.1 (show o ∈ bundles.flatten by
    rw [hflat]; exact List.mem_flatMap.2 ⟨q, hq, ho⟩)
  refine ⟨l, hl, o, hol, ho, hsp.2.1, ?_, h2, (hsp.2.2.2.2.2.2.2 h2).1⟩
  rcases hsp.2.2.2.2.1 with h | h
  · exact absurd h h2
  · exact h

/-- The entry an order belongs to. -/
theorem order_entry (j : Job cfg.env cfg.fs base root S g b mx c bundles) {l : List Order} (hl : l ∈ bundles)
    {o : Order} (ho : o ∈ l) : ∃ q ∈ (setOffsets (orderFiles S c)).all, o ∈ frags 0 b q ∧ o.rel = q.ref.ent.rel ∧
      o.off + o.size ≤ q.ref.ent.size ∧ o.pos + o.hdr = q.slice.offArch + q.ref.hdr + o.off ∧
      (o.hdr = 0 ∨ o.hdr = q.ref.hdr) ∧ (o.hdr ≠ 0 → o.pos = q.slice.offArch) := by
  obtain ⟨hok, _, hr⟩ := j.setup
  obtain ⟨hflat, hs, hhdr, hnd, hcont, _⟩ := plan_flat hok j.planned
  have hof : o ∈ bundles.flatten := List.mem_flatten.2 ⟨_, hl, ho⟩
  rw [hflat] at hof
  obtain ⟨q, hq, hqf⟩ := List.mem_flatMap.1 hof
  have hsp := frags_spec 0 b q (hs q hq) (hhdr q hq).2 o hqf
  exact ⟨q, hq, hqf, hsp.2.1, hsp.2.2.2.2.2.1, hsp.2.2.2.2.2.2.1, hsp.2.2.2.2.1,
    fun h => (hsp.2.2.2.2.2.2.2 h).1⟩

/-- The end of the archive is that of the last bundle. -/
theorem last_end (j : Job cfg.env cfg.fs base root S g b mx c bundles) {l : List Order}
    (hll : bundles.getLast? = some l) : up512 (endOf l) = endPos 0 (setOffsets (orderFiles S c)).all := by
  obtain ⟨_, _, hr⟩ := j.setup
  obtain ⟨pre, hpre⟩ := List.getLast?_eq_some_iff.1 hll
  have hch := hr.chain
  rw [hpre, List.flatten_append, chainTo_append] at hch
  obtain ⟨w, _, c2⟩ := hch
  simp only [List.flatten_cons, List.flatten_nil, List.append_nil] at c2
  exact (chainTo_end c2 (hr.nonempty l (List.mem_of_getLast? hll))).symm

theorem contiguous_from : ∀ (ps : List Placed) (w : Nat), Contiguous w ps → ∀ q ∈ ps, w ≤ q.slice.offArch
  | [], _, _, q, hq => by cases hq
  | p :: ps, w, h, q, hq => by
    simp only [Contiguous] at h
    rcases List.mem_cons.1 hq with rfl | hq
    · omega
    · have := contiguous_from ps _ h.2 q hq
      have := le_up512 (w + p.ref.hdr + p.ref.ent.size)
      omega

/-- The entries before the first missing header, and those from there on. -/
theorem first_split (j : Job cfg.env cfg.fs base root S g b mx c bundles) {P : Nat} (hP : FirstMissing bundles tr P) :
    ∃ p1 p2, (setOffsets (orderFiles S c)).all = p1 ++ p2 ∧ endPos 0 p1 = P ∧
      (∀ q ∈ p1, q.slice.offArch < P) ∧ (∀ q ∈ p2, P ≤ q.slice.offArch) ∧
      (∀ q ∈ p1, ∃ l ∈ bundles, DoneBundle tr l ∧ startOf l ≤ q.slice.offArch ∧
        q.slice.offArch + q.ref.hdr ≤ up512 (endOf l)) ∧
      (p2 = [] ∨ ∃ q p3, p2 = q :: p3 ∧ ∃ l ∈ bundles, ¬ DoneBundle tr l ∧ ∃ o ∈ l, o ∈ frags 0 b q ∧
        o.hdr = q.ref.hdr ∧ o.pos = P) := by
  obtain ⟨hok, _, hr⟩ := j.setup
  obtain ⟨hflat, hs, hhdr, hnd, hcont, _⟩ := plan_flat hok j.planned
  have key : ∀ p1 p2, (setOffsets (orderFiles S c)).all = p1 ++ p2 → endPos 0 p1 = P →
      (∀ q ∈ p1, q.slice.offArch < P) ∧ (∀ q ∈ p2, P ≤ q.slice.offArch) ∧
      (∀ q ∈ p1, ∃ l ∈ bundles, DoneBundle tr l ∧ startOf l ≤ q.slice.offArch ∧
        q.slice.offArch + q.ref.hdr ≤ up512 (endOf l)) := by
    intro p1 p2 e1 e2
    have hc := hcont
    rw [e1] at hc
    obtain ⟨hc1, hc2⟩ := contiguous_parts p1 0 p2 hc
    have hlt : ∀ q ∈ p1, q.slice.offArch < P := by
      intro q hq
      have := (endPos_le p1 0).2 hc1 q hq
      have := (hhdr q (by rw [e1]; simp [hq])).1
      omega
    refine ⟨hlt, fun q hq => by rw [← e2]; exact contiguous_from p2 _ hc2 q hq, ?_⟩
    intro q hq
    obtain ⟨l, hl, o, ho, _, _, h3, h4, h5⟩ := head_order j (q := q) (by rw [e1]; simp [hq])
    have hd := hP.1 l hl o ho h4 (by have := hlt q hq; omega)
    have := (job_spans j).2 l hl o ho
    exact ⟨l, hl, hd, by omega, by omega⟩
  rcases hP.2 with ⟨l, hl, o, ho, h1, h2, h3⟩ | ⟨l, hl, h1⟩
  · obtain ⟨q, hq, hqf, hrel, hoff, hpos, hh, hp⟩ := order_entry j hl ho
    obtain ⟨p1, p3, e1⟩ := List.append_of_mem hq
    have hc := hcont
    rw [e1] at hc
    obtain ⟨hc1, hc2⟩ := contiguous_parts p1 0 _ hc
    simp only [Contiguous] at hc2
    have e2 : endPos 0 p1 = P := by rw [← hc2.1, ← hp h1, h2]
    obtain ⟨k1, k2, k3⟩ := key p1 (q :: p3) e1 e2
    refine ⟨p1, q :: p3, e1, e2, k1, k2, k3, Or.inr ⟨q, p3, rfl, l, hl, h3, o, ho, hqf, ?_, h2⟩⟩
    rcases hh with hh | hh
    · exact absurd hh h1
    · exact hh
  · have e2 : endPos 0 (setOffsets (orderFiles S c)).all = P := by rw [h1, last_end j hl]
    obtain ⟨k1, k2, k3⟩ := key _ [] (by simp) e2
    exact ⟨_, [], by simp, e2, k1, k2, k3, Or.inl rfl⟩

theorem member_size {env : Env} {p : List Bytes} {n : FNode} {m : Member} (h : memberOf env base p n = some m) :
    m.size = (contentOf n).length := by
  revert h
  cases n <;> unfold memberOf <;> simp only [contentOf] <;> intro hmm
  all_goals first
    | (cases hmm; done)
    | (split at hmm
       · rw [← Option.some.inj hmm]
       · cases hmm)

/-- The data of an entry as they are in a file. -/
def dataIn (f : Bytes) (q : Placed) : Bytes := (f.drop (q.slice.offArch + q.ref.hdr)).take q.ref.ent.size

/-- A file with the headers of the first entries, and long enough, begins with these members, with
whatever data are there. -/
theorem reads_heads (j : Job cfg.env cfg.fs base root S g b mx c bundles)
    {path : Placed → List Bytes} {node : Placed → FNode} {H : Placed → Bytes} {m : Placed → Member}
    (hE : ∀ q ∈ (setOffsets (orderFiles S c)).all, Entry cfg.env cfg.fs base root q (path q) (node q) (H q) (m q))
    {p1 p2 : List Placed} (e1 : (setOffsets (orderFiles S c)).all = p1 ++ p2) (hlen : endPos 0 p1 ≤ f.length)
    (hH : ∀ q ∈ p1, Holds f q.slice.offArch (H q)) :
    readArchive f = (readArchive (f.drop (endPos 0 p1))).map
      (p1.map (fun q => { m q with data := dataIn f q }) ++ ·) := by
  obtain ⟨hok, _, hr⟩ := j.setup
  obtain ⟨hflat, hs, hhdr, hnd, hcont, _⟩ := plan_flat hok j.planned
  have hc := hcont
  rw [e1] at hc
  obtain ⟨hc1, _⟩ := contiguous_parts p1 0 p2 hc
  have hdl : ∀ q ∈ p1, (dataIn f q).length = q.ref.ent.size := by
    intro q hq
    have := (endPos_le p1 0).2 hc1 q hq
    unfold dataIn
    rw [List.length_take, List.length_drop]; omega
  have := readArchive_placed_then (env := cfg.env) f (fun q => { m q with data := dataIn f q }) H (dataIn f) p1 0
    hc1 hlen (by omega) (by
      intro q hq
      have he := hE q (by rw [e1]; simp [hq])
      have hgl' := hdl q hq
      have hmod : (H q).length % 512 = 0 := by
        obtain ⟨e, _, h⟩ := he.made
        exact (C01_header_length _ _ _ h).2.1
      refine ⟨he.hlen, by rw [hgl'], ?_, ?_, ?_⟩
      · rw [holds_iff]
        intro i hi
        have hh := (holds_iff _ _ _).1 (hH q hq)
        rw [List.length_append, he.hlen, hgl'] at hi
        by_cases hih : i < q.ref.hdr
        · rw [hh i (by rw [he.hlen]; exact hih), List.getElem?_append_left (by rw [he.hlen]; exact hih)]
        · rw [List.getElem?_append_right (by rw [he.hlen]; omega), he.hlen]
          unfold dataIn
          rw [List.getElem?_take, if_pos (by omega), List.getElem?_drop]
          congr 1; omega
      · obtain ⟨e, _, h⟩ := he.made; exact ⟨e, h⟩
      · intro padding rest hp
        refine readMember_swap (D := contentOf (node q)) hmod ?_ ?_ (by rw [hgl', he.dlen]) padding rest hp
        · exact member_size he.memb
        · intro pd rs hpd
          rw [he.dlen] at hpd
          exact he.reads pd rs hpd)
  rwa [List.drop_zero] at this

/-- What is in the file where the headers before the first missing one belong. -/
theorem heads_there (j : Job cfg.env cfg.fs base root S g b mx c bundles)
    {path : Placed → List Bytes} {node : Placed → FNode} {H : Placed → Bytes} {m : Placed → Member}
    (hE : ∀ q ∈ (setOffsets (orderFiles S c)).all, Entry cfg.env cfg.fs base root q (path q) (node q) (H q) (m q))
    {A : Bytes} (hA : ∀ q ∈ (setOffsets (orderFiles S c)).all, Holds A q.slice.offArch (H q ++ contentOf (node q)))
    (h3 : ∀ l ∈ bundles, DoneBundle tr l → ∀ i, startOf l ≤ i → i < up512 (endOf l) → f[i]? = A[i]?)
    {q : Placed} (hq : q ∈ (setOffsets (orderFiles S c)).all)
    (hd : ∃ l ∈ bundles, DoneBundle tr l ∧ startOf l ≤ q.slice.offArch ∧
      q.slice.offArch + q.ref.hdr ≤ up512 (endOf l)) : Holds f q.slice.offArch (H q) := by
  obtain ⟨l, hl, hdn, h1, h2⟩ := hd
  rw [holds_iff]
  intro i hi
  have he := (hE q hq).hlen
  have hh := hA q hq
  rw [holds_iff] at hh
  rw [h3 l hl hdn _ (by omega) (by omega), hh i (by rw [List.length_append]; omega),
    List.getElem?_append_left hi]

/-- **C65** At every moment there is a first missing header (or none is missing). -/
theorem C65_first_missing (j : Job cfg.env cfg.fs base root S g b mx c bundles) (tr : List Ev) :
    ∃ P, FirstMissing bundles tr P := by
  classical
  obtain ⟨_, _, hr⟩ := j.setup
  by_cases hex : ∃ P, ∃ l ∈ bundles, ∃ o ∈ l, o.hdr ≠ 0 ∧ o.pos = P ∧ ¬ DoneBundle tr l
  · refine ⟨Nat.find hex, ?_, Or.inl (Nat.find_spec hex)⟩
    intro l hl o ho h1 h2
    by_contra hd
    exact Nat.find_min hex h2 ⟨l, hl, o, ho, h1, rfl, hd⟩
  · obtain ⟨l, hll⟩ : ∃ l, bundles.getLast? = some l := ⟨_, List.getLast?_eq_some_getLast hr.ne⟩
    refine ⟨_, ?_, Or.inr ⟨l, hll, rfl⟩⟩
    intro l hl o ho h1 _
    by_contra hd
    exact hex ⟨_, l, hl, o, ho, h1, rfl, hd⟩

/-- Everything about reading the file at a moment. -/
theorem read_at_moment (j : Job cfg.env cfg.fs base root S g b mx c bundles) (hl : Launchable cfg b archive)
    (h : CreateRun cfg eager b archive base (bundles.map printBundle) none tr s) (hf : s.file = some f)
    {path : Placed → List Bytes} {node : Placed → FNode} {H : Placed → Bytes} {m : Placed → Member}
    (hE : ∀ q ∈ (setOffsets (orderFiles S c)).all, Entry cfg.env cfg.fs base root q (path q) (node q) (H q) (m q))
    {P : Nat} (hP : FirstMissing bundles tr P) :
    ((P ≤ f.length ∧ ∀ l ∈ bundles, DoneBundle tr l → startOf l ≠ P + 512) ∧
      ∃ p1 p2, (setOffsets (orderFiles S c)).all = p1 ++ p2 ∧ endPos 0 p1 = P ∧
        (∀ q ∈ p1, q.slice.offArch < P) ∧ (∀ q ∈ p2, P ≤ q.slice.offArch) ∧
        readArchive f = some (p1.map (fun q => { m q with data := dataIn f q }))) ∨
    (¬ (P ≤ f.length ∧ ∀ l ∈ bundles, DoneBundle tr l → startOf l ≠ P + 512) ∧ readArchive f = none) := by
  obtain ⟨hok, _, hr⟩ := j.setup
  obtain ⟨hflat, hs, hhdr, hnd, hcont, st, _, _, hb, _⟩ := plan_flat hok j.planned
  obtain ⟨zs, ws, h1, h2, h3, h4, h5, h6⟩ := moment j hl h hf
  obtain ⟨r1, r2, _⟩ := job_reads j hE zs h1 ws h2
  obtain ⟨hsp, hord⟩ := job_spans j
  obtain ⟨k1, _, _⟩ := chainTo_bundles bundles 0 _ hr.nonempty (by omega) hr.chain
  obtain ⟨p1, p2, e1, e2, e3, e4, e5, e6⟩ := first_split j hP
  have hH : ∀ q ∈ p1, Holds f q.slice.offArch (H q) := fun q hq =>
    heads_there j hE r2 h3 (by rw [e1]; simp [hq]) (e5 q hq)
  have hc := hcont
  rw [e1] at hc
  obtain ⟨hc1, hc2⟩ := contiguous_parts p1 0 p2 hc
  rw [e2] at hc2
  have hflen : f.length % 512 = 0 := by
    rcases h6 with h6 | ⟨l, _, _, h6⟩
    · rw [h6]
    · rw [h6]; exact up512_mod _
  have hPm : P % 512 = 0 := by rw [← e2]; exact endPos_mod p1 0 (by omega)
  by_cases hle : P ≤ f.length
  · have hread := reads_heads j hE e1 (by omega) hH
    rw [e2] at hread
    by_cases heq : f.length = P
    · left
      refine ⟨⟨hle, ?_⟩, p1, p2, e1, e2, e3, e4, ?_⟩
      · intro l hlb hd hst
        have := h5 l hlb hd
        obtain ⟨o, os, ho⟩ := List.exists_cons_of_ne_nil (hr.nonempty l hlb)
        have := hord l hlb o (by rw [ho]; simp)
        omega
      · rw [hread, List.drop_of_length_le (by omega), readArchive]
        simp
    · -- something is written behind
      obtain ⟨le, hleb, hled, hlee⟩ : ∃ l ∈ bundles, DoneBundle tr l ∧ f.length = up512 (endOf l) := by
        rcases h6 with h6 | h6
        · omega
        · exact h6
      rcases e6 with rfl | ⟨q, p3, rfl, l0, hl0, hd0, o, ho, hof, hoh, hop⟩
      · exfalso
        have := (k1 le hleb).2.2
        rw [← hlee, e1, List.append_nil, e2] at this
        omega
      have hq : q ∈ (setOffsets (orderFiles S c)).all := by rw [e1]; simp
      have ho0 := hord l0 hl0 o ho
      have hh512 : 512 ≤ q.ref.hdr := by
        obtain ⟨te, _, hmade⟩ := (hE q hq).made
        have := C01_header_length _ _ _ hmade
        have := (hE q hq).hlen
        omega
      -- bundles carried out begin behind the missing one, or end before it
      have hsep : ∀ l ∈ bundles, DoneBundle tr l →
          up512 (endOf l) ≤ startOf l0 ∨ up512 (endOf l0) ≤ startOf l := by
        intro l hlb hd
        by_contra hno
        have hne : l ≠ l0 := fun e => hd0 (e ▸ hd)
        obtain ⟨x, xs, hx⟩ := List.exists_cons_of_ne_nil (hr.nonempty l hlb)
        have := hord l hlb x (by rw [hx]; simp)
        by_cases hcmp : startOf l ≤ startOf l0
        · exact hne (same_bundle j hlb hl0 (i := startOf l0) ⟨hcmp, by omega⟩ ⟨by omega, by omega⟩)
        · exact hne (same_bundle j hlb hl0 (i := startOf l) ⟨by omega, by omega⟩ ⟨by omega, by omega⟩)
      have hu0 := up512_mod (endOf l0)
      have hlong : P + 1024 ≤ f.length := by
        obtain ⟨x, xs, hx⟩ := List.exists_cons_of_ne_nil (hr.nonempty le hleb)
        have := hord le hleb x (by rw [hx]; simp)
        rcases hsep le hleb hled with h' | h' <;> omega
      have hz0 : ∀ i, P ≤ i → i < up512 (endOf l0) → i < f.length → f[i]? = some 0 := by
        intro i hi1 hi2 hi3
        rcases h4 i (fun l hlb hd hx => by rcases hsep l hlb hd with h' | h' <;> omega) with h' | h'
        · exact h'
        · have := List.getElem?_eq_none_iff.1 h'; omega
      by_cases hst : ∀ l ∈ bundles, DoneBundle tr l → startOf l ≠ P + 512
      · left
        refine ⟨⟨hle, hst⟩, p1, q :: p3, e1, e2, e3, e4, ?_⟩
        rw [hread, readArchive, if_pos]
        · simp
        · right
          apply List.ext_getElem?
          intro i
          unfold zeros
          rw [List.getElem?_take, List.getElem?_replicate]
          by_cases hi : i < 1024
          · rw [if_pos hi, if_pos hi, List.getElem?_drop]
            rcases h4 (P + i) (fun l hlb hd hx => by
              have := hst l hlb hd
              have hm := (k1 l hlb).2.1
              rcases hsep l hlb hd with h' | h' <;> omega) with h' | h'
            · exact h'
            · have := List.getElem?_eq_none_iff.1 h'; omega
          · rw [if_neg hi, if_neg hi]
      · right
        refine ⟨fun hx => hst hx.2, ?_⟩
        obtain ⟨l, hlb, hd, hsl⟩ : ∃ l ∈ bundles, DoneBundle tr l ∧ startOf l = P + 512 := by
          by_contra hno
          exact hst fun l hlb hd e => hno ⟨l, hlb, hd, e⟩
        have hend0 : up512 (endOf l0) = P + 512 := by
          rcases hsep l hlb hd with h' | h'
          · have := le_up512 (endOf l)
            obtain ⟨x, xs, hx⟩ := List.exists_cons_of_ne_nil (hr.nonempty l hlb)
            have := hord l hlb x (by rw [hx]; simp)
            omega
          · omega
        -- the missing member is a header of one block, the next one is there
        have hqs : q.ref.hdr = 512 ∧ q.ref.ent.size = 0 := by
          refine ⟨by omega, ?_⟩
          obtain ⟨x, xs, hx, hx1, hx2⟩ := frags_cons 0 b q (hs q hq).1 (hhdr q hq).1
          have hox : o = x := by
            rw [hx] at hof
            rcases List.mem_cons.1 hof with h' | h'
            · exact h'
            · exact absurd (hx2 o h') (by omega)
          subst hox
          have hosz : o.size = 0 := by omega
          have hs' := hs q hq
          unfold frags at hx
          split at hx
          · have := (List.cons.inj hx).1
            rw [← this] at hosz
            simp only [orderOf, orderRaw] at hosz
            omega
          · have := (List.cons.inj hx).1
            rw [← this] at hosz
            simp only [orderRaw, usub64_of_le (hhdr q hq).2] at hosz
            omega
        simp only [Contiguous] at hc2
        have hnext : up512 (P + q.ref.hdr + q.ref.ent.size) = P + 512 := by
          rw [hqs.1, hqs.2]; unfold up512; omega
        rw [hnext] at hc2
        cases p3 with
        | nil =>
          exfalso
          have hk := (k1 l hlb).2.2
          have hall : endPos 0 (setOffsets (orderFiles S c)).all = P + 512 := by
            have hap : ∀ (a a' : List Placed) (w : Nat), endPos w (a ++ a') = endPos (endPos w a) a' := by
              intro a
              induction a with
              | nil => intro a' w; rfl
              | cons x a ih => intro a' w; exact ih a' _
            rw [e1, hap, e2]
            simp only [endPos]; exact hnext
          obtain ⟨x, xs, hx⟩ := List.exists_cons_of_ne_nil (hr.nonempty l hlb)
          have := hord l hlb x (by rw [hx]; simp)
          omega
        | cons q2 p4 =>
          simp only [Contiguous] at hc2
          have hoff2 := hc2.2.1
          have hq2 : q2 ∈ (setOffsets (orderFiles S c)).all := by rw [e1]; simp
          obtain ⟨l2, hl2, o2, ho2, _, _, g3, g4, g5⟩ := head_order j hq2
          have hsp2 := hord l2 hl2 o2 ho2
          obtain ⟨y, ys, hy⟩ := List.exists_cons_of_ne_nil (hr.nonempty l hlb)
          have hyo := hord l hlb y (by rw [hy]; simp)
          have hl2e : l2 = l := same_bundle j hl2 hlb (i := P + 512) ⟨by omega, by
            have := le_up512 (endOf l2); omega⟩ ⟨by omega, by omega⟩
          subst hl2e
          have hH2 := heads_there j hE r2 h3 hq2 ⟨l2, hl2, hd, by omega, by omega⟩
          rw [hread, readArchive, if_neg, readMember, show (f.drop P).take 512 = zeros 512 from ?_, parse_zero_block]
          · rfl
          · apply List.ext_getElem?
            intro i
            unfold zeros
            rw [List.getElem?_take, List.getElem?_replicate]
            by_cases hi : i < 512
            · rw [if_pos hi, if_pos hi, List.getElem?_drop]
              exact hz0 _ (by omega) (by omega) (by omega)
            · rw [if_neg hi, if_neg hi]
          · rintro (h0 | h0)
            · have := congrArg List.length h0
              rw [List.length_drop, List.length_nil] at this
              omega
            · obtain ⟨te, _, hmade⟩ := (hE q2 hq2).made
              have hHl := C01_header_length _ _ _ hmade
              refine not_zero_first hmade ?_
              have hh := (holds_iff _ _ _).1 hH2
              apply List.ext_getElem?
              intro i
              unfold zeros
              rw [List.getElem?_take, List.getElem?_replicate]
              by_cases hi : i < 512
              · rw [if_pos hi, if_pos hi, ← hh i (by omega), hoff2]
                have := congrArg (fun x : Bytes => x[512 + i]?) h0
                simp only [zeros] at this
                rw [List.getElem?_take, if_pos (by omega), List.getElem?_drop, List.getElem?_replicate,
                  if_pos (by omega)] at this
                rw [← this, Nat.add_assoc]
              · rw [if_neg hi, if_neg hi]
  · right
    refine ⟨fun hx => hle hx.1, ?_⟩
    rcases List.eq_nil_or_concat p1 with rfl | ⟨p0, q, rfl⟩
    · simp only [endPos] at e2; omega
    rw [List.concat_eq_append] at *
    have hq1 : q ∈ p0 ++ [q] := by simp
    have hq : q ∈ (setOffsets (orderFiles S c)).all := by rw [e1]; simp
    obtain ⟨l, hlb, hd, hl1, hl2⟩ := e5 q hq1
    have hge := h5 l hlb hd
    obtain ⟨hc0, hcq⟩ := contiguous_parts p0 0 [q] hc1
    simp only [Contiguous] at hcq
    have hend : P = up512 (endPos 0 p0 + q.ref.hdr + q.ref.ent.size) := by
      have hap : ∀ (a a' : List Placed) (w : Nat), endPos w (a ++ a') = endPos (endPos w a) a' := by
        intro a
        induction a with
        | nil => intro a' w; rfl
        | cons x a ih => intro a' w; exact ih a' _
      rw [← e2, hap]; rfl
    have he := hE q hq
    have hcut : f.length < q.slice.offArch + q.ref.hdr + q.ref.ent.size := by
      rw [hcq.1]
      unfold up512 at hend
      omega
    have hread := reads_heads (p1 := p0) (p2 := q :: p2) j hE (by rw [e1]; simp) (by omega) (fun q' hq' => hH q' (by simp [hq']))
    rw [← hcq.1] at hread
    obtain ⟨te, _, hmade⟩ := he.made
    have hHl := C01_header_length _ _ _ hmade
    have hsplit : f.drop q.slice.offArch = H q ++ f.drop (q.slice.offArch + q.ref.hdr) := by
      have hh := hH q hq1
      unfold Holds at hh
      conv => lhs; rw [← List.take_append_drop (H q).length (f.drop q.slice.offArch)]
      rw [hh, List.drop_drop, he.hlen]
    let D : Bytes := f.drop (q.slice.offArch + q.ref.hdr) ++
      zeros (q.ref.ent.size - (f.length - (q.slice.offArch + q.ref.hdr)))
    have hDl : D.length = q.ref.ent.size := by
      simp only [D, List.length_append, List.length_drop, zeros, List.length_replicate]
      omega
    have hnone : readMember (f.drop q.slice.offArch) = none := by
      refine readMember_cut (H := H q) (D := D) (m := { m q with data := D }) hHl.2.1 ?_ ?_ _ ?_ ?_
      · show (m q).size = _
        rw [member_size he.memb, he.dlen, hDl]
      · intro padding rest hp
        refine readMember_swap (D := contentOf (node q)) hHl.2.1 (member_size he.memb) ?_ (by rw [hDl, he.dlen]) padding rest hp
        intro pd rs hpd
        rw [he.dlen] at hpd
        exact he.reads pd rs hpd
      · rw [hsplit]
        exact ⟨zeros (q.ref.ent.size - (f.length - (q.slice.offArch + q.ref.hdr))), by simp only [D, List.append_assoc]⟩
      · rw [List.length_drop, hDl, he.hlen]; omega
    rw [hread, readArchive, if_neg, hnone]
    · rfl
    · rintro (h0 | h0)
      · have := congrArg List.length h0
        rw [List.length_drop, List.length_nil] at this
        have := he.hlen
        omega
      · rw [hsplit] at h0
        exact not_zero_block hmade _ h0

/-- **C65** Exactly when a tar reader takes what an interrupted run left for a complete archive, for any
number of workers and any moment at which the archive exists: let `P` be where the first member begins
whose header has not been written (the end of the archive, if all have been).  The reader reports no
error exactly if the file reaches up to `P` and no bundle has been carried out that begins one block
behind `P`. -/
theorem C65_reads_iff (j : Job cfg.env cfg.fs base root S g b mx c bundles) (hl : Launchable cfg b archive)
    (h : CreateRun cfg eager b archive base (bundles.map printBundle) none tr s) (hf : s.file = some f)
    {P : Nat} (hP : FirstMissing bundles tr P) :
    (∃ ms, readArchive f = some ms) ↔
      P ≤ f.length ∧ ∀ l ∈ bundles, DoneBundle tr l → startOf l ≠ P + 512 := by
  obtain ⟨_, ⟨path, node, H, m, hE⟩, _⟩ := j.setup
  rcases read_at_moment j hl h hf hE hP with ⟨h1, p1, p2, _, _, _, _, h2⟩ | ⟨h1, h2⟩
  · exact ⟨fun _ => h1, fun _ => ⟨_, h2⟩⟩
  · refine ⟨?_, fun hx => absurd hx h1⟩
    rintro ⟨ms, hms⟩
    rw [h2] at hms; cases hms

/-- **C65** What the reader finds then: exactly the objects whose headers are planned before `P`, as in a
finished archive, except that the data of files are zeros where bundles have not been carried out. -/
theorem C65_read_as (j : Job cfg.env cfg.fs base root S g b mx c bundles) (hl : Launchable cfg b archive)
    (h : CreateRun cfg eager b archive base (bundles.map printBundle) none tr s) (hf : s.file = some f)
    {P : Nat} (hP : FirstMissing bundles tr P) {ms : List Member} (hms : readArchive f = some ms) :
    ∃ (found missing : List (List Bytes × FNode)) (got : List Bytes → Bytes),
      ((found ++ missing).map Prod.fst).Nodup ∧
      (∀ p n, (p, n) ∈ found ++ missing ↔ Seen root p n ∧ describe p n ≠ none) ∧
      (∀ l ∈ bundles, ∀ o ∈ l, o.hdr ≠ 0 →
        ((∃ x ∈ found, pathText x.1 = o.rel) ↔ o.pos < P) ∧ ((∃ x ∈ missing, pathText x.1 = o.rel) ↔ P ≤ o.pos)) ∧
      ms.map some = found.map (fun x => (memberOf cfg.env base x.1 x.2).map ({ · with data := got x.1 })) ∧
      (∀ x ∈ found, (got x.1).length = (contentOf x.2).length) ∧
      (∀ l ∈ bundles, ∀ o ∈ l, ∀ x ∈ found, pathText x.1 = o.rel → ∀ i, o.off ≤ i → i < o.off + o.size →
        (DoneBundle tr l → (got x.1)[i]? = (contentOf x.2)[i]?) ∧
        (¬ DoneBundle tr l → (got x.1)[i]? = some 0)) := by
  obtain ⟨hok, ⟨path, node, H, m, hE⟩, hr⟩ := j.setup
  obtain ⟨hflat, hs, hhdr, hnd, hcont, _⟩ := plan_flat hok j.planned
  obtain ⟨zs, ws, h1, h2, h3, h4, h5, h6⟩ := moment j hl h hf
  obtain ⟨r1, r2, _⟩ := job_reads j hE zs h1 ws h2
  rcases read_at_moment j hl h hf hE hP with ⟨⟨hlen, _⟩, p1, p2, e1, e2, e3, e4, hread⟩ | ⟨_, hx⟩
  swap
  · rw [hx] at hms; cases hms
  rw [hread] at hms
  obtain rfl := Option.some.inj hms
  obtain ⟨o1, o2⟩ := entries_objects j hE
  have hrel : ∀ q ∈ (setOffsets (orderFiles S c)).all, q.ref.ent.rel = pathText (path q) := by
    intro q hq
    have hd := (hE q hq).desc
    cases hn : node q <;> rw [hn] at hd <;> simp [describe] at hd <;> rw [← hd]
  have hc := hcont
  rw [e1] at hc
  obtain ⟨hc1, _⟩ := contiguous_parts p1 0 p2 hc
  have hin1 : ∀ q ∈ p1, q ∈ (setOffsets (orderFiles S c)).all := fun q hq => by rw [e1]; simp [hq]
  have hin2 : ∀ q ∈ p2, q ∈ (setOffsets (orderFiles S c)).all := fun q hq => by rw [e1]; simp [hq]
  have hdl : ∀ q ∈ p1, (dataIn f q).length = q.ref.ent.size := by
    intro q hq
    have := (endPos_le p1 0).2 hc1 q hq
    unfold dataIn
    rw [List.length_take, List.length_drop]; omega
  -- the data found, by path
  obtain ⟨got, hgot⟩ : ∃ got : List Bytes → Bytes, ∀ q ∈ (setOffsets (orderFiles S c)).all, got (path q) = dataIn f q := by
    refine ⟨fun p => match (setOffsets (orderFiles S c)).all.find? (fun q => path q = p) with
      | some q => dataIn f q
      | none => [], ?_⟩
    intro q hq
    rw [List.map_map] at o1
    cases hfd : (setOffsets (orderFiles S c)).all.find? (fun q' => path q' = path q) with
    | none => exact absurd (List.find?_eq_none.1 hfd q hq) (by simp)
    | some q' =>
      have hm := List.mem_of_find?_eq_some hfd
      have hp := List.find?_some hfd
      simp only [decide_eq_true_eq] at hp
      have : q' = q := List.inj_on_of_nodup_map o1 hm hq hp
      rw [← this]
      rw [← this] at hfd
      simp only [hfd]
  -- the entry of an order is the only one with its name
  have hsame : ∀ q ∈ (setOffsets (orderFiles S c)).all, ∀ q' ∈ (setOffsets (orderFiles S c)).all,
      q.ref.ent.rel = q'.ref.ent.rel → q = q' := fun q hq q' hq' he =>
    List.inj_on_of_nodup_map hnd hq hq' he
  refine ⟨p1.map (fun q => (path q, node q)), p2.map (fun q => (path q, node q)), got, ?_, ?_, ?_, ?_, ?_, ?_⟩
  · rw [← List.map_append, ← e1]; exact o1
  · rw [← List.map_append, ← e1]; exact o2
  · intro l hlb o ho hoh
    obtain ⟨q, hq, _, q1, _, _, _, q2⟩ := order_entry j hlb ho
    have q2 := q2 hoh
    have hq' := hq
    rw [e1] at hq'
    have hin : ∀ ps : List Placed, (∀ q ∈ ps, q ∈ (setOffsets (orderFiles S c)).all) →
        ((∃ x ∈ ps.map (fun q => (path q, node q)), pathText x.1 = o.rel) ↔ q ∈ ps) := by
      intro ps hps
      constructor
      · rintro ⟨x, hx, he⟩
        obtain ⟨q', hm', rfl⟩ := List.mem_map.1 hx
        have : q' = q := hsame _ (hps q' hm') _ hq (by rw [hrel _ (hps q' hm'), ← q1]; exact he)
        rwa [← this]
      · intro hm
        exact ⟨_, List.mem_map.2 ⟨q, hm, rfl⟩, by rw [q1]; exact (hrel q hq).symm⟩
    rw [hin p1 hin1, hin p2 hin2, q2]
    refine ⟨⟨e3 q, fun hlt => ?_⟩, ⟨e4 q, fun hge => ?_⟩⟩
    · rcases List.mem_append.1 hq' with hm | hm
      · exact hm
      · have := e4 q hm; omega
    · rcases List.mem_append.1 hq' with hm | hm
      · have := e3 q hm; omega
      · exact hm
  · rw [List.map_map, List.map_map]
    apply List.map_congr_left
    intro q hq
    simp only [Function.comp]
    rw [(hE q (hin1 q hq)).memb, hgot q (hin1 q hq)]; rfl
  · intro x hx
    obtain ⟨q, hq, rfl⟩ := List.mem_map.1 hx
    simp only
    rw [hgot q (hin1 q hq), hdl q hq, (hE q (hin1 q hq)).dlen]
  · intro l hlb o ho x hx hxo i hi1 hi2
    obtain ⟨q', hq', rfl⟩ := List.mem_map.1 hx
    obtain ⟨q, hq, _, q1, qsz, qpos, qh, _⟩ := order_entry j hlb ho
    simp only at hxo ⊢
    have hqq : q' = q := hsame _ (hin1 q' hq') _ hq (by rw [hrel _ (hin1 q' hq'), ← q1]; exact hxo)
    subst hqq
    have hsp := (job_spans j).2 l hlb o ho
    have hle := (endPos_le p1 0).2 hc1 q' hq'
    have hgi : (got (path q'))[i]? = f[q'.slice.offArch + q'.ref.hdr + i]? := by
      rw [hgot _ hq]
      unfold dataIn
      rw [List.getElem?_take, if_pos (by omega), List.getElem?_drop]
    have hpl : startOf l ≤ q'.slice.offArch + q'.ref.hdr + i ∧ q'.slice.offArch + q'.ref.hdr + i < up512 (endOf l) := by
      omega
    rw [hgi]
    constructor
    · intro hd
      have hh := (holds_iff _ _ _).1 (r2 q' hq)
      have hel := (hE q' hq).hlen
      have hed := (hE q' hq).dlen
      rw [h3 l hlb hd _ hpl.1 hpl.2, Nat.add_assoc, hh (q'.ref.hdr + i) (by rw [List.length_append]; omega),
        List.getElem?_append_right (by omega), hel]
      congr 1; omega
    · intro hd
      rcases h4 (q'.slice.offArch + q'.ref.hdr + i) (fun l' hlb' hd' hx => by
        exact hd ((same_bundle j hlb hlb' hpl hx) ▸ hd')) with h0 | h0
      · exact h0
      · have := List.getElem?_eq_none_iff.1 h0
        omega

end

/-! ### concrete runs -/

/-- Three ranks, a directory with one file that takes three buckets.  If only the first piece of the
file is missing, what is there reads as a complete archive of the directory alone, although the rest
of the file has been written; if only the directory is missing, it cannot be read. -/
example : (∃ tr s f ms, CreateRun ⟨3, demoEnv2, oneFileFs hugeData, true⟩ true 102400 [97] demoBase
      (hugeBundles.map printBundle) none tr s ∧ s.file = some f ∧ 512 + 1024 < f.length ∧
      FirstMissing hugeBundles tr 512 ∧ readArchive f = some ms ∧ ms.length = 1) ∧
    (∃ tr s f, CreateRun ⟨3, demoEnv2, oneFileFs hugeData, true⟩ true 102400 [97] demoBase
      (hugeBundles.map printBundle) none tr s ∧ s.file = some f ∧ FirstMissing hugeBundles tr 0 ∧
      readArchive f = none) := by
  let cfg : Cfg := ⟨3, demoEnv2, oneFileFs hugeData, true⟩
  have j : Job cfg.env cfg.fs demoBase (oneFile hugeData) demoSort2 (fun _ => 0) 102400 3 hugeC hugeBundles := huge_job
  have hl : Launchable cfg 102400 [97] := by constructor <;> decide
  constructor
  · have hmid : [(⟨0, [98], .reg, [], 101888, 512, 512, 0⟩ : Order)] ∈ hugeBundles := by decide
    obtain ⟨tr, s, f, h1, h2, h3⟩ := C65_any_one_missing j hl (by decide) rfl hmid
    have hP : FirstMissing hugeBundles tr 512 := by
      refine ⟨fun l hlb o ho _ hlt => (h3 l hlb).2 ?_, Or.inl ⟨_, hmid, _, List.mem_singleton.2 rfl, by decide, rfl,
        fun hd => (h3 _ hmid).1 hd rfl⟩⟩
      rintro rfl
      rw [List.mem_singleton.1 ho] at hlt
      exact absurd hlt (by decide)
    have hlast : [(⟨0, [98], .reg, [], 15712, 0, 205312, 204288⟩ : Order)] ∈ hugeBundles := by decide
    obtain ⟨_, _, _, _, _, _, k5, _⟩ := moment j hl h1 h2
    have hlen := k5 _ hlast ((h3 _ hlast).2 (by decide))
    rw [show up512 (endOf [(⟨0, [98], .reg, [], 15712, 0, 205312, 204288⟩ : Order)]) = 221184 by decide] at hlen
    obtain ⟨ms, hms⟩ := (C65_reads_iff j hl h1 h2 hP).2 ⟨by omega, fun l hlb _ => by
      have : ∀ l ∈ hugeBundles, startOf l ≠ 512 + 512 := by decide
      exact this l hlb⟩
    refine ⟨tr, s, f, ms, h1, h2, by omega, hP, hms, ?_⟩
    obtain ⟨found, missing, got, g1, g2, g3, g4, _, _⟩ := C65_read_as j hl h1 h2 hP hms
    have hfound : ∀ x, x ∈ found ↔ x = ([], oneFile hugeData) := by
      have hd0 := g3 [⟨0, [], .dir, [], 0, 512, 0, 0⟩] (by decide) _ (List.mem_singleton.2 rfl) (by decide)
      have hd1 := g3 _ hmid _ (List.mem_singleton.2 rfl) (by decide)
      rintro ⟨p, n⟩
      constructor
      · intro hx
        rcases oneFile_seen ((g2 p n).1 (by simp [hx])).1 with ⟨rfl, rfl⟩ | ⟨rfl, rfl⟩
        · rfl
        · exact absurd (hd1.1.1 ⟨_, hx, rfl⟩) (by decide)
      · intro he
        obtain ⟨⟨p', n'⟩, hx, hp⟩ := hd0.1.2 (by decide)
        rcases oneFile_seen ((g2 p' n').1 (by simp [hx])).1 with ⟨rfl, rfl⟩ | ⟨rfl, rfl⟩
        · rw [he]; exact hx
        · cases hp
    have hnd : found.Nodup := by
      rw [List.map_append, List.nodup_append] at g1
      exact g1.1.of_map
    have hperm : found.Perm [([], oneFile hugeData)] :=
      (List.perm_ext_iff_of_nodup hnd (List.nodup_singleton _)).2 (fun x => by rw [hfound, List.mem_singleton])
    have := congrArg List.length g4
    simp only [List.length_map] at this
    rw [this, hperm.length_eq]; rfl
  · have hdir : [(⟨0, [], .dir, [], 0, 512, 0, 0⟩ : Order)] ∈ hugeBundles := by decide
    obtain ⟨tr, s, f, h1, h2, h3⟩ := C65_any_one_missing j hl (by decide) rfl hdir
    have hP : FirstMissing hugeBundles tr 0 :=
      ⟨fun _ _ _ _ _ hlt => absurd hlt (Nat.not_lt_zero _), Or.inl ⟨_, hdir, _, List.mem_singleton.2 rfl, by decide, rfl,
        fun hd => (h3 _ hdir).1 hd rfl⟩⟩
    refine ⟨tr, s, f, h1, h2, hP, ?_⟩
    cases hr : readArchive f with
    | none => rfl
    | some ms =>
      have hmid : [(⟨0, [98], .reg, [], 101888, 512, 512, 0⟩ : Order)] ∈ hugeBundles := by decide
      exact absurd rfl (((C65_reads_iff j hl h1 h2 hP).1 ⟨ms, hr⟩).2 _ hmid ((h3 _ hmid).2 (by decide)))

end Parfu.Props
