/-
Lemmas: parfu 0.5.1 when the files have changed between the scan and the copying.
-/
import Verif.PropsLegacyBytes
import Verif.LegacyRunLemmas
import Verif.ChangeLemmas
set_option autoImplicit false

namespace Parfu
open SplitSpec Props MoveSpec TarSpec LegacyRunSpec ScanSpec LegacyScanSpec

/-- Header and data can be got for an entry, whatever they are. -/
structure NowOk (L : LegEnv) (e : Frag) : Prop where
  hdr : ∃ t, tarentryCtor L.fs.lstat e.rel 0 = .ok t ∧ makeTarHeader L.env t = .ok (hdrOf L e.rel)
  len : ((hdrOf L e.rel).length : Int) = e.hdr
  reg : e.kind = .reg → L.fs.read e.rel = some (contOf L e.rel)

theorem EntOk.nowOk {L : LegEnv} {e : Frag} {m : Member} (h : EntOk L e m) : NowOk L e :=
  ⟨h.hdr, h.len, fun hk => (h.reg hk).1⟩

/-- A laid-out list is ready for the ranks, whatever has become of the files. -/
theorem ready_now {L : LegEnv} {acc : Int} (hmin : 10000 ≤ acc) (hmax : acc ≤ 500000000) {es : List Frag} (hnow : ∀ e ∈ es, NowOk L e)
    (nul : Bytes) {gs : List (Frag × List Frag)} (hlay : Layout acc es gs) {call : List Nat}
    (hcl : rankCallList (outFrags gs) = .ok (some call)) (hck : checkCalls (outFrags gs) call = true) :
    Ready L acc ((outFrags gs).map (named nul)) call := by
  obtain ⟨hsame, hlaid, htight⟩ := hlay
  have hok : ∀ f ∈ outFrags gs, FragOk L f := by
    intro f hf
    rw [List.mem_flatMap] at hf
    obtain ⟨g, hg, hfg⟩ := hf
    obtain ⟨e, he, hs, _⟩ := forall2_mem_left hsame g hg
    have hem := hnow e he
    obtain ⟨hl, _, _⟩ := hlaid g hg
    obtain ⟨r1, r2, r3, r4, r5⟩ := hs
    obtain ⟨s1, s2, s3, s4, s5⟩ := hl.good.same f hfg
    refine ⟨by rw [s1, r1]; exact hem.hdr, by rw [s1, s5, r1, r5]; exact hem.len, ?_, ?_, ?_⟩
    · intro hk _
      rw [s1, r1]
      exact hem.reg (by rw [← r3, ← s3]; exact hk)
    · by_cases hsm : Small 512 acc g.1
      · obtain ⟨f', hf', q1, q2, q3, q4, q5⟩ := hl.good.small hsm
        rw [hf'] at hfg; simp at hfg; subst hfg; omega
      · exact covers_locO (hl.cov hsm) f hfg
    · by_cases hsm : Small 512 acc g.1
      · obtain ⟨f', hf', q1, q2, q3, q4, q5⟩ := hl.good.small hsm
        rw [hf'] at hfg; simp at hfg; subst hfg
        have hroom := room_ge (bl := 512) (by omega) g.1
        have hdl : g.1.size ≤ dataLen g.1 := by unfold dataLen; omega
        have := hl.pos
        unfold Small at hsm
        omega
      · obtain ⟨l1, l2, l3⟩ := hl.good.large hsm
        obtain ⟨m1, m2, m3⟩ := l3 f hfg
        have emul : (f.bucket + 1) * acc = f.bucket * acc + acc := by ring
        omega
  refine ⟨named_tight htight, ?_, by rw [named_rankCall]; exact hcl, ?_⟩
  · intro f hf
    simp only [List.mem_map] at hf
    obtain ⟨y, hy, rfl⟩ := hf
    obtain ⟨o1, o2, o3, o4, o5⟩ := hok y hy
    exact ⟨o1, o2, o3, o4, o5⟩
  · unfold checkCalls at hck ⊢
    rw [← hck]
    congr 1
    funext i
    cases call[i]? with
    | none => rfl
    | some c =>
      simp only [List.getElem?_map]
      cases (outFrags gs)[c]? with
      | none => rfl
      | some f => rfl

/-- What is written of bucket `k` in surroundings `L`. -/
def imageNow (L : LegEnv) (acc : Int) (fr : List Frag) (n k : Nat) : Bytes :=
  bucketImage (fun k => ownByte L acc (groupOf fr k) (endOfGroup fr k) k) (fun k => ownLen acc (endOfGroup fr k) k) n k

theorem frontWrites_total {L0 L : LegEnv} {bl acc : Nat} {cat : Bytes} {front0 : List WriteReq}
    (h : frontWrites L0 bl acc cat = .ok front0) : ∃ front, frontWrites L bl acc cat = .ok front := by
  unfold frontWrites at h ⊢
  split at h
  · cases h
  · split at h
    · cases h
    · rename_i hh
      rw [if_neg hh]
      exact ⟨_, rfl⟩

/-- What a run that would have succeeded on the files as they were has done to the files as they are. -/
structure NowRun (L : LegEnv) (nul pad : Bytes) (acc : Int) (es : List Frag) (n : Nat) (front : List WriteReq)
    (wss : List (List WriteReq)) (cat : Bytes) (gs : List (Frag × List Frag)) (r : LPos) (call : List Nat) : Prop where
  run : legacyRun L nul 512 acc pad es n = .ok (some (front, wss))
  catalog : listToBuffer nul true acc es = .ok (some cat)
  before : frontWrites L 512 acc.toNat cat = .ok front
  split : splitList 512 acc pad es = .ok (some (gs, r))
  calls : rankCallList (outFrags gs) = .ok (some call)
  lay : Layout acc es gs
  ready : Ready L acc ((outFrags gs).map (named nul)) call
  ranks : wss = (List.range n).map fun q => writesFor acc (dataOffset acc.toNat (512 + cat.length)) call.length
    (imageNow L acc ((outFrags gs).map (named nul)) n) (rankBuckets n call.length q)
  data : ∀ i < call.length, BucketData L acc i (groupOf ((outFrags gs).map (named nul)) i)
    (endOfGroup ((outFrags gs).map (named nul)) i) (imageNow L acc ((outFrags gs).map (named nul)) n i)
  perm : wss.flatten.Perm (writesFor acc (dataOffset acc.toNat (512 + cat.length)) call.length
    (imageNow L acc ((outFrags gs).map (named nul)) n) (List.range call.length))

theorem mem_split_perm {acc : Int} {dstart K : Nat} {D D' : Nat → Bytes} (h : (writesFor acc dstart K D (List.range K)).Perm
    (writesFor acc dstart K D' (List.range K))) (hacc : 0 < acc) : ∀ i < K, D i = D' i := by
  intro i hi
  have hm : (dstart + i * acc.toNat, D i) ∈ writesFor acc dstart K D (List.range K) := by
    unfold writesFor bucketWrites
    rw [List.mem_flatMap]
    exact ⟨i, by simpa using hi, by simp⟩
  have hm' := h.mem_iff.1 hm
  unfold writesFor bucketWrites at hm'
  rw [List.mem_flatMap] at hm'
  obtain ⟨j, hj, hm'⟩ := hm'
  rcases List.mem_cons.1 hm' with he | he
  · simp only [Prod.mk.injEq] at he
    have : i = j := by
      have h1 : i * acc.toNat = j * acc.toNat := by omega
      exact Nat.eq_of_mul_eq_mul_right (by omega) h1
    subst this
    exact he.2
  · exfalso
    split at he
    · rename_i hlast
      simp only [List.mem_singleton, Prod.mk.injEq] at he
      simp only [decide_eq_true_eq] at hlast
      have h1 : i * acc.toNat = (j + 1) * acc.toNat := by omega
      have := Nat.eq_of_mul_eq_mul_right (by omega) h1
      omega
    · simp at he

/-- A run that would have succeeded on the files as they were. -/
theorem now_run {L0 L : LegEnv} {nul pad : Bytes} {acc : Int} {es : List Frag} {ms0 : List Member} (hr : RunOk L0 acc es ms0)
    (hs : LegSetup L acc) (hnow : ∀ e ∈ es, NowOk L e) (hpad : LegTabFree pad) (hnul : LegTabFree nul) {n : Nat} (hn : 0 < n)
    {front0 : List WriteReq} {wss0 : List (List WriteReq)}
    (h : legacyRun L0 nul 512 acc pad es n = .ok (some (front0, wss0))) :
    ∃ front wss cat gs r call, NowRun L nul pad acc es n front wss cat gs r call := by
  have hmin := hr.accMin
  have hmax := hr.accMax
  unfold legacyRun at h
  obtain ⟨cat, hcat, h⟩ := bindRO_eq h
  split at h
  · cases h
  rename_i fw0 hfw0
  obtain ⟨⟨gs, r⟩, hsp, h⟩ := bindRO_eq h
  simp only [] at h
  obtain ⟨text, htx, h⟩ := bindRO_eq h
  obtain ⟨call, hcl, h⟩ := bindRO_eq h
  split at h
  · cases h
  rename_i hck
  have hck : checkCalls (outFrags gs) call = true := by simpa using hck
  obtain ⟨wss', hall, h⟩ := bindRO_eq h
  have hlay := run_layout hr hpad hnul hn hsp htx hcl hck hall
  have hready := ready_now (L := L) (by omega) hmax hnow nul hlay hcl hck
  have hrt := run_text hr hpad hnul hsp htx hcl hck
  obtain ⟨front, hfront⟩ := frontWrites_total (L := L) hfw0
  have hone : ∀ rk, rankPart L 512 acc (dataOffset acc.toNat (512 + cat.length)) text call n rk =
      allBuckets L 512 acc (dataOffset acc.toNat (512 + cat.length)) ((outFrags gs).map (named nul)) call n rk := by
    intro rk
    unfold rankPart
    rw [hrt, bindRO_some]
    simp only []
    rw [if_neg (by rw [hready.check]; simp)]
  obtain ⟨D, wss2, e1, e2, e3⟩ := allRanks_ok hs (dstart := dataOffset acc.toNat (512 + cat.length)) hready hn hone
  have hex : allRanks (rankPart L 512 acc (dataOffset acc.toNat (512 + cat.length)) text call n) (List.range n) =
      .ok (some ((List.range n).map fun q => writesFor acc (dataOffset acc.toNat (512 + cat.length)) call.length
        (imageNow L acc ((outFrags gs).map (named nul)) n) (rankBuckets n call.length q))) := by
    refine allRanks_exact (List.range n) (g := fun q => writesFor acc (dataOffset acc.toNat (512 + cat.length)) call.length
        (imageNow L acc ((outFrags gs).map (named nul)) n) (rankBuckets n call.length q)) ?_
    intro q hq
    rw [hone]
    exact allBuckets_exact hs hready hn (by simpa using hq)
  rw [hex] at e1
  simp only [Except.ok.injEq, Option.some.injEq] at e1
  have hp2 : ((List.range n).map fun q => writesFor acc (dataOffset acc.toNat (512 + cat.length)) call.length
        (imageNow L acc ((outFrags gs).map (named nul)) n) (rankBuckets n call.length q)).flatten.Perm
      (writesFor acc (dataOffset acc.toNat (512 + cat.length)) call.length (imageNow L acc ((outFrags gs).map (named nul)) n) (List.range call.length)) := by
    have h36 : ((List.range n).flatMap (rankBuckets n call.length)).Perm (List.range call.length) := rank_buckets_perm hn
    have : ((List.range n).map fun q => writesFor acc (dataOffset acc.toNat (512 + cat.length)) call.length
        (imageNow L acc ((outFrags gs).map (named nul)) n) (rankBuckets n call.length q)).flatten =
        writesFor acc (dataOffset acc.toNat (512 + cat.length)) call.length (imageNow L acc ((outFrags gs).map (named nul)) n)
          ((List.range n).flatMap (rankBuckets n call.length)) := by
      unfold writesFor
      rw [List.flatMap_assoc, List.flatMap_def (l := List.range n)]
    rw [this]
    unfold writesFor
    exact h36.flatMap_right _
  have hDD : ∀ i < call.length, D i = imageNow L acc ((outFrags gs).map (named nul)) n i := by
    refine mem_split_perm (acc := acc) (dstart := dataOffset acc.toNat (512 + cat.length)) ?_ (by omega)
    rw [← e1] at e3
    exact e3.symm.trans hp2
  refine ⟨front, _, cat, gs, r, call, ?_, hcat, hfront, hsp, hcl, hlay, hready, rfl, ?_, hp2⟩
  · unfold legacyRun
    rw [hcat, bindRO_some, hfront]
    simp only []
    rw [hsp, bindRO_some]
    simp only []
    rw [htx, bindRO_some, hcl, bindRO_some, if_neg (by rw [hck]; simp)]
    show (allRanks _ _ >>? _) = _
    rw [hex, bindRO_some]
  · intro i hi
    rw [← hDD i hi]
    exact e2 i hi

/-- The file after such a run. -/
theorem now_file {L : LegEnv} {nul pad : Bytes} {acc : Int} (hmin : 100000 ≤ acc) (hmax : acc ≤ 500000000) {es : List Frag} {n : Nat}
    {front : List WriteReq} {wss : List (List WriteReq)} {cat : Bytes} {gs : List (Frag × List Frag)} {r : LPos} {call : List Nat}
    (hs : LegSetup L acc) (h : NowRun L nul pad acc es n front wss cat gs r call)
    (hgap : (512 + cat.length + 512) % acc.toNat ≠ 0)
    (ws : List WriteReq) (hws : ws.Perm (front ++ wss.flatten)) (old : Bytes) :
    ∃ ds, ds = dataOffset acc.toNat (512 + cat.length) ∧ (512, cat) ∈ front ∧
      Written L acc ds ((outFrags gs).map (named nul)) call.length (ws.foldl writeAt old) ∧
      (∀ k < call.length, Holds (ws.foldl writeAt old) (ds + k * acc.toNat) (imageNow L acc ((outFrags gs).map (named nul)) n k)) ∧
      ∃ m xs, (m.path = catalogName ∧ m.flag = 48) ∧ m.data = cat ∧ (∀ x ∈ xs, ownMember x = true) ∧
        ReadsTo (ws.foldl writeAt old) 0 ds (m :: xs) := by
  have hclen : cat.length < 2 ^ 32 := listToBuffer_le h.catalog
  have hdn : 512 ∣ acc.toNat := by have := hs.accDvd; omega
  have hfront := frontWrites_ok (acc := acc.toNat) (by omega) (by omega) hdn hclen hs.clockCat hs.clockGap h.before
  refine ⟨_, rfl, hfront.text, ?_⟩
  have hDl : ∀ i < call.length, ((imageNow L acc ((outFrags gs).map (named nul)) n i).length : Int) ≤ acc := by
    intro i hi
    obtain ⟨rest, r1, r2, r3, r4⟩ := h.ready.drop hi
    obtain ⟨g1, g2, g3⟩ := h.ready.group hs.accDvd r2
    exact (h.data i hi).length_le g3 g2 hs.accDvd
  obtain ⟨w1, w2⟩ := writesFor_apart (dstart := dataOffset acc.toNat (512 + cat.length)) (by omega) hDl
  have hholds := file_holds hfront.apart w1 hfront.below w2
    (hws.trans (List.Perm.append_left _ h.perm)) old
  generalize ws.foldl writeAt old = A at hholds ⊢
  have hwr := written_of_holds hs h.ready h.data (dstart := dataOffset acc.toNat (512 + cat.length)) (A := A)
    (fun w hw => hholds w (by simp [hw]))
  have hterm := holds_le hwr.term (by unfold zeros; exact List.cons_ne_nil _ _)
  refine ⟨hwr, ?_, ?_⟩
  · intro k hk
    refine hholds (dataOffset acc.toNat (512 + cat.length) + k * acc.toNat, imageNow L acc ((outFrags gs).map (named nul)) n k) ?_
    rw [List.mem_append]
    right
    unfold writesFor
    rw [List.mem_flatMap]
    exact ⟨k, by simpa using hk, by unfold bucketWrites; simp⟩
  · obtain ⟨m, xs, m1, m2, m3, m4⟩ := readsTo_front (by omega) hclen hs.clockCat hs.clockGap hfront
      (by
        intro he
        apply hgap
        rw [he]
        exact Nat.mod_eq_zero_of_dvd (dataOffset_spec (by omega)).1)
      (by omega) (fun w hw => hholds w (by simp [hw]))
    exact ⟨m, xs, m1, m2, m3, m4⟩

/-! ### the entries -/

/-- What is known of an entry, given what is at its path now. -/
structure EntNow (L : LegEnv) (top : Bytes) (root : FNode) (e : Frag) (p : List Bytes) (n n' : FNode) : Prop extends NowOk L e where
  vis : Visible root p n
  there : L.fs (baseOf top ++ [47] ++ pathText p) = some n'
  changed : Changed n n'
  body : bodyOf L e = contentOf n'
  size : dataLen e = (contentOf n).length
  kind : e.kind = .reg → e.size = (contentOf n).length
  other : e.kind ≠ .reg → contentOf n' = [] ∧ contentOf n = []
  reads : ∀ D padding rest : Bytes, D.length = (contentOf n').length → D.length + padding.length = pad512 D.length →
    ∃ m, memberOf L.env (baseOf top) p (withData n' D) = some m ∧
      readMember (hdrOf L e.rel ++ (D ++ (padding ++ rest))) = some (m, rest)

theorem ent_now {L0 L : LegEnv} {top : Bytes} {root : FNode} (ha : LegArchivable L0.env L0.fs top root) {e : Frag} {m0 : Member}
    {p : List Bytes} {n n' : FNode} (hv : Visible root p n) (hd : describe p n ≠ none) (he : EntOk L0 e m0) (hh : Headed top p e)
    (hm : Marks e n) (hthere : L.fs (baseOf top ++ [47] ++ pathText p) = some n') (hch : Changed n n')
    (hown : MetaOk L.env (metaOf n')) : EntNow L top root e p n n' := by
  have hname := at_nameOk hv.1 ha.treeOk
  have hbn : (0:UInt8) ∉ baseOf top := baseOf_chars ha.top_chars.1
  have hlen := archivedPath_len (baseOf top) p n
  have hpath := ha.paths p n hv
  obtain ⟨hmk, _, htg⟩ := hm
  have hrel := hh.rel
  -- the kind of the entry
  have hkind : e.kind = .reg ↔ ∃ m c, n = .reg m c := by
    constructor
    · intro hk
      have h1 := (he.reg hk).1
      unfold FS.read at h1
      rw [hrel, ha.fs p n hv] at h1
      cases n <;> first | exact ⟨_, _, rfl⟩ | (exfalso; simp at h1)
    · rintro ⟨m, c, rfl⟩
      exact Classical.byContradiction fun h => by
        have := he.other h
        rw [hmk] at this
        simp [markOf] at this
        omega
  obtain ⟨ent', hd', htgt, hs33, hold⟩ : ∃ ent', describe p n' = some ent' ∧
      (ent'.target = e.target ∨ (e.target.length ≤ 100 ∧ ent'.target.length ≤ 100)) ∧
      ent'.size < 2 ^ 33 - 1 ∧ (contentOf n').length = ent'.size := by
    rw [htg]
    cases n <;> cases n' <;> simp only [Changed] at hch <;> try exact hch.elim
    · exact ⟨_, rfl, Or.inl rfl, hch, rfl⟩
    · refine ⟨_, rfl, ?_, by simp, rfl⟩
      rcases hch with h | h
      · exact Or.inl h
      · exact Or.inr ⟨h.1, h.2.1⟩
    · exact ⟨_, rfl, Or.inl rfl, by simp, rfl⟩
  have hlink : ∀ m t, n' = .lnk m t → t.length < 4096 ∧ (0:UInt8) ∉ t := by
    rintro m t rfl
    cases n with
    | lnk m1 t1 =>
      rcases hch with rfl | h
      · have := ha.links p m1 t hv
        exact ⟨this.1, this.2.1⟩
      · exact ⟨by have := h.2.1; omega, h.2.2⟩
    | reg _ _ => exact hch.elim
    | dir _ _ _ => exact hch.elim
    | other _ => exact hch.elim
  have hdirs : ∀ m o k, n' = .dir m o k → p ≠ [] → (baseOf top ++ [47] ++ pathText p).length ∉ badDirLengths := by
    rintro m o k rfl hp
    cases n with
    | dir m1 o1 k1 =>
      have h1 := ha.dirs p m1 o1 k1 hv
      rw [fullPath_base top hp] at h1
      refine h1 ?_
      obtain ⟨c, k1, k2⟩ := pathText_last hname hp
      rw [List.getLast?_append, k1]
      simpa using k2
    | reg _ _ => exact hch.elim
    | lnk _ _ => exact hch.elim
    | other _ => exact hch.elim
  obtain ⟨t, H, m, k1, k2, k3, k4, k5, _⟩ := object_core (env := L.env) (fs := L.fs) (base := baseOf top) hd' hs33 hname hbn
    (by omega) hthere hown hlink hdirs
  have hHdr : hdrOf L e.rel = H := by
    unfold hdrOf; rw [hrel, k1]; simp only []; rw [k2]
  have hH : (H.length : Int) = e.hdr := by
    obtain ⟨h1, h2⟩ := hh.made
    have h3 := computeHdrSize_congr (name := baseOf top ++ [47] ++ pathText p) (t := e.target) (t' := ent'.target)
      (s := e.size) (s' := (ent'.size : Int)) htgt (by unfold maxFileSize; omega) (by unfold maxFileSize; omega)
    rw [hrel] at h2
    rw [h2, k3] at h3
    have := Except.ok.inj h3
    have := hh.min
    omega
  have hread : L.fs.read e.rel = regData n' := by
    unfold FS.read; rw [hrel, hthere]
    cases n' <;> rfl
  have hsame : (∃ m c, n = .reg m c) ↔ ∃ m c, n' = .reg m c := by
    cases n <;> cases n' <;> simp only [Changed] at hch <;> first | exact hch.elim | simp
  refine ⟨⟨⟨t, by rw [hrel]; exact k1, by rw [hHdr]; exact k2⟩, by rw [hHdr]; exact hH, ?_⟩, hv, hthere, hch, ?_, ?_, ?_, ?_, ?_⟩
  · intro hk
    obtain ⟨m', c', rfl⟩ := hsame.1 (hkind.1 hk)
    unfold contOf
    rw [hread]; rfl
  · unfold bodyOf contOf
    by_cases hk : e.kind = .reg
    · obtain ⟨m', c', rfl⟩ := hsame.1 (hkind.1 hk)
      rw [if_pos hk, hread]; rfl
    · rw [if_neg hk]
      cases n' with
      | reg m' c' => exact absurd (hkind.2 (hsame.2 ⟨_, _, rfl⟩)) hk
      | _ => rfl
  · unfold dataLen
    rw [hmk]
    cases n <;> simp [markOf, contentOf]
  · intro hk
    obtain ⟨m', c', rfl⟩ := hkind.1 hk
    rw [hmk]; rfl
  · intro hk
    constructor
    · cases n' with
      | reg m' c' => exact absurd (hkind.2 (hsame.2 ⟨_, _, rfl⟩)) hk
      | _ => rfl
    · cases n with
      | reg m' c' => exact absurd (hkind.2 ⟨_, _, rfl⟩) hk
      | _ => rfl
  · intro D padding rest hD hpad
    have hdesc : ∃ entD, describe p (withData n' D) = some entD ∧ entD.size = D.length := by
      cases n' with
      | reg m c => exact ⟨_, rfl, rfl⟩
      | lnk m t => exact ⟨_, rfl, by simp [contentOf] at hD; simp [hD]⟩
      | dir m o k => exact ⟨_, rfl, by simp [contentOf] at hD; simp [hD]⟩
      | other m => simp [describe] at hd'
    obtain ⟨entD, hdD, hsD⟩ := hdesc
    have hcD : contentOf (withData n' D) = D := by
      cases n' with
      | reg m c => rfl
      | _ => simp only [contentOf, List.length_nil, List.length_eq_zero_iff] at hD; subst hD; rfl
    obtain ⟨eD, HD, mD, l1, l2, _, l4, _, l6⟩ := object_core (env := L.env) (base := baseOf top) (fs := fun _ => some (withData n' D)) hdD
      (by omega) hname hbn (by omega) rfl
      (by cases n' <;> exact hown)
      (by intro m t h; cases n' <;> simp [withData] at h; exact hlink m t (by rw [h.1, h.2]))
      (by intro m o k h; cases n' <;> simp [withData] at h; exact hdirs _ _ _ rfl)
    have hee : eD = t := by
      have : tarentryCtor (FS.lstat (fun _ => some (withData n' D))) (baseOf top ++ [47] ++ pathText p) 0 =
          tarentryCtor L.fs.lstat (baseOf top ++ [47] ++ pathText p) 0 := by
        apply tarentryCtor_congr
        unfold FS.lstat
        rw [hthere]
        simp only [Option.map_some, lstat_withData hD]
      rw [this, k1] at l1
      exact (Except.ok.inj l1).symm
    subst hee
    rw [k2] at l2
    have := Except.ok.inj l2
    subst this
    rw [hcD] at l6
    rw [hHdr]
    exact ⟨mD, l4, l6 padding rest (by rw [hsD]; exact hpad)⟩

end Parfu
