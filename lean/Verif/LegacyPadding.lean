/-
Lemmas: every byte that parfu 0.5.1 writes to the data part of an archive, including those that belong
to no member.
-/
import Verif.LegacyArchiveWrites
import Verif.LegacyMoveRun
set_option autoImplicit false

namespace Parfu
open SplitSpec Props MoveSpec TarSpec

/-- The byte a fragment puts at offset `i` of its bucket, if any. -/
def pieceByte (L : LegEnv) (bloc : Int) (f : Frag) (i : Nat) : Option UInt8 :=
  if fragStart f - bloc ≤ i then (pieceOf L f)[i - (fragStart f - bloc).toNat]? else none

/-- The byte the fragments of a bucket put at offset `i`. -/
def fragsByte (L : LegEnv) (bloc : Int) (F : List Frag) (i : Nat) : Option UInt8 :=
  F.foldl (fun o f => (pieceByte L bloc f i).or o) none

/-- The byte of the filler's header at offset `i`. -/
def fillByte (L : LegEnv) (acc : Int) (idx : Nat) (z : Int) (i : Nat) : Option UInt8 :=
  if z < acc * idx + acc ∧ z - acc * idx ≤ i then
    (legacyHeader spacerName (acc * idx + acc - z - 512) (L.now idx))[i - (z - acc * idx).toNat]?
  else none

/-- The byte that is put at offset `i` of bucket `idx`, with fragments `F` that end at `z`. -/
def ownByte (L : LegEnv) (acc : Int) (F : List Frag) (z : Int) (idx i : Nat) : Option UInt8 :=
  (fillByte L acc idx z i).or (fragsByte L (acc * idx) F i)

/-- How much of bucket `idx` is written. -/
def ownLen (acc : Int) (z : Int) (idx : Nat) : Nat :=
  if z < acc * idx + acc then (z - acc * idx + 512).toNat else acc.toNat

theorem foldl_or {F : List Frag} {g : Frag → Option UInt8} (x : Option UInt8) :
    F.foldl (fun o f => (g f).or o) x = (F.foldl (fun o f => (g f).or o) none).or x := by
  induction F generalizing x with
  | nil => simp
  | cons f F ih =>
    simp only [List.foldl_cons]
    rw [ih, ih ((g f).or none)]
    simp [Option.or_assoc]

theorem blit_or {buf out data : Bytes} {off : Nat} (h : blit buf off data = .ok out) (i : Nat) :
    out[i]? = (if off ≤ i then data[i - off]? else none).or buf[i]? := by
  obtain ⟨_, _, g3⟩ := blit_get h
  rw [g3]
  by_cases h1 : off ≤ i
  · rw [if_pos h1]
    by_cases h2 : i < off + data.length
    · rw [if_pos ⟨h1, h2⟩, List.getElem?_eq_getElem (by omega)]
      rfl
    · rw [if_neg (by omega), List.getElem?_eq_none (l := data) (by omega)]
      rfl
  · rw [if_neg (by omega), if_neg h1]
    rfl

/-- One iteration of the loop puts exactly the fragment's bytes into the buffer. -/
theorem moveFrag_exact {L : LegEnv} {bl acc bloc : Int} {s s' : BState} {f : Frag} (hf : FragOk L f)
    (h : moveFrag L bl acc bloc s f = .ok (some s')) (i : Nat) :
    s'.buf[i]? = (pieceByte L bloc f i).or s.buf[i]? := by
  obtain ⟨t, ht1, ht2⟩ := hf.hdr
  have hlen := hf.len
  unfold moveFrag at h
  obtain ⟨⟨b1, set1⟩, hd, h⟩ := bindRO_eq h
  simp only [] at h
  have hstart : fragStart f = if f.locO = 0 then f.locA - f.hdr else f.locA := by
    unfold fragStart; split <;> omega
  have hdat : b1[i]? = (if f.locA - bloc ≤ i then (dataOf L f)[i - (f.locA - bloc).toNat]? else none).or s.buf[i]? := by
    by_cases hc : f.kind = .reg ∧ f.size > 0
    · rw [if_pos hc] at hd
      obtain ⟨b, hb, hd⟩ := bindRO_eq hd
      simp only [Except.ok.injEq, Option.some.injEq, Prod.mk.injEq] at hd
      obtain ⟨rfl, _⟩ := hd
      unfold putData at hb
      rw [hf.dat hc.1 hc.2] at hb
      simp only [] at hb
      split at hb
      · cases hb
      rename_i hpos
      split at hb
      · cases hb
      have hw : wrap32 f.size = f.size := wrap32_of_fits ⟨by have := hc.2; omega, hf.size⟩
      rw [hw] at hb
      split at hb
      · cases hb
      rename_i b' hb'
      simp only [Except.ok.injEq, Option.some.injEq] at hb
      subst hb
      rw [blit_or hb']
      unfold dataOf
      rw [if_pos hc]
      congr 1
      by_cases hle : (f.locA - bloc).toNat ≤ i
      · rw [if_pos hle, if_pos (by omega)]
      · rw [if_neg hle, if_neg (by omega)]
    · rw [if_neg hc] at hd
      simp only [Except.ok.injEq, Option.some.injEq, Prod.mk.injEq] at hd
      obtain ⟨rfl, _⟩ := hd
      unfold dataOf
      rw [if_neg hc]
      simp
  split at h
  · cases h
  rename_i b2 hb2
  split at h
  · cases h
  simp only [Except.ok.injEq, Option.some.injEq] at h
  subst h
  simp only []
  unfold pieceByte pieceOf
  by_cases ho : f.locO = 0
  · rw [if_pos ho] at hb2 hstart ⊢
    unfold putHeader at hb2
    rw [ht1] at hb2
    simp only [] at hb2
    rw [ht2] at hb2
    simp only [] at hb2
    split at hb2
    · cases hb2
    rename_i hge
    have e : (f.locA - bloc - f.hdr).toNat = (fragStart f - bloc).toNat := by omega
    rw [e] at hb2
    rw [blit_or hb2, hdat, ← Option.or_assoc]
    congr 1
    by_cases h1 : fragStart f - bloc ≤ i
    · rw [if_pos h1, if_pos (by omega)]
      by_cases h2 : i - (fragStart f - bloc).toNat < (hdrOf L f.rel).length
      · rw [List.getElem?_append_left h2, List.getElem?_eq_getElem h2]
        rfl
      · rw [List.getElem?_append_right (by omega), List.getElem?_eq_none (l := hdrOf L f.rel) (by omega), if_pos (by omega)]
        simp only [Option.none_or]
        congr 1
        omega
    · rw [if_neg h1, if_neg (by omega), if_neg (by omega)]
      rfl
  · rw [if_neg ho] at hb2 hstart ⊢
    simp only [Except.ok.injEq] at hb2
    subst hb2
    rw [hdat, hstart]
    simp

/-- The loop over the fragments of one bucket. -/
theorem bucketLoop_exact {L : LegEnv} {bl acc : Int} {idx : Nat} : ∀ (F rest : List Frag) (s s' : BState) (r : List Frag),
    (∀ f ∈ F, f.bucket = idx ∧ FragOk L f) → (∀ f ∈ rest.head?, f.bucket ≠ idx) →
    bucketLoop L bl acc idx s (F ++ rest) = .ok (some (s', r)) →
    ∀ i : Nat, s'.buf[i]? = (fragsByte L (acc * idx) F i).or s.buf[i]? := by
  intro F
  induction F with
  | nil =>
    intro rest s s' r _ hr h i
    have : bucketLoop L bl acc idx s rest = .ok (some (s, rest)) := by
      cases rest with
      | nil => rfl
      | cons f rest =>
        simp only [bucketLoop]
        rw [if_pos (hr f (by simp))]
    rw [List.nil_append, this] at h
    simp only [Except.ok.injEq, Option.some.injEq, Prod.mk.injEq] at h
    rw [h.1]
    simp [fragsByte]
  | cons f F ih =>
    intro rest s s' r hF hr h i
    obtain ⟨hb, hok⟩ := hF f (by simp)
    simp only [List.cons_append, bucketLoop] at h
    rw [if_neg (by rw [hb]; simp)] at h
    obtain ⟨s1, h1, h⟩ := bindRO_eq h
    rw [ih rest s1 s' r (fun g hg => hF g (by simp [hg])) hr h i, moveFrag_exact hok h1 i, ← Option.or_assoc]
    congr 1
    unfold fragsByte
    rw [List.foldl_cons, foldl_or ((pieceByte L (acc * idx) f i).or none)]
    simp

/-- What is left in the buffer, as far as it is not overwritten, goes to the archive. -/
def imageOf (own : Nat → Option UInt8) (len : Nat) (buf : Bytes) : Bytes :=
  (List.range len).map fun i => (own i).getD (buf[i]?.getD 0)

theorem imageOf_eq {own : Nat → Option UInt8} {len : Nat} {buf D : Bytes} (hl : D.length = len)
    (h : ∀ i < len, D[i]? = (own i).or buf[i]?) (hb : len ≤ buf.length) : D = imageOf own len buf := by
  refine List.ext_getElem? fun i => ?_
  unfold imageOf
  by_cases hi : i < len
  · rw [h i hi, List.getElem?_map, List.getElem?_range hi]
    have : buf[i]? = some buf[i] := List.getElem?_eq_getElem (by omega)
    simp only [this, Option.map_some]
    cases own i <;> simp
  · rw [List.getElem?_eq_none (by omega), List.getElem?_eq_none (by simp; omega)]

/-- One bucket, exactly: `fr` and `call` find its fragments `F`, which end at `z`. -/
theorem oneBucket_exact {L : LegEnv} (hst : L.strict = false) (hnow : ∀ i, L.now i < 2 ^ 64) {acc : Int}
    (hacc : 10000 ≤ acc) (hmax : acc ≤ 2 ^ 31) (hd : (512 : Int) ∣ acc)
    {dstart : Nat} {fr : List Frag} {call : List Nat} {idx c : Nat} (hc : call[idx]? = some c)
    {F rest : List Frag} (hfr : fr.drop c = F ++ rest) (hne : F ≠ []) (hF : ∀ f ∈ F, f.bucket = idx ∧ FragOk L f)
    (hrest : ∀ f ∈ rest.head?, f.bucket ≠ idx) {z : Int} (hcont : Cont 512 (acc * idx) F z) (hz : z ≤ acc * idx + acc)
    (hdz : (512 : Int) ∣ z) {buf : Bytes} (hbuf : (buf.length : Int) = acc) :
    ∃ buf', oneBucket L 512 acc dstart fr call idx buf =
        .ok (some (buf', bucketWrites acc dstart (decide (rest = [])) idx (imageOf (ownByte L acc F z idx) (ownLen acc z idx) buf))) ∧
      (buf'.length : Int) = acc ∧
      (rest ≠ [] → ∀ i : Nat, buf'[i]? = (ownByte L acc F z idx i).or buf[i]?) := by
  obtain ⟨buf', D, h1, h2, h3⟩ := oneBucket_ok hst hnow hacc hmax hd (dstart := dstart) hc hfr hne hF hrest hcont hz hdz hbuf
  obtain ⟨f0, F', rfl⟩ := List.exists_cons_of_ne_nil hne
  have hf0 : fr[c]? = some f0 := by
    have := List.head?_drop (l := fr) (i := c)
    rw [hfr] at this
    simpa using this.symm
  obtain ⟨s, e1, l1, u1, _, _⟩ := bucketLoop_ok hst (bl := 512) (by omega) (F := f0 :: F') (rest := rest) (s := ⟨buf, 0, false⟩)
    (z := z) hF hrest (le_refl _) (by rw [Int.add_zero]; exact hcont) hz hbuf
  have hs := bucketLoop_exact _ _ _ _ _ hF hrest e1
  simp only [] at hs
  obtain ⟨d1, d2⟩ := hcont.bounds
  have hgap : z < acc * idx + acc → 512 ≤ acc * idx + acc - z := by
    intro h
    obtain ⟨a, ha⟩ : (512 : Int) ∣ acc * idx + acc - z := by
      refine Int.dvd_sub (Int.dvd_add (Dvd.dvd.mul_right hd _) hd) hdz
    omega
  have hDl : D.length = ownLen acc z idx := by
    unfold ownLen
    split
    · rename_i h; have := (h3.filler h).1; omega
    · rename_i h; have := h3.full (by omega); omega
  have hle : ownLen acc z idx ≤ buf.length := by
    unfold ownLen
    split
    · rename_i h; have := hgap h; omega
    · omega
  have h0 := h1
  unfold oneBucket at h1
  rw [if_neg (by omega), hc] at h1
  simp only [] at h1
  rw [hf0] at h1
  simp only [] at h1
  rw [if_neg (by rw [(hF f0 (by simp)).1]; simp), hfr, e1, bindRO_some] at h1
  simp only [] at h1
  split at h1
  · cases h1
  rename_i s' hp
  have hs' : ∀ i : Nat, s'.buf[i]? = (ownByte L acc (f0 :: F') z idx i).or buf[i]? := by
    intro i
    unfold putFiller at hp
    unfold ownByte fillByte
    rw [Option.or_assoc, ← hs]
    by_cases hlt : z < acc * idx + acc
    · have := hgap hlt
      rw [if_pos (by omega), if_neg (by omega)] at hp
      split at hp
      · cases hp
      rename_i b hb
      simp only [Except.ok.injEq] at hp
      subst hp
      simp only []
      rw [blit_or hb, u1]
      congr 1
      by_cases hi : (z - acc * idx).toNat ≤ i
      · rw [if_pos hi, if_pos ⟨hlt, by omega⟩]
        congr 2
        omega
      · rw [if_neg hi, if_neg (by omega)]
    · rw [if_neg (by omega)] at hp
      simp only [Except.ok.injEq] at hp
      subst hp
      rw [if_neg (by omega)]
      simp
  split at h1
  · cases h1
  have hD : D = s'.buf.take s'.cur.toNat ∧ (rest ≠ [] → buf' = s'.buf) := by
    by_cases hr : rest = []
    · rw [if_pos hr] at h1
      split at h1
      · cases h1
      simp only [Except.ok.injEq, Option.some.injEq, Prod.mk.injEq, bucketWrites, List.cons.injEq] at h1
      exact ⟨h1.2.1.2.symm, fun h => absurd hr h⟩
    · rw [if_neg hr] at h1
      simp only [Except.ok.injEq, Option.some.injEq, Prod.mk.injEq, bucketWrites, List.cons.injEq] at h1
      exact ⟨h1.2.1.2.symm, fun _ => h1.1.symm⟩
  have hDi : D = imageOf (ownByte L acc (f0 :: F') z idx) (ownLen acc z idx) buf := by
    refine imageOf_eq hDl (fun i hi => ?_) hle
    rw [← hs']
    have hi' : i < D.length := by omega
    rw [hD.1] at hi' ⊢
    rw [List.length_take] at hi'
    rw [List.getElem?_take, if_pos (by omega)]
  refine ⟨buf', by rw [← hDi]; exact h0, h2, ?_⟩
  intro hr i
  rw [hD.2 hr, hs']

/-- What stands at offset `i` of the buffer of a rank after bucket `k`, if there are `n` ranks: the byte
put there for this bucket, otherwise what was left by the rank's bucket before, otherwise zero. -/
def leftover (own : Nat → Nat → Option UInt8) (n k i : Nat) : UInt8 :=
  (own k i).getD (if h : n ≤ k ∧ 0 < n then leftover own n (k - n) i else 0)
termination_by k

/-- What is written of bucket `k`. -/
def bucketImage (own : Nat → Nat → Option UInt8) (len : Nat → Nat) (n k : Nat) : Bytes :=
  (List.range (len k)).map (leftover own n k)

theorem bucketsLoop_exact {L : LegEnv} {acc : Int} (hs : LegSetup L acc) {dstart : Nat} {fr : List Frag} {call : List Nat}
    (h : Ready L acc fr call) {n : Nat} (hn : 0 < n) (own : Nat → Nat → Option UInt8) (len : Nat → Nat)
    (hown : own = fun k => ownByte L acc (groupOf fr k) (endOfGroup fr k) k)
    (hlen : len = fun k => ownLen acc (endOfGroup fr k) k) : ∀ (k : Nat) (buf : Bytes),
    (buf.length : Int) = acc → (∀ i : Nat, i < buf.length → buf[i]? = some (if n ≤ k then leftover own n (k - n) i else 0)) →
    bucketsLoop L 512 acc dstart fr call (rankBuckets n call.length k) buf =
      .ok (some (writesFor acc dstart call.length (bucketImage own len n) (rankBuckets n call.length k))) := by
  intro k
  induction k using rankBuckets.induct (n := n) (total := call.length) with
  | case2 k hk =>
    intro buf _ _
    rw [rankBuckets, dif_neg hk]
    rfl
  | case1 k hk ih =>
    intro buf hbuf hb
    have hi : k < call.length := hk.1
    obtain ⟨rest, r1, r2, r3, r4⟩ := h.drop hi
    obtain ⟨g1, g2, g3⟩ := h.group hs.accDvd r2
    have hF : ∀ f ∈ groupOf fr k, f.bucket = k ∧ FragOk L f := by
      intro f hf
      unfold groupOf at hf
      rw [List.mem_filter] at hf
      exact ⟨by simpa using hf.2, h.ok f hf.1⟩
    obtain ⟨buf', e1, l1, b1⟩ := oneBucket_exact hs.lax hs.clock hs.accMin hs.accMax hs.accDvd (dstart := dstart)
      (List.getElem?_eq_getElem hi) r1 r2 hF r3 g1 g3 g2 hbuf
    have hle : len k ≤ buf.length := by
      rw [hlen]
      simp only [ownLen]
      have : (512 : Int) ∣ acc * k + acc - endOfGroup fr k := Int.dvd_sub (Int.dvd_add (Dvd.dvd.mul_right hs.accDvd _) hs.accDvd) g2
      split <;> omega
    have hval : ∀ i : Nat, i < buf.length → (own k i).or buf[i]? = some (leftover own n k i) := by
      intro i hi'
      rw [hb i hi', leftover.eq_def own n k i]
      by_cases hnk : n ≤ k
      · rw [if_pos hnk, dif_pos ⟨hnk, hn⟩]
        cases own k i <;> simp
      · rw [if_neg hnk, dif_neg (fun h => hnk h.1)]
        cases own k i <;> simp
    have himg : imageOf (own k) (len k) buf = bucketImage own len n k := by
      unfold imageOf bucketImage
      refine List.map_congr_left fun i hi' => ?_
      have hi' : i < len k := by simpa using hi'
      have := hval i (by omega)
      rw [List.getElem?_eq_getElem (by omega)] at this ⊢
      cases ho : own k i with
      | none => rw [ho] at this; simpa using this
      | some b => rw [ho] at this; simpa using this
    have hown' : ownByte L acc (groupOf fr k) (endOfGroup fr k) k = own k := by rw [hown]
    have hlen' : ownLen acc (endOfGroup fr k) k = len k := by rw [hlen]
    rw [hown', hlen', himg] at e1
    rw [hown'] at b1
    have hih : bucketsLoop L 512 acc dstart fr call (rankBuckets n call.length (k + n)) buf' =
        .ok (some (writesFor acc dstart call.length (bucketImage own len n) (rankBuckets n call.length (k + n)))) := by
      by_cases hlast : k + 1 = call.length
      · have : rankBuckets n call.length (k + n) = [] := by rw [rankBuckets, dif_neg (by omega)]
        rw [this]; rfl
      · refine ih buf' l1 ?_
        intro i hi'
        rw [b1 (fun hr => hlast (r4.1 hr)) i, if_pos (by omega), Nat.add_sub_cancel]
        exact hval i (by omega)
    rw [rankBuckets, dif_pos hk]
    simp only [bucketsLoop]
    rw [e1, bindRO_some]
    simp only []
    rw [hih, bindRO_some]
    congr 2
    have e3 : decide (rest = []) = decide (k + 1 = call.length) := by rw [decide_eq_decide]; exact r4
    unfold writesFor
    rw [List.flatMap_cons, e3]

theorem allBuckets_exact {L : LegEnv} {acc : Int} (hs : LegSetup L acc) {dstart : Nat} {fr : List Frag} {call : List Nat}
    (h : Ready L acc fr call) {n : Nat} (hn : 0 < n) {r : Nat} (hr : r < n) :
    allBuckets L 512 acc dstart fr call n r = .ok (some (writesFor acc dstart call.length
      (bucketImage (fun k => ownByte L acc (groupOf fr k) (endOfGroup fr k) k) (fun k => ownLen acc (endOfGroup fr k) k) n)
      (rankBuckets n call.length r))) := by
  refine bucketsLoop_exact hs h hn _ _ rfl rfl r _ ?_ ?_
  · have := hs.accMin
    simp [zeros]; omega
  · intro i hi
    rw [if_neg (by omega)]
    unfold zeros at hi ⊢
    rw [List.length_replicate] at hi
    rw [List.getElem?_replicate, if_pos hi]

theorem allRanks_exact {one : Nat → Res (Option (List WriteReq))} {g : Nat → List WriteReq} : ∀ rs : List Nat,
    (∀ r ∈ rs, one r = .ok (some (g r))) → allRanks one rs = .ok (some (rs.map g)) := by
  intro rs
  induction rs with
  | nil => intro _; rfl
  | cons r rs ih =>
    intro h
    simp only [allRanks]
    rw [h r (by simp), bindRO_some, ih (fun q hq => h q (by simp [hq])), bindRO_some]
    rfl

/-- The writes of a successful run to the data part, exactly, for any number of ranks. -/
theorem run_exact {L : LegEnv} {nul pad : Bytes} {acc : Int} {es : List Frag} {ms : List Member} (hr : RunOk L acc es ms)
    (hpad : LegTabFree pad) (hnul : LegTabFree nul) {n : Nat} (hn : 0 < n) {front : List WriteReq} {wss : List (List WriteReq)}
    (h : legacyRun L nul 512 acc pad es n = .ok (some (front, wss))) :
    ∃ (cat : Bytes) (gs : List (Frag × List Frag)) (r : LPos) (call : List Nat),
      listToBuffer nul true acc es = .ok (some cat) ∧ frontWrites L 512 acc.toNat cat = .ok front ∧
      splitList 512 acc pad es = .ok (some (gs, r)) ∧ rankCallList (outFrags gs) = .ok (some call) ∧
      Ready L acc ((outFrags gs).map (named nul)) call ∧
      ∀ n', 0 < n' → legacyRun L nul 512 acc pad es n' = .ok (some (front, (List.range n').map fun q =>
        writesFor acc (dataOffset acc.toNat (512 + cat.length)) call.length
          (bucketImage (fun k => ownByte L acc (groupOf ((outFrags gs).map (named nul)) k) (endOfGroup ((outFrags gs).map (named nul)) k) k)
            (fun k => ownLen acc (endOfGroup ((outFrags gs).map (named nul)) k) k) n')
          (rankBuckets n' call.length q))) := by
  unfold legacyRun at h
  obtain ⟨cat, hcat, h⟩ := bindRO_eq h
  split at h
  · cases h
  rename_i fw hfw
  obtain ⟨⟨gs, r⟩, hsp, h⟩ := bindRO_eq h
  simp only [] at h
  obtain ⟨text, htx, h⟩ := bindRO_eq h
  obtain ⟨call, hcl, h⟩ := bindRO_eq h
  split at h
  · cases h
  rename_i hck
  have hck : checkCalls (outFrags gs) call = true := by simpa using hck
  obtain ⟨wss', hall, h⟩ := bindRO_eq h
  simp only [Except.ok.injEq, Option.some.injEq, Prod.mk.injEq] at h
  obtain ⟨rfl, rfl⟩ := h
  have hlay := run_layout hr hpad hnul hn hsp htx hcl hck hall
  have hready := run_ready hr nul hlay hcl hck _ (Or.inr rfl)
  have hrt := run_text hr hpad hnul hsp htx hcl hck
  refine ⟨cat, gs, r, call, hcat, hfw, hsp, hcl, hready, ?_⟩
  intro n' hn'
  unfold legacyRun
  rw [hcat, bindRO_some, hfw]
  simp only []
  rw [hsp, bindRO_some]
  simp only []
  rw [htx, bindRO_some, hcl, bindRO_some, if_neg (by rw [hck]; simp), allRanks_exact (List.range n') (g := fun q =>
        writesFor acc (dataOffset acc.toNat (512 + cat.length)) call.length
          (bucketImage (fun k => ownByte L acc (groupOf ((outFrags gs).map (named nul)) k) (endOfGroup ((outFrags gs).map (named nul)) k) k)
            (fun k => ownLen acc (endOfGroup ((outFrags gs).map (named nul)) k) k) n')
          (rankBuckets n' call.length q)), bindRO_some]
  intro q hq
  unfold rankPart
  rw [hrt, bindRO_some]
  simp only []
  rw [if_neg (by rw [hready.check]; simp)]
  exact allBuckets_exact hr.setup hready hn' (by simpa using hq)

end Parfu
