/-
Property theorems for C44, exactly: for which lists, and which trees, parfu 0.5.1 makes a layout.
-/
import Verif.PropsLegacyLongLink
import Verif.PropsLegacyOverrun
set_option autoImplicit false

namespace Parfu.LayoutSpec
open Parfu

/-- The room left in a bucket of `acc` bytes after headers of these sizes, put one behind the other; one that does
not fit begins the next bucket.  `s` is the room at the beginning. -/
def roomLeft (acc s : Int) : List Int → Int
  | [] => s
  | h :: hs => roomLeft acc (if h ≤ s then s - h else acc - h) hs

/-- The size of a filler's header that has the name `pad` and (by mistake) the link target `t`. -/
def fillerHeader (pad t : Bytes) : Int :=
  match computeHdrSize pad t 0 with
  | .ok h => h
  | .error _ => 0

/-- Somewhere in the list of headers there is one that does not fit into what is left of a bucket, and neither does
the filler that has to take its place. -/
def NoRoom (acc s : Int) (pad : Bytes) (es : List Frag) : Prop :=
  ∃ xs e ys, es = xs ++ e :: ys ∧ 0 < roomLeft acc s (xs.map Frag.hdr) ∧ roomLeft acc s (xs.map Frag.hdr) < e.hdr ∧
    roomLeft acc s (xs.map Frag.hdr) < fillerHeader pad e.target

end Parfu.LayoutSpec

namespace Parfu.Props
open Parfu ScanSpec LegacyScanSpec MoveSpec TarSpec LegacyRunSpec RanksSpec LayoutSpec

theorem noRoom_cons {acc s : Int} {pad : Bytes} {e : Frag} {es : List Frag} : NoRoom acc s pad (e :: es) ↔
    (0 < s ∧ s < e.hdr ∧ s < fillerHeader pad e.target) ∨ NoRoom acc (if e.hdr ≤ s then s - e.hdr else acc - e.hdr) pad es := by
  constructor
  · rintro ⟨xs, x, ys, h, h1, h2, h3⟩
    cases xs with
    | nil =>
      simp only [List.nil_append, List.cons.injEq] at h
      obtain ⟨rfl, rfl⟩ := h
      exact .inl ⟨h1, h2, h3⟩
    | cons a xs =>
      simp only [List.cons_append, List.cons.injEq] at h
      obtain ⟨rfl, rfl⟩ := h
      exact .inr ⟨xs, x, ys, rfl, h1, h2, h3⟩
  · rintro (⟨h1, h2, h3⟩ | ⟨xs, x, ys, rfl, h1, h2, h3⟩)
    · exact ⟨[], e, es, rfl, h1, h2, h3⟩
    · exact ⟨e :: xs, x, ys, rfl, h1, h2, h3⟩

/-- Up to 8 GiB the size makes no difference. -/
theorem hdr_size_free {pad t : Bytes} {s : Int} (hs : s ≤ 8589934591) : computeHdrSize pad t s = .ok (fillerHeader pad t).toNat := by
  have e : computeHdrSize pad t s = computeHdrSize pad t 0 := by
    unfold computeHdrSize
    rw [hdrSize_eq, hdrSize_eq]
    have h1 : ¬ (maxFileSize < s) := by unfold maxFileSize; omega
    have h2 : ¬ (maxFileSize < (0:Int)) := by unfold maxFileSize; omega
    simp [paxPairs, h1, h2]
  rw [e]
  unfold fillerHeader
  cases h : computeHdrSize pad t 0 with
  | error x => unfold computeHdrSize at h; rw [hdrSize_eq] at h; cases h
  | ok n => simp

theorem fillerHeader_nonneg (pad t : Bytes) : 0 ≤ fillerHeader pad t := by
  unfold fillerHeader
  split
  · omega
  · omega

/-- The header of the layout's fillers: one block if the target is short. -/
theorem fillerHeader_short {t : Bytes} (ht : t.length ≤ 100) : fillerHeader blockingName t = 512 := by
  unfold fillerHeader
  rw [hdr512 (by decide) ht (by omega)]
  rfl

theorem fillerHeader_long {pad t : Bytes} (ht : 100 < t.length) : 1536 ≤ fillerHeader pad t := by
  obtain ⟨h, h1, h2⟩ := hdr_long (pad := pad) (t := t) (s := 0) ht
  unfold fillerHeader
  rw [h1]
  simp only []
  omega

/-- A filler that fits is made, one that does not makes the layout fail. -/
theorem padBefore_iff {pad : Bytes} {e : Frag} {loc space : Int} (hs : space ≤ 8589934591) :
    padBefore 512 pad e loc space = .ok none ∧ (512 ≤ space ∧ space < fillerHeader pad e.target) ∨
    (∃ e', padBefore 512 pad e loc space = .ok (some e')) ∧ ¬ (512 ≤ space ∧ space < fillerHeader pad e.target) := by
  have hn := fillerHeader_nonneg pad e.target
  unfold padBefore
  by_cases h1 : space ≥ 512
  · rw [if_pos h1, hdr_size_free hs]
    simp only []
    by_cases h2 : ((fillerHeader pad e.target).toNat : Int) > space
    · rw [if_pos h2]
      exact .inl ⟨rfl, by omega, by omega⟩
    · rw [if_neg h2, hdr_size_free (by omega)]
      simp only [ne_eq, not_true, if_false]
      exact .inr ⟨⟨_, rfl⟩, by omega⟩
  · rw [if_neg h1]
    exact .inr ⟨⟨_, rfl⟩, by omega⟩

/-- One header. -/
theorem place_header {acc : Int} {pad : Bytes} (ha : acc ≤ 8589934591) (hd : (512:Int) ∣ acc) {p : LPos} {e : Frag}
    (hp : p.whole = p.bucket * acc + p.rank ∧ 0 ≤ p.rank ∧ p.rank ≤ acc ∧ (512:Int) ∣ p.rank)
    (he : e.size < 0 ∧ 0 < e.hdr ∧ e.hdr < acc ∧ (512:Int) ∣ e.hdr) :
    placeEntry 512 acc pad p e = .ok none ∧ (0 < acc - p.rank ∧ acc - p.rank < e.hdr ∧ acc - p.rank < fillerHeader pad e.target) ∨
    ¬ (0 < acc - p.rank ∧ acc - p.rank < e.hdr ∧ acc - p.rank < fillerHeader pad e.target) ∧
    ∃ g q, placeEntry 512 acc pad p e = .ok (some (g, q)) ∧ q.whole = q.bucket * acc + q.rank ∧ 0 ≤ q.rank ∧ q.rank ≤ acc ∧
      (512:Int) ∣ q.rank ∧ acc - q.rank = if e.hdr ≤ acc - p.rank then acc - p.rank - e.hdr else acc - e.hdr := by
  obtain ⟨p1, p2, p3, p4⟩ := hp
  obtain ⟨e1, e2, e3, e4⟩ := he
  have hbs : blockedSum 512 e = e.hdr := by
    unfold blockedSum
    have : sumSize e = e.hdr := by unfold sumSize; rw [if_neg (by omega)]
    rw [this, if_pos (by omega)]
  unfold placeEntry
  rw [if_neg (by omega)]
  simp only [hbs]
  rw [if_pos (by omega)]
  by_cases hfit : p.rank + e.hdr ≤ acc
  · rw [if_pos hfit, if_neg (by omega)]
    refine .inr ⟨by omega, _, _, rfl, ?_, ?_, ?_, ?_, ?_⟩ <;> simp only []
    · omega
    · omega
    · omega
    · exact Int.dvd_add p4 e4
    · rw [if_pos (by omega)]; omega
  · rw [if_neg hfit]
    have hsp : (p.bucket + 1) * acc - p.whole = acc - p.rank := by rw [p1, Int.add_mul]; omega
    rcases padBefore_iff (pad := pad) (e := { e with locA := (p.bucket + 1) * acc }) (loc := p.whole)
      (space := (p.bucket + 1) * acc - p.whole) (by omega) with ⟨h, h1, h2⟩ | ⟨⟨e', h⟩, h1⟩
    · rw [h]
      simp only [] at h2
      rw [hsp] at h1 h2
      exact .inl ⟨rfl, by omega, by omega, h2⟩
    · rw [h]
      simp only []
      simp only [] at h1
      rw [hsp] at h1
      rw [if_neg (by omega)]
      refine .inr ⟨?_, _, _, rfl, ?_, ?_, ?_, ?_, ?_⟩
      · rintro ⟨k1, k2, k3⟩
        exact h1 ⟨by omega, k3⟩
      · rfl
      · simp only []; omega
      · simp only []; omega
      · exact e4
      · rw [if_neg (by omega)]

/-- The loop from any place on. -/
theorem loop_iff {acc : Int} {pad : Bytes} (ha : acc ≤ 8589934591) (hd : (512:Int) ∣ acc) (hpl : pad.length ≤ 100) (es : List Frag) :
    ∀ p : LPos, (p.whole = p.bucket * acc + p.rank ∧ 0 ≤ p.rank ∧ p.rank ≤ acc ∧ (512:Int) ∣ p.rank) →
    es.Pairwise (fun a b => a.size ≤ b.size) →
    (∀ e ∈ es, 0 < e.hdr ∧ e.hdr < acc ∧ (512:Int) ∣ e.hdr ∧ (0 ≤ e.size → e.target.length ≤ 100)) →
    (splitLoop 512 acc pad p es = .ok none ∧ NoRoom acc (acc - p.rank) pad (es.filter (fun e => decide (e.size < 0)))) ∨
    ((∃ x, splitLoop 512 acc pad p es = .ok (some x)) ∧ ¬ NoRoom acc (acc - p.rank) pad (es.filter (fun e => decide (e.size < 0)))) := by
  induction es with
  | nil =>
    intro p _ _ _
    refine .inr ⟨⟨_, rfl⟩, ?_⟩
    rintro ⟨xs, e, ys, h, _⟩
    simp at h
  | cons e es ih =>
    intro p hp hs he
    rw [List.pairwise_cons] at hs
    obtain ⟨e1, e2, e3, e4⟩ := he e (by simp)
    by_cases hz : e.size < 0
    · have hf : (e :: es).filter (fun e => decide (e.size < 0)) = e :: es.filter (fun e => decide (e.size < 0)) := by simp [hz]
      rw [hf, noRoom_cons]
      rcases place_header (pad := pad) ha hd hp ⟨hz, e1, e2, e3⟩ with ⟨h1, h2⟩ | ⟨h1, g, q, h2, q1, q2, q3, q4, q5⟩
      · refine .inl ⟨?_, .inl h2⟩
        unfold splitLoop
        rw [h1]
      · rcases ih q ⟨q1, q2, q3, q4⟩ hs.2 (fun x hx => he x (by simp [hx])) with ⟨k1, k2⟩ | ⟨⟨x, k1⟩, k2⟩
        · refine .inl ⟨?_, .inr (by rw [← q5]; exact k2)⟩
          unfold splitLoop
          rw [h2]
          simp only []
          rw [k1]
        · refine .inr ⟨⟨(g :: x.1, x.2), ?_⟩, ?_⟩
          · unfold splitLoop
            rw [h2]
            simp only []
            rw [k1]
          · rw [← q5]
            exact fun h => h.elim h1 k2
    · have hpos : ∀ x ∈ e :: es, 0 ≤ x.size := by
        intro x hx
        rcases List.mem_cons.1 hx with rfl | hx
        · omega
        · have := hs.1 x hx; omega
      refine .inr ⟨?_, ?_⟩
      · have key : ∀ (es : List Frag) (p : LPos), (∀ e ∈ es, 0 < e.hdr ∧ e.target.length ≤ 100) →
            p.bucket * acc ≤ p.whole → ∃ x, splitLoop 512 acc pad p es = .ok (some x) := by
          intro es
          induction es with
          | nil => intro p _ _; exact ⟨_, rfl⟩
          | cons e es ih =>
            intro p he hi
            obtain ⟨g, q, h1, h2⟩ := place_ok (bl := 512) (by omega) (by omega) ha hpl (he e (by simp)).1 (he e (by simp)).2 hi
            obtain ⟨x, h3⟩ := ih q (fun e' h' => he e' (by simp [h'])) h2
            unfold splitLoop
            rw [h1]; simp only []; rw [h3]
            exact ⟨_, rfl⟩
        refine key (e :: es) p (fun x hx => ⟨(he x hx).1, (he x hx).2.2.2 (hpos x hx)⟩) (by omega)
      · have hf : (e :: es).filter (fun e => decide (e.size < 0)) = [] := by
          rw [List.filter_eq_nil_iff]
          intro x hx
          have := hpos x hx
          simp; omega
        rw [hf]
        rintro ⟨xs, e, ys, h, _⟩
        simp at h

/-- **C44, exactly** (for the lists a scan gives, sorted, with directories and links of negative size before the
files): no layout is made if and only if a directory or link finds no room in what is left of a bucket and the filler,
whose header is as large as the link's target makes it, finds none either. -/
theorem C44_fails_iff (acc : Int) (ha : acc ≤ 8589934591) (hd : (512:Int) ∣ acc) (pad : Bytes) (hpl : pad.length ≤ 100)
    (es : List Frag) (h2 : 2 ≤ es.length) (hs : es.Pairwise (fun a b => a.size ≤ b.size))
    (he : ∀ e ∈ es, 0 < e.hdr ∧ e.hdr < acc ∧ (512:Int) ∣ e.hdr ∧ (0 ≤ e.size → e.target.length ≤ 100)) :
    (splitList 512 acc pad es = .ok none ↔ NoRoom acc acc pad (es.filter (fun e => decide (e.size < 0)))) ∧
    ((∃ gs r, splitList 512 acc pad es = .ok (some (gs, r))) ↔ ¬ NoRoom acc acc pad (es.filter (fun e => decide (e.size < 0)))) := by
  have hsp : splitList 512 acc pad es = splitLoop 512 acc pad ⟨0, 0, 0⟩ es := by
    unfold splitList createList
    rw [if_neg (by omega), if_neg (by omega)]
  have hpos : 0 < acc := by
    cases es with
    | nil => simp at h2
    | cons e es => have := he e (by simp); omega
  rw [hsp]
  rcases loop_iff ha hd hpl es ⟨0, 0, 0⟩ ⟨by simp, by simp, by simp; omega, by simp⟩ hs he with ⟨h, k⟩ | ⟨⟨x, h⟩, k⟩
  · simp only [Int.sub_zero] at k
    rw [h]
    exact ⟨⟨fun _ => k, fun _ => rfl⟩, ⟨(by rintro ⟨_, _, h⟩; cases h), fun h => absurd k h⟩⟩
  · simp only [Int.sub_zero] at k
    rw [h]
    exact ⟨⟨(by intro h; cases h), fun h => absurd h k⟩, ⟨fun _ => k, fun _ => ⟨x.1, x.2, rfl⟩⟩⟩

/-- Non-vacuity: buckets of 2048 bytes; a directory, and a link with a long target for whose 1536 bytes 1024 are left. -/
def roomDir : Frag := ⟨[100], [100], .dir, [], -3, 512, -1, -1, -1, none, -1, -1, -1, -1, -1⟩
def roomLink : Frag := ⟨[108], [108], .lnk, List.replicate 101 97, -2, 1536, -1, -1, -1, none, -1, -1, -1, -1, -1⟩

example : splitList 512 2048 [46] [roomDir, roomDir, roomLink] = .ok none :=
  ((C44_fails_iff 2048 (by omega) (by decide) [46] (by decide) [roomDir, roomDir, roomLink] (by decide) (by decide) (by decide)).1).2
    ⟨[roomDir, roomDir], roomLink, [], by decide, by decide, by decide, by decide +kernel⟩

/-- Headers that fit one bucket together never run out of room. -/
theorem not_noRoom {acc : Int} {pad : Bytes} (es : List Frag) : ∀ s : Int, (∀ e ∈ es, 0 ≤ e.hdr) → (es.map Frag.hdr).sum ≤ s →
    ¬ NoRoom acc s pad es := by
  induction es with
  | nil =>
    rintro s _ _ ⟨xs, e, ys, h, _⟩
    simp at h
  | cons e es ih =>
    intro s hn hs
    rw [List.map_cons, List.sum_cons] at hs
    have h0 : 0 ≤ (es.map Frag.hdr).sum := by
      clear ih hs
      induction es with
      | nil => simp
      | cons x es ih =>
        rw [List.map_cons, List.sum_cons]
        have h1 := hn x (by simp)
        have h2 := ih (fun y hy => hn y (by
          rcases List.mem_cons.1 hy with rfl | hy
          · simp
          · simp [hy]))
        omega
    rw [noRoom_cons, if_pos (by omega)]
    rintro (⟨_, h, _⟩ | h)
    · omega
    · exact ih (s - e.hdr) (fun x hx => hn x (by simp [hx])) (by omega) h

/-- **C44** Links with targets of any length do no harm as long as the headers of all directories and links fit one
bucket together. -/
theorem C44_one_bucket (acc : Int) (ha : acc ≤ 8589934591) (hd : (512:Int) ∣ acc) (pad : Bytes) (hpl : pad.length ≤ 100)
    (es : List Frag) (h2 : 2 ≤ es.length) (hs : es.Pairwise (fun a b => a.size ≤ b.size))
    (he : ∀ e ∈ es, 0 < e.hdr ∧ e.hdr < acc ∧ (512:Int) ∣ e.hdr ∧ (0 ≤ e.size → e.target.length ≤ 100))
    (hsum : ((es.filter (fun e => decide (e.size < 0))).map Frag.hdr).sum ≤ acc) :
    ∃ gs r, splitList 512 acc pad es = .ok (some (gs, r)) := by
  refine ((C44_fails_iff acc ha hd pad hpl es h2 hs he).2).2 (not_noRoom _ _ ?_ hsum)
  intro e h
  have := he e (List.mem_of_mem_filter h)
  omega

/-- A header that is planned has whole blocks. -/
theorem planned_blocks {name link : Bytes} {size : Int} {h : Nat} (hc : computeHdrSize name link size = .ok h) : 512 ∣ h := by
  unfold computeHdrSize at hc
  rw [hdrSize_eq] at hc
  simp only [Except.ok.injEq] at hc
  unfold paxHdrSz roundToBlock blk at hc
  split at hc <;> omega

/-- The entries of a list that a tree gives: what `C44_fails_iff` asks of them. -/
theorem tree_entries {top : Bytes} {root : FNode} {es : List Frag}
    (h7 : ∀ e ∈ es, ∃ p n, Visible root p n ∧ Headed top p e ∧ Marks e n) :
    ∀ e ∈ es, 0 < e.hdr ∧ e.hdr < legBucket ∧ (512:Int) ∣ e.hdr ∧ (0 ≤ e.size → e.target.length ≤ 100) := by
  intro e he
  obtain ⟨p, n, _, h1, h2⟩ := h7 e he
  have hb : legBucket = 4194304 := rfl
  have m1 := h1.min
  have m2 := h1.max
  have m3 := planned_blocks h1.made.2
  refine ⟨by omega, by omega, by omega, ?_⟩
  intro hz
  rw [h2.1] at hz
  rw [h2.2.2]
  cases n <;> simp [markOf, targetOf] at hz ⊢

/-- **C48** A run on an archivable tree with names and link targets of any length succeeds, whatever the number of ranks,
if the headers of its directories and links fit one bucket (4 MiB) together, no file ends in the last 44304 bytes of a
bucket's length, and the number of buckets the files fill plus two for every object is at most 39000. -/
theorem C48_long_links (L : LegEnv) (Q : QSort Frag) (nul top : Bytes) (root : FNode) (hp : Platform L nul)
    (hnl : nul.length ≤ 100) (ha : LegArchivable L.env L.fs top root) (seen : Option FNode) (hseen : DirOrLink seen) (n : Nat) (hn : 0 < n)
    (hhead : ∀ os : List (List Bytes × FNode × Nat), os.Nodup →
      (∀ o ∈ os, Visible root o.1 o.2.1 ∧ DirOrLink (some o.2.1) ∧ Planned top o.1 o.2.1 o.2.2) →
      (os.map fun o => o.2.2).sum ≤ 4194304)
    (hsizes : ∀ p m, Visible root p m → fileLength m % 4194304 ≤ 4150000)
    (hcount : ∀ os : List (List Bytes × FNode), os.Nodup → (∀ o ∈ os, Visible root o.1 o.2) →
      (os.map fun o => fileLength o.2 / 4194304 + 2).sum ≤ 39000) :
    ∃ front wss, legacyMain L Q nul top seen root n = .ok (some (front, wss)) := by
  obtain ⟨es, ms, h1, h3, h4, h5, h8, h9, h6, h7⟩ := main_run hp ha Q
  rw [h1 seen ((topAllowed_iff seen).2 hseen)]
  have hb : legBucket = 4194304 := rfl
  have hsz : ∀ e ∈ es, 512 ≤ e.hdr ∧ e.hdr ≤ 20000 ∧ SplitSpec.dataLen e % 4194304 ≤ 4150000 := by
    intro e he
    obtain ⟨p, m, k1, _, _, k4, k5, _⟩ := h7 e he
    refine ⟨k4.min, k4.max, ?_⟩
    have := hsizes p m k1
    unfold SplitSpec.dataLen
    rw [k5.1]
    cases m <;> simp [markOf, fileLength] at this ⊢
    omega
  have hsf : SplitSpec.SmallFirst 512 legBucket es := by
    refine List.Pairwise.imp_of_mem ?_ h9
    intro a b ha' hb' hab hsm
    obtain ⟨a1, a2, a3⟩ := hsz a ha'
    obtain ⟨b1, b2, b3⟩ := hsz b hb'
    have hle : SplitSpec.dataLen a ≤ SplitSpec.dataLen b := by unfold SplitSpec.dataLen; omega
    unfold SplitSpec.Small SplitSpec.room at hsm ⊢
    rw [hb] at hsm ⊢
    omega
  -- the layout
  have hsum : ((es.filter (fun e => decide (e.size < 0))).map Frag.hdr).sum ≤ legBucket := by
    have hone : ∀ e ∈ es.filter (fun e => decide (e.size < 0)), ∃ o : List Bytes × FNode × Nat,
        (Visible root o.1 o.2.1 ∧ DirOrLink (some o.2.1) ∧ Planned top o.1 o.2.1 o.2.2) ∧ e.arc = pathText o.1 ∧ e.hdr = o.2.2 := by
      intro e he
      rw [List.mem_filter] at he
      obtain ⟨p, m, k1, _, k3, k4, k5, _⟩ := h7 e he.1
      have hz : e.size < 0 := by simpa using he.2
      rw [k5.1] at hz
      have hm := k4.min
      refine ⟨(p, m, e.hdr.toNat), ⟨k1, ?_, ?_⟩, k3, by simp only []; omega⟩
      · cases m <;> simp [markOf, DirOrLink] at hz ⊢
        omega
      · unfold Planned
        have := k4.made.2
        rw [k4.rel, k5.1, k5.2.2] at this
        exact this
    obtain ⟨os, hos⟩ := forall2_of_forall hone
    have hnd' : os.Nodup :=
      forall2_pairwise (S := fun a b => a.arc ≠ b.arc) (T := (· ≠ ·))
        (fun a b o o' hab h h' hoo => hab (by rw [h.2.1, h'.2.1, hoo])) hos
        (List.pairwise_map.1 (h5.sublist (List.filter_sublist.map Frag.arc)))
    have hle := hhead os hnd' (fun o ho => by
      obtain ⟨e, _, he⟩ := forall2_mem_right hos o ho
      exact he.1)
    have heq : ((es.filter (fun e => decide (e.size < 0))).map Frag.hdr).sum = ((os.map fun o => o.2.2).sum : Nat) := by
      clear hle hnd' hone
      generalize es.filter (fun e => decide (e.size < 0)) = qs at hos
      induction hos with
      | nil => rfl
      | cons h _ ih =>
        simp only [List.map_cons, List.sum_cons]
        rw [ih, h.2.2]
        push_cast
        rfl
    rw [heq, hb]
    omega
  obtain ⟨gs, r, hsp⟩ := C44_one_bucket legBucket (by omega) h3.accDvd blockingName (by decide) es h3.two h9
    (tree_entries (fun e he => by obtain ⟨p, m, k1, _, _, k4, k5, _⟩ := h7 e he; exact ⟨p, m, k1, k4, k5⟩)) hsum
  refine run_total_layout h3 blocking_free hp.nul (by decide) hnl hn (R := 4096) (T := 4096) (c := 39000) ?_ hsf ?_ (tree_count h5 ?_ hcount)
    (by omega) (by omega) hsp
  · intro e he
    obtain ⟨p, m, k1, _, k3, k4, k5, _⟩ := h7 e he
    obtain ⟨c1, c2, c3⟩ := hsz e he
    have hpl := ha.paths p m k1
    have hl := archivedPath_len (baseOf top) p m
    refine ⟨c1, c2, ?_, by rw [k3]; omega, ?_, k4.none⟩
    · rw [k4.rel]; simp only [List.length_append, List.length_singleton]; omega
    · rw [k5.2.2]
      cases m with
      | lnk d t => exact le_of_lt (ha.links p d t k1).1
      | _ => simp [targetOf]
  · intro e he hbig
    obtain ⟨c1, c2, c3⟩ := hsz e (List.dropLast_subset _ he)
    refine Or.inr ?_
    unfold SplitSpec.Small SplitSpec.room at hbig
    unfold SplitSpec.room
    rw [hb] at hbig ⊢
    omega
  · intro e he
    obtain ⟨p, m, k1, _, k3, _, k5, _⟩ := h7 e he
    exact ⟨(p, m), k1, k3, k5.1⟩

/-! Non-vacuity: the directory of `C44_tree_hangs` with 200 directories instead of 8190 is archived. -/

example (Q : QSort Frag) : ∃ front wss,
    legacyMain ⟨demoEnv2, wideFs (List.replicate 101 97) 200, false, fun _ => 0, 0, 0⟩ Q glibcNull [116]
      (some (wideDir (List.replicate 101 97) 200)) (wideDir (List.replicate 101 97) 200) 16 = .ok (some (front, wss)) := by
  have hnum : ∀ (α : Type) (f : α → List Bytes × FNode) (os : List α), (os.map f).Nodup →
      (∀ o ∈ os, Visible (wideDir (List.replicate 101 97) 200) (f o).1 (f o).2) → os.length ≤ 202 := by
    intro α f os hnd hv
    have hsub : (os.map f) ⊆ ([], wideDir (List.replicate 101 97) 200) :: ([[108]], .lnk manyMeta (List.replicate 101 97)) ::
        (List.range 200).map (fun i => ([manyName i], .dir manyMeta true .nil)) := by
      intro x hx
      rw [List.mem_map] at hx
      obtain ⟨o, ho, rfl⟩ := hx
      rcases wide_visible.1 (hv o ho) with ⟨h1, h2⟩ | ⟨i, hi, h1, h2⟩ | ⟨h1, h2⟩
      · exact List.mem_cons.2 (.inl (Prod.ext h1 h2))
      · exact List.mem_cons_of_mem _ (List.mem_cons_of_mem _ (List.mem_map.2 ⟨i, by simpa using hi, (Prod.ext h1 h2).symm⟩))
      · exact List.mem_cons_of_mem _ (List.mem_cons.2 (.inl (Prod.ext h1 h2)))
    have := (List.subperm_of_subset hnd hsub).length_le
    rw [List.length_map, List.length_cons, List.length_cons, List.length_map, List.length_range] at this
    exact this
  have hfl : ∀ p m, Visible (wideDir (List.replicate 101 97) 200) p m → fileLength m = 0 := by
    intro p m h
    rcases wide_visible.1 h with ⟨_, rfl⟩ | ⟨i, hi, _, rfl⟩ | ⟨_, rfl⟩ <;> rfl
  refine C48_long_links _ Q glibcNull [116] _ ⟨rfl, fun _ => by simp, by simp, by simp, by decide⟩ (by decide)
    (wide_archivable _ (by decide) 200 (by omega)) (some (wideDir (List.replicate 101 97) 200)) trivial 16 (by omega) ?_ ?_ ?_
  · intro os hnd hv
    have h20 : ∀ o ∈ os, o.2.2 ≤ 20000 := by
      intro o ho
      obtain ⟨v1, v2, v3⟩ := hv o ho
      unfold Planned at v3
      refine (computeHdr_le ?_ ?_ ?_ v3).2
      · have := (wide_archivable (List.replicate 101 97) (by decide) 200 (by omega)).paths _ _ v1
        have h := archivedPath_len (baseOf [116]) o.1 o.2.1
        simp only [List.length_append, List.length_singleton]
        omega
      · rcases wide_visible.1 v1 with ⟨_, h⟩ | ⟨i, hi, _, h⟩ | ⟨_, h⟩ <;> rw [h] <;> simp [targetOf, wideDir]
      · rcases wide_visible.1 v1 with ⟨_, h⟩ | ⟨i, hi, _, h⟩ | ⟨_, h⟩ <;> rw [h] <;> simp [markOf, wideDir]
    have h1 := sum_le_mul (fun o : List Bytes × FNode × Nat => o.2.2) os 20000 h20
    have h2 := hnum _ (fun o : List Bytes × FNode × Nat => (o.1, o.2.1)) os (List.Nodup.map_on ?_ hnd) (fun o ho => (hv o ho).1)
    · have := Nat.mul_le_mul_right 20000 h2
      omega
    · rintro ⟨p, m, h⟩ ho ⟨p', m', h'⟩ ho' heq
      simp only [Prod.mk.injEq] at heq
      obtain ⟨rfl, rfl⟩ := heq
      have a := (hv _ ho).2.2
      have b := (hv _ ho').2.2
      unfold Planned at a b
      simp only [] at a b
      rw [a] at b
      have := Except.ok.inj b
      rw [this]
  · intro p m h; rw [hfl p m h]; decide
  · intro os hnd hv
    have h1 := sum_le_mul (fun o : List Bytes × FNode => fileLength o.2 / 4194304 + 2) os 2 (fun o ho => by
      rw [hfl o.1 o.2 (hv o ho)])
    have h2 := hnum _ id os (by simpa using hnd) hv
    omega

end Parfu.Props
