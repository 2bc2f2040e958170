/-
Lemmas: the data region of an archive written by parfu 0.5.1 reads back as its entries and fillers.
-/
import Verif.LegacyArchive
set_option autoImplicit false

namespace Parfu
open SplitSpec Props MoveSpec TarSpec LegacyRunSpec

/-- What the buckets of the archive hold. -/
structure Filled (L : LegEnv) (acc : Int) (dstart : Nat) (fr : List Frag) (K : Nat) (A : Bytes) : Prop where
  pieces : ∀ f ∈ fr, Holds A (dstart + (fragStart f).toNat) (pieceOf L f)
  filler : ∀ k < K, endOfGroup fr k < acc * k + acc → Holds A (dstart + (endOfGroup fr k).toNat)
    (legacyHeader spacerName (acc * k + acc - endOfGroup fr k - 512) (L.now k))
  long : dstart + K * acc.toNat ≤ A.length

/-- What the data region of the archive holds. -/
structure Written (L : LegEnv) (acc : Int) (dstart : Nat) (fr : List Frag) (K : Nat) (A : Bytes) : Prop
    extends Filled L acc dstart fr K A where
  term : Holds A (dstart + K * acc.toNat) (zeros 1024)

/-- The buckets are numbered `0 .. K-1`. -/
structure Numbered (fr : List Frag) (K : Nat) : Prop where
  range : ∀ f ∈ fr, 0 ≤ f.bucket ∧ f.bucket < K
  all : ∀ k < K, ∃ f ∈ fr, f.bucket = k

theorem Ready.numbered {L : LegEnv} {acc : Int} {fr : List Frag} {call : List Nat} (h : Ready L acc fr call) :
    Numbered fr call.length ∧ 0 < call.length := by
  obtain ⟨hp0, hps, hp⟩ := C37_partition fr h.tight.inOrder call h.calls
  have hlen : 0 < call.length := by
    cases call with
    | nil => simp at hp0
    | cons => simp
  have hc0 : call[0] = 0 := by
    cases call with
    | nil => simp at hp0
    | cons a l => simpa using hp0
  obtain ⟨h1, h2⟩ := checkCalls_iff h.check 0 hlen
  obtain ⟨h3, h4⟩ := checkCalls_iff h.check (call.length - 1) (by omega)
  obtain ⟨rest, r1, r2, _, r4⟩ := h.drop (k := call.length - 1) (by omega)
  have hr : rest = [] := r4.2 (by omega)
  rw [hr, List.append_nil] at r1
  refine ⟨⟨?_, ?_⟩, hlen⟩
  · intro f hf
    obtain ⟨i, hi, rfl⟩ := List.getElem_of_mem hf
    constructor
    · have := h.tight.inOrder 0 i (by omega) hi (by omega)
      simp only [hc0] at h2
      rw [h2] at this
      simpa using this
    · have hlast : fr[fr.length - 1] ∈ groupOf fr (call.length - 1) := by
        rw [← r1, List.mem_iff_getElem]
        refine ⟨fr.length - 1 - call[call.length - 1], by rw [List.length_drop]; omega, ?_⟩
        rw [List.getElem_drop]
        congr 1; omega
      unfold groupOf at hlast
      rw [List.mem_filter] at hlast
      have hb : fr[fr.length - 1].bucket = ((call.length - 1 : Nat) : Int) := by simpa using hlast.2
      have := h.tight.inOrder i (fr.length - 1) hi (by omega) (by omega)
      omega
  · intro k hk
    obtain ⟨k1, k2⟩ := checkCalls_iff h.check k hk
    exact ⟨_, List.getElem_mem k1, k2⟩

theorem TightFrom.after {bl acc lb en : Int} {xs ys : List Frag} (h : TightFrom bl acc lb en (xs ++ ys)) {x : Frag}
    (hx : xs.getLast? = some x) : TightFrom bl acc x.bucket (fragStart x + blockedWritten bl x) ys := by
  induction xs generalizing lb en with
  | nil => simp at hx
  | cons a xs ih =>
    obtain ⟨_, _, _, h4⟩ := h
    cases xs with
    | nil => simp at hx; subst hx; exact h4
    | cons b xs => rw [List.getLast?_cons_cons] at hx; exact ih h4 hx

theorem TightFrom.dvd {acc lb en : Int} (hd : (512 : Int) ∣ acc) {fs : List Frag} (h : TightFrom 512 acc lb en fs)
    (he : (512 : Int) ∣ en) : ∀ f ∈ fs, (512 : Int) ∣ fragStart f := by
  induction fs generalizing lb en with
  | nil => simp
  | cons a fs ih =>
    obtain ⟨h1, _, _, h4⟩ := h
    have ha : (512 : Int) ∣ fragStart a := by
      rcases h1 with ⟨_, h⟩ | ⟨_, h⟩
      · rw [h]; exact he
      · rw [h]; exact Dvd.dvd.mul_left hd _
    intro f hf
    rcases List.mem_cons.1 hf with rfl | hf
    · exact ha
    · exact ih h4 (Int.dvd_add ha (blockedWritten_bounds (by omega) a).1) f hf

/-- An entry ends where its last fragment ends. -/
theorem laid_end {acc : Int} {g : Frag × List Frag} (hg : Laid acc g) (hd : ∀ f ∈ g.2, (512 : Int) ∣ fragStart f)
    (hl : (512 : Int) ∣ g.1.locA) {x : Frag} (hx : g.2.getLast? = some x) :
    fragStart x + blockedWritten 512 x = g.1.locA + room 512 g.1 := by
  by_cases hs : Small 512 acc g.1
  · obtain ⟨f, h1, h2, h3, h4, _⟩ := hg.good.small hs
    rw [h1] at hx
    simp at hx
    subst hx
    obtain ⟨s1, s2, s3, s4, s5⟩ := hg.good.same f (by rw [h1]; simp)
    have hst : fragStart f = g.1.locA := by unfold fragStart; rw [if_pos h4, h2, s5]; omega
    rw [hst, blockedWritten_small (by omega) s5 h3 h4]
  · have hc := hg.cov hs
    have hsz := hg.large hs
    obtain ⟨l1, l2, l3⟩ := hg.good.large hs
    have hxm : x ∈ g.2 := List.mem_of_getLast? hx
    have hend : ∀ (fs : List Frag) (a z : Int), Covers a fs z → fs.getLast? = some x → x.locO + x.size = z ∧ 0 < x.size := by
      intro fs
      induction fs with
      | nil => intro a z _ h; simp at h
      | cons y ys ih =>
        intro a z h hl
        obtain ⟨c1, c2, c3⟩ := h
        cases ys with
        | nil => simp at hl; subst hl; simp only [Covers] at c3; omega
        | cons w ws => rw [List.getLast?_cons_cons] at hl; exact ih _ _ c3 hl
    obtain ⟨e1, e2⟩ := hend g.2 0 _ hc hx
    have f1 := (l3 x hxm).1
    obtain ⟨b1, b2, b3⟩ := blockedWritten_bounds (bl := 512) (by omega) x
    have hsum : fragStart x + fragLen x = x.locA + x.size := by
      unfold fragStart fragLen; split <;> split <;> omega
    have hroom := room_ge (bl := 512) (by omega) g.1
    have hdl : dataLen g.1 = g.1.size := by unfold dataLen; omega
    have hdx := hd x hxm
    have hrd := room_dvd 512 g.1
    have h512 := Int.dvd_add hdx b1
    have h512' := Int.dvd_add hl hrd
    split at e1
    · exact mult_unique (by omega) h512 h512' (d := g.1.locA + room 512 g.1) (by omega) (by omega) (by omega) (by omega)
    · exact mult_unique (by omega) h512 h512' (d := g.1.locA + g.1.hdr + g.1.size) (by omega) (by omega) (by omega) (by omega)

/-- One entry is read. -/
theorem readsTo_entry {L : LegEnv} {A : Bytes} {dstart : Nat} {acc : Int} {g : Frag × List Frag} {m : Member}
    (hg : Laid acc g) (he : EntOk L g.1 m)
    (hp : ∀ f ∈ g.2, Holds A (dstart + (fragStart f).toNat) (pieceOf L f))
    (hA : dstart + (g.1.locA + room 512 g.1).toNat ≤ A.length) :
    ReadsTo A (dstart + g.1.locA.toNat) (dstart + (g.1.locA + room 512 g.1).toNat) [m] := by
  have hh := entry_holds hg he hp
  obtain ⟨t, _, ht⟩ := he.hdr
  have hl := C01_header_length L.env t _ ht
  have hlen := he.len
  have hb := he.body_length
  have hloc := hg.loc
  have hroom : room 512 g.1 = (((hdrOf L g.1.rel).length + pad512 (bodyOf L g.1).length : Nat) : Int) := by
    unfold room pad512
    push_cast
    rw [hb, hlen]
    omega
  have e : dstart + (g.1.locA + room 512 g.1).toNat =
      dstart + g.1.locA.toNat + (hdrOf L g.1.rel).length + pad512 (bodyOf L g.1).length := by
    rw [hroom]; omega
  rw [e]
  exact readsTo_member hh hl.2.2 (not_zero_block ht) (by rw [← e]; exact hA) he.read

/-- From the end of a bucket's fragments to the next bucket. -/
theorem readsTo_next {L : LegEnv} {acc : Int} (hs : LegSetup L acc) {dstart : Nat} {fr : List Frag} {K : Nat} {A : Bytes}
    (hw : Filled L acc dstart fr K A) {k : Nat} (hk : k < K) (h0 : acc * k ≤ endOfGroup fr k) (h512 : (512 : Int) ∣ endOfGroup fr k)
    (hle : endOfGroup fr k ≤ acc * k + acc) :
    ∃ ms : List Member, (∀ m ∈ ms, ownMember m = true) ∧
      ReadsTo A (dstart + (endOfGroup fr k).toNat) (dstart + (k + 1) * acc.toNat) ms := by
  have hacc := hs.accMin
  have hmax := hs.accMax
  have hterm := hw.long
  have hnn : 0 ≤ acc * k := Int.mul_nonneg (by omega) (by omega)
  have hmul : ((k + 1) * acc.toNat : Nat) = (acc * k + acc).toNat := by
    have : (((k + 1) * acc.toNat : Nat) : Int) = acc * k + acc := by
      push_cast
      rw [Int.toNat_of_nonneg (by omega)]; ring
    omega
  have hKm : (k + 1) * acc.toNat ≤ K * acc.toNat := Nat.mul_le_mul_right _ hk
  by_cases hlt : endOfGroup fr k < acc * k + acc
  · have hf := hw.filler k hk hlt
    obtain ⟨q, hq⟩ : (512 : Int) ∣ acc * k + acc - endOfGroup fr k :=
      Int.dvd_sub (Int.dvd_add (Dvd.dvd.mul_right hs.accDvd _) hs.accDvd) h512
    have hdv : 512 ∣ (acc * k + acc - endOfGroup fr k - 512).toNat := ⟨(q - 1).toNat, by omega⟩
    have hsz : acc * k + acc - endOfGroup fr k - 512 = (((acc * k + acc - endOfGroup fr k - 512).toNat : Nat) : Int) := by
      omega
    rw [hsz] at hf
    obtain ⟨m, m1, m2⟩ := readsTo_filler (by decide) (by decide) (by omega) (hs.clock k) hdv hf (by omega)
    refine ⟨[m], by intro x hx; simp at hx; subst hx; simp [ownMember, m1, spacerName], ?_⟩
    have e : dstart + (endOfGroup fr k).toNat + 512 + (acc * k + acc - endOfGroup fr k - 512).toNat =
        dstart + (k + 1) * acc.toNat := by rw [hmul]; omega
    rw [e] at m2
    exact m2
  · refine ⟨[], by simp, ?_⟩
    rw [hmul, show (acc * k + acc).toNat = (endOfGroup fr k).toNat by omega]
    exact ReadsTo.refl _ _

/-- The fragments of a bucket end where the last one of them ends, if those after it are in later
buckets. -/
theorem endOfGroup_last {acc lb : Int} {pre post : List Frag} {p : Frag} {k : Nat} (hp : pre.getLast? = some p)
    (hb : p.bucket = k) (ht : TightFrom 512 acc lb 0 (pre ++ post)) (hf : ∀ f ∈ post.head?, p.bucket < f.bucket) :
    endOfGroup (pre ++ post) k = fragStart p + blockedWritten 512 p := by
  have hsort := ht.sorted.2
  have hnil : post.filter (fun f => decide (f.bucket = (k : Int))) = [] := by
    rw [List.filter_eq_nil_iff]
    intro f hfm
    cases post with
    | nil => simp at hfm
    | cons a post =>
      have h1 := hf a (by simp)
      rw [List.pairwise_append] at hsort
      have h2 : a.bucket ≤ f.bucket := by
        rcases List.mem_cons.1 hfm with rfl | h
        · exact le_refl _
        · exact (List.pairwise_cons.1 hsort.2.1).1 f h
      simp only [decide_eq_true_eq]; omega
  obtain ⟨l, rfl⟩ : ∃ l, pre = l ++ [p] := by
    obtain ⟨l, hl⟩ := List.getLast?_eq_some_iff.1 hp
    exact ⟨l, hl⟩
  unfold endOfGroup groupOf
  rw [List.filter_append, hnil, List.append_nil, List.filter_append, List.filter_cons_of_pos (by simpa using hb)]
  simp

/-- The data region reads back as what its entries read as, with fillers between them. -/
theorem readsTo_entries_gen {L : LegEnv} {acc : Int} (hs : LegSetup L acc) {dstart : Nat} {fr : List Frag} {call : List Nat} {A : Bytes}
    (hr : Ready L acc fr call) (hw : Filled L acc dstart fr call.length A) :
    ∀ (gs : List (Frag × List Frag)) (ms : List Member) (pre : List Frag) (lb en : Int), fr = pre ++ outFrags gs →
    TightFrom 512 acc lb en (outFrags gs) → (pre = [] → lb = -1 ∧ en = 0) →
    (∀ p ∈ pre.getLast?, lb = p.bucket ∧ en = fragStart p + blockedWritten 512 p) →
    (∀ g ∈ gs, Laid acc g ∧ g.2 ≠ [] ∧ ∀ f ∈ g.2.head?, fragStart f = g.1.locA) →
    List.Forall₂ (fun g m => (dstart + (g.1.locA + room 512 g.1).toNat ≤ A.length →
      ReadsTo A (dstart + g.1.locA.toNat) (dstart + (g.1.locA + room 512 g.1).toNat) [m]) ∧ ownMember m = false) gs ms →
    ∃ all, ReadsTo A (dstart + en.toNat) (dstart + call.length * acc.toNat) all ∧ all.filter (fun m => !ownMember m) = ms := by
  obtain ⟨⟨hn1, hn2⟩, hK⟩ := hr.numbered
  have hacc := hs.accMin
  have hterm := hw.long
  have hdv := hr.tight.dvd hs.accDvd (by simp)
  -- the way to the next bucket
  have next : ∀ (pre post : List Frag) (p : Frag) (k : Nat), fr = pre ++ post → pre.getLast? = some p → p.bucket = k →
      (∀ f ∈ post.head?, p.bucket < f.bucket) → ∃ ms : List Member, (∀ m ∈ ms, ownMember m = true) ∧
      ReadsTo A (dstart + (fragStart p + blockedWritten 512 p).toNat) (dstart + (k + 1) * acc.toNat) ms := by
    intro pre post p k hfr hp hb hf
    have hpm : p ∈ fr := by rw [hfr]; exact List.mem_append_left _ (List.mem_of_getLast? hp)
    have hk : k < call.length := by have := (hn1 p hpm).2; omega
    have he := endOfGroup_last hp hb (by rw [← hfr]; exact hr.tight) hf
    rw [← hfr] at he
    have hne : groupOf fr k ≠ [] := by
      intro h
      have : p ∈ groupOf fr k := by unfold groupOf; rw [List.mem_filter]; exact ⟨hpm, by simpa using hb⟩
      rw [h] at this; simp at this
    obtain ⟨g1, g2, g3⟩ := hr.group hs.accDvd hne
    rw [← he]
    exact readsTo_next hs hw hk g1.bounds.1 g2 g3
  intro gs
  induction gs with
  | nil =>
    intro ms pre lb en hfr _ h0 hl _ hms
    cases hms
    have hpre : pre ≠ [] := by
      rintro rfl
      obtain ⟨f, hf, _⟩ := hn2 0 hK
      rw [hfr] at hf; simp at hf
    obtain ⟨p, hp⟩ : ∃ p, pre.getLast? = some p := by
      cases h : pre.getLast? with
      | none => exact absurd (List.getLast?_eq_none_iff.1 h) hpre
      | some p => exact ⟨p, rfl⟩
    obtain ⟨rfl, rfl⟩ := hl p hp
    have hpm : p ∈ fr := by rw [hfr]; exact List.mem_append_left _ (List.mem_of_getLast? hp)
    have hb : p.bucket = ((call.length - 1 : Nat) : Int) := by
      obtain ⟨f, hf, hfb⟩ := hn2 (call.length - 1) (by omega)
      have h1 := (hn1 p hpm).2
      have h2 : f.bucket ≤ p.bucket := by
        rw [hfr] at hf
        simp at hf
        obtain ⟨l, rfl⟩ := List.getLast?_eq_some_iff.1 hp
        have hso := hr.tight.sorted.2
        rw [hfr] at hso
        simp only [outFrags, List.flatMap_nil, List.append_nil] at hso
        rcases List.mem_append.1 hf with hf | hf
        · exact (List.pairwise_append.1 hso).2.2 f hf p (by simp)
        · simp at hf; subst hf; exact le_refl _
      omega
    obtain ⟨xs, x1, x2⟩ := next pre (outFrags []) p _ hfr hp hb (by simp)
    rw [show call.length - 1 + 1 = call.length by omega] at x2
    refine ⟨xs, x2, ?_⟩
    rw [List.filter_eq_nil_iff]
    intro m hm
    simp [x1 m hm]
  | cons g gs ih =>
    intro ms pre lb en hfr ht h0 hl hg hms
    obtain ⟨hg1, hg2, hg3⟩ := hg g (by simp)
    cases hms with
    | cons hm hms =>
    rename_i m ms
    obtain ⟨f, fs, hgf⟩ := List.exists_cons_of_ne_nil hg2
    have hst := hg3 f (by rw [hgf]; simp)
    obtain ⟨x, hx⟩ : ∃ x, g.2.getLast? = some x := by
      cases h : g.2.getLast? with
      | none => exact absurd (List.getLast?_eq_none_iff.1 h) hg2
      | some p => exact ⟨p, rfl⟩
    rw [outFrags_cons] at hfr ht
    have hmem : ∀ y ∈ g.2, y ∈ fr := by
      intro y hy; rw [hfr]; simp [hy]
    have hxm : x ∈ g.2 := List.mem_of_getLast? hx
    have hdl : (512 : Int) ∣ g.1.locA := by rw [← hst]; exact hdv f (hmem f (by rw [hgf]; simp))
    have hxe := laid_end hg1 (fun y hy => hdv y (hmem y hy)) hdl hx
    -- the rest
    obtain ⟨all, a1, a2⟩ := ih ms (pre ++ g.2) x.bucket (fragStart x + blockedWritten 512 x)
      (by rw [hfr, List.append_assoc]) (ht.after hx) (by simp [hg2]) (by
        intro p hp
        rw [List.getLast?_append, hx] at hp
        simp at hp
        subst hp
        exact ⟨rfl, rfl⟩)
      (fun y hy => hg y (by simp [hy])) hms
    -- the entry
    have hle : (g.1.locA + room 512 g.1).toNat ≤ call.length * acc.toNat := by
      rw [← hxe]
      have hb := (hn1 x (hmem x hxm)).2
      have hxx : fragStart x + blockedWritten 512 x ≤ (x.bucket + 1) * acc := by
        have key : ∀ (fs : List Frag) (lb en : Int), TightFrom 512 acc lb en fs → x ∈ fs →
            fragStart x + blockedWritten 512 x ≤ (x.bucket + 1) * acc := by
          intro fs
          induction fs with
          | nil => intro _ _ _ h; simp at h
          | cons y ys ih =>
            intro lb en h hxy
            obtain ⟨_, t2, _, t4⟩ := h
            rcases List.mem_cons.1 hxy with rfl | hxy
            · exact t2
            · exact ih _ _ t4 hxy
        exact key _ _ _ hr.tight (hmem x hxm)
      have : (x.bucket + 1) * acc ≤ (call.length : Int) * acc := Int.mul_le_mul_of_nonneg_right (by omega) (by omega)
      have hc : ((call.length * acc.toNat : Nat) : Int) = (call.length : Int) * acc := by
        push_cast; rw [Int.toNat_of_nonneg (by omega)]
      omega
    have hent := hm.1 (by omega)
    rw [← hxe] at hent
    -- the way to the entry
    obtain ⟨xs, x1, x2⟩ : ∃ xs : List Member, (∀ m ∈ xs, ownMember m = true) ∧
        ReadsTo A (dstart + en.toNat) (dstart + g.1.locA.toNat) xs := by
      rw [← hst]
      rw [hgf] at ht
      obtain ⟨t1, _⟩ := ht
      rcases t1 with ⟨_, h⟩ | ⟨hlt, h⟩
      · rw [h]; exact ⟨[], by simp, ReadsTo.refl _ _⟩
      · by_cases hpre : pre = []
        · obtain ⟨rfl, rfl⟩ := h0 hpre
          have hfb : f.bucket = 0 := by
            obtain ⟨y, hy, hyb⟩ := hn2 0 hK
            have h1 := (hn1 f (hmem f (by rw [hgf]; simp))).1
            have h2 : f.bucket ≤ y.bucket := by
              have hso := hr.tight.sorted.2
              rw [hfr, hpre, hgf] at hso
              rw [hfr, hpre, hgf] at hy
              simp only [List.nil_append, List.cons_append] at hso hy
              rcases List.mem_cons.1 hy with rfl | hy
              · exact le_refl _
              · exact (List.pairwise_cons.1 hso).1 y hy
            simp at hyb
            omega
          rw [h, hfb, Int.zero_mul]
          exact ⟨[], by simp, ReadsTo.refl _ _⟩
        · obtain ⟨p, hp⟩ : ∃ p, pre.getLast? = some p := by
            cases h : pre.getLast? with
            | none => exact absurd (List.getLast?_eq_none_iff.1 h) hpre
            | some p => exact ⟨p, rfl⟩
          obtain ⟨rfl, rfl⟩ := hl p hp
          have hpm : p ∈ fr := by rw [hfr]; exact List.mem_append_left _ (List.mem_of_getLast? hp)
          have hpb := (hn1 p hpm).1
          have hfb : f.bucket = p.bucket + 1 := by
            by_contra hne
            have hfl := (hn1 f (hmem f (by rw [hgf]; simp))).2
            obtain ⟨y, hy, hyb⟩ := hn2 (p.bucket + 1).toNat (by omega)
            have hso := hr.tight.sorted.2
            rw [hfr] at hy hso
            rw [List.pairwise_append] at hso
            rcases List.mem_append.1 hy with hy | hy
            · obtain ⟨l, hl2⟩ := List.getLast?_eq_some_iff.1 hp
              have h2 := hso.1
              rw [hl2] at h2 hy
              rcases List.mem_append.1 hy with hy | hy
              · have := (List.pairwise_append.1 h2).2.2 y hy p (by simp); omega
              · simp at hy; subst hy; omega
            · have h2 := hso.2.1
              rw [hgf, List.cons_append] at h2 hy
              rcases List.mem_cons.1 hy with rfl | hy
              · omega
              · have := (List.pairwise_cons.1 h2).1 y hy; omega
          obtain ⟨xs, x1, x2⟩ := next pre (g.2 ++ outFrags gs) p p.bucket.toNat hfr hp (by omega)
            (by rw [hgf]; simp; omega)
          refine ⟨xs, x1, ?_⟩
          have e : (fragStart f).toNat = (p.bucket.toNat + 1) * acc.toNat := by
            rw [h, hfb]
            have : (((p.bucket.toNat + 1) * acc.toNat : Nat) : Int) = (p.bucket + 1) * acc := by
              push_cast
              rw [Int.toNat_of_nonneg hpb, Int.toNat_of_nonneg (by omega)]
            omega
          rw [e]; exact x2
    refine ⟨xs ++ ([m] ++ all), ?_, ?_⟩
    · rw [← List.append_assoc]; exact (x2.trans hent).trans a1
    · rw [List.filter_append, List.filter_append, a2]
      have : xs.filter (fun m => !ownMember m) = [] := by
        rw [List.filter_eq_nil_iff]; intro y hy; simp [x1 y hy]
      rw [this]
      simp [hm.2]

/-- The data region reads back as what its entries read as, with fillers between them. -/
theorem read_entries_gen {L : LegEnv} {acc : Int} (hs : LegSetup L acc) {dstart : Nat} {fr : List Frag} {call : List Nat} {A : Bytes}
    (hr : Ready L acc fr call) (hw : Written L acc dstart fr call.length A)
    (gs : List (Frag × List Frag)) (ms : List Member) (pre : List Frag) (lb en : Int) (hfr : fr = pre ++ outFrags gs)
    (ht : TightFrom 512 acc lb en (outFrags gs)) (h0 : pre = [] → lb = -1 ∧ en = 0)
    (hl : ∀ p ∈ pre.getLast?, lb = p.bucket ∧ en = fragStart p + blockedWritten 512 p)
    (hg : ∀ g ∈ gs, Laid acc g ∧ g.2 ≠ [] ∧ ∀ f ∈ g.2.head?, fragStart f = g.1.locA)
    (hms : List.Forall₂ (fun g m => (dstart + (g.1.locA + room 512 g.1).toNat ≤ A.length →
      ReadsTo A (dstart + g.1.locA.toNat) (dstart + (g.1.locA + room 512 g.1).toNat) [m]) ∧ ownMember m = false) gs ms) :
    ∃ all, ReadsAs (A.drop (dstart + en.toNat)) all ∧ all.filter (fun m => !ownMember m) = ms := by
  obtain ⟨all, a1, a2⟩ := readsTo_entries_gen hs hr hw.toFilled gs ms pre lb en hfr ht h0 hl hg hms
  have hend : ReadsAs (A.drop (dstart + call.length * acc.toNat)) [] := by
    have := hw.term
    unfold Holds at this
    have hz : (zeros 1024).length = 1024 := by unfold zeros; rw [List.length_replicate]
    rw [hz] at this
    exact ⟨by rw [readArchive, if_pos (Or.inr this)], by rw [terminated, if_pos this]⟩
  exact ⟨all, by simpa using a1 _ hend, a2⟩

/-- The data region reads back as the entries, with fillers between them. -/
theorem readsTo_entries {L : LegEnv} {acc : Int} (hs : LegSetup L acc) {dstart : Nat} {fr : List Frag} {call : List Nat} {A : Bytes}
    (hr : Ready L acc fr call) (hw : Filled L acc dstart fr call.length A)
    (gs : List (Frag × List Frag)) (ms : List Member) (hfr : fr = outFrags gs)
    (hg : ∀ g ∈ gs, Laid acc g ∧ g.2 ≠ [] ∧ ∀ f ∈ g.2.head?, fragStart f = g.1.locA)
    (hms : List.Forall₂ (fun g m => EntOk L g.1 m ∧ ownMember m = false) gs ms) :
    ∃ all, ReadsTo A dstart (dstart + call.length * acc.toNat) all ∧ all.filter (fun m => !ownMember m) = ms := by
  have hms' : List.Forall₂ (fun g m => (dstart + (g.1.locA + room 512 g.1).toNat ≤ A.length →
      ReadsTo A (dstart + g.1.locA.toNat) (dstart + (g.1.locA + room 512 g.1).toNat) [m]) ∧ ownMember m = false) gs ms := by
    have hall : ∀ g ∈ gs, Laid acc g ∧ ∀ y ∈ g.2, y ∈ fr := by
      intro g hgm
      refine ⟨(hg g hgm).1, fun y hy => ?_⟩
      rw [hfr, outFrags, List.mem_flatMap]
      exact ⟨g, hgm, hy⟩
    clear hg hfr
    induction hms with
    | nil => exact .nil
    | cons h _ ih =>
      obtain ⟨h1, h2⟩ := hall _ List.mem_cons_self
      exact .cons ⟨fun hA => readsTo_entry h1 h.1 (fun y hy => hw.pieces y (h2 y hy)) hA, h.2⟩
        (ih (fun g hg => hall g (List.mem_cons_of_mem _ hg)))
  have := readsTo_entries_gen hs hr hw gs ms [] (-1) 0 hfr (by rw [← hfr]; exact hr.tight) (fun _ => ⟨rfl, rfl⟩) (by simp) hg hms'
  simpa using this

/-- The data region reads back as the entries, with fillers between them. -/
theorem read_entries {L : LegEnv} {acc : Int} (hs : LegSetup L acc) {dstart : Nat} {fr : List Frag} {call : List Nat} {A : Bytes}
    (hr : Ready L acc fr call) (hw : Written L acc dstart fr call.length A)
    (gs : List (Frag × List Frag)) (ms : List Member) (hfr : fr = outFrags gs)
    (hg : ∀ g ∈ gs, Laid acc g ∧ g.2 ≠ [] ∧ ∀ f ∈ g.2.head?, fragStart f = g.1.locA)
    (hms : List.Forall₂ (fun g m => EntOk L g.1 m ∧ ownMember m = false) gs ms) :
    ∃ all, ReadsAs (A.drop dstart) all ∧ all.filter (fun m => !ownMember m) = ms := by
  obtain ⟨all, a1, a2⟩ := readsTo_entries hs hr hw.toFilled gs ms hfr hg hms
  have hend : ReadsAs (A.drop (dstart + call.length * acc.toNat)) [] := by
    have := hw.term
    unfold Holds at this
    have hz : (zeros 1024).length = 1024 := by unfold zeros; rw [List.length_replicate]
    rw [hz] at this
    exact ⟨by rw [readArchive, if_pos (Or.inr this)], by rw [terminated, if_pos this]⟩
  exact ⟨all, by simpa using a1 _ hend, a2⟩

end Parfu
