/-
Lemmas: the file that results from all writes of parfu 0.5.1, in any order.
-/
import Verif.LegacyArchiveRead
set_option autoImplicit false

namespace Parfu
open SplitSpec Props MoveSpec TarSpec LegacyRunSpec

/-- Two writes do not meet. -/
def WApart (a b : WriteReq) : Prop := Apart a.1 a.2.length b.1 b.2.length

theorem WApart.symm {a b : WriteReq} (h : WApart a b) : WApart b a := Or.symm h

theorem dataOffset_spec {acc len : Nat} (h : 0 < acc) :
    acc ∣ dataOffset acc len ∧ len ≤ dataOffset acc len ∧ dataOffset acc len < len + acc := by
  unfold dataOffset
  have h1 := Nat.mod_add_div len acc
  have h2 := Nat.mod_lt len h
  rw [Nat.mul_comm] at h1
  split
  · rename_i h3
    exact ⟨⟨_, Nat.mul_comm _ _⟩, by omega, by omega⟩
  · rename_i h3
    refine ⟨⟨_, Nat.mul_comm _ _⟩, ?_, ?_⟩ <;> rw [Nat.add_mul] <;> omega

/-- A number that rounds up to a multiple of 512 as well. -/
theorem pad512_le {a b : Nat} (h : a ≤ b) (hb : 512 ∣ b) : pad512 a ≤ b := by
  unfold pad512; omega

/-- The writes before the data. -/
structure Front (L : LegEnv) (acc : Nat) (cat : Bytes) (front : List WriteReq) (dstart : Nat) : Prop where
  dvd : 512 ∣ dstart
  fit : 512 + pad512 cat.length ≤ dstart
  near : dstart < 512 + cat.length + acc
  hdr : (0, legacyHeader catalogName cat.length L.nowCat) ∈ front
  text : (512, cat) ∈ front
  gap : 512 + cat.length + 512 < dstart →
    (512 + pad512 cat.length, legacyHeader spacerName ((dstart : Int) - (512 + pad512 cat.length : Nat) - 512) L.nowGap) ∈ front
  apart : front.Pairwise WApart
  below : ∀ w ∈ front, w.1 + w.2.length ≤ dstart

theorem frontWrites_ok {L : LegEnv} {acc : Nat} (hacc : 512 ≤ acc) (hmax : acc ≤ 2 ^ 31) (hd : 512 ∣ acc) {cat : Bytes}
    (hcat : cat.length < 2 ^ 32) (h1 : L.nowCat < 2 ^ 64) (h2 : L.nowGap < 2 ^ 64) {front : List WriteReq}
    (h : frontWrites L 512 acc cat = .ok front) : Front L acc cat front (dataOffset acc (512 + cat.length)) := by
  unfold frontWrites at h
  split at h
  · cases h
  rename_i hs hhs
  split at h
  · cases h
  rename_i hne
  have hs512 : hs = 512 := by simpa using hne
  subst hs512
  simp only [Except.ok.injEq] at h
  obtain ⟨d1, d2, d3⟩ := dataOffset_spec (acc := acc) (len := 512 + cat.length) (by omega)
  have d512 : 512 ∣ dataOffset acc (512 + cat.length) := Nat.dvd_trans hd d1
  have hl1 := legacyHeader_length catalogName (size := cat.length) (mtime := L.nowCat) (by omega) h1
  generalize hDS : dataOffset acc (512 + cat.length) = ds at *
  have hp1 : 512 + pad512 cat.length ≤ ds := by
    have := pad512_le (a := cat.length) (b := ds - 512) (by omega) (by omega)
    omega
  have hp2 : cat.length ≤ pad512 cat.length := by unfold pad512; omega
  have hloc : (if (512 + cat.length) % 512 = 0 then 512 + cat.length else 512 + cat.length + (512 - (512 + cat.length) % 512)) =
      512 + pad512 cat.length := by unfold pad512; split <;> omega
  unfold catalogGap at h
  rw [hDS, hloc] at h
  by_cases hg : ds - (512 + cat.length) > 512
  · rw [if_pos hg] at h
    simp only [Nat.cast_ofNat] at h
    have hl2 := legacyHeader_length spacerName (size := (ds : Int) - (512 + pad512 cat.length : Nat) - 512) (mtime := L.nowGap) (by omega) h2
    have hge : 512 + pad512 cat.length + 512 ≤ ds := by
      have : 512 + pad512 cat.length < ds := by unfold pad512; omega
      have : 512 ∣ pad512 cat.length := by unfold pad512; omega
      omega
    subst h
    refine ⟨d512, hp1, d3, by simp, by simp, by intro _; simp, ?_, ?_⟩
    · simp only [List.cons_append, List.nil_append, List.pairwise_cons, List.mem_cons, List.not_mem_nil, or_false]
      refine ⟨?_, ?_, by simp, List.Pairwise.nil⟩
      · rintro w (rfl | rfl)
        · left; simp only [hl1]; omega
        · left; simp only [hl1]; omega
      · rintro w rfl
        left; simp only []; omega
    · intro w hw
      simp only [List.cons_append, List.nil_append, List.mem_cons, List.not_mem_nil, or_false] at hw
      rcases hw with rfl | rfl | rfl
      · simp only [hl1]; omega
      · simp only []; omega
      · simp only [hl2]; omega
  · rw [if_neg hg] at h
    subst h
    refine ⟨d512, hp1, d3, by simp, by simp, by intro h; omega, ?_, ?_⟩
    · simp only [List.cons_append, List.nil_append, List.append_nil, List.pairwise_cons, List.mem_cons, List.not_mem_nil, or_false]
      refine ⟨?_, by simp, List.Pairwise.nil⟩
      rintro w rfl
      left; simp only [hl1]; omega
    · intro w hw
      simp only [List.append_nil, List.mem_cons, List.not_mem_nil, or_false] at hw
      rcases hw with rfl | rfl
      · simp only [hl1]; omega
      · simp only []; omega

/-- The front reads back as the catalog and, if there is one, the filler after it. -/
theorem readsTo_front {L : LegEnv} {acc : Nat} (hmax : acc ≤ 2 ^ 31) {cat : Bytes} (hcat : cat.length < 2 ^ 32)
    (h1 : L.nowCat < 2 ^ 64) (h2 : L.nowGap < 2 ^ 64) {front : List WriteReq} {ds : Nat} (hf : Front L acc cat front ds)
    (hgap : 512 + cat.length + 512 ≠ ds) {A : Bytes} (hA : ds ≤ A.length) (hw : ∀ w ∈ front, Holds A w.1 w.2) :
    ∃ m ms, (m.path = catalogName ∧ m.flag = 48) ∧ m.data = cat ∧ (∀ x ∈ ms, ownMember x = true) ∧ ReadsTo A 0 ds (m :: ms) := by
  have hl1 := legacyHeader_length catalogName (size := cat.length) (mtime := L.nowCat) (by omega) h1
  obtain ⟨m, m1, m2, m3, m4, m5⟩ := legacyHeader_read (name := catalogName) (size := cat.length) (mtime := L.nowCat)
    (by decide) (by decide) (by omega) h1 cat rfl
  have hfit := hf.fit
  have hr := readsTo_member (A := A) (w := 0) (H := legacyHeader catalogName cat.length L.nowCat) (D := cat) (m := m)
    (by rw [holds_append]; refine ⟨hw _ hf.hdr, ?_⟩; rw [hl1]; exact hw _ hf.text) (by omega)
    (legacyHeader_not_zero (by omega) h1) (by rw [hl1]; omega) m5
  rw [hl1, Nat.zero_add] at hr
  have hd := hf.dvd
  have hpd : 512 ∣ pad512 cat.length := by unfold pad512; omega
  have hpl : cat.length ≤ pad512 cat.length ∧ pad512 cat.length < cat.length + 512 := by unfold pad512; omega
  by_cases hg : 512 + cat.length + 512 < ds
  · have hg2 := hw _ (hf.gap hg)
    simp only [] at hg2
    have hsz : (ds : Int) - (512 + pad512 cat.length : Nat) - 512 = ((ds - (512 + pad512 cat.length) - 512 : Nat) : Int) := by omega
    rw [hsz] at hg2
    have hnear := hf.near
    obtain ⟨x, x1, x2⟩ := readsTo_filler (by decide) (by decide) (by omega) h2 (by omega) hg2 (by omega)
    refine ⟨m, [x], ⟨m1, m2⟩, m4, by intro y hy; simp at hy; subst hy; simp [ownMember, x1, spacerName], ?_⟩
    have e : 512 + pad512 cat.length + 512 + (ds - (512 + pad512 cat.length) - 512) = ds := by omega
    rw [e] at x2
    exact hr.trans x2
  · refine ⟨m, [], ⟨m1, m2⟩, m4, by simp, ?_⟩
    have e : 512 + pad512 cat.length = ds := by omega
    rw [e] at hr
    exact hr

/-- The bytes of a bucket stay in its region. -/
theorem BucketData.length_le {L : LegEnv} {acc : Int} {i : Nat} {F : List Frag} {z : Int} {D : Bytes}
    (h : BucketData L acc i F z D) (hz : z ≤ acc * i + acc) (h512 : (512 : Int) ∣ z) (hd : (512 : Int) ∣ acc) :
    (D.length : Int) ≤ acc := by
  by_cases hlt : z < acc * i + acc
  · have := (h.filler hlt).1
    obtain ⟨q, hq⟩ : (512 : Int) ∣ acc * i + acc - z := Int.dvd_sub (Int.dvd_add (Dvd.dvd.mul_right hd _) hd) h512
    omega
  · have := h.full (by omega); omega

theorem bucketWrites_region {acc : Int} (hacc : 0 ≤ acc) {dstart K i : Nat} {D : Bytes} (hD : (D.length : Int) ≤ acc) :
    ∀ w ∈ bucketWrites acc dstart (decide (i + 1 = K)) i D, dstart + i * acc.toNat ≤ w.1 ∧
      (i + 1 < K → w.1 + w.2.length ≤ dstart + (i + 1) * acc.toNat) := by
  intro w hw
  have e : (i + 1) * acc.toNat = i * acc.toNat + acc.toNat := by rw [Nat.add_mul]; omega
  unfold bucketWrites at hw
  rcases List.mem_cons.1 hw with rfl | hw
  · exact ⟨le_refl _, fun _ => by simp only []; omega⟩
  · split at hw
    · rename_i hl
      simp only [decide_eq_true_eq] at hl
      simp at hw
      subst hw
      exact ⟨by simp only []; omega, fun h => by omega⟩
    · simp at hw

theorem writesFor_apart {acc : Int} (hacc : 0 ≤ acc) {dstart K : Nat} {D : Nat → Bytes} (hD : ∀ i < K, ((D i).length : Int) ≤ acc) :
    (writesFor acc dstart K D (List.range K)).Pairwise WApart ∧
    ∀ w ∈ writesFor acc dstart K D (List.range K), dstart ≤ w.1 := by
  constructor
  · unfold writesFor
    rw [List.pairwise_flatMap]
    constructor
    · intro i hi
      have := hD i (by simpa using hi)
      unfold bucketWrites
      rw [List.pairwise_cons]
      constructor
      · intro w hw
        split at hw
        · simp at hw; subst hw
          left
          simp only [Nat.add_mul]
          omega
        · simp at hw
      · split <;> simp
    · refine List.Pairwise.imp_of_mem ?_ (List.pairwise_lt_range (n := K))
      intro i j hi hj hij x hx y hy
      simp only [List.mem_range] at hi hj
      have h1 := (bucketWrites_region hacc (hD i hi) x hx).2 (by omega)
      have h2 := (bucketWrites_region hacc (hD j hj) y hy).1
      have : (i + 1) * acc.toNat ≤ j * acc.toNat := Nat.mul_le_mul_right _ hij
      left
      omega
  · intro w hw
    unfold writesFor at hw
    rw [List.mem_flatMap] at hw
    obtain ⟨i, hi, hw⟩ := hw
    have := (bucketWrites_region hacc (hD i (by simpa using hi)) w hw).1
    omega

/-- After all writes, in any order and whatever the file held before, all of them are there. -/
theorem file_holds {front rs ws : List WriteReq} {dstart : Nat} (hf : front.Pairwise WApart) (hr : rs.Pairwise WApart)
    (hb : ∀ w ∈ front, w.1 + w.2.length ≤ dstart) (ha : ∀ w ∈ rs, dstart ≤ w.1) (hp : ws.Perm (front ++ rs)) (old : Bytes) :
    ∀ w ∈ front ++ rs, Holds (ws.foldl writeAt old) w.1 w.2 := by
  have hall : (front ++ rs).Pairwise WApart := by
    rw [List.pairwise_append]
    refine ⟨hf, hr, ?_⟩
    intro a h1 b h2
    left
    have := hb a h1
    have := ha b h2
    omega
  have hws : ws.Pairwise WApart := (hp.pairwise_iff (fun {a b} h => WApart.symm h)).2 hall
  intro w hw
  exact (foldl_writeAt_holds ws old hws).1 w (hp.mem_iff.2 hw)

/-- So the buckets hold what they should. -/
theorem filled_of_holds {L : LegEnv} {acc : Int} (hs : LegSetup L acc) {dstart : Nat} {fr : List Frag} {call : List Nat}
    (hr : Ready L acc fr call) {D : Nat → Bytes}
    (hD : ∀ i < call.length, BucketData L acc i (groupOf fr i) (endOfGroup fr i) (D i)) {A : Bytes}
    (hbucket : ∀ k < call.length, Holds A (dstart + k * acc.toNat) (D k)) (hlong : dstart + call.length * acc.toNat ≤ A.length) :
    Filled L acc dstart fr call.length A := by
  obtain ⟨⟨hn1, hn2⟩, hK⟩ := hr.numbered
  have hacc := hs.accMin
  have hsub : ∀ (k : Nat) (x : Nat) (s : Bytes), k < call.length → Holds (D k) x s → Holds A (dstart + k * acc.toNat + x) s := by
    intro k x s hk hx
    by_cases hs0 : s = []
    · subst hs0; exact holds_nil _ _
    have hle := holds_le hx hs0
    have hb := hbucket k hk
    rw [holds_iff] at hb hx ⊢
    intro i hi
    rw [Nat.add_assoc, hb (x + i) (by omega), hx i hi]
  have hmul : ∀ k : Nat, ((k * acc.toNat : Nat) : Int) = acc * k := by
    intro k; push_cast; rw [Int.toNat_of_nonneg (by omega)]; ring
  refine ⟨?_, ?_, ?_⟩
  · intro f hf
    obtain ⟨b1, b2⟩ := hn1 f hf
    have hk : f.bucket.toNat < call.length := by omega
    have hmem : f ∈ groupOf fr f.bucket.toNat := by
      unfold groupOf; rw [List.mem_filter]; exact ⟨hf, by simp; omega⟩
    obtain ⟨g1, g2, g3⟩ := hr.group hs.accDvd (List.ne_nil_of_mem hmem)
    have := (g1.bounds.2 f hmem).1
    have h1 := hsub _ _ _ hk ((hD _ hk).pieces f hmem)
    have e : dstart + f.bucket.toNat * acc.toNat + (fragStart f - acc * (f.bucket.toNat : Nat)).toNat = dstart + (fragStart f).toNat := by
      have := hmul f.bucket.toNat
      have h0 : 0 ≤ acc * (f.bucket.toNat : Int) := Int.mul_nonneg (by omega) (by omega)
      omega
    rw [e] at h1
    exact h1
  · intro k hk hlt
    obtain ⟨f, hf, hfb⟩ := hn2 k hk
    have hmem : f ∈ groupOf fr k := by
      unfold groupOf; rw [List.mem_filter]; exact ⟨hf, by simpa using hfb⟩
    obtain ⟨g1, g2, g3⟩ := hr.group hs.accDvd (List.ne_nil_of_mem hmem)
    have := g1.bounds.1
    have h1 := hsub _ _ _ hk ((hD k hk).filler hlt).2
    have e : dstart + k * acc.toNat + (endOfGroup fr k - acc * k).toNat = dstart + (endOfGroup fr k).toNat := by
      have := hmul k
      have h0 : 0 ≤ acc * (k : Int) := Int.mul_nonneg (by omega) (by omega)
      omega
    rw [e] at h1
    exact h1
  · exact hlong

/-- So the data region holds what it should. -/
theorem written_of_holds {L : LegEnv} {acc : Int} (hs : LegSetup L acc) {dstart : Nat} {fr : List Frag} {call : List Nat}
    (hr : Ready L acc fr call) {D : Nat → Bytes}
    (hD : ∀ i < call.length, BucketData L acc i (groupOf fr i) (endOfGroup fr i) (D i)) {A : Bytes}
    (hw : ∀ w ∈ writesFor acc dstart call.length D (List.range call.length), Holds A w.1 w.2) :
    Written L acc dstart fr call.length A := by
  obtain ⟨_, hK⟩ := hr.numbered
  have hbucket : ∀ k < call.length, Holds A (dstart + k * acc.toNat) (D k) := by
    intro k hk
    refine hw (dstart + k * acc.toNat, D k) ?_
    unfold writesFor
    rw [List.mem_flatMap]
    exact ⟨k, by simpa using hk, by simp [bucketWrites]⟩
  have hterm : Holds A (dstart + call.length * acc.toNat) (zeros 1024) := by
    refine hw (dstart + call.length * acc.toNat, zeros 1024) ?_
    unfold writesFor
    rw [List.mem_flatMap]
    refine ⟨call.length - 1, by simp; omega, ?_⟩
    have e : call.length - 1 + 1 = call.length := by omega
    simp [bucketWrites, e]

  have hle := holds_le hterm (by unfold zeros; exact List.cons_ne_nil _ _)
  exact ⟨filled_of_holds hs hr hD hbucket (by omega), hterm⟩

end Parfu
