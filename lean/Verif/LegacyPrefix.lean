/-
Lemmas: an archive of which only a beginning is there.
-/
import Verif.InterruptLemmas
import Verif.LegacyArchiveWrites
set_option autoImplicit false

namespace Parfu
open SplitSpec Props MoveSpec TarSpec LegacyRunSpec

theorem terminated_len (b : Bytes) (h : terminated b = true) : 1024 ≤ b.length := by
  induction hn : b.length using Nat.strongRecOn generalizing b with
  | _ k ih =>
    rw [terminated] at h
    split at h
    · rename_i hz
      have := congrArg List.length hz
      unfold zeros at this
      rw [List.length_take, List.length_replicate] at this
      omega
    · split at h
      · cases h
      · split at h
        · rename_i rest _ hlt
          have := ih rest.length (by omega) rest h rfl
          omega
        · cases h

/-- What stands after the end mark of an archive is not looked at. -/
theorem terminated_append (b z : Bytes) (h : terminated b = true) :
    readArchive (b ++ z) = readArchive b ∧ terminated (b ++ z) = true := by
  induction hn : b.length using Nat.strongRecOn generalizing b with
  | _ k ih =>
    have hlen := terminated_len b h
    have htake : (b ++ z).take 1024 = b.take 1024 := by rw [List.take_append_of_le_length hlen]
    rw [terminated] at h
    split at h
    · rename_i hz
      constructor
      · rw [readArchive, if_pos (.inr (by rw [htake]; exact hz)), readArchive, if_pos (.inr hz)]
      · rw [terminated, if_pos (by rw [htake]; exact hz)]
    · rename_i hz
      split at h
      · cases h
      rename_i m rest hm
      split at h
      swap
      · cases h
      rename_i hlt
      obtain ⟨c, c1, c2, c3⟩ := readMember_grows b m rest hm
      have hrest : rest = b.drop (c + pad512 m.size) := by
        have := c3 []
        rw [List.append_nil, hm] at this
        simpa using this
      have hrl := terminated_len rest h
      have hdrop : (b ++ z).drop (c + pad512 m.size) = rest ++ z := by
        rw [hrest, List.drop_append_of_le_length]
        rw [hrest, List.length_drop] at hrl
        omega
      have hm' := c3 z
      rw [hdrop] at hm'
      obtain ⟨i1, i2⟩ := ih rest.length (by omega) rest h rfl
      have hne : ¬ (b = [] ∨ b.take 1024 = zeros 1024) := by
        rintro (h | h)
        · rw [h] at hlen; simp at hlen
        · exact hz h
      have hne' : ¬ (b ++ z = [] ∨ (b ++ z).take 1024 = zeros 1024) := by
        rw [htake]
        rintro (h | h)
        · have := congrArg List.length h
          rw [List.length_append, List.length_nil] at this
          omega
        · exact hz h
      have hl2 : (rest ++ z).length < (b ++ z).length := by
        rw [List.length_append, List.length_append]; omega
      constructor
      · rw [readArchive, if_neg hne', hm', readArchive, if_neg hne, hm]
        simp only []
        rw [dif_pos hl2, dif_pos hlt, i1]
      · rw [terminated, htake, if_neg hz, hm']
        simp only []
        rw [dif_pos hl2]
        exact i2

/-- One empty member and the end mark. -/
theorem readsAs_one {name : Bytes} (hn : name.length ≤ 99) (h0 : (0 : UInt8) ∉ name) :
    ∃ T m, ReadsAs T [m] ∧ m.path = name := by
  have hz : ReadsAs (zeros 1024) [] := by
    have : (zeros 1024).take 1024 = zeros 1024 := by
      rw [List.take_of_length_le]; unfold zeros; rw [List.length_replicate]
    exact ⟨by rw [readArchive, if_pos (.inr this)], by rw [terminated, if_pos this]⟩
  obtain ⟨m, m1, _, _, _, m2⟩ := legacyHeader_read (name := name) (size := 0) (mtime := 0) hn h0
    (by omega) (by omega) [] rfl
  have hl := legacyHeader_length name (size := (0 : Nat)) (mtime := 0) (by omega) (by omega)
  have hm : readMember (legacyHeader name (0 : Nat) 0 ++ zeros 1024) = some (m, zeros 1024) := by
    have := m2 [] (zeros 1024) (by simp [pad512])
    simpa using this
  have hnz := legacyHeader_not_zero (name := name) (size := (0 : Nat)) (mtime := 0) (by omega) (by omega) (zeros 1024)
  have hlt : (zeros 1024).length < (legacyHeader name (0 : Nat) 0 ++ zeros 1024).length := by
    rw [List.length_append, hl]; omega
  refine ⟨legacyHeader name (0 : Nat) 0 ++ zeros 1024, m, ⟨?_, ?_⟩, m1⟩
  · rw [readArchive, if_neg, hm]
    · simp only []
      rw [dif_pos hlt, hz.1]
    · rintro (h | h)
      · rw [h] at hlt; simp at hlt
      · exact hnz h
  · rw [terminated, if_neg hnz, hm]
    simp only []
    rw [dif_pos hlt]
    exact hz.2

/-- If whatever ends an archive is read after these bytes, they are themselves not ended. -/
theorem open_of_readsTo {B : Bytes} (h : ∀ T tail, ReadsAs T tail → ∃ ms, ReadsAs (B ++ T) (ms ++ tail)) :
    ∀ p, p <+: B → terminated p = false := by
  intro p ⟨u, hu⟩
  by_contra ht
  have ht : terminated p = true := by simpa using ht
  have key : ∀ T tail, ReadsAs T tail → ∃ ms, readArchive p = some (ms ++ tail) := by
    intro T tail hT
    obtain ⟨ms, hms⟩ := h T tail hT
    refine ⟨ms, ?_⟩
    have := hms.1
    rw [← hu, List.append_assoc, (terminated_append p _ ht).1] at this
    exact this
  obtain ⟨T1, m1, t1, p1⟩ := readsAs_one (name := spacerName) (by decide) (by decide)
  obtain ⟨T2, m2, t2, p2⟩ := readsAs_one (name := catalogName) (by decide) (by decide)
  obtain ⟨ms1, k1⟩ := key _ _ t1
  obtain ⟨ms2, k2⟩ := key _ _ t2
  rw [k1] at k2
  have := congrArg List.getLast? (Option.some.inj k2)
  simp only [List.getLast?_append, List.getLast?_singleton, Option.some_or, Option.some.injEq] at this
  rw [this, p2] at p1
  exact absurd p1 (by decide)

/-- The writes of a run: the last of them, by its place in the file, is the end mark; a file that holds
all the others, and nothing from the place of the end mark on, is not ended, and no beginning of it is. -/
theorem run_open {L : LegEnv} {nul pad : Bytes} {acc : Int} {es : List Frag} {ms : List Member} (hr : RunOk L acc es ms)
    (hpad : LegTabFree pad) (hnul : LegTabFree nul) {n : Nat} (hn : 0 < n) {front : List WriteReq} {wss : List (List WriteReq)}
    (h : legacyRun L nul 512 acc pad es n = .ok (some (front, wss)))
    (hgap : ∀ cat, listToBuffer nul true acc es = .ok (some cat) → (512 + cat.length + 512) % acc.toNat ≠ 0) :
    ∃ z, (∀ w ∈ front ++ wss.flatten, w = (z, zeros 1024) ∨ (w.1 < z ∧ w.1 + w.2.length ≤ z)) ∧
      (z, zeros 1024) ∈ wss.flatten ∧
      (∀ B : Bytes, B.length = z → (∀ w ∈ front ++ wss.flatten, w ≠ (z, zeros 1024) → Holds B w.1 w.2) →
        ∀ p, p <+: B → terminated p = false) ∧
      ∀ A : Bytes, (∀ w ∈ front ++ wss.flatten, Holds A w.1 w.2) → terminated A = true := by
  obtain ⟨cat, gs, call, D, hcat, hfw, hready, hlaid, hent, hD, hperm⟩ := run_parts hr hpad hnul hn h
  have hs := hr.setup
  have hmin := hr.accMin
  have hmax := hr.accMax
  have hclen : cat.length < 2 ^ 32 := listToBuffer_le hcat
  have hdn : 512 ∣ acc.toNat := by have := hr.accDvd; omega
  have hfront := frontWrites_ok (acc := acc.toNat) (by omega) (by omega) hdn hclen hr.clockCat hr.clockGap hfw
  obtain ⟨_, hK⟩ := hready.numbered
  have hDl : ∀ i < call.length, ((D i).length : Int) ≤ acc := by
    intro i hi
    obtain ⟨rest, r1, r2, r3, r4⟩ := hready.drop hi
    obtain ⟨g1, g2, g3⟩ := hready.group hs.accDvd r2
    exact (hD i hi).length_le g3 g2 hs.accDvd
  obtain ⟨d1, d2, d3⟩ := dataOffset_spec (acc := acc.toNat) (len := 512 + cat.length) (by omega)
  generalize hds : dataOffset acc.toNat (512 + cat.length) = ds at *
  have hg1 : 512 + cat.length + 512 ≠ ds := by
    intro he
    apply hgap cat hcat
    rw [he]
    exact Nat.mod_eq_zero_of_dvd d1
  have hKm : acc.toNat ≤ call.length * acc.toNat := Nat.le_mul_of_pos_left _ hK
  have hcase : ∀ w ∈ front ++ wss.flatten, w = (ds + call.length * acc.toNat, zeros 1024) ∨
      (w.1 < ds + call.length * acc.toNat ∧ w.1 + w.2.length ≤ ds + call.length * acc.toNat) := by
    intro w hw
    rcases List.mem_append.1 hw with hw | hw
    · have := hfront.below w hw; right; omega
    · rw [hperm.mem_iff] at hw
      unfold writesFor at hw
      rw [List.mem_flatMap] at hw
      obtain ⟨i, hi, hw⟩ := hw
      have hi : i < call.length := by simpa using hi
      have hm : (i + 1) * acc.toNat ≤ call.length * acc.toNat := Nat.mul_le_mul_right _ hi
      have e : (i + 1) * acc.toNat = i * acc.toNat + acc.toNat := by rw [Nat.add_mul]; omega
      have := hDl i hi
      unfold bucketWrites at hw
      rcases List.mem_cons.1 hw with rfl | hw
      · right; simp only []; omega
      · split at hw
        · rename_i hl
          simp only [decide_eq_true_eq] at hl
          simp at hw; subst hw
          left; rw [hl]
        · simp at hw
  have hD1 : ∀ k < call.length, (ds + k * acc.toNat, D k) ∈ wss.flatten := by
    intro k hk
    rw [hperm.mem_iff]
    unfold writesFor
    rw [List.mem_flatMap]
    exact ⟨k, by simpa using hk, by simp [bucketWrites]⟩
  refine ⟨ds + call.length * acc.toNat, hcase, ?_, ?_, ?_⟩
  · rw [hperm.mem_iff]
    unfold writesFor
    rw [List.mem_flatMap]
    refine ⟨call.length - 1, by simp; omega, ?_⟩
    unfold bucketWrites
    rw [show call.length - 1 + 1 = call.length by omega]
    simp
  · intro B hB hw
    -- the same for the file with anything after it
    have hlift : ∀ T : Bytes, ∀ w ∈ front ++ wss.flatten, w ≠ (ds + call.length * acc.toNat, zeros 1024) →
        Holds (B ++ T) w.1 w.2 := by
      intro T w hwm hne
      have h1 := hw w hwm hne
      have h2 : w.1 + w.2.length ≤ ds + call.length * acc.toNat := by
        rcases hcase w hwm with h | h
        · exact absurd h hne
        · exact h.2
      unfold Holds at h1 ⊢
      rw [List.drop_append_of_le_length (by omega), List.take_append_of_le_length (by rw [List.length_drop]; omega)]
      exact h1
    refine open_of_readsTo fun T tail hT => ?_
    have hne : ∀ w ∈ front, w ≠ (ds + call.length * acc.toNat, zeros 1024) := by
      intro w hw he
      have := hfront.below w hw
      rw [he] at this
      simp only [] at this
      omega
    have hal : (B ++ T).length = ds + call.length * acc.toNat + T.length := by rw [List.length_append, hB]
    obtain ⟨m, xs, m1, m2, m3, m4⟩ := readsTo_front (A := B ++ T) (by omega) hclen hr.clockCat hr.clockGap hfront hg1
      (by omega) (fun w hw => hlift T w (by simp [hw]) (hne w hw))
    have hfill := filled_of_holds hs hready hD (dstart := ds) (A := B ++ T) (by
      intro k hk
      refine hlift T _ (List.mem_append_right _ (hD1 k hk)) ?_
      intro he
      have hm : (k + 1) * acc.toNat ≤ call.length * acc.toNat := Nat.mul_le_mul_right _ hk
      have e : (k + 1) * acc.toNat = k * acc.toNat + acc.toNat := by rw [Nat.add_mul]; omega
      have := congrArg Prod.fst he
      simp only [] at this
      omega) (by omega)
    obtain ⟨all, a1, _⟩ := readsTo_entries hs hready hfill gs ms rfl hlaid hent
    refine ⟨m :: xs ++ all, ?_⟩
    have := (m4.trans a1) tail (by rw [← hB, List.drop_left]; exact hT)
    simpa using this
  · intro A hw
    have hwr := written_of_holds hs hready hD (dstart := ds) (A := A)
      (fun w hw' => hw w (List.mem_append_right _ (hperm.mem_iff.2 hw')))
    have hlong := hwr.long
    obtain ⟨m, xs, m1, m2, m3, m4⟩ := readsTo_front (A := A) (by omega) hclen hr.clockCat hr.clockGap hfront hg1
      (by omega) (fun w hw' => hw w (by simp [hw']))
    obtain ⟨all, a1, _⟩ := read_entries hs hready hwr gs ms rfl hlaid hent
    have := m4 all a1
    exact this.2

end Parfu
