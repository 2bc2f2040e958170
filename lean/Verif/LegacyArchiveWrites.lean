/-
Lemmas: the writes of a run of parfu 0.5.1 do not meet.
-/
import Verif.LegacyArchiveRun
set_option autoImplicit false

namespace Parfu
open SplitSpec Props MoveSpec TarSpec LegacyRunSpec

theorem writeAt_comm {a b : WriteReq} (h : WApart a b) (f : Bytes) :
    writeAt (writeAt f a) b = writeAt (writeAt f b) a := by
  apply List.ext_getElem?
  intro i
  rw [writeAt_get, writeAt_get, writeAt_get, writeAt_get, writeAt_length, writeAt_length]
  unfold WApart Apart at h
  by_cases h1 : a.1 ≤ i ∧ i < a.1 + a.2.length
  · rw [if_neg (by omega), if_pos (by omega), if_pos h1, if_pos h1]
  · by_cases h2 : b.1 ≤ i ∧ i < b.1 + b.2.length
    · rw [if_pos h2, if_neg h1, if_pos (by omega), if_pos h2]
    · rw [if_neg h2, if_neg h1, if_neg h1, if_neg h2]
      repeat' split
      all_goals first | rfl | omega

/-- Writes that do not meet can be made in any order. -/
theorem foldl_perm {ws ws' : List WriteReq} (hp : ws.Perm ws') (h : ws.Pairwise WApart) (f : Bytes) :
    ws.foldl writeAt f = ws'.foldl writeAt f := by
  apply List.Perm.foldl_eq' hp
  intro a ha b hb z
  by_cases hab : a = b
  · subst hab; rfl
  · have hs : Std.Symm WApart := ⟨fun _ _ => WApart.symm⟩
    exact writeAt_comm (h.forall ha hb hab) z

/-- Where a range nothing is written to lies within the file, a new file has zeros. -/
theorem foldl_untouched {ws : List WriteReq} {a n : Nat} (h : ∀ w ∈ ws, Apart a n w.1 w.2.length) (f : Bytes)
    (hf : ∀ i, a ≤ i → i < a + n → f[i]? = none ∨ f[i]? = some 0) :
    ∀ i, a ≤ i → i < a + n → (ws.foldl writeAt f)[i]? = none ∨ (ws.foldl writeAt f)[i]? = some 0 := by
  induction ws generalizing f with
  | nil => exact hf
  | cons w ws ih =>
    apply ih (fun u hu => h u (by simp [hu]))
    intro i h1 h2
    have := h w (by simp)
    rw [writeAt_get, if_neg (by unfold Apart at this; omega)]
    split
    · exact hf i h1 h2
    · split
      · right; rfl
      · left; rfl

/-- The writes of a successful run: they do not meet, and the end of the archive, two blocks of zeros, is last. -/
theorem run_writes {L : LegEnv} {nul pad : Bytes} {acc : Int} {es : List Frag} {ms : List Member} (hr : RunOk L acc es ms)
    (hpad : LegTabFree pad) (hnul : LegTabFree nul) {n : Nat} (hn : 0 < n) {front : List WriteReq} {wss : List (List WriteReq)}
    (h : legacyRun L nul 512 acc pad es n = .ok (some (front, wss))) :
    (front ++ wss.flatten).Pairwise WApart ∧
    ∃ cat z, listToBuffer nul true acc es = .ok (some cat) ∧ Front L acc.toNat cat front (dataOffset acc.toNat (512 + cat.length)) ∧
      acc.toNat ∣ z ∧ (z, zeros 1024) ∈ wss.flatten ∧ dataOffset acc.toNat (512 + cat.length) < z ∧
      (∀ w ∈ wss.flatten, dataOffset acc.toNat (512 + cat.length) ≤ w.1) ∧
      ∀ w ∈ front ++ wss.flatten, w.1 + w.2.length ≤ z + 1024 := by
  obtain ⟨cat, gs, call, D, hcat, hfw, hready, hlaid, hent, hD, hperm⟩ := run_parts hr hpad hnul hn h
  have hs := hr.setup
  have hmin := hr.accMin
  have hmax := hr.accMax
  have hclen : cat.length < 2 ^ 32 := listToBuffer_le hcat
  have hdn : 512 ∣ acc.toNat := by have := hr.accDvd; omega
  have hfront := frontWrites_ok (acc := acc.toNat) (by omega) (by omega) hdn hclen hr.clockCat hr.clockGap hfw
  obtain ⟨_, hK⟩ := hready.numbered
  have hDl : ∀ i < call.length, ((D i).length : Int) ≤ acc := by
    intro i hi
    obtain ⟨rest, r1, r2, r3, r4⟩ := hready.drop hi
    obtain ⟨g1, g2, g3⟩ := hready.group hs.accDvd r2
    exact (hD i hi).length_le g3 g2 hs.accDvd
  obtain ⟨d1, d2, d3⟩ := dataOffset_spec (acc := acc.toNat) (len := 512 + cat.length) (by omega)
  generalize hds : dataOffset acc.toNat (512 + cat.length) = ds at *
  obtain ⟨w1, w2⟩ := writesFor_apart (dstart := ds) (by omega) hDl
  have hKm : acc.toNat ≤ call.length * acc.toNat := Nat.le_mul_of_pos_left _ hK
  refine ⟨?_, cat, ds + call.length * acc.toNat, hcat, by rw [hds]; exact hfront, Nat.dvd_add d1 ⟨_, Nat.mul_comm _ _⟩, ?_, by rw [hds]; omega, by rw [hds]; exact fun w hw => w2 w (hperm.mem_iff.1 hw), ?_⟩
  · rw [List.pairwise_append]
    refine ⟨hfront.apart, (hperm.pairwise_iff (fun h => WApart.symm h)).2 w1, ?_⟩
    intro a h1 b h2
    have := hfront.below a h1
    have := w2 b (hperm.mem_iff.1 h2)
    left; omega
  · rw [hperm.mem_iff]
    unfold writesFor
    rw [List.mem_flatMap]
    refine ⟨call.length - 1, by simp; omega, ?_⟩
    unfold bucketWrites
    rw [show call.length - 1 + 1 = call.length by omega]
    simp
  · intro w hw
    rcases List.mem_append.1 hw with hw | hw
    · have := hfront.below w hw; omega
    · rw [hperm.mem_iff] at hw
      unfold writesFor at hw
      rw [List.mem_flatMap] at hw
      obtain ⟨i, hi, hw⟩ := hw
      have hi : i < call.length := by simpa using hi
      have hm : (i + 1) * acc.toNat ≤ call.length * acc.toNat := Nat.mul_le_mul_right _ hi
      have e : (i + 1) * acc.toNat = i * acc.toNat + acc.toNat := by rw [Nat.add_mul]; omega
      have := hDl i hi
      unfold bucketWrites at hw
      rcases List.mem_cons.1 hw with rfl | hw
      · simp only []; omega
      · split at hw
        · simp at hw; subst hw
          simp only [zeros, List.length_replicate]; omega
        · simp at hw

end Parfu
