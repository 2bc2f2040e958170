/-
C34 and C35 for every list, in whatever order.
-/
import Verif.PropsLegacySplit
import Verif.LegacyMove
set_option autoImplicit false

namespace Parfu.Props
open Parfu SplitSpec

/-- What one step of the layout loop does to a file, wherever it is placed. -/
theorem place_covers {bl acc : Int} (hbl : 0 < bl) (hacc : 0 < acc) (hd : bl ∣ acc) {pad : Bytes} {p q : LPos}
    {e : Frag} {g : Frag × List Frag} (h : placeEntry bl acc pad p e = .ok (some (g, q))) :
    SameFile g.1 e ∧ g.1.size = e.size ∧
    (Small bl acc g.1 → ∃ f, g.2 = [f] ∧ SameFile f e ∧ f.locA = g.1.locA + g.1.hdr ∧ f.size = g.1.size ∧ f.locO = 0) ∧
    (¬ Small bl acc g.1 → (∀ f ∈ g.2, SameFile f e ∧ f.locA = g.1.locA + g.1.hdr + f.locO) ∧ g.2 ≠ [] ∧
      (0 ≤ g.1.size → g.1.hdr < acc →
        Covers 0 g.2 (if room bl g.1 % acc = 0 then room bl g.1 - g.1.hdr else g.1.size))) := by
  by_cases hs : Small bl acc e
  · unfold placeEntry at h
    split at h
    · cases h
    have hsm := hs
    unfold Small at hs
    simp only [blockedSum_eq hbl] at h
    rw [if_pos hs] at h
    split at h
    · simp at h
      obtain ⟨rfl, rfl⟩ := h
      refine ⟨⟨rfl, rfl, rfl, rfl, rfl⟩, rfl, fun _ => ⟨_, rfl, ⟨rfl, rfl, rfl, rfl, rfl⟩, rfl, rfl, rfl⟩, ?_⟩
      intro hn
      refine absurd (show room bl _ ≤ acc from ?_) hn
      exact (room_congr (bl := bl) (e := e) rfl rfl).le.trans hs
    · split at h
      · cases h
      · cases h
      rename_i e1 he1
      simp at h
      obtain ⟨rfl, rfl⟩ := h
      obtain ⟨x1, x2, x3⟩ := padBefore_some he1
      refine ⟨⟨x1.1, x1.2.1, x1.2.2.1, x1.2.2.2.1, x1.2.2.2.2⟩, x2, fun _ => ⟨_, rfl,
        ⟨x1.1, x1.2.1, x1.2.2.1, x1.2.2.2.1, x1.2.2.2.2⟩, ?_, rfl, rfl⟩, ?_⟩
      · simp only [x3, x1.2.2.2.2]
      · intro hn
        refine absurd (show room bl _ ≤ acc from ?_) hn
        exact (room_congr (bl := bl) (e := e) (by exact x1.2.2.2.2) (by exact x2)).le.trans hs
  · obtain ⟨a0, a1, a2, _, _, _, a5, _, a11⟩ := place_large hbl hacc hd hs h
    have hr1 : room bl g.1 = room bl e := room_congr a1.2.2.2.2 a2
    have hng : ¬ Small bl acc g.1 := by unfold Small; rw [hr1]; exact hs
    refine ⟨a1, a2, fun h => absurd h hng, fun _ => ⟨?_, (a5.large hng).2.1, ?_⟩⟩
    · intro f hf
      have h1 := a5.same f hf
      exact ⟨⟨h1.1.trans a1.1, h1.2.1.trans a1.2.1, h1.2.2.1.trans a1.2.2.1, h1.2.2.2.1.trans a1.2.2.2.1,
        h1.2.2.2.2.trans a1.2.2.2.2⟩, ((a5.large hng).2.2 f hf).1⟩
    · intro h0 h1
      rw [hr1, a1.2.2.2.2, a2]
      exact a11 (by omega) (by rw [← a1.2.2.2.2]; exact h1)

theorem loop_covers {bl acc : Int} (hbl : 0 < bl) (hacc : 0 < acc) (hd : bl ∣ acc) {pad : Bytes} (es : List Frag) :
    ∀ (p r : LPos) (gs : List (Frag × List Frag)), splitLoop bl acc pad p es = .ok (some (gs, r)) →
    List.Forall₂ (fun g e => SameFile g.1 e ∧ g.1.size = e.size) gs es ∧
    ∀ g ∈ gs, (∀ f ∈ g.2, SameFile f g.1) ∧
      (Small bl acc g.1 → ∃ f, g.2 = [f] ∧ f.locA = g.1.locA + g.1.hdr ∧ f.size = g.1.size ∧ f.locO = 0) ∧
      (¬ Small bl acc g.1 → (∀ f ∈ g.2, f.locA = g.1.locA + g.1.hdr + f.locO) ∧ g.2 ≠ [] ∧
        (0 ≤ g.1.size → g.1.hdr < acc →
          Covers 0 g.2 (if room bl g.1 % acc = 0 then room bl g.1 - g.1.hdr else g.1.size))) := by
  induction es with
  | nil =>
    intro p r gs h
    simp [splitLoop] at h
    obtain ⟨rfl, rfl⟩ := h
    simp
  | cons e es ih =>
    intro p r gs h
    unfold splitLoop at h
    split at h
    · cases h
    · cases h
    rename_i g q hpl
    split at h
    · cases h
    · cases h
    rename_i gs' r' hlo
    simp at h
    obtain ⟨rfl, rfl⟩ := h
    obtain ⟨i1, i2⟩ := ih q r' gs' hlo
    obtain ⟨c1, c2, c3, c4⟩ := place_covers hbl hacc hd hpl
    have hsym : ∀ f, SameFile f e → SameFile f g.1 := fun f h => ⟨h.1.trans c1.1.symm, h.2.1.trans c1.2.1.symm,
      h.2.2.1.trans c1.2.2.1.symm, h.2.2.2.1.trans c1.2.2.2.1.symm, h.2.2.2.2.trans c1.2.2.2.2.symm⟩
    refine ⟨.cons ⟨c1, c2⟩ i1, ?_⟩
    intro g' hg'
    rcases List.mem_cons.1 hg' with rfl | hg'
    · refine ⟨?_, ?_, ?_⟩
      · intro f hf
        by_cases hs : Small bl acc g'.1
        · obtain ⟨f', hf', h1, _⟩ := c3 hs
          rw [hf'] at hf
          simp at hf
          subst hf
          exact hsym f h1
        · exact hsym f ((c4 hs).1 f hf).1
      · intro hs
        obtain ⟨f, h1, _, h2⟩ := c3 hs
        exact ⟨f, h1, h2⟩
      · intro hs
        exact ⟨fun f hf => ((c4 hs).1 f hf).2, (c4 hs).2⟩
    · exact i2 g' hg'

theorem covers_end {a z z' : Int} : ∀ {fs : List Frag}, Covers a fs z → Covers a fs z' → z = z' := by
  intro fs
  induction fs generalizing a with
  | nil => intro h h'; exact h.symm.trans h'
  | cons f fs ih => intro h h'; exact ih h.2.2 h'.2.2

/-- **C35, exactly** In the layout of any list, in whatever order: the entries are those of the list; an entry that
fits a bucket is one fragment, the whole file, right behind its header; and for a file that does not fit a
bucket every fragment lies where its part of the file belongs behind the header, and the fragments are consecutive,
not empty and cover the file exactly once up to its end, exactly if the file with its header either does not fill
a whole number of buckets when rounded up to blocks, or is itself a whole number of blocks. -/
theorem C35_covers_iff (bl acc : Int) (hbl : 0 < bl) (hacc : 0 < acc) (hd : bl ∣ acc) (pad : Bytes)
    (es : List Frag) (gs : List (Frag × List Frag)) (r : LPos)
    (h : splitList bl acc pad es = .ok (some (gs, r))) :
    List.Forall₂ (fun g e => SameFile g.1 e ∧ g.1.size = e.size) gs es ∧
    ∀ g ∈ gs, (∀ f ∈ g.2, SameFile f g.1) ∧
      (Small bl acc g.1 → ∃ f, g.2 = [f] ∧ f.locA = g.1.locA + g.1.hdr ∧ f.size = g.1.size ∧ f.locO = 0) ∧
      (¬ Small bl acc g.1 → (∀ f ∈ g.2, f.locA = g.1.locA + g.1.hdr + f.locO) ∧
        (0 ≤ g.1.size → g.1.hdr < acc →
          (Covers 0 g.2 g.1.size ↔ (room bl g.1 % acc ≠ 0 ∨ bl ∣ g.1.hdr + g.1.size)))) := by
  obtain ⟨h1, h2⟩ := loop_covers hbl hacc hd es ⟨0, 0, 0⟩ r gs (split_inv h)
  refine ⟨h1, fun g hg => ?_⟩
  obtain ⟨k1, k2, k3⟩ := h2 g hg
  refine ⟨k1, k2, fun hs => ⟨(k3 hs).1, fun h0 hh => ?_⟩⟩
  have hc := (k3 hs).2.2 h0 hh
  by_cases hx : room bl g.1 % acc = 0
  · rw [if_pos hx] at hc
    have hr : bl ∣ g.1.hdr + g.1.size ↔ room bl g.1 - g.1.hdr = g.1.size := by
      constructor
      · intro hdv
        obtain ⟨k, hk⟩ := hdv
        have : room bl g.1 = g.1.hdr + g.1.size := by
          unfold room dataLen
          rw [show max g.1.size 0 = g.1.size by omega, hk]
          have : (bl * k + bl - 1) / bl = k := by
            rw [show bl * k + bl - 1 = (bl - 1) + bl * k by ring, Int.add_mul_ediv_left _ _ (by omega),
              Int.ediv_eq_zero_of_lt (by omega) (by omega)]
            omega
          rw [this, Int.mul_comm]
        omega
      · intro he
        have := room_dvd bl g.1
        rwa [show g.1.hdr + g.1.size = room bl g.1 by omega]
    rw [hr]
    constructor
    · intro hcov; exact Or.inr (covers_end hc hcov)
    · rintro (h | h)
      · exact absurd hx h
      · rwa [h] at hc
  · rw [if_neg hx] at hc
    exact ⟨fun _ => Or.inl hx, fun _ => hc⟩

/-- A layout of which C35 speaks and C34 does not: a small file comes after a large one. -/
example : (∃ gs r, splitList realBl realAcc padFile badOrder = .ok (some (gs, r))) ∧ ¬ SmallFirst realBl realAcc badOrder ∧
    0 < realBl ∧ 0 < realAcc ∧ realBl ∣ realAcc := by
  refine ⟨⟨_, _, rfl⟩, ?_, by decide, by decide, by decide⟩
  unfold SmallFirst Small
  decide +kernel

/-- A directory, a file with a long name that just does not fit a bucket, and two files of the same size with short
names, which do: in the order the sort gives them. -/
def overlapOrder : List Frag :=
  [exEnt 97 .dir (-3) 512, exEnt 98 .reg (4194304 - 1024) 1536, exEnt 99 .reg (4194304 - 1024) 512,
   exEnt 100 .reg (4194304 - 1024) 512]

/-- **C34, violated** In the layout of a sorted list of four entries two files are given overlapping places in
the archive: the header of the second is to be written over the data of the first. -/
theorem C34_slots_overlap : ∃ es gs r, qsortEntries insQSort es = es ∧
    splitList realBl realAcc padFile es = .ok (some (gs, r)) ∧
    ∃ a b : Frag × List Frag, gs[2]? = some a ∧ gs[3]? = some b ∧ a.1.kind = .reg ∧ b.1.kind = .reg ∧ a.1.arc ≠ b.1.arc ∧
      a.1.locA < b.1.locA ∧ b.1.locA < a.1.locA + a.1.hdr + a.1.size := by
  refine ⟨overlapOrder, _, _, by decide +kernel, rfl, _, _, rfl, rfl, rfl, rfl, by decide, ?_, ?_⟩ <;> decide +kernel

/-- **C34** A fragment whose place is not inside the bucket being filled (`acc` bytes from `bloc` on) is
never copied: the rank gives up with an error. -/
theorem C34_outside_refused (L : LegEnv) (acc bloc : Int) (buf : Bytes) (f : Frag)
    (h : f.locA < bloc ∨ bloc + acc ≤ f.locA) : putData L acc bloc buf f = .ok none := by
  unfold putData
  split
  · rfl
  · rw [if_pos (by omega)]

example : ∃ f : Frag, (0 : Int) + 512 ≤ f.locA := ⟨⟨[97], [97], .reg, [], 5, 512, 512, 0, -1, none, -1, -1, -1, -1, -1⟩, by decide⟩

end Parfu.Props
