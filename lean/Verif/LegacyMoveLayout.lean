/-
Lemmas: parfu 0.5.1's layout leaves no holes inside a bucket.
-/
import Verif.LegacyMove
import Verif.PropsLegacySplit
set_option autoImplicit false

namespace Parfu
open SplitSpec Props

/-- Where a fragment (with its header, if it has one) starts. -/
def fragStart (f : Frag) : Int := f.locA - (if f.locO = 0 then f.hdr else 0)

/-- The bytes of a fragment and its header. -/
def fragLen (f : Frag) : Int := (if f.size ≥ 0 then f.size else 0) + (if f.locO = 0 then f.hdr else 0)

/-- The fragments follow each other: the next one is in the same bucket, directly after the previous
one (which is in bucket `lb` and ends at `en`), or at the start of a later bucket. -/
def TightFrom (bl acc : Int) : Int → Int → List Frag → Prop
  | _, _, [] => True
  | lb, en, f :: fs =>
    ((f.bucket = lb ∧ fragStart f = en) ∨ (lb < f.bucket ∧ fragStart f = f.bucket * acc)) ∧
    fragStart f + blockedWritten bl f ≤ (f.bucket + 1) * acc ∧ 0 < blockedWritten bl f ∧
    TightFrom bl acc f.bucket (fragStart f + blockedWritten bl f) fs

theorem blockedWritten_bounds {bl : Int} (hbl : 0 < bl) (f : Frag) :
    bl ∣ blockedWritten bl f ∧ fragLen f ≤ blockedWritten bl f ∧ blockedWritten bl f < fragLen f + bl := by
  have e : blockedWritten bl f = if fragLen f % bl = 0 then fragLen f else (fragLen f / bl + 1) * bl := rfl
  rw [e]
  generalize fragLen f = d
  have h1 := Int.emod_add_mul_ediv d bl
  have h2 := Int.emod_nonneg d (show bl ≠ 0 by omega)
  have h3 := Int.emod_lt_of_pos d hbl
  have e : (d / bl + 1) * bl = bl * (d / bl) + bl := by ring
  split
  · rename_i h
    exact ⟨Int.dvd_of_emod_eq_zero h, le_refl _, by omega⟩
  · rename_i h
    exact ⟨⟨_, Int.mul_comm _ _⟩, by omega, by omega⟩

theorem mult_unique {bl x y d : Int} (hbl : 0 < bl) (hx : bl ∣ x) (hy : bl ∣ y) (h1 : d ≤ x) (h2 : x < d + bl)
    (h3 : d ≤ y) (h4 : y < d + bl) : x = y := by
  obtain ⟨a, rfl⟩ := hx
  obtain ⟨b, rfl⟩ := hy
  have k1 : bl * a < bl * (b + 1) := by rw [Int.mul_add]; omega
  have k2 : bl * b < bl * (a + 1) := by rw [Int.mul_add]; omega
  have := Int.lt_of_mul_lt_mul_left k1 (by omega)
  have := Int.lt_of_mul_lt_mul_left k2 (by omega)
  have : a = b := by omega
  rw [this]

theorem mult_le {bl x y d : Int} (hbl : 0 < bl) (hx : bl ∣ x) (hy : bl ∣ y) (h2 : x < d + bl) (h3 : d ≤ y) : x ≤ y := by
  obtain ⟨a, rfl⟩ := hx
  obtain ⟨b, rfl⟩ := hy
  have k1 : bl * a < bl * (b + 1) := by rw [Int.mul_add]; omega
  have := Int.lt_of_mul_lt_mul_left k1 (by omega)
  exact Int.mul_le_mul_of_nonneg_left (by omega) (by omega)

/-- The room of a small entry's one fragment is that of the entry. -/
theorem blockedWritten_small {bl : Int} (hbl : 0 < bl) {e f : Frag} (h1 : f.hdr = e.hdr) (h2 : f.size = e.size)
    (h3 : f.locO = 0) : blockedWritten bl f = room bl e := by
  obtain ⟨a, b, c⟩ := blockedWritten_bounds hbl f
  have hr := room_ge hbl e
  have : fragLen f = e.hdr + dataLen e := by
    unfold fragLen dataLen; rw [if_pos h3, h1, h2]; split <;> omega
  exact mult_unique hbl a (room_dvd bl e) b c (by omega) (by omega)

/-- A large entry is not empty. -/
theorem large_size {bl acc : Int} (hbl : 0 < bl) (hd : bl ∣ acc) {e : Frag} (hh : e.hdr ≤ acc)
    (h : ¬ Small bl acc e) : 0 < e.size := by
  by_contra hn
  apply h
  have hr := room_ge hbl e
  have : dataLen e = 0 := by unfold dataLen; omega
  exact mult_le hbl (room_dvd bl e) hd (d := e.hdr) (by omega) hh

/-- Where exactly a small entry goes. -/
theorem place_small_loc {bl acc : Int} (hbl : 0 < bl) {pad : Bytes} {p q : LPos}
    {e : Frag} {g : Frag × List Frag} (hs : Small bl acc e)
    (h : placeEntry bl acc pad p e = .ok (some (g, q))) :
    g.1.locA = if p.rank + room bl e ≤ acc then p.whole else (p.bucket + 1) * acc := by
  unfold placeEntry at h
  split at h
  · cases h
  unfold Small at hs
  simp only [blockedSum_eq hbl] at h
  rw [if_pos hs] at h
  split at h
  · rename_i hf
    simp at h
    obtain ⟨rfl, rfl⟩ := h
    rw [if_pos hf]
  · rename_i hf
    split at h
    · cases h
    · cases h
    rename_i e1 he1
    obtain ⟨_, _, s3⟩ := padBefore_some he1
    simp at h s3
    obtain ⟨rfl, rfl⟩ := h
    rw [if_neg hf]
    exact s3

theorem TightFrom.append {bl acc : Int} {lb en : Int} {xs ys : List Frag} (hx : TightFrom bl acc lb en xs)
    (hy : ∀ b e, (xs = [] → b = lb ∧ e = en) → (∀ f ∈ xs.getLast?, b = f.bucket ∧ e = fragStart f + blockedWritten bl f) →
      TightFrom bl acc b e ys) : TightFrom bl acc lb en (xs ++ ys) := by
  induction xs generalizing lb en with
  | nil => exact hy lb en (fun _ => ⟨rfl, rfl⟩) (by simp)
  | cons x xs ih =>
    obtain ⟨h1, h2, h3, h4⟩ := hx
    refine ⟨h1, h2, h3, ih h4 ?_⟩
    intro b e hb he
    cases xs with
    | nil =>
      obtain ⟨rfl, rfl⟩ := hb rfl
      exact hy _ _ (by simp) (by simp)
    | cons y ys =>
      exact hy b e (by simp) (by rw [List.getLast?_cons_cons]; exact he)

/-- Pieces that cover a file one after the other, each in its own bucket, the first at the start of
bucket `b`: they are tight. -/
theorem tight_large {bl acc : Int} (hbl : 0 < bl) (hacc : 0 < acc) (hd : bl ∣ acc) {loc hdr : Int} (hh : 0 < hdr) :
    ∀ (fs : List Frag) (a z lb en c : Int) (m : Nat), Covers a fs z → 0 ≤ a →
    (∀ f ∈ fs, f.hdr = hdr ∧ f.locA = loc + hdr + f.locO ∧ InBucket acc f) →
    fs.map Frag.bucket = (List.range m).map (fun j : Nat => c + (j : Int)) →
    lb < c →
    ((a = 0 ∧ loc = c * acc) ∨ (0 < a ∧ loc + hdr + a ≤ c * acc)) →
    TightFrom bl acc lb en fs := by
  intro fs
  induction fs with
  | nil => intros; trivial
  | cons f fs ih =>
    intro a z lb en c m hc ha hf hb hlb hpos
    obtain ⟨c1, c2, c3⟩ := hc
    obtain ⟨f1, f2, f3, f4⟩ := hf f (by simp)
    cases m with
    | zero => simp at hb
    | succ m =>
      rw [List.range_succ_eq_map] at hb
      simp only [List.map_cons, List.map_map, List.cons.injEq] at hb
      obtain ⟨hb0, hb1⟩ := hb
      simp at hb0
      have hst : fragStart f = c * acc := by
        unfold fragStart
        rcases hpos with ⟨h1, h2⟩ | ⟨h1, h2⟩
        · rw [if_pos (by omega)]; omega
        · rw [if_neg (by omega)]; rw [hb0] at f3; omega
      obtain ⟨b1, b2, b3⟩ := blockedWritten_bounds hbl f
      have hend : fragStart f + fragLen f = f.locA + f.size := by
        unfold fragStart fragLen; split <;> split <;> omega
      have hle : fragStart f + blockedWritten bl f ≤ (f.bucket + 1) * acc := by
        refine mult_le hbl (Int.dvd_add (by rw [hst]; exact Dvd.dvd.mul_left hd _) b1) (Dvd.dvd.mul_left hd _)
          (d := f.locA + f.size) (by omega) f4
      refine ⟨Or.inr ⟨by omega, by rw [hst, hb0]⟩, hle, ?_, ?_⟩
      · have : 0 < fragLen f := by unfold fragLen; split <;> split <;> omega
        omega
      · refine ih (a + f.size) z _ _ (c + 1) m c3 (by omega) (fun g hg => hf g (by simp [hg])) ?_ (by omega) ?_
        · rw [hb1]
          apply List.map_congr_left
          intro j _
          simp; ring
        · right
          refine ⟨by omega, ?_⟩
          rw [hb0] at f4
          omega

/-- What the layout loop establishes: fragments are tight. -/
theorem loop_tight {bl acc : Int} (hbl : 0 < bl) (hacc : 0 < acc) (hd : bl ∣ acc) {pad : Bytes}
    (es : List Frag) : ∀ (p r : LPos) (gs : List (Frag × List Frag)) (lb en : Int),
    (∀ e ∈ es, e.hdr < acc) →
    SmallFirst bl acc es →
    ((∀ e ∈ es, ¬ Small bl acc e) ∨ (SmallPhase bl acc p ∧ (0 < p.rank → lb = p.bucket ∧ en = p.whole) ∧
      (p.rank = 0 → lb < p.bucket))) →
    lb * acc < p.whole →
    splitLoop bl acc pad p es = .ok (some (gs, r)) →
    TightFrom bl acc lb en (outFrags gs) := by
  induction es with
  | nil =>
    intro p r gs lb en _ _ _ _ h
    simp [splitLoop] at h
    obtain ⟨rfl, rfl⟩ := h
    simp [TightFrom]
  | cons e es ih =>
    intro p r gs lb en hS hsf hph hlb h
    unfold splitLoop at h
    split at h
    · cases h
    · cases h
    rename_i g q hpl
    split at h
    · cases h
    · cases h
    rename_i gs' r' hlo
    simp at h
    obtain ⟨rfl, rfl⟩ := h
    obtain ⟨hsf1, hsf2⟩ := List.pairwise_cons.1 hsf
    have t1 : ∀ x y : Int, x * acc < y * acc → x < y := fun x y h => Int.lt_of_mul_lt_mul_right h (by omega)
    by_cases hs : Small bl acc e
    · obtain ⟨hph', hq1, hq2⟩ : SmallPhase bl acc p ∧ _ := by
        rcases hph with hph | hph
        · exact absurd hs (hph e (by simp))
        · exact hph
      obtain ⟨a0, a1, a2, a3, a4, a5, a6, a7⟩ := place_small hbl hacc hd hph' hs hpl
      have hloc := place_small_loc hbl hs hpl
      obtain ⟨p1, p2, p3, p4, p5⟩ := hph'
      have hr1 : room bl g.1 = room bl e := room_congr a1.2.2.2.2 a2
      obtain ⟨f, hf, hf1, hf2, hf3, hf4, hf5⟩ := a5.small (by unfold Small; rw [hr1]; exact hs)
      obtain ⟨b1, b2, b3⟩ := a7 f (by rw [hf]; simp)
      have hfh : f.hdr = g.1.hdr := (a5.same f (by rw [hf]; simp)).2.2.2.2
      have hst : fragStart f = g.1.locA := by unfold fragStart; rw [if_pos hf3, hf1, hfh]; omega
      have hbw : blockedWritten bl f = room bl e := by
        rw [blockedWritten_small hbl hfh hf2 hf3, hr1]
      have hr := room_ge hbl e
      have hdl : 0 ≤ dataLen e := by unfold dataLen; omega
      have e1 : (p.bucket + 1) * acc = p.bucket * acc + acc := by ring
      rw [outFrags_cons, hf]
      refine ⟨?_, ?_, by omega, ?_⟩
      · rw [hst, hloc, b1]
        by_cases hk : 0 < p.rank
        · by_cases hl : p.rank + room bl e ≤ acc
          · simp only [hk, hl, and_self, if_true]
            obtain ⟨u, v⟩ := hq1 hk
            exact Or.inl ⟨u.symm, v.symm⟩
          · simp only [hk, hl, and_false, if_false, if_true]
            obtain ⟨u, v⟩ := hq1 hk
            exact Or.inr ⟨by omega, trivial⟩
        · have hk0 : p.rank = 0 := by omega
          have hl : p.rank + room bl e ≤ acc := by unfold Small at hs; omega
          simp only [hk, hl, false_and, if_false, if_true]
          exact Or.inr ⟨hq2 hk0, by omega⟩
      · rw [hst, hbw]; omega
      · rw [hst, hbw, ← a4]
        refine ih q r' gs' _ _ (fun x hx => hS x (by simp [hx])) hsf2 (Or.inr ⟨a6, ?_, ?_⟩) b2 hlo
        · intro hk
          obtain ⟨q1, q2, q3, q4, q5⟩ := a6
          refine ⟨?_, by simp⟩
          have e2 : (q.bucket + 1) * acc = q.bucket * acc + acc := by ring
          have := t1 f.bucket (q.bucket + 1) (by omega)
          have := t1 q.bucket (f.bucket + 1) (by omega)
          omega
        · intro hk
          obtain ⟨q1, q2, q3, q4, q5⟩ := a6
          exact t1 f.bucket q.bucket (by omega)
    · obtain ⟨a0, a1, a2, a3, a3', a4, a5, ⟨b, m, a6, a7, a8, a9, a10⟩, a11⟩ := place_large hbl hacc hd hs hpl
      have hr1 : room bl g.1 = room bl e := room_congr a1.2.2.2.2 a2
      have hall : ∀ x ∈ es, ¬ Small bl acc x := fun x hx hsx => hs (hsf1 x hx hsx)
      have hbig : ¬ Small bl acc g.1 := by unfold Small; rw [hr1]; exact hs
      have hsz := large_size hbl hd (le_of_lt (hS e (by simp))) hs
      obtain ⟨l1, l2, l3⟩ := a5.large hbig
      have hcov := a11 (by omega) (hS e (by simp))
      rw [outFrags_cons]
      refine TightFrom.append ?_ ?_
      · refine tight_large hbl hacc hd (loc := g.1.locA) (hdr := g.1.hdr) (by rw [a1.2.2.2.2]; exact a0) g.2 0 _ lb en b m hcov
          (le_refl _) ?_ a8 (t1 _ _ (by omega)) (Or.inl ⟨rfl, a6⟩)
        intro f hf
        exact ⟨(a5.same f hf).2.2.2.2, l3 f hf⟩
      · intro lb' en' _ hlast
        obtain ⟨x, hx⟩ : ∃ x, g.2.getLast? = some x := by
          cases h : g.2.getLast? with
          | none => exact absurd (List.getLast?_eq_none_iff.1 h) l2
          | some x => exact ⟨x, rfl⟩
        obtain ⟨rfl, rfl⟩ := hlast x (by rw [hx]; simp)
        have hxb : x.bucket = b + (m : Int) - 1 := by
          have := congrArg List.getLast? a8
          rw [List.getLast?_map, hx, List.getLast?_map, List.getLast?_range] at this
          rw [if_neg (by omega)] at this
          simp at this
          rw [this]; omega
        exact ih q r' gs' _ _ (fun x hx => hS x (by simp [hx])) hsf2 (Or.inl hall) (by rw [hxb]; exact a9) hlo

/-- The layout leaves no hole inside a bucket. -/
theorem split_tight {bl acc : Int} (hbl : 0 < bl) (hacc : 0 < acc) (hd : bl ∣ acc) {pad : Bytes}
    {es : List Frag} {gs : List (Frag × List Frag)} {r : LPos} (hh : ∀ e ∈ es, e.hdr < acc)
    (hsf : SmallFirst bl acc es) (h : splitList bl acc pad es = .ok (some (gs, r))) :
    TightFrom bl acc (-1) 0 (outFrags gs) :=
  loop_tight hbl hacc hd es ⟨0, 0, 0⟩ r gs (-1) 0 hh hsf
    (Or.inr ⟨⟨by simp, by simp, by simp; omega, by simp, by simp⟩, by simp, by simp⟩) (by simp; omega) (split_inv h)

end Parfu
