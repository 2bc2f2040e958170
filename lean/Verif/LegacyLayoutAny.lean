/-
Lemmas: parfu 0.5.1's layout of an arbitrary sorted list.  Small entries may follow large ones; if no
fragment of a small entry leaves its bucket, the layout is as good as one with large entries last.
-/
import Verif.LegacyArchiveFile
set_option autoImplicit false

namespace Parfu
open SplitSpec Props MoveSpec TarSpec LegacyRunSpec

/-- Whatever the running positions are: what one step does with a small entry. -/
theorem place_small_any {bl acc : Int} (hbl : 0 < bl) {pad : Bytes} {p q : LPos}
    {e : Frag} {g : Frag × List Frag} (hs : Small bl acc e)
    (h : placeEntry bl acc pad p e = .ok (some (g, q))) :
    0 < e.hdr ∧ SameFile g.1 e ∧ g.1.size = e.size ∧
    ∃ f, g.2 = [f] ∧ SameFile f g.1 ∧ f.locA = g.1.locA + e.hdr ∧ f.size = e.size ∧ f.locO = 0 ∧
      ((p.rank + room bl e ≤ acc ∧ g.1.locA = p.whole ∧ f.bucket = p.bucket ∧
          q = if room bl e = acc then ⟨p.whole + room bl e, 0, p.bucket + 1⟩ else ⟨p.whole + room bl e, p.rank + room bl e, p.bucket⟩) ∨
       (acc < p.rank + room bl e ∧ g.1.locA = (p.bucket + 1) * acc ∧ f.bucket = p.bucket + 1 ∧
          q = if room bl e = acc then ⟨(p.bucket + 1) * acc + room bl e, 0, p.bucket + 1 + 1⟩
              else ⟨(p.bucket + 1) * acc + room bl e, room bl e, p.bucket + 1⟩)) := by
  unfold placeEntry at h
  split at h
  · cases h
  rename_i hh
  unfold Small at hs
  simp only [blockedSum_eq hbl] at h
  rw [if_pos hs] at h
  split at h
  · rename_i hf
    simp only [Except.ok.injEq, Option.some.injEq, Prod.mk.injEq] at h
    obtain ⟨rfl, rfl⟩ := h
    exact ⟨by omega, ⟨rfl, rfl, rfl, rfl, rfl⟩, rfl, _, rfl, ⟨rfl, rfl, rfl, rfl, rfl⟩, rfl, rfl, rfl, Or.inl ⟨hf, rfl, rfl, rfl⟩⟩
  · rename_i hf
    split at h
    · cases h
    · cases h
    rename_i e1 he1
    obtain ⟨⟨s11, s12, s13, s14, s15⟩, s2, s3⟩ := padBefore_some he1
    simp only [] at s11 s12 s13 s14 s15 s2 s3
    simp only [Except.ok.injEq, Option.some.injEq, Prod.mk.injEq] at h
    obtain ⟨rfl, rfl⟩ := h
    exact ⟨by omega, ⟨s11, s12, s13, s14, s15⟩, s2, _, rfl, ⟨rfl, rfl, rfl, rfl, rfl⟩, by simp only [s3], s2, rfl,
      Or.inr ⟨by omega, s3, rfl, rfl⟩⟩

/-- The running positions after a large entry. -/
theorem place_large_pos {bl acc : Int} (hbl : 0 < bl) (hacc : 0 < acc) {pad : Bytes} {p q : LPos}
    {e : Frag} {g : Frag × List Frag} (hs : ¬ Small bl acc e)
    (h : placeEntry bl acc pad p e = .ok (some (g, q))) :
    ∃ (b : Int) (k : Nat), 0 < k ∧ g.1.locA = b * acc ∧ q.rank = p.rank ∧ q.bucket = b + k ∧
      ((room bl e % acc = 0 ∧ q.whole = (b + k) * acc ∧ g.2.length = k) ∨
       (0 < room bl e % acc ∧ q.whole = (b + k) * acc + room bl e % acc + e.hdr ∧ g.2.length = k + 1)) := by
  unfold placeEntry at h
  split at h
  · cases h
  rename_i hh
  unfold Small at hs
  simp only [blockedSum_eq hbl] at h
  rw [if_neg hs] at h
  generalize hb : (if p.whole % acc ≠ 0 then p.whole / acc + 1 else p.whole / acc) = b at h
  have hdiv := Int.emod_add_mul_ediv (room bl e) acc
  have hm1 := Int.emod_nonneg (room bl e) (show acc ≠ 0 by omega)
  have hm2 := Int.emod_lt_of_pos (room bl e) hacc
  have hq : 1 ≤ room bl e / acc := by
    have : acc * 1 < acc * (room bl e / acc + 1) := by rw [Int.mul_add]; omega
    have := Int.lt_of_mul_lt_mul_left this (by omega)
    omega
  obtain ⟨k, hk⟩ : ∃ k : Nat, room bl e / acc = ((k + 1 : Nat) : Int) := ⟨(room bl e / acc).toNat - 1, by omega⟩
  rw [hk] at h hdiv
  generalize hR : room bl e = R at *
  generalize hrm : R % acc = r at *
  simp only [Int.toNat_natCast] at h
  split at h
  · cases h
  · cases h
  rename_i e' he'
  obtain ⟨_, _, s3⟩ := padBefore_some he'
  simp only [] at s3
  split at h
  · rename_i hu
    simp only [Except.ok.injEq, Option.some.injEq, Prod.mk.injEq] at h
    obtain ⟨rfl, rfl⟩ := h
    refine ⟨b, k + 1, by omega, s3, rfl, rfl, Or.inr ⟨by omega, ?_, by simp⟩⟩
    simp only []
    push_cast at hdiv ⊢
    have : ((k : Int) + 1 - 1) * acc = acc * (k + 1) - acc := by ring
    rw [this]; omega
  · rename_i hu
    simp only [Except.ok.injEq, Option.some.injEq, Prod.mk.injEq] at h
    obtain ⟨rfl, rfl⟩ := h
    exact ⟨b, k + 1, by omega, s3, rfl, rfl, Or.inl ⟨not_not.1 hu, rfl, by simp⟩⟩

/-- What holds of the running positions at any time. -/
def AnyPhase (acc : Int) (p : LPos) : Prop :=
  0 ≤ p.bucket ∧ p.bucket * acc ≤ p.whole ∧ 0 ≤ p.rank ∧ p.rank ≤ acc ∧ p.whole ≤ p.bucket * acc + p.rank + 2 * acc

/-- What is known of the place of an entry, good or not. -/
structure PutAt (bl acc : Int) (e : Frag) (g : Frag × List Frag) : Prop where
  pos : 0 < e.hdr
  same : SameFile g.1 e
  size : g.1.size = e.size
  loc : 0 ≤ g.1.locA
  small : Small bl acc e → ∃ f, g.2 = [f] ∧ SameFile f g.1 ∧ f.locA = g.1.locA + e.hdr ∧ f.size = e.size ∧ f.locO = 0 ∧
    0 ≤ f.bucket ∧ f.bucket * acc ≤ g.1.locA ∧ g.1.locA ≤ f.bucket * acc + 3 * acc
  large : ¬ Small bl acc e → SplitSpec.Good bl acc g.1 g.2 ∧
    (0 ≤ e.size → e.hdr < acc → Covers 0 g.2 (if room bl e % acc = 0 then room bl e - e.hdr else e.size))

theorem place_any {bl acc : Int} (hbl : 0 < bl) (hacc : 0 < acc) (hd : bl ∣ acc) {pad : Bytes} {p q : LPos}
    {e : Frag} {g : Frag × List Frag} (hp : AnyPhase acc p) (hh : e.hdr < acc)
    (h : placeEntry bl acc pad p e = .ok (some (g, q))) : PutAt bl acc e g ∧ AnyPhase acc q := by
  obtain ⟨p1, p2, p3, p4, p5⟩ := hp
  have hr := room_ge hbl e
  have hdl : 0 ≤ dataLen e := by unfold dataLen; omega
  have hb0 : 0 ≤ p.bucket * acc := Int.mul_nonneg p1 (by omega)
  have m1 : (p.bucket + 1) * acc = p.bucket * acc + acc := by ring
  have m2 : (p.bucket + 1 + 1) * acc = p.bucket * acc + acc + acc := by ring
  by_cases hs : Small bl acc e
  · obtain ⟨a0, a1, a2, f, f1, f2, f3, f4, f5, hc⟩ := place_small_any hbl hs h
    rcases hc with ⟨c1, c2, c3, c4⟩ | ⟨c1, c2, c3, c4⟩
    · refine ⟨⟨a0, a1, a2, by omega, fun _ => ⟨f, f1, f2, f3, f4, f5, by omega, by rw [c3]; omega, by rw [c3]; omega⟩,
        fun hn => absurd hs hn⟩, ?_⟩
      rw [c4]
      unfold AnyPhase
      split <;> simp only [] <;> omega
    · refine ⟨⟨a0, a1, a2, by omega, fun _ => ⟨f, f1, f2, f3, f4, f5, by omega, by rw [c3]; omega, by rw [c3]; omega⟩,
        fun hn => absurd hs hn⟩, ?_⟩
      unfold Small at hs
      rw [c4]
      unfold AnyPhase
      split <;> simp only [] <;> omega
  · obtain ⟨a0, a1, a2, a3, a3', a4, a5, _, a11⟩ := place_large hbl hacc hd hs h
    obtain ⟨b, k, k0, k1, k2, k3, k4⟩ := place_large_pos hbl hacc hs h
    refine ⟨⟨a0, a1, a2, by omega, fun hsm => absurd hsm hs, fun _ => ⟨a5, a11⟩⟩, ?_⟩
    have hm2 := Int.emod_lt_of_pos (room bl e) hacc
    have hbn : 0 ≤ b := by
      by_contra hn
      have : b * acc < 0 := Int.mul_neg_of_neg_of_pos (by omega) hacc
      omega
    unfold AnyPhase
    rw [k2, k3]
    rcases k4 with ⟨x1, x2, _⟩ | ⟨x1, x2, _⟩ <;> rw [x2] <;> omega

theorem loop_any {bl acc : Int} (hbl : 0 < bl) (hacc : 0 < acc) (hd : bl ∣ acc) {pad : Bytes} (es : List Frag) :
    ∀ (p r : LPos) (gs : List (Frag × List Frag)), AnyPhase acc p → (∀ e ∈ es, e.hdr < acc) →
    splitLoop bl acc pad p es = .ok (some (gs, r)) → List.Forall₂ (fun g e => PutAt bl acc e g) gs es := by
  induction es with
  | nil =>
    intro p r gs _ _ h
    simp [splitLoop] at h
    obtain ⟨rfl, rfl⟩ := h
    exact .nil
  | cons e es ih =>
    intro p r gs hp hh h
    unfold splitLoop at h
    split at h
    · cases h
    · cases h
    rename_i g q hpl
    split at h
    · cases h
    · cases h
    rename_i gs' r' hlo
    simp only [Except.ok.injEq, Option.some.injEq, Prod.mk.injEq] at h
    obtain ⟨rfl, rfl⟩ := h
    obtain ⟨h1, h2⟩ := place_any hbl hacc hd hp (hh e (by simp)) hpl
    exact .cons h1 (ih q r' gs' h2 (fun x hx => hh x (by simp [hx])) hlo)

theorem split_any {bl acc : Int} (hbl : 0 < bl) (hacc : 0 < acc) (hd : bl ∣ acc) {pad : Bytes} {es : List Frag}
    {gs : List (Frag × List Frag)} {r : LPos} (hh : ∀ e ∈ es, e.hdr < acc)
    (h : splitList bl acc pad es = .ok (some (gs, r))) : List.Forall₂ (fun g e => PutAt bl acc e g) gs es :=
  loop_any hbl hacc hd es ⟨0, 0, 0⟩ r gs ⟨by simp, by simp, by simp, by simp; omega, by simp; omega⟩ hh (split_inv h)

/-- The data of small entries stay in their buckets. -/
def Inside (bl acc : Int) (gs : List (Frag × List Frag)) : Prop :=
  ∀ g ∈ gs, Small bl acc g.1 → ∀ f ∈ g.2, 0 < f.size → f.locA + f.size ≤ (f.bucket + 1) * acc

/-- The running positions, with respect to the bucket `lb` and the end `en` of the last fragment and
the entries to come: inside or at the start of a bucket, or behind a large file with a partial last
bucket, where small entries can not be placed inside. -/
def SomePhase (acc : Int) (p : LPos) (lb en : Int) (es : List Frag) : Prop :=
  0 ≤ p.rank ∧ p.rank ≤ acc ∧ lb * acc < p.whole ∧
  ((∃ off, p.whole = p.bucket * acc + off ∧ 0 ≤ off ∧ off ≤ p.rank ∧ (0 < off → lb = p.bucket ∧ en = p.whole) ∧
      (off = 0 → lb < p.bucket)) ∨
   (lb = p.bucket ∧ ∃ h z, p.bucket * acc + h < p.whole ∧ acc < h + z ∧ 0 < z ∧ ∀ e ∈ es, z ≤ e.size))

theorem loop_inside {bl acc : Int} (hbl : 0 < bl) (hacc : 0 < acc) (hd : bl ∣ acc) {pad : Bytes} (es : List Frag) :
    ∀ (p r : LPos) (gs : List (Frag × List Frag)) (lb en : Int), SomePhase acc p lb en es →
    (∀ e ∈ es, e.hdr < acc) → es.Pairwise (fun a b => a.size ≤ b.size) →
    splitLoop bl acc pad p es = .ok (some (gs, r)) → Inside bl acc gs →
    TightFrom bl acc lb en (outFrags gs) ∧
    ∀ g ∈ gs, Small bl acc g.1 → ∀ f ∈ g.2, f.bucket * acc ≤ g.1.locA ∧ g.1.locA + room bl g.1 ≤ (f.bucket + 1) * acc := by
  have t1 : ∀ x y : Int, x * acc < y * acc → x < y := fun x y h => Int.lt_of_mul_lt_mul_right h (by omega)
  induction es with
  | nil =>
    intro p r gs lb en _ _ _ h _
    simp [splitLoop] at h
    obtain ⟨rfl, rfl⟩ := h
    simp [TightFrom]
  | cons e es ih =>
    intro p r gs lb en hph hh hsort h hin
    unfold splitLoop at h
    split at h
    · cases h
    · cases h
    rename_i g q hpl
    split at h
    · cases h
    · cases h
    rename_i gs' r' hlo
    simp only [Except.ok.injEq, Option.some.injEq, Prod.mk.injEq] at h
    obtain ⟨rfl, rfl⟩ := h
    obtain ⟨hso1, hso2⟩ := List.pairwise_cons.1 hsort
    obtain ⟨p1, p2, p3, hph⟩ := hph
    have hr := room_ge hbl e
    have hdl : 0 ≤ dataLen e := by unfold dataLen; omega
    have m1 : (p.bucket + 1) * acc = p.bucket * acc + acc := by ring
    have m2 : (p.bucket + 1 + 1) * acc = p.bucket * acc + acc + acc := by ring
    have hin' : Inside bl acc gs' := fun x hx => hin x (by simp [hx])
    by_cases hs : Small bl acc e
    · obtain ⟨a0, a1, a2, f, f1, f2, f3, f4, f5, hc⟩ := place_small_any hbl hs hpl
      have hr1 : room bl g.1 = room bl e := room_congr a1.2.2.2.2 a2
      have hs1 : Small bl acc g.1 := by unfold Small; rw [hr1]; exact hs
      have hfh : f.hdr = e.hdr := f2.2.2.2.2.trans a1.2.2.2.2
      have hst : fragStart f = g.1.locA := by unfold fragStart; rw [if_pos f5, f3, hfh]; omega
      have hbw : blockedWritten bl f = room bl e := blockedWritten_small hbl hfh f4 f5
      have hif := hin g (by simp) hs1 f (by rw [f1]; simp)
      unfold Small at hs
      have key : ((f.bucket = lb ∧ fragStart f = en) ∨ (lb < f.bucket ∧ fragStart f = f.bucket * acc)) ∧
          f.bucket * acc ≤ g.1.locA ∧ g.1.locA + room bl e ≤ (f.bucket + 1) * acc ∧
          SomePhase acc q f.bucket (g.1.locA + room bl e) es := by
        rcases hc with ⟨c1, c2, c3, c4⟩ | ⟨c1, c2, c3, c4⟩
        · rcases hph with ⟨off, o1, o2, o3, o4, o5⟩ | ⟨l1, hb, z, l2, l3, l4, l5⟩
          · refine ⟨?_, by rw [c3]; omega, by rw [c3]; omega, ?_⟩
            · rw [hst, c2, c3]
              by_cases ho : 0 < off
              · obtain ⟨u, v⟩ := o4 ho
                exact Or.inl ⟨u.symm, v.symm⟩
              · exact Or.inr ⟨o5 (by omega), by omega⟩
            · rw [c4, c3, c2]
              split
              · rename_i he
                exact ⟨by simp, by simp only []; omega, by simp only []; omega,
                  Or.inl ⟨0, by simp only []; omega, by omega, by simp, by omega, fun _ => by simp only []; omega⟩⟩
              · exact ⟨by simp only []; omega, by simp only []; omega, by simp only []; omega,
                  Or.inl ⟨off + room bl e, by simp only []; omega, by omega, by simp only []; omega,
                    fun _ => ⟨rfl, rfl⟩, by omega⟩⟩
          · exfalso
            have hz := l5 e (by simp)
            have := hif (by omega)
            rw [c3] at this
            omega
        · have hlb : lb < p.bucket + 1 := by
            rcases hph with ⟨off, o1, o2, o3, o4, o5⟩ | ⟨l1, _⟩
            · by_cases ho : 0 < off
              · have := (o4 ho).1; omega
              · have := o5 (by omega); omega
            · omega
          refine ⟨Or.inr ⟨by omega, by rw [hst, c2, c3]⟩, by rw [c3]; omega, by rw [c3]; omega, ?_⟩
          rw [c4, c3, c2]
          split
          · exact ⟨by simp, by simp only []; omega, by simp only []; omega,
              Or.inl ⟨0, by simp only []; omega, by omega, by simp, by omega, fun _ => by simp only []; omega⟩⟩
          · exact ⟨by simp only []; omega, by simp only []; omega, by simp only []; omega,
              Or.inl ⟨room bl e, rfl, by omega, by simp only []; omega, fun _ => ⟨rfl, rfl⟩, by omega⟩⟩
      obtain ⟨k1, k2, k3, k4⟩ := key
      obtain ⟨i1, i2⟩ := ih q r' gs' _ _ k4 (fun x hx => hh x (by simp [hx])) hso2 hlo hin'
      refine ⟨?_, ?_⟩
      · rw [outFrags_cons, f1]
        exact ⟨k1, by rw [hst, hbw]; exact k3, by omega, by rw [hst, hbw]; exact i1⟩
      · intro x hx
        rcases List.mem_cons.1 hx with rfl | hx
        · intro _ y hy
          rw [f1] at hy
          simp only [List.mem_singleton] at hy
          subst hy
          rw [hr1]
          exact ⟨k2, k3⟩
        · exact i2 x hx
    · obtain ⟨a0, a1, a2, a3, a3', a4, a5, ⟨b, m, a6, a7, a8, a9, _⟩, a11⟩ := place_large hbl hacc hd hs hpl
      obtain ⟨b', k, k0, k1, k2, k3, k4⟩ := place_large_pos hbl hacc hs hpl
      have hbb : b' = b := by
        have : b' * acc = b * acc := by omega
        exact Int.eq_of_mul_eq_mul_right (by omega) this
      subst hbb
      have hr1 : room bl g.1 = room bl e := room_congr a1.2.2.2.2 a2
      have hbig : ¬ Small bl acc g.1 := by unfold Small; rw [hr1]; exact hs
      have hsz := large_size hbl hd (le_of_lt (hh e (by simp))) hs
      have hlen : acc < e.hdr + e.size := by
        by_contra hn
        apply hs
        have : dataLen e = e.size := by unfold dataLen; omega
        exact mult_le hbl (room_dvd bl e) hd (d := e.hdr + e.size) (by omega) (by omega)
      obtain ⟨l1, l2, l3⟩ := a5.large hbig
      have hcov := a11 (by omega) (hh e (by simp))
      obtain ⟨x, hx⟩ : ∃ x, g.2.getLast? = some x := by
        cases h : g.2.getLast? with
        | none => exact absurd (List.getLast?_eq_none_iff.1 h) l2
        | some x => exact ⟨x, rfl⟩
      have hgl : g.2.length = m := by
        have := congrArg List.length a8
        simpa using this
      have hxb : x.bucket = b' + (m : Int) - 1 := by
        have := congrArg List.getLast? a8
        rw [List.getLast?_map, hx, List.getLast?_map, List.getLast?_range] at this
        rw [if_neg (by omega)] at this
        simp at this
        rw [this]; omega
      have m3 : (b' + (k : Int) - 1) * acc = (b' + k) * acc - acc := by ring
      have hq : SomePhase acc q x.bucket (fragStart x + blockedWritten bl x) es := by
        refine ⟨by rw [k2]; exact p1, by rw [k2]; exact p2, by rw [hxb]; exact a9, ?_⟩
        rcases k4 with ⟨x1, x2, x3⟩ | ⟨x1, x2, x3⟩
        · exact Or.inl ⟨0, by rw [x2, k3]; omega, by omega, by omega, by omega, fun _ => by omega⟩
        · refine Or.inr ⟨by omega, e.hdr, e.size, by rw [x2, k3]; omega, hlen, hsz, hso1⟩
      obtain ⟨i1, i2⟩ := ih q r' gs' _ _ hq (fun x hx => hh x (by simp [hx])) hso2 hlo hin'
      refine ⟨?_, ?_⟩
      · rw [outFrags_cons]
        refine TightFrom.append ?_ ?_
        · refine tight_large hbl hacc hd (loc := g.1.locA) (hdr := g.1.hdr) (by rw [a1.2.2.2.2]; exact a0) g.2 0 _ lb en b' m hcov
            (le_refl _) ?_ a8 (t1 _ _ (by omega)) (Or.inl ⟨rfl, a6⟩)
          intro f hf
          exact ⟨(a5.same f hf).2.2.2.2, l3 f hf⟩
        · intro lb' en' _ hlast
          obtain ⟨rfl, rfl⟩ := hlast x (by rw [hx]; simp)
          exact i1
      · intro y hy
        rcases List.mem_cons.1 hy with rfl | hy
        · intro hsm; exact absurd hsm hbig
        · exact i2 y hy

theorem forall2_mem_left {α β : Type} {R : α → β → Prop} {l : List α} {l' : List β} (h : List.Forall₂ R l l') :
    ∀ a ∈ l, ∃ b ∈ l', R a b := by
  induction h with
  | nil => simp
  | cons hab _ ih =>
    rename_i a b l l' _
    intro x hx
    rcases List.mem_cons.1 hx with rfl | hx
    · exact ⟨b, by simp, hab⟩
    · obtain ⟨y, hy, hr⟩ := ih x hx
      exact ⟨y, by simp [hy], hr⟩

/-- A good layout. -/
structure Layout (acc : Int) (es : List Frag) (gs : List (Frag × List Frag)) : Prop where
  same : List.Forall₂ (fun g e => SameFile g.1 e ∧ g.1.size = e.size) gs es
  laid : ∀ g ∈ gs, Laid acc g ∧ g.2 ≠ [] ∧ ∀ f ∈ g.2.head?, fragStart f = g.1.locA
  tight : TightFrom 512 acc (-1) 0 (outFrags gs)

/-- Entries put somewhere whose small ones are inside their buckets are laid out well. -/
theorem laid_of_placed {acc : Int} (hd : (512 : Int) ∣ acc) {e : Frag} {g : Frag × List Frag} (h : PutAt 512 acc e g)
    (hh : e.hdr < acc)
    (hs : Small 512 acc g.1 → ∀ f ∈ g.2, f.bucket * acc ≤ g.1.locA ∧ g.1.locA + room 512 g.1 ≤ (f.bucket + 1) * acc) :
    Laid acc g ∧ g.2 ≠ [] ∧ ∀ f ∈ g.2.head?, fragStart f = g.1.locA := by
  obtain ⟨s1, s2, s3, s4, s5⟩ := h.same
  have hpos := h.pos
  have hr1 : room 512 g.1 = room 512 e := room_congr s5 h.size
  have hiff : Small 512 acc g.1 ↔ Small 512 acc e := by unfold Small; rw [hr1]
  have hlarge : ¬ Small 512 acc g.1 → 0 < g.1.size := fun hn => large_size (by omega) hd (by omega) hn
  by_cases hsm : Small 512 acc g.1
  · obtain ⟨f, f1, f2, f3, f4, f5, f6, f7, f8⟩ := h.small (hiff.1 hsm)
    obtain ⟨b1, b2⟩ := hs hsm f (by rw [f1]; simp)
    have hg : SplitSpec.Good 512 acc g.1 g.2 := by
      refine ⟨?_, fun _ => ⟨f, f1, by rw [s5]; exact f3, by rw [h.size]; exact f4, f5, b1, b2⟩, fun hn => absurd hsm hn⟩
      intro y hy
      rw [f1] at hy
      simp only [List.mem_singleton] at hy
      subst hy
      exact f2
    refine ⟨⟨by omega, by omega, h.loc, hg, fun hn => absurd hsm hn, hlarge⟩, by rw [f1]; simp, ?_⟩
    intro y hy
    rw [f1] at hy
    simp only [List.head?_cons, Option.mem_def, Option.some.injEq] at hy
    subst hy
    unfold fragStart
    rw [if_pos f5, f3, f2.2.2.2.2, s5]; omega
  · obtain ⟨hg, hc⟩ := h.large (fun hn => hsm (hiff.2 hn))
    have hz := hlarge hsm
    have hcov := hc (by have := h.size; omega) hh
    obtain ⟨l1, l2, l3⟩ := hg.large hsm
    refine ⟨⟨by omega, by omega, h.loc, hg, fun _ => by rw [hr1, s5, h.size]; exact hcov, hlarge⟩, l2, ?_⟩
    intro f hf
    cases hg2 : g.2 with
    | nil => exact absurd hg2 l2
    | cons a as =>
      rw [hg2] at hf hcov
      simp only [List.head?_cons, Option.mem_def, Option.some.injEq] at hf
      subst hf
      have h0 := hcov.1
      have hm := (l3 a (by rw [hg2]; simp)).1
      have hsame := hg.same a (by rw [hg2]; simp)
      unfold fragStart
      rw [if_pos h0, hm, h0, hsame.2.2.2.2]; omega

/-- A sorted list whose small entries stay inside their buckets is laid out well. -/
theorem layout_inside {acc : Int} (hacc : 0 < acc) (hd : (512 : Int) ∣ acc) {pad : Bytes} {es : List Frag}
    {gs : List (Frag × List Frag)} {r : LPos} (hh : ∀ e ∈ es, e.hdr < acc) (hsort : es.Pairwise (fun a b => a.size ≤ b.size))
    (h : splitList 512 acc pad es = .ok (some (gs, r))) (hin : Inside 512 acc gs) : Layout acc es gs := by
  have hpl := split_any (by omega) hacc hd hh h
  obtain ⟨h1, h2⟩ := loop_inside (by omega) hacc hd es ⟨0, 0, 0⟩ r gs (-1) 0
    ⟨by simp, by simp only []; omega, by simp only []; omega, Or.inl ⟨0, by simp, by omega, by simp, by omega, by simp⟩⟩
    hh hsort (split_inv h) hin
  refine ⟨hpl.imp (fun g e h => ⟨h.same, h.size⟩), ?_, h1⟩
  intro g hg
  obtain ⟨e, he, hp⟩ := forall2_mem_left hpl g hg
  exact laid_of_placed hd hp (hh e he) (h2 g hg)

/-- A list with its large entries last is laid out well. -/
theorem layout_smallFirst {acc : Int} (hacc : 0 < acc) (hd : (512 : Int) ∣ acc) {pad : Bytes} {es : List Frag}
    {gs : List (Frag × List Frag)} {r : LPos} (hh : ∀ e ∈ es, e.hdr < acc) (hsf : SmallFirst 512 acc es)
    (h : splitList 512 acc pad es = .ok (some (gs, r))) : Layout acc es gs := by
  have hpl := split_any (by omega) hacc hd hh h
  obtain ⟨_, h2, _, _⟩ := split_good (by omega) hacc hd False (fun h => absurd h id) hsf h
  refine ⟨hpl.imp (fun g e h => ⟨h.same, h.size⟩), ?_, split_tight (by omega) hacc hd hh hsf h⟩
  intro g hg
  obtain ⟨e, he, hp⟩ := forall2_mem_left hpl g hg
  refine laid_of_placed hd hp (hh e he) ?_
  intro hs f hf
  obtain ⟨f', q1, q2, q3, q4, q5, q6⟩ := (h2 g hg).2.1.small hs
  rw [q1] at hf
  simp only [List.mem_singleton] at hf
  subst hf
  exact ⟨q5, q6⟩

end Parfu
