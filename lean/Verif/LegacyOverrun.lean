/-
Lemmas: a rank of parfu 0.5.1 whose fragments begin inside their buckets either gets through or has
undefined behaviour; it does not notice that a fragment ends outside.
-/
import Verif.LegacyRunTotal
set_option autoImplicit false

namespace Parfu
open SplitSpec Props MoveSpec TarSpec LegacyRunSpec

/-- No error return: either a result or undefined behaviour. -/
def Unchecked {α : Type} (r : Res (Option α)) : Prop := (∃ x, r = .ok (some x)) ∨ r = .error .ub

theorem Unchecked.bind {α β : Type} {r : Res (Option α)} {f : α → Res (Option β)} (h : Unchecked r)
    (hf : ∀ x, r = .ok (some x) → Unchecked (f x)) : Unchecked (r >>? f) := by
  rcases h with ⟨x, h⟩ | h
  · rw [h, bindRO_some]; exact hf x h
  · rw [h, bindRO_err]; exact Or.inr rfl

theorem blit_unchecked (buf : Bytes) (off : Nat) (d : Bytes) : (∃ b, blit buf off d = .ok b) ∨ blit buf off d = .error .ub := by
  unfold blit
  split
  · exact Or.inl ⟨_, rfl⟩
  · exact Or.inr rfl

theorem moveFrag_unchecked {L : LegEnv} (hst : L.strict = false) {bl acc bloc : Int} (s : BState) {f : Frag}
    (hf : FragOk L f) (h0 : 0 < f.size → bloc ≤ f.locA ∧ f.locA - bloc < acc) : Unchecked (moveFrag L bl acc bloc s f) := by
  unfold moveFrag
  refine Unchecked.bind ?_ ?_
  · by_cases hd : f.kind = .reg ∧ f.size > 0
    · rw [if_pos hd]
      refine Unchecked.bind ?_ (fun x _ => Or.inl ⟨_, rfl⟩)
      unfold putData
      rw [hf.dat hd.1 hd.2]
      simp only []
      have hw : wrap32 f.size = f.size := wrap32_of_fits ⟨by have := hd.2; omega, hf.size⟩
      have h01 := h0 hd.2
      rw [if_neg (by omega), if_neg (by rw [hw]; have := hd.2; have := hf.off; omega)]
      rcases blit_unchecked s.buf (f.locA - bloc).toNat ((List.drop f.locO.toNat (contOf L f.rel)).take (wrap32 f.size).toNat) with ⟨b, h⟩ | h
      · rw [h]; exact Or.inl ⟨_, rfl⟩
      · rw [h]; exact Or.inr rfl
    · rw [if_neg hd]; exact Or.inl ⟨_, rfl⟩
  · rintro ⟨buf1, set1⟩ _
    simp only [hst]
    have hh : (∃ b, (if f.locO = 0 then putHeader L bloc buf1 f else .ok buf1) = .ok b) ∨
        (if f.locO = 0 then putHeader L bloc buf1 f else .ok buf1) = .error .ub := by
      split
      · obtain ⟨t, ht1, ht2⟩ := hf.hdr
        unfold putHeader
        rw [ht1]
        simp only []
        rw [ht2]
        simp only []
        split
        · exact Or.inr rfl
        · exact blit_unchecked _ _ _
      · exact Or.inl ⟨_, rfl⟩
    rcases hh with ⟨b, h⟩ | h
    · rw [h]; simp only []
      rw [if_neg (by simp)]
      exact Or.inl ⟨_, rfl⟩
    · rw [h]; exact Or.inr rfl

theorem bucketLoop_unchecked {L : LegEnv} (hst : L.strict = false) {bl acc : Int} {idx : Nat} : ∀ (fr : List Frag) (s : BState),
    (∀ f ∈ fr, FragOk L f ∧ (0 < f.size → acc * f.bucket ≤ f.locA ∧ f.locA - acc * f.bucket < acc)) → Unchecked (bucketLoop L bl acc idx s fr) := by
  intro fr
  induction fr with
  | nil => intro s _; exact Or.inl ⟨_, rfl⟩
  | cons f fr ih =>
    intro s h
    unfold bucketLoop
    split
    · exact Or.inl ⟨_, rfl⟩
    · rename_i hb
      simp only [ne_eq, not_not] at hb
      obtain ⟨k1, k2⟩ := h f (by simp)
      rw [hb] at k2
      exact (moveFrag_unchecked hst s k1 k2).bind (fun x _ => ih x (fun g hg => h g (by simp [hg])))

theorem oneBucket_unchecked {L : LegEnv} (hst : L.strict = false) {bl acc : Int} (hacc : 10000 ≤ acc) {dstart : Nat} {fr : List Frag}
    {call : List Nat} (hck : checkCalls fr call = true)
    (hfr : ∀ f ∈ fr, FragOk L f ∧ (0 < f.size → acc * f.bucket ≤ f.locA ∧ f.locA - acc * f.bucket < acc)) (idx : Nat) (buf : Bytes) :
    Unchecked (oneBucket L bl acc dstart fr call idx buf) := by
  unfold oneBucket
  rw [if_neg (by omega)]
  split
  · exact Or.inr rfl
  rename_i c hc
  split
  · exact Or.inr rfl
  rename_i f0 hf0
  have hi : idx < call.length := (List.getElem?_eq_some_iff.1 hc).1
  have hb : f0.bucket = idx := by
    have := (List.all_eq_true.1 hck) idx (List.mem_range.2 hi)
    rw [hc] at this
    simp only [] at this
    rw [hf0] at this
    simpa using this
  rw [if_neg (by simp [hb])]
  refine (bucketLoop_unchecked hst (fr.drop c) _ (fun f hf => hfr f (List.mem_of_mem_drop hf))).bind ?_
  rintro ⟨s, rest⟩ _
  simp only []
  have hp : (∃ s', putFiller L bl acc idx s = .ok s') ∨ putFiller L bl acc idx s = .error .ub := by
    unfold putFiller
    split
    · split
      · exact Or.inr rfl
      · rcases blit_unchecked s.buf s.cur.toNat (legacyHeader spacerName (acc - s.cur - bl) (L.now idx)) with ⟨b, h⟩ | h
        · rw [h]; exact Or.inl ⟨_, rfl⟩
        · rw [h]; exact Or.inr rfl
    · exact Or.inl ⟨_, rfl⟩
  rcases hp with ⟨s', h⟩ | h
  · rw [h]
    simp only []
    split
    · exact Or.inr rfl
    · split
      · unfold terminate
        rcases blit_unchecked s'.buf 0 (zeros 1025) with ⟨b, h⟩ | h
        · rw [h]; exact Or.inl ⟨_, rfl⟩
        · rw [h]; exact Or.inr rfl
      · exact Or.inl ⟨_, rfl⟩
  · rw [h]; exact Or.inr rfl

theorem bucketsLoop_unchecked {L : LegEnv} (hst : L.strict = false) {bl acc : Int} (hacc : 10000 ≤ acc) {dstart : Nat} {fr : List Frag}
    {call : List Nat} (hck : checkCalls fr call = true)
    (hfr : ∀ f ∈ fr, FragOk L f ∧ (0 < f.size → acc * f.bucket ≤ f.locA ∧ f.locA - acc * f.bucket < acc)) : ∀ (is : List Nat) (buf : Bytes),
    Unchecked (bucketsLoop L bl acc dstart fr call is buf) := by
  intro is
  induction is with
  | nil => intro buf; exact Or.inl ⟨_, rfl⟩
  | cons i is ih =>
    intro buf
    unfold bucketsLoop
    refine (oneBucket_unchecked hst hacc hck hfr i buf).bind ?_
    rintro ⟨b, ws⟩ _
    exact (ih b).bind (fun x _ => Or.inl ⟨_, rfl⟩)

theorem allRanks_unchecked {one : Nat → Res (Option (List WriteReq))} (h : ∀ r, Unchecked (one r)) : ∀ rs, Unchecked (allRanks one rs) := by
  intro rs
  induction rs with
  | nil => exact Or.inl ⟨_, rfl⟩
  | cons r rs ih =>
    unfold allRanks
    exact (h r).bind (fun x _ => ih.bind (fun y _ => Or.inl ⟨_, rfl⟩))

theorem ranks_unchecked {L : LegEnv} (hst : L.strict = false) {acc : Int} (hacc : 10000 ≤ acc) {dstart : Nat} {fr : List Frag}
    {call : List Nat} {text : Bytes} {a : Int} (ht : readFullCatalog text = .ok (some (a, fr))) (hck : checkCalls fr call = true)
    (hfr : ∀ f ∈ fr, FragOk L f ∧ (0 < f.size → acc * f.bucket ≤ f.locA ∧ f.locA - acc * f.bucket < acc)) (n : Nat) (rs : List Nat) :
    Unchecked (allRanks (rankPart L 512 acc dstart text call n) rs) := by
  refine allRanks_unchecked (fun r => ?_) rs
  unfold rankPart
  rw [ht, bindRO_some]
  simp only []
  rw [if_neg (by rw [hck]; simp)]
  exact bucketsLoop_unchecked hst hacc hck hfr _ _

end Parfu
