/-
Lemmas: a whole run of parfu 0.5.1's writer and the archive it leaves.
-/
import Verif.LegacyLayoutAny
set_option autoImplicit false

namespace Parfu
open SplitSpec Props MoveSpec TarSpec LegacyRunSpec

/-! ### the fragment list survives its catalog -/

/-- The padding fields of a fragment. -/
def PadFields (pad : Bytes) (e f : Frag) (z : Int) : Prop :=
  (f.padName = e.padName ∨ f.padName = some pad) ∧
  ((f.padLoc = e.padLoc ∧ f.padHdr = e.padHdr ∧ f.padSize = e.padSize) ∨
   (0 ≤ f.padLoc ∧ f.padLoc ≤ z ∧ 0 ≤ f.padHdr ∧ f.padHdr ≤ z ∧ 0 ≤ f.padSize ∧ f.padSize ≤ z))

theorem padBefore_fields {bl : Int} {pad : Bytes} {e e' : Frag} {loc space : Int}
    (h : padBefore bl pad e loc space = .ok (some e')) (h0 : 0 ≤ loc) (hz : e.locA = loc + space) :
    PadFields pad e e' e.locA := by
  unfold padBefore at h
  split at h
  · split at h
    · cases h
    · split at h
      · cases h
      · split at h
        · cases h
        · split at h
          · cases h
          · simp at h; subst h
            exact ⟨Or.inr rfl, Or.inr ⟨h0, by simp only []; omega, by simp, by simp only []; omega, by simp only []; omega, by simp only []; omega⟩⟩
  · simp at h; subst h; exact ⟨Or.inl rfl, Or.inl ⟨rfl, rfl, rfl⟩⟩

theorem place_fields {bl acc : Int} (hbl : 0 < bl) (hacc : 0 < acc) {pad : Bytes} {p q : LPos} {e : Frag} {g : Frag × List Frag}
    (h : placeEntry bl acc pad p e = .ok (some (g, q))) (h0 : 0 ≤ p.whole) :
    ∀ f ∈ g.2, PadFields pad e f g.1.locA ∧ 0 ≤ f.nFrag ∧ f.nFrag ≤ g.2.length ∧ f.fp = -1 := by
  have hpf : ∀ (e1 : Frag) (w : Int), padBefore bl pad { e with locA := w } p.whole (w - p.whole) = .ok (some e1) →
      PadFields pad e e1 w ∧ e1.locA = w := by
    intro e1 w he
    have h1 := padBefore_fields he h0 (by simp only []; omega)
    exact ⟨h1, (padBefore_some he).2.2⟩
  unfold placeEntry at h
  split at h
  · cases h
  simp only [] at h
  split at h
  · split at h
    · simp at h
      obtain ⟨rfl, rfl⟩ := h
      intro f hf
      simp at hf; subst hf
      exact ⟨⟨Or.inl rfl, Or.inl ⟨rfl, rfl, rfl⟩⟩, by simp, by simp, rfl⟩
    · split at h
      · cases h
      · cases h
      rename_i e1 he1
      obtain ⟨k1, k2⟩ := hpf _ _ he1
      simp at h
      obtain ⟨rfl, rfl⟩ := h
      intro f hf
      simp at hf; subst hf
      simp only []
      rw [k2]
      exact ⟨k1, by simp, by simp, trivial⟩
  · split at h
    · cases h
    · cases h
    rename_i e1 he1
    obtain ⟨k1, k2⟩ := hpf _ _ he1
    split at h
    · rename_i hu
      simp only [Except.ok.injEq, Option.some.injEq, Prod.mk.injEq] at h
      obtain ⟨rfl, rfl⟩ := h
      intro f hf
      simp only [List.mem_append, List.mem_map, List.mem_range, List.mem_singleton] at hf
      simp only []
      rw [k2]
      rcases hf with ⟨j, hj, rfl⟩ | rfl
      · unfold wholeFrag
        split
        · exact ⟨k1, by simp only [hu]; simp; omega, by simp only [hu]; simp, rfl⟩
        · exact ⟨k1, by simp only [hu]; simp; omega, by simp only [hu]; simp, rfl⟩
      · exact ⟨k1, by simp only [lastFrag, hu]; simp; omega, by simp only [lastFrag, hu]; simp, rfl⟩
    · rename_i hu
      simp only [Except.ok.injEq, Option.some.injEq, Prod.mk.injEq] at h
      obtain ⟨rfl, rfl⟩ := h
      intro f hf
      simp only [List.mem_map, List.mem_range] at hf
      simp only []
      rw [k2]
      obtain ⟨j, hj, rfl⟩ := hf
      unfold wholeFrag
      split
      · exact ⟨k1, by simp only [hu]; simp, by simp only [hu]; simp, rfl⟩
      · exact ⟨k1, by simp only [hu]; simp, by simp only [hu]; simp, rfl⟩

/-- What the layout loop gives for each entry. -/
theorem loop_fields {bl acc : Int} (hbl : 0 < bl) (hacc : 0 < acc) (hd : bl ∣ acc) {pad : Bytes} : ∀ (es : List Frag) (p r : LPos)
    (gs : List (Frag × List Frag)), AnyPhase acc p → (∀ e ∈ es, e.hdr < acc) → splitLoop bl acc pad p es = .ok (some (gs, r)) →
    List.Forall₂ (fun g e => PutAt bl acc e g ∧
      ∀ f ∈ g.2, PadFields pad e f g.1.locA ∧ 0 ≤ f.nFrag ∧ f.nFrag ≤ g.2.length ∧ f.fp = -1) gs es := by
  intro es
  induction es with
  | nil =>
    intro p r gs _ _ h
    simp [splitLoop] at h
    obtain ⟨rfl, rfl⟩ := h
    simp
  | cons e es ih =>
    intro p r gs hp hh h
    unfold splitLoop at h
    split at h
    · cases h
    · cases h
    rename_i g q hpl
    split at h
    · cases h
    · cases h
    rename_i gs' r' hlo
    simp only [Except.ok.injEq, Option.some.injEq, Prod.mk.injEq] at h
    obtain ⟨rfl, rfl⟩ := h
    obtain ⟨h1, h2⟩ := place_any hbl hacc hd hp (hh e (by simp)) hpl
    have h0 : 0 ≤ p.whole := by
      have := Int.mul_nonneg hp.1 (le_of_lt hacc)
      have := hp.2.1
      omega
    exact .cons ⟨h1, place_fields hbl hacc hpl h0⟩ (ih q r' gs' h2 (fun x hx => hh x (by simp [hx])) hlo)

theorem split_fields {acc : Int} (hacc : 0 < acc) (hd : (512 : Int) ∣ acc) {pad : Bytes} {es : List Frag}
    {gs : List (Frag × List Frag)} {r : LPos} (hh : ∀ e ∈ es, e.hdr < acc)
    (h : splitList 512 acc pad es = .ok (some (gs, r))) :
    List.Forall₂ (fun g e => PutAt 512 acc e g ∧
      ∀ f ∈ g.2, PadFields pad e f g.1.locA ∧ 0 ≤ f.nFrag ∧ f.nFrag ≤ g.2.length ∧ f.fp = -1) gs es :=
  loop_fields (by omega) hacc hd es ⟨0, 0, 0⟩ r gs ⟨by simp, by simp, by simp, by simp; omega, by simp; omega⟩ hh (split_inv h)

theorem sublist_outFrags {gs : List (Frag × List Frag)} {g : Frag × List Frag} (hg : g ∈ gs) : g.2.Sublist (outFrags gs) := by
  induction gs with
  | nil => simp at hg
  | cons x xs ih =>
    rw [outFrags_cons]
    rcases List.mem_cons.1 hg with rfl | hg
    · exact List.sublist_append_left _ _
    · exact (ih hg).trans (List.sublist_append_right _ _)

/-- The fragments of an entry are of its file. -/
theorem PutAt.sameAll {acc : Int} {e : Frag} {g : Frag × List Frag} (h : PutAt 512 acc e g) : ∀ f ∈ g.2, SameFile f g.1 := by
  intro f hf
  by_cases hs : Small 512 acc e
  · obtain ⟨f', f1, f2, _⟩ := h.small hs
    rw [f1] at hf
    simp only [List.mem_singleton] at hf
    subst hf
    exact f2
  · exact (h.large hs).1.same f hf

theorem PutAt.ne {acc : Int} {e : Frag} {g : Frag × List Frag} (h : PutAt 512 acc e g) : g.2 ≠ [] := by
  have hr1 : room 512 g.1 = room 512 e := room_congr h.same.2.2.2.2 h.size
  by_cases hs : Small 512 acc e
  · obtain ⟨f', f1, f2, _⟩ := h.small hs
    rw [f1]; simp
  · exact ((h.large hs).1.large (by unfold Small; rw [hr1]; exact hs)).2.1

/-- The list of fragments can be put in a catalog. -/
theorem split_plain {acc : Int} (hacc : 0 < acc) (hmax : acc ≤ 500000000) (hd : (512 : Int) ∣ acc) {pad : Bytes} (hpad : LegTabFree pad)
    {es : List Frag} {gs : List (Frag × List Frag)} {r : LPos} (hh : ∀ e ∈ es, e.hdr < acc)
    (hp : ∀ e ∈ es, Plain e) (h : splitList 512 acc pad es = .ok (some (gs, r)))
    (hn : (outFrags gs).length < 2 ^ 30) (hb : ∀ f ∈ outFrags gs, 0 ≤ f.bucket ∧ f.bucket < 2 ^ 30) :
    ∀ f ∈ outFrags gs, Plain f := by
  have hfl := split_fields hacc hd hh h
  intro f hf
  rw [List.mem_flatMap] at hf
  obtain ⟨g, hg, hfg⟩ := hf
  obtain ⟨e, he, hl, hfi⟩ := forall2_mem_left hfl g hg
  have hs := hl.same
  have hz := hl.size
  obtain ⟨⟨p1, p2⟩, n1, n2, n3⟩ := hfi f hfg
  have hP := hp e he
  have hsame := hl.sameAll f hfg
  obtain ⟨b1, b2⟩ := hb f (by rw [List.mem_flatMap]; exact ⟨g, hg, hfg⟩)
  have hgl : g.2.length ≤ (outFrags gs).length := by
    exact (sublist_outFrags hg).length_le
  have hmul : (f.bucket + 4) * acc ≤ (2 ^ 30 + 4) * 500000000 := by
    calc (f.bucket + 4) * acc ≤ (2 ^ 30 + 4) * acc := Int.mul_le_mul_of_nonneg_right (by omega) (by omega)
      _ ≤ (2 ^ 30 + 4) * 500000000 := by omega
  have hlow : 0 ≤ f.bucket * acc := Int.mul_nonneg b1 (by omega)
  have emul : (f.bucket + 1) * acc = f.bucket * acc + acc := by ring
  have emul4 : (f.bucket + 4) * acc = f.bucket * acc + 4 * acc := by ring
  have hhp := hl.pos
  have hhs := hh e he
  have hloc := hl.loc
  -- numbers
  obtain ⟨z1, z2, z3, z4⟩ : FitsLong f.size ∧ FitsLong f.locA ∧ FitsLong f.locO ∧ g.1.locA ≤ (2 ^ 30 + 4) * 500000000 := by
    by_cases hsm : Small 512 acc e
    · obtain ⟨f', hf', q0, q1, q2, q3, q4, q5, q6⟩ := hl.small hsm
      rw [hf'] at hfg
      simp at hfg; subst hfg
      refine ⟨by rw [q2]; exact hP.size, ?_, by rw [q3]; exact ⟨by omega, by omega⟩, by omega⟩
      unfold FitsLong; omega
    · have hr1 : room 512 g.1 = room 512 e := room_congr hs.2.2.2.2 hz
      have hsz := large_size (by omega) hd (le_of_lt hhs) hsm
      obtain ⟨hgood, hc⟩ := hl.large hsm
      have hc := hc (by omega) hhs
      obtain ⟨l1, l2, l3⟩ := hgood.large (by unfold Small; rw [hr1]; exact hsm)
      obtain ⟨m1, m2, m3⟩ := l3 f hfg
      have hge := hs.2.2.2.2
      have hlo := covers_locO hc f hfg
      have hpos : ∀ (fs : List Frag) (a z : Int), Covers a fs z → f ∈ fs → 0 < f.size := by
        intro fs
        induction fs with
        | nil => intro _ _ _ h; simp at h
        | cons y ys ih =>
          intro a z h hm
          rcases List.mem_cons.1 hm with rfl | hm
          · exact h.2.1
          · exact ih _ _ h.2.2 hm
      have := hpos _ _ _ hc hfg
      unfold FitsLong
      refine ⟨by omega, by omega, by omega, by omega⟩
  constructor
  · rw [hsame.1, hs.1]; exact hP.rel
  · rw [hsame.2.1, hs.2.1]; exact hP.arc
  · rw [hsame.2.2.2.1, hs.2.2.2.1]; exact hP.target
  · intro q hq
    rcases p1 with h | h
    · rw [h] at hq; exact hP.pad q hq
    · rw [h] at hq; simp at hq; subst hq; exact hpad
  · rw [hsame.2.2.1, hs.2.2.1]; exact hP.kind
  · exact z1
  · rw [hsame.2.2.2.2, hs.2.2.2.2]; exact hP.hdr
  · exact z2
  · exact z3
  · rcases p2 with ⟨h, _, _⟩ | h
    · rw [h]; exact hP.padLoc
    · unfold FitsLong; omega
  · rcases p2 with ⟨_, h, _⟩ | h
    · rw [h]; exact hP.padHdr
    · unfold FitsLong; omega
  · rcases p2 with ⟨_, _, h⟩ | h
    · rw [h]; exact hP.padSize
    · unfold FitsLong; omega
  · unfold FitsI32; omega
  · rw [n3]; exact ⟨by omega, by omega⟩
  · exact ⟨by omega, by omega⟩

/-! ### padding names do not matter -/

theorem named_tight {nul : Bytes} {bl acc lb en : Int} {fs : List Frag} (h : TightFrom bl acc lb en fs) :
    TightFrom bl acc lb en (fs.map (named nul)) := by
  induction fs generalizing lb en with
  | nil => trivial
  | cons f fs ih => exact ⟨h.1, h.2.1, h.2.2.1, ih h.2.2.2⟩

theorem named_covers {nul : Bytes} {a z : Int} {fs : List Frag} (h : Covers a fs z) : Covers a (fs.map (named nul)) z := by
  induction fs generalizing a with
  | nil => exact h
  | cons f fs ih => exact ⟨h.1, h.2.1, ih h.2.2⟩

theorem named_laid {nul : Bytes} {acc : Int} {g : Frag × List Frag} (h : Laid acc g) : Laid acc (g.1, g.2.map (named nul)) := by
  refine ⟨h.pos, h.short, h.loc, ⟨?_, ?_, ?_⟩, fun hn => named_covers (h.cov hn), h.large⟩
  · intro f hf
    simp only [List.mem_map] at hf
    obtain ⟨y, hy, rfl⟩ := hf
    exact h.good.same y hy
  · intro hs
    obtain ⟨f, hf, k⟩ := h.good.small hs
    exact ⟨named nul f, by simp [hf], k⟩
  · intro hs
    obtain ⟨k1, k2, k3⟩ := h.good.large hs
    refine ⟨k1, by simpa using k2, ?_⟩
    intro f hf
    simp only [List.mem_map] at hf
    obtain ⟨y, hy, rfl⟩ := hf
    exact k3 y hy

theorem named_rankCall (nul : Bytes) (fs : List Frag) : rankCallList (fs.map (named nul)) = rankCallList fs := by
  have hl : ∀ (fs : List Frag) (i : Nat) (last : Int), rankCallLoop i last (fs.map (named nul)) = rankCallLoop i last fs := by
    intro fs
    induction fs with
    | nil => intros; rfl
    | cons f fs ih =>
      intro i last
      simp only [List.map_cons, rankCallLoop]
      rw [ih, ih]
      rfl
  cases fs with
  | nil => rfl
  | cons f fs =>
    simp only [List.map_cons, rankCallList]
    rw [← List.map_cons, hl]
    rfl

theorem named_out (nul : Bytes) (gs : List (Frag × List Frag)) :
    outFrags (gs.map fun g => (g.1, g.2.map (named nul))) = (outFrags gs).map (named nul) := by
  induction gs with
  | nil => rfl
  | cons g gs ih => rw [List.map_cons, outFrags_cons, outFrags_cons, List.map_append, ih]

theorem allRanks_congr {one one' : Nat → Res (Option (List WriteReq))} (h : ∀ r, one r = one' r) (rs : List Nat) :
    allRanks one rs = allRanks one' rs := by
  induction rs with
  | nil => rfl
  | cons r rs ih => simp only [allRanks]; rw [h, ih]

theorem allRanks_first {one : Nat → Res (Option (List WriteReq))} {r : Nat} {rs : List Nat} {wss : List (List WriteReq)}
    (h : allRanks one (r :: rs) = .ok (some wss)) : ∃ ws, one r = .ok (some ws) := by
  simp only [allRanks] at h
  obtain ⟨ws, h1, _⟩ := bindRO_eq h
  exact ⟨ws, h1⟩

/-- What a list must be like to be written. -/
structure RunOk (L : LegEnv) (acc : Int) (es : List Frag) (ms : List Member) : Prop where
  lax : L.strict = false
  clock : ∀ i, L.now i < 2 ^ 64
  clockCat : L.nowCat < 2 ^ 64
  clockGap : L.nowGap < 2 ^ 64
  accMin : 100000 ≤ acc
  accMax : acc ≤ 500000000
  accDvd : (512 : Int) ∣ acc
  sorted : es.Pairwise (fun a b => a.size ≤ b.size)
  hdr : ∀ e ∈ es, e.hdr < acc
  plain : ∀ e ∈ es, Plain e
  two : 2 ≤ es.length
  members : List.Forall₂ (fun e m => EntOk L e m ∧ ownMember m = false) es ms

theorem RunOk.setup {L : LegEnv} {acc : Int} {es : List Frag} {ms : List Member} (h : RunOk L acc es ms) : LegSetup L acc :=
  ⟨h.lax, h.clock, h.clockCat, h.clockGap, by have := h.accMin; omega, by have := h.accMax; omega, h.accDvd⟩

theorem listToBuffer_count {nul : Bytes} {arch : Bool} {acc : Int} {es : List Frag} {buf : Bytes}
    (h : listToBuffer nul arch acc es = .ok (some buf)) : 200 * es.length < 2 ^ 31 := by
  unfold listToBuffer at h
  split at h
  · cases h
  · omega

theorem growOut_le {cap used need c : Nat} (h : growOut cap used need = some c) : c ≤ max cap 1000000000 := by
  induction cap using growOut.induct (used := used) (need := need) with
  | case1 c h1 h2 => rw [growOut, if_pos h1, if_pos h2] at h; cases h
  | case2 c h1 h2 ih =>
    rw [growOut, if_pos h1, if_neg h2] at h
    have := ih h
    omega
  | case3 c h1 => rw [growOut, if_neg h1] at h; simp at h; omega

theorem writeLines_le {ls cap : Nat} {out buf : Bytes} {lines : List Bytes} (hc : out.length ≤ max cap 1000000000)
    (h : writeLines ls cap out lines = .ok (some buf)) : buf.length ≤ max cap 1000000000 := by
  induction lines generalizing ls cap out with
  | nil => simp [writeLines] at h; subst h; exact hc
  | cons l lines ih =>
    simp only [writeLines] at h
    split at h
    · cases h
    rename_i cap' hg
    have := growOut_le hg
    split at h
    · cases h
    have := ih (by simp; omega) h
    omega

theorem listToBuffer_le {nul : Bytes} {arch : Bool} {acc : Int} {es : List Frag} {buf : Bytes}
    (h : listToBuffer nul arch acc es = .ok (some buf)) : buf.length < 2 ^ 32 := by
  unfold listToBuffer at h
  split at h
  · cases h
  rename_i h0
  obtain ⟨out, h1, h2⟩ := bindRO_eq h
  have hcap : catCap arch es.length ≤ 512 + 200 * es.length := by unfold catCap; split <;> omega
  have hl := writeLines_le (by omega) h1
  split at h2
  · cases h2
  rename_i h3
  simp only [Except.ok.injEq, Option.some.injEq] at h2
  rw [← h2]
  simp only [ne_eq, not_not] at h3
  simp only [List.length_append, h3, List.length_singleton, List.length_drop]
  omega

theorem length_outFrags_ge {gs : List (Frag × List Frag)} (h : ∀ g ∈ gs, g.2 ≠ []) : gs.length ≤ (outFrags gs).length := by
  induction gs with
  | nil => simp
  | cons g gs ih =>
    rw [outFrags_cons, List.length_append, List.length_cons]
    have := ih (fun x hx => h x (by simp [hx]))
    have := List.length_pos_iff.2 (h g (by simp))
    omega

theorem forall2_compose {α β γ : Type} {R : α → β → Prop} {S : β → γ → Prop} {T : α → γ → Prop}
    (hT : ∀ a b c, R a b → S b c → T a c) {l : List α} {l' : List β} (h : List.Forall₂ R l l') {l'' : List γ}
    (h' : List.Forall₂ S l' l'') : List.Forall₂ T l l'' := by
  induction h generalizing l'' with
  | nil => cases h'; exact .nil
  | cons hab _ ih =>
    cases h' with
    | cons hbc h' => exact .cons (hT _ _ _ hab hbc) (ih h')

/-- A laid-out list is ready for the ranks. -/
theorem run_ready {L : LegEnv} {acc : Int} {es : List Frag} {ms : List Member} (hr : RunOk L acc es ms)
    (nul : Bytes) {gs : List (Frag × List Frag)} (hlay : Layout acc es gs) {call : List Nat}
    (hcl : rankCallList (outFrags gs) = .ok (some call)) (hck : checkCalls (outFrags gs) call = true) :
    ∀ (fr : List Frag), fr = outFrags gs ∨ fr = (outFrags gs).map (named nul) → Ready L acc fr call := by
  have hmin := hr.accMin
  have hmax := hr.accMax
  obtain ⟨hsame, hlaid, htight⟩ := hlay
  have hent : List.Forall₂ (fun g m => EntOk L g.1 m ∧ ownMember m = false) gs ms :=
    forall2_compose (R := fun g e => SameFile g.1 e ∧ g.1.size = e.size) (fun g e m h1 h2 => ⟨h2.1.same h1.1 h1.2, h2.2⟩) hsame hr.members
  have hok : ∀ f ∈ outFrags gs, FragOk L f := by
    intro f hf
    rw [List.mem_flatMap] at hf
    obtain ⟨g, hg, hfg⟩ := hf
    obtain ⟨m, hm, hem, _⟩ := forall2_mem_left hent g hg
    obtain ⟨hl, _, _⟩ := hlaid g hg
    obtain ⟨s1, s2, s3, s4, s5⟩ := hl.good.same f hfg
    refine ⟨by rw [s1]; exact hem.hdr, by rw [s1, s5]; exact hem.len, ?_, ?_, ?_⟩
    · intro hk _
      rw [s1]
      exact (hem.reg (by rw [← s3]; exact hk)).1
    · by_cases hsm : Small 512 acc g.1
      · obtain ⟨f', hf', q1, q2, q3, q4, q5⟩ := hl.good.small hsm
        rw [hf'] at hfg; simp at hfg; subst hfg; omega
      · exact covers_locO (hl.cov hsm) f hfg
    · by_cases hsm : Small 512 acc g.1
      · obtain ⟨f', hf', q1, q2, q3, q4, q5⟩ := hl.good.small hsm
        rw [hf'] at hfg; simp at hfg; subst hfg
        have hroom := room_ge (bl := 512) (by omega) g.1
        have hdl : g.1.size ≤ dataLen g.1 := by unfold dataLen; omega
        have := hl.pos
        unfold Small at hsm
        omega
      · obtain ⟨l1, l2, l3⟩ := hl.good.large hsm
        obtain ⟨m1, m2, m3⟩ := l3 f hfg
        have emul : (f.bucket + 1) * acc = f.bucket * acc + acc := by ring
        omega
  rintro fr (rfl | rfl)
  · exact ⟨htight, hok, hcl, hck⟩
  · refine ⟨named_tight htight, ?_, by rw [named_rankCall]; exact hcl, ?_⟩
    · intro f hf
      simp only [List.mem_map] at hf
      obtain ⟨y, hy, rfl⟩ := hf
      obtain ⟨o1, o2, o3, o4, o5⟩ := hok y hy
      exact ⟨o1, o2, o3, o4, o5⟩
    · unfold checkCalls at hck ⊢
      rw [← hck]
      congr 1
      funext i
      cases call[i]? with
      | none => rfl
      | some c =>
        simp only [List.getElem?_map]
        cases (outFrags gs)[c]? with
        | none => rfl
        | some f => rfl

/-- There are no more buckets than fragments. -/
theorem run_calls {L : LegEnv} {acc : Int} {fr : List Frag} {call : List Nat} (hready : Ready L acc fr call) :
    call.length ≤ fr.length := by
  obtain ⟨_, hK⟩ := hready.numbered
  obtain ⟨_, hps, hp⟩ := C37_partition _ hready.tight.inOrder call hready.calls
  have key : ∀ (k : Nat) (hk : k < call.length), k ≤ call[k] := by
    intro k
    induction k with
    | zero => intro _; omega
    | succ k ih =>
      intro hk
      have := ih (by omega)
      have := List.pairwise_iff_getElem.1 hps k (k+1) (by omega) hk (by omega)
      omega
  have h1 := key (call.length - 1) (by omega)
  obtain ⟨h2, _⟩ := hp (call.length - 1) (by omega)
  omega

/-- Every fragment belongs to a run of fragments of one bucket that begins at an entry of the call list. -/
theorem calls_run {fr : List Frag} {call : List Nat} (h : rankCallList fr = .ok (some call)) :
    ∀ j (hj : j < fr.length), ∃ k, ∃ hk : k < call.length, call[k] ≤ j ∧
      ∀ i (hi : i < fr.length), call[k] ≤ i → i ≤ j → fr[i].bucket = fr[j].bucket := by
  cases fr with
  | nil => cases h
  | cons f fs =>
    simp only [rankCallList] at h
    split at h
    · cases h
    rename_i hb
    have hb : f.bucket = 0 := not_not.1 hb
    simp only [Except.ok.injEq, Option.some.injEq] at h
    have hhead : rankCallLoop 0 (-1) (f :: fs) = 0 :: rankCallLoop 1 f.bucket fs := by
      rw [rankCallLoop, if_pos (by omega)]
    have hm := mem_rankCallLoop (f :: fs) 0 (-1)
    rw [h] at hm hhead
    generalize f :: fs = l at *
    intro j
    induction j with
    | zero =>
      intro hj
      refine ⟨0, by rw [hhead]; simp, by simp [hhead], ?_⟩
      intro i hi _ h0
      have : i = 0 := by omega
      subst this; rfl
    | succ j ih =>
      intro hj
      by_cases he : l[j+1].bucket = l[j].bucket
      · obtain ⟨k, hk, k1, k2⟩ := ih (by omega)
        refine ⟨k, hk, by omega, ?_⟩
        intro i hi h1 h2
        by_cases hij : i = j + 1
        · subst hij; rfl
        · rw [he]; exact k2 i hi h1 (by omega)
      · obtain ⟨k, hk, hkk⟩ := List.getElem_of_mem ((hm (j+1)).2 (Or.inr ⟨j, hj, by omega, he⟩))
        refine ⟨k, hk, by omega, ?_⟩
        intro i hi h1 h2
        have : i = j + 1 := by omega
        subst this; rfl

/-- There are no more buckets than fragments. -/
theorem calls_le {fr : List Frag} {call : List Nat} (h : rankCallList fr = .ok (some call)) (hck : checkCalls fr call = true) :
    call.length ≤ fr.length ∧ 0 < call.length := by
  have hc := checkCalls_iff hck
  have hps : call.Pairwise (· < ·) ∧ 0 < call.length := by
    cases fr with
    | nil => cases h
    | cons f fs =>
      simp only [rankCallList] at h
      split at h
      · cases h
      rename_i hb
      simp only [Except.ok.injEq, Option.some.injEq] at h
      rw [← h]
      refine ⟨rankCallLoop_sorted _ _ _, ?_⟩
      rw [rankCallLoop, if_pos (by omega)]; simp
  have key : ∀ (k : Nat) (hk : k < call.length), k ≤ call[k] := by
    intro k
    induction k with
    | zero => intro _; omega
    | succ k ih =>
      intro hk
      have := ih (by omega)
      have := List.pairwise_iff_getElem.1 hps.1 k (k+1) (by omega) hk (by omega)
      omega
  have h0 := hps.2
  have h1 := key (call.length - 1) (by omega)
  obtain ⟨h2, _⟩ := hc (call.length - 1) (by omega)
  omega

/-- If the check of the call list passes, bucket numbers are below the number of buckets. -/
theorem calls_bucket {fr : List Frag} {call : List Nat} (h : rankCallList fr = .ok (some call)) (hck : checkCalls fr call = true) :
    ∀ f ∈ fr, 0 ≤ f.bucket ∧ f.bucket < call.length := by
  intro f hf
  obtain ⟨j, hj, rfl⟩ := List.getElem_of_mem hf
  obtain ⟨k, hk, k1, k2⟩ := calls_run h j hj
  obtain ⟨hc, hb⟩ := checkCalls_iff hck k hk
  have := k2 _ hc (le_refl _) k1
  omega

/-- Every rank reads the list of fragments. -/
theorem run_text {L : LegEnv} {nul pad : Bytes} {acc : Int} {es : List Frag} {ms : List Member} (hr : RunOk L acc es ms)
    (hpad : LegTabFree pad) (hnul : LegTabFree nul) {gs : List (Frag × List Frag)}
    {r : LPos} (hsp : splitList 512 acc pad es = .ok (some (gs, r))) {text : Bytes}
    (htx : listToBuffer nul false acc (outFrags gs) = .ok (some text)) {call : List Nat}
    (hcl : rankCallList (outFrags gs) = .ok (some call)) (hck : checkCalls (outFrags gs) call = true) :
    readFullCatalog text = .ok (some (acc, (outFrags gs).map (named nul))) := by
  have hmin := hr.accMin
  have hmax := hr.accMax
  have hput := split_any (by omega) (by omega) hr.accDvd hr.hdr hsp
  have hcount := listToBuffer_count htx
  have hcl2 := calls_le hcl hck
  have hplain := split_plain (by omega) hmax hr.accDvd hpad hr.hdr hr.plain hsp (by omega)
    (fun f hf => by have := calls_bucket hcl hck f hf; omega)
  have hlen2 : 2 ≤ (outFrags gs).length := by
    have h1 := length_outFrags_ge (gs := gs) (fun g hg => by
      obtain ⟨e, _, hp⟩ := forall2_mem_left hput g hg
      exact hp.ne)
    have h2 := hput.length_eq
    have := hr.two
    omega
  have hrt := C30_round_trip_partial nul hnul acc (outFrags gs) text htx ⟨hmin, hmax⟩ hlen2 hplain []
  rw [List.append_nil] at hrt
  exact hrt

/-! ### a run that succeeds has a good layout -/

theorem putHeader_length {L : LegEnv} {bloc : Int} {buf out : Bytes} {f : Frag} (h : putHeader L bloc buf f = .ok out) :
    out.length = buf.length := by
  unfold putHeader at h
  split at h
  · cases h
  split at h
  · cases h
  split at h
  · cases h
  exact (blit_get h).2.1

/-- What a fragment that could be moved is like. -/
theorem moveFrag_inv {L : LegEnv} {bl acc bloc : Int} {s s' : BState} {f : Frag} (h : moveFrag L bl acc bloc s f = .ok (some s')) :
    s'.buf.length = s.buf.length ∧
    (f.kind = .reg → 0 < f.size → ∃ c, L.fs.read f.rel = some c ∧
      f.locA - bloc + (((c.drop f.locO.toNat).take (wrap32 f.size).toNat).length : Int) ≤ s.buf.length) := by
  unfold moveFrag at h
  obtain ⟨⟨b1, t1⟩, h1, h⟩ := bindRO_eq h
  simp only [] at h
  have key : b1.length = s.buf.length ∧ (f.kind = .reg → 0 < f.size → ∃ c, L.fs.read f.rel = some c ∧
      f.locA - bloc + (((c.drop f.locO.toNat).take (wrap32 f.size).toNat).length : Int) ≤ s.buf.length) := by
    split at h1
    · rename_i hc
      obtain ⟨b, h2, h3⟩ := bindRO_eq h1
      simp only [Except.ok.injEq, Option.some.injEq, Prod.mk.injEq] at h3
      obtain ⟨rfl, _⟩ := h3
      unfold putData at h2
      split at h2
      · cases h2
      rename_i c hrd
      split at h2
      · cases h2
      rename_i hpos
      split at h2
      · cases h2
      split at h2
      · cases h2
      rename_i b' hb
      simp only [Except.ok.injEq, Option.some.injEq] at h2
      subst h2
      obtain ⟨g1, g2, _⟩ := blit_get hb
      exact ⟨g2, fun _ _ => ⟨c, hrd, by omega⟩⟩
    · rename_i hc
      simp only [Except.ok.injEq, Option.some.injEq, Prod.mk.injEq] at h1
      obtain ⟨rfl, _⟩ := h1
      exact ⟨rfl, fun a b => absurd ⟨a, b⟩ hc⟩
  refine ⟨?_, key.2⟩
  split at h
  · cases h
  rename_i b2 hb2
  split at h
  · cases h
  simp only [Except.ok.injEq, Option.some.injEq] at h
  subst h
  simp only []
  split at hb2
  · rw [putHeader_length hb2, key.1]
  · simp only [Except.ok.injEq] at hb2
    rw [← hb2, key.1]

theorem bucketLoop_inv {L : LegEnv} {bl acc : Int} {idx : Nat} : ∀ (l : List Frag) (s s' : BState) (rest : List Frag),
    bucketLoop L bl acc idx s l = .ok (some (s', rest)) →
    s'.buf.length = s.buf.length ∧
    ∀ j (hj : j < l.length), (∀ i (hi : i < l.length), i ≤ j → l[i].bucket = idx) →
      ∃ s1 s2, s1.buf.length = s.buf.length ∧ moveFrag L bl acc (acc * idx) s1 l[j] = .ok (some s2) := by
  intro l
  induction l with
  | nil =>
    intro s s' rest h
    simp only [bucketLoop, Except.ok.injEq, Option.some.injEq, Prod.mk.injEq] at h
    refine ⟨by rw [h.1], ?_⟩
    intro j hj; simp at hj
  | cons f l ih =>
    intro s s' rest h
    simp only [bucketLoop] at h
    split at h
    · rename_i hb
      simp only [Except.ok.injEq, Option.some.injEq, Prod.mk.injEq] at h
      refine ⟨by rw [h.1], ?_⟩
      intro j hj hall
      exact absurd (hall 0 (by simp) (by omega)) hb
    · rename_i hb
      obtain ⟨s1, h1, h2⟩ := bindRO_eq h
      have hm := moveFrag_inv h1
      obtain ⟨i1, i2⟩ := ih s1 s' rest h2
      refine ⟨by rw [i1, hm.1], ?_⟩
      intro j hj hall
      cases j with
      | zero => exact ⟨s, s1, rfl, h1⟩
      | succ j =>
        obtain ⟨a, b, c1, c2⟩ := i2 j (by simpa using hj) (fun i hi hij => by
          have := hall (i + 1) (by simpa using hi) (by omega)
          simpa using this)
        exact ⟨a, b, by rw [c1, hm.1], by simpa using c2⟩

theorem putFiller_length {L : LegEnv} {bl acc : Int} {idx : Nat} {s s' : BState} (h : putFiller L bl acc idx s = .ok s') :
    s'.buf.length = s.buf.length := by
  unfold putFiller at h
  split at h
  · split at h
    · cases h
    split at h
    · cases h
    rename_i b hb
    simp only [Except.ok.injEq] at h
    subst h
    exact (blit_get hb).2.1
  · simp only [Except.ok.injEq] at h
    rw [h]

theorem oneBucket_inv {L : LegEnv} {bl acc : Int} {dstart : Nat} {fr : List Frag} {call : List Nat} {idx : Nat} {buf buf' : Bytes}
    {ws : List WriteReq} (h : oneBucket L bl acc dstart fr call idx buf = .ok (some (buf', ws))) :
    buf'.length = buf.length ∧ ∀ c, call[idx]? = some c →
      ∀ j (hj : j < fr.length), c ≤ j → (∀ i (hi : i < fr.length), c ≤ i → i ≤ j → fr[i].bucket = idx) →
        ∃ s1 s2, s1.buf.length = buf.length ∧ moveFrag L bl acc (acc * idx) s1 fr[j] = .ok (some s2) := by
  unfold oneBucket at h
  split at h
  · cases h
  split at h
  · cases h
  rename_i c hc
  split at h
  · cases h
  rename_i f0 hf0
  split at h
  · cases h
  obtain ⟨⟨s, rest⟩, h1, h⟩ := bindRO_eq h
  simp only [] at h
  obtain ⟨b1, b2⟩ := bucketLoop_inv _ _ _ _ h1
  split at h
  · cases h
  rename_i s' hs'
  have hf := putFiller_length hs'
  split at h
  · cases h
  refine ⟨?_, ?_⟩
  · split at h
    · split at h
      · cases h
      rename_i b t ht
      simp only [Except.ok.injEq, Option.some.injEq, Prod.mk.injEq] at h
      unfold terminate at ht
      split at ht
      · cases ht
      rename_i b3 hb3
      simp only [Except.ok.injEq, Prod.mk.injEq] at ht
      rw [← h.1, ← ht.1, (blit_get hb3).2.1, hf, b1]
    · simp only [Except.ok.injEq, Option.some.injEq, Prod.mk.injEq] at h
      rw [← h.1, hf, b1]
  · intro c' hc' j hj hcj hall
    rw [hc] at hc'
    simp only [Option.some.injEq] at hc'
    subst hc'
    obtain ⟨s1, s2, e1, e2⟩ := b2 (j - c) (by rw [List.length_drop]; omega) (by
      intro i hi hij
      rw [List.length_drop] at hi
      rw [List.getElem_drop]
      exact hall _ (by omega) (by omega) (by omega))
    refine ⟨s1, s2, e1, ?_⟩
    rw [List.getElem_drop] at e2
    have : c + (j - c) = j := by omega
    simpa only [this] using e2

theorem bucketsLoop_inv {L : LegEnv} {bl acc : Int} {dstart : Nat} {fr : List Frag} {call : List Nat} : ∀ (is : List Nat) (buf : Bytes)
    (ws : List WriteReq), bucketsLoop L bl acc dstart fr call is buf = .ok (some ws) → ∀ i ∈ is,
    ∃ b1 b2 w, b1.length = buf.length ∧ oneBucket L bl acc dstart fr call i b1 = .ok (some (b2, w)) := by
  intro is
  induction is with
  | nil => intro _ _ _ i hi; simp at hi
  | cons i is ih =>
    intro buf ws h j hj
    simp only [bucketsLoop] at h
    obtain ⟨⟨b', w⟩, h1, h2⟩ := bindRO_eq h
    simp only [] at h2
    obtain ⟨ws', h3, _⟩ := bindRO_eq h2
    rcases List.mem_cons.1 hj with rfl | hj
    · exact ⟨buf, b', w, rfl, h1⟩
    · obtain ⟨b1, b2, w2, e1, e2⟩ := ih b' ws' h3 j hj
      exact ⟨b1, b2, w2, by rw [e1, (oneBucket_inv h1).1], e2⟩

theorem allRanks_each {one : Nat → Res (Option (List WriteReq))} : ∀ (rs : List Nat) (wss : List (List WriteReq)),
    allRanks one rs = .ok (some wss) → ∀ r ∈ rs, ∃ ws, one r = .ok (some ws) := by
  intro rs
  induction rs with
  | nil => intro _ _ r hr; simp at hr
  | cons r rs ih =>
    intro wss h r' hr'
    simp only [allRanks] at h
    obtain ⟨ws, h1, h2⟩ := bindRO_eq h
    obtain ⟨wss', h3, _⟩ := bindRO_eq h2
    rcases List.mem_cons.1 hr' with rfl | hr'
    · exact ⟨ws, h1⟩
    · exact ih wss' h3 r' hr'

/-- If the ranks succeed, every fragment has been moved. -/
theorem ranks_moved {L : LegEnv} {bl acc : Int} {dstart : Nat} {text : Bytes} {acc' : Int} {fr : List Frag} {call : List Nat} {n : Nat}
    (hn : 0 < n) (hrt : readFullCatalog text = .ok (some (acc', fr))) (hcl : rankCallList fr = .ok (some call))
    (hck : checkCalls fr call = true) {wss : List (List WriteReq)}
    (h : allRanks (rankPart L bl acc dstart text call n) (List.range n) = .ok (some wss)) :
    ∀ f ∈ fr, ∃ s1 s2, s1.buf.length = acc.toNat ∧ moveFrag L bl acc (acc * f.bucket) s1 f = .ok (some s2) := by
  intro f hf
  obtain ⟨j, hj, rfl⟩ := List.getElem_of_mem hf
  obtain ⟨k, hk, k1, k2⟩ := calls_run hcl j hj
  obtain ⟨hc, hb⟩ := checkCalls_iff hck k hk
  obtain ⟨r, h1, h2, _⟩ := (C36_each_bucket_once n call.length hn).1 k hk
  obtain ⟨ws, hws⟩ := allRanks_each _ _ h r (by simpa using h1)
  unfold rankPart at hws
  rw [hrt, bindRO_some] at hws
  simp only [] at hws
  split at hws
  · cases hws
  unfold allBuckets at hws
  obtain ⟨b1, b2, w, e1, e2⟩ := bucketsLoop_inv _ _ _ hws k h2
  have hbj : fr[j].bucket = (k : Int) := by rw [← k2 _ hc (le_refl _) k1]; exact hb
  obtain ⟨s1, s2, m1, m2⟩ := (oneBucket_inv e2).2 call[k] (List.getElem?_eq_getElem hk) j hj k1
    (fun i hi h1 h2 => by rw [k2 i hi h1 h2, hbj])
  refine ⟨s1, s2, by rw [m1, e1]; unfold zeros; rw [List.length_replicate], ?_⟩
  rw [hbj]
  exact m2

/-- If the ranks succeed, the layout is good. -/
theorem run_layout {L : LegEnv} {nul pad : Bytes} {acc : Int} {es : List Frag} {ms : List Member} (hr : RunOk L acc es ms)
    (hpad : LegTabFree pad) (hnul : LegTabFree nul) {n : Nat} (hn : 0 < n) {dstart : Nat} {gs : List (Frag × List Frag)}
    {r : LPos} (hsp : splitList 512 acc pad es = .ok (some (gs, r))) {text : Bytes}
    (htx : listToBuffer nul false acc (outFrags gs) = .ok (some text)) {call : List Nat}
    (hcl : rankCallList (outFrags gs) = .ok (some call)) (hck : checkCalls (outFrags gs) call = true)
    {wss : List (List WriteReq)}
    (h : allRanks (rankPart L 512 acc dstart text call n) (List.range n) = .ok (some wss)) : Layout acc es gs := by
  have hmin := hr.accMin
  have hmax := hr.accMax
  have hrt := run_text hr hpad hnul hsp htx hcl hck
  have hput := split_any (by omega) (by omega) hr.accDvd hr.hdr hsp
  have hck' : checkCalls ((outFrags gs).map (named nul)) call = true := by
    unfold checkCalls at hck ⊢
    rw [← hck]
    congr 1
    funext i
    cases call[i]? with
    | none => rfl
    | some c =>
      simp only [List.getElem?_map]
      cases (outFrags gs)[c]? with
      | none => rfl
      | some f => rfl
  have hmv := ranks_moved hn hrt (by rw [named_rankCall]; exact hcl) hck' h
  refine layout_inside (by omega) hr.accDvd hr.hdr hr.sorted hsp ?_
  intro g hg hsm f hf hz
  obtain ⟨e, he, hp⟩ := forall2_mem_left hput g hg
  obtain ⟨m, _, hem, _⟩ := forall2_mem_left hr.members e he
  have hroom : room 512 g.1 = room 512 e := room_congr hp.same.2.2.2.2 hp.size
  have hsm' : Small 512 acc e := by unfold Small at hsm ⊢; rw [← hroom]; exact hsm
  obtain ⟨f', f1, f2, f3, f4, f5, f6, f7, f8⟩ := hp.small hsm'
  rw [f1] at hf
  simp only [List.mem_singleton] at hf
  subst hf
  have hk : e.kind = .reg := by
    by_contra hn
    have := hem.other hn
    omega
  obtain ⟨hrd, hcl⟩ := hem.reg hk
  obtain ⟨s1, s2, m1, m2⟩ := hmv (named nul f) (List.mem_map_of_mem (by rw [List.mem_flatMap]; exact ⟨g, hg, by rw [f1]; simp⟩))
  obtain ⟨_, hd⟩ := moveFrag_inv m2
  obtain ⟨c, hc, hle⟩ := hd (show f.kind = .reg by rw [f2.2.2.1, hp.same.2.2.1, hk]) hz
  have hrel : (named nul f).rel = e.rel := (f2.1).trans hp.same.1
  rw [hrel, hrd] at hc
  simp only [Option.some.injEq] at hc
  subst hc
  have hrg := room_ge (bl := 512) (by omega) e
  have hdl : dataLen e = e.size := by unfold dataLen; omega
  have hpos := hp.pos
  unfold Small at hsm'
  have hw : wrap32 f.size = f.size := by
    unfold wrap32; omega
  have e1 : (named nul f).locO = 0 := f5
  have e2 : (named nul f).size = f.size := rfl
  have e3 : (named nul f).locA = f.locA := rfl
  have e4 : (named nul f).bucket = f.bucket := rfl
  rw [e1, e2, e3, e4, hw] at hle
  simp only [Int.toNat_zero, List.drop_zero, List.length_take] at hle
  have e5 : (f.bucket + 1) * acc = acc * f.bucket + acc := by ring
  rw [e5]
  omega

/-- What the ranks do once rank 0 has its list laid out. -/
theorem run_core {L : LegEnv} {nul pad : Bytes} {acc : Int} {es : List Frag} {ms : List Member} (hr : RunOk L acc es ms)
    (hpad : LegTabFree pad) (hnul : LegTabFree nul) {n : Nat} (hn : 0 < n) {dstart : Nat} {gs : List (Frag × List Frag)}
    {r : LPos} (hsp : splitList 512 acc pad es = .ok (some (gs, r))) {text : Bytes}
    (htx : listToBuffer nul false acc (outFrags gs) = .ok (some text)) {call : List Nat}
    (hcl : rankCallList (outFrags gs) = .ok (some call)) (hck : checkCalls (outFrags gs) call = true)
    (hlay : Layout acc es gs) :
    ∃ (gs' : List (Frag × List Frag)) (D : Nat → Bytes) (wss : List (List WriteReq)),
      allRanks (rankPart L 512 acc dstart text call n) (List.range n) = .ok (some wss) ∧
      Ready L acc (outFrags gs') call ∧
      (∀ g ∈ gs', Laid acc g ∧ g.2 ≠ [] ∧ ∀ f ∈ g.2.head?, fragStart f = g.1.locA) ∧
      List.Forall₂ (fun g m => EntOk L g.1 m ∧ ownMember m = false) gs' ms ∧
      (∀ i < call.length, BucketData L acc i (groupOf (outFrags gs') i) (endOfGroup (outFrags gs') i) (D i)) ∧
      wss.flatten.Perm (writesFor acc dstart call.length D (List.range call.length)) := by
  have hmin := hr.accMin
  have hmax := hr.accMax
  obtain ⟨hsame, hlaid, htight⟩ := id hlay
  have hcount := listToBuffer_count htx
  -- the entries
  have hent : List.Forall₂ (fun g m => EntOk L g.1 m ∧ ownMember m = false) gs ms :=
    forall2_compose (R := fun g e => SameFile g.1 e ∧ g.1.size = e.size) (fun g e m h1 h2 => ⟨h2.1.same h1.1 h1.2, h2.2⟩) hsame hr.members
  have hready0 := run_ready hr nul hlay hcl hck
  have hrt := run_text hr hpad hnul hsp htx hcl hck
  have hready' := hready0 _ (Or.inr rfl)
  -- what each rank does
  have hone : ∀ rk, rankPart L 512 acc (dstart) text call n rk =
      allBuckets L 512 acc (dstart) ((outFrags gs).map (named nul)) call n rk := by
    intro rk
    unfold rankPart
    rw [hrt, bindRO_some]
    simp only []
    rw [if_neg (by rw [hready'.check]; simp)]
  obtain ⟨D, wss2, e1, e2, e3⟩ := allRanks_ok hr.setup (dstart := dstart) hready' hn hone
  refine ⟨gs.map (fun g => (g.1, g.2.map (named nul))), D, wss2, e1, ?_, ?_, ?_, ?_, e3⟩
  · rw [named_out]; exact hready'
  · intro g hg
    simp only [List.mem_map] at hg
    obtain ⟨y, hy, rfl⟩ := hg
    obtain ⟨k1, k2, k3⟩ := hlaid y hy
    refine ⟨named_laid k1, by simpa using k2, ?_⟩
    intro f hf
    simp only [List.head?_map, Option.mem_def, Option.map_eq_some_iff] at hf
    obtain ⟨z, hz, rfl⟩ := hf
    exact k3 z hz
  · rw [List.forall₂_map_left_iff]
    exact hent
  · rw [named_out]; exact e2

/-- What a successful run has done. -/
theorem run_parts {L : LegEnv} {nul pad : Bytes} {acc : Int} {es : List Frag} {ms : List Member} (hr : RunOk L acc es ms)
    (hpad : LegTabFree pad) (hnul : LegTabFree nul) {n : Nat} (hn : 0 < n) {front : List WriteReq} {wss : List (List WriteReq)}
    (h : legacyRun L nul 512 acc pad es n = .ok (some (front, wss))) :
    ∃ (cat : Bytes) (gs : List (Frag × List Frag)) (call : List Nat) (D : Nat → Bytes),
      listToBuffer nul true acc es = .ok (some cat) ∧ frontWrites L 512 acc.toNat cat = .ok front ∧
      Ready L acc (outFrags gs) call ∧
      (∀ g ∈ gs, Laid acc g ∧ g.2 ≠ [] ∧ ∀ f ∈ g.2.head?, fragStart f = g.1.locA) ∧
      List.Forall₂ (fun g m => EntOk L g.1 m ∧ ownMember m = false) gs ms ∧
      (∀ i < call.length, BucketData L acc i (groupOf (outFrags gs) i) (endOfGroup (outFrags gs) i) (D i)) ∧
      wss.flatten.Perm (writesFor acc (dataOffset acc.toNat (512 + cat.length)) call.length D (List.range call.length)) := by
  unfold legacyRun at h
  obtain ⟨cat, hcat, h⟩ := bindRO_eq h
  split at h
  · cases h
  rename_i fw hfw
  obtain ⟨⟨gs, r⟩, hsp, h⟩ := bindRO_eq h
  simp only [] at h
  obtain ⟨text, htx, h⟩ := bindRO_eq h
  obtain ⟨call, hcl, h⟩ := bindRO_eq h
  split at h
  · cases h
  rename_i hck
  have hck : checkCalls (outFrags gs) call = true := by simpa using hck
  obtain ⟨wss', hall, h⟩ := bindRO_eq h
  simp only [Except.ok.injEq, Option.some.injEq, Prod.mk.injEq] at h
  obtain ⟨rfl, rfl⟩ := h
  obtain ⟨gs', D, wss2, e1, k1, k2, k3, k4, k5⟩ := run_core hr hpad hnul hn
    (dstart := dataOffset acc.toNat (512 + cat.length)) hsp htx hcl hck (run_layout hr hpad hnul hn hsp htx hcl hck hall)
  rw [hall] at e1
  simp only [Except.ok.injEq, Option.some.injEq] at e1
  subst e1
  exact ⟨cat, gs', call, D, hcat, hfw, k1, k2, k3, k4, k5⟩

/-- What the file holds after a successful run. -/
theorem run_data {L : LegEnv} {nul pad : Bytes} {acc : Int} {es : List Frag} {ms : List Member} (hr : RunOk L acc es ms)
    (hpad : LegTabFree pad) (hnul : LegTabFree nul) {n : Nat} (hn : 0 < n) {front : List WriteReq} {wss : List (List WriteReq)}
    (h : legacyRun L nul 512 acc pad es n = .ok (some (front, wss)))
    (ws : List WriteReq) (hws : ws.Perm (front ++ wss.flatten)) (old : Bytes) :
    ∃ cat all, listToBuffer nul true acc es = .ok (some cat) ∧ frontWrites L 512 acc.toNat cat = .ok front ∧
      (∀ w ∈ front, Holds (ws.foldl writeAt old) w.1 w.2) ∧
      dataOffset acc.toNat (512 + cat.length) + 1024 ≤ (ws.foldl writeAt old).length ∧
      (∀ w ∈ wss.flatten, dataOffset acc.toNat (512 + cat.length) ≤ w.1) ∧
      ReadsAs ((ws.foldl writeAt old).drop (dataOffset acc.toNat (512 + cat.length))) all ∧
      all.filter (fun m => !ownMember m) = ms := by
  obtain ⟨cat, gs, call, D, hcat, hfw, hready, hlaid, hent, hD, hperm⟩ := run_parts hr hpad hnul hn h
  have hs := hr.setup
  have hmin := hr.accMin
  have hmax := hr.accMax
  have hclen : cat.length < 2 ^ 32 := listToBuffer_le hcat
  have hdn : 512 ∣ acc.toNat := by have := hr.accDvd; omega
  have hfront := frontWrites_ok (acc := acc.toNat) (by omega) (by omega) hdn hclen hr.clockCat hr.clockGap hfw
  generalize hds : dataOffset acc.toNat (512 + cat.length) = ds at *
  have hDl : ∀ i < call.length, ((D i).length : Int) ≤ acc := by
    intro i hi
    obtain ⟨rest, r1, r2, r3, r4⟩ := hready.drop hi
    obtain ⟨g1, g2, g3⟩ := hready.group hs.accDvd r2
    exact (hD i hi).length_le g3 g2 hs.accDvd
  obtain ⟨w1, w2⟩ := writesFor_apart (dstart := ds) (by omega) hDl
  have hholds := file_holds hfront.apart w1 hfront.below w2
    (hws.trans (List.Perm.append_left _ hperm)) old
  generalize ws.foldl writeAt old = A at hholds ⊢
  have hwr := written_of_holds hs hready hD (dstart := ds) (A := A) (fun w hw => hholds w (by simp [hw]))
  have hterm := holds_le hwr.term (by unfold zeros; exact List.cons_ne_nil _ _)
  obtain ⟨all, a1, a2⟩ := read_entries hs hready hwr gs ms rfl hlaid hent
  have hzl : (zeros 1024).length = 1024 := by unfold zeros; rw [List.length_replicate]
  subst hds
  exact ⟨cat, all, hcat, hfw, fun w hw => hholds w (by simp [hw]), by omega,
    fun w hw => w2 w (hperm.mem_iff.1 hw), a1, a2⟩

/-- **The archive.**  After a successful run the file, whatever it held before and in whatever order
the writes were made, reads back as the catalog, the entries in order, and fillers. -/
theorem run_archive {L : LegEnv} {nul pad : Bytes} {acc : Int} {es : List Frag} {ms : List Member} (hr : RunOk L acc es ms)
    (hpad : LegTabFree pad) (hnul : LegTabFree nul) {n : Nat} (hn : 0 < n) {front : List WriteReq} {wss : List (List WriteReq)}
    (h : legacyRun L nul 512 acc pad es n = .ok (some (front, wss)))
    (hgap : ∀ cat, listToBuffer nul true acc es = .ok (some cat) → (512 + cat.length + 512) % acc.toNat ≠ 0)
    (ws : List WriteReq) (hws : ws.Perm (front ++ wss.flatten)) (old : Bytes) :
    ∃ cat m all, listToBuffer nul true acc es = .ok (some cat) ∧
      ReadsAs (ws.foldl writeAt old) (m :: all) ∧ (m.path = catalogName ∧ m.flag = 48) ∧ m.data = cat ∧
      all.filter (fun m => !ownMember m) = ms := by
  obtain ⟨cat, all, hcat, hfw, hholds, hlen, _, hall, hms⟩ := run_data hr hpad hnul hn h ws hws old
  have hmin := hr.accMin
  have hmax := hr.accMax
  have hclen : cat.length < 2 ^ 32 := listToBuffer_le hcat
  have hdn : 512 ∣ acc.toNat := by have := hr.accDvd; omega
  have hfront := frontWrites_ok (acc := acc.toNat) (by omega) (by omega) hdn hclen hr.clockCat hr.clockGap hfw
  generalize hds : dataOffset acc.toNat (512 + cat.length) = ds at *
  generalize ws.foldl writeAt old = A at *
  obtain ⟨m, xs, m1, m2, m3, m4⟩ := readsTo_front (by omega) hclen hr.clockCat hr.clockGap hfront
    (by
      intro he
      apply hgap cat hcat
      rw [he]
      exact Nat.mod_eq_zero_of_dvd (by rw [← hds]; exact (dataOffset_spec (by omega)).1))
    (by omega) hholds
  refine ⟨cat, m, xs ++ all, hcat, ?_, m1, m2, ?_⟩
  · have := m4 all hall
    simpa using this
  · rw [List.filter_append, hms]
    have : xs.filter (fun m => !ownMember m) = [] := by
      rw [List.filter_eq_nil_iff]; intro y hy; simp [m3 y hy]
    rw [this]; rfl

end Parfu
