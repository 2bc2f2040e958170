/-
Lemmas: when a run of parfu 0.5.1 succeeds.
-/
import Verif.LegacyArchiveWrites
import Verif.LegacyRunLemmas
set_option autoImplicit false

namespace Parfu
open SplitSpec Props MoveSpec TarSpec ScanSpec LegacyScanSpec LegacyRunSpec

theorem decInt_le {x : Int} (h : FitsLong x) : (decInt x).length ≤ 20 := by
  unfold FitsLong at h
  cases x with
  | ofNat n =>
    have := digits_length_le (b := 10) (by omega) 19 n (by omega) (by
      have : (Int.ofNat n) = (n : Int) := rfl
      omega)
    simp only [decInt]; omega
  | negSucc n =>
    have := digits_length_le (b := 10) (by omega) 19 (n + 1) (by omega) (by
      have : Int.negSucc n = -((n : Int) + 1) := by omega
      omega)
    simp only [decInt, List.length_cons]; omega

theorem lineArc_le {e : Frag} (hp : Plain e) {R : Nat} {T : Nat} (ha : e.arc.length ≤ R) (ht : e.target.length ≤ T) :
    (lineArc e).length ≤ 340 + T + 2 * R := by
  have h1 := decInt_le hp.size
  have h2 := decInt_le hp.hdr
  have h3 := decInt_le hp.locA
  unfold lineArc
  simp only [List.length_append, List.length_singleton]
  omega

theorem lineFull_le {nul : Bytes} {e : Frag} (hp : Plain e) {R T : Nat} (hr : e.rel.length ≤ R) (ha : e.arc.length ≤ R)
    (ht : e.target.length ≤ T) (hn : (e.padName.getD nul).length ≤ 100) : (lineFull nul e).length ≤ 340 + T + 2 * R := by
  have f32 : ∀ x, FitsI32 x → FitsLong x := by
    intro x h; unfold FitsI32 at h; unfold FitsLong; omega
  have h1 := decInt_le hp.size
  have h2 := decInt_le hp.hdr
  have h3 := decInt_le hp.locA
  have h4 := decInt_le hp.locO
  have h5 := decInt_le hp.padLoc
  have h6 := decInt_le hp.padHdr
  have h7 := decInt_le hp.padSize
  have h8 := decInt_le (f32 _ hp.nFrag)
  have h9 := decInt_le (f32 _ hp.fp)
  have h10 := decInt_le (f32 _ hp.bucket)
  unfold lineFull
  simp only [List.length_append, List.length_singleton]
  omega

theorem sum_le_mul {α : Type} (f : α → Nat) (l : List α) (c : Nat) (h : ∀ x ∈ l, f x ≤ c) : (l.map f).sum ≤ l.length * c := by
  induction l with
  | nil => simp
  | cons a l ih =>
    have h1 := h a (by simp)
    have h2 := ih (fun x hx => h x (by simp [hx]))
    simp only [List.map_cons, List.sum_cons, List.length_cons, Nat.add_mul]
    omega

/-- The number of fragments of one entry. -/
theorem place_count {acc : Int} (hacc : 21000 ≤ acc) {pad : Bytes} {p q : LPos} {e : Frag} {g : Frag × List Frag}
    (h : placeEntry 512 acc pad p e = .ok (some (g, q))) (he : e.hdr ≤ 20000) : (g.2.length : Int) ≤ max e.size 0 / acc + 2 := by
  have hd0 : 0 ≤ max e.size 0 / acc := Int.ediv_nonneg (by omega) (by omega)
  unfold placeEntry at h
  split at h
  · cases h
  simp only [] at h
  split at h
  · split at h
    · simp at h
      obtain ⟨rfl, rfl⟩ := h
      simp; omega
    · split at h
      · cases h
      · cases h
      simp at h
      obtain ⟨rfl, rfl⟩ := h
      simp; omega
  · rename_i hbig
    have hk : blockedSum 512 e / acc ≤ max e.size 0 / acc + 1 := by
      rw [blockedSum_eq (by omega)]
      have h1 : room 512 e ≤ max e.size 0 + acc := by unfold room dataLen; omega
      have h2 := Int.ediv_le_ediv (c := acc) (by omega) h1
      rw [Int.add_ediv_of_dvd_right (dvd_refl _), Int.ediv_self (by omega)] at h2
      exact h2
    split at h
    · cases h
    · cases h
    split at h
    · simp only [Except.ok.injEq, Option.some.injEq, Prod.mk.injEq] at h
      obtain ⟨rfl, rfl⟩ := h
      simp only [List.length_append, List.length_map, List.length_range, List.length_singleton]; omega
    · simp only [Except.ok.injEq, Option.some.injEq, Prod.mk.injEq] at h
      obtain ⟨rfl, rfl⟩ := h
      simp only [List.length_map, List.length_range]; omega

/-- The number of fragments of a list. -/
theorem split_count {acc : Int} (hacc : 21000 ≤ acc) {pad : Bytes} {es : List Frag} (he : ∀ e ∈ es, e.hdr ≤ 20000)
    {gs : List (Frag × List Frag)} {p r : LPos} (h : splitLoop 512 acc pad p es = .ok (some (gs, r))) :
    ((outFrags gs).length : Int) ≤ (es.map fun e => max e.size 0 / acc + 2).sum := by
  induction es generalizing p gs with
  | nil =>
    simp [splitLoop] at h
    rw [h.1]; simp [outFrags]
  | cons e es ih =>
    unfold splitLoop at h
    split at h
    · cases h
    · cases h
    rename_i g q hpl
    split at h
    · cases h
    · cases h
    rename_i gs' r' hlo
    simp at h
    obtain ⟨rfl, rfl⟩ := h
    have h1 := place_count hacc hpl (he e (by simp))
    have h2 := ih (fun x hx => he x (by simp [hx])) hlo
    rw [outFrags_cons, List.length_append, List.map_cons, List.sum_cons]
    push_cast
    omega

/-- A run that gets a layout succeeds if large entries come last and leave room, names are not too long and neither is the list. -/
theorem run_total_layout {L : LegEnv} {nul pad : Bytes} {acc : Int} {es : List Frag} {ms : List Member} (hr : RunOk L acc es ms)
    (hpad : LegTabFree pad) (hnul : LegTabFree nul) (hpl : pad.length ≤ 100) (hnl : nul.length ≤ 100) {n : Nat} (hn : 0 < n) {R T c : Nat}
    (hs : ∀ e ∈ es, 512 ≤ e.hdr ∧ e.hdr ≤ 20000 ∧ e.rel.length ≤ R ∧ e.arc.length ≤ R ∧ e.target.length ≤ T ∧ e.padName = none)
    (hsf : SmallFirst 512 acc es) (hroom : ∀ e ∈ es.dropLast, ¬ Small 512 acc e → LeavesRoom 512 acc e)
    (hcount : (es.map fun e => max e.size 0 / acc + 2).sum ≤ c) (hc : c ≤ 500000) (hcR : c * (340 + T + 2 * R) ≤ 499999900)
    {gs : List (Frag × List Frag)} {r : LPos} (hsp : splitList 512 acc pad es = .ok (some (gs, r))) :
    ∃ front wss, legacyRun L nul 512 acc pad es n = .ok (some (front, wss)) := by
  have hmin := hr.accMin
  have hmax := hr.accMax
  have hfits : FitsI32 acc := by unfold FitsI32; omega
  have hcnt := split_count (by omega) (fun e he => (hs e he).2.1) (split_inv hsp)
  have hnl' : (outFrags gs).length ≤ c := by omega
  have hlay := layout_smallFirst (by omega) hr.accDvd hr.hdr hsf hsp
  obtain ⟨hsame, hlaid, _⟩ := id hlay
  have hge := length_outFrags_ge (fun g hg => (hlaid g hg).2.1)
  have hgl := hsame.length_eq
  have h2 := hr.two
  -- the catalog
  obtain ⟨cat, hcat⟩ := C30_write_succeeds nul true acc hfits es (by omega) (by omega) (by
    have := sum_le_mul (fun e => (catLine nul true e).length) es (340 + T + 2 * R) (fun e he => by
      obtain ⟨_, _, _, k2, k3, _⟩ := hs e he
      exact lineArc_le (hr.plain e he) k2 k3)
    have := Nat.mul_le_mul_right (340 + T + 2 * R) (show es.length ≤ c by omega)
    omega)
  -- rank call list
  obtain ⟨call, hcl, hck⟩ := C37_check_passes_partial 512 acc (by omega) (by omega) hr.accDvd pad es hsf hroom gs r hsp
  have hcheck : checkCalls (outFrags gs) call = true := by
    unfold checkCalls
    rw [List.all_eq_true]
    intro i hi
    simp only [List.mem_range] at hi
    obtain ⟨hc, hb⟩ := hck i hi
    rw [List.getElem?_eq_getElem hi]
    simp only []
    rw [List.getElem?_eq_getElem hc]
    simpa using hb
  -- the full catalog
  have hready := run_ready hr nul hlay hcl hcheck _ (Or.inl rfl)
  obtain ⟨⟨hn1, hn2⟩, hK⟩ := hready.numbered
  have hcl2 := run_calls hready
  have hbk : ∀ f ∈ outFrags gs, 0 ≤ f.bucket ∧ f.bucket < 2 ^ 30 := fun f hf => by have := hn1 f hf; omega
  have hplain := split_plain (by omega) hmax hr.accDvd hpad hr.hdr hr.plain hsp (by omega) hbk
  have hfl := split_fields (by omega) hr.accDvd hr.hdr hsp
  have hline : ∀ f ∈ outFrags gs, (catLine nul false f).length ≤ 340 + T + 2 * R := by
    intro f hf
    have hpf := hplain f hf
    rw [List.mem_flatMap] at hf
    obtain ⟨g, hg, hfg⟩ := hf
    obtain ⟨e, he, hput, hfi⟩ := forall2_mem_left hfl g hg
    have hsm := hput.same
    obtain ⟨⟨p1, _⟩, _⟩ := hfi f hfg
    obtain ⟨hl, _, _⟩ := hlaid g hg
    obtain ⟨s1, s2, s3, s4, s5⟩ := hl.good.same f hfg
    obtain ⟨t1, t2, t3, t4, t5⟩ := hsm
    obtain ⟨_, _, k1, k2, k3, k4⟩ := hs e he
    refine lineFull_le hpf (by rw [s1, t1]; exact k1) (by rw [s2, t2]; exact k2) (by rw [s4, t4]; exact k3) ?_
    rcases p1 with h | h
    · rw [h, k4]; exact hnl
    · rw [h]; exact hpl
  obtain ⟨text, htx⟩ := C30_write_succeeds nul false acc hfits (outFrags gs) (by omega) (by omega) (by
    have := sum_le_mul (fun e => (catLine nul false e).length) (outFrags gs) (340 + T + 2 * R) hline
    have := Nat.mul_le_mul_right (340 + T + 2 * R) hnl'
    omega)
  have hclen := listToBuffer_le hcat
  have hfw : ∃ front, frontWrites L 512 acc.toNat cat = .ok front := by
    unfold frontWrites
    rw [hdr512 (by decide) (by decide) (by omega)]
    simp only []
    rw [if_neg (by simp)]
    exact ⟨_, rfl⟩
  obtain ⟨front, hfw⟩ := hfw
  obtain ⟨gs', D, wss, e1, _⟩ := run_core hr hpad hnul hn
    (dstart := dataOffset acc.toNat (512 + cat.length)) hsp htx hcl hcheck hlay
  refine ⟨front, wss, ?_⟩
  unfold legacyRun
  rw [hcat, bindRO_some]
  have h512 : (512 : Int).toNat = 512 := rfl
  rw [h512, hfw]
  simp only []
  rw [hsp, bindRO_some]
  simp only []
  rw [htx, bindRO_some, hcl, bindRO_some, if_neg (by rw [hcheck]; simp), e1, bindRO_some]

/-- A run succeeds if large entries come last and leave room, names are not too long and neither is the list. -/
theorem run_total_gen {L : LegEnv} {nul pad : Bytes} {acc : Int} {es : List Frag} {ms : List Member} (hr : RunOk L acc es ms)
    (hpad : LegTabFree pad) (hnul : LegTabFree nul) (hpl : pad.length ≤ 100) (hnl : nul.length ≤ 100) {n : Nat} (hn : 0 < n) {R c : Nat}
    (hs : ∀ e ∈ es, 512 ≤ e.hdr ∧ e.hdr ≤ 20000 ∧ e.rel.length ≤ R ∧ e.arc.length ≤ R ∧ e.target.length ≤ 100 ∧ e.padName = none)
    (hsf : SmallFirst 512 acc es) (hroom : ∀ e ∈ es.dropLast, ¬ Small 512 acc e → LeavesRoom 512 acc e)
    (hcount : (es.map fun e => max e.size 0 / acc + 2).sum ≤ c) (hc : c ≤ 500000) (hcR : c * (440 + 2 * R) ≤ 499999900) :
    ∃ front wss, legacyRun L nul 512 acc pad es n = .ok (some (front, wss)) := by
  have hmin := hr.accMin
  have hmax := hr.accMax
  obtain ⟨gs, r, hsp⟩ := C44_succeeds_partial 512 acc (by omega) (by omega) (by omega) pad hpl es hr.two
    (fun e he => ⟨by have := (hs e he).1; omega, (hs e he).2.2.2.2.1⟩)
  exact run_total_layout hr hpad hnul hpl hnl hn (T := 100) hs hsf hroom hcount hc (by omega) hsp

/-- A run succeeds if all headers have one block, names are short and the list is not too long. -/
theorem run_total {L : LegEnv} {nul pad : Bytes} {acc : Int} {es : List Frag} {ms : List Member} (hr : RunOk L acc es ms)
    (hpad : LegTabFree pad) (hnul : LegTabFree nul) (hpl : pad.length ≤ 100) (hnl : nul.length ≤ 100) {n : Nat} (hn : 0 < n)
    (hs : ∀ e ∈ es, e.hdr = 512 ∧ e.rel.length ≤ 100 ∧ e.arc.length ≤ 100 ∧ e.target.length ≤ 100 ∧ e.padName = none)
    (hcount : (es.map fun e => max e.size 0 / acc + 2).sum ≤ 500000) :
    ∃ front wss, legacyRun L nul 512 acc pad es n = .ok (some (front, wss)) := by
  have hmin := hr.accMin
  have hsf : SmallFirst 512 acc es := by
    refine List.Pairwise.imp_of_mem ?_ hr.sorted
    intro a b ha hb hab hsm
    unfold Small room dataLen at hsm ⊢
    rw [(hs a ha).1]
    rw [(hs b hb).1] at hsm
    omega
  exact run_total_gen hr hpad hnul hpl hnl hn (R := 100) (c := 500000)
    (fun e he => ⟨by rw [(hs e he).1], by rw [(hs e he).1]; omega, (hs e he).2⟩) hsf
    (fun e he _ => leavesRoom_of_le (by omega) (by omega) hr.accDvd (by rw [(hs e (List.dropLast_subset _ he)).1]))
    hcount (by omega) (by omega)

end Parfu
