/-
Lemmas about buffers, writes and the data mover.
-/
import Verif.MoveSpec
import Verif.PlanLemmas
set_option autoImplicit false

namespace Parfu
open MoveSpec

/-! ### holding bytes -/

theorem holds_iff (f : Bytes) (pos : Nat) (s : Bytes) :
    Holds f pos s ↔ ∀ i, i < s.length → f[pos + i]? = s[i]? := by
  unfold Holds
  constructor
  · intro h i hi
    have : ((f.drop pos).take s.length)[i]? = s[i]? := by rw [h]
    rw [List.getElem?_take, if_pos hi, List.getElem?_drop] at this
    exact this
  · intro h
    apply List.ext_getElem?
    intro i
    rw [List.getElem?_take]
    split
    · rename_i hi; rw [List.getElem?_drop]; exact h i hi
    · rename_i hi; rw [List.getElem?_eq_none (by omega)]

theorem holds_nil (f : Bytes) (pos : Nat) : Holds f pos [] := by simp [Holds]

theorem holds_append {f : Bytes} {pos : Nat} {s t : Bytes} :
    Holds f pos (s ++ t) ↔ Holds f pos s ∧ Holds f (pos + s.length) t := by
  simp only [holds_iff, List.length_append]
  constructor
  · intro h
    refine ⟨fun i hi => ?_, fun i hi => ?_⟩
    · rw [h i (by omega), List.getElem?_append_left hi]
    · rw [Nat.add_assoc, h (s.length + i) (by omega), List.getElem?_append_right (by omega)]
      congr 1; omega
  · rintro ⟨h1, h2⟩ i hi
    by_cases h : i < s.length
    · rw [h1 i h, List.getElem?_append_left h]
    · rw [List.getElem?_append_right (by omega), ← h2 (i - s.length) (by omega)]
      congr 1; omega

theorem holds_le {f : Bytes} {pos : Nat} {s : Bytes} (h : Holds f pos s) (hs : s ≠ []) :
    pos + s.length ≤ f.length := by
  rw [holds_iff] at h
  have hl := List.length_pos_iff.2 hs
  have := h (s.length - 1) (by omega)
  rw [List.getElem?_eq_getElem (l := s) (by omega)] at this
  have := (List.getElem?_eq_some_iff.1 this).1
  omega

theorem holds_of_get {f f' : Bytes} {pos : Nat} {s : Bytes} (h : Holds f pos s)
    (hg : ∀ i, i < s.length → f'[pos + i]? = f[pos + i]?) : Holds f' pos s := by
  rw [holds_iff] at h ⊢
  intro i hi; rw [hg i hi, h i hi]

/-! ### blit -/

theorem blit_get {buf buf' data : Bytes} {off : Nat} (h : blit buf off data = .ok buf') :
    off + data.length ≤ buf.length ∧ buf'.length = buf.length ∧
    ∀ i, buf'[i]? = if off ≤ i ∧ i < off + data.length then data[i - off]? else buf[i]? := by
  unfold blit at h
  split at h
  · rename_i hle
    simp only [Except.ok.injEq] at h
    subst h
    refine ⟨hle, ?_, ?_⟩
    · simp only [List.length_append, List.length_take, List.length_drop]; omega
    · intro i
      by_cases h1 : i < off
      · rw [if_neg (by omega), List.append_assoc, List.getElem?_append_left (by simp; omega),
          List.getElem?_take, if_pos h1]
      · by_cases h2 : i < off + data.length
        · rw [if_pos ⟨by omega, h2⟩, List.getElem?_append_left (by simp; omega),
            List.getElem?_append_right (by simp; omega)]
          congr 1; simp; omega
        · rw [if_neg (by omega), List.getElem?_append_right (by simp; omega), List.getElem?_drop]
          congr 1; simp; omega
  · simp at h

theorem blit_ok {buf data : Bytes} {off : Nat} (h : off + data.length ≤ buf.length) :
    ∃ buf', blit buf off data = .ok buf' := by
  unfold blit; rw [if_pos h]; exact ⟨_, rfl⟩

theorem blit_holds {buf buf' data : Bytes} {off : Nat} (h : blit buf off data = .ok buf') :
    Holds buf' off data := by
  obtain ⟨_, _, hg⟩ := blit_get h
  rw [holds_iff]
  intro i hi
  rw [hg, if_pos ⟨by omega, by omega⟩]
  congr 1; omega

/-! ### writes -/

theorem writeAt_length (f : Bytes) (w : WriteReq) :
    (writeAt f w).length = max f.length (w.1 + w.2.length) := by
  unfold writeAt zeros
  simp only [List.length_append, List.length_take, List.length_drop, List.length_replicate]
  omega

theorem writeAt_get (f : Bytes) (w : WriteReq) (i : Nat) :
    (writeAt f w)[i]? = if w.1 ≤ i ∧ i < w.1 + w.2.length then w.2[i - w.1]?
      else if i < f.length then f[i]?
      else if i < w.1 then some 0 else none := by
  have hl : ((f ++ zeros (w.1 - f.length)).take w.1).length = w.1 := by
    unfold zeros; simp; omega
  unfold writeAt
  by_cases h1 : i < w.1
  · rw [if_neg (by omega), List.append_assoc, List.getElem?_append_left (by omega),
      List.getElem?_take, if_pos h1]
    by_cases h2 : i < f.length
    · rw [if_pos h2, List.getElem?_append_left h2]
    · rw [if_neg h2, if_pos h1, List.getElem?_append_right (by omega)]
      unfold zeros
      rw [List.getElem?_replicate, if_pos (by omega)]
  · by_cases h2 : i < w.1 + w.2.length
    · rw [if_pos ⟨by omega, h2⟩, List.getElem?_append_left (by simp only [List.length_append]; omega),
        List.getElem?_append_right (by omega), hl]
    · rw [if_neg (by omega), List.getElem?_append_right (by simp only [List.length_append]; omega),
        List.getElem?_drop]
      simp only [List.length_append, hl]
      rw [show w.1 + w.2.length + (i - (w.1 + w.2.length)) = i by omega]
      by_cases h3 : i < f.length
      · rw [if_pos h3]
      · rw [if_neg h3, if_neg h1, List.getElem?_eq_none (by omega)]

theorem writeAt_holds (f : Bytes) (w : WriteReq) : Holds (writeAt f w) w.1 w.2 := by
  rw [holds_iff]
  intro i hi
  rw [writeAt_get, if_pos ⟨by omega, by omega⟩]
  congr 1; omega

theorem writeAt_keeps {f : Bytes} {w : WriteReq} {pos : Nat} {s : Bytes} (h : Holds f pos s)
    (ha : Apart pos s.length w.1 w.2.length) : Holds (writeAt f w) pos s := by
  by_cases hs : s = []
  · subst hs; exact holds_nil _ _
  · have hle := holds_le h hs
    apply holds_of_get h
    intro i hi
    rw [writeAt_get]
    rcases ha with ha | ha
    · rw [if_neg (by omega), if_pos (by omega)]
    · rw [if_neg (by omega), if_pos (by omega)]

/-- Writes to ranges that do not meet are all there at the end, whatever was there before. -/
theorem foldl_writeAt_holds : ∀ (ws : List WriteReq) (f : Bytes),
    ws.Pairwise (fun a b => Apart a.1 a.2.length b.1 b.2.length) →
    (∀ w ∈ ws, Holds (ws.foldl writeAt f) w.1 w.2) ∧
    (∀ pos s, Holds f pos s → (∀ w ∈ ws, Apart pos s.length w.1 w.2.length) →
      Holds (ws.foldl writeAt f) pos s) := by
  intro ws
  induction ws with
  | nil => intro f _; simp
  | cons w ws ih =>
    intro f hp
    rw [List.pairwise_cons] at hp
    obtain ⟨i1, i2⟩ := ih (writeAt f w) hp.2
    refine ⟨?_, ?_⟩
    · intro v hv
      rcases List.mem_cons.1 hv with rfl | hv
      · exact i2 _ _ (writeAt_holds f v) (fun u hu => hp.1 u hu)
      · exact i1 v hv
    · intro pos s hs ha
      exact i2 pos s (writeAt_keeps hs (ha w (by simp))) (fun u hu => ha u (by simp [hu]))

theorem foldl_writeAt_length : ∀ (ws : List WriteReq) (f : Bytes) (E : Nat),
    f.length ≤ E → (∀ w ∈ ws, w.1 + w.2.length ≤ E) →
    (ws.foldl writeAt f).length ≤ E ∧ f.length ≤ (ws.foldl writeAt f).length ∧
    (∀ w ∈ ws, w.1 + w.2.length ≤ (ws.foldl writeAt f).length) := by
  intro ws
  induction ws with
  | nil => intro f E h _; simp [h]
  | cons w ws ih =>
    intro f E hf hw
    have hl := writeAt_length f w
    have hw0 := hw w (by simp)
    obtain ⟨i1, i2, i3⟩ := ih (writeAt f w) E (by omega) (fun v hv => hw v (by simp [hv]))
    refine ⟨i1, by simp only [List.foldl_cons]; omega, ?_⟩
    intro v hv
    rcases List.mem_cons.1 hv with rfl | hv
    · simp only [List.foldl_cons]; omega
    · exact i3 v hv

/-! ### moving one bundle -/

/-- What an order should leave in the buffer (less than its share when the file has become shorter). -/
structure Loads (env : Env) (fs : FS) (base : Bytes) (w : WOrder) (s : Bytes) : Prop where
  len : w.hdr ≤ s.length ∧ s.length ≤ w.hdr + w.size
  hdr : w.hdr ≠ 0 → ∃ e, tarentryCtor fs.lstat (fullName base w.rel) 0 = .ok e ∧
    makeTarHeader env e = .ok (s.take w.hdr)
  data : w.size ≠ 0 → ∃ c, fs.read (fullName base w.rel) = some c ∧
    s.drop w.hdr = (c.drop w.off).take w.size
  small : w.size < 2 ^ 31

theorem moveOne_loads {env : Env} {fs : FS} {base : Bytes} {w : WOrder} {s : Bytes}
    (h : Loads env fs base w s) (start : Nat) (buf : Bytes) (hs : start ≤ w.pos)
    (hfit : w.pos - start + w.hdr + w.size ≤ buf.length) :
    ∃ buf', moveOne env fs base start buf w = .ok buf' ∧ buf'.length = buf.length ∧
      Holds buf' (w.pos - start) s ∧
      ∀ i, (i < w.pos - start ∨ w.pos - start + s.length ≤ i) → buf'[i]? = buf[i]? := by
  unfold moveOne
  have hu : usub64 w.pos start = w.pos - start := by unfold usub64; rw [if_pos hs]
  rw [hu]
  have hlen := h.len
  have hhl : (s.take w.hdr).length = w.hdr := by rw [List.length_take]; omega
  -- the header
  have h1 : ∃ buf1, (if w.hdr ≠ 0 then makeHeaderAt env fs (fullName base w.rel) buf (w.pos - start)
      else .ok buf) = .ok buf1 ∧ buf1.length = buf.length ∧ Holds buf1 (w.pos - start) (s.take w.hdr) ∧
      ∀ i, (i < w.pos - start ∨ w.pos - start + w.hdr ≤ i) → buf1[i]? = buf[i]? := by
    by_cases h0 : w.hdr = 0
    · refine ⟨buf, by simp [h0], rfl, ?_, fun _ _ => rfl⟩
      rw [h0, List.take_zero]; exact holds_nil _ _
    · obtain ⟨e, he, hm⟩ := h.hdr h0
      obtain ⟨buf1, hb⟩ := blit_ok (buf := buf) (data := s.take w.hdr) (off := w.pos - start) (by omega)
      obtain ⟨_, b2, b3⟩ := blit_get hb
      refine ⟨buf1, ?_, b2, blit_holds hb, ?_⟩
      · rw [if_pos h0]
        unfold makeHeaderAt
        simp only [he, hm, bind, Except.bind]
        exact hb
      · intro i hi
        rw [b3, if_neg (by omega)]
  obtain ⟨buf1, e1, l1, o1, g1⟩ := h1
  rw [e1]
  simp only []
  have hsplit : s = s.take w.hdr ++ s.drop w.hdr := (List.take_append_drop _ _).symm
  by_cases h0 : w.size = 0
  · refine ⟨buf1, by simp [h0], l1, ?_, ?_⟩
    · rw [hsplit, holds_append]
      refine ⟨o1, ?_⟩
      rw [List.drop_of_length_le (by omega)]; exact holds_nil _ _
    · intro i hi; exact g1 i (by omega)
  · rw [if_pos h0]
    obtain ⟨c, hc, hd⟩ := h.data h0
    unfold readInto
    rw [hc]
    have := h.small
    simp only []
    rw [if_neg (by omega), ← hd]
    have hdl : (s.drop w.hdr).length ≤ w.size := by rw [List.length_drop]; omega
    obtain ⟨buf2, hb⟩ := blit_ok (buf := buf1) (data := s.drop w.hdr) (off := w.pos - start + w.hdr)
      (by omega)
    obtain ⟨_, b2, b3⟩ := blit_get hb
    refine ⟨buf2, hb, by omega, ?_, ?_⟩
    · rw [hsplit, holds_append, hhl]
      refine ⟨?_, blit_holds hb⟩
      apply holds_of_get o1
      intro i hi
      rw [b3, if_neg (by omega)]
    · intro i hi
      have hdl' : (s.drop w.hdr).length = s.length - w.hdr := List.length_drop
      rw [b3, if_neg (by omega), g1 i (by omega)]

/-- `w1` ends (with padding) before `w2` starts. -/
def Before (w1 w2 : WOrder) : Prop := w1.pos + w1.hdr + w1.size ≤ w2.pos

theorem moveLoop_loads {env : Env} {fs : FS} {base : Bytes} (P : WOrder → Bytes) (start : Nat) :
    ∀ (ws : List WOrder) (buf : Bytes), (∀ w ∈ ws, Loads env fs base w (P w)) →
    (∀ w ∈ ws, start ≤ w.pos) → (∀ w ∈ ws, w.pos - start + w.hdr + w.size ≤ buf.length) →
    ws.Pairwise Before →
    ∃ buf', moveLoop env fs base start ws buf = .ok buf' ∧ buf'.length = buf.length ∧
      (∀ w ∈ ws, Holds buf' (w.pos - start) (P w)) ∧
      (∀ i, (∀ w ∈ ws, i < w.pos - start ∨ w.pos - start + (P w).length ≤ i) → buf'[i]? = buf[i]?) := by
  intro ws
  induction ws with
  | nil => intro buf _ _ _ _; exact ⟨buf, rfl, rfl, by simp, fun _ _ => rfl⟩
  | cons w ws ih =>
    intro buf hl hs hf hp
    rw [List.pairwise_cons] at hp
    obtain ⟨b1, e1, l1, o1, g1⟩ := moveOne_loads (hl w (by simp)) start buf (hs w (by simp)) (hf w (by simp))
    obtain ⟨b2, e2, l2, o2, g2⟩ := ih b1 (fun v hv => hl v (by simp [hv])) (fun v hv => hs v (by simp [hv]))
      (fun v hv => by rw [l1]; exact hf v (by simp [hv])) hp.2
    refine ⟨b2, ?_, by omega, ?_, ?_⟩
    · rw [moveLoop, e1]; exact e2
    · intro v hv
      rcases List.mem_cons.1 hv with rfl | hv
      · apply holds_of_get o1
        intro i hi
        apply g2
        intro u hu
        have := hp.1 u hu
        have := (hl v (by simp)).len
        have := hs u (by simp [hu])
        have := hs v (by simp)
        unfold Before at *
        omega
      · exact o2 v hv
    · intro i hi
      rw [g2 i (fun v hv => hi v (by simp [hv])), g1 i (hi w (by simp))]

theorem pairwise_before_le {ws : List WOrder} (hp : ws.Pairwise Before) (first last : WOrder)
    (h1 : ws.head? = some first) (h2 : ws.getLast? = some last) :
    ∀ w ∈ ws, first.pos ≤ w.pos ∧ w.pos + w.hdr + w.size ≤ last.pos + last.hdr + last.size := by
  intro w hw
  constructor
  · cases ws with
    | nil => simp at h1
    | cons x xs =>
      simp at h1; subst h1
      rcases List.mem_cons.1 hw with rfl | hw
      · omega
      · have := (List.pairwise_cons.1 hp).1 w hw
        unfold Before at this; omega
  · rcases List.eq_nil_or_concat ws with rfl | ⟨xs, x, rfl⟩
    · simp at h2
    · simp at h2; subst h2
      simp only [List.concat_eq_append] at hw hp
      rcases List.mem_append.1 hw with hw | hw
      · have := (List.pairwise_append.1 hp).2.2 w hw x (by simp)
        unfold Before at this; omega
      · simp at hw; subst hw; omega

/-- What `move_data_Create` writes for a bundle whose orders follow each other and fit in the
buffer. -/
theorem moveData_loads {env : Env} {fs : FS} {base : Bytes} (P : WOrder → Bytes) (ws : List WOrder)
    (garbage : Bytes) (first last : WOrder) (h1 : ws.head? = some first) (h2 : ws.getLast? = some last)
    (hl : ∀ w ∈ ws, Loads env fs base w (P w)) (hp : ws.Pairwise Before)
    (hlt : last.pos + last.hdr + last.size < 2 ^ 64)
    (hfit : PlanSpec.up512 (last.pos + last.hdr + last.size - first.pos) ≤ garbage.length) :
    ∃ data, moveData env fs base garbage ws = .ok (first.pos, data) ∧
      data.length = PlanSpec.up512 (last.pos + last.hdr + last.size - first.pos) ∧
      (∀ w ∈ ws, Holds data (w.pos - first.pos) (P w)) ∧
      (∀ i, last.pos + last.hdr + last.size - first.pos ≤ i → i < data.length → data[i]? = some 0) ∧
      (∀ i, i < last.pos + last.hdr + last.size - first.pos →
        (∀ w ∈ ws, i < w.pos - first.pos ∨ w.pos - first.pos + (P w).length ≤ i) →
        data[i]? = garbage[i]?) := by
  have hle := pairwise_before_le hp first last h1 h2
  have hfl : first.pos ≤ last.pos + last.hdr + last.size := by
    have hmem : last ∈ ws := by
      rcases List.eq_nil_or_concat ws with rfl | ⟨xs, x, rfl⟩
      · simp at h2
      · simp at h2; subst h2; simp
    have := (hle last hmem).1; omega
  have hup := le_up512 (last.pos + last.hdr + last.size - first.pos)
  obtain ⟨buf, e, l, o, g⟩ := moveLoop_loads P first.pos ws garbage hl (fun w hw => (hle w hw).1)
    (fun w hw => by have := hle w hw; omega) hp
  have ht : totalLen first last = last.pos + last.hdr + last.size - first.pos := by
    unfold totalLen
    rw [Nat.mod_eq_of_lt hlt, usub64_of_le hfl]
  generalize hT : last.pos + last.hdr + last.size - first.pos = T at *
  have hnb := nextBlock_eq T
  -- the final padding
  have h3 : ∃ buf', (if nextBlock T - T ≠ 0 then blit buf T (zeros (nextBlock T - T)) else .ok buf) = .ok buf' ∧
      buf'.length = buf.length ∧ (∀ i, i < T → buf'[i]? = buf[i]?) ∧
      (∀ i, T ≤ i → i < PlanSpec.up512 T → buf'[i]? = some 0) := by
    by_cases h0 : nextBlock T - T = 0
    · refine ⟨buf, by simp [h0], rfl, fun _ _ => rfl, fun i _ _ => by omega⟩
    · have hzl : (zeros (nextBlock T - T)).length = nextBlock T - T := by simp [zeros]
      obtain ⟨buf', hb⟩ := blit_ok (buf := buf) (data := zeros (nextBlock T - T)) (off := T) (by omega)
      obtain ⟨_, b2, b3⟩ := blit_get hb
      refine ⟨buf', by rw [if_pos h0]; exact hb, b2, ?_, ?_⟩
      · intro i hi; rw [b3, if_neg (by omega)]
      · intro i hi hi2
        rw [b3, if_pos ⟨hi, by omega⟩]
        unfold zeros
        rw [List.getElem?_replicate, if_pos (by omega)]
  obtain ⟨buf', e3, l3, g3, z3⟩ := h3
  refine ⟨buf'.take (nextBlock T), ?_, ?_, ?_, ?_, ?_⟩
  · unfold moveData
    rw [h1, h2]
    simp only [e, ht, e3]
    rw [if_pos (by omega)]
  · rw [List.length_take]; omega
  · intro w hw
    apply holds_of_get (o w hw)
    intro i hi
    have := hle w hw
    have := (hl w hw).len
    rw [List.getElem?_take, if_pos (by omega), g3 _ (by omega)]
  · intro i hi hi2
    rw [List.length_take] at hi2
    rw [List.getElem?_take, if_pos (by omega), z3 i hi (by omega)]
  · intro i hi hw
    rw [List.getElem?_take, if_pos (by omega), g3 i hi, g i hw]

/-! ### the staging buffer keeps its size -/

theorem blit_length {buf data out : Bytes} {off : Nat} (h : blit buf off data = .ok out) : out.length = buf.length := by
  unfold blit at h
  split at h
  · cases h
    simp only [List.length_append, List.length_take, List.length_drop]
    omega
  · cases h

theorem makeHeaderAt_length {env : Env} {fs : FS} {full buf out : Bytes} {loc : Nat}
    (h : makeHeaderAt env fs full buf loc = .ok out) : out.length = buf.length := by
  unfold makeHeaderAt at h
  cases he : tarentryCtor fs.lstat full 0 with
  | error e => rw [he] at h; cases h
  | ok e =>
    rw [he] at h
    simp only [bind, Except.bind] at h
    cases hh : makeTarHeader env e with
    | error e' => rw [hh] at h; cases h
    | ok t => rw [hh] at h; exact blit_length h

theorem moveOne_length {env : Env} {fs : FS} {base buf out : Bytes} {start : Nat} {w : WOrder}
    (h : moveOne env fs base start buf w = .ok out) : out.length = buf.length := by
  unfold moveOne at h
  cases h1 : (if w.hdr ≠ 0 then makeHeaderAt env fs (fullName base w.rel) buf (usub64 w.pos start) else .ok buf) with
  | error e => rw [h1] at h; cases h
  | ok buf1 =>
    rw [h1] at h
    have hb : buf1.length = buf.length := by
      split at h1
      · exact makeHeaderAt_length h1
      · cases h1; rfl
    simp only at h
    split at h
    · unfold readInto at h
      split at h
      · cases h
      · split at h
        · cases h
        · rw [blit_length h, hb]
    · cases h; exact hb

theorem moveLoop_length {env : Env} {fs : FS} {base : Bytes} {start : Nat} : ∀ (ws : List WOrder) (buf out : Bytes),
    moveLoop env fs base start ws buf = .ok out → out.length = buf.length := by
  intro ws
  induction ws with
  | nil => intro buf out h; unfold moveLoop at h; cases h; rfl
  | cons w ws ih =>
    intro buf out h
    unfold moveLoop at h
    cases h1 : moveOne env fs base start buf w with
    | error e => rw [h1] at h; cases h
    | ok b1 => rw [h1] at h; rw [ih _ _ h, moveOne_length h1]

end Parfu
