/-
Lemmas for C65: what is in the archive file at each moment of a run.
-/
import Verif.PropsRun
set_option autoImplicit false

namespace Parfu
open MoveSpec TarSpec ScanSpec PlanSpec ProtocolSpec Props

/-! ### where bundles are cut -/

theorem frags_cons (idx : Int) (b : Nat) (p : Placed) (hs : p.slice.hdr = p.ref.hdr) (hp : 0 < p.ref.hdr) :
    ∃ o os, frags idx b p = o :: os ∧ o.hdr ≠ 0 ∧ ∀ x ∈ os, x.hdr = 0 := by
  unfold frags
  split
  · refine ⟨_, [], rfl, ?_, by simp⟩
    simp [orderOf, orderRaw, hs]; omega
  · refine ⟨_, _, rfl, ?_, ?_⟩
    · simp [orderRaw]; omega
    · intro x hx
      exact (restFrags_rel _ _ _ _ _ _ x hx).2.2.2.2.1

/-- A cut before an order with a header is a cut between entries. -/
theorem cut_at_header (idx : Int) (b : Nat) : ∀ (ps : List Placed) (X Y : List Order) (o : Order),
    (∀ p ∈ ps, p.slice.hdr = p.ref.hdr ∧ 0 < p.ref.hdr) →
    ps.flatMap (frags idx b) = X ++ o :: Y → o.hdr ≠ 0 →
    ∃ p1 q p2, ps = p1 ++ q :: p2 ∧ p1.flatMap (frags idx b) = X ∧ (q :: p2).flatMap (frags idx b) = o :: Y := by
  intro ps
  induction ps with
  | nil => intro X Y o _ h _; simp at h
  | cons p ps ih =>
    intro X Y o hp h ho
    obtain ⟨f, os, hf, hf1, hf2⟩ := frags_cons idx b p (hp p (by simp)).1 (hp p (by simp)).2
    cases X with
    | nil => exact ⟨[], p, ps, rfl, rfl, h⟩
    | cons x X =>
      have h' := h
      rw [List.flatMap_cons, hf] at h'
      simp only [List.cons_append, List.cons.injEq] at h'
      obtain ⟨rfl, h'⟩ := h'
      rcases List.append_eq_append_iff.1 h' with ⟨a, e1, e2⟩ | ⟨a, e1, e2⟩
      · obtain ⟨p1, q, p2, e3, e4, e5⟩ := ih a Y o (fun r hr => hp r (by simp [hr])) e2 ho
        exact ⟨p :: p1, q, p2, by rw [e3]; rfl, by rw [List.flatMap_cons, e4, hf, e1]; rfl, e5⟩
      · cases a with
        | nil =>
          rw [List.append_nil] at e1
          obtain ⟨p1, q, p2, e3, e4, e5⟩ := ih [] Y o (fun r hr => hp r (by simp [hr])) (by simpa using e2.symm) ho
          exact ⟨p :: p1, q, p2, by rw [e3]; rfl, by rw [List.flatMap_cons, e4, hf, e1]; simp, e5⟩
        | cons y a =>
          simp only [List.cons_append, List.cons.injEq] at e2
          obtain ⟨rfl, _⟩ := e2
          exact absurd (hf2 o (by rw [e1]; simp)) ho

/-- A cut before an order without a header is a cut inside an entry. -/
theorem cut_inside (idx : Int) (b : Nat) : ∀ (ps : List Placed) (X Y : List Order) (o : Order),
    (∀ p ∈ ps, p.slice.hdr = p.ref.hdr ∧ 0 < p.ref.hdr) →
    ps.flatMap (frags idx b) = X ++ o :: Y → o.hdr = 0 →
    ∃ p1 q p2 Z W, ps = p1 ++ q :: p2 ∧ X = p1.flatMap (frags idx b) ++ Z ∧ Z ≠ [] ∧ frags idx b q = Z ++ o :: W := by
  intro ps
  induction ps with
  | nil => intro X Y o _ h _; simp at h
  | cons p ps ih =>
    intro X Y o hp h ho
    obtain ⟨f, os, hf, hf1, hf2⟩ := frags_cons idx b p (hp p (by simp)).1 (hp p (by simp)).2
    have h' := h
    rw [List.flatMap_cons] at h'
    rcases List.append_eq_append_iff.1 h' with ⟨a, e1, e2⟩ | ⟨a, e1, e2⟩
    · obtain ⟨p1, q, p2, Z, W, e3, e4, e5, e6⟩ := ih a Y o (fun r hr => hp r (by simp [hr])) e2 ho
      exact ⟨p :: p1, q, p2, Z, W, by rw [e3]; rfl, by rw [e1, e4]; simp, e5, e6⟩
    · cases a with
      | nil =>
        rw [List.append_nil] at e1
        obtain ⟨p1, q, p2, Z, W, e3, e4, e5, e6⟩ :=
          ih [] Y o (fun r hr => hp r (by simp [hr])) (by simpa using e2.symm) ho
        obtain ⟨_, e7⟩ := List.append_eq_nil_iff.1 e4.symm
        exact absurd e7 e5
      | cons y a =>
        simp only [List.cons_append, List.cons.injEq] at e2
        obtain ⟨rfl, _⟩ := e2
        refine ⟨[], p, ps, X, a, rfl, rfl, ?_, e1⟩
        rintro rfl
        rw [hf] at e1
        simp only [List.nil_append, List.cons.injEq] at e1
        rw [e1.1] at hf1
        exact hf1 ho

/-! ### holes -/

theorem foldl_writeAt_hole (i : Nat) : ∀ (ws : List WriteReq) (f : Bytes),
    (f[i]? = some 0 ∨ f[i]? = none) → (∀ w ∈ ws, ¬ (w.1 ≤ i ∧ i < w.1 + w.2.length)) →
    ((ws.foldl writeAt f)[i]? = some 0 ∨ (ws.foldl writeAt f)[i]? = none) := by
  intro ws
  induction ws with
  | nil => intro f h _; exact h
  | cons w ws ih =>
    intro f h hw
    refine ih _ ?_ (fun v hv => hw v (by simp [hv]))
    rw [writeAt_get, if_neg (hw w (by simp))]
    split
    · exact h
    · split
      · exact Or.inl rfl
      · exact Or.inr rfl

theorem foldl_writeAt_len : ∀ (ws : List WriteReq) (f : Bytes),
    (ws.foldl writeAt f).length = f.length ∨ ∃ w ∈ ws, (ws.foldl writeAt f).length = w.1 + w.2.length := by
  intro ws
  induction ws with
  | nil => intro f; exact Or.inl rfl
  | cons w ws ih =>
    intro f
    have hl := writeAt_length f w
    rcases ih (writeAt f w) with h | ⟨v, hv, h⟩
    · rw [List.foldl_cons, h]
      rcases Nat.le_total f.length (w.1 + w.2.length) with h' | h'
      · exact Or.inr ⟨w, by simp, by omega⟩
      · exact Or.inl (by omega)
    · exact Or.inr ⟨v, by simp [hv], h⟩

/-! ### a member that is not all there cannot be read -/

/-- What a successful read depends on: the first `c` bytes, the header, and the data behind them. -/
theorem readMember_parts (a : Bytes) (m : Member) (r : Bytes) (h : readMember a = some (m, r)) :
    ∃ c, c % 512 = 0 ∧ c + m.size ≤ a.length ∧ r = a.drop (c + pad512 m.size) ∧
      m.data = (a.drop c).take m.size ∧
      ∀ y : Bytes, m.size ≤ y.length →
        readMember (a.take c ++ y) = some ({ m with data := y.take m.size }, y.drop (pad512 m.size)) := by
  have htake : ∀ (raw : Raw) (recs : List (Bytes × Bytes)) (y : Bytes) (m : Member) (r : Bytes),
      takeData raw recs y = some (m, r) → m.size ≤ y.length ∧ m.data = y.take m.size ∧
        r = y.drop (pad512 m.size) ∧
        ∀ z : Bytes, m.size ≤ z.length →
          takeData raw recs z = some ({ m with data := z.take m.size }, z.drop (pad512 m.size)) := by
    intro raw recs y m r h
    unfold takeData at h ⊢
    cases hp : paxSizeVal recs raw.size with
    | none => rw [hp] at h; cases h
    | some size =>
      rw [hp] at h
      simp only at h ⊢
      split at h
      · cases h
      · rename_i hlt
        obtain ⟨rfl, rfl⟩ := Prod.mk.inj (Option.some.inj h)
        refine ⟨by simp only; omega, rfl, rfl, fun z hz => ?_⟩
        simp only at hz ⊢
        rw [if_neg (by omega)]
  have hblock : ∀ y : Bytes, parseBlock (y.take 512) ≠ none → 512 ≤ y.length := by
    intro y hy
    by_contra hlt
    apply hy
    unfold parseBlock
    rw [if_neg]
    rintro ⟨h1, _⟩
    have h1 := h1.1
    rw [List.length_take] at h1
    omega
  unfold readMember at h
  cases hb : parseBlock (a.take 512) with
  | none => rw [hb] at h; cases h
  | some raw =>
    have hlen := hblock a (by rw [hb]; simp)
    rw [hb] at h
    simp only at h
    split at h
    · rename_i hx
      split at h
      · cases h
      · rename_i hsz
        cases hpx : parsePax ((a.drop 512).take raw.size) with
        | none => rw [hpx] at h; cases h
        | some recs =>
          rw [hpx] at h
          simp only at h
          cases hb2 : parseBlock (((a.drop 512).drop (pad512 raw.size)).take 512) with
          | none => rw [hb2] at h; cases h
          | some raw' =>
            have hlen2 := hblock ((a.drop 512).drop (pad512 raw.size)) (by rw [hb2]; simp)
            rw [hb2] at h
            simp only at h
            split at h
            · cases h
            · rename_i hx'
              obtain ⟨t1, t2, t3, t4⟩ := htake _ _ _ _ _ h
              simp only [List.length_drop, List.drop_drop] at hlen2 t1 t2 t3 hsz
              have hpad : raw.size ≤ pad512 raw.size := by unfold pad512; omega
              have hP : (a.take (512 + pad512 raw.size + 512)).length = 512 + pad512 raw.size + 512 := by
                rw [List.length_take]; omega
              refine ⟨512 + pad512 raw.size + 512, by unfold pad512; omega, by omega, ?_, ?_, fun y hy => ?_⟩
              · rw [t3]
              · rw [t2]
              have d0 : (a.take (512 + pad512 raw.size + 512) ++ y).take 512 = a.take 512 := by
                rw [List.take_append_of_le_length (by omega), List.take_take, Nat.min_eq_left (by omega)]
              have d1 : (a.take (512 + pad512 raw.size + 512) ++ y).drop 512 =
                  (a.drop 512).take (pad512 raw.size + 512) ++ y := by
                rw [List.drop_append_of_le_length (by omega), List.drop_take,
                  show 512 + pad512 raw.size + 512 - 512 = pad512 raw.size + 512 by omega]
              have hP1 : ((a.drop 512).take (pad512 raw.size + 512)).length = pad512 raw.size + 512 := by
                rw [List.length_take, List.length_drop]; omega
              have d2 : ((a.drop 512).take (pad512 raw.size + 512) ++ y).drop (pad512 raw.size) =
                  ((a.drop 512).drop (pad512 raw.size)).take 512 ++ y := by
                rw [List.drop_append_of_le_length (by omega), List.drop_take,
                  show pad512 raw.size + 512 - pad512 raw.size = 512 by omega]
              have hP2 : (((a.drop 512).drop (pad512 raw.size)).take 512).length = 512 := by
                rw [List.length_take, List.length_drop, List.length_drop]; omega
              unfold readMember
              rw [d0, hb]
              simp only
              rw [if_pos hx, d1, if_neg (by rw [List.length_append]; omega),
                List.take_append_of_le_length (by omega), List.take_take, Nat.min_eq_left (by omega), hpx]
              simp only
              rw [d2, List.take_append_of_le_length (by omega), List.take_take, Nat.min_self, hb2]
              simp only
              rw [if_neg hx', List.drop_append_of_le_length (by omega), List.drop_of_length_le (by omega),
                List.nil_append]
              exact t4 y hy
    · rename_i hx
      obtain ⟨t1, t2, t3, t4⟩ := htake _ _ _ _ _ h
      rw [List.length_drop] at t1
      have hP : (a.take 512).length = 512 := by rw [List.length_take]; omega
      refine ⟨512, by omega, by omega, by rw [t3, List.drop_drop], t2, fun y hy => ?_⟩
      unfold readMember
      rw [List.take_append_of_le_length (by omega), List.take_take, Nat.min_self, hb]
      simp only
      rw [if_neg hx, List.drop_append_of_le_length (by omega), List.drop_of_length_le (by omega), List.nil_append]
      exact t4 y hy

theorem readMember_grows (a : Bytes) (m : Member) (r : Bytes) (h : readMember a = some (m, r)) :
    ∃ c, c % 512 = 0 ∧ c + m.size ≤ a.length ∧
      ∀ z, readMember (a ++ z) = some (m, (a ++ z).drop (c + pad512 m.size)) := by
  obtain ⟨c, c1, c2, c3, c4, c5⟩ := readMember_parts a m r h
  refine ⟨c, c1, c2, fun z => ?_⟩
  have := c5 (a.drop c ++ z) (by rw [List.length_append, List.length_drop]; omega)
  rw [← List.append_assoc, List.take_append_drop,
    List.take_append_of_le_length (by rw [List.length_drop]; omega), ← c4] at this
  rw [this]
  congr 2
  rw [← List.drop_append_of_le_length (by omega), List.drop_drop]

/-- A member whose data are replaced by others of the same length is read with the others. -/
theorem readMember_swap {H D D' : Bytes} {m : Member} (hh : H.length % 512 = 0) (hs : m.size = D.length)
    (hr : ∀ padding rest : Bytes, D.length + padding.length = pad512 D.length →
      readMember (H ++ (D ++ (padding ++ rest))) = some (m, rest))
    (hl : D'.length = D.length) (padding rest : Bytes) (hp : D'.length + padding.length = pad512 D'.length) :
    readMember (H ++ (D' ++ (padding ++ rest))) = some ({ m with data := D' }, rest) := by
  have hle : D.length ≤ pad512 D.length := by unfold pad512; omega
  let pd : Bytes := List.replicate (pad512 D.length - D.length) 0
  have h1 := hr pd [1] (by simp only [pd, List.length_replicate]; omega)
  obtain ⟨c, c1, c2, c3, c4, c5⟩ := readMember_parts _ _ _ h1
  have hc : c = H.length := by
    have := congrArg List.length c3
    simp only [List.length_drop, List.length_append, pd, List.length_replicate, List.length_cons, List.length_nil] at this c2
    rw [hs] at this c2
    unfold pad512 at *
    omega
  rw [hc, List.take_left] at c5
  have := c5 (D' ++ (padding ++ rest)) (by rw [hs, List.length_append]; omega)
  rw [this]
  congr 2
  · rw [hs, ← hl, List.take_left]
  · rw [hs, ← hl, ← List.append_assoc, List.drop_append_of_le_length (by rw [List.length_append]; omega),
      List.drop_of_length_le (by rw [List.length_append]; omega), List.nil_append]

/-- The beginning of a member without its last data byte cannot be read. -/
theorem readMember_cut {H D : Bytes} {m : Member} (hh : H.length % 512 = 0)
    (hs : m.size = D.length)
    (hr : ∀ padding rest : Bytes, D.length + padding.length = pad512 D.length →
      readMember (H ++ (D ++ (padding ++ rest))) = some (m, rest))
    (a : Bytes) (hpre : a <+: H ++ D) (hlt : a.length < H.length + D.length) : readMember a = none := by
  cases hm : readMember a with
  | none => rfl
  | some x =>
    exfalso
    obtain ⟨m', r'⟩ := x
    obtain ⟨c, c1, c2, c3⟩ := readMember_grows a m' r' hm
    obtain ⟨z, hz⟩ := hpre
    have hle : D.length ≤ pad512 D.length := by unfold pad512; omega
    let pd : Bytes := List.replicate (pad512 D.length - D.length) 0
    let tail : Bytes := [1]
    have h1 := hr pd tail (by simp only [pd, List.length_replicate]; omega)
    have h2 := c3 (z ++ (pd ++ tail))
    rw [← List.append_assoc, hz, List.append_assoc] at h2
    rw [h1] at h2
    obtain ⟨e1, e2⟩ := Prod.mk.inj (Option.some.inj h2)
    have e3 := congrArg List.length e2
    rw [List.length_drop] at e3
    simp only [List.length_append, pd, tail, List.length_replicate, List.length_cons, List.length_nil] at e3
    rw [← e1, hs] at c2 e3
    omega

end Parfu
