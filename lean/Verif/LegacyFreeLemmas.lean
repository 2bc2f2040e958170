/-
Lemmas about the memory of parfu 0.5.1's lists (LegacyFree).
-/
import Verif.LegacyFree
import Verif.PropsLegacyList
set_option autoImplicit false

namespace Parfu
open Parfu.Props

theorem freeAll_perm {as : List Nat} : ∀ {m m' : Mem}, m.freeAll as = .ok m' →
    (as ++ m'.live).Perm m.live ∧ m'.next = m.next := by
  induction as with
  | nil => intro m m' h; cases h; exact ⟨.refl _, rfl⟩
  | cons a as ih =>
    intro m m' h
    unfold Mem.freeAll at h
    unfold Mem.free at h
    by_cases ha : a ∈ m.live
    · rw [if_pos ha] at h
      obtain ⟨h1, h2⟩ := ih h
      exact ⟨((h1.cons a).trans (List.perm_cons_erase ha).symm), h2⟩
    · rw [if_neg ha] at h; cases h

theorem freeAll_ok {as : List Nat} : ∀ {m : Mem}, as.Nodup → (∀ a ∈ as, a ∈ m.live) →
    ∃ m', m.freeAll as = .ok m' := by
  induction as with
  | nil => intro m _ _; exact ⟨m, rfl⟩
  | cons a as ih =>
    intro m hn hs
    unfold Mem.freeAll Mem.free
    rw [if_pos (hs a (by simp))]
    rw [List.nodup_cons] at hn
    refine ih hn.2 fun b hb => ?_
    have hne : b ≠ a := fun h => hn.1 (h ▸ hb)
    exact (List.mem_erase_of_ne hne).2 (hs b (by simp [hb]))

theorem freeAll_iff {as : List Nat} {m : Mem} (hl : m.live.Nodup) (hs : ∀ a ∈ as, a ∈ m.live) :
    (∃ m', m.freeAll as = .ok m') ↔ as.Nodup := by
  refine ⟨fun ⟨m', h⟩ => ?_, fun h => freeAll_ok h hs⟩
  have := (freeAll_perm h).1.nodup_iff.2 hl
  exact (List.nodup_append.1 this).1

theorem freeAll_append (as bs : List Nat) : ∀ (m : Mem),
    m.freeAll (as ++ bs) = (match m.freeAll as with | .error x => .error x | .ok m' => m'.freeAll bs) := by
  induction as with
  | nil => intro m; rfl
  | cons a as ih =>
    intro m
    simp only [List.cons_append, Mem.freeAll]
    cases m.free a with
    | error x => rfl
    | ok m' => exact ih m'

/-- The memory an entry has of its own. -/
def Ptrs.own (p : Ptrs) : List Nat := [p.rel, p.arc, p.target]

/-- The memory a list has of its own. -/
def PList.own (l : PList) : List Nat := l.self :: l.ptrs.flatMap Ptrs.own

/-- The pad names a list points to. -/
def PList.pads (l : PList) : List Nat := l.ptrs.filterMap Ptrs.pad

/-- All memory is a list's own, and `rest`. -/
structure Owns (m : Mem) (l : PList) (rest : List Nat) : Prop where
  perm : (l.own ++ rest).Perm m.live
  nodup : m.live.Nodup
  below : ∀ a ∈ m.live, a < m.next

theorem all_perm (l : PList) : l.all.Perm (l.own ++ l.pads) := by
  have key : ∀ ps : List Ptrs, (ps.flatMap Ptrs.all).Perm (ps.flatMap Ptrs.own ++ ps.filterMap Ptrs.pad) := by
    intro ps
    induction ps with
    | nil => exact .refl _
    | cons p ps ih =>
      have h1 : (p :: ps).filterMap Ptrs.pad = p.pad.toList ++ ps.filterMap Ptrs.pad := by
        rcases hp : p.pad with _ | a <;> simp [hp]
      rw [h1, List.flatMap_cons, List.flatMap_cons]
      show ((p.own ++ p.pad.toList) ++ ps.flatMap Ptrs.all).Perm _
      rw [List.append_assoc, List.append_assoc]
      refine List.Perm.append_left _ ?_
      refine (List.Perm.append_left _ ih).trans ?_
      rw [← List.append_assoc, ← List.append_assoc]
      exact List.Perm.append_right _ List.perm_append_comm
  unfold PList.all PList.own PList.pads
  refine (List.perm_append_comm).trans ?_
  exact (key l.ptrs).cons _

theorem malloc_owns {m : Mem} {l : PList} {rest : List Nat} (h : Owns m l rest) :
    Owns m.malloc.2 l (m.malloc.1 :: rest) := by
  refine ⟨?_, ?_, ?_⟩
  · exact List.perm_middle.trans (h.perm.cons _)
  · exact List.nodup_cons.2 ⟨fun hm => Nat.lt_irrefl _ (h.below _ hm), h.nodup⟩
  · intro a ha
    rcases List.mem_cons.1 ha with rfl | ha
    · exact Nat.lt_succ_self _
    · exact Nat.lt_succ_of_lt (h.below a ha)

theorem owns_rest {m : Mem} {l : PList} {rest rest' : List Nat} (h : Owns m l rest) (hp : rest.Perm rest') :
    Owns m l rest' := ⟨(List.Perm.append_left _ hp.symm).trans h.perm, h.nodup, h.below⟩

theorem put_owns {m : Mem} {l : PList} {rest : List Nat} (h : Owns m l rest) (f : FList) (pad : Option Nat) :
    Owns (putP m l.self f l.ptrs pad).1 (putP m l.self f l.ptrs pad).2 rest := by
  have h3 := malloc_owns (malloc_owns (malloc_owns h))
  refine ⟨?_, h3.nodup, h3.below⟩
  refine List.Perm.trans ?_ h3.perm
  unfold putP PList.own
  simp only [List.flatMap_append, List.flatMap_cons, List.flatMap_nil, List.append_nil, List.cons_append,
    List.append_assoc]
  refine List.Perm.cons _ (List.Perm.append_left _ ?_)
  show ([_, _, _] ++ rest).Perm _
  refine (List.Perm.append_right rest (List.reverse_perm _).symm)

/-- Adding an entry: it succeeds when there is room in the list, and leaves everybody what is theirs. -/
theorem addP_owns {m : Mem} {l : PList} {rest : List Nat} (h : Owns m l rest) {f : Frag} (pad : Option Nat)
    {l1 : FList} (ha : addRaw l.list f = .ok l1) :
    ∃ m' l', addP m l f pad = .ok (m', l') ∧ Owns m' l' rest ∧ l'.list = l1 ∧
      l'.ptrs.map Ptrs.pad = l.ptrs.map Ptrs.pad ++ [pad] := by
  unfold addP growP
  by_cases hg : l.list.nfull ≥ l.list.total
  · have hin : l.self ∈ m.live := h.perm.mem_iff.1 (by simp [PList.own])
    rw [if_pos hg]
    unfold Mem.free
    rw [if_pos hin]
    simp only [ha]
    have h1 : Owns (Mem.malloc { m with live := m.live.erase l.self }).2
        { l with self := (Mem.malloc { m with live := m.live.erase l.self }).1 } rest := by
      have hp : (l.ptrs.flatMap Ptrs.own ++ rest).Perm (m.live.erase l.self) := by
        have := h.perm.erase l.self
        simpa [PList.own] using this
      refine ⟨?_, ?_, ?_⟩
      · exact hp.cons _
      · refine List.nodup_cons.2 ⟨fun hm => ?_, h.nodup.erase _⟩
        exact Nat.lt_irrefl _ (h.below _ (List.mem_of_mem_erase hm))
      · intro a hm
        rcases List.mem_cons.1 hm with rfl | hm
        · exact Nat.lt_succ_self _
        · exact Nat.lt_succ_of_lt (h.below a (List.mem_of_mem_erase hm))
    exact ⟨_, _, rfl, put_owns h1 l1 pad, rfl, by simp [putP]⟩
  · rw [if_neg hg]
    simp only [ha]
    exact ⟨_, _, rfl, put_owns h l1 pad, rfl, by simp [putP]⟩

theorem addFragsP_owns {n : Int} {rest : List Nat} (pad : Option Nat) (fs : List Frag) :
    ∀ {m : Mem} {l : PList} {hs : List Frag}, Owns m l rest → Built n hs l.list →
    ∃ m' l', addFragsP m l pad fs = .ok (m', l') ∧ Owns m' l' rest ∧ Built n (hs ++ fs) l'.list ∧
      l'.ptrs.map Ptrs.pad = l.ptrs.map Ptrs.pad ++ List.replicate fs.length pad := by
  induction fs with
  | nil => intro m l hs h hb; exact ⟨m, l, rfl, h, by simpa using hb, by simp⟩
  | cons f fs ih =>
    intro m l hs h hb
    obtain ⟨l1, h1, _⟩ := C38_add_partial hb f
    obtain ⟨m', l', e1, e2, e3, e4⟩ := addP_owns h pad h1
    obtain ⟨m2, l2, d1, d2, d3, d4⟩ := ih e2 (e3 ▸ Built.add hb h1)
    refine ⟨m2, l2, ?_, d2, by simpa using d3, ?_⟩
    · unfold addFragsP; rw [e1]; exact d1
    · rw [d4, e4, List.length_cons, List.replicate_succ]; simp

/-- How often the fragments of each entry point to which pad. -/
def uses (gs : List (Frag × List Frag)) (ps : List (Option Nat)) : List (Option Nat) :=
  (List.zip gs ps).flatMap fun x => List.replicate x.1.2.length x.2

theorem layoutP_owns {n : Int} (gs : List (Frag × List Frag)) :
    ∀ {m : Mem} {l : PList} {hs : List Frag} {rest : List Nat}, Owns m l rest → Built n hs l.list →
    ∃ m' l' ps, layoutP m l gs = .ok (m', l', ps) ∧ Owns m' l' (ps.filterMap id ++ rest) ∧
      Built n (hs ++ outFrags gs) l'.list ∧ l'.ptrs.map Ptrs.pad = l.ptrs.map Ptrs.pad ++ uses gs ps ∧
      ps.map Option.isSome = gs.map (fun g => g.1.padName.isSome) := by
  induction gs with
  | nil => intro m l hs rest h hb; exact ⟨m, l, [], rfl, by simpa using h, by simpa using hb, by simp [uses], rfl⟩
  | cons g gs ih =>
    intro m l hs rest h hb
    have h0 : Owns (padP m g.1).1 l ((padP m g.1).2.toList ++ rest) := by
      unfold padP
      rcases g.1.padName with _ | nm
      · exact h
      · exact malloc_owns h
    have hsome : (padP m g.1).2.isSome = g.1.padName.isSome := by
      unfold padP
      rcases g.1.padName with _ | nm <;> rfl
    obtain ⟨m1, l1, d1, d2, d3, d4⟩ := addFragsP_owns (padP m g.1).2 g.2 h0 hb
    obtain ⟨m2, l2, ps, c1, c2, c3, c4, c5⟩ := ih d2 d3
    refine ⟨m2, l2, (padP m g.1).2 :: ps, ?_, ?_, ?_, ?_, ?_⟩
    · unfold layoutP; rw [d1]; simp only []; rw [c1]
    · refine owns_rest c2 ?_
      have : ((padP m g.1).2 :: ps).filterMap id = (padP m g.1).2.toList ++ ps.filterMap id := by
        rcases (padP m g.1).2 with _ | a <;> simp
      rw [this, ← List.append_assoc]
      exact List.Perm.append_right _ List.perm_append_comm
    · simpa using c3
    · rw [c4, d4]; simp [uses]
    · simp [hsome, c5]

/-- Pads pointed to from several fragments are those pointed to twice. -/
theorem uses_nodup : ∀ (L : List ((Frag × List Frag) × Option Nat)), ((L.map Prod.snd).filterMap id).Nodup →
    (((L.flatMap fun x => List.replicate x.1.2.length x.2).filterMap id).Nodup ↔
      ∀ x ∈ L, x.2 ≠ none → x.1.2.length ≤ 1) := by
  intro L
  have sub : ∀ (L : List ((Frag × List Frag) × Option Nat)) (a : Nat),
      a ∈ (L.flatMap fun x => List.replicate x.1.2.length x.2).filterMap id → a ∈ (L.map Prod.snd).filterMap id := by
    intro L a ha
    simp only [List.mem_filterMap, List.mem_flatMap, List.mem_replicate, List.mem_map, id] at ha ⊢
    obtain ⟨_, ⟨x, hx, _, rfl⟩, he⟩ := ha
    exact ⟨_, ⟨x, hx, rfl⟩, he⟩
  induction L with
  | nil => intro _; simp
  | cons x L ih =>
    intro h
    rw [List.flatMap_cons, List.filterMap_append]
    rcases hx : x.2 with _ | a
    · have e1 : (List.replicate x.1.2.length (none : Option Nat)).filterMap id = [] := by
        simp [List.filterMap_replicate]
      rw [e1, List.nil_append, ih (by simpa [hx] using h)]
      simp [hx]
    · have hh : a ∉ (L.map Prod.snd).filterMap id ∧ ((L.map Prod.snd).filterMap id).Nodup := by
        have : ((x :: L).map Prod.snd).filterMap id = a :: (L.map Prod.snd).filterMap id := by simp [hx]
        rw [this, List.nodup_cons] at h
        exact h
      have e1 : (List.replicate x.1.2.length (some a)).filterMap id = List.replicate x.1.2.length a := by
        generalize x.1.2.length = k
        induction k with
        | zero => rfl
        | succ k ihk => rw [List.replicate_succ, List.replicate_succ, List.filterMap_cons]; simp
      rw [e1, List.nodup_append, ih hh.2]
      constructor
      · rintro ⟨h1, h2, _⟩ y hy hne
        rcases List.mem_cons.1 hy with rfl | hy
        · exact List.nodup_replicate.1 h1
        · exact h2 y hy hne
      · intro h1
        refine ⟨List.nodup_replicate.2 (h1 x (by simp) (by simp [hx])), fun y hy => h1 y (by simp [hy]), ?_⟩
        intro b hb c hc hbc
        rw [List.mem_replicate] at hb
        exact hh.1 (sub L a (by rw [← hb.2, hbc]; exact hc))

end Parfu
