/-
Property theorems C43 and C79: releasing the memory of parfu 0.5.1's lists.
-/
import Verif.LegacyFreeLemmas
set_option autoImplicit false

namespace Parfu.Props
open Parfu

/-- A list made by `create_parfu_file_fragment_entry_list(n)` in a program that held the memory `m0`, to
which the entries `fs`, none with a pad, have been added one after the other; `m` is the memory then. -/
inductive Entered (m0 : Mem) (n : Int) : List Frag → Mem → PList → Prop where
  | create {m l} (h : createP m0 n = .ok (some (m, l))) : Entered m0 n [] m l
  | add {fs m l f m' l'} (h : Entered m0 n fs m l) (hf : f.padName = none) (h' : addP m l f none = .ok (m', l')) :
      Entered m0 n (fs ++ [f]) m' l'

/-- The program's memory is in order: no address is allocated twice, and fresh ones are fresh. -/
def MemOk (m : Mem) : Prop := m.live.Nodup ∧ ∀ a ∈ m.live, a < m.next

/-- A list with `k` entries in a list created for `n` has no slot nothing has written. -/
def AllWritten (n : Int) (k : Nat) : Prop := (k : Int) ≤ n ∨ ∃ j, k = n.toNat * 2 ^ j

theorem Entered.spec {m0 : Mem} (hm : MemOk m0) {n : Int} {fs : List Frag} {m : Mem} {l : PList}
    (h : Entered m0 n fs m l) :
    Owns m l m0.live ∧ Built n fs l.list ∧ l.ptrs.map Ptrs.pad = fs.map (fun _ => none) ∧
      ∀ f ∈ fs, f.padName = none := by
  induction h with
  | create h =>
    unfold createP at h
    cases hc : createList n with
    | error x => rw [hc] at h; cases h
    | ok o =>
      rw [hc] at h
      cases o with
      | none => cases h
      | some l0 =>
        cases h
        refine ⟨⟨?_, ?_, ?_⟩, .create hc, rfl, by simp⟩
        · exact .refl _
        · exact List.nodup_cons.2 ⟨fun hx => Nat.lt_irrefl _ (hm.2 _ hx), hm.1⟩
        · intro a ha
          rcases List.mem_cons.1 ha with rfl | ha
          · exact Nat.lt_succ_self _
          · exact Nat.lt_succ_of_lt (hm.2 a ha)
  | @add fs m l f m' l' h hf h' ih =>
    obtain ⟨i1, i2, i3, i4⟩ := ih
    obtain ⟨l1, a1, _⟩ := C38_add_partial i2 f
    obtain ⟨m2, l2, e1, e2, e3, e4⟩ := addP_owns i1 none a1
    rw [e1] at h'
    cases h'
    refine ⟨e2, e3 ▸ .add i2 a1, by rw [e4, i3]; simp, ?_⟩
    intro g hg
    rcases List.mem_append.1 hg with hg | hg
    · exact i4 g hg
    · simp at hg; subst hg; exact hf

theorem freeP_iff {m : Mem} {l : PList} {n : Int} {fs : List Frag} (hb : Built n fs l.list)
    (hl : m.live.Nodup) (hs : ∀ a ∈ l.all, a ∈ m.live) :
    (∃ m', freeP m l = .ok m') ↔ AllWritten n fs.length ∧ l.all.Nodup := by
  unfold freeP AllWritten
  rw [← C43_free_iff hb, ← freeAll_iff hl hs]
  cases freeList l.list with
  | error x => simp
  | ok u => cases u; simp

theorem freeP_all {m m' : Mem} {l : PList} (h : freeP m l = .ok m') : m.freeAll l.all = .ok m' := by
  unfold freeP at h
  cases hf : freeList l.list with
  | error x => rw [hf] at h; cases h
  | ok u => rw [hf] at h; exact h

theorem owns_nodup {m : Mem} {l : PList} {rest : List Nat} (h : Owns m l rest) : (l.own ++ rest).Nodup :=
  h.perm.nodup_iff.2 h.nodup

/-- **C43** The list itself, memory included: exactly when it never had to grow or is completely full can
a list of entries without pads be freed, and that releases all memory allocated for it and nothing else. -/
theorem C43_released_iff {m0 : Mem} (hm : MemOk m0) {n : Int} {fs : List Frag} {m : Mem} {l : PList}
    (h : Entered m0 n fs m l) :
    (∃ m', freeP m l = .ok m' ∧ m'.live.Perm m0.live) ↔ ((fs.length : Int) ≤ n ∨ ∃ j, fs.length = n.toNat * 2 ^ j) := by
  obtain ⟨h1, h2, h3, _⟩ := h.spec hm
  have hp : l.pads = [] := by
    unfold PList.pads
    rw [show l.ptrs.filterMap Ptrs.pad = (l.ptrs.map Ptrs.pad).filterMap id by rw [List.filterMap_map]; rfl, h3]
    simp [List.filterMap_map]
  have hall := all_perm l
  rw [hp, List.append_nil] at hall
  have hn := (List.nodup_append.1 (owns_nodup h1)).1
  have hs : ∀ a ∈ l.all, a ∈ m.live := fun a ha =>
    h1.perm.mem_iff.1 (List.mem_append_left _ (hall.mem_iff.1 ha))
  have key := freeP_iff h2 h1.nodup hs
  constructor
  · rintro ⟨m', hf, _⟩; exact (key.1 ⟨m', hf⟩).1
  · intro hw
    obtain ⟨m', hf⟩ := key.2 ⟨hw, hall.nodup_iff.2 hn⟩
    refine ⟨m', hf, ?_⟩
    have h5 := (freeAll_perm (freeP_all hf)).1.trans h1.perm.symm
    exact (List.perm_append_left_iff _).1 ((List.Perm.append_right _ hall.symm).trans h5)

/-- What the loop makes of one entry without a pad: at least one fragment, all with the pad the entry
gets, and each saying how many there are. -/
theorem place_frags {bl acc : Int} (hacc : 0 < acc) {pad : Bytes} {p q : LPos} {e e' : Frag} {fs : List Frag}
    (h : placeEntry bl acc pad p e = .ok (some ((e', fs), q))) :
    fs ≠ [] ∧ ∀ f ∈ fs, f.padName = e'.padName ∧ f.nFrag = fs.length := by
  unfold placeEntry at h
  split at h
  · cases h
  simp only [] at h
  split at h
  · split at h
    · cases h
      simp
    · split at h
      · cases h
      · cases h
      · cases h
        simp
  · rename_i hbs
    have hbs' : acc < blockedSum bl e := by omega
    have hk1 : 1 ≤ (blockedSum bl e / acc) := by
      rw [Int.le_ediv_iff_mul_le hacc]; omega
    split at h
    · cases h
    · cases h
    · split at h
      · cases h
        refine ⟨by simp, fun f hf => ?_⟩
        simp only [List.mem_append, List.mem_map, List.mem_range, List.mem_singleton] at hf
        simp only [List.length_append, List.length_map, List.length_range, List.length_singleton]
        rcases hf with ⟨j, _, rfl⟩ | rfl
        · unfold wholeFrag; split <;> simp
        · unfold lastFrag; simp
      · cases h
        refine ⟨?_, fun f hf => ?_⟩
        · intro hnil
          have := congrArg List.length hnil
          simp only [List.length_map, List.length_range, List.length_nil] at this
          omega
        · simp only [List.mem_map, List.mem_range] at hf
          simp only [List.length_map, List.length_range]
          obtain ⟨j, _, rfl⟩ := hf
          unfold wholeFrag; split <;> simp

theorem loop_frags {bl acc : Int} (hacc : 0 < acc) {pad : Bytes} : ∀ (es : List Frag) {p q : LPos}
    {gs : List (Frag × List Frag)}, splitLoop bl acc pad p es = .ok (some (gs, q)) →
    gs.length = es.length ∧ ∀ g ∈ gs, g.2 ≠ [] ∧ ∀ f ∈ g.2, f.padName = g.1.padName ∧ f.nFrag = g.2.length := by
  intro es
  induction es with
  | nil => intro p q gs h; cases h; simp
  | cons e es ih =>
    intro p q gs h
    unfold splitLoop at h
    split at h
    · cases h
    · cases h
    · rename_i g q1 hg
      split at h
      · cases h
      · cases h
      · rename_i gs' r hr
        cases h
        obtain ⟨i1, i2⟩ := ih hr
        refine ⟨by simp [i1], ?_⟩
        intro x hx
        rcases List.mem_cons.1 hx with rfl | hx
        · exact place_frags hacc hg
        · exact i2 x hx

/-- A layout of the list `l` of the entries `fs`, with its memory: what it leaves. -/
structure LaidP (m0 : Mem) (n : Int) (fs : List Frag) (m' : Mem) (l' out : PList)
    (gs : List (Frag × List Frag)) (ps : List (Option Nat)) : Prop where
  owns : Owns m' out (ps.filterMap id ++ (l'.own ++ m0.live))
  built : Built fs.length (outFrags gs) out.list
  given : Built n fs l'.list
  pads : out.pads = (uses gs ps).filterMap id
  pads' : l'.pads = ps.filterMap id
  some_ : ps.map Option.isSome = gs.map (fun g => g.1.padName.isSome)
  frags : ∀ g ∈ gs, g.2 ≠ [] ∧ ∀ f ∈ g.2, f.padName = g.1.padName ∧ f.nFrag = g.2.length

theorem setPad_own (p : Ptrs) (q : Option Nat) : (p.setPad q).own = p.own := by
  cases q <;> rfl

theorem setPad_pad {p : Ptrs} (hp : p.pad = none) (q : Option Nat) : (p.setPad q).pad = q := by
  cases q
  · exact hp
  · rfl

theorem zip_own : ∀ (ps : List Ptrs) (qs : List (Option Nat)), qs.length = ps.length →
    (List.zipWith Ptrs.setPad ps qs).flatMap Ptrs.own = ps.flatMap Ptrs.own := by
  intro ps
  induction ps with
  | nil => intro qs _; simp
  | cons p ps ih =>
    intro qs h
    cases qs with
    | nil => simp at h
    | cons q qs => simp [setPad_own, ih qs (by simpa using h)]

theorem zip_pad : ∀ (ps : List Ptrs) (qs : List (Option Nat)), qs.length = ps.length → (∀ p ∈ ps, p.pad = none) →
    (List.zipWith Ptrs.setPad ps qs).filterMap Ptrs.pad = qs.filterMap id := by
  intro ps
  induction ps with
  | nil => intro qs h _; cases qs with | nil => rfl | cons _ _ => simp at h
  | cons p ps ih =>
    intro qs h hp
    cases qs with
    | nil => simp at h
    | cons q qs =>
      rw [List.zipWith_cons_cons, List.filterMap_cons, List.filterMap_cons, setPad_pad (hp p (by simp)),
        ih qs (by simpa using h) (fun x hx => hp x (by simp [hx]))]
      rfl

theorem laidP {m0 : Mem} (hm : MemOk m0) {n : Int} {fs : List Frag} {m : Mem} {l : PList}
    (h : Entered m0 n fs m l) {bl acc : Int} (hacc : 0 < acc) {pad : Bytes} {m' : Mem} {l' out : PList}
    (hs : splitP bl acc pad m l = .ok (some (m', l', out))) :
    ∃ gs ps, LaidP m0 n fs m' l' out gs ps := by
  obtain ⟨h1, h2, h3, _⟩ := h.spec hm
  have hfr : l.list.frags = fs := h2.inv.2.frags
  unfold splitP at hs
  rw [hfr] at hs
  cases hc : createList fs.length with
  | error x => unfold createP at hs; rw [hc] at hs; cases hs
  | ok o =>
    cases o with
    | none => unfold createP at hs; rw [hc] at hs; cases hs
    | some l0 =>
      unfold createP at hs
      rw [hc] at hs
      simp only [] at hs
      cases hl : splitLoop bl acc pad ⟨0, 0, 0⟩ fs with
      | error x => rw [hl] at hs; cases hs
      | ok r =>
        rw [hl] at hs
        cases r with
        | none => cases hs
        | some r =>
          obtain ⟨gs, pos⟩ := r
          simp only [] at hs
          have how : Owns m.malloc.2 ⟨m.malloc.1, l0, []⟩ (l.own ++ m0.live) := by
            have := malloc_owns h1
            refine ⟨?_, this.nodup, this.below⟩
            exact h1.perm.cons _
          have hbu : Built fs.length [] (⟨m.malloc.1, l0, []⟩ : PList).list := .create hc
          obtain ⟨m2, l2, ps, c1, c2, c3, c4, c5⟩ := layoutP_owns gs how hbu
          rw [c1] at hs
          cases hs
          obtain ⟨f1, f2⟩ := loop_frags hacc fs hl
          have hlen : ps.length = l.ptrs.length := by
            have e1 := congrArg List.length c5
            have e2 := congrArg List.length h3
            simp only [List.length_map] at e1 e2
            omega
          have hnone : ∀ p ∈ l.ptrs, p.pad = none := by
            intro p hp
            have : p.pad ∈ l.ptrs.map Ptrs.pad := List.mem_map_of_mem hp
            rw [h3] at this
            simp at this
            exact this.2
          refine ⟨gs, ps, ?_, ?_, ?_, ?_, ?_, c5, f2⟩
          · have : ({ l with ptrs := List.zipWith Ptrs.setPad l.ptrs ps } : PList).own = l.own := by
              unfold PList.own
              simp only []
              rw [zip_own _ _ hlen]
            rw [this]
            exact c2
          · simpa using c3
          · exact h2
          · unfold PList.pads
            rw [show out.ptrs.filterMap Ptrs.pad = (out.ptrs.map Ptrs.pad).filterMap id by
              rw [List.filterMap_map]; rfl, c4]
            simp
          · exact zip_pad _ _ hlen hnone

theorem zip_some : ∀ (gs : List (Frag × List Frag)) (ps : List (Option Nat)),
    ps.map Option.isSome = gs.map (fun g => g.1.padName.isSome) →
    (∀ x ∈ List.zip gs ps, x.2.isSome = x.1.1.padName.isSome) ∧ (List.zip gs ps).map Prod.snd = ps ∧
      (List.zip gs ps).map Prod.fst = gs := by
  intro gs
  induction gs with
  | nil => intro ps h; cases ps with | nil => simp | cons _ _ => simp at h
  | cons g gs ih =>
    intro ps h
    cases ps with
    | nil => simp at h
    | cons p ps =>
      simp only [List.map_cons, List.cons.injEq] at h
      obtain ⟨i1, i2, i3⟩ := ih ps h.2
      refine ⟨?_, by simp [i2], by simp [i3]⟩
      intro x hx
      rw [List.zip_cons_cons] at hx
      rcases List.mem_cons.1 hx with rfl | hx
      · exact h.1
      · exact i1 x hx

theorem LaidP.usesSub {m0 : Mem} {n : Int} {fs : List Frag} {m' : Mem} {l' out : PList}
    {gs : List (Frag × List Frag)} {ps : List (Option Nat)} (h : LaidP m0 n fs m' l' out gs ps) :
    ∀ a ∈ out.pads, a ∈ ps.filterMap id := by
  intro a ha
  rw [h.pads] at ha
  unfold uses at ha
  obtain ⟨_, e2, _⟩ := zip_some gs ps h.some_
  rw [← e2]
  simp only [List.mem_filterMap, List.mem_flatMap, List.mem_replicate, List.mem_map, id] at ha ⊢
  obtain ⟨_, ⟨x, hx, _, rfl⟩, he⟩ := ha
  exact ⟨_, ⟨x, hx, rfl⟩, he⟩

/-- In terms of the fragments returned: no pad is pointed to twice when no file split over several
buckets has one. -/
theorem LaidP.single {m0 : Mem} {n : Int} {fs : List Frag} {m' : Mem} {l' out : PList}
    {gs : List (Frag × List Frag)} {ps : List (Option Nat)} (h : LaidP m0 n fs m' l' out gs ps) :
    out.pads.Nodup ↔ ∀ f ∈ outFrags gs, f.padName ≠ none → f.nFrag = 1 := by
  obtain ⟨e1, e2, e3⟩ := zip_some gs ps h.some_
  have hn : ((List.zip gs ps).map Prod.snd |>.filterMap id).Nodup := by
    rw [e2]
    have := (List.nodup_append.1 (owns_nodup h.owns)).2.1
    exact (List.nodup_append.1 this).1
  rw [h.pads]
  unfold uses
  rw [uses_nodup _ hn]
  constructor
  · intro hx f hf hne
    obtain ⟨g, hg, hfg⟩ := List.mem_flatMap.1 hf
    obtain ⟨x, hx1, rfl⟩ := List.mem_map.1 (show g ∈ (List.zip gs ps).map Prod.fst by rw [e3]; exact hg)
    obtain ⟨h1, h2⟩ := h.frags _ hg
    obtain ⟨h3, h4⟩ := h2 f hfg
    have hsome : x.2 ≠ none := by
      intro hnone
      have := e1 x hx1
      rw [hnone, ← h3] at this
      cases hp : f.padName with
      | none => exact hne hp
      | some _ => rw [hp] at this; cases this
    have := hx x hx1 hsome
    have hpos : 0 < x.1.2.length := List.length_pos_iff.2 h1
    omega
  · intro hf x hx hsome
    have hg : x.1 ∈ gs := e3 ▸ List.mem_map_of_mem hx
    obtain ⟨h1, h2⟩ := h.frags _ hg
    obtain ⟨f, hfm⟩ := List.exists_mem_of_ne_nil _ h1
    obtain ⟨h3, h4⟩ := h2 f hfm
    have hne : f.padName ≠ none := by
      intro hp
      have := e1 x hx
      rw [← h3, hp] at this
      cases hq : x.2 with
      | none => exact hsome hq
      | some _ => rw [hq] at this; cases this
    have := hf f (List.mem_flatMap.2 ⟨_, hg, hfm⟩) hne
    omega

/-- No pad at all is no fragment with one. -/
theorem LaidP.none_ {m0 : Mem} {n : Int} {fs : List Frag} {m' : Mem} {l' out : PList}
    {gs : List (Frag × List Frag)} {ps : List (Option Nat)} (h : LaidP m0 n fs m' l' out gs ps) :
    (out.pads ++ l'.pads).Nodup ↔ ∀ f ∈ outFrags gs, f.padName = none := by
  obtain ⟨e1, e2, e3⟩ := zip_some gs ps h.some_
  have key : (ps.filterMap id = []) ↔ ∀ f ∈ outFrags gs, f.padName = none := by
    constructor
    · intro hp f hf
      obtain ⟨g, hg, hfg⟩ := List.mem_flatMap.1 hf
      obtain ⟨x, hx1, rfl⟩ := List.mem_map.1 (show g ∈ (List.zip gs ps).map Prod.fst by rw [e3]; exact hg)
      rw [((h.frags _ hg).2 f hfg).1]
      cases hq : x.1.1.padName with
      | none => rfl
      | some _ =>
        have hs := e1 x hx1
        rw [hq] at hs
        cases hr : x.2 with
        | none => rw [hr] at hs; cases hs
        | some a =>
          have : a ∈ ps.filterMap id := by
            rw [← e2]
            exact List.mem_filterMap.2 ⟨some a, List.mem_map.2 ⟨x, hx1, hr⟩, rfl⟩
          rw [hp] at this
          cases this
    · intro hf
      rw [List.eq_nil_iff_forall_not_mem]
      intro a ha
      obtain ⟨q, hq, hqa⟩ := List.mem_filterMap.1 ha
      rw [← e2] at hq
      obtain ⟨x, hx, rfl⟩ := List.mem_map.1 hq
      have hg : x.1 ∈ gs := e3 ▸ List.mem_map_of_mem hx
      obtain ⟨h1, h2⟩ := h.frags _ hg
      obtain ⟨f, hfm⟩ := List.exists_mem_of_ne_nil _ h1
      have hs := e1 x hx
      rw [← (h2 f hfm).1, hf f (List.mem_flatMap.2 ⟨_, hg, hfm⟩)] at hs
      simp only [id] at hqa
      rw [hqa] at hs
      cases hs
  rw [← key, h.pads']
  constructor
  · intro hn
    rw [List.eq_nil_iff_forall_not_mem]
    intro a ha
    obtain ⟨q, hq, hqa⟩ := List.mem_filterMap.1 ha
    have hq' := hq
    rw [← e2] at hq'
    obtain ⟨x, hx, rfl⟩ := List.mem_map.1 hq'
    have hg : x.1 ∈ gs := e3 ▸ List.mem_map_of_mem hx
    have h1 := (h.frags _ hg).1
    have hin : a ∈ out.pads := by
      rw [h.pads]
      unfold uses
      refine List.mem_filterMap.2 ⟨x.2, List.mem_flatMap.2 ⟨x, hx, ?_⟩, hqa⟩
      exact List.mem_replicate.2 ⟨by simpa using h1, rfl⟩
    exact (List.nodup_append.1 hn).2.2 a hin a ha rfl
  · intro hp
    have : out.pads = [] := by
      rw [List.eq_nil_iff_forall_not_mem]
      intro a ha
      have := h.usesSub a ha
      rw [hp] at this
      cases this
    rw [this, hp]
    exact List.nodup_nil

theorem LaidP.outSub {m0 : Mem} {n : Int} {fs : List Frag} {m' : Mem} {l' out : PList}
    {gs : List (Frag × List Frag)} {ps : List (Option Nat)} (h : LaidP m0 n fs m' l' out gs ps) :
    (∀ a ∈ out.all, a ∈ m'.live) ∧ ∀ a ∈ l'.all, a ∈ m'.live := by
  constructor
  · intro a ha
    apply h.owns.perm.mem_iff.1
    rcases List.mem_append.1 ((all_perm out).mem_iff.1 ha) with ha | ha
    · exact List.mem_append_left _ ha
    · exact List.mem_append_right _ (List.mem_append_left _ (h.usesSub a ha))
  · intro a ha
    apply h.owns.perm.mem_iff.1
    rcases List.mem_append.1 ((all_perm l').mem_iff.1 ha) with ha | ha
    · exact List.mem_append_right _ (List.mem_append_right _ (List.mem_append_left _ ha))
    · rw [h.pads'] at ha
      exact List.mem_append_right _ (List.mem_append_left _ ha)

/-- **C79** Exactly when the list a layout returns can be freed: it never had to grow or is full, and no
file that is split over several buckets has a pad before it. -/
theorem C79_returned_iff {m0 : Mem} (hm : MemOk m0) {n : Int} {fs : List Frag} {m : Mem} {l : PList}
    (h : Entered m0 n fs m l) {bl acc : Int} (hacc : 0 < acc) {pad : Bytes} {m' : Mem} {l' out : PList}
    (hs : splitP bl acc pad m l = .ok (some (m', l', out))) :
    (∃ m'', freeP m' out = .ok m'') ↔
      AllWritten fs.length out.list.frags.length ∧ ∀ f ∈ out.list.frags, f.padName ≠ none → f.nFrag = 1 := by
  obtain ⟨gs, ps, hl⟩ := laidP hm h hacc hs
  have hfr : out.list.frags = outFrags gs := hl.built.inv.2.frags
  rw [freeP_iff hl.built hl.owns.nodup hl.outSub.1, hfr, ← hl.single, (all_perm out).nodup_iff, List.nodup_append]
  have hno := List.nodup_append.1 (owns_nodup hl.owns)
  constructor
  · rintro ⟨h1, h2⟩; exact ⟨h1, h2.2.1⟩
  · rintro ⟨h1, h2⟩
    exact ⟨h1, hno.1, h2, fun a ha b hb => hno.2.2 a ha b (List.mem_append_left _ (hl.usesSub b hb))⟩

/-- **C79** The list given can be freed after the layout exactly when it could before; the names of the
pads go with it. -/
theorem C79_given_iff {m0 : Mem} (hm : MemOk m0) {n : Int} {fs : List Frag} {m : Mem} {l : PList}
    (h : Entered m0 n fs m l) {bl acc : Int} (hacc : 0 < acc) {pad : Bytes} {m' : Mem} {l' out : PList}
    (hs : splitP bl acc pad m l = .ok (some (m', l', out))) :
    (∃ m'', freeP m' l' = .ok m'') ↔ AllWritten n fs.length := by
  obtain ⟨gs, ps, hl⟩ := laidP hm h hacc hs
  rw [freeP_iff hl.given hl.owns.nodup hl.outSub.2, (all_perm l').nodup_iff, hl.pads']
  have hno := (List.nodup_append.1 (owns_nodup hl.owns)).2.1
  rw [← List.append_assoc] at hno
  have := List.perm_append_comm.nodup_iff.1 (List.nodup_append.1 hno).1
  exact and_iff_left this

/-- **C79** Exactly when both lists of a layout can be freed, in either order: each never had to grow or
is full, and the layout needed no pad at all; then all memory of both is released and nothing else.  A
pad's name belongs to both lists, and is freed twice. -/
theorem C79_both_iff {m0 : Mem} (hm : MemOk m0) {n : Int} {fs : List Frag} {m : Mem} {l : PList}
    (h : Entered m0 n fs m l) {bl acc : Int} (hacc : 0 < acc) {pad : Bytes} {m' : Mem} {l' out : PList}
    (hs : splitP bl acc pad m l = .ok (some (m', l', out))) (first second : PList)
    (hord : (first = out ∧ second = l') ∨ (first = l' ∧ second = out)) :
    (∃ m1 m2, freeP m' first = .ok m1 ∧ freeP m1 second = .ok m2 ∧ m2.live.Perm m0.live) ↔
      AllWritten n fs.length ∧ AllWritten fs.length out.list.frags.length ∧
        ∀ f ∈ out.list.frags, f.padName = none := by
  obtain ⟨gs, ps, hl⟩ := laidP hm h hacc hs
  have hfr : out.list.frags = outFrags gs := hl.built.inv.2.frags
  have hw1 : (freeList out.list = .ok ()) ↔ AllWritten fs.length out.list.frags.length := by
    rw [C43_free_iff hl.built, hfr]; rfl
  have hw2 : (freeList l'.list = .ok ()) ↔ AllWritten n fs.length := C43_free_iff hl.given
  have hno := owns_nodup hl.owns
  -- the pointers freed, both orders
  have hp : (first.all ++ second.all).Perm ((out.own ++ l'.own) ++ (out.pads ++ l'.pads)) := by
    have h0 : (out.all ++ l'.all).Perm ((out.own ++ l'.own) ++ (out.pads ++ l'.pads)) := by
      refine ((all_perm out).append (all_perm l')).trans ?_
      rw [List.append_assoc, List.append_assoc]
      refine List.Perm.append_left _ ?_
      rw [← List.append_assoc, ← List.append_assoc]
      exact List.Perm.append_right _ List.perm_append_comm
    rcases hord with ⟨rfl, rfl⟩ | ⟨rfl, rfl⟩
    · exact h0
    · exact List.perm_append_comm.trans h0
  have hsub : ∀ a ∈ first.all ++ second.all, a ∈ m'.live := by
    intro a ha
    rcases hord with ⟨rfl, rfl⟩ | ⟨rfl, rfl⟩ <;> rcases List.mem_append.1 ha with ha | ha
    · exact hl.outSub.1 a ha
    · exact hl.outSub.2 a ha
    · exact hl.outSub.2 a ha
    · exact hl.outSub.1 a ha
  have hown : (out.own ++ l'.own).Nodup := by
    have h1 : (out.own ++ (l'.own ++ (ps.filterMap id ++ m0.live))).Nodup := by
      refine (List.Perm.nodup_iff ?_).1 hno
      refine List.Perm.append_left _ ?_
      rw [← List.append_assoc, ← List.append_assoc]
      exact List.Perm.append_right _ List.perm_append_comm
    rw [← List.append_assoc] at h1
    exact (List.nodup_append.1 h1).1
  rw [hfr] at hw1 ⊢
  rw [← hl.none_, ← hw1, ← hw2]
  constructor
  · rintro ⟨m1, m2, f1, f2, _⟩
    have hfree : freeList first.list = .ok () ∧ freeList second.list = .ok () := by
      constructor
      · unfold freeP at f1; cases hh : freeList first.list with
        | error x => rw [hh] at f1; cases f1
        | ok u => rfl
      · unfold freeP at f2; cases hh : freeList second.list with
        | error x => rw [hh] at f2; cases f2
        | ok u => rfl
    have hall : m'.freeAll (first.all ++ second.all) = .ok m2 := by
      rw [freeAll_append, freeP_all f1]; exact freeP_all f2
    have hnd := (freeAll_iff hl.owns.nodup hsub).1 ⟨m2, hall⟩
    rw [hp.nodup_iff] at hnd
    have hnd' := (List.nodup_append.1 hnd).2.1
    rcases hord with ⟨rfl, rfl⟩ | ⟨rfl, rfl⟩
    · exact ⟨hfree.2, hfree.1, hnd'⟩
    · exact ⟨hfree.1, hfree.2, hnd'⟩
  · rintro ⟨w1, w2, w3⟩
    have hnil := (hl.none_).1 w3
    have hpads : out.pads = [] ∧ l'.pads = [] := by
      have h1 : l'.pads = [] := by
        have := w3
        rw [List.eq_nil_iff_forall_not_mem]
        intro a ha
        have hin : a ∈ out.pads := by
          rw [hl.pads'] at ha
          obtain ⟨q, hq, hqa⟩ := List.mem_filterMap.1 ha
          obtain ⟨e1, e2, e3⟩ := zip_some gs ps hl.some_
          rw [← e2] at hq
          obtain ⟨x, hx, rfl⟩ := List.mem_map.1 hq
          have hg : x.1 ∈ gs := e3 ▸ List.mem_map_of_mem hx
          have h1 := (hl.frags _ hg).1
          rw [hl.pads]
          unfold uses
          refine List.mem_filterMap.2 ⟨x.2, List.mem_flatMap.2 ⟨x, hx, ?_⟩, hqa⟩
          exact List.mem_replicate.2 ⟨by simpa using h1, rfl⟩
        exact (List.nodup_append.1 this).2.2 a hin a ha rfl
      refine ⟨?_, h1⟩
      rw [List.eq_nil_iff_forall_not_mem]
      intro a ha
      have := hl.usesSub a ha
      rw [← hl.pads', h1] at this
      cases this
    rw [hpads.1, hpads.2, List.append_nil, List.append_nil] at hp
    obtain ⟨m2, hm2⟩ := (freeAll_iff hl.owns.nodup hsub).2 (hp.nodup_iff.2 hown)
    have hperm := (freeAll_perm hm2).1
    rw [freeAll_append] at hm2
    cases hf1 : m'.freeAll first.all with
    | error x => rw [hf1] at hm2; cases hm2
    | ok m1 =>
      rw [hf1] at hm2
      have hfree : freeList first.list = .ok () ∧ freeList second.list = .ok () := by
        rcases hord with ⟨rfl, rfl⟩ | ⟨rfl, rfl⟩
        · exact ⟨w2, w1⟩
        · exact ⟨w1, w2⟩
      refine ⟨m1, m2, by unfold freeP; rw [hfree.1]; exact hf1, by unfold freeP; rw [hfree.2]; exact hm2, ?_⟩
      have h5 := hperm.trans hl.owns.perm.symm
      rw [← hl.pads', hpads.2, List.nil_append, ← List.append_assoc] at h5
      exact (List.perm_append_left_iff _).1 ((List.Perm.append_right _ hp.symm).trans h5)

/-- **C79, violated** Whatever the list and the sizes: once a file that is split over several buckets has
a pad before it, freeing the list returned frees the pad's name once for each fragment. -/
theorem C79_split_pad_undefined {m0 : Mem} (hm : MemOk m0) {n : Int} {fs : List Frag} {m : Mem} {l : PList}
    (h : Entered m0 n fs m l) {bl acc : Int} (hacc : 0 < acc) {pad : Bytes} {m' : Mem} {l' out : PList}
    (hs : splitP bl acc pad m l = .ok (some (m', l', out)))
    {f : Frag} (hf : f ∈ out.list.frags) (hp : f.padName ≠ none) (hn : f.nFrag ≠ 1) :
    ¬ ∃ m'', freeP m' out = .ok m'' :=
  fun hc => hn (((C79_returned_iff hm h hacc hs).1 hc).2 f hf hp)

/-! ### Concrete cases -/

/-- A program holding one other piece of memory. -/
def freeMem : Mem := ⟨[7], 8⟩

example : MemOk freeMem := by unfold MemOk freeMem; decide

/-- A list of two files, of 100 bytes and `size`, and the memory then. -/
def freeTwo (size : Int) : Res (Option (Mem × PList)) :=
  match createP freeMem 2 with
  | .ok (some (m, l)) => match addP m l (exFrag 97 100) none with
    | .ok (m1, l1) => match addP m1 l1 (exFrag 98 size) none with
      | .ok r => .ok (some r)
      | .error x => .error x
    | .error x => .error x
  | .ok none => .ok none
  | .error x => .error x

/-- Lay the two files out in buckets of 2048 bytes, and free the lists asked for: the list given, the
list returned. -/
def freeLaid (size : Int) (given returned : Bool) : Res (List Nat) :=
  match freeTwo size with
  | .ok (some (m, l)) => match splitP 512 2048 [112] m l with
    | .ok (some (m', l', out)) =>
      match (if returned then freeP m' out else .ok m') with
      | .error x => .error x
      | .ok m1 => match (if given then freeP m1 l' else .ok m1) with
        | .error x => .error x
        | .ok m2 => .ok m2.live
    | _ => .ok []
  | _ => .ok []

/-- Two small files in one bucket: no pad, both lists are freed, and only the memory held before is left. -/
example : freeLaid 100 true true = .ok [7] := by decide +kernel
/-- A file that moves to the next bucket has a pad: the list returned is freed, both are not. -/
example : (freeLaid 1500 true false).toBool = true ∧ (freeLaid 1500 false true).toBool = true ∧
    freeLaid 1500 true true = .error .ub := by decide +kernel
/-- **C79, violated** A file split over three buckets, with a pad before it: the list returned, of four
entries in a list of four, is not freed safely either. -/
theorem C79_violated : freeLaid 5000 false true = .error .ub := by decide +kernel

/-- The hypotheses of the theorems are met by that case. -/
example : ∃ m l m' l' out, Entered freeMem 2 [exFrag 97 100, exFrag 98 5000] m l ∧
    splitP 512 2048 [112] m l = .ok (some (m', l', out)) ∧ out.list.frags.length = 4 ∧
    ∃ f ∈ out.list.frags, f.padName ≠ none ∧ f.nFrag = 3 := by
  refine ⟨_, _, _, _, _, .add (.add (.create rfl) rfl rfl) rfl rfl, rfl, ?_, ?_⟩
  · decide +kernel
  · decide +kernel

end Parfu.Props
