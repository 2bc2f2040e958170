/-
Property theorems C32 and C45: parfu 0.5.1's scan, and the order of its sorted list.
-/
import Verif.LegacyScanLemmas
set_option autoImplicit false

namespace Parfu.Props
open Parfu ScanSpec LegacyScanSpec

/-- What the scan of a directory does, in one statement. -/
theorem legacyScan_ok (top : Bytes) (root : FNode) (hd : IsDir root) (hok : TreeOk root)
    (ho : ∀ p m o k, At root p (.dir m o k) → NoHidden p → o = true) :
    ∃ fs l, legacyScan top (some root) root = .ok (some l) ∧ l.frags = fs ∧ LInv 100 fs l ∧
      (fs.map entryOf).Perm (listings top [] (visObjects root)) ∧ ∀ f ∈ fs, Fresh f := by
  have hl0 : LInv 100 [] ⟨100, 0, List.replicate 100 .blank⟩ := ⟨rfl, Or.inl ⟨rfl, by simp, by simp⟩⟩
  obtain ⟨f, l1, e1, i1, s1, hf1⟩ := addName_ok hl0 .dir top [] [] (-3)
  obtain ⟨gs, l2, e2, i2, s2, hf2⟩ := scanQueue_ok l1 [⟨top, [], root⟩] [f] i1
    (by simp only [List.mem_singleton]; rintro q rfl; exact ⟨hd, ho⟩)
  have ht : topAllowed (some root) = true := by cases root <;> simp_all [IsDir, topAllowed]
  have hdeep := deep_eq top root [] hok (by simp)
  refine ⟨[f] ++ gs, l2, ?_, i2.frags, i2, ?_,
    fun x hm => (List.mem_append.1 hm).elim (fun hm => by rw [List.mem_singleton.1 hm]; exact hf1) (hf2 x)⟩
  · have hc : createList 100 = .ok (some ⟨100, 0, List.replicate 100 .blank⟩) := by decide
    unfold legacyScan
    rw [hc]
    simp only [ht, if_true, legSizeDir]
    rw [e1]
    exact e2
  · have hroot : (entOf (fullPath top []) (pathText []) root).toList = [⟨top, [], .dir, [], -3⟩] := by
      cases root <;> simp_all [IsDir, entOf, fullPath, pathText]
    have hf : fullPath top [] = top := by simp [fullPath]
    rw [hroot, hf] at hdeep
    unfold visObjects
    rw [← hdeep]
    simp only [List.map_append, List.map_cons, List.map_nil, s1]
    refine List.Perm.append_left _ ?_
    simpa [pathText] using s2

/-- **C32 (exactly what is found)** The scan of a legal directory tree in which every directory that
it reaches can be opened lists exactly the supported objects to which no name beginning with a dot
leads — each with its path, archive name, type, link target and size — and lists no archive name
twice. -/
theorem C32_scan_exact_partial (top : Bytes) (root : FNode) (hd : IsDir root) (hok : TreeOk root)
    (ho : ∀ p m o k, At root p (.dir m o k) → NoHidden p → o = true) :
    ∃ l, legacyScan top (some root) root = .ok (some l) ∧
      (∀ e, e ∈ l.frags.map entryOf ↔ ∃ p n, At root p n ∧ NoHidden p ∧ listed top p n = some e) ∧
      (l.frags.map Frag.arc).Nodup := by
  obtain ⟨fs, l, e, hf, _, hp, _⟩ := legacyScan_ok top root hd hok ho
  refine ⟨l, e, ?_, ?_⟩
  · intro x
    rw [hf, hp.mem_iff]
    simp only [listings, visObjects, List.mem_filterMap, List.mem_filter, List.nil_append]
    constructor
    · rintro ⟨⟨p, n⟩, ⟨hm, hv⟩, hx⟩
      exact ⟨p, n, (mem_objects_iff _ _ _).1 hm, (vis_iff p).1 hv, hx⟩
    · rintro ⟨p, n, ha, hv, hx⟩
      exact ⟨(p, n), ⟨(mem_objects_iff _ _ _).2 ha, (vis_iff p).2 hv⟩, hx⟩
  · rw [hf]
    have : Frag.arc = LegEnt.arc ∘ entryOf := rfl
    rw [this, ← List.map_map]
    refine (hp.map LegEnt.arc).nodup_iff.2 ?_
    have hnd : ((visObjects root).map Prod.fst).Nodup :=
      ((List.filter_sublist).map _).nodup (objects_nodup root hok)
    have hpath : ∀ x ∈ visObjects root, ∀ y ∈ x.1, NameOk y := fun x hx =>
      at_nameOk ((mem_objects_iff _ x.1 x.2).1 (List.mem_filter.1 hx).1) hok
    revert hnd hpath
    generalize visObjects root = os
    intro hnd hpath
    have harc : ∀ p n y, listed top p n = some y → y.arc = pathText p := by
      intro p n y hy
      cases n <;> simp [listed] at hy <;> rw [← hy]
    induction os with
    | nil => simp [listings]
    | cons x os ih =>
      rw [List.map_cons, List.nodup_cons] at hnd
      have ih := ih hnd.2 (fun y hy => hpath y (List.mem_cons_of_mem _ hy))
      unfold listings
      rw [List.filterMap_cons]
      cases hx : listed top ([] ++ x.1) x.2 with
      | none => exact ih
      | some y =>
        simp only [List.map_cons, List.nodup_cons]
        refine ⟨?_, ih⟩
        intro hm
        obtain ⟨z, hz, he⟩ := List.mem_map.1 hm
        obtain ⟨w, hw, hz⟩ := List.mem_filterMap.1 hz
        rw [harc _ _ _ hx, harc _ _ _ hz] at he
        simp only [List.nil_append] at he
        have := pathText_inj (hpath w (List.mem_cons_of_mem _ hw)) (hpath x List.mem_cons_self) he
        exact hnd.1 (List.mem_map.2 ⟨w, hw, this⟩)

/-- **C32** So a tree without hidden names, all of whose directories can be opened, is listed
completely: every supported object in it has an entry. -/
theorem C32_scan_complete_partial (top : Bytes) (root : FNode) (hd : IsDir root) (hok : TreeOk root)
    (ho : ∀ p m o k, At root p (.dir m o k) → o = true)
    (hh : ∀ p n, At root p n → NoHidden p) :
    ∃ l, legacyScan top (some root) root = .ok (some l) ∧
      ∀ p n e, At root p n → listed top p n = some e → e ∈ l.frags.map entryOf := by
  obtain ⟨l, h1, h2, _⟩ := C32_scan_exact_partial top root hd hok (fun p m o k h _ => ho p m o k h)
  exact ⟨l, h1, fun p n e ha hx => (h2 e).2 ⟨p, n, ha, hh p n ha, hx⟩⟩

/-- **C32 (violated)** Nothing whose name, or the name of a directory on the way to it, begins with a
dot is ever listed: no entry has its archive name. -/
theorem C32_hidden_never_listed (top : Bytes) (root : FNode) (hd : IsDir root) (hok : TreeOk root)
    (ho : ∀ p m o k, At root p (.dir m o k) → NoHidden p → o = true)
    (p : List Bytes) (n : FNode) (ha : At root p n) (hh : ¬ NoHidden p) :
    ∃ l, legacyScan top (some root) root = .ok (some l) ∧ ∀ f ∈ l.frags, f.arc ≠ pathText p := by
  obtain ⟨l, h1, h2, _⟩ := C32_scan_exact_partial top root hd hok ho
  refine ⟨l, h1, ?_⟩
  intro f hf hc
  obtain ⟨q, c, hq, hv, hx⟩ := (h2 (entryOf f)).1 (List.mem_map_of_mem hf)
  have : (entryOf f).arc = pathText q := by
    cases c <;> simp [listed] at hx <;> rw [← hx]
  have he : pathText p = pathText q := by rw [← hc, ← this]; rfl
  have := pathText_inj (at_nameOk ha hok) (at_nameOk hq hok) he
  subst this
  exact hh hv

/-- **C32 (violated)** One directory that cannot be opened, anywhere the scan goes, makes the whole
scan fail. -/
theorem C32_unreadable_fails (top : Bytes) (root : FNode) (p : List Bytes) (m : Meta) (k : Kids)
    (ha : At root p (.dir m false k)) (hn : NoHidden p) :
    legacyScan top (some root) root = .ok none := by
  have hl0 : LInv 100 [] ⟨100, 0, List.replicate 100 .blank⟩ := ⟨rfl, Or.inl ⟨rfl, by simp, by simp⟩⟩
  obtain ⟨f, l1, e1, i1, s1⟩ := addName_ok hl0 .dir top [] [] (-3)
  have hb := scanQueue_blocked l1 [⟨top, [], root⟩] [f] i1
    ⟨_, List.mem_singleton_self _, Or.inr ⟨p, m, k, ha, hn⟩⟩
  have hc : createList 100 = .ok (some ⟨100, 0, List.replicate 100 .blank⟩) := by decide
  unfold legacyScan
  rw [hc]
  simp only [legSizeDir]
  split
  · rw [e1]; exact hb
  · rfl

/-- **C32** The scan refuses a target that does not exist or is neither directory nor link, whatever
`opendir` would say; and a link to something that is not a directory. -/
theorem C32_refuses (top : Bytes) (seen : Option FNode) (opened : FNode)
    (h : seen = none ∨ (∃ m c, seen = some (.reg m c)) ∨ (∃ m, seen = some (.other m)) ∨ ¬ IsDir opened) :
    legacyScan top seen opened = .ok none := by
  have hl0 : LInv 100 [] ⟨100, 0, List.replicate 100 .blank⟩ := ⟨rfl, Or.inl ⟨rfl, by simp, by simp⟩⟩
  obtain ⟨f, l1, e1, i1, s1⟩ := addName_ok hl0 .dir top [] [] (-3)
  have hc : createList 100 = .ok (some ⟨100, 0, List.replicate 100 .blank⟩) := by decide
  unfold legacyScan
  rw [hc]
  simp only [legSizeDir]
  rcases h with rfl | ⟨m, c, rfl⟩ | ⟨m, rfl⟩ | h
  · rfl
  · rfl
  · rfl
  · have hb := scanQueue_blocked l1 [⟨top, [], opened⟩] [f] i1
      ⟨_, List.mem_singleton_self _, Or.inl h⟩
    split
    · rw [e1]; exact hb
    · rfl

/-- A tree for the examples: `d` with `.`, `..`, a hidden file, a file, a link and a directory. -/
def legDemo : FNode :=
  .dir ⟨0, 0, 0, 0⟩ true
    (.cons [46] (.other ⟨0, 0, 0, 0⟩) <| .cons [46, 46] (.other ⟨0, 0, 0, 0⟩) <|
     .cons [46, 97] (.reg ⟨0, 0, 0, 0⟩ [1]) <| .cons [97] (.reg ⟨0, 0, 0, 0⟩ [1, 2]) <|
     .cons [98] (.dir ⟨0, 0, 0, 0⟩ true (.cons [99] (.lnk ⟨0, 0, 0, 0⟩ [120]) .nil)) .nil)

theorem legDemo_dirs : ∀ p m o k, At legDemo p (.dir m o k) → o = true := by
  intro p m o k h
  have h := (mem_objects_iff _ _ _).2 h
  simp only [legDemo, objects, objectsK] at h
  simp [isDots] at h
  rcases h with ⟨_, _, rfl, _⟩ | ⟨_, _, rfl, _⟩ <;> rfl

/-- The hypotheses of the C32 theorems hold of this tree, whose hidden file is not listed. -/
example : IsDir legDemo ∧ TreeOk legDemo ∧ (∀ p m o k, At legDemo p (.dir m o k) → o = true) ∧
    At legDemo [[46, 97]] (.reg ⟨0, 0, 0, 0⟩ [1]) ∧ ¬ NoHidden [[46, 97]] ∧
    (match legacyScan [100] (some legDemo) legDemo with
      | .ok (some l) => l.frags.map entryOf
      | _ => []) =
      [⟨[100], [], .dir, [], -3⟩, ⟨[100, 47, 97], [97], .reg, [], 2⟩, ⟨[100, 47, 98], [98], .dir, [], -3⟩,
       ⟨[100, 47, 98, 47, 99], [98, 47, 99], .lnk, [120], -2⟩] := by
  refine ⟨trivial, ?_, legDemo_dirs, ?_, ?_, by decide +kernel⟩
  · simp [legDemo, TreeOk, KidsOk, names, NameOk]
  · exact .step (.there (.there (.here (by decide) (by decide)))) (.self _)
  · simp [NoHidden]

/-- A tree in which a directory cannot be opened is refused as a whole. -/
example : At (.dir ⟨0, 0, 0, 0⟩ true (.cons [97] (.dir ⟨0, 0, 0, 0⟩ false .nil) .nil)) [[97]]
    (.dir ⟨0, 0, 0, 0⟩ false .nil) ∧ NoHidden [[97]] :=
  ⟨.step (.here (by decide) (by decide)) (.self _), by simp [NoHidden]⟩

/-- A complete tree without hidden names. -/
example : (∀ p n, At (FNode.dir ⟨0, 0, 0, 0⟩ true (.cons [97] (.reg ⟨0, 0, 0, 0⟩ [1]) .nil)) p n → NoHidden p) := by
  intro p n h
  have h := (mem_objects_iff _ _ _).2 h
  simp [objects, objectsK, isDots] at h
  rcases h with ⟨rfl, _⟩ | ⟨rfl, _⟩ <;> simp [NoHidden]

/-! ### C45: directories come first in the sorted list -/

theorem strcmp_prefix (a : Bytes) (h0 : (0 : UInt8) ∉ a) (b : UInt8) (hb : b ≠ 0) (t : Bytes) :
    strcmp a (a ++ b :: t) < 0 := by
  induction a with
  | nil =>
    have : 0 < b.toNat := by
      rcases Nat.eq_zero_or_pos b.toNat with h | h
      · exact absurd (UInt8.toNat_inj.1 (by simpa using h)) hb
      · exact h
    simp [strcmp]; omega
  | cons x a ih =>
    simp only [List.mem_cons, not_or] at h0
    simp only [List.cons_append, strcmp, if_true]
    rw [if_neg (fun h => h0.1 h.symm)]
    exact ih h0.2

/-- **C45** In the list that parfu 0.5.1 archives — whatever a conforming `qsort` makes of the scan's
list — every directory stands before all objects inside it, at any depth. -/
theorem C45_directories_first (Q : QSort Frag) (top : Bytes) (root : FNode)
    (hd : IsDir root) (hok : TreeOk root)
    (ho : ∀ p m o k, At root p (.dir m o k) → NoHidden p → o = true) :
    ∃ l, legacyScan top (some root) root = .ok (some l) ∧
      ∀ i j (hi : i < (qsortEntries Q l.frags).length) (hj : j < (qsortEntries Q l.frags).length)
        (p q : List Bytes),
        (qsortEntries Q l.frags)[i].arc = pathText p → (qsortEntries Q l.frags)[j].arc = pathText (p ++ q) →
        (∀ n ∈ p ++ q, NameOk n) → q ≠ [] → (qsortEntries Q l.frags)[i].kind = .dir → i < j := by
  have hT := C33_total
  obtain ⟨l, h1, h2, _⟩ := C32_scan_exact_partial top root hd hok ho
  refine ⟨l, h1, ?_⟩
  intro i j hi hj p q hpi hpj hnm hq hk
  have hs := Q.sorted cmpFrag l.frags hT
  have hperm := Q.perm cmpFrag l.frags hT
  generalize hg : qsortEntries Q l.frags = g at *
  have hs : g.Pairwise (fun a b => cmpFrag a b ≤ 0) := by rw [← hg]; exact hs
  have hm : ∀ f ∈ g, f ∈ l.frags := by
    intro f hf
    rw [← hg] at hf
    exact hperm.mem_iff.1 hf
  -- sizes of listed entries
  have hsz : ∀ f ∈ g, (f.kind = .dir → f.size = -3) ∧ (f.kind ≠ .dir → -3 < f.size) := by
    intro f hf
    obtain ⟨p', c, _, _, hx⟩ := (h2 (entryOf f)).1 (List.mem_map_of_mem (hm f hf))
    have hkk : (entryOf f).kind = f.kind := rfl
    have hss : (entryOf f).size = f.size := rfl
    cases c <;> simp [listed] at hx <;> rw [← hx] at hkk hss <;> simp at hkk hss <;>
      rw [← hkk, ← hss] <;> simp <;> omega
  have hlt : cmpFrag g[i] g[j] < 0 := by
    have hi' := hsz g[i] (List.getElem_mem hi)
    have hj' := hsz g[j] (List.getElem_mem hj)
    have e1 := hi'.1 hk
    unfold cmpFrag
    by_cases hkj : g[j].kind = .dir
    · have e2 := hj'.1 hkj
      rw [if_neg (by omega), if_neg (by omega), hpi, hpj]
      have hne : ∀ n ∈ p ++ q, n ≠ [] := fun n hn => (hnm n hn).1
      have hqne : pathText q ≠ [] :=
        pathText_ne_nil (fun n hn => hne n (List.mem_append_right _ hn)) hq
      have h0 : ∀ (r : List Bytes), (∀ n ∈ r, NameOk n) → (0 : UInt8) ∉ pathText r := by
        intro r
        induction r with
        | nil => intro _; simp [pathText]
        | cons a r ih =>
          intro hr
          cases r with
          | nil => simp only [pathText]; exact (hr a (by simp)).2.2
          | cons b r =>
            simp only [pathText]
            have := ih (fun n hn => hr n (List.mem_cons_of_mem _ hn))
            have ha := (hr a (by simp)).2.2
            simp [ha, this]
      by_cases hp : p = []
      · subst hp
        obtain ⟨b, t, hbt⟩ := List.exists_cons_of_ne_nil hqne
        have hz := h0 q (fun n hn => hnm n (by simpa using hn))
        rw [List.nil_append, hbt]
        rw [hbt] at hz
        have := strcmp_prefix [] (by simp) b (fun h => hz (by simp [h])) t
        simpa [pathText] using this
      · have hcat : pathText (p ++ q) = pathText p ++ 47 :: pathText q := by
          clear hpi hpj hnm h0
          revert hp hne
          induction p with
          | nil => intro _ h; exact (h rfl).elim
          | cons a r ih =>
            intro hne _
            cases r with
            | nil =>
              obtain ⟨b, t, rfl⟩ := List.exists_cons_of_ne_nil hq
              simp [pathText]
            | cons b r =>
              have := ih (fun n hn => hne n (List.mem_cons_of_mem _ hn)) (by simp)
              simp only [List.cons_append] at this ⊢
              simp only [pathText, this]
              simp
        rw [hcat]
        exact strcmp_prefix _ (h0 p (fun n hn => hnm n (List.mem_append_left _ hn))) 47 (by decide) _
    · have e2 := hj'.2 hkj
      rw [if_neg (by omega), if_pos (by omega)]
      omega
  rcases Nat.lt_trichotomy i j with h | h | h
  · exact h
  · subst h
    have := hT.refl g[i]
    omega
  · have := (List.pairwise_iff_getElem.1 hs) j i hj hi h
    have := (hT.anti g[i] g[j]).1 hlt
    omega

/-- The theorem applies to the example tree, with an actual sort: `""`, `b`, `b/c`, `a`. -/
example : (match legacyScan [100] (some legDemo) legDemo with
      | .ok (some l) => (qsortEntries insQSort l.frags).map Frag.arc
      | _ => []) = [[], [98], [98, 47, 99], [97]] := by decide +kernel

end Parfu.Props
