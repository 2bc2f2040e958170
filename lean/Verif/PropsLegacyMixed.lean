/-
C69 for trees with long link targets: the layout and the writing of every mixture of files.
-/
import Verif.PropsLegacyRoom
import Verif.PropsLegacyOverrun
set_option autoImplicit false

namespace Parfu.Props
open Parfu ScanSpec LegacyScanSpec MoveSpec TarSpec LegacyRunSpec SplitSpec LayoutSpec

/-- **C69 (partial)** The run succeeds, without a limit on the length of link targets, if the headers of all
directories and links fit one bucket (each header as it is planned), no file that fits a bucket has at least as much
data as one that does not, and files over a bucket leave room for a header at their end.
Missing: other trees, see C69_two_files and C44_tree_hangs. -/
theorem C69_defined_long_links_partial (L : LegEnv) (Q : QSort Frag) (nul top : Bytes) (root : FNode) (hp : Platform L nul)
    (hnl : nul.length ≤ 100) (ha : LegArchivable L.env L.fs top root) (seen : Option FNode) (hseen : DirOrLink seen) (n : Nat) (hn : 0 < n)
    (hhead : ∀ os : List (List Bytes × FNode × Nat), os.Nodup →
      (∀ o ∈ os, Visible root o.1 o.2.1 ∧ DirOrLink (some o.2.1) ∧ Planned top o.1 o.2.1 o.2.2) →
      (os.map fun o => o.2.2).sum ≤ 4194304)
    (horder : ∀ p m h p' m' h', Visible root p m → Visible root p' m' → Planned top p m h → Planned top p' m' h' →
      fileLength m ≤ fileLength m' → objectRoom m' h' ≤ 4194304 → objectRoom m h ≤ 4194304)
    (hleaves : ∀ p m h, Visible root p m → Planned top p m h → 4194304 < objectRoom m h →
      objectRoom m h % 4194304 = 0 ∨ objectRoom m h % 4194304 + h ≤ 4194304)
    (hcount : ∀ os : List (List Bytes × FNode), os.Nodup → (∀ o ∈ os, Visible root o.1 o.2) →
      (os.map fun o => fileLength o.2 / 4194304 + 2).sum ≤ 39000) :
    ∃ front wss, legacyMain L Q nul top seen root n = .ok (some (front, wss)) := by
  obtain ⟨es, ms, h1, h3, h4, h5, h8, h9, h6, h7⟩ := main_run hp ha Q
  rw [h1 seen ((topAllowed_iff seen).2 hseen)]
  have hb : legBucket = 4194304 := rfl
  have hobj : ∀ e ∈ es, ∃ p m h, Visible root p m ∧ Planned top p m h ∧ e.hdr = (h : Int) ∧ room 512 e = (objectRoom m h : Int) ∧
      dataLen e = (fileLength m : Int) := by
    intro e he
    obtain ⟨p, m, k1, _, _, k4, k5, _⟩ := h7 e he
    have hdl : dataLen e = (fileLength m : Int) := by
      unfold dataLen
      rw [k5.1]
      cases m <;> simp [markOf, fileLength]
    have hm := k4.min
    refine ⟨p, m, e.hdr.toNat, k1, ?_, by omega, ?_, hdl⟩
    · unfold Planned
      have := k4.made.2
      rw [k4.rel, k5.1, k5.2.2] at this
      exact this
    · unfold room objectRoom
      rw [hdl]
      omega
  have hsf : SmallFirst 512 legBucket es := by
    refine List.Pairwise.imp_of_mem ?_ h9
    intro a b ha' hb' hab hsm
    obtain ⟨p, m, h, a1, a2, a3, a4, a5⟩ := hobj a ha'
    obtain ⟨p', m', h', b1, b2, b3, b4, b5⟩ := hobj b hb'
    have hle : dataLen a ≤ dataLen b := by unfold dataLen; omega
    unfold Small at hsm ⊢
    rw [a4, hb]
    rw [b4, hb] at hsm
    have := horder p m h p' m' h' a1 b1 a2 b2 (by omega) (by omega)
    omega
  -- the layout
  have hsum : ((es.filter (fun e => decide (e.size < 0))).map Frag.hdr).sum ≤ legBucket := by
    have hone : ∀ e ∈ es.filter (fun e => decide (e.size < 0)), ∃ o : List Bytes × FNode × Nat,
        (Visible root o.1 o.2.1 ∧ DirOrLink (some o.2.1) ∧ Planned top o.1 o.2.1 o.2.2) ∧ e.arc = pathText o.1 ∧ e.hdr = o.2.2 := by
      intro e he
      rw [List.mem_filter] at he
      obtain ⟨p, m, k1, _, k3, k4, k5, _⟩ := h7 e he.1
      have hz : e.size < 0 := by simpa using he.2
      rw [k5.1] at hz
      have hm := k4.min
      refine ⟨(p, m, e.hdr.toNat), ⟨k1, ?_, ?_⟩, k3, by simp only []; omega⟩
      · cases m <;> simp [markOf, DirOrLink] at hz ⊢
        omega
      · unfold Planned
        have := k4.made.2
        rw [k4.rel, k5.1, k5.2.2] at this
        exact this
    obtain ⟨os, hos⟩ := forall2_of_forall hone
    have hnd' : os.Nodup :=
      forall2_pairwise (S := fun a b => a.arc ≠ b.arc) (T := (· ≠ ·))
        (fun a b o o' hab h h' hoo => hab (by rw [h.2.1, h'.2.1, hoo])) hos
        (List.pairwise_map.1 (h5.sublist (List.filter_sublist.map Frag.arc)))
    have hle := hhead os hnd' (fun o ho => by
      obtain ⟨e, _, he⟩ := forall2_mem_right hos o ho
      exact he.1)
    have heq : ((es.filter (fun e => decide (e.size < 0))).map Frag.hdr).sum = ((os.map fun o => o.2.2).sum : Nat) := by
      clear hle hnd' hone
      generalize es.filter (fun e => decide (e.size < 0)) = qs at hos
      induction hos with
      | nil => rfl
      | cons h _ ih =>
        simp only [List.map_cons, List.sum_cons]
        rw [ih, h.2.2]
        push_cast
        rfl
    rw [heq, hb]
    omega
  obtain ⟨gs, r, hsp⟩ := C44_one_bucket legBucket (by omega) h3.accDvd blockingName (by decide) es h3.two h9
    (tree_entries (fun e he => by obtain ⟨p, m, k1, _, _, k4, k5, _⟩ := h7 e he; exact ⟨p, m, k1, k4, k5⟩)) hsum
  refine run_total_layout h3 blocking_free hp.nul (by decide) hnl hn (R := 4096) (T := 4096) (c := 39000) ?_ hsf ?_ (tree_count h5 ?_ hcount)
    (by omega) (by omega) hsp
  · intro e he
    obtain ⟨p, m, k1, _, k3, k4, k5, _⟩ := h7 e he
    have hpl := ha.paths p m k1
    have hl := archivedPath_len (baseOf top) p m
    refine ⟨k4.min, k4.max, ?_, by rw [k3]; omega, ?_, k4.none⟩
    · rw [k4.rel]; simp only [List.length_append, List.length_singleton]; omega
    · rw [k5.2.2]
      cases m with
      | lnk d t => exact le_of_lt (ha.links p d t k1).1
      | _ => simp [targetOf]
  · intro e he hbig
    obtain ⟨p, m, h, a1, a2, a3, a4, a5⟩ := hobj e (List.dropLast_subset _ he)
    unfold Small at hbig
    unfold LeavesRoom
    rw [a4, hb] at hbig
    rw [a4, hb, a3]
    have := hleaves p m h a1 a2 (by omega)
    omega
  · intro e he
    obtain ⟨p, m, k1, _, k3, _, k5, _⟩ := h7 e he
    exact ⟨(p, m), k1, k3, k5.1⟩

/-! Non-vacuity: 200 directories and a link with a target of 101 bytes. -/

example (Q : QSort Frag) : ∃ front wss,
    legacyMain ⟨demoEnv2, wideFs (List.replicate 101 97) 200, false, fun _ => 0, 0, 0⟩ Q glibcNull [116]
      (some (wideDir (List.replicate 101 97) 200)) (wideDir (List.replicate 101 97) 200) 16 = .ok (some (front, wss)) := by
  have hnum : ∀ (α : Type) (f : α → List Bytes × FNode) (os : List α), (os.map f).Nodup →
      (∀ o ∈ os, Visible (wideDir (List.replicate 101 97) 200) (f o).1 (f o).2) → os.length ≤ 202 := by
    intro α f os hnd hv
    have hsub : (os.map f) ⊆ ([], wideDir (List.replicate 101 97) 200) :: ([[108]], .lnk manyMeta (List.replicate 101 97)) ::
        (List.range 200).map (fun i => ([manyName i], .dir manyMeta true .nil)) := by
      intro x hx
      rw [List.mem_map] at hx
      obtain ⟨o, ho, rfl⟩ := hx
      rcases wide_visible.1 (hv o ho) with ⟨h1, h2⟩ | ⟨i, hi, h1, h2⟩ | ⟨h1, h2⟩
      · exact List.mem_cons.2 (.inl (Prod.ext h1 h2))
      · exact List.mem_cons_of_mem _ (List.mem_cons_of_mem _ (List.mem_map.2 ⟨i, by simpa using hi, (Prod.ext h1 h2).symm⟩))
      · exact List.mem_cons_of_mem _ (List.mem_cons.2 (.inl (Prod.ext h1 h2)))
    have := (List.subperm_of_subset hnd hsub).length_le
    rw [List.length_map, List.length_cons, List.length_cons, List.length_map, List.length_range] at this
    exact this
  have hfl : ∀ p m, Visible (wideDir (List.replicate 101 97) 200) p m → fileLength m = 0 := by
    intro p m h
    rcases wide_visible.1 h with ⟨_, rfl⟩ | ⟨i, hi, _, rfl⟩ | ⟨_, rfl⟩ <;> rfl
  have hpl20 : ∀ p m h, Visible (wideDir (List.replicate 101 97) 200) p m → Planned [116] p m h → h ≤ 20000 := by
    intro p m h v1 v3
    unfold Planned at v3
    refine (computeHdr_le ?_ ?_ ?_ v3).2
    · have := (wide_archivable (List.replicate 101 97) (by decide) 200 (by omega)).paths _ _ v1
      have h := archivedPath_len (baseOf [116]) p m
      simp only [List.length_append, List.length_singleton]
      omega
    · rcases wide_visible.1 v1 with ⟨_, h⟩ | ⟨i, hi, _, h⟩ | ⟨_, h⟩ <;> rw [h] <;> simp [targetOf, wideDir]
    · rcases wide_visible.1 v1 with ⟨_, h⟩ | ⟨i, hi, _, h⟩ | ⟨_, h⟩ <;> rw [h] <;> simp [markOf, wideDir]
  have hsmall : ∀ p m h, Visible (wideDir (List.replicate 101 97) 200) p m → Planned [116] p m h → objectRoom m h ≤ 4194304 := by
    intro p m h v1 v3
    have := hpl20 p m h v1 v3
    unfold objectRoom
    rw [hfl p m v1]
    omega
  refine C69_defined_long_links_partial _ Q glibcNull [116] _ ⟨rfl, fun _ => by simp, by simp, by simp, by decide⟩ (by decide)
    (wide_archivable _ (by decide) 200 (by omega)) (some (wideDir (List.replicate 101 97) 200)) trivial 16 (by omega) ?_ ?_ ?_ ?_
  · intro os hnd hv
    have h20 : ∀ o ∈ os, o.2.2 ≤ 20000 := fun o ho => hpl20 _ _ _ (hv o ho).1 (hv o ho).2.2
    have h1 := sum_le_mul (fun o : List Bytes × FNode × Nat => o.2.2) os 20000 h20
    have h2 := hnum _ (fun o : List Bytes × FNode × Nat => (o.1, o.2.1)) os (List.Nodup.map_on ?_ hnd) (fun o ho => (hv o ho).1)
    · have := Nat.mul_le_mul_right 20000 h2
      omega
    · rintro ⟨p, m, h⟩ ho ⟨p', m', h'⟩ ho' heq
      simp only [Prod.mk.injEq] at heq
      obtain ⟨rfl, rfl⟩ := heq
      have a := (hv _ ho).2.2
      have b := (hv _ ho').2.2
      unfold Planned at a b
      simp only [] at a b
      rw [a] at b
      have := Except.ok.inj b
      rw [this]
  · intro p m h p' m' h' v _ pl _ _ _; exact hsmall p m h v pl
  · intro p m h v pl hbig; exact absurd (hsmall p m h v pl) (by omega)
  · intro os hnd hv
    have h1 := sum_le_mul (fun o : List Bytes × FNode => fileLength o.2 / 4194304 + 2) os 2 (fun o ho => by
      rw [hfl o.1 o.2 (hv o ho)])
    have h2 := hnum _ id os (by simpa using hnd) hv
    omega

end Parfu.Props
