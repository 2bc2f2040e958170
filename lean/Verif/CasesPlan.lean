/-
Concrete cases of the theorems on headers, serialised entries, scans and plans: each example applies the
theorems it names, so their hypotheses are met by a case that is not trivial.
-/
import Verif.PropsTar
import Verif.PropsSerialize
import Verif.PropsMove
import Verif.PropsMarchExact
set_option autoImplicit false

namespace Parfu.Props
open Parfu MoveSpec TarSpec ScanSpec PlanSpec

/-- C03, C04: the header of a file of an owner whose number needs more than seven octal digits has valid
checksums, and a reader does not find that owner. -/
example : ∃ b, makeTarHeader demoEnv { demoReg 3 0 with stat := { (demoReg 3 0).stat with uid := 2 ^ 21 } } = .ok b ∧
    checksumOk (b.take 512) ∧
    ∀ m rest, readMember (b ++ []) = some (m, rest) → m.uid ≠ 2 ^ 21 := by
  obtain ⟨b, hb⟩ := C01_header_made demoEnv { demoReg 3 0 with stat := { (demoReg 3 0).stat with uid := 2 ^ 21 } } _ _
    (by decide) rfl rfl
  refine ⟨b, hb, (C03_checksums _ _ b hb).2, fun m rest h => ?_⟩
  exact C04_large_uid_lost demoEnv _ _ _ b [] hb rfl rfl (by decide) (by decide) (by decide) m rest h

/-- C05: a directory with a short path is planned as it is written. -/
example : ∃ e b, tarentryCtor (fun _ => some (⟨.dir, 0o755, 0, 0, 4096, 5⟩, [])) (List.replicate 99 97) 0 = .ok e ∧
    makeTarHeader demoEnv e = .ok b ∧ computeHdrSize (List.replicate 99 97) [] 0 = .ok b.length := by
  have he : tarentryCtor (fun _ => some (⟨.dir, 0o755, 0, 0, 4096, 5⟩, [])) (List.replicate 99 97) 0 =
    .ok ⟨0, ⟨.dir, 0o755, 0, 0, 4096, 5⟩, List.replicate 99 97 ++ [47], []⟩ := by decide +kernel
  obtain ⟨b, hb⟩ := C01_header_made demoEnv
    ⟨0, ⟨.dir, 0o755, 0, 0, 4096, 5⟩, List.replicate 99 97 ++ [47], []⟩ _ _ (by decide) rfl rfl
  exact ⟨_, b, he, hb, C05_planned_dir_partial demoEnv _ _ ⟨.dir, 0o755, 0, 0, 4096, 5⟩ [] 0 _ b rfl rfl
    (.inr (by rw [List.length_replicate]; decide)) he hb⟩

/-- C05: one whose path has 502 bytes is not: with the slash the record no longer fits one block. -/
example : ∃ e b, tarentryCtor (fun _ => some (⟨.dir, 0o755, 0, 0, 4096, 5⟩, [])) (List.replicate 502 97) 0 = .ok e ∧
    makeTarHeader demoEnv e = .ok b ∧ computeHdrSize (List.replicate 502 97) [] 0 ≠ .ok b.length := by
  have he : tarentryCtor (fun _ => some (⟨.dir, 0o755, 0, 0, 4096, 5⟩, [])) (List.replicate 502 97) 0 =
    .ok ⟨0, ⟨.dir, 0o755, 0, 0, 4096, 5⟩, List.replicate 502 97 ++ [47], []⟩ := by decide +kernel
  obtain ⟨b, hb⟩ := C01_header_made demoEnv
    ⟨0, ⟨.dir, 0o755, 0, 0, 4096, 5⟩, List.replicate 502 97 ++ [47], []⟩ _ _ (by decide) rfl rfl
  refine ⟨_, b, he, hb, fun h => ?_⟩
  have := (C05_planned_long_dir_iff demoEnv _ _ ⟨.dir, 0o755, 0, 0, 4096, 5⟩ [] 0 _ b 512 513 rfl rfl
    (by rw [List.length_replicate]; decide) (by decide +kernel) (by decide +kernel) (by decide +kernel) he hb).1 h
  exact absurd this (by decide)

/-- An entry with a link, and one without. -/
def caseLink : RawEntry := ⟨List.replicate 144 7, 5, [97, 98], [99]⟩
def casePlain : RawEntry := ⟨List.replicate 144 1, 0, [100], []⟩

/-- C06: two entries one after the other, with something behind them; and an entry read into one that held a
link keeps that link's target. -/
example : deserializeAll 2 (([caseLink, casePlain].map serialize).flatten ++ [1, 2]) = .ok ([caseLink, casePlain], [1, 2]) ∧
    (∃ r, deserialize ⟨[], 0, [], [99]⟩ (serialize casePlain ++ []) = .ok ((serialize casePlain).length, r) ∧ r.linkname = [99]) ∧
    deserialize ⟨[], 0, [], []⟩ (serialize caseLink ++ [3]) = .ok ((serialize caseLink).length, caseLink) := by
  have h1 : RawOk caseLink := ⟨by decide +kernel, by decide, by decide, by decide⟩
  have h2 : RawOk casePlain := ⟨by decide +kernel, by decide, by decide, by decide⟩
  refine ⟨C06_stream [caseLink, casePlain] [1, 2] ?_, ?_, C06_roundtrip _ _ [3] h1 rfl⟩
  · intro e he
    rcases List.mem_cons.1 he with rfl | he
    · exact h1
    · rw [List.mem_singleton.1 he]; exact h2
  · obtain ⟨r, h, hr, _⟩ := C06_stale_link ⟨[], 0, [], [99]⟩ _ [] h2 rfl (by decide)
    exact ⟨r, h, hr⟩

/-- C08, C09: the demonstration tree, scanned and sorted. -/
example : ∃ c, scan (fun _ => 0) demoBase demoTree = .ok c ∧ c.dirs.length = 3 ∧ c.files.length = 3 ∧
    (∃ r t, c.dirs = r :: t ∧ r.ent.rel = []) ∧
    (∃ r t, (orderFiles demoSort2 c).dirs = r :: t ∧ r.ent.rel = []) ∧
    (orderFiles demoSort2 c).files.Pairwise (fun a b => a.ent.kind = .reg → a.ent.target = [] → b.ent.target = []) := by
  have hj := demo_job
  refine ⟨demoC, hj.scanned, by decide +kernel, by decide +kernel, (C08_parents_first _ _ _ demoTree_ok.2 _ hj.scanned).1,
    (C08_order_keeps_parents hj).1, (C09_links_first demoSort2 _ _ _ _ hj.scanned).imp fun h => h.1⟩

/-- C11, C12, C13, C14, C15: the demonstration collection, with a file larger than the bucket and one order
per bundle or any number: the plan exists, and the theorems apply to it. -/
example : ∃ bundles single, createOrders 0 102400 0 (setOffsets demoColl) = some bundles ∧
    createOrders 0 102400 1 (setOffsets demoColl) = some single ∧
    bundles.length = 4 ∧ single.length = 6 ∧
    (∀ r ∈ demoColl.dirs ++ demoColl.files, bundles.flatten.countP (fun o => Heads o r.ent.rel) = 1) ∧
    (∀ l ∈ single, l.length ≤ 1) ∧
    (∀ l ∈ single, up512 (endOf l) - startOf l ≤ 102400) ∧
    (∀ pre x y post, bundles = pre ++ x :: y :: post → startOf y = up512 (endOf x)) ∧
    (∀ pre x y post, bundles = pre ++ x :: y :: post → ∃ o, y.head? = some o ∧ 102400 < up512 (Order.stop o) - startOf x) ∧
    (∀ p ∈ (setOffsets demoColl).dirs ++ (setOffsets demoColl).files, ∀ o ∈ bundles.flatten, o.rel = p.ref.ent.rel →
      o.hdr ≠ 0 → o.pos = p.slice.offArch) := by
  have e0 : (createOrders 0 102400 0 (setOffsets demoColl)).isSome = true := by decide +kernel
  have e1 : (createOrders 0 102400 1 (setOffsets demoColl)).isSome = true := by decide +kernel
  have l0 : (createOrders 0 102400 0 (setOffsets demoColl)).map List.length = some 4 := by decide +kernel
  have l1 : (createOrders 0 102400 1 (setOffsets demoColl)).map List.length = some 6 := by decide +kernel
  cases h0 : createOrders 0 102400 0 (setOffsets demoColl) with
  | none => rw [h0] at e0; cases e0
  | some bundles =>
    cases h1 : createOrders 0 102400 1 (setOffsets demoColl) with
    | none => rw [h1] at e1; cases e1
    | some single =>
      rw [h0] at l0; rw [h1] at l1
      refine ⟨bundles, single, rfl, rfl, by simpa using l0, by simpa using l1, ?_, ?_, ?_, ?_, ?_, ?_⟩
      · intro r hr; exact ((C11_every_byte_once 0 102400 0 demoColl bundles demoColl_ok.1 h0).1 r hr).1
      · intro l hl; exact (C14_limit 0 102400 1 demoColl single (by decide) demoColl_ok.1 h1 l hl).2 (by decide)
      · exact C13_single_orders_fit 0 102400 demoColl single (by decide) demoColl_ok.1 h1
      · exact (C15_bundles_contiguous 0 102400 0 demoColl bundles (by decide) demoColl_ok.1 h0).2.1
      · exact C14_greedy_partial 0 102400 demoColl bundles (by decide) demoColl_ok.1 demoColl_ok.2 h0
      · intro p hp o ho hrel
        exact (C12_bytes_in_place 0 102400 0 demoColl bundles demoColl_ok.1 h0 p hp o ho hrel).1

/-- C13: its headers are all of one size, so no fitting file follows a big one; and the family that overruns the
bucket, for a bucket of 102400 bytes. -/
example : NoFitAfterBig 102400 (demoColl.dirs ++ demoColl.files) ∧
    ∃ bundles, createOrders 0 102400 0 (setOffsets (overflowColl 102400)) = some bundles ∧
      ∃ l ∈ bundles, up512 (endOf l) - startOf l = 102400 + 512 := by
  refine ⟨C13_uniform_headers_ok 102400 512 demoColl demoColl_ok.1 (by decide) (by decide) (by decide) (by decide), ?_⟩
  exact (C13_overflow 0 102400 (by decide) (by decide) (by decide)).2.2.2

/-- C15, C19, C20: two executions of the demonstration job with different memory, and two orders of the writes. -/
example : ∃ xs xs', Carried demoEnv2 demoFs demoBase 102400 demoBundles xs ∧ Carried demoEnv2 demoFs demoBase 102400 demoBundles xs' ∧
    xs.length = 2 ∧ xs.map Task.memory ≠ xs'.map Task.memory ∧
    writeAll (xs.map Task.write).reverse = writeAll (xs.map Task.write) ∧
    (writeAll (xs.map Task.write)).length = (writeAll (xs'.map Task.write)).length := by
  obtain ⟨xs, hxs, hm⟩ := demo_carried (List.replicate 102400 7) (List.replicate 102400 9)
    (List.length_replicate ..) (List.length_replicate ..)
  obtain ⟨xs', hxs', hm'⟩ := demo_carried (List.replicate 102400 3) (List.replicate 102400 9)
    (List.length_replicate ..) (List.length_replicate ..)
  refine ⟨xs, xs', hxs, hxs', ?_, ?_, ?_, ?_⟩
  · have := congrArg List.length hxs.1
    rw [List.length_map] at this
    rw [this]; decide +kernel
  · rw [hm, hm']
    intro h
    have h1 := (List.cons.inj h).1
    have h2 := congrArg List.head? h1
    rw [List.head?_replicate, List.head?_replicate] at h2
    simp at h2
  · exact C15_any_order demo_job xs hxs _ _ (List.reverse_perm _) (List.Perm.refl _)
  · exact (C20_determined_partial demo_job xs xs' hxs hxs' _ _ (List.Perm.refl _) (List.Perm.refl _)).1

/-- C20: byte 2561 of the demonstration archive, right behind the byte of the first file, is what the
worker's memory held there. -/
example : ∃ xs, Carried demoEnv2 demoFs demoBase 102400 demoBundles xs ∧ ∃ x ∈ xs, ∃ i, startOf x.bundle ≤ i ∧ i < endOf x.bundle ∧
    (∀ o ∈ x.bundle, i < o.pos ∨ Order.stop o ≤ i) ∧ (writeAll (xs.map Task.write))[i]? = x.memory[i - startOf x.bundle]? := by
  obtain ⟨xs, hxs, hm⟩ := demo_carried (List.replicate 102400 7) (List.replicate 102400 9)
    (List.length_replicate ..) (List.length_replicate ..)
  have hl : demoBundles[1] ∈ demoBundles := by decide
  obtain ⟨h1, h2, h3⟩ : startOf demoBundles[1] ≤ 2561 ∧ 2561 < endOf demoBundles[1] ∧ ∀ o ∈ demoBundles[1], 2561 < o.pos ∨ Order.stop o ≤ 2561 := by
    decide
  generalize demoBundles[1] = l at hl h1 h2 h3
  rw [← hxs.1] at hl
  obtain ⟨x, hx, rfl⟩ := List.mem_map.1 hl
  exact ⟨xs, hxs, x, hx, 2561, h1, h2, h3, C20_padding_is_memory demo_job xs hxs _ (List.Perm.refl _) x hx 2561 h1 h2 h3⟩

/-- C17, C18: a bundle with a name that has a newline and a blank, and a link; sent, cut in the last order, and
cut between orders. -/
example : parseOrders ((recvMsg (sendMsg [67] (printBundle demoBundle))).drop 1) = .ok (demoBundle.map asReceived) ∧
    parseOrders (printBundle demoBundle) = .ok (demoBundle.map asReceived) ∧
    parseOrders (printBundle (demoBundle.take 2) ++ [48, 9]) = .error .thrown ∧
    parseOrders (printBundle (demoBundle.take 2) ++ (printOrder ⟨0, [98], .reg, [], 700, 512, 1024, 0⟩).take 5) = .error .thrown ∧
    parseOrders ((printBundle (demoBundle.take 2 ++ demoBundle.drop 2)).take (printBundle (demoBundle.take 2)).length) =
      .ok ((demoBundle.take 2).map asReceived) := by
  have hn : ∀ o ∈ demoBundle, NoTab o := by decide
  have hf : ∀ o ∈ demoBundle, FitsInt o := by decide
  have hl := demoBundle_length
  have hsplit : printBundle demoBundle = printBundle (demoBundle.take 2) ++ printOrder ⟨0, [98], .reg, [], 700, 512, 1024, 0⟩ := by
    simp [printBundle, demoBundle]
  have h5 : 5 < (printOrder ⟨0, [98], .reg, [], 700, 512, 1024, 0⟩).length := by
    simp only [printOrder, List.length_append, List.length_cons, List.length_nil]; omega
  have hl2 := hl
  rw [hsplit] at hl2
  rw [List.length_append] at hl2
  refine ⟨(C17_roundtrip_partial demoBundle hn (by decide) hf hl).2, ?_, ?_, ?_, ?_⟩
  · rw [C17_accepts_iff demoBundle hn hl, if_pos hf]
  · exact C18_cut_line_rejected_partial _ [48, 9] (by decide) (by decide) (by decide) (by decide) (by
      rw [List.length_append]; simp only [List.length_cons, List.length_nil]; omega)
  · exact C18_cut_order_rejected _ _ 5 (by decide) (by decide) (by decide) (by decide) (by decide) h5 (by
      rw [List.length_append]; omega)
  · exact (C18_boundary_cut_silent _ _ (by decide) (by decide) (by rw [List.take_append_drop]; exact hl)).2

/-- C18: text that is no list of orders. -/
example : parseOrders [120, 10] = .error .thrown ∨ ∀ n, parseLoop [120, 10] n 0 = .error .hang :=
  C18_otherwise [120, 10] (by
    have : parseOrders [120, 10] = .error .thrown := by decide
    rw [this]; intro ws h; cases h)

end Parfu.Props
