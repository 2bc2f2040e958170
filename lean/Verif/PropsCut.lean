/-
C14, violated: a bundle is closed although the next order would fit.
-/
import Verif.PropsFits
set_option autoImplicit false

namespace Parfu.Props
open Parfu MainSpec MoveSpec TarSpec ScanSpec PlanSpec ProtocolSpec

/-- What is found in `ovTree` when the first file has 100864 bytes. -/
def cutColl : Coll :=
  { ovColl with files := [⟨101376, ⟨[121], .reg, [], 101376⟩, 512⟩, ⟨0, ⟨[122], .reg, [], 0⟩, 512⟩,
      ⟨100864, ⟨ovA ++ [47] ++ ovB ++ [47, 102], .reg, [], 100864⟩, 2048⟩] }

def cutSorted : Coll :=
  { ovColl with files := [⟨0, ⟨[122], .reg, [], 0⟩, 512⟩,
      ⟨100864, ⟨ovA ++ [47] ++ ovB ++ [47, 102], .reg, [], 100864⟩, 2048⟩, ⟨101376, ⟨[121], .reg, [], 101376⟩, 512⟩] }

def cutBundles : List (List Order) := (createOrders 0 102400 0 (setOffsets cutSorted)).getD []

theorem cut_planned : createOrders 0 102400 0 (setOffsets cutSorted) = some cutBundles := by decide +kernel

set_option maxRecDepth 20000 in
theorem cut_scanned {d1 d2 : Bytes} (h1 : d1.length = 100864) (h2 : d2.length = 101376) :
    scan (fun _ => 0) demoBase (ovTree d1 d2) = .ok cutColl := by
  have h : spiderDir (fun _ => 0) [] (ovTree d1 d2) =
      .ok (.mk ⟨[], .dir, [], 0⟩ [.mk ⟨ovA, .dir, [], 0⟩ [.mk ⟨ovA ++ [47] ++ ovB, .dir, [], 0⟩ []
        [⟨ovA ++ [47] ++ ovB ++ [47, 102], .reg, [], d1.length⟩]] [], .mk ⟨[99], .dir, [], 0⟩ [] []]
        [⟨[121], .reg, [], d2.length⟩, ⟨[122], .reg, [], 0⟩]) := by
    rfl
  unfold scan
  rw [h, h1, h2]
  decide +kernel

/-- Whatever `std::sort` is used, the files come in this order. -/
theorem cut_ordered (S : StdSort Ref) : orderFiles S cutColl = cutSorted := by
  have hsw : StrictWeak sortBySize := sortBySize_strictWeak
  have hp := S.perm sortBySize cutColl.files hsw
  have hs := S.sorted sortBySize cutColl.files hsw
  have hp2 : (S.run sortBySize cutColl.files).Perm cutSorted.files := hp.trans (by decide +kernel)
  have : S.run sortBySize cutColl.files = cutSorted.files := by
    refine hp2.eq_of_pairwise (le := fun a b => sortBySize b a = false) ?_ hs (by decide +kernel)
    intro a b ha hb h3 h4
    have ha' := hp2.mem_iff.1 ha
    revert h3 h4
    have key : ∀ a ∈ cutSorted.files, ∀ b ∈ cutSorted.files, sortBySize b a = false → sortBySize a b = false → a = b := by
      decide +kernel
    exact key a ha' b hb
  unfold orderFiles
  rw [this]
  rfl

theorem cut_job (S : StdSort Ref) {d1 d2 : Bytes} (h1 : d1.length = 100864) (h2 : d2.length = 101376) :
    Job demoEnv2 (ovFs d1 d2) demoBase (ovTree d1 d2) S (fun _ => 0) 102400 0 cutColl cutBundles where
  tree := ov_archivable d1 d2
  luck := fun _ => rfl
  blocks := by decide
  scanned := cut_scanned h1 h2
  planned := by rw [cut_ordered]; exact cut_planned
  fits := by decide +kernel
  small := by decide +kernel
  msgs := by decide +kernel

/-- **C14, violated** Without a limit on the orders, for a tree that can be archived, a bundle is closed
although both bundles together span exactly one bucket (102400 bytes). -/
theorem C14_cut_early (S : StdSort Ref) {d1 d2 : Bytes} (h1 : d1.length = 100864) (h2 : d2.length = 101376) :
    Job demoEnv2 (ovFs d1 d2) demoBase (ovTree d1 d2) S (fun _ => 0) 102400 0 cutColl cutBundles ∧
    ∃ pre x y, cutBundles = pre ++ [x, y] ∧ up512 (endOf (x ++ y)) - startOf (x ++ y) ≤ 102400 := by
  refine ⟨cut_job S h1 h2, cutBundles.take (cutBundles.length - 2), (cutBundles[cutBundles.length - 2]?).getD [],
    (cutBundles[cutBundles.length - 1]?).getD [], ?_, ?_⟩ <;> decide +kernel

example : ∃ d1 d2 : Bytes, d1.length = 100864 ∧ d2.length = 101376 :=
  ⟨List.replicate 100864 1, List.replicate 101376 2, List.length_replicate, List.length_replicate⟩

end Parfu.Props
