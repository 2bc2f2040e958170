/-
C37: when the check of the rank call list passes.
-/
import Verif.LegacyArchiveRun
set_option autoImplicit false

namespace Parfu.Props
open Parfu SplitSpec

/-- If the check of the rank call list passes, no bucket number is skipped. -/
theorem check_noGap {fr : List Frag} {call : List Nat} (h : rankCallList fr = .ok (some call))
    (hc : ∀ k (hk : k < call.length), ∃ h : call[k] < fr.length, fr[call[k]].bucket = k) : NoGap fr := by
  intro j hj
  have hmem : (∀ i, (∃ j, ∃ h : j + 1 < fr.length, i = j + 1 ∧ fr[j+1].bucket ≠ fr[j].bucket) → i ∈ call) ∧
      call.Pairwise (· < ·) := by
    cases fr with
    | nil => cases h
    | cons f fs =>
      simp only [rankCallList] at h
      split at h
      · cases h
      simp only [Except.ok.injEq, Option.some.injEq] at h
      have hs := rankCallLoop_sorted (f :: fs) 0 (-1)
      have hm := mem_rankCallLoop (f :: fs) 0 (-1)
      rw [h] at hs hm
      refine ⟨?_, hs⟩
      rintro i ⟨j, h1, h2, h3⟩
      exact (hm i).2 (Or.inr ⟨j, h1, by omega, h3⟩)
  obtain ⟨hm, hps⟩ := hmem
  have hlt := List.pairwise_iff_getElem.1 hps
  by_cases he : fr[j+1].bucket = fr[j].bucket
  · omega
  obtain ⟨k', hk', e'⟩ := List.getElem_of_mem (hm (j+1) ⟨j, hj, rfl, he⟩)
  obtain ⟨k, hk, k1, k2⟩ := calls_run h j (by omega)
  obtain ⟨h1, h2⟩ := hc k' hk'
  obtain ⟨h3, h4⟩ := hc k hk
  have h5 := k2 _ h3 (le_refl _) k1
  have h6 : fr[j+1].bucket = k' := by
    have : fr[call[k']] = fr[j+1] := by congr 1
    rw [← this]; exact h2
  rw [h6, ← h5, h4]
  by_contra hn
  have hkk : k + 1 < k' := by omega
  have a1 := hlt k (k+1) hk (by omega) (by omega)
  have a2 := hlt (k+1) k' (by omega) hk' hkk
  obtain ⟨h7, h8⟩ := hc (k+1) (by omega)
  have := k2 _ h7 (by omega) (by omega)
  omega

/-- If the layout skips no bucket number, all large entries but the last leave room. -/
theorem loop_room {bl acc : Int} (hbl : 0 < bl) (hacc : 0 < acc) (hd : bl ∣ acc) {pad : Bytes}
    (es : List Frag) : ∀ (p r : LPos) (gs : List (Frag × List Frag)), SmallFirst bl acc es →
    splitLoop bl acc pad p es = .ok (some (gs, r)) →
    List.IsChain (fun a b => b ≤ a + 1) ((outFrags gs).map Frag.bucket) →
    ∀ e ∈ es.dropLast, ¬ Small bl acc e → LeavesRoom bl acc e := by
  induction es with
  | nil => intro _ _ _ _ _ _ e he; simp at he
  | cons e es ih =>
    intro p r gs hsf h hch
    unfold splitLoop at h
    split at h
    · cases h
    · cases h
    rename_i g q hpl
    split at h
    · cases h
    · cases h
    rename_i gs' r' hlo
    simp only [Except.ok.injEq, Option.some.injEq, Prod.mk.injEq] at h
    obtain ⟨rfl, rfl⟩ := h
    obtain ⟨hsf1, hsf2⟩ := List.pairwise_cons.1 hsf
    rw [outFrags_cons, List.map_append, List.isChain_append] at hch
    obtain ⟨_, hc2, hc3⟩ := hch
    have hrest := ih q r' gs' hsf2 hlo hc2
    cases es with
    | nil => intro x hx; simp at hx
    | cons e2 es2 =>
      intro x hx hxs
      rw [List.dropLast_cons_of_ne_nil (by simp)] at hx
      rcases List.mem_cons.1 hx with rfl | hx
      · obtain ⟨_, _, _, _, _, _, _, ⟨b, m, a6, a7, a8, a9, a10⟩, _⟩ := place_large hbl hacc hd hxs hpl
        have hs2 : ¬ Small bl acc e2 := fun h => hxs (hsf1 e2 (by simp) h)
        unfold splitLoop at hlo
        split at hlo
        · cases hlo
        · cases hlo
        rename_i g2 q2 hpl2
        split at hlo
        · cases hlo
        · cases hlo
        rename_i gs2 r2 hlo2
        simp only [Except.ok.injEq, Option.some.injEq, Prod.mk.injEq] at hlo
        obtain ⟨rfl, rfl⟩ := hlo
        obtain ⟨_, _, _, c3, _, _, _, ⟨b2, m2, c6, c7, c8, _, _⟩, _⟩ := place_large hbl hacc hd hs2 hpl2
        refine a10.1 ?_
        have hlast : (g.2.map Frag.bucket).getLast? = some (b + (m : Int) - 1) := by
          rw [a8, List.getLast?_map, List.getLast?_range, if_neg (by omega)]
          simp; omega
        have hhead : ((outFrags (g2 :: gs2)).map Frag.bucket).head? = some b2 := by
          rw [outFrags_cons, List.map_append, c8]
          obtain ⟨k, rfl⟩ : ∃ k, m2 = k + 1 := ⟨m2 - 1, by omega⟩
          rw [List.range_succ_eq_map]; simp
        have := hc3 _ hlast _ hhead
        have : b2 * acc ≤ (b + m) * acc := Int.mul_le_mul_of_nonneg_right (by omega) (by omega)
        omega
      · exact hrest x hx hxs

/-- **C37, exactly** In the layout of a list with its large entries last (what the sort makes of headers of
one size), the check every rank makes - entry `k` of the rank call list is the first fragment of bucket
`k` - passes if and only if every large entry but the last one leaves room for another header of its size
in its last bucket, or fills it. -/
theorem C37_check_iff (bl acc : Int) (hbl : 0 < bl) (hacc : 0 < acc) (hd : bl ∣ acc) (pad : Bytes)
    (es : List Frag) (hsf : SmallFirst bl acc es) (gs : List (Frag × List Frag)) (r : LPos)
    (h : splitList bl acc pad es = .ok (some (gs, r))) :
    (∃ cs, rankCallList (outFrags gs) = .ok (some cs) ∧
      ∀ k (hk : k < cs.length), ∃ hc : cs[k] < (outFrags gs).length, (outFrags gs)[cs[k]].bucket = k) ↔
    ∀ e ∈ es.dropLast, ¬ Small bl acc e → LeavesRoom bl acc e := by
  refine ⟨?_, fun hr => C37_check_passes_partial bl acc hbl hacc hd pad es hsf hr gs r h⟩
  rintro ⟨cs, h1, h2⟩
  refine loop_room hbl hacc hd es ⟨0, 0, 0⟩ r gs hsf (split_inv h) ?_
  rw [List.isChain_iff_getElem]
  intro i hi
  have := check_noGap h1 h2 i (by simpa using hi)
  simpa using this

/-- Both sides occur: the list of `C37_skips_a_bucket` fails at its second entry; with short names both files leave room. -/
example : (∃ e ∈ gapOrder.dropLast, ¬ Small realBl realAcc e ∧ ¬ LeavesRoom realBl realAcc e) ∧
    (∀ e ∈ [exEnt 97 .dir (-3) 512, exEnt 98 .reg (2 * 4194304 - 2048) 512, exEnt 99 .reg (2 * 4194304 - 2048) 512].dropLast,
      ¬ Small realBl realAcc e → LeavesRoom realBl realAcc e) := by
  unfold Small LeavesRoom
  decide +kernel

end Parfu.Props
