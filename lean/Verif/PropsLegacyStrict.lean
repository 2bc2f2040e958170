/-
Property theorem C50: parfu 0.5.1 closes file handles that were never opened.
-/
import Verif.PropsLegacyDemo
set_option autoImplicit false

namespace Parfu.Props
open Parfu SplitSpec ScanSpec LegacyScanSpec MoveSpec TarSpec LegacyRunSpec

/-- The same surroundings, with the MPI standard's rule for closing handles. -/
def strictly (L : LegEnv) : LegEnv := { L with strict := true }

theorem moveFrag_strict {L : LegEnv} {bl acc bloc : Int} {s s' : BState} {f : Frag} (hset : s.set = false) (hz : f.size ≤ 0)
    (h : moveFrag L bl acc bloc s f = .ok (some s')) : moveFrag (strictly L) bl acc bloc s f = .error .ub := by
  have hn : ¬ (f.kind = .reg ∧ f.size > 0) := by omega
  unfold moveFrag at h ⊢
  rw [if_neg hn, bindRO_some] at h ⊢
  simp only [] at h ⊢
  have hp : ∀ b, putHeader (strictly L) bloc b f = putHeader L bloc b f := fun _ => rfl
  rw [hp]
  split at h
  · cases h
  rename_i b hb
  rw [if_pos ⟨rfl, hset⟩]

theorem oneBucket_strict {L : LegEnv} {bl acc : Int} {dstart : Nat} {fr : List Frag} {call : List Nat} {idx : Nat} {buf : Bytes}
    {c : Nat} (hc : call[idx]? = some c) {f0 : Frag} (hf : fr[c]? = some f0) (hz : f0.size ≤ 0) {x : Bytes × List WriteReq}
    (h : oneBucket L bl acc dstart fr call idx buf = .ok (some x)) :
    oneBucket (strictly L) bl acc dstart fr call idx buf = .error .ub := by
  unfold oneBucket at h ⊢
  split at h
  · cases h
  rename_i hsmall
  rw [if_neg hsmall]
  rw [hc] at h ⊢
  simp only [hf] at h ⊢
  split at h
  · cases h
  rename_i hb
  obtain ⟨⟨s, rest⟩, h1, _⟩ := bindRO_eq h
  obtain ⟨hlt, hget⟩ := List.getElem?_eq_some_iff.1 hf
  have hd : fr.drop c = f0 :: fr.drop (c + 1) := by rw [← hget]; exact List.drop_eq_getElem_cons hlt
  rw [hd] at h1 ⊢
  simp only [bucketLoop] at h1 ⊢
  rw [if_neg hb] at h1 ⊢
  obtain ⟨s', h2, _⟩ := bindRO_eq h1
  rw [moveFrag_strict rfl hz h2, if_neg hb]
  rfl

/-- The first entry of the list has no data. -/
theorem first_fragment {acc : Int} (hacc : 0 < acc) (hd : (512 : Int) ∣ acc) {pad : Bytes} {e : Frag} {es : List Frag}
    {gs : List (Frag × List Frag)} {r : LPos} (hh : ∀ x ∈ e :: es, x.hdr < acc)
    (h : splitList 512 acc pad (e :: es) = .ok (some (gs, r))) (hz : e.size ≤ 0) :
    ∃ f, (outFrags gs)[0]? = some f ∧ f.size ≤ 0 := by
  have hput := split_any (by omega) hacc hd hh h
  cases hput with
  | cons h1 _ =>
    rename_i g gs' _
    have hsm : Small 512 acc e := by
      by_contra hn
      have := large_size (by omega) hd (le_of_lt (hh e (by simp))) hn
      omega
    obtain ⟨f, hf, _, _, q2, _⟩ := h1.small hsm
    refine ⟨f, ?_, by omega⟩
    rw [outFrags_cons, hf]
    rfl

/-- **C50, violated** Every run of parfu 0.5.1 on an archivable tree that succeeds where closing an
unset handle is harmless closes a handle that was never opened, on rank 0: the MPI standard does not say
what such a run does. -/
theorem C50_unset_handle (L : LegEnv) (Q : QSort Frag) (nul top : Bytes) (root : FNode) (hp : Platform L nul)
    (ha : LegArchivable L.env L.fs top root) (seen : Option FNode) (hseen : DirOrLink seen) (n : Nat) (hn : 0 < n)
    (front : List WriteReq) (wss : List (List WriteReq))
    (h : legacyMain L Q nul top seen root n = .ok (some (front, wss))) :
    legacyMain (strictly L) Q nul top seen root n = .error .ub := by
  obtain ⟨es, ms, h1, h3, h4, h5, h8, h9, h6, h7⟩ := main_run hp ha Q
  rw [h1 seen ((topAllowed_iff seen).2 hseen)] at h ⊢
  -- the first entry is a directory
  obtain ⟨e0, er, hes, hz⟩ : ∃ e0 er, es = e0 :: er ∧ e0.size ≤ 0 := by
    have hroot : Visible root [] root := ⟨.self _, by simp [NoHidden]⟩
    obtain ⟨e, he, harc⟩ := h8 [] root hroot (by
      have := ha.isDir
      cases root <;> simp [IsDir, describe] at this ⊢)
    have hsz : e.size = -3 := by
      obtain ⟨p, m, hv, _, ha2, _, hmk, _⟩ := h7 e he
      have hpe : p = [] := by
        by_contra hne
        refine pathText_ne_nil (fun x hx => (at_nameOk hv.1 ha.treeOk x hx).1) hne ?_
        rw [← ha2, harc]; rfl
      subst hpe
      have := at_functional ha.treeOk hv.1 (.self root)
      subst this
      rw [hmk.1]
      have := ha.isDir
      cases m <;> simp [IsDir, markOf] at this ⊢
    cases es with
    | nil => simp at he
    | cons e0 er =>
      refine ⟨e0, er, rfl, ?_⟩
      rcases List.mem_cons.1 he with rfl | he
      · omega
      · have := (List.pairwise_cons.1 h9).1 e he
        omega
  have hmin := h3.accMin
  unfold legacyRun at h ⊢
  have hfs : ∀ cat, frontWrites (strictly L) (512 : Int).toNat legBucket.toNat cat = frontWrites L (512 : Int).toNat legBucket.toNat cat :=
    fun _ => rfl
  obtain ⟨cat, hcat, h⟩ := bindRO_eq h
  rw [hcat, bindRO_some, hfs]
  split at h
  · cases h
  rename_i fw hfw
  obtain ⟨⟨gs, r⟩, hsp, h⟩ := bindRO_eq h
  simp only [] at h
  obtain ⟨text, htx, h⟩ := bindRO_eq h
  obtain ⟨call, hcl, h⟩ := bindRO_eq h
  split at h
  · cases h
  rename_i hck
  obtain ⟨wss', hall, _⟩ := bindRO_eq h
  simp only [hfw]
  rw [hsp, bindRO_some]
  simp only []
  rw [htx, bindRO_some, hcl, bindRO_some, if_neg hck]
  -- rank 0
  have hrt := run_text h3 blocking_free hp.nul hsp htx hcl (by simpa using hck)
  have hlay := run_layout h3 blocking_free hp.nul hn hsp htx hcl (by simpa using hck) hall
  have hready := run_ready h3 nul hlay hcl (by simpa using hck) _ (Or.inl rfl)
  obtain ⟨_, hK⟩ := hready.numbered
  obtain ⟨hhead, _⟩ := C37_partition _ hready.tight.inOrder call hcl
  have hc0 : call[0]? = some 0 := by rw [← List.head?_eq_getElem?]; exact hhead
  subst hes
  obtain ⟨f0, hf0, hf0z⟩ := first_fragment (by omega) h3.accDvd h3.hdr hsp hz
  have hf0' : ((outFrags gs).map (named nul))[0]? = some (named nul f0) := by rw [List.getElem?_map, hf0]; rfl
  obtain ⟨k, rfl⟩ : ∃ k, n = k + 1 := ⟨n - 1, by omega⟩
  rw [List.range_succ_eq_map] at hall ⊢
  simp only [allRanks] at hall ⊢
  obtain ⟨ws0, hr0, _⟩ := bindRO_eq hall
  have herr : rankPart (strictly L) 512 legBucket (dataOffset legBucket.toNat (512 + cat.length)) text call (k + 1) 0 = .error .ub := by
    unfold rankPart at hr0 ⊢
    rw [hrt, bindRO_some] at hr0 ⊢
    simp only [] at hr0 ⊢
    split at hr0
    · cases hr0
    rename_i hck2
    rw [if_neg hck2]
    unfold allBuckets at hr0 ⊢
    rw [rankBuckets, dif_pos ⟨hK, by omega⟩] at hr0 ⊢
    simp only [bucketsLoop] at hr0 ⊢
    obtain ⟨x, hx, _⟩ := bindRO_eq hr0
    rw [oneBucket_strict hc0 hf0' hf0z hx]
    rfl
  rw [herr]
  rfl

/-- Such runs exist. -/
example (Q : QSort Frag) : ∃ front wss, legacyMain legEnv Q glibcNull [100] (some legDemo) legDemo 5 = .ok (some (front, wss)) := by
  obtain ⟨front, wss, h, _⟩ := leg_demo_run Q
  exact ⟨front, wss, h⟩

end Parfu.Props
