/-
Property theorems C52: what a run of parfu 0.5.1 leaves of an archive file that was there before.
-/
import Verif.PropsLegacyDemo
set_option autoImplicit false

namespace Parfu.Props
open Parfu ScanSpec LegacyScanSpec MoveSpec TarSpec LegacyRunSpec

/-- Bytes at or after the end of all writes stay as they were. -/
theorem foldl_after {E : Nat} : ∀ (ws : List WriteReq) (f : Bytes), (∀ w ∈ ws, w.1 + w.2.length ≤ E) → E ≤ f.length →
    ∀ i, E ≤ i → (ws.foldl writeAt f)[i]? = f[i]? := by
  intro ws
  induction ws with
  | nil => intros; rfl
  | cons w ws ih =>
    intro f h hf i hi
    have hw := h w (by simp)
    rw [List.foldl_cons, ih _ (fun v hv => h v (by simp [hv])) (by rw [writeAt_length]; omega) i hi, writeAt_get,
      if_neg (by omega)]
    split
    · rfl
    · rw [if_neg (by omega)]
      exact (List.getElem?_eq_none (by omega)).symm

/-- Where the archive written by a run ends: after the end mark. -/
def EndsAt (front : List WriteReq) (wss : List (List WriteReq)) (e : Nat) : Prop :=
  (∃ w ∈ front ++ wss.flatten, w.1 + w.2.length = e) ∧ ∀ w ∈ front ++ wss.flatten, w.1 + w.2.length ≤ e

/-- **C52, violated** A run into a file that exists already neither refuses nor cuts it off: everything
the file held after the end of the new archive is still there afterwards, and the file keeps its length.
(The start is overwritten, see C46.) -/
theorem C52_old_tail_stays (L : LegEnv) (Q : QSort Frag) (nul top : Bytes) (root : FNode) (hp : Platform L nul)
    (ha : LegArchivable L.env L.fs top root) (seen : Option FNode) (hseen : DirOrLink seen) (n : Nat) (hn : 0 < n)
    (front : List WriteReq) (wss : List (List WriteReq))
    (h : legacyMain L Q nul top seen root n = .ok (some (front, wss)))
    (ws : List WriteReq) (hws : ws.Perm (front ++ wss.flatten)) :
    ∃ e, EndsAt front wss e ∧ ∀ old : Bytes, e ≤ old.length →
      (ws.foldl writeAt old).length = old.length ∧ (ws.foldl writeAt old).drop e = old.drop e := by
  obtain ⟨_, _, z, _, hz, hle⟩ := C47_writes_apart L Q nul top root hp ha seen hseen n hn front wss h
  refine ⟨z + 1024, ⟨⟨_, List.mem_append_right _ hz, by rw [List.length_replicate]⟩, hle⟩, ?_⟩
  intro old ho
  have hle' : ∀ w ∈ ws, w.1 + w.2.length ≤ z + 1024 := fun w hw => hle w (hws.mem_iff.1 hw)
  constructor
  · have := foldl_writeAt_length ws old old.length (Nat.le_refl _) (fun w hw => by have := hle' w hw; omega)
    omega
  · apply List.ext_getElem?
    intro i
    rw [List.getElem?_drop, List.getElem?_drop]
    exact foldl_after ws old hle' ho _ (by omega)

/-- **C52 (partial)** What does hold: in a new (or shorter) file, the archive is all the file holds — it
ends with the 1024 zero bytes of the end mark. -/
theorem C52_new_file_partial (L : LegEnv) (Q : QSort Frag) (nul top : Bytes) (root : FNode) (hp : Platform L nul)
    (ha : LegArchivable L.env L.fs top root) (seen : Option FNode) (hseen : DirOrLink seen) (n : Nat) (hn : 0 < n)
    (front : List WriteReq) (wss : List (List WriteReq))
    (h : legacyMain L Q nul top seen root n = .ok (some (front, wss)))
    (ws : List WriteReq) (hws : ws.Perm (front ++ wss.flatten)) :
    ∃ e, EndsAt front wss e ∧ 1024 ≤ e ∧ ∀ old : Bytes, old.length ≤ e →
      (ws.foldl writeAt old).length = e ∧ (ws.foldl writeAt old).drop (e - 1024) = List.replicate 1024 0 := by
  obtain ⟨hap, _, z, _, hz, hle⟩ := C47_writes_apart L Q nul top root hp ha seen hseen n hn front wss h
  refine ⟨z + 1024, ⟨⟨_, List.mem_append_right _ hz, by rw [List.length_replicate]⟩, hle⟩, by omega, ?_⟩
  intro old ho
  have hle' : ∀ w ∈ ws, w.1 + w.2.length ≤ z + 1024 := fun w hw => hle w (hws.mem_iff.1 hw)
  have hzw := hws.mem_iff.2 (List.mem_append_right front hz)
  have h1 := foldl_writeAt_length ws old (z + 1024) ho hle'
  have h2 := h1.2.2 _ hzw
  simp only [List.length_replicate] at h2
  have hlen : (ws.foldl writeAt old).length = z + 1024 := by omega
  refine ⟨hlen, ?_⟩
  have hap' : ws.Pairwise (fun a b => Apart a.1 a.2.length b.1 b.2.length) :=
    (hws.pairwise_iff (fun {_ _} => WApart.symm)).2 hap
  have h3 := (foldl_writeAt_holds ws old hap').1 _ hzw
  unfold Holds at h3
  simp only [List.length_replicate] at h3
  rw [show z + 1024 - 1024 = z by omega, ← h3, List.take_of_length_le]
  rw [List.length_drop, hlen]
  omega

/-- The example tree meets the hypotheses: an old file that was one byte longer keeps its last byte. -/
example (Q : QSort Frag) : ∃ front wss, legacyMain legEnv Q glibcNull [100] (some legDemo) legDemo 5 = .ok (some (front, wss)) ∧
    ∃ e, EndsAt front wss e ∧ ((front ++ wss.flatten).foldl writeAt (List.replicate (e + 1) 77)).drop e = [77] := by
  obtain ⟨front, wss, h, _⟩ := leg_demo_run Q
  obtain ⟨e, h1, h2⟩ := C52_old_tail_stays legEnv Q glibcNull [100] legDemo leg_platform leg_archivable
    (some legDemo) trivial 5 (by omega) front wss h _ (List.Perm.refl _)
  refine ⟨front, wss, h, e, h1, ?_⟩
  rw [(h2 (List.replicate (e + 1) 77) (by simp)).2]
  simp [List.drop_replicate]

end Parfu.Props
