/-
Property theorems C34, C35, C37 and C44: parfu 0.5.1's layout.
-/
import Verif.LegacySplitLemmas
import Verif.PropsLegacyList
import Verif.TarLemmas
set_option autoImplicit false

namespace Parfu.Props
open Parfu SplitSpec

theorem outFrags_cons (g : Frag × List Frag) (gs : List (Frag × List Frag)) :
    outFrags (g :: gs) = g.2 ++ outFrags gs := rfl

theorem chain_append {α : Type} {R : α → α → Prop} {a l : α} {xs ys : List α} (h : List.IsChain R (a :: xs))
    (hl : (a :: xs).getLast (by simp) = l) (h' : List.IsChain R (l :: ys)) : List.IsChain R (a :: (xs ++ ys)) := by
  induction xs generalizing a with
  | nil => simp at hl; subst hl; exact h'
  | cons x xs ih =>
    rw [List.isChain_cons_cons] at h
    rw [List.cons_append, List.isChain_cons_cons]
    exact ⟨h.1, ih h.2 (by simpa using hl)⟩

theorem chain_range {R : Int → Int → Prop} {a b : Int} {m : Nat} (hm : 0 < m) (h0 : R a b)
    (hs : ∀ x, R x (x + 1)) :
    List.IsChain R (a :: (List.range m).map (fun j : Nat => b + (j : Int))) ∧
    (a :: (List.range m).map (fun j : Nat => b + (j : Int))).getLast (by simp) = b + m - 1 := by
  obtain ⟨n, rfl⟩ : ∃ n, m = n + 1 := ⟨m - 1, by omega⟩
  induction n with
  | zero => simp [h0]
  | succ n ih =>
    obtain ⟨i1, i2⟩ := ih (by omega)
    rw [List.range_succ (n := n + 1), List.map_append]
    constructor
    · refine chain_append i1 i2 ?_
      simp
      have := hs (b + (n + 1 : Nat) - 1)
      simpa using this
    · simp; ring

/-- What the layout loop establishes. -/
theorem loop_good {bl acc : Int} (hbl : 0 < bl) (hacc : 0 < acc) (hd : bl ∣ acc) {pad : Bytes} (S : Prop)
    (es : List Frag) : ∀ (p r : LPos) (gs : List (Frag × List Frag)) (lb : Int),
    (S → ∀ e ∈ es.dropLast, ¬ Small bl acc e → LeavesRoom bl acc e) →
    SmallFirst bl acc es → ((∀ e ∈ es, ¬ Small bl acc e) ∨ SmallPhase bl acc p) →
    lb * acc < p.whole → (S → es ≠ [] → p.whole ≤ (lb + 1) * acc) →
    splitLoop bl acc pad p es = .ok (some (gs, r)) →
    List.Forall₂ (fun g e => SameFile g.1 e ∧ g.1.size = e.size) gs es ∧
    (∀ g ∈ gs, 0 < g.1.hdr ∧ Good bl acc g.1 g.2 ∧ p.whole ≤ g.1.locA ∧ (0 ≤ p.whole → ∀ f ∈ g.2, 0 ≤ f.bucket) ∧
      (¬ Small bl acc g.1 → 0 ≤ g.1.size → g.1.hdr < acc →
        Covers 0 g.2 (if room bl g.1 % acc = 0 then room bl g.1 - g.1.hdr else g.1.size))) ∧
    gs.Pairwise (fun g g' => g.1.locA + room bl g.1 ≤ g'.1.locA) ∧
    List.IsChain (fun a b => a ≤ b ∧ (S → b ≤ a + 1)) (lb :: (outFrags gs).map Frag.bucket) := by
  induction es with
  | nil =>
    intro p r gs lb _ _ _ _ _ h
    simp [splitLoop] at h
    obtain ⟨rfl, rfl⟩ := h
    simp
  | cons e es ih =>
    intro p r gs lb hS hsf hph hlb hlb' h
    unfold splitLoop at h
    split at h
    · cases h
    · cases h
    rename_i g q hpl
    split at h
    · cases h
    · cases h
    rename_i gs' r' hlo
    simp at h
    obtain ⟨rfl, rfl⟩ := h
    obtain ⟨hsf1, hsf2⟩ := List.pairwise_cons.1 hsf
    have hlb' : S → p.whole ≤ (lb + 1) * acc := fun s => hlb' s (by simp)
    have hsub : S → ∀ x ∈ es.dropLast, ¬ Small bl acc x → LeavesRoom bl acc x := fun s x hx => hS s x (by
      cases es with
      | nil => simp at hx
      | cons y ys => rw [List.dropLast_cons_of_ne_nil (by simp)]; exact List.mem_cons_of_mem _ hx)
    by_cases hs : Small bl acc e
    · have hph' : SmallPhase bl acc p := by
        rcases hph with hph | hph
        · exact absurd hs (hph e (by simp))
        · exact hph
      obtain ⟨a0, a1, a2, a3, a4, a5, a6, a7⟩ := place_small hbl hacc hd hph' hs hpl
      obtain ⟨p1, p2, p3, p4, p5⟩ := hph'
      have hr1 : room bl g.1 = room bl e := room_congr a1.2.2.2.2 a2
      obtain ⟨f, hf, hf1, hf2, hf3, hf4, hf5⟩ := a5.small (by unfold Small; rw [hr1]; exact hs)
      obtain ⟨b1, b2, b3⟩ := a7 f (by rw [hf]; simp)
      obtain ⟨c1, c2, c3, c4⟩ := ih q r' gs' f.bucket hsub hsf2 (Or.inr a6) b2
        (fun _ _ => b3) hlo
      have hge : lb ≤ f.bucket ∧ (S → f.bucket ≤ lb + 1) := by
        have t1 : ∀ x y : Int, x * acc < y * acc → x < y := fun x y h => Int.lt_of_mul_lt_mul_right h (by omega)
        have e1 : (p.bucket + 1) * acc = p.bucket * acc + acc := by ring
        have k1 : p.rank = 0 → lb < p.bucket := fun h => t1 _ _ (by omega)
        have k2 : lb < p.bucket + 1 := t1 _ _ (by omega)
        have e2 : (lb + 1 + 1) * acc = (lb + 1) * acc + acc := by ring
        have k3 : S → 0 < p.rank → p.bucket < lb + 1 := fun s h => t1 _ _ (by have := hlb' s; omega)
        have k4 : S → p.bucket < lb + 1 + 1 := fun s => t1 _ _ (by have := hlb' s; omega)
        rw [b1]
        split
        · exact ⟨by omega, fun s => by have := k3 s (by omega); omega⟩
        · split
          · exact ⟨by omega, fun s => by have := k3 s (by omega); omega⟩
          · exact ⟨by have := k1 (by omega); omega, fun s => by have := k4 s; omega⟩
      refine ⟨.cons ⟨a1, a2⟩ c1, ?_, ?_, ?_⟩
      · intro g' hg'
        rcases List.mem_cons.1 hg' with rfl | hg'
        · exact ⟨by rw [a1.2.2.2.2]; exact a0, a5, a3, fun _ f' hf' => by
              rw [(a7 f' hf').1]; split <;> (try split) <;> omega, fun hn => absurd (by unfold Small; rw [hr1]; exact hs) hn⟩
        · obtain ⟨d1, d2, d3, d5, d4⟩ := c2 g' hg'
          have := room_ge hbl e
          unfold dataLen at this
          exact ⟨d1, d2, by omega, fun h0 => d5 (by omega), d4⟩
      · refine List.pairwise_cons.2 ⟨?_, c3⟩
        intro g' hg'
        obtain ⟨_, _, d3, _⟩ := c2 g' hg'
        rw [hr1]; omega
      · rw [outFrags_cons, hf]
        simp only [List.cons_append, List.nil_append, List.map_cons, List.isChain_cons_cons]
        exact ⟨hge, c4⟩
    · obtain ⟨a0, a1, a2, a3, a3', a4, a5, ⟨b, m, a6, a7, a8, a9, a10⟩, a11⟩ := place_large hbl hacc hd hs hpl
      have hr1 : room bl g.1 = room bl e := room_congr a1.2.2.2.2 a2
      have hall : ∀ x ∈ es, ¬ Small bl acc x := fun x hx hsx => hs (hsf1 x hx hsx)
      obtain ⟨c1, c2, c3, c4⟩ := ih q r' gs' (b + m - 1) hsub hsf2 (Or.inl hall) a9
        (fun s hne => by
          have := a10.2 (hS s e (by rw [List.dropLast_cons_of_ne_nil hne]; simp) hs)
          rw [show b + (m:Int) - 1 + 1 = b + m by ring]; exact this) hlo
      have hge : lb ≤ b ∧ (S → b ≤ lb + 1) := by
        have t1 : ∀ x y : Int, x * acc < y * acc → x < y := fun x y h => Int.lt_of_mul_lt_mul_right h (by omega)
        have k1 : lb < b := t1 _ _ (by omega)
        refine ⟨by omega, fun s => ?_⟩
        have e2 : (lb + 1 + 1) * acc = (lb + 1) * acc + acc := by ring
        have : b < lb + 1 + 1 := t1 _ _ (by have := hlb' s; omega)
        omega
      refine ⟨.cons ⟨a1, a2⟩ c1, ?_, ?_, ?_⟩
      · intro g' hg'
        rcases List.mem_cons.1 hg' with rfl | hg'
        · refine ⟨by rw [a1.2.2.2.2]; exact a0, a5, a3, fun h0 f' hf' => ?_, fun _ h0 h1 => ?_⟩
          · have hm := List.mem_map_of_mem (f := Frag.bucket) hf'
            rw [a8, List.mem_map] at hm
            obtain ⟨j, _, hj⟩ := hm
            have : 0 * acc < (b + 1) * acc := by rw [Int.add_mul]; omega
            have := Int.lt_of_mul_lt_mul_right this (by omega)
            omega
          rw [hr1, a1.2.2.2.2, a2]
          exact a11 (by omega) (by rw [← a1.2.2.2.2]; exact h1)
        · obtain ⟨d1, d2, d3, d5, d4⟩ := c2 g' hg'
          have := room_ge hbl e
          unfold dataLen at this
          exact ⟨d1, d2, by omega, fun h0 => d5 (by omega), d4⟩
      · refine List.pairwise_cons.2 ⟨?_, c3⟩
        intro g' hg'
        obtain ⟨_, _, d3, _⟩ := c2 g' hg'
        rw [hr1]; omega
      · rw [outFrags_cons, List.map_append, a8]
        obtain ⟨u1, u2⟩ := chain_range (R := fun a b => a ≤ b ∧ (S → b ≤ a + 1)) (a := lb) (b := b) (m := m) a7 hge
          (fun x => ⟨by omega, fun _ => by omega⟩)
        exact chain_append u1 u2 c4

theorem split_inv {bl acc : Int} {pad : Bytes} {es : List Frag} {x : List (Frag × List Frag) × LPos}
    (h : splitList bl acc pad es = .ok (some x)) : splitLoop bl acc pad ⟨0, 0, 0⟩ es = .ok (some x) := by
  unfold splitList at h
  split at h
  · cases h
  · cases h
  · exact h

theorem split_good {bl acc : Int} (hbl : 0 < bl) (hacc : 0 < acc) (hd : bl ∣ acc) {pad : Bytes} (S : Prop)
    {es : List Frag} {gs : List (Frag × List Frag)} {r : LPos} (hS : S → ∀ e ∈ es.dropLast, ¬ Small bl acc e → LeavesRoom bl acc e)
    (hsf : SmallFirst bl acc es) (h : splitList bl acc pad es = .ok (some (gs, r))) :
    List.Forall₂ (fun g e => SameFile g.1 e ∧ g.1.size = e.size) gs es ∧
    (∀ g ∈ gs, 0 < g.1.hdr ∧ Good bl acc g.1 g.2 ∧ 0 ≤ g.1.locA ∧ ((0:Int) ≤ 0 → ∀ f ∈ g.2, 0 ≤ f.bucket) ∧
      (¬ Small bl acc g.1 → 0 ≤ g.1.size → g.1.hdr < acc →
        Covers 0 g.2 (if room bl g.1 % acc = 0 then room bl g.1 - g.1.hdr else g.1.size))) ∧
    gs.Pairwise (fun g g' => g.1.locA + room bl g.1 ≤ g'.1.locA) ∧
    List.IsChain (fun a b => a ≤ b ∧ (S → b ≤ a + 1)) (-1 :: (outFrags gs).map Frag.bucket) :=
  loop_good hbl hacc hd S es ⟨0, 0, 0⟩ r gs (-1) hS hsf
    (Or.inr ⟨by simp, by simp, by simp; omega, by simp, by simp⟩) (by simp; omega) (fun _ _ => by simp) (split_inv h)

/-- **C34 (partial)** In the layout of a list in which large entries come last: the entries are those
of the input, in order; their slots (header and data rounded up to whole blocks, starting at the
entry's location) do not overlap; a small entry lies, header, data and padding, inside one bucket and
is one fragment; a large one starts a bucket and each of its fragments lies in its own bucket.
Missing: lists in which a small entry follows a large one, which the sort does not exclude; see
`C34_overruns_bucket`. -/
theorem C34_slots_partial (bl acc : Int) (hbl : 0 < bl) (hacc : 0 < acc) (hd : bl ∣ acc) (pad : Bytes)
    (es : List Frag) (hsf : SmallFirst bl acc es) (gs : List (Frag × List Frag)) (r : LPos)
    (h : splitList bl acc pad es = .ok (some (gs, r))) :
    List.Forall₂ (fun g e => SameFile g.1 e ∧ g.1.size = e.size) gs es ∧
    gs.Pairwise (fun g g' => g.1.locA + room bl g.1 ≤ g'.1.locA) ∧
    ∀ g ∈ gs, 0 ≤ g.1.locA ∧ Good bl acc g.1 g.2 := by
  obtain ⟨h1, h2, h3, _⟩ := split_good hbl hacc hd False (fun h => absurd h id) hsf h
  exact ⟨h1, h3, fun g hg => ⟨(h2 g hg).2.2.1, (h2 g hg).2.1⟩⟩

/-- **C35 (partial)** The fragments of a large file are consecutive non-empty pieces that cover it
exactly once, up to its end - unless header and data together fill a whole number of buckets when
rounded up to blocks; then the last piece ends with the last bucket, which may be beyond the end of
the file (`C35_beyond_the_end`). -/
theorem C35_fragments_partial (bl acc : Int) (hbl : 0 < bl) (hacc : 0 < acc) (hd : bl ∣ acc) (pad : Bytes)
    (es : List Frag) (hsf : SmallFirst bl acc es) (gs : List (Frag × List Frag)) (r : LPos)
    (h : splitList bl acc pad es = .ok (some (gs, r))) :
    ∀ g ∈ gs, ¬ Small bl acc g.1 → 0 ≤ g.1.size → g.1.hdr < acc →
      (room bl g.1 % acc ≠ 0 → Covers 0 g.2 g.1.size) ∧
      (room bl g.1 % acc = 0 → Covers 0 g.2 (room bl g.1 - g.1.hdr) ∧ g.1.size ≤ room bl g.1 - g.1.hdr ∧
        room bl g.1 - g.1.hdr < g.1.size + bl) := by
  obtain ⟨_, h2, _, _⟩ := split_good hbl hacc hd False (fun h => absurd h id) hsf h
  intro g hg hs h0 h1
  have hc := (h2 g hg).2.2.2.2 hs h0 h1
  refine ⟨fun hx => by rwa [if_neg hx] at hc, fun hx => ?_⟩
  rw [if_pos hx] at hc
  have := room_ge hbl g.1
  unfold dataLen at this
  exact ⟨hc, by omega, by omega⟩

theorem chain_bounds {S : Prop} {a : Int} {xs : List Int}
    (h : List.IsChain (fun a b : Int => a ≤ b ∧ (S → b ≤ a + 1)) (a :: xs)) :
    xs.Pairwise (· ≤ ·) ∧ (∀ x ∈ xs, a ≤ x) ∧ (∀ x ∈ xs.head?, S → x ≤ a + 1) ∧
    (S → ∀ i (h : i + 1 < xs.length), xs[i+1] ≤ xs[i] + 1) := by
  induction xs generalizing a with
  | nil => simp
  | cons x xs ih =>
    rw [List.isChain_cons_cons] at h
    obtain ⟨h1, h2, h3, h4⟩ := ih h.2
    refine ⟨List.pairwise_cons.2 ⟨h2, h1⟩, ?_, ?_, ?_⟩
    · intro y hy
      rcases List.mem_cons.1 hy with rfl | hy
      · exact h.1.1
      · have := h2 y hy; have := h.1.1; omega
    · intro y hy s; simp at hy; subst hy; exact h.1.2 s
    · intro s i hi
      cases i with
      | zero =>
        cases xs with
        | nil => simp at hi
        | cons z zs => simp; exact h3 z (by simp) s
      | succ i => simpa using h4 s i (by simpa using hi)

/-- **C34 / C37** The fragments come in order of their buckets (large entries last). -/
theorem C34_in_order_partial (bl acc : Int) (hbl : 0 < bl) (hacc : 0 < acc) (hd : bl ∣ acc) (pad : Bytes)
    (es : List Frag) (hsf : SmallFirst bl acc es) (gs : List (Frag × List Frag)) (r : LPos)
    (h : splitList bl acc pad es = .ok (some (gs, r))) : InOrder (outFrags gs) := by
  obtain ⟨_, _, _, h4⟩ := split_good hbl hacc hd False (fun h => absurd h id) hsf h
  obtain ⟨h5, _⟩ := chain_bounds h4
  intro i j hi hj hij
  rcases Nat.lt_or_eq_of_le hij with g | g
  · have := List.pairwise_iff_getElem.1 h5 i j (by simpa using hi) (by simpa using hj) g
    simpa using this
  · subst g; exact le_refl _

/-- **C37** If large entries come last and each but the last one leaves room for another header, the layout, the rank call list and the check every rank makes agree: the list's `k`-th
entry is the first fragment of bucket `k`. -/
theorem C37_check_passes_partial (bl acc : Int) (hbl : 0 < bl) (hacc : 0 < acc) (hd : bl ∣ acc) (pad : Bytes)
    (es : List Frag) (hsf : SmallFirst bl acc es) (hhd : ∀ e ∈ es.dropLast, ¬ Small bl acc e → LeavesRoom bl acc e)
    (gs : List (Frag × List Frag)) (r : LPos)
    (h : splitList bl acc pad es = .ok (some (gs, r))) :
    ∃ cs, rankCallList (outFrags gs) = .ok (some cs) ∧
      ∀ k (hk : k < cs.length), ∃ hc : cs[k] < (outFrags gs).length, (outFrags gs)[cs[k]].bucket = k := by
  have hord := C34_in_order_partial bl acc hbl hacc hd pad es hsf gs r h
  obtain ⟨g1, g2, _, h4⟩ := split_good hbl hacc hd True (fun _ => hhd) hsf h
  obtain ⟨_, h6, h7, h8⟩ := chain_bounds h4
  have hgap : NoGap (outFrags gs) := by
    intro i hi
    have := h8 trivial i (by simpa using hi)
    simpa using this
  have hne : es ≠ [] := by
    intro he; subst he
    simp [splitList, createList] at h
  have hfr : ∀ g ∈ gs, g.2 ≠ [] := by
    intro g hg
    obtain ⟨_, hgood, _⟩ := g2 g hg
    by_cases hs : Small bl acc g.1
    · obtain ⟨f, hf, _⟩ := hgood.small hs
      rw [hf]; simp
    · exact (hgood.large hs).2.1
  cases hg : gs with
  | nil => rw [hg] at g1; cases g1; exact absurd rfl hne
  | cons g gt =>
    rw [← hg]
    obtain ⟨f, ft, hf⟩ : ∃ f ft, outFrags gs = f :: ft := by
      have := hfr g (by rw [hg]; simp)
      cases hg2 : g.2 with
      | nil => exact absurd hg2 this
      | cons a as => exact ⟨a, as ++ outFrags gt, by rw [hg, outFrags_cons, hg2]; rfl⟩
    have hb0 : f.bucket = 0 := by
      have u1 := h7 f.bucket (by rw [hf]; simp) trivial
      have hgood := (g2 g (by rw [hg]; simp)).2.2.2.1 (le_refl _)
      have hfg : f ∈ g.2 := by
        have := hfr g (by rw [hg]; simp)
        rw [hg, outFrags_cons] at hf
        cases hg2 : g.2 with
        | nil => exact absurd hg2 this
        | cons a as => rw [hg2] at hf; simp at hf; rw [hf.1]; simp
      have := hgood f hfg
      omega
    refine ⟨rankCallLoop 0 (-1) (outFrags gs), ?_, ?_⟩
    · rw [hf]; simp only [rankCallList]; rw [if_neg (by simp [hb0])]
    · exact C37_numbering _ hord hgap _ (by rw [hf]; simp only [rankCallList]; rw [if_neg (by simp [hb0])])

/-! ### Violations, with the sizes of the real program (block 512, bucket 4194304) -/

/-- Block and bucket size of parfu_primary.h:53, 60. -/
def realBl : Int := 512
def realAcc : Int := 4194304

/-- `PARFU_BLOCKING_FILE_NAME`, ".parfu_space". -/
def padFile : Bytes := [46, 112, 97, 114, 102, 117, 95, 115, 112, 97, 99, 101]

/-- An entry for examples, with a given header size. -/
def exEnt (c : UInt8) (kind : LKind) (size hdr : Int) : Frag :=
  ⟨[c], [c], kind, [], size, hdr, -1, -1, -1, none, -1, -1, -1, -1, -1⟩

/-- A directory, a file with a long name and a slightly bigger one with a short name: in the order
the sort gives them, but the second is large and the third is small. -/
def badOrder : List Frag :=
  [exEnt 97 .dir (-3) 512, exEnt 98 .reg (4194304 - 1500) 1536, exEnt 99 .reg (4194304 - 1100) 512]

theorem badOrder_sorted : qsortEntries insQSort badOrder = badOrder := by decide

/-- **C34, violated** In the layout of a sorted list of three entries a fragment lies partly outside
its bucket (the writer would put it past the end of its buffer). -/
theorem C34_overruns_bucket : ∃ es gs r, qsortEntries insQSort es = es ∧
    splitList realBl realAcc padFile es = .ok (some (gs, r)) ∧
    ∃ f ∈ outFrags gs, ¬ InBucket realAcc f := by
  have h : ∃ x, splitList realBl realAcc padFile badOrder = .ok (some x) ∧
      ∃ f ∈ outFrags x.1, ¬ (f.bucket * realAcc ≤ f.locA ∧ f.locA + f.size ≤ (f.bucket + 1) * realAcc) := by
    refine ⟨_, rfl, ?_⟩
    decide +kernel
  obtain ⟨⟨gs, r⟩, h1, f, h2, h3⟩ := h
  exact ⟨badOrder, gs, r, badOrder_sorted, h1, f, h2, h3⟩

theorem covers_last {a z : Int} {fs : List Frag} (h : Covers a fs z) (hne : fs ≠ []) :
    ∃ f ∈ fs, f.locO + f.size = z := by
  induction fs generalizing a with
  | nil => exact absurd rfl hne
  | cons f fs ih =>
    obtain ⟨h1, _, h3⟩ := h
    cases fs with
    | nil => exact ⟨f, by simp, by rw [h1]; exact h3⟩
    | cons g gs =>
      obtain ⟨x, hx, he⟩ := ih h3 (by simp)
      exact ⟨x, by simp [hx], he⟩

/-- **C35, violated** Every large file that fills a whole number of buckets when rounded up to blocks,
but is not itself a whole number of blocks, gets a last fragment that ends beyond the end of the
file. -/
theorem C35_beyond_the_end (bl acc : Int) (hbl : 0 < bl) (hacc : 0 < acc) (hd : bl ∣ acc) (pad : Bytes)
    (es : List Frag) (hsf : SmallFirst bl acc es) (gs : List (Frag × List Frag)) (r : LPos)
    (h : splitList bl acc pad es = .ok (some (gs, r))) :
    ∀ g ∈ gs, ¬ Small bl acc g.1 → 0 ≤ g.1.size → g.1.hdr < acc → room bl g.1 % acc = 0 →
      ¬ bl ∣ g.1.hdr + g.1.size → ∃ f ∈ g.2, g.1.size < f.locO + f.size := by
  intro g hg hs h0 h1 h2 h3
  obtain ⟨hc, hle, _⟩ := (C35_fragments_partial bl acc hbl hacc hd pad es hsf gs r h g hg hs h0 h1).2 h2
  obtain ⟨_, _, hgood⟩ := C34_slots_partial bl acc hbl hacc hd pad es hsf gs r h
  obtain ⟨f, hf, he⟩ := covers_last hc ((hgood g hg).2.large hs).2.1
  refine ⟨f, hf, ?_⟩
  rw [he]
  rcases lt_or_eq_of_le hle with hl | hl
  · exact hl
  · exfalso; apply h3
    have : g.1.hdr + g.1.size = room bl g.1 := by omega
    rw [this]; unfold room
    exact ⟨_, Int.mul_comm _ _⟩

/-- Two files of the same size with long names, each filling two buckets but for one block. -/
def gapOrder : List Frag :=
  [exEnt 97 .dir (-3) 512, exEnt 98 .reg (2 * 4194304 - 2048) 1536, exEnt 99 .reg (2 * 4194304 - 2048) 1536]

/-- **C37, violated** The layout of a sorted list can skip a bucket number; the check made before
anything is written then fails: entry 3 of the rank call list is the first fragment of bucket 4.
(parfu exits, no archive.) -/
theorem C37_skips_a_bucket : ∃ es gs r cs, qsortEntries insQSort es = es ∧ SmallFirst realBl realAcc es ∧
    splitList realBl realAcc padFile es = .ok (some (gs, r)) ∧ rankCallList (outFrags gs) = .ok (some cs) ∧
    ∃ k, ∃ hk : k < cs.length, ∃ hc : cs[k] < (outFrags gs).length, (outFrags gs)[cs[k]].bucket ≠ k := by
  have h : ∃ x cs, splitList realBl realAcc padFile gapOrder = .ok (some x) ∧
      rankCallList (outFrags x.1) = .ok (some cs) ∧
      ∃ k, ∃ hk : k < cs.length, ∃ hc : cs[k] < (outFrags x.1).length, (outFrags x.1)[cs[k]].bucket ≠ k := by
    refine ⟨_, _, rfl, rfl, 3, ?_, ?_, ?_⟩ <;> decide +kernel
  obtain ⟨⟨gs, r⟩, cs, h1, h2, h3⟩ := h
  refine ⟨gapOrder, gs, r, cs, by decide, ?_, h1, h2, h3⟩
  unfold SmallFirst Small
  decide +kernel

/-! ### Real lists: sorted, with headers of one size -/

/-- A sorted list whose entries have headers of one size (names of at most 100 bytes, files below
8 GiB) has its large entries last, so the theorems above apply to it. -/
theorem C34_sorted_small_first (Q : QSort Frag) (l : List Frag) (bl acc : Int) (hbl : 0 < bl) (hd : Int)
    (h : ∀ f ∈ l, f.hdr = hd) : SmallFirst bl acc (qsortEntries Q l) := by
  have hp := Q.perm cmpFrag l C33_total
  refine List.Pairwise.imp_of_mem ?_ (Q.sorted cmpFrag l C33_total)
  intro a b ha hb hab hs
  have h1 := h a (hp.mem_iff.1 ha)
  have h2 := h b (hp.mem_iff.1 hb)
  have hle : a.size ≤ b.size := by
    unfold cmpFrag at hab
    split at hab <;> omega
  unfold Small at hs ⊢
  refine le_trans ?_ hs
  unfold room dataLen
  refine Int.mul_le_mul_of_nonneg_right (Int.ediv_le_ediv hbl ?_) (by omega)
  rw [h1, h2]
  have : max a.size 0 ≤ max b.size 0 := max_le_max hle (le_refl _)
  omega

/-! ### C44: does the layout succeed -/

theorem hdr512 {pad t : Bytes} {s : Int} (hp : pad.length ≤ 100) (ht : t.length ≤ 100)
    (hs : s ≤ 8589934591) : computeHdrSize pad t s = .ok 512 := by
  unfold computeHdrSize
  rw [hdrSize_eq]
  have : ¬ (maxFileSize < s) := by unfold maxFileSize; omega
  simp [paxPairs, recTexts, paxHdrSz, blk, Nat.not_lt.2 hp, Nat.not_lt.2 ht, this]

theorem pad_ok {bl acc : Int} (hbl : 512 ≤ bl) {pad : Bytes} (hp : pad.length ≤ 100) {e : Frag}
    (ht : e.target.length ≤ 100) {loc space : Int} (hs : space ≤ acc) (ha : acc ≤ 8589934591) :
    ∃ e', padBefore bl pad e loc space = .ok (some e') := by
  unfold padBefore
  split
  · rw [hdr512 hp ht (by omega)]
    simp only []
    rw [if_neg (by simp; omega), hdr512 hp ht (by simp; omega)]
    exact ⟨_, rfl⟩
  · exact ⟨_, rfl⟩

theorem place_ok {bl acc : Int} (hbl : 512 ≤ bl) (hacc : 0 < acc) (ha : acc ≤ 8589934591) {pad : Bytes}
    (hp : pad.length ≤ 100) {p : LPos} {e : Frag} (h1 : 0 < e.hdr) (ht : e.target.length ≤ 100)
    (hi : p.bucket * acc ≤ p.whole) :
    ∃ g q, placeEntry bl acc pad p e = .ok (some (g, q)) ∧ q.bucket * acc ≤ q.whole := by
  have hbs : 0 ≤ blockedSum bl e := by
    rw [blockedSum_eq (by omega)]
    have := room_ge (bl := bl) (by omega) e
    unfold dataLen at this; omega
  unfold placeEntry
  rw [if_neg (by omega)]
  simp only []
  split
  · split
    · refine ⟨_, _, rfl, ?_⟩
      split
      · rename_i hb
        simp only []; rw [Int.add_mul]; omega
      · simp only []; omega
    · obtain ⟨e', he⟩ := pad_ok (acc := acc) hbl hp (e := { e with locA := (p.bucket + 1) * acc }) ht
        (loc := p.whole) (space := (p.bucket + 1) * acc - p.whole) (by rw [Int.add_mul]; omega) ha
      rw [he]
      refine ⟨_, _, rfl, ?_⟩
      split
      · simp only []; rw [Int.add_mul (p.bucket + 1)]; omega
      · simp only []; omega
  · rename_i hsm
    have hk : 0 ≤ blockedSum bl e / acc := Int.ediv_nonneg hbs (by omega)
    have hk' : ((blockedSum bl e / acc).toNat : Int) = blockedSum bl e / acc := Int.toNat_of_nonneg hk
    have hdm := Int.mul_ediv_add_emod (blockedSum bl e) acc
    have hm0 := Int.emod_nonneg (blockedSum bl e) (b := acc) (by omega)
    have hw := Int.mul_ediv_add_emod p.whole acc
    have hw0 := Int.emod_nonneg p.whole (b := acc) (by omega)
    obtain ⟨e', he⟩ := pad_ok (acc := acc) hbl hp
      (e := { e with locA := (if p.whole % acc ≠ 0 then p.whole / acc + 1 else p.whole / acc) * acc }) ht
      (loc := p.whole) (space := (if p.whole % acc ≠ 0 then p.whole / acc + 1 else p.whole / acc) * acc - p.whole)
      (by
        split
        · rw [Int.add_mul, Int.mul_comm (p.whole / acc)]; omega
        · rw [Int.mul_comm (p.whole / acc)]; omega) ha
    rw [he]
    simp only []
    split
    · refine ⟨_, _, rfl, ?_⟩
      simp only [hk']
      have : (blockedSum bl e / acc - 1) * acc = acc * (blockedSum bl e / acc) - acc := by ring
      rw [this]; omega
    · exact ⟨_, _, rfl, le_refl _⟩

/-- **C44 (partial)** The layout of a list of at least two entries with positive header sizes and link
targets of at most 100 bytes succeeds, whatever the order, the number and the sizes of the entries.
Missing: lists of one entry (undefined behaviour, `C44_one_entry`) and long link targets, with which
it may fail (`C44_long_target_fails`). -/
theorem C44_succeeds_partial (bl acc : Int) (hbl : 512 ≤ bl) (hacc : 0 < acc) (ha : acc ≤ 8589934591) (pad : Bytes)
    (hp : pad.length ≤ 100) (es : List Frag) (hn : 2 ≤ es.length)
    (h : ∀ e ∈ es, 0 < e.hdr ∧ e.target.length ≤ 100) :
    ∃ gs r, splitList bl acc pad es = .ok (some (gs, r)) := by
  have key : ∀ (es : List Frag) (p : LPos), (∀ e ∈ es, 0 < e.hdr ∧ e.target.length ≤ 100) →
      p.bucket * acc ≤ p.whole → ∃ x, splitLoop bl acc pad p es = .ok (some x) := by
    intro es
    induction es with
    | nil => intro p _ _; exact ⟨_, rfl⟩
    | cons e es ih =>
      intro p he hi
      obtain ⟨g, q, h1, h2⟩ := place_ok hbl hacc ha hp (he e (by simp)).1 (he e (by simp)).2 hi
      obtain ⟨x, h3⟩ := ih q (fun e' h' => he e' (by simp [h'])) h2
      unfold splitLoop
      rw [h1]; simp only []; rw [h3]
      exact ⟨_, rfl⟩
  obtain ⟨x, hx⟩ := key es ⟨0, 0, 0⟩ h (by simp)
  refine ⟨x.1, x.2, ?_⟩
  unfold splitList createList
  rw [if_neg (by omega), if_neg (by omega)]
  exact hx

/-- **C44, violated** The layout of a single entry (an empty directory as target) is undefined. -/
theorem C44_one_entry (bl acc : Int) (pad : Bytes) (e : Frag) : splitList bl acc pad [e] = .error .ub := rfl

theorem hdr_long {pad t : Bytes} {s : Int} (ht : 100 < t.length) :
    ∃ h, computeHdrSize pad t s = .ok h ∧ 1536 ≤ h := by
  unfold computeHdrSize
  rw [hdrSize_eq]
  refine ⟨_, rfl, ?_⟩
  have h0 : ∀ e : TarEntry, e.linkname = t → 0 < (recTexts (paxPairs e)).length := by
    intro e he
    have hr : 0 < (recText kwLinkpath t).length := by
      obtain ⟨n, _, _, _, h3, h4⟩ := recText_spec kwLinkpath t
      omega
    simp only [paxPairs, he, ht, if_true]
    split <;> split <;> simp [recTexts] <;> omega
  unfold paxHdrSz
  rw [if_pos (h0 _ rfl)]
  have := h0 _ (rfl : ({ offset := 0, stat := ⟨.reg, 0, 0, 0, s, 0⟩, filename := pad, linkname := t } : TarEntry).linkname = t)
  unfold roundToBlock blk at *
  omega

/-- A directory entry with a short name. -/
def ShortDir (e : Frag) : Prop := e.size = -3 ∧ e.hdr = 512

/-- **C44, violated** One bucket's worth of short-named directories less one block, then a symbolic
link with a target of more than 100 bytes: no layout (the padding header is given the size it would
have with that target, which does not fit), so no archive. -/
theorem C44_long_target_fails (acc : Int) (pad : Bytes) (ds : List Frag) (e : Frag) (es : List Frag)
    (hds : ∀ d ∈ ds, ShortDir d) (hacc : acc = (ds.length + 1) * 512) (hn : 1 ≤ ds.length)
    (he : 512 < e.hdr ∧ e.hdr ≤ acc) (hs : e.size < 0) (ht : 100 < e.target.length) :
    splitList 512 acc pad (ds ++ e :: es) = .ok none := by
  have hfail : ∀ p : LPos, p.bucket = 0 → p.whole = ds.length * 512 → p.rank = ds.length * 512 →
      placeEntry 512 acc pad p e = .ok none := by
    intro p h1 h2 h3
    have hsum : sumSize e = e.hdr := by unfold sumSize; rw [if_neg (by omega)]
    have hbs : 512 < blockedSum 512 e ∧ blockedSum 512 e ≤ acc := by
      unfold blockedSum; rw [hsum]
      split <;> omega
    obtain ⟨h, hh1, hh2⟩ := hdr_long (pad := pad) (s := (p.bucket + 1) * acc - p.whole) ht
    unfold placeEntry
    rw [if_neg (by omega)]
    simp only []
    rw [if_pos hbs.2, if_neg (by omega)]
    unfold padBefore
    simp only []
    rw [if_pos (by rw [h1, h2]; omega), hh1]
    simp only []
    rw [if_pos (by rw [h1, h2]; omega)]
  have key : ∀ (ls : List Frag) (k : Nat) (p : LPos), (∀ d ∈ ls, ShortDir d) → k + ls.length = ds.length →
      p.bucket = 0 → p.whole = k * 512 → p.rank = k * 512 →
      splitLoop 512 acc pad p (ls ++ e :: es) = .ok none := by
    intro ls
    induction ls with
    | nil =>
      intro k p _ hk h1 h2 h3
      simp at hk; subst hk
      simp only [List.nil_append, splitLoop]
      rw [hfail p h1 h2 h3]
    | cons d ls ih =>
      intro k p hl hk h1 h2 h3
      simp at hk
      obtain ⟨d1, d2⟩ := hl d (by simp)
      have hbs : blockedSum 512 d = 512 := by
        unfold blockedSum sumSize; rw [d1, d2]; decide
      have hpl : ∃ g, placeEntry 512 acc pad p d = .ok (some (g, ⟨p.whole + 512, p.rank + 512, p.bucket⟩)) := by
        unfold placeEntry
        rw [if_neg (by omega)]
        simp only [hbs]
        rw [if_pos (by omega), if_pos (by omega), if_neg (by omega)]
        exact ⟨_, rfl⟩
      obtain ⟨g, hg⟩ := hpl
      simp only [List.cons_append, splitLoop]
      rw [hg]
      simp only []
      rw [ih (k + 1) ⟨p.whole + 512, p.rank + 512, p.bucket⟩ (fun d' h' => hl d' (by simp [h'])) (by omega) h1
        (by simp; omega) (by simp; omega)]
  unfold splitList createList
  rw [if_neg (by simp; omega), if_neg (by simp; omega)]
  exact key ds 0 ⟨0, 0, 0⟩ hds (by simp) rfl rfl rfl

/-- The hypotheses hold with the real sizes: 8191 directories (the root and 8190 in it) and a link. -/
example : ∃ (ds : List Frag) (e : Frag), (∀ d ∈ ds, ShortDir d) ∧ realAcc = ((ds.length : Int) + 1) * 512 ∧ 1 ≤ ds.length ∧
    512 < e.hdr ∧ e.hdr ≤ realAcc ∧ e.size < 0 ∧ 100 < e.target.length := by
  refine ⟨List.replicate 8191 (exEnt 97 .dir (-3) 512),
    { exEnt 98 .lnk (-2) 1536 with target := List.replicate 101 97 }, ?_, ?_, ?_, ?_⟩
  · intro d hd; rw [List.eq_of_mem_replicate hd]; exact ⟨rfl, rfl⟩
  · rw [List.length_replicate]; rfl
  · rw [List.length_replicate]; omega
  · simp [exEnt, realAcc]

/-- An example for the theorems above: a directory, two small files and one of three buckets. -/
def exList : List Frag :=
  [exEnt 97 .dir (-3) 512, exEnt 98 .reg 100 512, exEnt 99 .reg 4193000 512, exEnt 100 .reg 10000000 512]

example : qsortEntries insQSort exList = exList ∧ SmallFirst realBl realAcc exList ∧
    (∀ e ∈ exList, 0 < e.hdr ∧ e.hdr ≤ realBl ∧ e.hdr < realAcc ∧ e.target.length ≤ 100) ∧
    (∃ e ∈ exList, Small realBl realAcc e) ∧ (∃ e ∈ exList, ¬ Small realBl realAcc e) ∧
    0 < realBl ∧ 0 < realAcc ∧ realBl ∣ realAcc ∧ padFile.length ≤ 100 := by
  refine ⟨by decide, by unfold SmallFirst Small; decide +kernel, by decide, ⟨exEnt 97 .dir (-3) 512, by decide, by unfold Small; decide +kernel⟩,
    ⟨exEnt 100 .reg 10000000 512, by decide, by unfold Small; decide +kernel⟩, by decide, by decide, by decide, by decide⟩

example : ∃ x, splitList realBl realAcc padFile exList = .ok (some x) ∧
    (outFrags x.1).map (fun f => (f.bucket, f.locA, f.size, f.locO)) =
      [(0, 512, -3, 0), (0, 1024, 100, 0), (1, 4194816, 4193000, 0), (2, 8389120, 4193792, 0),
       (3, 12582912, 4194304, 4193792), (4, 16777216, 1611904, 8388096)] :=
  ⟨_, rfl, by decide +kernel⟩

/-- A file that meets the hypotheses of `C35_beyond_the_end`. -/
example : ¬ Small realBl realAcc (exEnt 98 .reg (2 * 4194304 - 612) 512) ∧
    room realBl (exEnt 98 .reg (2 * 4194304 - 612) 512) % realAcc = 0 ∧
    ¬ realBl ∣ (exEnt 98 .reg (2 * 4194304 - 612) 512).hdr + (exEnt 98 .reg (2 * 4194304 - 612) 512).size := by
  unfold Small; decide +kernel

end Parfu.Props
