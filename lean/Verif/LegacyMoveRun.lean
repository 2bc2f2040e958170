/-
Lemmas: what all ranks of parfu 0.5.1 together write.
-/
import Verif.LegacyMoveLemmas
set_option autoImplicit false

namespace Parfu
open SplitSpec Props MoveSpec

/-- The fragments of bucket `k`. -/
def groupOf (fr : List Frag) (k : Nat) : List Frag := fr.filter (fun f => decide (f.bucket = (k : Int)))

/-- Where they end. -/
def endOfGroup (fr : List Frag) (k : Nat) : Int :=
  match (groupOf fr k).getLast? with
  | some f => fragStart f + blockedWritten 512 f
  | none => 0

theorem TightFrom.sorted {bl acc lb en : Int} {fs : List Frag} (h : TightFrom bl acc lb en fs) :
    (∀ f ∈ fs, lb ≤ f.bucket) ∧ fs.Pairwise (fun a b => a.bucket ≤ b.bucket) := by
  induction fs generalizing lb en with
  | nil => simp
  | cons f fs ih =>
    obtain ⟨h1, h2, h3, h4⟩ := h
    obtain ⟨i1, i2⟩ := ih h4
    have hf : lb ≤ f.bucket := by rcases h1 with h | h <;> omega
    refine ⟨?_, List.pairwise_cons.2 ⟨i1, i2⟩⟩
    intro g hg
    rcases List.mem_cons.1 hg with rfl | hg
    · exact hf
    · have := i1 g hg; omega

theorem TightFrom.inOrder {bl acc lb en : Int} {fs : List Frag} (h : TightFrom bl acc lb en fs) : InOrder fs := by
  intro i j hi hj hij
  rcases Nat.lt_or_eq_of_le hij with g | g
  · exact List.pairwise_iff_getElem.1 h.sorted.2 i j hi hj g
  · subst g; exact le_refl _

/-- In a sorted list without smaller elements the fragments of bucket `k` come first. -/
theorem filter_eq_takeWhile {k : Int} : ∀ (l : List Frag), (∀ f ∈ l, k ≤ f.bucket) →
    l.Pairwise (fun a b => a.bucket ≤ b.bucket) →
    l.filter (fun f => decide (f.bucket = k)) = l.takeWhile (fun f => decide (f.bucket = k)) := by
  intro l
  induction l with
  | nil => intros; rfl
  | cons a l ih =>
    intro h1 h2
    obtain ⟨h3, h4⟩ := List.pairwise_cons.1 h2
    by_cases ha : a.bucket = k
    · rw [List.filter_cons_of_pos (by simpa using ha), List.takeWhile_cons_of_pos (by simpa using ha),
        ih (fun f hf => h1 f (by simp [hf])) h4]
    · rw [List.filter_cons_of_neg (by simpa using ha), List.takeWhile_cons_of_neg (by simpa using ha)]
      rw [List.filter_eq_nil_iff]
      intro f hf
      have := h3 f hf
      have := h1 a (by simp)
      simp only [decide_eq_true_eq]
      omega

/-- The fragments of a bucket are directly one after the other. -/
theorem tight_group {acc : Int} (hd : (512 : Int) ∣ acc) {k : Nat} : ∀ (fs : List Frag) (lb en : Int),
    TightFrom 512 acc lb en fs → (512 : Int) ∣ en → lb ≤ k → (lb = k → en ≤ acc * k + acc) →
    ∃ z, Cont 512 (if lb = k then en else acc * k) (groupOf fs k) z ∧ (512 : Int) ∣ z ∧
      (lb = k ∨ groupOf fs k ≠ [] → z ≤ acc * k + acc) ∧
      (∀ f ∈ (groupOf fs k).getLast?, z = fragStart f + blockedWritten 512 f) := by
  intro fs
  induction fs with
  | nil =>
    intro lb en _ h2 _ h4
    refine ⟨_, rfl, ?_, ?_, by simp [groupOf]⟩
    · split
      · exact h2
      · exact Dvd.dvd.mul_right hd _
    · rintro (h | h)
      · rw [if_pos h]; exact h4 h
      · simp [groupOf] at h
  | cons f fs ih =>
    intro lb en ht h2 h3 h4
    obtain ⟨t1, t2, t3, t4⟩ := ht
    have hw := (blockedWritten_bounds (bl := 512) (by omega) f).1
    have hst : (512 : Int) ∣ fragStart f := by
      rcases t1 with ⟨_, h⟩ | ⟨_, h⟩
      · rw [h]; exact h2
      · rw [h]; exact Dvd.dvd.mul_left hd _
    have hdv := Int.dvd_add hst hw
    by_cases hb : f.bucket = k
    · obtain ⟨z, z1, z2, z3, z4⟩ := ih f.bucket _ t4 hdv (by omega)
        (fun h => by rw [h] at t2; rw [Int.add_mul] at t2; rw [Int.mul_comm acc]; omega)
      have hg : groupOf (f :: fs) k = f :: groupOf fs k := by
        unfold groupOf; rw [List.filter_cons_of_pos (by simpa using hb)]
      rw [if_pos hb] at z1
      refine ⟨z, ?_, z2, fun _ => z3 (Or.inl hb), ?_⟩
      · rw [hg]
        refine ⟨?_, t3, ?_⟩
        · rcases t1 with ⟨h, h'⟩ | ⟨h, h'⟩
          · rw [if_pos (by omega), h']
          · rw [if_neg (by omega), h', hb, Int.mul_comm]
        · have : (if lb = (k:Int) then en else acc * k) = fragStart f := by
            rcases t1 with ⟨h, h'⟩ | ⟨h, h'⟩
            · rw [if_pos (by omega), h']
            · rw [if_neg (by omega), h', hb, Int.mul_comm]
          rw [this]; exact z1
      · rw [hg]
        intro x hx
        cases hgl : groupOf fs k with
        | nil =>
          rw [hgl] at hx z1
          simp at hx
          subst hx
          simp only [Cont] at z1
          exact z1.symm
        | cons a as =>
          rw [hgl, List.getLast?_cons_cons, ← hgl] at hx
          exact z4 x hx
    · have hg : groupOf (f :: fs) k = groupOf fs k := by
        unfold groupOf; rw [List.filter_cons_of_neg (by simpa using hb)]
      rw [hg]
      by_cases hlt : f.bucket < k
      · obtain ⟨z, z1, z2, z3, z4⟩ := ih f.bucket _ t4 hdv (by omega) (fun h => absurd h hb)
        rw [if_neg hb] at z1
        refine ⟨z, ?_, z2, ?_, z4⟩
        · rw [if_neg (by rcases t1 with h | h <;> omega)]; exact z1
        · rintro (h | h)
          · rcases t1 with h | h <;> omega
          · exact z3 (Or.inr h)
      · have hnil : groupOf fs k = [] := by
          unfold groupOf
          rw [List.filter_eq_nil_iff]
          intro g hg
          have := t4.sorted.1 g hg
          simp only [decide_eq_true_eq]; omega
        rw [hnil]
        refine ⟨_, rfl, ?_, ?_, by simp⟩
        · split
          · exact h2
          · exact Dvd.dvd.mul_right hd _
        · rintro (h | h)
          · rw [if_pos h]; exact h4 h
          · exact absurd rfl h

/-- A list of fragments with its call list, ready to be written. -/
structure Ready (L : LegEnv) (acc : Int) (fr : List Frag) (call : List Nat) : Prop where
  tight : TightFrom 512 acc (-1) 0 fr
  ok : ∀ f ∈ fr, FragOk L f
  calls : rankCallList fr = .ok (some call)
  check : checkCalls fr call = true

theorem checkCalls_iff {fr : List Frag} {call : List Nat} (h : checkCalls fr call = true) :
    ∀ k (hk : k < call.length), ∃ hc : call[k] < fr.length, fr[call[k]].bucket = k := by
  intro k hk
  unfold checkCalls at h
  rw [List.all_eq_true] at h
  have := h k (by simpa using hk)
  rw [List.getElem?_eq_getElem hk] at this
  simp only [] at this
  split at this
  · cases this
  · rename_i f hf
    obtain ⟨h1, h2⟩ := List.getElem?_eq_some_iff.1 hf
    exact ⟨h1, by rw [h2]; simpa using this⟩

theorem dropWhile_nil_iff {α : Type} (p : α → Bool) (l : List α) : l.dropWhile p = [] ↔ ∀ a ∈ l, p a = true := by
  induction l with
  | nil => simp
  | cons a l ih =>
    rw [List.dropWhile_cons]
    split
    · rename_i h; rw [ih]; simp [h]
    · rename_i h; simp [h]

/-- The call list finds the fragments of each bucket. -/
theorem Ready.drop {L : LegEnv} {acc : Int} {fr : List Frag} {call : List Nat} (h : Ready L acc fr call)
    {k : Nat} (hk : k < call.length) :
    ∃ rest, fr.drop call[k] = groupOf fr k ++ rest ∧ groupOf fr k ≠ [] ∧ (∀ f ∈ rest.head?, f.bucket ≠ k) ∧
      (rest = [] ↔ k + 1 = call.length) := by
  obtain ⟨hp0, hps, hp⟩ := C37_partition fr h.tight.inOrder call h.calls
  obtain ⟨hc, hpk⟩ := hp k hk
  obtain ⟨_, hb⟩ := checkCalls_iff h.check k hk
  have hsort := h.tight.sorted.2
  have hge : ∀ f ∈ fr.drop call[k], (k : Int) ≤ f.bucket := by
    intro f hf
    obtain ⟨i, hi, rfl⟩ := List.getElem_of_mem hf
    rw [List.length_drop] at hi
    rw [List.getElem_drop, ← hb]
    exact h.tight.inOrder _ _ hc (by omega) (by omega)
  have hfw := filter_eq_takeWhile (k := k) (fr.drop call[k]) hge (hsort.sublist (List.drop_sublist _ _))
  have hpre : (fr.take call[k]).filter (fun f => decide (f.bucket = (k : Int))) = [] := by
    rw [List.filter_eq_nil_iff]
    intro f hf
    obtain ⟨i, hi, rfl⟩ := List.getElem_of_mem hf
    rw [List.length_take] at hi
    simp only [decide_eq_true_eq, List.getElem_take]
    intro he
    have := (hpk i (by omega)).1 (by rw [he, hb])
    omega
  have hg : groupOf fr k = (fr.drop call[k]).takeWhile (fun f => decide (f.bucket = (k : Int))) := by
    unfold groupOf
    conv_lhs => rw [← List.take_append_drop call[k] fr]
    rw [List.filter_append, hpre, List.nil_append, hfw]
  refine ⟨(fr.drop call[k]).dropWhile (fun f => decide (f.bucket = (k : Int))), ?_, ?_, ?_, ?_⟩
  · rw [hg, List.takeWhile_append_dropWhile]
  · rw [hg, List.drop_eq_getElem_cons hc, List.takeWhile_cons_of_pos (by simpa using hb)]
    simp
  · intro f hf
    have := List.head?_dropWhile_not (fun f : Frag => decide (f.bucket = (k : Int))) (fr.drop call[k])
    rw [Option.mem_def] at hf
    rw [hf] at this
    simpa using this
  · rw [dropWhile_nil_iff]
    constructor
    · intro hall
      by_contra hne
      obtain ⟨hc1, hb1⟩ := checkCalls_iff h.check (k + 1) (by omega)
      have hlt := List.pairwise_iff_getElem.1 hps k (k+1) hk (by omega) (by omega)
      have := hall fr[call[k+1]] (by
        rw [List.mem_iff_getElem]
        refine ⟨call[k+1] - call[k], by rw [List.length_drop]; omega, ?_⟩
        rw [List.getElem_drop]
        congr 1; omega)
      simp only [decide_eq_true_eq] at this
      rw [hb1] at this
      push_cast at this
      omega
    · intro he f hf
      obtain ⟨i, hi, rfl⟩ := List.getElem_of_mem hf
      rw [List.length_drop] at hi
      rw [List.getElem_drop]
      simp only [decide_eq_true_eq]
      have := (hpk (call[k] + i) (by omega)).2 ⟨by omega, fun h' => by omega⟩
      rw [this, hb]

theorem Ready.group {L : LegEnv} {acc : Int} (hd : (512 : Int) ∣ acc) {fr : List Frag} {call : List Nat}
    (h : Ready L acc fr call) {k : Nat} (hne : groupOf fr k ≠ []) :
    Cont 512 (acc * k) (groupOf fr k) (endOfGroup fr k) ∧ (512 : Int) ∣ endOfGroup fr k ∧
      endOfGroup fr k ≤ acc * k + acc := by
  obtain ⟨z, z1, z2, z3, z4⟩ := tight_group hd (k := k) fr (-1) 0 h.tight (by simp) (by omega) (by omega)
  have : endOfGroup fr k = z := by
    unfold endOfGroup
    cases hl : (groupOf fr k).getLast? with
    | none => exact absurd (List.getLast?_eq_none_iff.1 hl) hne
    | some f => exact (z4 f (by rw [hl]; simp)).symm
  rw [this]
  rw [if_neg (by omega)] at z1
  exact ⟨z1, z2, z3 (Or.inr hne)⟩

/-- What a writer needs to be told. -/
structure LegSetup (L : LegEnv) (acc : Int) : Prop where
  lax : L.strict = false
  clock : ∀ i, L.now i < 2 ^ 64
  clockCat : L.nowCat < 2 ^ 64
  clockGap : L.nowGap < 2 ^ 64
  accMin : 10000 ≤ acc
  accMax : acc ≤ 2 ^ 31
  accDvd : (512 : Int) ∣ acc

/-- The writes for a list of buckets. -/
def writesFor (acc : Int) (dstart K : Nat) (D : Nat → Bytes) (is : List Nat) : List WriteReq :=
  is.flatMap fun i => bucketWrites acc dstart (decide (i + 1 = K)) i (D i)

theorem writesFor_congr {acc : Int} {dstart K : Nat} {D D' : Nat → Bytes} {is : List Nat} (h : ∀ i ∈ is, D i = D' i) :
    writesFor acc dstart K D is = writesFor acc dstart K D' is := by
  unfold writesFor
  rw [List.flatMap_def, List.flatMap_def]
  congr 1
  apply List.map_congr_left
  intro i hi
  rw [h i hi]

theorem bucketsLoop_ok {L : LegEnv} {acc : Int} (hs : LegSetup L acc) {dstart : Nat} {fr : List Frag} {call : List Nat}
    (h : Ready L acc fr call) : ∀ (is : List Nat) (buf : Bytes), is.Nodup → (∀ i ∈ is, i < call.length) →
    (buf.length : Int) = acc →
    ∃ D : Nat → Bytes, bucketsLoop L 512 acc dstart fr call is buf = .ok (some (writesFor acc dstart call.length D is)) ∧
      ∀ i ∈ is, BucketData L acc i (groupOf fr i) (endOfGroup fr i) (D i) := by
  intro is
  induction is with
  | nil => intro buf _ _ _; exact ⟨fun _ => [], rfl, by simp⟩
  | cons i is ih =>
    intro buf hnd hlt hbuf
    have hi : i < call.length := hlt i (by simp)
    obtain ⟨rest, r1, r2, r3, r4⟩ := h.drop hi
    obtain ⟨g1, g2, g3⟩ := h.group hs.accDvd r2
    have hF : ∀ f ∈ groupOf fr i, f.bucket = i ∧ FragOk L f := by
      intro f hf
      unfold groupOf at hf
      rw [List.mem_filter] at hf
      exact ⟨by simpa using hf.2, h.ok f hf.1⟩
    obtain ⟨buf', D0, e1, l1, b1⟩ := oneBucket_ok hs.lax hs.clock hs.accMin hs.accMax hs.accDvd (dstart := dstart)
      (List.getElem?_eq_getElem hi) r1 r2 hF r3 g1 g3 g2 hbuf
    obtain ⟨hni, hnd'⟩ := List.nodup_cons.1 hnd
    obtain ⟨D, e2, b2⟩ := ih buf' hnd' (fun j hj => hlt j (by simp [hj])) l1
    refine ⟨fun j => if j = i then D0 else D j, ?_, ?_⟩
    · simp only [bucketsLoop]
      rw [e1, bindRO_some]
      simp only []
      rw [e2, bindRO_some]
      have e3 : decide (rest = []) = decide (i + 1 = call.length) := by
        rw [decide_eq_decide]; exact r4
      have e4 : writesFor acc dstart call.length (fun j => if j = i then D0 else D j) is =
          writesFor acc dstart call.length D is := writesFor_congr (fun j hj => if_neg (fun (e : j = i) => hni (by rw [← e]; exact hj)))
      congr 2
      rw [← e4, e3]
      unfold writesFor
      simp only [List.flatMap_cons, if_true]
    · intro j hj
      simp only []
      split
      · rename_i e; rw [e]; exact b1
      · rename_i e
        rcases List.mem_cons.1 hj with hj | hj
        · exact absurd hj e
        · exact b2 j hj

theorem allBuckets_ok {L : LegEnv} {acc : Int} (hs : LegSetup L acc) {dstart : Nat} {fr : List Frag} {call : List Nat}
    (h : Ready L acc fr call) {n : Nat} (hn : 0 < n) (r : Nat) :
    ∃ D : Nat → Bytes, allBuckets L 512 acc dstart fr call n r =
        .ok (some (writesFor acc dstart call.length D (rankBuckets n call.length r))) ∧
      ∀ i ∈ rankBuckets n call.length r, BucketData L acc i (groupOf fr i) (endOfGroup fr i) (D i) := by
  refine bucketsLoop_ok hs h _ _ ?_ ?_ ?_
  · exact (rankBuckets_sorted hn r).imp (fun h => Nat.ne_of_lt h)
  · intro k hk; exact ((mem_rankBuckets hn _ _).1 hk).2.1
  · have := hs.accMin
    simp [zeros]; omega

/-- All ranks together make the writes of every bucket, once. -/
theorem allRanks_ok {L : LegEnv} {acc : Int} (hs : LegSetup L acc) {dstart : Nat} {fr : List Frag} {call : List Nat}
    (h : Ready L acc fr call) {n : Nat} (hn : 0 < n) {one : Nat → Res (Option (List WriteReq))}
    (hone : ∀ r, one r = allBuckets L 512 acc dstart fr call n r) :
    ∃ (D : Nat → Bytes) (wss : List (List WriteReq)), allRanks one (List.range n) = .ok (some wss) ∧
      (∀ i < call.length, BucketData L acc i (groupOf fr i) (endOfGroup fr i) (D i)) ∧
      wss.flatten.Perm (writesFor acc dstart call.length D (List.range call.length)) := by
  have key : ∀ rs : List Nat, (rs.flatMap (rankBuckets n call.length)).Nodup →
      ∃ (D : Nat → Bytes) (wss : List (List WriteReq)), allRanks one rs = .ok (some wss) ∧
      (∀ i ∈ rs.flatMap (rankBuckets n call.length), BucketData L acc i (groupOf fr i) (endOfGroup fr i) (D i)) ∧
      wss.flatten = writesFor acc dstart call.length D (rs.flatMap (rankBuckets n call.length)) := by
    intro rs
    induction rs with
    | nil => intro _; exact ⟨fun _ => [], [], rfl, by simp, rfl⟩
    | cons r rs ih =>
      intro hnd
      rw [List.flatMap_cons, List.nodup_append] at hnd
      obtain ⟨D1, e1, b1⟩ := allBuckets_ok hs (dstart := dstart) h hn r
      obtain ⟨D2, wss, e2, b2, f2⟩ := ih hnd.2.1
      refine ⟨fun i => if i ∈ rankBuckets n call.length r then D1 i else D2 i,
        writesFor acc dstart call.length D1 (rankBuckets n call.length r) :: wss, ?_, ?_, ?_⟩
      · simp only [allRanks]
        rw [hone, e1, bindRO_some, e2, bindRO_some]
      · intro i hi
        rw [List.flatMap_cons, List.mem_append] at hi
        simp only []
        split
        · rename_i hm; exact b1 i hm
        · rename_i hm
          rcases hi with hi | hi
          · exact absurd hi hm
          · exact b2 i hi
      · rw [List.flatten_cons, f2, List.flatMap_cons]
        unfold writesFor
        rw [List.flatMap_append]
        congr 1
        · exact writesFor_congr (fun i hi => (if_pos hi).symm)
        · refine writesFor_congr (fun i hi => (if_neg ?_).symm)
          intro hm
          exact hnd.2.2 i hm i hi rfl
  have hnd : ((List.range n).flatMap (rankBuckets n call.length)).Nodup := by
    rw [List.nodup_flatMap]
    refine ⟨fun r _ => (rankBuckets_sorted hn r).imp (fun h => Nat.ne_of_lt h), ?_⟩
    refine List.Pairwise.imp_of_mem ?_ (List.pairwise_lt_range (n := n))
    intro a b ha hb hab k h1 h2
    simp only [List.mem_range] at ha hb
    obtain ⟨r, _, _, hu⟩ := (C36_each_bucket_once n call.length hn).1 k ((mem_rankBuckets hn _ _).1 h1).2.1
    have := hu a ha h1
    have := hu b hb h2
    omega
  have hperm : ((List.range n).flatMap (rankBuckets n call.length)).Perm (List.range call.length) := by
    rw [List.perm_ext_iff_of_nodup hnd List.nodup_range]
    intro k
    simp only [List.mem_flatMap, List.mem_range]
    constructor
    · rintro ⟨r, hr, hk⟩; exact ((mem_rankBuckets hn _ _).1 hk).2.1
    · intro hk
      obtain ⟨r, h1, h2, _⟩ := (C36_each_bucket_once n call.length hn).1 k hk
      exact ⟨r, h1, h2⟩
  obtain ⟨D, wss, e, b, f⟩ := key _ hnd
  refine ⟨D, wss, e, ?_, ?_⟩
  · intro i hi; exact b i (hperm.mem_iff.2 (by simpa using hi))
  · rw [f]
    exact hperm.flatMap_right _

end Parfu
