/-
Property theorems C09-C16: ordering, offsets and transfer orders.
-/
import Verif.PlanBundles
import Verif.PropsScan
import Verif.TarRecover
set_option autoImplicit false

namespace Parfu.Props
open Parfu PlanSpec

/-! ### C09 -/

/-- **C09** Whatever conforming sort is used: directories are untouched, files are rearranged
(nothing lost, added or changed) into non-decreasing size order; and the comparator meets the
precondition without which sorting would be undefined. -/
theorem C09_order_files (S : StdSort Ref) (c : Coll) :
    (orderFiles S c).dirs = c.dirs ∧ (orderFiles S c).files.Perm c.files ∧
    (orderFiles S c).files.Pairwise (fun a b => a.orderSize ≤ b.orderSize) ∧
    StrictWeak sortBySize := by
  refine ⟨rfl, S.perm _ _ sortBySize_strictWeak, ?_, sortBySize_strictWeak⟩
  refine (S.sorted sortBySize c.files sortBySize_strictWeak).imp ?_
  intro a b h
  simpa [sortBySize] using h

/-- **C09** After a scan of a legal tree and ordering, links (with their non-empty targets) come
before all regular files, and regular files are in non-decreasing file size. -/
theorem C09_links_first (S : StdSort Ref) (g : Bytes → UInt8) (base : Bytes) (root : FNode) (c : Coll)
    (h : scan g base root = .ok c) :
    (orderFiles S c).files.Pairwise (fun a b =>
      (a.ent.kind = .reg → a.ent.target = [] → b.ent.target = []) ∧
      (a.ent.target = [] → b.ent.target = [] → a.ent.kind ≠ .dir → b.ent.kind ≠ .dir →
        a.ent.size ≤ b.ent.size)) := by
  have hm : ∀ r ∈ (orderFiles S c).files, mkRef base r.ent = .ok r := by
    intro r hr
    have hr' := (C09_order_files S c).2.1.mem_iff.1 hr
    unfold scan at h
    split at h
    · cases h
    · exact (collect_spec h).2.2 r (List.mem_append_right _ hr')
  have hos : ∀ r ∈ (orderFiles S c).files, r.orderSize =
      if r.ent.kind = .dir then orderSizeDir else if r.ent.target.length > 0 then orderSizeSymlink
      else (r.ent.size : Int) := by
    intro r hr
    have := hm r hr
    unfold mkRef at this
    simp only [bind, Except.bind] at this
    split at this
    · cases this
    · have h2 := congrArg Ref.orderSize (Except.ok.inj this)
      exact h2.symm
  have hs := (C09_order_files S c).2.2.1
  revert hs hos
  generalize (orderFiles S c).files = fs
  intro hos hs
  induction fs with
  | nil => exact List.Pairwise.nil
  | cons a fs ih =>
    rw [List.pairwise_cons] at hs ⊢
    refine ⟨?_, ih (fun r hr => hos r (by simp [hr])) hs.2⟩
    intro b hb
    have h1 := hos a (by simp)
    have h2 := hos b (by simp [hb])
    have h3 := hs.1 b hb
    refine ⟨?_, ?_⟩
    · intro hk ht
      rw [h1, h2, hk, ht] at h3
      by_cases hbt : b.ent.target = []
      · exact hbt
      · have : 0 < b.ent.target.length := List.length_pos_iff.2 hbt
        simp [orderSizeDir, orderSizeSymlink, this] at h3
        split at h3 <;> omega
    · intro ht1 ht2 hk1 hk2
      rw [h1, h2, ht1, ht2, if_neg hk1, if_neg hk2] at h3
      simpa using h3

/-- A conforming sort exists (merge sort). -/
def demoSort : StdSort Ref where
  run lt l := l.mergeSort (fun a b => !(lt b a))
  perm lt l _ := List.mergeSort_perm l _
  sorted lt l h := by
    have := List.pairwise_mergeSort (le := fun a b => !(lt b a)) ?_ ?_ l
    · exact this.imp (by intro a b hab; simpa using hab)
    · intro a b c hab hbc
      simp only [Bool.not_eq_true'] at *
      cases hca : lt c a with
      | false => rfl
      | true =>
        cases hcb : lt c b with
        | true => rw [hcb] at hbc; exact absurd hbc (by simp)
        | false =>
          cases hbcc : lt b c with
          | true =>
            have := h.trans b c a hbcc hca
            rw [this] at hab; exact absurd hab (by simp)
          | false =>
            cases hab2 : lt a b with
            | true =>
              have := h.trans c a b hca hab2
              rw [hcb] at this; exact absurd this (by simp)
            | false =>
              have := (h.incomp c b a hcb hbcc hab hab2).1
              rw [hca] at this; exact absurd this (by simp)
    · intro a b
      simp only [Bool.or_eq_true, Bool.not_eq_true']
      cases hba : lt b a with
      | false => left; rfl
      | true =>
        right
        cases hab : lt a b with
        | false => rfl
        | true =>
          have := h.trans a b a hab hba
          rw [h.irrefl] at this; exact absurd this (by simp)

example : ∃ c, scan (fun _ => 0) [47, 116] demoTree = .ok c ∧ c.files.length = 3 ∧
    (orderFiles demoSort c).files.Perm c.files := by
  obtain ⟨c, h, _⟩ := C07_scan_exact (fun _ => 0) [47, 116] demoTree demoTree_ok.1 demoTree_ok.2
    (fun _ => rfl)
  refine ⟨c, h, ?_, (C09_order_files demoSort c).2.1⟩
  have : (scan (fun _ => 0) [47, 116] demoTree).map (fun c => c.files.length) = .ok 3 := by
    decide +kernel
  rw [h] at this
  exact Except.ok.inj this

/-! ### C10 -/

theorem contiguous_split {w : Nat} {pre post : List Placed} {p : Placed} (hw : w % 512 = 0)
    (h : Contiguous w (pre ++ p :: post)) :
    p.slice.offArch % 512 = 0 ∧ w ≤ p.slice.offArch ∧ (pre = [] → p.slice.offArch = w) ∧
    (∀ pre' q, pre = pre' ++ [q] →
      p.slice.offArch = up512 (q.slice.offArch + q.ref.hdr + q.ref.ent.size)) ∧
    (∀ q ∈ pre, q.slice.offArch + q.ref.hdr + q.ref.ent.size ≤ p.slice.offArch) := by
  induction pre generalizing w with
  | nil =>
    simp only [List.nil_append, Contiguous] at h
    simp [h.1, hw]
  | cons r pre ih =>
    simp only [List.cons_append, Contiguous] at h
    obtain ⟨h1, h2⟩ := h
    obtain ⟨i1, i2, i3, i4, i5⟩ := ih (up512_mod _) h2
    have hle := le_up512 (w + r.ref.hdr + r.ref.ent.size)
    refine ⟨i1, by omega, by simp, ?_, ?_⟩
    · intro pre' q hq
      cases pre with
      | nil =>
        have : pre' = [] := by
          cases pre' with
          | nil => rfl
          | cons a b => simp at hq
        subst this
        simp at hq
        subst hq
        rw [i3 rfl, h1]
      | cons s pre =>
        cases pre' with
        | nil => simp at hq
        | cons a b =>
          simp only [List.cons_append, List.cons.injEq] at hq
          exact i4 b q hq.2
    · intro q hq
      rcases List.mem_cons.1 hq with rfl | hq
      · omega
      · exact i5 q hq

/-- **C10** After offsets are set, the entries are those of the collection (directories, then
files), each with one slice that is its header and its whole size; the first starts at 0, each
starts at a multiple of 512, right after its predecessor's header and data rounded up to 512, and
after the end of every earlier one. -/
theorem C10_offsets (c : Coll) :
    ((setOffsets c).dirs ++ (setOffsets c).files).map Placed.ref = c.dirs ++ c.files ∧
    (∀ p ∈ (setOffsets c).dirs ++ (setOffsets c).files,
      p.slice.hdr = p.ref.hdr ∧ p.slice.size = p.ref.ent.size ∧ p.slice.offFile = 0) ∧
    (∀ pre p post, (setOffsets c).dirs ++ (setOffsets c).files = pre ++ p :: post →
      p.slice.offArch % 512 = 0 ∧ (pre = [] → p.slice.offArch = 0) ∧
      (∀ pre' q, pre = pre' ++ [q] →
        p.slice.offArch = up512 (q.slice.offArch + q.ref.hdr + q.ref.ent.size)) ∧
      (∀ q ∈ pre, q.slice.offArch + q.ref.hdr + q.ref.ent.size ≤ p.slice.offArch)) := by
  have hall := setOffsets_all c
  unfold PColl.all at hall
  rw [hall]
  refine ⟨placeFrom_refs _ _, placeFrom_slices _ _, ?_⟩
  intro pre p post heq
  have := placeFrom_contiguous 0 (c.dirs ++ c.files)
  rw [heq] at this
  obtain ⟨h1, _, h3, h4, h5⟩ := contiguous_split (by omega) this
  exact ⟨h1, h3, h4, h5⟩

/-- Two placed entries, computed: 512 + 3 bytes, then the next block. -/
example : ((setOffsets ⟨[], [⟨3, ⟨[97], .reg, [], 3⟩, 512⟩, ⟨5, ⟨[98], .reg, [], 5⟩, 512⟩]⟩).files.map
    (fun p => p.slice.offArch)) = [0, 1024] := by decide

/-! ### C11, C12 -/

/-- What the planner may rely on about its input; `scan_collOk` shows that scans deliver it. -/
structure CollOk (b : Nat) (c : Coll) : Prop where
  dirs : ∀ r ∈ c.dirs, r.ent.size = 0
  hdr : ∀ r ∈ c.dirs ++ c.files, 0 < r.hdr ∧ r.hdr ≤ b
  nodup : ((c.dirs ++ c.files).map (fun r => r.ent.rel)).Nodup

theorem plan_flat {idx : Int} {b mx : Nat} {c : Coll} {bundles : List (List Order)} (hc : CollOk b c)
    (h : createOrders idx b mx (setOffsets c) = some bundles) :
    bundles.flatten = (setOffsets c).all.flatMap (frags idx b) ∧
    (∀ p ∈ (setOffsets c).all, p.slice.hdr = p.ref.hdr ∧ p.slice.size = p.ref.ent.size ∧
      p.slice.offFile = 0) ∧
    (∀ p ∈ (setOffsets c).all, 0 < p.ref.hdr ∧ p.ref.hdr ≤ b) ∧
    ((setOffsets c).all.map (fun p => p.ref.ent.rel)).Nodup ∧
    Contiguous 0 (setOffsets c).all ∧
    (∃ st, st = (setOffsets c).all.foldl (fileStep idx b mx) planInit ∧ bundles = st.done ++ [st.cur] ∧
      100000 ≤ b ∧ (setOffsets c).all ≠ []) := by
  have hrefs : (setOffsets c).all.map Placed.ref = c.dirs ++ c.files := by
    rw [setOffsets_all, placeFrom_refs]
  have hmem : ∀ p ∈ (setOffsets c).all, p.ref ∈ c.dirs ++ c.files := by
    intro p hp; rw [← hrefs]; exact List.mem_map.2 ⟨p, hp, rfl⟩
  have hd : ∀ p ∈ (setOffsets c).dirs, p.ref.ent.size = 0 ∧ p.ref.hdr ≤ b := by
    intro p hp
    have hp' : p.ref ∈ c.dirs := by
      have : p ∈ (placeFrom 0 c.dirs).1 := hp
      rw [← placeFrom_refs 0 c.dirs]; exact List.mem_map.2 ⟨p, this, rfl⟩
    exact ⟨hc.dirs _ hp', (hc.hdr _ (List.mem_append_left _ hp')).2⟩
  obtain ⟨st, hst, hbun, hb, hne⟩ := createOrders_eq idx b mx (setOffsets c) bundles hd h
  have hcont : Contiguous 0 (setOffsets c).all := by
    rw [setOffsets_all]; exact placeFrom_contiguous _ _
  refine ⟨?_, ?_, fun p hp => hc.hdr _ (hmem p hp), ?_, hcont, st, hst, hbun, hb, hne⟩
  · have := foldl_flat idx b mx (setOffsets c).all planInit (by simp [planInit]) hcont
    rw [← hst] at this
    rw [hbun]
    simpa [PState.flat, planInit] using this
  · rw [setOffsets_all]; exact placeFrom_slices _ _
  · have := hc.nodup
    rw [← hrefs, List.map_map] at this
    exact this

/-- **C11** The orders of a plan, taken together, ask for each entry's header exactly once and for
each byte of each entry exactly once, for nothing beyond the end of an entry, and for nothing else. -/
theorem C11_every_byte_once (idx : Int) (b mx : Nat) (c : Coll) (bundles : List (List Order))
    (hc : CollOk b c) (h : createOrders idx b mx (setOffsets c) = some bundles) :
    (∀ r ∈ c.dirs ++ c.files,
      bundles.flatten.countP (fun o => Heads o r.ent.rel) = 1 ∧
      ∀ i, bundles.flatten.countP (fun o => Moves o r.ent.rel i) = if i < r.ent.size then 1 else 0) ∧
    (∀ o ∈ bundles.flatten, ∃ r ∈ c.dirs ++ c.files, o.rel = r.ent.rel ∧ o.kind = r.ent.kind ∧
      o.target = r.ent.target ∧ (o.hdr = 0 ∨ o.hdr = r.hdr) ∧ o.off + o.size ≤ r.ent.size) := by
  obtain ⟨hflat, hs, hhdr, hnd, hcont, _⟩ := plan_flat hc h
  have hrefs : (setOffsets c).all.map Placed.ref = c.dirs ++ c.files := by
    rw [setOffsets_all, placeFrom_refs]
  rw [hflat]
  constructor
  · intro r hr
    rw [← hrefs] at hr
    obtain ⟨p, hp, rfl⟩ := List.mem_map.1 hr
    refine ⟨?_, fun i => ?_⟩
    · rw [flatMap_count idx b _ p hp hnd _ (by intro o ho; simp [Heads] at ho; exact ho.1)]
      exact frags_heads idx b p (hs p hp) (hhdr p hp).1
    · rw [flatMap_count idx b _ p hp hnd _ (by intro o ho; simp [Moves] at ho; exact ho.1)]
      exact frags_count idx b p (hs p hp) (hhdr p hp).2 i
  · intro o ho
    obtain ⟨p, hp, hop⟩ := List.mem_flatMap.1 ho
    have := frags_spec idx b p (hs p hp) (hhdr p hp).2 o hop
    refine ⟨p.ref, ?_, this.2.1, this.2.2.1, this.2.2.2.1, this.2.2.2.2.1, this.2.2.2.2.2.1⟩
    rw [← hrefs]; exact List.mem_map.2 ⟨p, hp, rfl⟩

/-- **C12** Every order puts its data where the plan says: header at the entry's planned offset,
byte `i` of the file at planned offset + header size + `i`. -/
theorem C12_bytes_in_place (idx : Int) (b mx : Nat) (c : Coll) (bundles : List (List Order))
    (hc : CollOk b c) (h : createOrders idx b mx (setOffsets c) = some bundles)
    (p : Placed) (hp : p ∈ (setOffsets c).dirs ++ (setOffsets c).files)
    (o : Order) (ho : o ∈ bundles.flatten) (hrel : o.rel = p.ref.ent.rel) :
    (o.hdr ≠ 0 → o.pos = p.slice.offArch) ∧
    (∀ i, Moves o p.ref.ent.rel i = true →
      o.pos + o.hdr + (i - o.off) = p.slice.offArch + p.ref.hdr + i) := by
  obtain ⟨hflat, hs, hhdr, hnd, hcont, _⟩ := plan_flat hc h
  rw [hflat] at ho
  obtain ⟨q, hq, hoq⟩ := List.mem_flatMap.1 ho
  have hsp := frags_spec idx b q (hs q hq) (hhdr q hq).2 o hoq
  have hqp : q = p := by
    have hrr : q.ref.ent.rel = p.ref.ent.rel := by rw [← hsp.2.1, hrel]
    have hinj : ∀ (l : List Placed), (l.map (fun p => p.ref.ent.rel)).Nodup → q ∈ l → p ∈ l → q = p := by
      intro l hl hql hpl
      induction l with
      | nil => simp at hql
      | cons x l ih =>
        rw [List.map_cons, List.nodup_cons] at hl
        rcases List.mem_cons.1 hql with h1 | h1 <;> rcases List.mem_cons.1 hpl with h2 | h2
        · rw [h1, h2]
        · exact absurd (List.mem_map.2 ⟨p, h2, by rw [← hrr, h1]⟩) hl.1
        · exact absurd (List.mem_map.2 ⟨q, h1, by rw [hrr, h2]⟩) hl.1
        · exact ih hl.2 h1 h2
    exact hinj _ hnd hq hp
  subst hqp
  refine ⟨fun hh => (hsp.2.2.2.2.2.2.2 hh).1, ?_⟩
  intro i hi
  simp [Moves] at hi
  have := hsp.2.2.2.2.2.2.1
  omega

/-! ### C13 -/

/-- Once an entry does not fit in a bucket, none of the later ones does. -/
def NoFitAfterBig (b : Nat) (rs : List Ref) : Prop :=
  ∀ pre r post, rs = pre ++ r :: post → ¬ r.hdr + r.ent.size ≤ b →
    ∀ s ∈ post, ¬ s.hdr + s.ent.size ≤ b

theorem split_fits (b : Nat) (ps : List Placed) (h : NoFitAfterBig b (ps.map Placed.ref)) :
    ∃ xs ys, ps = xs ++ ys ∧ (∀ p ∈ xs, Fits b p) ∧ (∀ p ∈ ys, ¬ Fits b p) := by
  induction ps with
  | nil => exact ⟨[], [], rfl, by simp, by simp⟩
  | cons p ps ih =>
    by_cases hf : Fits b p
    · obtain ⟨xs, ys, h1, h2, h3⟩ := ih (by
        intro pre r post heq hb
        exact h (p.ref :: pre) r post (by rw [List.map_cons, heq]; rfl) hb)
      refine ⟨p :: xs, ys, by rw [h1]; rfl, ?_, h3⟩
      intro q hq
      rcases List.mem_cons.1 hq with rfl | hq
      · exact hf
      · exact h2 q hq
    · refine ⟨[], p :: ps, rfl, by simp, ?_⟩
      intro q hq
      rcases List.mem_cons.1 hq with rfl | hq
      · exact hf
      · exact h [] p.ref (ps.map Placed.ref) rfl hf q.ref (List.mem_map.2 ⟨q, hq, rfl⟩)

theorem contiguous_append {w : Nat} {xs ys : List Placed} (h : Contiguous w (xs ++ ys)) :
    Contiguous w xs := by
  induction xs generalizing w with
  | nil => simp [Contiguous]
  | cons x xs ih => simp only [List.cons_append, Contiguous] at h ⊢; exact ⟨h.1, ih h.2⟩

/-- **C13 (partial)** Every bundle, padding included, spans at most one bucket - if no entry that
fits in a bucket comes after one that does not.  Missing: the planner forgets to reset its position
in the bucket after a big file, so without that hypothesis the claim is false
(`C13_overflow`). -/
theorem C13_bundle_fits_partial (idx : Int) (b mx : Nat) (c : Coll) (bundles : List (List Order))
    (hb : b % 512 = 0) (hc : CollOk b c) (hnf : NoFitAfterBig b (c.dirs ++ c.files))
    (h : createOrders idx b mx (setOffsets c) = some bundles) :
    ∀ l ∈ bundles, up512 (endOf l) - startOf l ≤ b := by
  obtain ⟨hflat, hs, hhdr, hnd, hcont, st, hst, hbun, hb5, hne⟩ := plan_flat hc h
  have hrefs : (setOffsets c).all.map Placed.ref = c.dirs ++ c.files := by
    rw [setOffsets_all, placeFrom_refs]
  rw [← hrefs] at hnf
  obtain ⟨xs, ys, hxy, hx, hy⟩ := split_fits b _ hnf
  rw [hxy] at hs hhdr hcont
  have hB := foldl_invB (idx := idx) (mx := mx) hb xs planInit
    (fun p hp => hs p (List.mem_append_left _ hp)) hx (contiguous_append hcont) (invB_init b)
  have hC := foldl_invC (idx := idx) (mx := mx) hb (by omega) ys _
    (fun p hp => (hhdr p (List.mem_append_right _ hp)).2) hy (invB_invC hB)
  rw [← List.foldl_append, ← hxy, ← hst] at hC
  rw [hbun]
  exact hC.all

/-- **C13** With at most one order per bundle the claim holds without that hypothesis. -/
theorem C13_single_orders_fit (idx : Int) (b : Nat) (c : Coll) (bundles : List (List Order))
    (hb : b % 512 = 0) (hc : CollOk b c)
    (h : createOrders idx b 1 (setOffsets c) = some bundles) :
    ∀ l ∈ bundles, up512 (endOf l) - startOf l ≤ b := by
  obtain ⟨hflat, hs, hhdr, hnd, hcont, st, hst, hbun, hb5, hne⟩ := plan_flat hc h
  have hA := invA_foldl (idx := idx) (b := b) (mx := 1) hb (setOffsets c).all planInit (invA_init 1)
  rw [← hst] at hA
  intro l hl
  have hlen : l.length ≤ 1 := by
    rw [hbun] at hl
    rcases List.mem_append.1 hl with hl | hl
    · exact (hA.done l hl).2 (by omega)
    · simp at hl; subst hl; exact hA.lim (by omega)
  match l, hlen with
  | [], _ => simp [endOf, startOf, up512]
  | [o], _ =>
    have ho : o ∈ bundles.flatten := List.mem_flatten.2 ⟨_, hl, by simp⟩
    rw [hflat] at ho
    obtain ⟨p, hp, hop⟩ := List.mem_flatMap.1 ho
    -- the order's own extent is at most a bucket, and it starts on a block
    have hposal : p.slice.offArch % 512 = 0 := by
      obtain ⟨pre, post, hsplit⟩ := List.append_of_mem hp
      rw [hsplit] at hcont
      exact (contiguous_split (by omega) hcont).1
    have key : o.hdr + o.size ≤ b ∧ o.pos % 512 = 0 := by
      unfold frags at hop
      split at hop
      · simp only [List.mem_singleton] at hop
        subst hop
        simp only [orderOf, orderRaw, hs p hp]
        exact ⟨by assumption, hposal⟩
      · rcases List.mem_cons.1 hop with rfl | hop
        · have := (hhdr p hp).2
          simp only [orderRaw, usub64_of_le this]
          exact ⟨by omega, hposal⟩
        · have key2 : ∀ rem pos off, pos % 512 = 0 → ∀ o ∈ restFrags idx b p.ref.ent rem pos off,
              o.hdr + o.size ≤ b ∧ o.pos % 512 = 0 := by
            intro rem pos off
            fun_induction restFrags idx b p.ref.ent rem pos off with
            | case1 rem pos off hr ih =>
              intro hpos o ho
              rcases List.mem_cons.1 ho with rfl | ho
              · simp [orderRaw]; omega
              · exact ih (by omega) o ho
            | case2 rem pos off hr h0 =>
              intro hpos o ho
              simp only [List.mem_singleton] at ho
              subst ho
              simp [orderRaw]; omega
            | case3 => simp
          exact key2 _ _ _ (by omega) o hop
    simp only [endOf, startOf, List.getLast?_singleton, List.head?_cons, Order.stop]
    unfold up512
    omega
  | _ :: _ :: _, hlen => simp at hlen

/-- **C13** The hypothesis holds when files are in the order `order_files` gives and all files that
carry data have headers of one size (for example all paths are at most 100 bytes). -/
theorem C13_uniform_headers_ok (b H : Nat) (c : Coll) (hc : CollOk b c)
    (hsort : c.files.Pairwise (fun a b => a.orderSize ≤ b.orderSize))
    (hos : ∀ r ∈ c.files, r.ent.size = 0 ∨ r.orderSize = (r.ent.size : Int))
    (hlow : ∀ r ∈ c.files, r.orderSize ≤ (r.ent.size : Int))
    (hH : ∀ r ∈ c.files, r.ent.size ≠ 0 → r.hdr = H) : NoFitAfterBig b (c.dirs ++ c.files) := by
  intro pre r post heq hbig s hs
  have hr : r ∈ c.dirs ++ c.files := by rw [heq]; simp
  have hrf : r.ent.size ≠ 0 := by
    intro h0; have := (hc.hdr r hr).2; omega
  rcases List.append_eq_append_iff.1 heq with ⟨a, h1, h2⟩ | ⟨a, h1, h2⟩
  · -- r among the files
    have hrm : r ∈ c.files := by rw [h2]; simp
    have hsm : s ∈ c.files := by rw [h2]; simp [hs]
    rw [h2] at hsort
    have hp := (List.pairwise_append.1 hsort).2.1
    have hrs := (List.pairwise_cons.1 hp).1 s hs
    have hsf : s.ent.size ≠ 0 := by
      intro h0
      have := hlow s hsm
      have h3 := (hos r hrm).resolve_left hrf
      omega
    have h3 := (hos r hrm).resolve_left hrf
    have h4 := (hos s hsm).resolve_left hsf
    rw [hH r hrm hrf] at hbig
    rw [hH s hsm hsf]
    omega
  · -- r among the directories: impossible
    cases a with
    | nil =>
      simp only [List.nil_append] at h2
      have hrm : r ∈ c.files := by rw [← h2]; simp
      have hsm : s ∈ c.files := by rw [← h2]; simp [hs]
      rw [← h2] at hsort
      have hrs := (List.pairwise_cons.1 hsort).1 s hs
      have hsf : s.ent.size ≠ 0 := by
        intro h0
        have := hlow s hsm
        have h3 := (hos r hrm).resolve_left hrf
        omega
      have h3 := (hos r hrm).resolve_left hrf
      have h4 := (hos s hsm).resolve_left hsf
      rw [hH r hrm hrf] at hbig
      rw [hH s hsm hsf]
      omega
    | cons z a =>
      simp only [List.cons_append, List.cons.injEq] at h2
      obtain ⟨rfl, h2⟩ := h2
      have : r ∈ c.dirs := by rw [h1]; simp
      exact absurd (hc.dirs r this) hrf

/-- A 600-byte name. -/
def longName : Bytes := List.replicate 600 97

theorem longName_length : longName.length = 600 := List.length_replicate ..

/-- The three entries of the counterexample: a directory, a file with a 600-byte path and a file
with a 1-byte path, both of `b - 1024` bytes. -/
def overflowColl (b : Nat) : Coll :=
  { dirs := [⟨-12, ⟨[], .dir, [], 0⟩, 512⟩],
    files := [⟨(b - 1024 : Nat), ⟨longName, .reg, [], b - 1024⟩, 2048⟩,
              ⟨(b - 1024 : Nat), ⟨[98], .reg, [], b - 1024⟩, 512⟩] }

/-- **C13, violated by the code**: for every bucket size (multiple of 512) the collection of a
directory and two files of equal size, one with a path long enough for a 2048-byte header, is in
order, has the header sizes the tool computes, and is planned into a bundle of bucket + 512 bytes. -/
theorem C13_overflow (idx : Int) (b : Nat) (hb : b % 512 = 0) (hb5 : 100000 ≤ b) (hbm : b < 2 ^ 33) :
    CollOk b (overflowColl b) ∧
    (∀ r ∈ (overflowColl b).dirs ++ (overflowColl b).files, mkRef [47, 116] r.ent = .ok r) ∧
    (overflowColl b).files.Pairwise (fun a b => a.orderSize ≤ b.orderSize) ∧
    ∃ bundles, createOrders idx b 0 (setOffsets (overflowColl b)) = some bundles ∧
      ∃ l ∈ bundles, up512 (endOf l) - startOf l = b + 512 := by
  have hnb : ∀ n : Nat, n % 512 = 0 → nextBlock n = n := by
    intro n hn; rw [nextBlock_eq]; unfold up512; omega
  refine ⟨?_, ?_, ?_, ?_⟩
  · constructor
    · simp [overflowColl]
    · simp [overflowColl]; omega
    · simp [overflowColl]
      refine ⟨?_, ?_⟩
      · intro h; have := congrArg List.length h; simp [longName_length] at this
      · intro h; have := congrArg List.length h; simp [longName_length] at this
  · have hm : maxFileSize = 8589934591 := rfl
    have hcomp : ∀ (e : Ent), e.target = [] → (e.size : Int) < 2 ^ 33 - 1 →
        headerSize [47, 116] e = .ok (blk + paxHdrSz (recTexts
          (if ([47, 116] ++ [47] ++ e.rel).length > 100 then [(kwPath, [47, 116] ++ [47] ++ e.rel)]
           else [])).length) := by
      intro e ht hs
      unfold headerSize computeHdrSize absolutePath
      rw [hdrSize_eq, ht]
      have : ¬ ((e.size : Int) > maxFileSize) := by rw [hm]; omega
      simp [paxPairs, this]
    intro r hr
    simp only [overflowColl, List.cons_append, List.nil_append, List.mem_cons,
      List.not_mem_nil, or_false] at hr
    rcases hr with rfl | rfl | rfl
    · decide +kernel
    · unfold mkRef
      rw [hcomp _ rfl (by simp only; omega)]
      have hh : (blk + paxHdrSz (recTexts
          (if ([47, 116] ++ [47] ++ longName).length > 100 then
            [(kwPath, [47, 116] ++ [47] ++ longName)]
           else [])).length) = 2048 := by decide +kernel
      simp only [bind, Except.bind, hh]
      simp [pure, Except.pure]
    · unfold mkRef
      rw [hcomp _ rfl (by simp only; omega)]
      have hh : (blk + paxHdrSz (recTexts
          (if ([47, 116] ++ [47] ++ [(98:UInt8)]).length > 100 then
            [(kwPath, [47, 116] ++ [47] ++ [98])]
           else [])).length) = 512 := by decide +kernel
      simp only [bind, Except.bind, hh]
      simp [pure, Except.pure]
  · simp [overflowColl]
  · have hplan : createOrders idx b 0 (setOffsets (overflowColl b)) = some
        [[orderRaw idx ⟨[], .dir, [], 0⟩ 0 512 0 0],
         [orderRaw idx ⟨longName, .reg, [], b - 1024⟩ (b - 2048) 2048 512 0],
         [orderRaw idx ⟨longName, .reg, [], b - 1024⟩ 1024 0 (512 + b) (b - 2048),
          orderRaw idx ⟨[98], .reg, [], b - 1024⟩ (b - 1024) 512 (b + 1536) 0]] := by
      have e1 : nextBlock (0 + (512 + 0)) = 512 := by rw [hnb _ (by omega)]
      have e2 : nextBlock (512 + (2048 + (b - 1024))) = b + 1536 := by rw [hnb _ (by omega)]; omega
      have e4 : nextBlock 512 = 512 := hnb _ (by omega)
      have e5 : nextBlock (512 + (b - 1024)) = b - 512 := by rw [hnb _ (by omega)]; omega
      have e6 : usub64 b 2048 = b - 2048 := usub64_of_le (by omega)
      have e7 : 2048 + (b - 1024) - b = 1024 := by omega
      have e8 : nextBlock (512 + b + 1024) = b + 1536 := by rw [hnb _ (by omega)]; omega
      have c1 : ¬ (2048 + (b - 1024) ≤ b) := by omega
      have c2 : 512 + (b - 1024) ≤ b := by omega
      have c3 : ¬ (b < 100000) := by omega
      have c4 : ¬ (512 + (b - 512) > b ∨ (0 > 0 ∧ 1 ≥ 0)) := by omega
      have c5 : ¬ (0 + 512 > b ∨ (0 > 0 ∧ 0 ≥ 0)) := by omega
      have c6 : ¬ (b < 1024 ∧ 0 < b) := by omega
      have c7 : 512 ≤ b := by omega
      unfold createOrders
      rw [if_neg c3, if_neg (by simp [setOffsets, overflowColl, placeFrom])]
      simp only [setOffsets, overflowColl, placeFrom, e1, e2]
      simp only [List.foldl_cons, List.foldl_nil, dirStep, c7, if_true, smallStep, planInit, e4, c5,
        if_false, List.nil_append, Nat.zero_add, fileStep, c1, bigStep, ne_eq, reduceCtorEq,
        not_false_eq_true, List.cons_ne_nil, e6, e7]
      rw [bigLoop, dif_neg c6]
      have c8 : ¬ (b < 512 + (b - 512)) := by omega
      simp only [e8, e5, List.nil_append, List.cons_append, if_pos c2]
      simp [orderOf, orderRaw, c8]
    refine ⟨_, hplan, _, List.mem_cons_of_mem _ (List.mem_cons_of_mem _ (List.mem_cons_self ..)), ?_⟩
    simp only [endOf, startOf, List.getLast?_cons_cons, List.getLast?_singleton, List.head?_cons,
      Order.stop, orderRaw]
    unfold up512; omega

/-! ### C14 -/

/-- **C14** No bundle is empty, and none has more orders than the limit when there is one. -/
theorem C14_limit (idx : Int) (b mx : Nat) (c : Coll) (bundles : List (List Order))
    (hb : b % 512 = 0) (hc : CollOk b c) (h : createOrders idx b mx (setOffsets c) = some bundles) :
    ∀ l ∈ bundles, l ≠ [] ∧ (0 < mx → l.length ≤ mx) := by
  obtain ⟨hflat, hs, hhdr, hnd, hcont, st, hst, hbun, hb5, hne⟩ := plan_flat hc h
  have hA := invA_foldl (idx := idx) (b := b) (mx := mx) hb (setOffsets c).all planInit (invA_init mx)
  have hcur := foldl_cur (idx := idx) (b := b) (mx := mx) (setOffsets c).all planInit (Or.inl hne)
  rw [← hst] at hA hcur
  intro l hl
  rw [hbun] at hl
  rcases List.mem_append.1 hl with hl | hl
  · exact hA.done l hl
  · simp at hl; subst hl; exact ⟨hcur, hA.lim⟩

/-- **C14** Without a limit a bundle is only closed when the next order does not fit in the same
bucket (same proviso as C13). -/
theorem C14_greedy_partial (idx : Int) (b : Nat) (c : Coll) (bundles : List (List Order))
    (hb : b % 512 = 0) (hc : CollOk b c) (hnf : NoFitAfterBig b (c.dirs ++ c.files))
    (h : createOrders idx b 0 (setOffsets c) = some bundles) :
    ∀ pre x y post, bundles = pre ++ x :: y :: post →
      ∃ o, y.head? = some o ∧ b < up512 (Order.stop o) - startOf x := by
  obtain ⟨hflat, hs, hhdr, hnd, hcont, st, hst, hbun, hb5, hne⟩ := plan_flat hc h
  have hrefs : (setOffsets c).all.map Placed.ref = c.dirs ++ c.files := by
    rw [setOffsets_all, placeFrom_refs]
  rw [← hrefs] at hnf
  obtain ⟨xs, ys, hxy, hx, hy⟩ := split_fits b _ hnf
  rw [hxy] at hs hhdr hcont
  have hx1 := fun p hp => hs p (List.mem_append_left ys hp)
  have hB := foldl_invB (idx := idx) (mx := 0) hb xs planInit hx1 hx (contiguous_append hcont) (invB_init b)
  have hA := invA_foldl (idx := idx) (b := b) (mx := 0) hb xs planInit (invA_init 0)
  have had := foldl_adj_small (idx := idx) hb xs planInit hx1 hx (contiguous_append hcont)
    (invB_init b) (invA_init 0) (by
      intro pre u v post heq
      rcases pre with _ | ⟨z, pre⟩ <;> simp [planInit] at heq)
  have hstart : (xs.foldl (fileStep idx b 0) planInit).cur ≠ [] →
      startOf (xs.foldl (fileStep idx b 0) planInit).cur < (xs.foldl (fileStep idx b 0) planInit).posArch := by
    intro hne'
    have h1 := (hB.cur hne').1
    have h2 := (hB.cur hne').2
    -- the open bundle has a positive extent because headers do
    rcases xs.eq_nil_or_concat with hxs | ⟨xs', p, hxs⟩
    · subst hxs; simp [planInit] at hne'
    · have hp : p ∈ xs := by rw [hxs]; simp
      have hh := (hhdr p (List.mem_append_left _ hp)).1
      have hfp : p.ref.hdr + p.ref.ent.size ≤ b := hx p hp
      have hpb : 0 < (xs.foldl (fileStep idx b 0) planInit).posBucket := by
        rw [hxs, List.concat_eq_append, List.foldl_append]
        simp only [List.foldl_cons, List.foldl_nil]
        unfold fileStep
        rw [if_pos hfp]
        unfold smallStep
        have : 0 < nextBlock (p.ref.hdr + p.ref.ent.size) := by
          rw [nextBlock_eq]; have := le_up512 (p.ref.hdr + p.ref.ent.size); omega
        simp only
        split <;> simp only <;> omega
      omega
  have had2 := foldl_adj_big (idx := idx) hb (by omega) ys _
    (fun p hp => (hhdr p (List.mem_append_right _ hp)).2) hy hB.al hstart hA had
  rw [← List.foldl_append, ← hxy, ← hst] at had2
  intro pre x y post heq
  have := had2 pre x y post (by rw [← hbun, heq])
  unfold Needed at this
  split at this
  · exact absurd this id
  · rename_i o ho
    exact ⟨o, ho, this⟩

/-! ### C15 -/

/-- **C15** The first bundle starts at archive offset 0, each bundle starts where the padded previous
one ends, so the padded ranges of different bundles never overlap; inside a bundle each order starts
at the padded end of the one before. -/
theorem C15_bundles_contiguous (idx : Int) (b mx : Nat) (c : Coll) (bundles : List (List Order))
    (hb : b % 512 = 0) (hc : CollOk b c) (h : createOrders idx b mx (setOffsets c) = some bundles) :
    (∀ x post, bundles = x :: post → startOf x = 0) ∧
    (∀ pre x y post, bundles = pre ++ x :: y :: post → startOf y = up512 (endOf x)) ∧
    bundles.Pairwise (fun x y => up512 (endOf x) ≤ startOf y) ∧
    (∀ pre o o' post, bundles.flatten = pre ++ o :: o' :: post → o'.pos = up512 (Order.stop o)) := by
  have hlim := C14_limit idx b mx c bundles hb hc h
  obtain ⟨hflat, hs, hhdr, hnd, hcont, _⟩ := plan_flat hc h
  have hchain := flatMap_chain idx b hb (setOffsets c).all 0 hs (fun p hp => (hhdr p hp).2) (by omega) hcont
  rw [← hflat] at hchain
  have key : ∀ (bs : List (List Order)) (w w' : Nat), (∀ l ∈ bs, l ≠ []) → ChainTo w bs.flatten w' →
      (∀ x post, bs = x :: post → startOf x = w) ∧
      (∀ pre x y post, bs = pre ++ x :: y :: post → startOf y = up512 (endOf x)) ∧
      bs.Pairwise (fun x y => up512 (endOf x) ≤ startOf y) ∧ (∀ l ∈ bs, w ≤ startOf l) := by
    intro bs
    induction bs with
    | nil => intro w w' _ _; simp
    | cons x bs ih =>
      intro w w' hne hch
      rw [List.flatten_cons, chainTo_append] at hch
      obtain ⟨m, h1, h2⟩ := hch
      have hx := hne x (by simp)
      have hs := chainTo_start h1 hx
      have he := chainTo_end h1 hx
      have hle := chainTo_le h1
      obtain ⟨i1, i2, i3, i4⟩ := ih m w' (fun l hl => hne l (by simp [hl])) h2
      refine ⟨?_, ?_, ?_, ?_⟩
      · intro y post heq; simp at heq; rw [← heq.1]; exact hs
      · intro pre u v post heq
        cases pre with
        | nil =>
          simp only [List.nil_append, List.cons.injEq] at heq
          obtain ⟨rfl, heq⟩ := heq
          rw [i1 v post heq, he]
        | cons z pre =>
          simp only [List.cons_append, List.cons.injEq] at heq
          exact i2 pre u v post heq.2
      · rw [List.pairwise_cons]
        refine ⟨fun y hy => ?_, i3⟩
        rw [← he]; exact i4 y hy
      · intro l hl
        rcases List.mem_cons.1 hl with rfl | hl
        · omega
        · have := i4 l hl; omega
  obtain ⟨k1, k2, k3, _⟩ := key bundles 0 _ (fun l hl => (hlim l hl).1) hchain
  refine ⟨k1, k2, k3, ?_⟩
  intro pre o o' post heq
  rw [heq, chainTo_append] at hchain
  obtain ⟨m, _, h2⟩ := hchain
  simp only [ChainTo] at h2
  exact h2.2.1

/-! ### C16 -/

/-- **C16** There is no plan exactly when the bucket is below 100000 bytes or there is nothing to
archive. -/
theorem C16_refused_iff (idx : Int) (b mx : Nat) (c : Coll) :
    createOrders idx b mx (setOffsets c) = none ↔ b < 100000 ∨ (c.dirs = [] ∧ c.files = []) := by
  have h1 : (setOffsets c).dirs = [] ↔ c.dirs = [] := by
    cases hcd : c.dirs <;> simp [setOffsets, hcd, placeFrom]
  have h2 : (setOffsets c).files = [] ↔ c.files = [] := by
    cases hcd : c.files <;> simp [setOffsets, hcd, placeFrom]
  unfold createOrders
  rw [← h1, ← h2]
  by_cases hb : b < 100000
  · simp [hb]
  · by_cases h : (setOffsets c).dirs = [] ∧ (setOffsets c).files = []
    · simp [h]
    · simp only [hb, h, if_false]; simp

/-! ### scans deliver what the planner needs -/

/-- A header is never longer than 20000 bytes when path and link target are shorter than 4096. -/
theorem headerSize_bounds (base : Bytes) (e : Ent) (n : Nat) (h : headerSize base e = .ok n)
    (hp : base.length + 1 + e.rel.length ≤ 4096) (ht : e.target.length ≤ 4096) :
    512 ≤ n ∧ n % 512 = 0 ∧ n ≤ 20000 := by
  unfold headerSize computeHdrSize at h
  rw [hdrSize_eq] at h
  have := Except.ok.inj h
  have a := recText_length_le kwPath (absolutePath base e)
  have b := recText_length_le kwLinkpath e.target
  have c := recText_length_le kwSize (digits 10 (u64 e.size))
  have d : (digits 10 (u64 e.size)).length ≤ 20 := by
    apply digits_length_le (by omega) _ _ (by omega)
    have : u64 e.size < 2 ^ 64 := by unfold u64; omega
    omega
  have k1 : kwPath.length = 4 := rfl
  have k2 : kwLinkpath.length = 8 := rfl
  have k3 : kwSize.length = 4 := rfl
  have k4 : (absolutePath base e).length = base.length + 1 + e.rel.length := by
    simp [absolutePath]; omega
  have hl : (recTexts (paxPairs
      { offset := 0, stat := { kind := .reg, perm := 0, uid := 0, gid := 0, size := e.size, mtime := 0 },
        filename := absolutePath base e, linkname := e.target })).length ≤ 18000 := by
    unfold paxPairs
    simp only
    split <;> split <;> split <;> simp [recTexts] <;> omega
  rw [← this]
  unfold paxHdrSz roundToBlock blk
  split <;> omega

/-- A scan of a legal tree whose absolute paths and link targets are shorter than 4096 bytes
(PATH_MAX) delivers what the planner needs, for any bucket size it accepts, before or after
ordering. -/
theorem scan_collOk (S : StdSort Ref) (g : Bytes → UInt8) (base : Bytes) (root : FNode)
    (hd : ScanSpec.IsDir root) (hok : ScanSpec.TreeOk root) (hg : ∀ r, g r = 0)
    (hlen : ∀ p n e, ScanSpec.Seen root p n → ScanSpec.describe p n = some e →
      base.length + 1 + e.rel.length ≤ 4096 ∧ e.target.length ≤ 4096)
    (b : Nat) (hb : 100000 ≤ b) (c : Coll) (h : scan g base root = .ok c) :
    CollOk b c ∧ CollOk b (orderFiles S c) := by
  obtain ⟨c', h', hex, hnd, hdk, _⟩ := C07_scan_exact g base root hd hok hg
  rw [h] at h'
  have := Except.ok.inj h'
  subst this
  have hm : ∀ r ∈ c.dirs ++ c.files, mkRef base r.ent = .ok r := by
    unfold scan at h
    split at h
    · cases h
    · exact (collect_spec h).2.2
  have h1 : CollOk b c := by
    constructor
    · intro r hr
      have hk := hdk r hr
      obtain ⟨p, n, _, hdesc⟩ := (hex r.ent).1 (List.mem_map.2 ⟨r, List.mem_append_left _ hr, rfl⟩)
      cases n <;> simp [ScanSpec.describe] at hdesc
      · rw [← hdesc] at hk; simp at hk
      · rw [← hdesc] at hk; simp at hk
      · rw [← hdesc]
    · intro r hr
      obtain ⟨p, n, hs, hdesc⟩ := (hex r.ent).1 (List.mem_map.2 ⟨r, hr, rfl⟩)
      have hl := hlen p n r.ent hs hdesc
      have := hm r hr
      unfold mkRef at this
      simp only [bind, Except.bind] at this
      split at this
      · cases this
      · rename_i n' hn
        have h2 := congrArg Ref.hdr (Except.ok.inj this)
        have hbd := headerSize_bounds base r.ent n' hn hl.1 hl.2
        simp only at h2
        omega
    · exact hnd
  refine ⟨h1, ?_⟩
  have hp := (C09_order_files S c).2.1
  have hpall : ((orderFiles S c).dirs ++ (orderFiles S c).files).Perm (c.dirs ++ c.files) :=
    List.Perm.append_left _ hp
  constructor
  · exact h1.dirs
  · intro r hr; exact h1.hdr r (hpall.mem_iff.1 hr)
  · exact (hpall.map _).nodup_iff.2 h1.nodup

/-! ### a concrete plan -/

/-- A directory, an empty file, a file that fits and one of 250000 bytes, for a bucket of 102400. -/
def demoColl : Coll :=
  { dirs := [⟨-12, ⟨[], .dir, [], 0⟩, 512⟩],
    files := [⟨0, ⟨[97], .reg, [], 0⟩, 512⟩, ⟨5000, ⟨[98], .reg, [], 5000⟩, 512⟩,
              ⟨250000, ⟨[99], .reg, [], 250000⟩, 512⟩] }

theorem demoColl_ok : CollOk 102400 demoColl ∧
    NoFitAfterBig 102400 (demoColl.dirs ++ demoColl.files) := by
  constructor
  · constructor <;> simp [demoColl]
  · apply C13_uniform_headers_ok 102400 512 demoColl
    · constructor <;> simp [demoColl]
    · simp [demoColl]
    · simp [demoColl]
    · simp [demoColl]
    · simp [demoColl]

/-- The plan of `demoColl`, computed: four bundles, the big file in three fragments. -/
example : (createOrders 0 102400 0 (setOffsets demoColl)).map
    (fun bs => bs.map (fun l => l.map (fun o => (o.pos, o.hdr, o.size, o.off)))) =
    some [[(0, 512, 0, 0), (512, 512, 0, 0), (1024, 512, 5000, 0)],
          [(6656, 512, 101888, 0)], [(109056, 0, 102400, 101888)], [(211456, 0, 45712, 204288)]] := by
  decide +kernel

example : ∀ l ∈ (createOrders 0 102400 0 (setOffsets demoColl)).getD [],
    up512 (endOf l) - startOf l ≤ 102400 := by
  cases h : createOrders 0 102400 0 (setOffsets demoColl) with
  | none => simp
  | some bs =>
    exact C13_bundle_fits_partial 0 102400 0 demoColl bs (by decide) demoColl_ok.1 demoColl_ok.2 h

/-- The hypotheses of the planner's theorems are met by a real scan. -/
example : ∃ c bundles, scan (fun _ => 0) [47, 116] demoTree = .ok c ∧
    CollOk 4992000 (orderFiles demoSort c) ∧
    createOrders 0 4992000 0 (setOffsets (orderFiles demoSort c)) = some bundles := by
  obtain ⟨c, h, hex, _⟩ := C07_scan_exact (fun _ => 0) [47, 116] demoTree demoTree_ok.1 demoTree_ok.2
    (fun _ => rfl)
  have hents : (scan (fun _ => 0) [47, 116] demoTree).map (fun c => (c.dirs ++ c.files).map Ref.ent) =
    .ok [⟨[], .dir, [], 0⟩, ⟨[100], .dir, [], 0⟩, ⟨[101], .dir, [], 0⟩, ⟨[98], .reg, [], 3⟩,
      ⟨[100, 47, 46, 104], .reg, [], 1⟩, ⟨[100, 47, 108], .lnk, [116], 0⟩] := by
    decide +kernel
  rw [h] at hents
  have hents' := Except.ok.inj hents
  have hok := (scan_collOk demoSort (fun _ => 0) [47, 116] demoTree demoTree_ok.1 demoTree_ok.2
    (fun _ => rfl) (by
      intro p n e hs hd
      have := (hex e).2 ⟨p, n, hs, hd⟩
      simp only at hents'
      rw [hents'] at this
      simp at this
      rcases this with rfl | rfl | rfl | rfl | rfl | rfl <;> simp) 4992000 (by omega) c h).2
  cases hcr : createOrders 0 4992000 0 (setOffsets (orderFiles demoSort c)) with
  | none =>
    have := (C16_refused_iff _ _ _ _).1 hcr
    rcases this with h1 | h1
    · omega
    · have : c.dirs = [] := h1.1
      have h2 := congrArg List.length hents'
      have hperm := (C09_order_files demoSort c).2.1
      rw [h1.2] at hperm
      have hl := hperm.length_eq
      simp [this] at h2
      simp at hl
      omega
  | some bundles => exact ⟨c, bundles, h, hok, hcr⟩

end Parfu.Props
