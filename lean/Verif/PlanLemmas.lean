/-
Helper lemmas for the planner.
-/
import Verif.PlanSpec
set_option autoImplicit false

namespace Parfu
open PlanSpec

theorem nextBlock_eq (n : Nat) : nextBlock n = up512 n := by
  unfold nextBlock up512 blk; split <;> omega

theorem up512_add {w : Nat} (h : w % 512 = 0) (n : Nat) : up512 (w + n) = w + up512 n := by
  unfold up512; omega

theorem up512_mod (n : Nat) : up512 n % 512 = 0 := by unfold up512; omega

theorem le_up512 (n : Nat) : n ≤ up512 n := by unfold up512; omega

theorem up512_le {n b : Nat} (hb : b % 512 = 0) (h : n ≤ b) : up512 n ≤ b := by unfold up512; omega

/-! ### the comparator -/

theorem sortBySize_strictWeak : StrictWeak sortBySize := by
  constructor
  · intro a; simp [sortBySize]
  · intro a b c; simp [sortBySize]; omega
  · intro a b c; simp [sortBySize]; omega

/-! ### offsets -/

theorem placeFrom_refs (w : Nat) (rs : List Ref) : (placeFrom w rs).1.map Placed.ref = rs := by
  induction rs generalizing w with
  | nil => rfl
  | cons r rs ih => simp [placeFrom, ih]

theorem placeFrom_slices (w : Nat) (rs : List Ref) :
    ∀ p ∈ (placeFrom w rs).1, p.slice.hdr = p.ref.hdr ∧ p.slice.size = p.ref.ent.size ∧
      p.slice.offFile = 0 := by
  induction rs generalizing w with
  | nil => simp [placeFrom]
  | cons r rs ih =>
    intro p hp
    simp only [placeFrom, List.mem_cons] at hp
    rcases hp with rfl | hp
    · simp
    · exact ih _ p hp

theorem placeFrom_append (w : Nat) (rs ss : List Ref) :
    (placeFrom w (rs ++ ss)).1 = (placeFrom w rs).1 ++ (placeFrom (placeFrom w rs).2 ss).1 := by
  induction rs generalizing w with
  | nil => rfl
  | cons r rs ih => simp [placeFrom, ih]

theorem placeFrom_contiguous (w : Nat) (rs : List Ref) : Contiguous w (placeFrom w rs).1 := by
  induction rs generalizing w with
  | nil => simp [placeFrom, Contiguous]
  | cons r rs ih =>
    simp only [placeFrom, Contiguous, true_and]
    rw [nextBlock_eq, Nat.add_assoc]
    exact ih _

/-- All placed entries, in archive order. -/
def PColl.all (c : PColl) : List Placed := c.dirs ++ c.files

theorem setOffsets_all (c : Coll) : (setOffsets c).all = (placeFrom 0 (c.dirs ++ c.files)).1 := by
  simp [setOffsets, PColl.all, placeFrom_append]

/-! ### the fragments of one entry -/

/-- The fragments after the first. -/
def restFrags (idx : Int) (b : Nat) (e : Ent) (rem pos off : Nat) : List Order :=
  if _h : b < rem ∧ 0 < b then
    orderRaw idx e b 0 pos off :: restFrags idx b e (rem - b) (pos + b) (off + b)
  else if 0 < rem then [orderRaw idx e rem 0 pos off]
  else []
termination_by rem
decreasing_by omega

/-- The orders for one entry. -/
def frags (idx : Int) (b : Nat) (p : Placed) : List Order :=
  if p.ref.hdr + p.ref.ent.size ≤ b then [orderOf idx p]
  else orderRaw idx p.ref.ent (usub64 b p.ref.hdr) p.ref.hdr p.slice.offArch 0 ::
    restFrags idx b p.ref.ent (p.ref.hdr + p.ref.ent.size - b) (p.slice.offArch + b)
      (usub64 b p.ref.hdr)

/-- All orders so far. -/
def PState.flat (st : PState) : List Order := (st.done ++ [st.cur]).flatten

theorem bigLoop_flat (idx : Int) (b : Nat) (e : Ent) (rem off : Nat) (st : PState) :
    (bigLoop idx b e rem off st).flat = st.flat ++ restFrags idx b e rem st.posArch off := by
  fun_induction bigLoop idx b e rem off st with
  | case1 rem off st h ih =>
    rw [ih]
    conv => rhs; rw [restFrags]
    simp [h, PState.flat]
  | case2 rem off st h h0 =>
    rw [restFrags]; simp [h, h0, PState.flat]
  | case3 rem off st h h0 =>
    rw [restFrags]; simp [h, h0]

theorem bigLoop_pos (idx : Int) (b : Nat) (e : Ent) (rem off : Nat) (st : PState) (hr : 0 < rem) :
    (bigLoop idx b e rem off st).posArch = up512 (st.posArch + rem) := by
  fun_induction bigLoop idx b e rem off st with
  | case1 rem off st h ih => rw [ih (by omega)]; simp only; congr 1; omega
  | case2 rem off st h h0 => rw [← nextBlock_eq]
  | case3 rem off st h h0 => exact absurd hr h0

theorem smallStep_flat (idx : Int) (b mx ext : Nat) (st : PState) (p : Placed) :
    (smallStep idx b mx ext st p).flat = st.flat ++ [orderOf idx p] := by
  unfold smallStep
  simp only
  split <;> simp [PState.flat]

theorem smallStep_pos (idx : Int) (b mx ext : Nat) (st : PState) (p : Placed) :
    (smallStep idx b mx ext st p).posArch = st.posArch + up512 ext := by
  unfold smallStep
  simp only
  split <;> simp [nextBlock_eq]

theorem fileStep_flat (idx : Int) (b mx : Nat) (st : PState) (p : Placed)
    (hpos : st.posArch = p.slice.offArch) :
    (fileStep idx b mx st p).flat = st.flat ++ frags idx b p := by
  unfold fileStep frags
  split
  · exact smallStep_flat ..
  · unfold bigStep
    simp only
    rw [bigLoop_flat]
    simp only
    split
    · simp [PState.flat, hpos]
    · rename_i hc
      simp only [ne_eq, Decidable.not_not] at hc
      simp [PState.flat, hpos, hc]

theorem fileStep_pos (idx : Int) (b mx : Nat) (st : PState) (p : Placed)
    (hm : st.posArch % 512 = 0) :
    (fileStep idx b mx st p).posArch = up512 (st.posArch + p.ref.hdr + p.ref.ent.size) := by
  unfold fileStep
  split
  · rw [smallStep_pos, Nat.add_assoc, up512_add hm]
  · unfold bigStep
    simp only
    rw [bigLoop_pos _ _ _ _ _ _ (by omega)]
    simp only
    have : ∀ x : Nat, x + b + (p.ref.hdr + p.ref.ent.size - b) = x + p.ref.hdr + p.ref.ent.size := by
      intro x; omega
    split <;> rw [this]

theorem foldl_flat (idx : Int) (b mx : Nat) (ps : List Placed) (st : PState)
    (hm : st.posArch % 512 = 0) (hc : Contiguous st.posArch ps) :
    (ps.foldl (fileStep idx b mx) st).flat = st.flat ++ ps.flatMap (frags idx b) := by
  induction ps generalizing st with
  | nil => simp
  | cons p ps ih =>
    simp only [Contiguous] at hc
    simp only [List.foldl_cons, List.flatMap_cons]
    rw [ih]
    · rw [fileStep_flat _ _ _ _ _ hc.1.symm, List.append_assoc]
    · rw [fileStep_pos _ _ _ _ _ hm]; exact up512_mod _
    · rw [fileStep_pos _ _ _ _ _ hm]; exact hc.2

theorem dirStep_eq (idx : Int) (b mx : Nat) (st : PState) (p : Placed) (h0 : p.ref.ent.size = 0)
    (hb : p.ref.hdr ≤ b) : dirStep idx b mx st p = fileStep idx b mx st p := by
  unfold dirStep fileStep
  simp [h0, hb]

theorem foldl_dirStep (idx : Int) (b mx : Nat) (ps : List Placed) (st : PState)
    (h : ∀ p ∈ ps, p.ref.ent.size = 0 ∧ p.ref.hdr ≤ b) :
    ps.foldl (dirStep idx b mx) st = ps.foldl (fileStep idx b mx) st := by
  induction ps generalizing st with
  | nil => rfl
  | cons p ps ih =>
    simp only [List.foldl_cons]
    rw [dirStep_eq _ _ _ _ _ (h p (by simp)).1 (h p (by simp)).2, ih _ (fun q hq => h q (by simp [hq]))]

/-- The plan as one fold over all entries. -/
theorem createOrders_eq (idx : Int) (b mx : Nat) (c : PColl) (bundles : List (List Order))
    (hd : ∀ p ∈ c.dirs, p.ref.ent.size = 0 ∧ p.ref.hdr ≤ b)
    (h : createOrders idx b mx c = some bundles) :
    ∃ st, st = c.all.foldl (fileStep idx b mx) planInit ∧ bundles = st.done ++ [st.cur] ∧
      100000 ≤ b ∧ c.all ≠ [] := by
  unfold createOrders at h
  split at h
  · cases h
  split at h
  · cases h
  rename_i h1 h2
  rw [foldl_dirStep _ _ _ _ _ hd] at h
  refine ⟨_, rfl, ?_, by omega, ?_⟩
  · have := Option.some.inj h
    rw [← this, PColl.all, List.foldl_append]
  · intro hh
    apply h2
    simpa [PColl.all] using hh

/-! ### counting -/

theorem restFrags_rel (idx : Int) (b : Nat) (e : Ent) (rem pos off : Nat) :
    ∀ o ∈ restFrags idx b e rem pos off, o.idx = idx ∧ o.rel = e.rel ∧ o.kind = e.kind ∧
      o.target = e.target ∧
      o.hdr = 0 ∧ off ≤ o.off ∧ o.off + o.size ≤ off + rem ∧ o.pos + off = pos + o.off ∧ 0 < o.size := by
  fun_induction restFrags idx b e rem pos off with
  | case1 rem pos off h ih =>
    intro o ho
    rcases List.mem_cons.1 ho with rfl | ho
    · simp [orderRaw]; omega
    · have := ih o ho
      refine ⟨this.1, this.2.1, this.2.2.1, this.2.2.2.1, this.2.2.2.2.1, ?_, ?_, ?_, this.2.2.2.2.2.2.2.2⟩ <;> omega
  | case2 rem pos off h h0 =>
    intro o ho
    simp only [List.mem_singleton] at ho
    subst ho
    simp [orderRaw, h0]
  | case3 => simp

theorem moves_orderRaw (idx : Int) (e : Ent) (size hdr pos off i : Nat) :
    (Moves (orderRaw idx e size hdr pos off) e.rel i = true) ↔ (off ≤ i ∧ i < off + size) := by
  simp [Moves, orderRaw]

theorem restFrags_count (idx : Int) (b : Nat) (e : Ent) (rem pos off i : Nat) :
    (restFrags idx b e rem pos off).countP (fun o => Moves o e.rel i) =
      if off ≤ i ∧ i < off + rem then 1 else 0 := by
  fun_induction restFrags idx b e rem pos off with
  | case1 rem pos off h ih =>
    rw [List.countP_cons, ih]
    simp only [moves_orderRaw]
    by_cases h1 : off ≤ i ∧ i < off + b <;> by_cases h2 : off + b ≤ i ∧ i < off + b + (rem - b) <;>
      by_cases h3 : off ≤ i ∧ i < off + rem <;>
      first
        | rw [if_pos h1] | rw [if_neg h1]
    all_goals first
        | rw [if_pos h2] | rw [if_neg h2]
    all_goals first
        | rw [if_pos h3] | rw [if_neg h3]
    all_goals omega
  | case2 rem pos off h h0 =>
    simp only [List.countP_cons, List.countP_nil, moves_orderRaw]
    omega
  | case3 rem pos off h h0 => simp; omega

theorem usub64_of_le {a b : Nat} (h : b ≤ a) : usub64 a b = a - b := by unfold usub64; rw [if_pos h]

/-- What every order for an entry looks like. -/
theorem frags_spec (idx : Int) (b : Nat) (p : Placed)
    (hs : p.slice.hdr = p.ref.hdr ∧ p.slice.size = p.ref.ent.size ∧ p.slice.offFile = 0)
    (hb : p.ref.hdr ≤ b) :
    ∀ o ∈ frags idx b p, o.idx = idx ∧ o.rel = p.ref.ent.rel ∧ o.kind = p.ref.ent.kind ∧
      o.target = p.ref.ent.target ∧ (o.hdr = 0 ∨ o.hdr = p.ref.hdr) ∧
      o.off + o.size ≤ p.ref.ent.size ∧
      o.pos + o.hdr = p.slice.offArch + p.ref.hdr + o.off ∧
      (o.hdr ≠ 0 → o.pos = p.slice.offArch ∧ o.off = 0) := by
  intro o ho
  unfold frags at ho
  split at ho
  · simp only [List.mem_singleton] at ho
    subst ho
    simp [orderOf, orderRaw, hs]
  · rename_i hbig
    rcases List.mem_cons.1 ho with rfl | ho
    · simp [orderRaw, usub64_of_le hb]; omega
    · have := restFrags_rel _ _ _ _ _ _ o ho
      rw [usub64_of_le hb] at this
      refine ⟨this.1, this.2.1, this.2.2.1, this.2.2.2.1, Or.inl this.2.2.2.2.1, ?_, ?_, ?_⟩
      · omega
      · omega
      · intro h; exact absurd this.2.2.2.2.1 h

theorem frags_count (idx : Int) (b : Nat) (p : Placed)
    (hs : p.slice.hdr = p.ref.hdr ∧ p.slice.size = p.ref.ent.size ∧ p.slice.offFile = 0)
    (hb : p.ref.hdr ≤ b) (i : Nat) :
    (frags idx b p).countP (fun o => Moves o p.ref.ent.rel i) = if i < p.ref.ent.size then 1 else 0 := by
  unfold frags
  split
  · simp [orderOf, orderRaw, hs, Moves]
  · rename_i hbig
    rw [List.countP_cons, restFrags_count]
    simp only [moves_orderRaw]
    rw [usub64_of_le hb]
    by_cases h1 : b - p.ref.hdr ≤ i ∧ i < b - p.ref.hdr + (p.ref.hdr + p.ref.ent.size - b) <;>
      by_cases h2 : 0 ≤ i ∧ i < 0 + (b - p.ref.hdr) <;> by_cases h3 : i < p.ref.ent.size <;>
      first
        | rw [if_pos h1] | rw [if_neg h1]
    all_goals first
        | rw [if_pos h2] | rw [if_neg h2]
    all_goals first
        | rw [if_pos h3] | rw [if_neg h3]
    all_goals omega

theorem frags_heads (idx : Int) (b : Nat) (p : Placed)
    (hs : p.slice.hdr = p.ref.hdr ∧ p.slice.size = p.ref.ent.size ∧ p.slice.offFile = 0)
    (h0 : 0 < p.ref.hdr) :
    (frags idx b p).countP (fun o => Heads o p.ref.ent.rel) = 1 := by
  unfold frags
  split
  · simp [orderOf, orderRaw, hs, Heads]; omega
  · rw [List.countP_cons]
    have : (restFrags idx b p.ref.ent (p.ref.hdr + p.ref.ent.size - b) (p.slice.offArch + b)
      (usub64 b p.ref.hdr)).countP (fun o => Heads o p.ref.ent.rel) = 0 := by
      rw [List.countP_eq_zero]
      intro o ho
      have := restFrags_rel _ _ _ _ _ _ o ho
      simp [Heads, this.2.2.2.2.1]
    rw [this]
    simp [Heads, orderRaw]; omega

theorem frags_other (idx : Int) (b : Nat) (p : Placed) (rel : Bytes) (h : p.ref.ent.rel ≠ rel)
    (f : Order → Bool) (hf : ∀ o, f o = true → o.rel = rel) :
    (frags idx b p).countP f = 0 := by
  rw [List.countP_eq_zero]
  intro o ho
  have hrel : o.rel = p.ref.ent.rel := by
    unfold frags at ho
    split at ho
    · simp only [List.mem_singleton] at ho; subst ho; rfl
    · rcases List.mem_cons.1 ho with rfl | ho
      · rfl
      · exact (restFrags_rel _ _ _ _ _ _ o ho).2.1
  intro hh
  exact h (hrel ▸ hf o hh)

/-- In a list of entries with distinct paths, orders for a path come from its entry only. -/
theorem flatMap_count (idx : Int) (b : Nat) (ps : List Placed) (p : Placed) (hp : p ∈ ps)
    (hn : (ps.map (fun p => p.ref.ent.rel)).Nodup)
    (f : Order → Bool) (hf : ∀ o, f o = true → o.rel = p.ref.ent.rel) :
    (ps.flatMap (frags idx b)).countP f = (frags idx b p).countP f := by
  induction ps with
  | nil => simp at hp
  | cons q ps ih =>
    rw [List.flatMap_cons, List.countP_append]
    rw [List.map_cons, List.nodup_cons] at hn
    have hzero : ∀ qs : List Placed, (∀ q ∈ qs, q.ref.ent.rel ≠ p.ref.ent.rel) →
        (qs.flatMap (frags idx b)).countP f = 0 := by
      intro qs hqs
      induction qs with
      | nil => rfl
      | cons x qs ih =>
        rw [List.flatMap_cons, List.countP_append, frags_other idx b x _ (hqs x (by simp)) f hf,
          ih (fun q hq => hqs q (by simp [hq]))]
    rcases List.mem_cons.1 hp with rfl | hp'
    · rw [hzero ps]
      · omega
      · intro q hq heq
        exact hn.1 (List.mem_map.2 ⟨q, hq, heq⟩)
    · rw [ih hp' hn.2, frags_other idx b q _ ?_ f hf]
      · omega
      · intro heq
        exact hn.1 (List.mem_map.2 ⟨p, hp', heq.symm⟩)

/-! ### the chain of archive positions -/

/-- Orders follow each other from archive position `w` with block padding only; `w'` is the end. -/
def ChainTo : Nat → List Order → Nat → Prop
  | w, [], w' => w = w'
  | w, o :: os, w' => o.pos = w ∧ ChainTo (up512 (Order.stop o)) os w'

theorem chainTo_append {w w' : Nat} {xs ys : List Order} :
    ChainTo w (xs ++ ys) w' ↔ ∃ m, ChainTo w xs m ∧ ChainTo m ys w' := by
  induction xs generalizing w with
  | nil => simp [ChainTo]
  | cons x xs ih =>
    simp only [List.cons_append, ChainTo, ih]
    constructor
    · rintro ⟨h1, m, h2, h3⟩; exact ⟨m, ⟨h1, h2⟩, h3⟩
    · rintro ⟨m, ⟨h1, h2⟩, h3⟩; exact ⟨h1, m, h2, h3⟩

theorem restFrags_chain (idx : Int) (b : Nat) (hb : b % 512 = 0) (e : Ent) (rem pos off : Nat)
    (hp : pos % 512 = 0) (hr : 0 < rem) :
    ChainTo pos (restFrags idx b e rem pos off) (up512 (pos + rem)) := by
  fun_induction restFrags idx b e rem pos off with
  | case1 rem pos off h ih =>
    simp only [ChainTo, orderRaw, Order.stop, true_and, Nat.add_zero]
    have h1 : up512 (pos + b) = pos + b := by unfold up512; omega
    rw [h1]
    have := ih (by omega) (by omega)
    rwa [show pos + b + (rem - b) = pos + rem by omega] at this
  | case2 rem pos off h h0 =>
    simp [ChainTo, orderRaw, Order.stop]
  | case3 rem pos off h h0 => omega

theorem frags_chain (idx : Int) (b : Nat) (hb : b % 512 = 0) (p : Placed)
    (hs : p.slice.hdr = p.ref.hdr ∧ p.slice.size = p.ref.ent.size ∧ p.slice.offFile = 0)
    (hle : p.ref.hdr ≤ b) (hm : p.slice.offArch % 512 = 0) :
    ChainTo p.slice.offArch (frags idx b p) (up512 (p.slice.offArch + p.ref.hdr + p.ref.ent.size)) := by
  unfold frags
  split
  · simp [ChainTo, orderOf, orderRaw, Order.stop, hs]
  · simp only [ChainTo, orderRaw, Order.stop, true_and]
    rw [usub64_of_le hle]
    have h1 : up512 (p.slice.offArch + p.ref.hdr + (b - p.ref.hdr)) = p.slice.offArch + b := by
      unfold up512; omega
    rw [h1]
    have := restFrags_chain idx b hb p.ref.ent (p.ref.hdr + p.ref.ent.size - b) (p.slice.offArch + b)
      (b - p.ref.hdr) (by omega) (by omega)
    rwa [show p.slice.offArch + b + (p.ref.hdr + p.ref.ent.size - b) =
      p.slice.offArch + p.ref.hdr + p.ref.ent.size by omega] at this

/-- One past the last archive byte of a list of placed entries that starts at `w`, padded. -/
def endPos : Nat → List Placed → Nat
  | w, [] => w
  | w, p :: ps => endPos (up512 (w + p.ref.hdr + p.ref.ent.size)) ps

theorem flatMap_chain (idx : Int) (b : Nat) (hb : b % 512 = 0) (ps : List Placed) (w : Nat)
    (hs : ∀ p ∈ ps, p.slice.hdr = p.ref.hdr ∧ p.slice.size = p.ref.ent.size ∧ p.slice.offFile = 0)
    (hle : ∀ p ∈ ps, p.ref.hdr ≤ b) (hm : w % 512 = 0) (hc : Contiguous w ps) :
    ChainTo w (ps.flatMap (frags idx b)) (endPos w ps) := by
  induction ps generalizing w with
  | nil => simp [ChainTo, endPos]
  | cons p ps ih =>
    simp only [Contiguous] at hc
    rw [List.flatMap_cons, chainTo_append]
    obtain ⟨h1, h2⟩ := hc
    refine ⟨_, ?_, ih (up512 (w + p.ref.hdr + p.ref.ent.size)) (fun q hq => hs q (by simp [hq]))
      (fun q hq => hle q (by simp [hq])) (up512_mod _) h2⟩
    have := frags_chain idx b hb p (hs p (by simp)) (hle p (by simp)) (h1 ▸ hm)
    rwa [h1] at this

/-! ### a plan is never empty of orders -/

theorem bigLoop_cur (idx : Int) (b : Nat) (e : Ent) (rem off : Nat) (st : PState)
    (hc : st.cur ≠ []) : (bigLoop idx b e rem off st).cur ≠ [] := by
  fun_induction bigLoop idx b e rem off st with
  | case1 rem off st h ih => exact ih (by simp)
  | case2 rem off st h h0 => simp
  | case3 rem off st h h0 => exact hc

end Parfu
