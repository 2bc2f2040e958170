/-
Helper lemmas for the planner: invariants on bundles.
-/
import Verif.PlanLemmas
set_option autoImplicit false

namespace Parfu
open PlanSpec

/-! ### invariants that always hold -/

/-- Finished bundles are not empty and respect the limit, and so does the open one. -/
structure InvA (mx : Nat) (st : PState) : Prop where
  done : ∀ l ∈ st.done, l ≠ [] ∧ (0 < mx → l.length ≤ mx)
  first : st.cur = [] → st.done = [] ∧ st.posBucket = 0
  num : st.nOrders = st.cur.length
  lim : 0 < mx → st.cur.length ≤ mx

theorem invA_init (mx : Nat) : InvA mx planInit := by
  constructor <;> simp [planInit]

theorem invA_small {idx : Int} {b mx ext : Nat} {st : PState} {p : Placed} (hb : b % 512 = 0)
    (he : ext ≤ b) (h : InvA mx st) : InvA mx (smallStep idx b mx ext st p) := by
  unfold smallStep
  simp only
  split
  · rename_i hc
    have hne : st.cur ≠ [] := by
      intro h0
      have h1 := (h.first h0).2
      rcases hc with hc | hc
      · rw [h1, nextBlock_eq] at hc
        have := up512_le hb he
        omega
      · have := h.num; rw [h0] at this; simp at this; omega
    constructor
    · intro l hl
      rcases List.mem_append.1 hl with hl | hl
      · exact h.done l hl
      · simp at hl; subst hl; exact ⟨hne, h.lim⟩
    · simp
    · simp
    · simp; omega
  · rename_i hc
    constructor
    · exact h.done
    · simp
    · simp [h.num]
    · intro hm
      have := h.lim hm
      have h2 := h.num
      simp; omega

theorem invA_bigLoop {idx : Int} {b mx : Nat} {e : Ent} {rem off : Nat} {st : PState}
    (h : InvA mx st) (hc : st.cur ≠ []) : InvA mx (bigLoop idx b e rem off st) := by
  fun_induction bigLoop idx b e rem off st with
  | case1 rem off st hr ih =>
    apply ih
    · constructor
      · intro l hl
        rcases List.mem_append.1 hl with hl | hl
        · exact h.done l hl
        · simp at hl; subst hl; exact ⟨hc, h.lim⟩
      · simp
      · simp
      · simp; omega
    · simp
  | case2 rem off st hr h0 =>
    constructor
    · intro l hl
      rcases List.mem_append.1 hl with hl | hl
      · exact h.done l hl
      · simp at hl; subst hl; exact ⟨hc, h.lim⟩
    · simp
    · simp
    · simp; omega
  | case3 rem off st hr h0 => exact h

theorem invA_big {idx : Int} {b mx : Nat} {st : PState} {p : Placed}
    (h : InvA mx st) : InvA mx (bigStep idx b st p) := by
  unfold bigStep
  simp only
  apply invA_bigLoop
  · split
    · rename_i hc
      constructor
      · intro l hl
        simp only at hl
        rcases List.mem_append.1 hl with hl | hl
        · exact h.done l hl
        · simp at hl; subst hl; exact ⟨hc, h.lim⟩
      · simp
      · simp
      · simp; omega
    · rename_i hc
      simp only [ne_eq, Decidable.not_not] at hc
      have hn := h.num
      rw [hc] at hn
      simp at hn
      constructor
      · exact h.done
      · simp
      · simp [hc, hn]
      · simp [hc]; omega
  · simp

theorem invA_file {idx : Int} {b mx : Nat} {st : PState} {p : Placed} (hb : b % 512 = 0)
    (h : InvA mx st) : InvA mx (fileStep idx b mx st p) := by
  unfold fileStep
  split
  · exact invA_small hb (by assumption) h
  · exact invA_big h

theorem invA_foldl {idx : Int} {b mx : Nat} (hb : b % 512 = 0) (ps : List Placed) (st : PState)
    (h : InvA mx st) : InvA mx (ps.foldl (fileStep idx b mx) st) := by
  induction ps generalizing st with
  | nil => exact h
  | cons p ps ih => exact ih _ (invA_file hb h)

theorem smallStep_cur {idx : Int} {b mx ext : Nat} {st : PState} {p : Placed} :
    (smallStep idx b mx ext st p).cur ≠ [] := by
  unfold smallStep; simp only; split <;> simp

theorem bigStep_cur {idx : Int} {b : Nat} {st : PState} {p : Placed} :
    (bigStep idx b st p).cur ≠ [] := by
  unfold bigStep; simp only; apply bigLoop_cur; simp

theorem fileStep_cur {idx : Int} {b mx : Nat} {st : PState} {p : Placed} :
    (fileStep idx b mx st p).cur ≠ [] := by
  unfold fileStep; split
  · exact smallStep_cur
  · exact bigStep_cur

theorem foldl_cur {idx : Int} {b mx : Nat} (ps : List Placed) (st : PState)
    (h : ps ≠ [] ∨ st.cur ≠ []) : (ps.foldl (fileStep idx b mx) st).cur ≠ [] := by
  induction ps generalizing st with
  | nil => simpa using h
  | cons p ps ih => exact ih _ (Or.inr fileStep_cur)

/-! ### spans -/

/-- The padded length of a bundle. -/
def span (l : List Order) : Nat := up512 (endOf l) - startOf l

theorem endOf_append_singleton (l : List Order) (o : Order) : endOf (l ++ [o]) = Order.stop o := by
  simp [endOf]

theorem endOf_singleton (o : Order) : endOf [o] = Order.stop o := by simp [endOf]
theorem startOf_singleton (o : Order) : startOf [o] = o.pos := by simp [startOf]

theorem startOf_append {l : List Order} (h : l ≠ []) (m : List Order) :
    startOf (l ++ m) = startOf l := by
  cases l with
  | nil => exact absurd rfl h
  | cons a l => simp [startOf]

/-- What holds while only entries that fit have been met: `position_in_bucket` is right. -/
structure InvB (b : Nat) (st : PState) : Prop where
  done : ∀ l ∈ st.done, span l ≤ b
  cur : st.cur ≠ [] → st.posArch = startOf st.cur + st.posBucket ∧ up512 (endOf st.cur) = st.posArch
  pb : st.posBucket ≤ b
  zero : st.cur = [] → st.posBucket = 0
  al : st.posArch % 512 = 0

theorem invB_init (b : Nat) : InvB b planInit := by
  constructor <;> simp [planInit]

theorem invB_small {idx : Int} {b mx ext : Nat} {st : PState} {p : Placed} (hb : b % 512 = 0)
    (he : ext ≤ b) (hp : p.slice.offArch = st.posArch) (hx : p.slice.hdr + p.slice.size = ext)
    (h : InvB b st) : InvB b (smallStep idx b mx ext st p) := by
  have hj := up512_le hb he
  have hm := up512_mod ext
  have hal := h.al
  have hstop : up512 (Order.stop (orderOf idx p)) = st.posArch + up512 ext := by
    simp only [Order.stop, orderOf, orderRaw]
    rw [Nat.add_assoc, hx, hp, up512_add h.al]
  unfold smallStep
  simp only [nextBlock_eq]
  split
  · constructor
    · intro l hl
      rcases List.mem_append.1 hl with hl | hl
      · exact h.done l hl
      · simp at hl; subst hl
        by_cases hc : st.cur = []
        · rw [hc]; simp [span, endOf, startOf, up512]
        · have := h.cur hc
          have := h.pb
          unfold span; omega
    · intro _
      refine ⟨?_, ?_⟩
      · simp only [startOf_singleton, orderOf, orderRaw, hp]
      · simp only [endOf_singleton]; exact hstop
    · exact hj
    · simp
    · simp only; omega
  · rename_i hc
    constructor
    · exact h.done
    · intro _
      simp only [endOf_append_singleton, hstop, and_true]
      by_cases hc : st.cur = []
      · rw [hc, List.nil_append, startOf_singleton, h.zero hc]
        simp [orderOf, orderRaw, hp]
      · rw [startOf_append hc]
        have := h.cur hc
        omega
    · simp only; omega
    · simp
    · simp only; omega

theorem invB_span {b : Nat} {st : PState} (h : InvB b st) : ∀ l ∈ st.done ++ [st.cur], span l ≤ b := by
  intro l hl
  rcases List.mem_append.1 hl with hl | hl
  · exact h.done l hl
  · simp at hl; subst hl
    by_cases hc : st.cur = []
    · rw [hc]; simp [span, endOf, startOf, up512]
    · have := h.cur hc
      have := h.pb
      unfold span; omega

/-- What holds from the first big file on, if no entry that fits follows. -/
structure InvC (b : Nat) (st : PState) : Prop where
  all : ∀ l ∈ st.done ++ [st.cur], span l ≤ b
  al : st.posArch % 512 = 0

theorem invB_invC {b : Nat} {st : PState} (h : InvB b st) : InvC b st := ⟨invB_span h, h.al⟩

theorem span_single {b pos size hdr : Nat} {idx : Int} {e : Ent} {off : Nat} (hb : b % 512 = 0)
    (hp : pos % 512 = 0) (h : hdr + size ≤ b) : span [orderRaw idx e size hdr pos off] ≤ b := by
  simp only [span, endOf_singleton, startOf_singleton, Order.stop, orderRaw]
  unfold up512; omega

theorem invC_bigLoop {idx : Int} {b : Nat} {e : Ent} {rem off : Nat} {st : PState} (hb : b % 512 = 0)
    (hb0 : 0 < b) (h : InvC b st) : InvC b (bigLoop idx b e rem off st) := by
  have hal := h.al
  fun_induction bigLoop idx b e rem off st with
  | case1 rem off st hr ih =>
    have hal := h.al
    apply ih
    · constructor
      · intro l hl
        rcases List.mem_append.1 hl with hl | hl
        · exact h.all l hl
        · simp at hl; subst hl; exact span_single hb hal (by omega)
      · simp only; omega
    · simp only; omega
  | case2 rem off st hr h0 =>
    constructor
    · intro l hl
      rcases List.mem_append.1 hl with hl | hl
      · exact h.all l hl
      · simp at hl; subst hl; exact span_single hb h.al (by omega)
    · simp only [nextBlock_eq]; exact up512_mod _
  | case3 rem off st hr h0 => exact h

theorem invC_big {idx : Int} {b : Nat} {st : PState} {p : Placed} (hb : b % 512 = 0) (hb0 : 0 < b)
    (hle : p.ref.hdr ≤ b) (h : InvC b st) : InvC b (bigStep idx b st p) := by
  have hal := h.al
  unfold bigStep
  simp only
  apply invC_bigLoop hb hb0
  split
  · constructor
    · intro l hl
      simp only at hl
      rcases List.mem_append.1 hl with hl | hl
      · exact h.all l hl
      · simp at hl; subst hl
        exact span_single hb hal (by rw [usub64_of_le hle]; omega)
    · simp only; omega
  · rename_i hc
    simp only [ne_eq, Decidable.not_not] at hc
    constructor
    · intro l hl
      simp only [hc, List.nil_append] at hl
      rcases List.mem_append.1 hl with hl | hl
      · exact h.all l (List.mem_append_left _ hl)
      · simp at hl; subst hl
        exact span_single hb hal (by rw [usub64_of_le hle]; omega)
    · simp only; omega

/-- The entry fits in a bucket. -/
def Fits (b : Nat) (p : Placed) : Prop := p.ref.hdr + p.ref.ent.size ≤ b

theorem foldl_invB {idx : Int} {b mx : Nat} (hb : b % 512 = 0) (ps : List Placed) (st : PState)
    (hs : ∀ p ∈ ps, p.slice.hdr = p.ref.hdr ∧ p.slice.size = p.ref.ent.size ∧ p.slice.offFile = 0)
    (hf : ∀ p ∈ ps, Fits b p) (hc : Contiguous st.posArch ps) (h : InvB b st) :
    InvB b (ps.foldl (fileStep idx b mx) st) := by
  induction ps generalizing st with
  | nil => exact h
  | cons p ps ih =>
    simp only [Contiguous] at hc
    have h1 := hs p (by simp)
    have hfp : p.ref.hdr + p.ref.ent.size ≤ b := hf p (by simp)
    simp only [List.foldl_cons]
    apply ih
    · exact fun q hq => hs q (by simp [hq])
    · exact fun q hq => hf q (by simp [hq])
    · rw [fileStep_pos _ _ _ _ _ h.al]; exact hc.2
    · unfold fileStep
      rw [if_pos hfp]
      exact invB_small hb hfp hc.1 (by omega) h

theorem foldl_invC {idx : Int} {b mx : Nat} (hb : b % 512 = 0) (hb0 : 0 < b) (ps : List Placed)
    (st : PState) (hle : ∀ p ∈ ps, p.ref.hdr ≤ b)
    (hf : ∀ p ∈ ps, ¬ Fits b p) (h : InvC b st) :
    InvC b (ps.foldl (fileStep idx b mx) st) := by
  induction ps generalizing st with
  | nil => exact h
  | cons p ps ih =>
    have hfp : ¬ (p.ref.hdr + p.ref.ent.size ≤ b) := hf p (by simp)
    simp only [List.foldl_cons]
    apply ih
    · exact fun q hq => hle q (by simp [hq])
    · exact fun q hq => hf q (by simp [hq])
    · unfold fileStep
      rw [if_neg hfp]
      exact invC_big hb hb0 (hle p (by simp)) h

/-! ### greediness: a new bundle is only started when needed -/

/-- Neighbours in a list are related. -/
def Adj (R : List Order → List Order → Prop) (L : List (List Order)) : Prop :=
  ∀ pre x y post, L = pre ++ x :: y :: post → R x y

theorem adj_snoc {R : List Order → List Order → Prop} {L : List (List Order)} {x y : List Order}
    (h : Adj R (L ++ [x])) (hxy : R x y) : Adj R (L ++ [x] ++ [y]) := by
  intro pre u v post heq
  rcases List.append_eq_append_iff.1 heq with ⟨a, h1, h2⟩ | ⟨a, h1, h2⟩
  · cases a with
    | nil =>
      simp at h2
    | cons z a => simp at h2
  · cases a with
    | nil => simp at h2
    | cons z a =>
      simp only [List.cons_append, List.cons.injEq] at h2
      obtain ⟨rfl, h2⟩ := h2
      cases a with
      | nil =>
        simp only [List.nil_append, List.cons.injEq] at h2
        have := List.append_inj' h1 rfl
        simp at this
        rw [h2.1, ← this.2]; exact hxy
      | cons w a =>
        simp only [List.cons_append, List.cons.injEq] at h2
        obtain ⟨rfl, h2⟩ := h2
        exact h pre u v a h1

theorem adj_replace {R : List Order → List Order → Prop} {L : List (List Order)} {x y : List Order}
    (h : Adj R (L ++ [x])) (hR : ∀ u, R u x → R u y) : Adj R (L ++ [y]) := by
  intro pre u v post heq
  rcases List.append_eq_append_iff.1 heq with ⟨a, h1, h2⟩ | ⟨a, h1, h2⟩
  · cases a with
    | nil => simp at h2
    | cons z a => simp at h2
  · cases a with
    | nil => simp at h2
    | cons z a =>
      simp only [List.cons_append, List.cons.injEq] at h2
      obtain ⟨rfl, h2⟩ := h2
      cases a with
      | nil =>
        simp only [List.nil_append, List.cons.injEq] at h2
        rw [h2.1]
        apply hR
        exact h pre u x [] (by rw [h1]; simp)
      | cons w a =>
        simp only [List.cons_append, List.cons.injEq] at h2
        obtain ⟨rfl, h2⟩ := h2
        exact h pre u v (a ++ [x]) (by rw [h1]; simp)

/-- The first order of `y` would not have fitted into `x`. -/
def Needed (b : Nat) (x y : List Order) : Prop :=
  match y.head? with
  | none => False
  | some o => b < up512 (Order.stop o) - startOf x

theorem needed_append {b : Nat} {u x : List Order} (m : List Order) (h : Needed b u x) :
    Needed b u (x ++ m) := by
  unfold Needed at *
  cases x with
  | nil => simp at h
  | cons a x => simpa using h

theorem adj_small {idx : Int} {b ext : Nat} {st : PState} {p : Placed}
    (hb : b % 512 = 0) (he : ext ≤ b) (hp : p.slice.offArch = st.posArch)
    (hx : p.slice.hdr + p.slice.size = ext)
    (hB : InvB b st) (hA : InvA 0 st) (h : Adj (Needed b) (st.done ++ [st.cur])) :
    Adj (Needed b) ((smallStep idx b 0 ext st p).done ++ [(smallStep idx b 0 ext st p).cur]) := by
  have hstop : up512 (Order.stop (orderOf idx p)) = st.posArch + up512 ext := by
    simp only [Order.stop, orderOf, orderRaw]
    rw [Nat.add_assoc, hx, hp, up512_add hB.al]
  unfold smallStep
  simp only [nextBlock_eq]
  split
  · rename_i hc
    simp only
    apply adj_snoc h
    have hne : st.cur ≠ [] := by
      intro h0
      have h1 := hB.zero h0
      have := up512_le hb he
      omega
    have := hB.cur hne
    simp only [Needed, List.head?_cons, hstop]
    omega
  · by_cases hc : st.cur = []
    · have := (hA.first hc).1
      simp only [hc, this, List.nil_append]
      intro pre u v post heq
      rcases pre with _ | ⟨z, pre⟩
      · simp at heq
      · simp at heq
    · simp only
      exact adj_replace h (fun u hu => needed_append _ hu)

/-- The last order of the open bundle does not end before the bundle starts. -/
theorem adj_bigLoop {idx : Int} {b : Nat} {e : Ent} {rem off : Nat} {st : PState} (hb : b % 512 = 0)
    (h : Adj (Needed b) (st.done ++ [st.cur]))
    (hs : startOf st.cur + b ≤ st.posArch) (hal : st.posArch % 512 = 0) :
    Adj (Needed b) ((bigLoop idx b e rem off st).done ++ [(bigLoop idx b e rem off st).cur]) := by
  fun_induction bigLoop idx b e rem off st with
  | case1 rem off st hr ih =>
    apply ih
    · simp only
      apply adj_snoc h
      simp only [Needed, List.head?_cons, Order.stop, orderRaw]
      unfold up512; omega
    · simp only [startOf_singleton, orderRaw]; omega
    · simp only; omega
  | case2 rem off st hr h0 =>
    simp only
    apply adj_snoc h
    simp only [Needed, List.head?_cons, Order.stop, orderRaw]
    unfold up512; omega
  | case3 rem off st hr h0 => exact h

theorem adj_big {idx : Int} {b : Nat} {st : PState} {p : Placed} (hb : b % 512 = 0)
    (hle : p.ref.hdr ≤ b) (hal : st.posArch % 512 = 0) (hst : st.cur ≠ [] → startOf st.cur < st.posArch)
    (hA : InvA 0 st) (h : Adj (Needed b) (st.done ++ [st.cur])) :
    Adj (Needed b) ((bigStep idx b st p).done ++ [(bigStep idx b st p).cur]) := by
  unfold bigStep
  simp only
  apply adj_bigLoop hb
  · split
    · rename_i hc
      simp only [List.nil_append]
      apply adj_snoc h
      have := hst hc
      simp only [Needed, List.head?_cons, Order.stop, orderRaw, usub64_of_le hle]
      unfold up512; omega
    · rename_i hc
      simp only [ne_eq, Decidable.not_not] at hc
      simp only [hc, List.nil_append, (hA.first hc).1]
      intro pre u v post heq
      rcases pre with _ | ⟨z, pre⟩
      · simp at heq
      · simp at heq
  · split
    · simp [startOf, orderRaw]
    · rename_i hc
      simp only [ne_eq, Decidable.not_not] at hc
      simp [startOf, orderRaw, hc]
  · split <;> simp only <;> omega

theorem bigLoop_start {idx : Int} {b : Nat} {e : Ent} {rem off : Nat} {st : PState}
    (h : startOf st.cur < st.posArch) (hr : 0 < rem) :
    startOf (bigLoop idx b e rem off st).cur < (bigLoop idx b e rem off st).posArch := by
  fun_induction bigLoop idx b e rem off st with
  | case1 rem off st hr' ih =>
    apply ih
    · simp only [startOf_singleton, orderRaw]; omega
    · omega
  | case2 rem off st hr' h0 =>
    simp only [startOf_singleton, orderRaw, nextBlock_eq]
    have := le_up512 (st.posArch + rem); omega
  | case3 rem off st hr' h0 => omega

theorem foldl_adj_small {idx : Int} {b : Nat} (hb : b % 512 = 0) (ps : List Placed) (st : PState)
    (hs : ∀ p ∈ ps, p.slice.hdr = p.ref.hdr ∧ p.slice.size = p.ref.ent.size ∧ p.slice.offFile = 0)
    (hf : ∀ p ∈ ps, Fits b p) (hc : Contiguous st.posArch ps) (h : InvB b st) (hA : InvA 0 st)
    (had : Adj (Needed b) (st.done ++ [st.cur])) :
    Adj (Needed b) ((ps.foldl (fileStep idx b 0) st).done ++ [(ps.foldl (fileStep idx b 0) st).cur]) := by
  induction ps generalizing st with
  | nil => exact had
  | cons p ps ih =>
    simp only [Contiguous] at hc
    have h1 := hs p (by simp)
    have hfp : p.ref.hdr + p.ref.ent.size ≤ b := hf p (by simp)
    have hst : fileStep idx b 0 st p = smallStep idx b 0 (p.ref.hdr + p.ref.ent.size) st p := by
      unfold fileStep; rw [if_pos hfp]
    simp only [List.foldl_cons]
    apply ih
    · exact fun q hq => hs q (by simp [hq])
    · exact fun q hq => hf q (by simp [hq])
    · rw [fileStep_pos _ _ _ _ _ h.al]; exact hc.2
    · rw [hst]; exact invB_small hb hfp hc.1 (by omega) h
    · exact invA_file hb hA
    · rw [hst]; exact adj_small hb hfp hc.1 (by omega) h hA had

theorem bigStep_start {idx : Int} {b : Nat} {st : PState} {p : Placed} (hb0 : 0 < b)
    (hbig : ¬ Fits b p) :
    startOf (bigStep idx b st p).cur < (bigStep idx b st p).posArch := by
  unfold bigStep
  simp only
  unfold Fits at hbig
  apply bigLoop_start
  · split
    · simp [startOf, orderRaw]; omega
    · rename_i hc
      simp only [ne_eq, Decidable.not_not] at hc
      simp [startOf, orderRaw, hc]; omega
  · omega

theorem foldl_adj_big {idx : Int} {b : Nat} (hb : b % 512 = 0) (hb0 : 0 < b) (ps : List Placed)
    (st : PState) (hle : ∀ p ∈ ps, p.ref.hdr ≤ b) (hf : ∀ p ∈ ps, ¬ Fits b p)
    (hal : st.posArch % 512 = 0) (hst : st.cur ≠ [] → startOf st.cur < st.posArch) (hA : InvA 0 st)
    (had : Adj (Needed b) (st.done ++ [st.cur])) :
    Adj (Needed b) ((ps.foldl (fileStep idx b 0) st).done ++ [(ps.foldl (fileStep idx b 0) st).cur]) := by
  induction ps generalizing st with
  | nil => exact had
  | cons p ps ih =>
    have hfp : ¬ (p.ref.hdr + p.ref.ent.size ≤ b) := hf p (by simp)
    have hst' : fileStep idx b 0 st p = bigStep idx b st p := by
      unfold fileStep; rw [if_neg hfp]
    simp only [List.foldl_cons]
    apply ih
    · exact fun q hq => hle q (by simp [hq])
    · exact fun q hq => hf q (by simp [hq])
    · rw [fileStep_pos _ _ _ _ _ hal]; exact up512_mod _
    · intro _; rw [hst']; exact bigStep_start hb0 (hf p (by simp))
    · exact invA_file hb hA
    · rw [hst']; exact adj_big hb (hle p (by simp)) hal hst hA had

/-! ### chain of bundles -/

theorem chainTo_start {w w' : Nat} {l : List Order} (h : ChainTo w l w') (hl : l ≠ []) : startOf l = w := by
  cases l with
  | nil => exact absurd rfl hl
  | cons o l => simp only [ChainTo] at h; simp [startOf, h.1]

theorem chainTo_end {w w' : Nat} {l : List Order} (h : ChainTo w l w') (hl : l ≠ []) :
    w' = up512 (endOf l) := by
  induction l generalizing w with
  | nil => exact absurd rfl hl
  | cons o l ih =>
    simp only [ChainTo] at h
    cases l with
    | nil => simp only [ChainTo] at h; simp [endOf, ← h.2]
    | cons o' l =>
      rw [ih h.2 (by simp)]
      simp [endOf, List.getLast?_cons_cons]

theorem chainTo_le {w w' : Nat} {l : List Order} (h : ChainTo w l w') : w ≤ w' := by
  induction l generalizing w with
  | nil => simp only [ChainTo] at h; omega
  | cons o l ih =>
    simp only [ChainTo] at h
    have := ih h.2
    have := le_up512 (Order.stop o)
    have : o.pos ≤ Order.stop o := by unfold Order.stop; omega
    omega

end Parfu
