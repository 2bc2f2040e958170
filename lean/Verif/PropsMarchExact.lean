/-
Property theorems for C18, exactly: which order messages a worker accepts.
-/
import Verif.PropsMarch
set_option autoImplicit false

namespace Parfu.MessageSpec
open Parfu Parfu.Props

/-- The eight fields of an order in a message. -/
structure Record where
  container : Bytes
  path : Bytes
  type : Bytes
  target : Bytes
  size : Bytes
  header : Bytes
  position : Bytes
  offset : Bytes

/-- The line: TABs between the fields, a newline at the end. -/
def Record.text (r : Record) : Bytes :=
  r.container ++ [9] ++ r.path ++ [9] ++ r.type ++ [9] ++ r.target ++ [9] ++ r.size ++ [9] ++ r.header ++ [9] ++
    r.position ++ [9] ++ r.offset ++ [10]

/-- All fields but the last. -/
def Record.front (r : Record) : List Bytes := [r.container, r.path, r.type, r.target, r.size, r.header, r.position]

/-- The fields can be told apart: no TAB in any field but the last, no newline in the last. -/
def Record.Eight (r : Record) : Prop := (∀ f ∈ r.front, (9:UInt8) ∉ f) ∧ (10:UInt8) ∉ r.offset

/-- Moreover the record is one line. -/
def Record.OneLine (r : Record) : Prop := r.Eight ∧ ∀ f ∈ r.front, (10:UInt8) ∉ f

/-- The text begins with the number `v` (after blanks), and `v` is an `int`. -/
def IsInt (s : Bytes) (v : Int) : Prop := StartsWithNumber s v ∧ -(2 ^ 31) ≤ v ∧ v < 2 ^ 31

/-- The order a record stands for. -/
def Means (r : Record) (w : WOrder) : Prop :=
  ∃ i s h p o c, IsInt r.container i ∧ IsInt r.size s ∧ IsInt r.header h ∧ IsInt r.position p ∧ IsInt r.offset o ∧
    r.type.head? = some c ∧
    w = { idx := i, rel := r.path, type := c, target := r.target, size := (s % 2 ^ 64).toNat, hdr := (h % 2 ^ 32).toNat,
          pos := (p % 2 ^ 64).toNat, off := (o % 2 ^ 64).toNat }

/-- The rest of a message begins with eight fields. -/
def BeginsWithRecord (q : Bytes) : Prop := ∃ (r : Record) (rest : Bytes), r.Eight ∧ q = r.text ++ rest

end Parfu.MessageSpec

namespace Parfu.Props
open Parfu MessageSpec

/-- The value of a record. -/
def recVal (r : Record) : Res WOrder := lineVal r.container r.path r.type r.target r.size r.header r.position r.offset

theorem recVal_means {r : Record} {w : WOrder} : recVal r = .ok w ↔ Means r w := by
  unfold recVal lineVal Means
  constructor
  · intro h
    simp only [bind, Except.bind] at h
    cases s0 : stoi r.container with
    | error e => rw [s0] at h; simp at h
    | ok i =>
    rw [s0] at h; simp only [] at h
    cases t : r.type.head? with
    | none => rw [t] at h; simp at h
    | some c =>
    rw [t] at h; simp only [] at h
    cases s4 : stoi r.size with
    | error e => rw [s4] at h; simp at h
    | ok s =>
    rw [s4] at h; simp only [] at h
    cases s5 : stoi r.header with
    | error e => rw [s5] at h; simp at h
    | ok hh =>
    rw [s5] at h; simp only [] at h
    cases s6 : stoi r.position with
    | error e => rw [s6] at h; simp at h
    | ok p =>
    rw [s6] at h; simp only [] at h
    cases s7 : stoi r.offset with
    | error e => rw [s7] at h; simp at h
    | ok o =>
    rw [s7] at h
    simp only [pure, Except.pure, Except.ok.injEq] at h
    exact ⟨i, s, hh, p, o, c, (stoi_spec _ _).1 s0, (stoi_spec _ _).1 s4, (stoi_spec _ _).1 s5, (stoi_spec _ _).1 s6,
      (stoi_spec _ _).1 s7, rfl, h.symm⟩
  · rintro ⟨i, s, hh, p, o, c, h0, h4, h5, h6, h7, ht, rfl⟩
    rw [(stoi_spec _ _).2 h0, ht, (stoi_spec _ _).2 h4, (stoi_spec _ _).2 h5, (stoi_spec _ _).2 h6, (stoi_spec _ _).2 h7]
    rfl

theorem parseLine_rec (pre rest : Bytes) (r : Record) (h : r.Eight) (hl : (pre ++ r.text ++ rest).length < npos32) :
    parseLine (pre ++ r.text ++ rest) pre.length =
      (match recVal r with
       | .error e => .error e
       | .ok w => .ok (w, (pre ++ r.text).length)) := by
  obtain ⟨h1, h2⟩ := h
  have hf : ∀ f, f ∈ r.front → (9:UInt8) ∉ f := h1
  unfold Record.front at hf
  exact parseLine_eight pre rest _ _ _ _ _ _ _ _ (hf _ (by simp)) (hf _ (by simp)) (hf _ (by simp)) (hf _ (by simp))
    (hf _ (by simp)) (hf _ (by simp)) (hf _ (by simp)) h2 hl

/-! Where the next line begins. -/

/-- The place behind the next TAB, the beginning of the message if there is none. -/
def stepTab (buf : Bytes) (p : Nat) : Nat := (find32 buf 9 p + 1) % 2 ^ 32

theorem nextField_snd {buf : Bytes} {sep : UInt8} {eb : Nat} {x : Bytes × Nat} (h : nextField buf sep eb = .ok x) :
    x.2 = (find32 buf sep eb + 1) % 2 ^ 32 := by
  unfold nextField at h
  split at h
  · cases h
  · simp only [Except.ok.injEq] at h
    rw [← h]

theorem bindE_ok {α β : Type} {x : Res α} {f : α → Res β} {y : β} (h : (x >>= f) = .ok y) : ∃ a, x = .ok a ∧ f a = .ok y := by
  cases x with
  | error e => simp [bind, Except.bind] at h
  | ok a => exact ⟨a, rfl, h⟩

theorem parseLine_pos {buf : Bytes} {lb : Nat} {x : WOrder × Nat} (h : parseLine buf lb = .ok x) :
    x.2 = (find32 buf 10 ((stepTab buf)^[7] lb) + 1) % 2 ^ 32 ∧ find32 buf 10 lb ≤ buf.length := by
  unfold parseLine at h
  split at h
  · cases h
  rename_i hn
  refine ⟨?_, by omega⟩
  obtain ⟨f0, k0, h⟩ := bindE_ok h
  obtain ⟨_, _, h⟩ := bindE_ok h
  obtain ⟨f1, k1, h⟩ := bindE_ok h
  obtain ⟨f2, k2, h⟩ := bindE_ok h
  obtain ⟨_, _, h⟩ := bindE_ok h
  obtain ⟨f3, k3, h⟩ := bindE_ok h
  obtain ⟨f4, k4, h⟩ := bindE_ok h
  obtain ⟨_, _, h⟩ := bindE_ok h
  obtain ⟨f5, k5, h⟩ := bindE_ok h
  obtain ⟨_, _, h⟩ := bindE_ok h
  obtain ⟨f6, k6, h⟩ := bindE_ok h
  obtain ⟨_, _, h⟩ := bindE_ok h
  obtain ⟨f7, k7, h⟩ := bindE_ok h
  obtain ⟨_, _, h⟩ := bindE_ok h
  simp only [pure, Except.pure, Except.ok.injEq] at h
  rw [← h]
  simp only [Function.iterate_succ, Function.iterate_zero, Function.comp_apply, id_eq]
  rw [nextField_snd k7]
  have e0 : stepTab buf lb = f0.2 := (nextField_snd k0).symm
  have e1 : stepTab buf f0.2 = f1.2 := (nextField_snd k1).symm
  have e2 : stepTab buf f1.2 = f2.2 := (nextField_snd k2).symm
  have e3 : stepTab buf f2.2 = f3.2 := (nextField_snd k3).symm
  have e4 : stepTab buf f3.2 = f4.2 := (nextField_snd k4).symm
  have e5 : stepTab buf f4.2 = f5.2 := (nextField_snd k5).symm
  have e6 : stepTab buf f5.2 = f6.2 := (nextField_snd k6).symm
  rw [e0, e1, e2, e3, e4, e5, e6]

/-- Fields, each with its TAB. -/
def tabbed (fs : List Bytes) : Bytes := fs.flatMap (· ++ [9])

theorem tabbed_append (a b : List Bytes) : tabbed (a ++ b) = tabbed a ++ tabbed b := by simp [tabbed]

theorem tabbed_split (fs : List Bytes) (m : Nat) : tabbed fs = tabbed (fs.take m) ++ tabbed (fs.drop m) := by
  rw [← tabbed_append, List.take_append_drop]

theorem stepTab_found {pre f rest : Bytes} (hf : (9:UInt8) ∉ f) (hl : (pre ++ f ++ 9 :: rest).length < npos32) :
    stepTab (pre ++ f ++ 9 :: rest) pre.length = (pre ++ f ++ [9]).length := by
  unfold stepTab
  rw [find32_found pre f rest 9 hf hl]
  unfold npos32 at hl
  simp only [List.length_append, List.length_cons, List.length_nil] at hl ⊢
  omega

theorem split_at {c : UInt8} {q : Bytes} (h : c ∈ q) : ∃ f rest, c ∉ f ∧ q = f ++ c :: rest := by
  induction q with
  | nil => simp at h
  | cons x q ih =>
    by_cases hx : x = c
    · exact ⟨[], q, by simp, by simp [hx]⟩
    · obtain ⟨f, rest, h1, h2⟩ := ih (by
        rcases List.mem_cons.1 h with h | h
        · exact absurd h.symm hx
        · exact h)
      refine ⟨x :: f, rest, ?_, by simp [h2]⟩
      simp only [List.mem_cons, not_or]
      exact ⟨fun e => hx e.symm, h1⟩

/-- `n` TABs further: either they are all there, or the search has begun again at 0. -/
theorem tabs_or_wrap (n : Nat) : ∀ (pre q : Bytes), (pre ++ q).length < npos32 →
    (∃ fs rest, fs.length = n ∧ (∀ f ∈ fs, (9:UInt8) ∉ f) ∧ q = tabbed fs ++ rest ∧
      (stepTab (pre ++ q))^[n] pre.length = (pre ++ tabbed fs).length) ∨
    ∃ j < n, (stepTab (pre ++ q))^[n] pre.length = (stepTab (pre ++ q))^[n - 1 - j] 0 := by
  induction n with
  | zero =>
    intro pre q _
    exact .inl ⟨[], q, rfl, by simp, rfl, by simp [tabbed]⟩
  | succ n ih =>
    intro pre q hl
    rw [Function.iterate_succ_apply]
    by_cases h9 : (9:UInt8) ∈ q
    · obtain ⟨f, rest, h1, h2⟩ := split_at h9
      have e : pre ++ q = pre ++ f ++ 9 :: rest := by rw [h2]; simp
      have e2 : pre ++ q = (pre ++ f ++ [9]) ++ rest := by rw [e]; simp
      have hs : stepTab (pre ++ q) pre.length = (pre ++ f ++ [9]).length := by
        rw [e]; exact stepTab_found h1 (by rw [← e]; exact hl)
      rw [hs]
      rcases ih (pre ++ f ++ [9]) rest (by rw [← e2]; exact hl) with ⟨fs, r2, k1, k2, k3, k4⟩ | ⟨j, hj, k⟩
      · left
        refine ⟨f :: fs, r2, by simp [k1], ?_, ?_, ?_⟩
        · intro x hx
          rcases List.mem_cons.1 hx with rfl | hx
          · exact h1
          · exact k2 x hx
        · rw [h2, k3]; simp [tabbed]
        · rw [e2, k4]; simp [tabbed]
      · right
        refine ⟨j + 1, by omega, ?_⟩
        rw [e2, k]
        congr 1
        omega
    · right
      refine ⟨0, by omega, ?_⟩
      have : stepTab (pre ++ q) pre.length = 0 := by
        unfold stepTab
        rw [find32_missing _ _ _ (by rw [List.drop_left]; exact h9)]
        decide
      rw [this]
      rfl

theorem text_tabbed (r : Record) : r.text = tabbed r.front ++ r.offset ++ [10] := by
  simp [Record.text, tabbed, Record.front]

/-- From the beginning of a message that starts with a record: the `m`-th field. -/
theorem steps_in_record (r : Record) (hr : r.Eight) (rest : Bytes) (hl : (r.text ++ rest).length < npos32) (m : Nat) (hm : m ≤ 7) :
    (stepTab (r.text ++ rest))^[m] 0 = (tabbed (r.front.take m)).length := by
  induction m with
  | zero => rfl
  | succ m ih =>
    rw [Function.iterate_succ_apply', ih (by omega)]
    have hlt : m < r.front.length := by simp [Record.front]; omega
    have e : r.text ++ rest = tabbed (r.front.take m) ++ r.front[m] ++ 9 :: (tabbed (r.front.drop (m + 1)) ++ r.offset ++ [10] ++ rest) := by
      rw [text_tabbed, tabbed_split r.front m, List.drop_eq_getElem_cons hlt]
      simp only [tabbed, List.flatMap_cons, List.append_assoc, List.cons_append, List.nil_append]
    rw [e, stepTab_found (hr.1 _ (List.getElem_mem hlt)) (by rw [← e]; exact hl)]
    rw [← List.take_append_getElem hlt, tabbed_append]
    simp only [List.length_append, tabbed, List.flatMap_cons, List.flatMap_nil, List.length_singleton, List.length_nil]
    omega

/-- The end of a line. -/
theorem newline_at {pre f rest : Bytes} (hf : (10:UInt8) ∉ f) (hl : (pre ++ f ++ 10 :: rest).length < npos32) :
    (find32 (pre ++ f ++ 10 :: rest) 10 pre.length + 1) % 2 ^ 32 = (pre ++ f ++ [10]).length := by
  rw [find32_found pre f rest 10 hf hl]
  unfold npos32 at hl
  simp only [List.length_append, List.length_cons, List.length_nil] at hl ⊢
  omega

theorem front_of {fs : List Bytes} (h : fs.length = 7) (l : Bytes) : ∃ r : Record, r.front = fs ∧ r.offset = l := by
  match fs, h with
  | [a, b, c, d, e, f, g], _ => exact ⟨⟨a, b, c, d, e, f, g, l⟩, rfl, rfl⟩

/-- A rest that does not begin with a record sends the worker back: to the beginning, or behind the first record. -/
theorem tail_back (r : Record) (hr : r.OneLine) (pre q : Bytes) (mid : Bytes) (hpre : pre = r.text ++ mid)
    (hl : (pre ++ q).length < npos32) (hq : ¬ BeginsWithRecord q) {x : WOrder × Nat}
    (h : parseLine (pre ++ q) pre.length = .ok x) : x.2 = 0 ∨ x.2 = r.text.length := by
  obtain ⟨h1, h2⟩ := parseLine_pos h
  rcases tabs_or_wrap 7 pre q hl with ⟨fs, rest, k1, k2, k3, k4⟩ | ⟨j, hj, k⟩
  · left
    rw [h1, k4, find32_missing]
    · decide
    · rw [k3, ← List.append_assoc, List.drop_left]
      intro h10
      obtain ⟨l, r2, m1, m2⟩ := split_at h10
      obtain ⟨r', e1, e2⟩ := front_of k1 l
      refine hq ⟨r', r2, ⟨by rw [e1]; exact k2, by rw [e2]; exact m1⟩, ?_⟩
      rw [k3, m2, text_tabbed, e1, e2]
      simp
  · right
    have e : pre ++ q = r.text ++ (mid ++ q) := by rw [hpre]; simp
    rw [h1, k, e]
    rw [e] at hl
    rw [steps_in_record r hr.1 _ hl (7 - 1 - j) (by omega)]
    have e3 : r.text ++ (mid ++ q) = tabbed (r.front.take (7 - 1 - j)) ++ (tabbed (r.front.drop (7 - 1 - j)) ++ r.offset) ++ 10 :: (mid ++ q) := by
      rw [text_tabbed, tabbed_split r.front (7 - 1 - j)]
      simp only [List.append_assoc, List.cons_append, List.nil_append]
    rw [e3, newline_at ?_ (by rw [← e3]; exact hl)]
    · rw [text_tabbed, tabbed_split r.front (7 - 1 - j)]
      simp only [List.append_assoc]
    · simp only [List.mem_append, not_or]
      refine ⟨?_, hr.1.2⟩
      intro h10
      unfold tabbed at h10
      rw [List.mem_flatMap] at h10
      obtain ⟨f, hf, h10⟩ := h10
      rcases List.mem_append.1 h10 with h10 | h10
      · exact hr.2 f (List.mem_of_mem_drop hf) h10
      · simp at h10

/-- All lines of a message. -/
def lines (rs : List Record) : Bytes := rs.flatMap Record.text

theorem text_pos (r : Record) : 0 < r.text.length := by
  rw [text_tabbed]; simp only [List.length_append, List.length_singleton]; omega

/-- With anything but lines at its end, a message is never accepted. -/
theorem never_ok (rs : List Record) (hrs : rs ≠ []) (hone : ∀ r ∈ rs, r.OneLine) (q : Bytes) (hq0 : q ≠ [])
    (hq : ¬ BeginsWithRecord q) (hl : (lines rs ++ q).length < npos32) (fuel : Nat) :
    ∀ xs ys, rs = xs ++ ys → ∀ ws, parseLoop (lines rs ++ q) fuel (lines xs).length ≠ .ok ws := by
  have hin : ∀ xs ys, rs = xs ++ ys → (lines xs).length < (lines rs ++ q).length := by
    intro xs ys h
    have : 0 < q.length := List.length_pos_iff.2 hq0
    rw [h]
    simp only [lines, List.flatMap_append, List.length_append]
    omega
  induction fuel with
  | zero =>
    intro xs ys h ws
    unfold parseLoop
    rw [if_pos (hin xs ys h)]
    simp
  | succ fuel ih =>
    intro xs ys h ws
    unfold parseLoop
    rw [if_pos (hin xs ys h)]
    cases hp : parseLine (lines rs ++ q) (lines xs).length with
    | error e => simp
    | ok x =>
      simp only []
      have hback : ∃ xs' ys', rs = xs' ++ ys' ∧ x.2 = (lines xs').length := by
        cases ys with
        | nil =>
          cases rs with
          | nil => exact absurd rfl hrs
          | cons r rs' =>
            have hxs : xs = r :: rs' := by simpa using h.symm
            subst hxs
            rcases tail_back r (hone r (by simp)) (lines (r :: rs')) q (lines rs') (by simp [lines]) hl hq hp with h0 | h0
            · exact ⟨[], r :: rs', rfl, by rw [h0]; rfl⟩
            · exact ⟨[r], rs', rfl, by rw [h0]; simp [lines]⟩
        | cons y ys =>
          have e : lines rs ++ q = lines xs ++ y.text ++ (lines ys ++ q) := by rw [h]; simp [lines]
          rw [e, parseLine_rec _ _ y (hone y (by rw [h]; simp)).1 (by rw [← e]; exact hl)] at hp
          cases hv : recVal y with
          | error e => rw [hv] at hp; cases hp
          | ok w =>
            rw [hv] at hp
            simp only [Except.ok.injEq] at hp
            exact ⟨xs ++ [y], ys, by rw [h]; simp, by rw [← hp]; simp [lines]⟩
      obtain ⟨xs', ys', k1, k2⟩ := hback
      rw [k2]
      cases hlp : parseLoop (lines rs ++ q) fuel (lines xs').length with
      | error e => simp
      | ok ws' => exact absurd hlp (ih xs' ys' k1 ws')

/-- Lines only: accepted if each means an order. -/
theorem lines_ok (ys : List Record) : ∀ (xs : List Record) (fuel : Nat), (∀ r ∈ xs ++ ys, r.Eight) → (lines (xs ++ ys)).length < npos32 →
    ys.length ≤ fuel → ∀ ws, parseLoop (lines (xs ++ ys)) fuel (lines xs).length = .ok ws ↔ List.Forall₂ Means ys ws := by
  induction ys with
  | nil =>
    intro xs fuel _ _ _ ws
    have : parseLoop (lines (xs ++ [])) fuel (lines xs).length = .ok [] := by
      rw [List.append_nil]
      cases fuel <;> simp [parseLoop]
    rw [this]
    constructor
    · intro h; simp only [Except.ok.injEq] at h; subst h; exact .nil
    · intro h; cases h; rfl
  | cons y ys ih =>
    intro xs fuel he hl hfu ws
    obtain ⟨k, rfl⟩ : ∃ k, fuel = k + 1 := ⟨fuel - 1, by simp at hfu; omega⟩
    have e : lines (xs ++ y :: ys) = lines xs ++ y.text ++ lines ys := by simp [lines]
    have e2 : lines (xs ++ y :: ys) = lines ((xs ++ [y]) ++ ys) := by simp [lines]
    have e3 : (lines xs ++ y.text).length = (lines (xs ++ [y])).length := by simp [lines]
    have hpos := text_pos y
    unfold parseLoop
    rw [if_pos (by rw [e]; simp only [List.length_append]; omega)]
    have hp := parseLine_rec (lines xs) (lines ys) y (he y (by simp)) (by rw [← e]; exact hl)
    rw [← e] at hp
    rw [hp]
    cases hv : recVal y with
    | error x =>
      simp only []
      constructor
      · intro h; cases h
      · intro h
        cases h with
        | cons h _ => rw [← recVal_means, hv] at h; cases h
    | ok w =>
      simp only []
      rw [e3, e2]
      have hi := ih (xs ++ [y]) k (by simpa using he) (by rw [← e2]; exact hl) (by simp at hfu; omega)
      cases hlp : parseLoop (lines ((xs ++ [y]) ++ ys)) k (lines (xs ++ [y])).length with
      | error x =>
        simp only []
        constructor
        · intro h; cases h
        · intro h
          cases h with
          | cons _ h2 =>
            have := (hi _).2 h2
            rw [hlp] at this; cases this
      | ok ws' =>
        simp only [Except.ok.injEq]
        constructor
        · rintro rfl
          exact .cons (recVal_means.1 hv) ((hi ws').1 hlp)
        · intro h
          cases h with
          | cons h1 h2 =>
            have a := recVal_means.2 h1
            rw [hv] at a
            have b := (hi _).2 h2
            rw [hlp] at b
            simp only [Except.ok.injEq] at a b
            rw [a, b]

theorem lines_length_le (rs : List Record) : rs.length ≤ (lines rs).length := by
  induction rs with
  | nil => simp
  | cons r rs ih =>
    have := text_pos r
    simp only [lines, List.flatMap_cons, List.length_append, List.length_cons] at *
    omega

/-- **C18, exactly** A message that begins with a record: all records in it that come one behind the other, each on one
line, and then a rest that is not a record any more.  The worker accepts it if and only if there is no such rest and
each record means an order, and then it has exactly these orders.  Otherwise it throws or never comes to an end. -/
theorem C18_accepted_iff (rs : List Record) (hrs : rs ≠ []) (hone : ∀ r ∈ rs, r.OneLine) (q : Bytes) (hq : ¬ BeginsWithRecord q)
    (hl : (lines rs ++ q).length < 2 ^ 32 - 1) (ws : List WOrder) :
    parseOrders (lines rs ++ q) = .ok ws ↔ q = [] ∧ List.Forall₂ Means rs ws := by
  by_cases hq0 : q = []
  · subst hq0
    simp only [List.append_nil, true_and] at hl ⊢
    have := lines_ok rs [] (lines rs).length (fun r h => (hone r (by simpa using h)).1) (by simpa [npos32] using hl) (lines_length_le rs) ws
    simpa [parseOrders, lines] using this
  · constructor
    · intro h
      exact absurd h (never_ok rs hrs hone q hq0 hq hl _ [] rs rfl ws)
    · rintro ⟨h, _⟩
      exact absurd h hq0

/-- **C18** What does not lead to orders leads to an exception or an endless loop: no other outcome. -/
theorem C18_otherwise (buf : Bytes) (h : ∀ ws, parseOrders buf ≠ .ok ws) :
    parseOrders buf = .error .thrown ∨ ∀ n, parseLoop buf n 0 = .error .hang := by
  have hs : ∀ s e, stoi s = .error e → e = .thrown := by
    intro s e hs
    unfold stoi at hs
    simp only [] at hs
    split at hs
    · simp at hs; exact hs.symm
    · split at hs <;> split at hs <;> simp at hs <;> rw [hs]
  have hn : ∀ sep eb e, nextField buf sep eb = .error e → e = .thrown := by
    intro sep eb e h
    unfold nextField substr32 at h
    split at h
    · rename_i e' h'
      split at h'
      · simp at h' h; rw [← h, ← h']
      · cases h'
    · cases h
  have hline : ∀ lb e, parseLine buf lb = .error e → e = .thrown := by
    intro lb e h
    have hb : ∀ {α β : Type} {x : Res α} {f : α → Res β}, (x >>= f) = .error e → x = .error e ∨ ∃ a, f a = .error e := by
      intro α β x f h
      cases x with
      | error e' => left; simpa [bind, Except.bind] using h
      | ok a => right; exact ⟨a, h⟩
    unfold parseLine at h
    split at h
    · simp at h; exact h.symm
    rcases hb h with h | ⟨_, h⟩
    · exact hn _ _ _ h
    rcases hb h with h | ⟨_, h⟩
    · exact hs _ _ h
    rcases hb h with h | ⟨_, h⟩
    · exact hn _ _ _ h
    rcases hb h with h | ⟨_, h⟩
    · exact hn _ _ _ h
    rcases hb h with h | ⟨_, h⟩
    · split at h
      · cases h
      · simp at h; exact h.symm
    rcases hb h with h | ⟨_, h⟩
    · exact hn _ _ _ h
    rcases hb h with h | ⟨_, h⟩
    · exact hn _ _ _ h
    rcases hb h with h | ⟨_, h⟩
    · exact hs _ _ h
    rcases hb h with h | ⟨_, h⟩
    · exact hn _ _ _ h
    rcases hb h with h | ⟨_, h⟩
    · exact hs _ _ h
    rcases hb h with h | ⟨_, h⟩
    · exact hn _ _ _ h
    rcases hb h with h | ⟨_, h⟩
    · exact hs _ _ h
    rcases hb h with h | ⟨_, h⟩
    · exact hn _ _ _ h
    rcases hb h with h | ⟨_, h⟩
    · exact hs _ _ h
    cases h
  have hloop : ∀ n lb e, parseLoop buf n lb = .error e → e = .thrown ∨ e = .hang := by
    intro n
    induction n with
    | zero =>
      intro lb e h
      unfold parseLoop at h
      split at h
      · simp at h; exact .inr h.symm
      · cases h
    | succ n ih =>
      intro lb e h
      unfold parseLoop at h
      split at h
      · cases hp : parseLine buf lb with
        | error e' =>
          rw [hp] at h
          simp only [Except.error.injEq] at h
          rw [← h]
          exact .inl (hline _ _ hp)
        | ok x =>
          rw [hp] at h
          simp only [] at h
          cases hlp : parseLoop buf n x.2 with
          | error e' =>
            rw [hlp] at h
            simp only [Except.error.injEq] at h
            rw [← h]
            exact ih _ _ hlp
          | ok ws => rw [hlp] at h; cases h
      · cases h
  cases hp : parseOrders buf with
  | ok ws => exact absurd hp (h ws)
  | error e =>
    rcases hloop _ _ _ hp with rfl | rfl
    · exact .inl rfl
    · exact .inr (parse_hang_forever buf hp)

/-- Every message is of the form `C18_accepted_iff` speaks of, up to records that take more than one line. -/
theorem C18_every_message (buf : Bytes) : ∃ rs q, (∀ r ∈ rs, r.Eight) ∧ ¬ BeginsWithRecord q ∧ buf = lines rs ++ q := by
  induction hn : buf.length using Nat.strongRecOn generalizing buf with
  | ind n ih =>
    by_cases hb : BeginsWithRecord buf
    · obtain ⟨r, rest, h1, h2⟩ := hb
      have hpos := text_pos r
      obtain ⟨rs, q, k1, k2, k3⟩ := ih rest.length (by rw [← hn, h2]; simp only [List.length_append]; omega) rest rfl
      refine ⟨r :: rs, q, ?_, k2, by rw [h2, k3]; simp [lines]⟩
      intro x hx
      rcases List.mem_cons.1 hx with rfl | hx
      · exact h1
      · exact k1 x hx
    · exact ⟨[], buf, by simp, hb, rfl⟩

/-- **C18, negation** If a name holds a newline, cutting the message behind it can go unnoticed: of the order for the file
"5\n6" only the first half of the name arrives, and the worker has an order nobody gave. -/
theorem C18_cut_in_name_accepted :
    (printBundle [⟨0, [53, 10, 54], .reg, [], 0, 512, 0, 0⟩]).take 4 = [48, 9, 53, 10] ∧
    parseOrders ((printBundle [⟨0, [53, 10, 54], .reg, [], 0, 512, 0, 0⟩]).take 4) =
      .ok [{ idx := 0, rel := [53, 10], type := 48, target := [53, 10], size := 0, hdr := 5, pos := 0, off := 5 }] := by
  have e : (printBundle [⟨0, [53, 10, 54], .reg, [], 0, 512, 0, 0⟩]).take 4 = [48, 9, 53, 10] := by
    simp [printBundle, printOrder, decInt, digits_lt, digitChar]
  rw [e]
  exact ⟨rfl, by decide⟩

/-- Where a cut falls. -/
theorem cut_where (os : List Order) : ∀ n ≤ (printBundle os).length, (∃ k ≤ os.length, n = (printBundle (os.take k)).length) ∨
    ∃ xs o ys m, os = xs ++ o :: ys ∧ 0 < m ∧ m < (printOrder o).length ∧ n = (printBundle xs).length + m := by
  induction os with
  | nil => intro n hn; exact .inl ⟨0, by simp, by simpa [printBundle] using hn⟩
  | cons o os ih =>
    intro n hn
    have hlen : (printBundle (o :: os)).length = (printOrder o).length + (printBundle os).length := by simp [printBundle]
    by_cases h : n < (printOrder o).length
    · by_cases h0 : n = 0
      · exact .inl ⟨0, by simp, by simp [printBundle, h0]⟩
      · exact .inr ⟨[], o, os, n, rfl, by omega, h, by simp [printBundle]⟩
    · rcases ih (n - (printOrder o).length) (by omega) with ⟨k, hk, e⟩ | ⟨xs, o', ys, m, e, h1, h2, h3⟩
      · refine .inl ⟨k + 1, by simp; omega, ?_⟩
        rw [List.take_succ_cons]
        simp only [printBundle, List.flatMap_cons, List.length_append] at e ⊢
        omega
      · refine .inr ⟨o :: xs, o', ys, m, by rw [e]; rfl, h1, h2, ?_⟩
        simp only [printBundle, List.flatMap_cons, List.length_append] at h3 ⊢
        omega

/-- **C18, exactly for cut messages** Of a bundle of orders whose names hold neither TAB nor newline, the first `n` bytes
are accepted if and only if the cut is at the end of an order (and then the orders before it are what the worker has);
all other cuts make it throw. -/
theorem C18_cut_iff (os : List Order) (hn : ∀ o ∈ os, NoTab o) (hf : ∀ o ∈ os, FitsInt o)
    (hnl : ∀ o ∈ os, (10:UInt8) ∉ o.rel ∧ (10:UInt8) ∉ o.target) (hl : (printBundle os).length < 2 ^ 32 - 1) (n : Nat)
    (hle : n ≤ (printBundle os).length) :
    parseOrders ((printBundle os).take n) = .error .thrown ∧ (∀ k, n ≠ (printBundle (os.take k)).length) ∨
    ∃ k, n = (printBundle (os.take k)).length ∧ parseOrders ((printBundle os).take n) = .ok ((os.take k).map asReceived) := by
  have hmono : ∀ k, (printBundle os) = printBundle (os.take k) ++ printBundle (os.drop k) := by
    intro k
    unfold printBundle
    rw [← List.flatMap_append, List.take_append_drop]
  rcases cut_where os n hle with ⟨k, hk, e⟩ | ⟨xs, o, ys, m, e, h1, h2, h3⟩
  · right
    refine ⟨k, e, ?_⟩
    rw [e, hmono k, List.take_left']
    · rw [C17_accepts_iff _ (fun o ho => hn o (List.mem_of_mem_take ho)), if_pos (fun o ho => hf o (List.mem_of_mem_take ho))]
      have := congrArg List.length (hmono k)
      rw [List.length_append] at this
      omega
    · rfl
  · left
    have eb : printBundle os = printBundle xs ++ (printOrder o ++ printBundle ys) := by rw [e]; simp [printBundle]
    have hcut : (printBundle os).take n = printBundle xs ++ (printOrder o).take m := by
      rw [eb, h3, List.take_length_add_append, List.take_append_of_le_length (by omega)]
    have hth : parseOrders ((printBundle os).take n) = .error .thrown := by
      rw [hcut]
      have := congrArg List.length eb
      simp only [List.length_append] at this
      exact C18_cut_order_rejected xs o m (fun x hx => hn x (by rw [e]; simp [hx])) (fun x hx => hf x (by rw [e]; simp [hx]))
        (hnl o (by rw [e]; simp)).1 (hnl o (by rw [e]; simp)).2 h1 h2 (by simp only [List.length_append]; omega)
    refine ⟨hth, ?_⟩
    intro k hk
    rw [hk, hmono k, List.take_left' rfl, C17_accepts_iff _ (fun o ho => hn o (List.mem_of_mem_take ho)),
      if_pos (fun o ho => hf o (List.mem_of_mem_take ho))] at hth
    · cases hth
    · have := congrArg List.length (hmono k)
      rw [List.length_append] at this
      omega

/-- Non-vacuity: two orders, cut in the second one. -/
example : parseOrders ((printBundle [⟨0, [97], .lnk, [98], 0, 512, 0, 0⟩, ⟨0, [99], .reg, [], 7, 512, 512, 0⟩]).take 25) = .error .thrown := by
  have e : printBundle [⟨0, [97], .lnk, [98], 0, 512, 0, 0⟩, ⟨0, [99], .reg, [], 7, 512, 512, 0⟩] =
      [48, 9, 97, 9, 76, 9, 98, 9, 48, 9, 53, 49, 50, 9, 48, 9, 48, 10, 48, 9, 99, 9, 70, 9, 9, 55, 9, 53, 49, 50, 9, 53, 49, 50, 9, 48, 10] := by
    simp [printBundle, printOrder, decInt, digits_lt, digits_ge, digitChar, typeChar]
  rcases C18_cut_iff [⟨0, [97], .lnk, [98], 0, 512, 0, 0⟩, ⟨0, [99], .reg, [], 7, 512, 512, 0⟩] (by decide) (by decide) (by decide)
    (by rw [e]; decide) 25 (by rw [e]; decide) with ⟨h, _⟩ | ⟨k, hk, _⟩
  · exact h
  · exfalso
    match k, hk with
    | 0, h => simp [printBundle] at h
    | 1, h => simp [printBundle, printOrder, decInt, digits_lt, digits_ge] at h
    | k + 2, h =>
      rw [show List.take (k + 2) [(⟨0, [97], .lnk, [98], 0, 512, 0, 0⟩ : Order), ⟨0, [99], .reg, [], 7, 512, 512, 0⟩] =
        [⟨0, [97], .lnk, [98], 0, 512, 0, 0⟩, ⟨0, [99], .reg, [], 7, 512, 512, 0⟩] by simp, e] at h
      revert h; decide

/-! Non-vacuity: one record, then "5" and a newline. -/

def msgRec : Record := ⟨[48], [97], [76], [55], [48], [48], [48], [48]⟩

theorem msgRec_one : msgRec.OneLine := by
  constructor
  · constructor <;> decide
  · decide

example (ws : List WOrder) : parseOrders (lines [msgRec] ++ [53, 10]) ≠ .ok ws := by
  intro h
  have := ((C18_accepted_iff [msgRec] (by simp) (by intro r hr; simp at hr; rw [hr]; exact msgRec_one) [53, 10] ?_ (by decide) ws).1 h).1
  · cases this
  · rintro ⟨r, rest, _, h⟩
    have : (9:UInt8) ∈ [(53:UInt8), 10] := by rw [h]; simp [Record.text]
    revert this; decide

end Parfu.Props
