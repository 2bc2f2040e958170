/-
Property theorems C27 and C29: the command line and the exits of the main program.
-/
import Verif.MainSpec
import Verif.PropsRun
import Verif.PropsShort
set_option autoImplicit false

namespace Parfu.Props
open Parfu MainSpec MoveSpec TarSpec ScanSpec PlanSpec ProtocolSpec

theorem flagMax_eq : flagMax = maxorders := by decide
theorem flagBucket_eq : flagBucket = bucketsize := by decide
theorem flagArchive_eq : flagArchive = archivefile := by decide

theorem names_ne : maxorders ≠ bucketsize ∧ maxorders ≠ archivefile ∧ bucketsize ≠ archivefile := by decide

/-! ### one argument -/

theorem idxOf_append_not_mem (n v : Bytes) (c : UInt8) (h : c ∉ n) : (n ++ [c] ++ v).idxOf c = n.length := by
  rw [List.append_assoc, List.idxOf_append_of_notMem h]
  simp

theorem split_arg (a : Bytes) : IsTarget a ∨ ∃ n v, IsOption a n v := by
  by_cases h : (61 : UInt8) ∈ a
  · right
    obtain ⟨n, v, rfl, hn⟩ := List.append_of_mem h |> fun _ => by
      have := List.mem_iff_append.1 h
      exact (List.eq_append_cons_of_mem h : ∃ as bs, a = as ++ 61 :: bs ∧ 61 ∉ as)
    exact ⟨n, v, by simp, hn⟩
  · exact Or.inl h

theorem option_unique {a n v n' v' : Bytes} (h : IsOption a n v) (h' : IsOption a n' v') : n = n' ∧ v = v' := by
  obtain ⟨e, hn⟩ := h
  obtain ⟨e', hn'⟩ := h'
  have hl : n.length = n'.length := by
    rw [← idxOf_append_not_mem n v 61 hn, ← idxOf_append_not_mem n' v' 61 hn', ← e, ← e']
  have : n ++ ([61] ++ v) = n' ++ ([61] ++ v') := by
    rw [← List.append_assoc, ← List.append_assoc, ← e, ← e']
  obtain ⟨h1, h2⟩ := List.append_inj this hl
  exact ⟨h1, by simpa using h2⟩

theorem option_not_target {a n v : Bytes} (h : IsOption a n v) : ¬ IsTarget a := by
  intro ht
  apply ht
  rw [h.1]; simp

theorem parse_cons (ts : List Bytes) (o : Opts) (a : Bytes) (rest : List Bytes) :
    parseArgs ts o (a :: rest) =
      if find32 a 61 0 > a.length then parseArgs (ts ++ [a]) o rest
      else
        match setFlag o (a.take (find32 a 61 0)) (a.drop ((find32 a 61 0 + 1) % 2 ^ 32)) with
        | .error e => .error e
        | .ok none => .ok none
        | .ok (some o') => parseArgs ts o' rest := by
  conv_lhs => unfold parseArgs
  rfl

theorem parse_target (ts : List Bytes) (o : Opts) (a : Bytes) (rest : List Bytes) (h : IsTarget a)
    (hs : a.length < 2 ^ 32 - 1) : parseArgs ts o (a :: rest) = parseArgs (ts ++ [a]) o rest := by
  have : find32 a 61 0 = npos32 := by
    unfold find32
    rw [if_neg]; simpa [IsTarget] using h
  rw [parse_cons, this, if_pos (by unfold npos32; omega)]

theorem parse_option (ts : List Bytes) (o : Opts) (a n v : Bytes) (rest : List Bytes) (h : IsOption a n v)
    (hs : a.length < 2 ^ 32 - 1) : parseArgs ts o (a :: rest) =
      match setFlag o n v with
      | .error e => .error e
      | .ok none => .ok none
      | .ok (some o') => parseArgs ts o' rest := by
  have hlen : a.length = n.length + 1 + v.length := by rw [h.1]; simp; omega
  have hf : find32 a 61 0 = n.length := by
    unfold find32
    rw [List.drop_zero, if_pos (by rw [h.1]; simp), h.1, idxOf_append_not_mem n v 61 h.2]
    rw [Nat.zero_add]
    apply Nat.mod_eq_of_lt
    omega
  rw [parse_cons, hf, if_neg (by omega), Nat.mod_eq_of_lt (by omega)]
  have h1 : a.take n.length = n := by rw [h.1, List.append_assoc]; simp
  have h2 : a.drop (n.length + 1) = v := by
    rw [h.1, List.drop_append_of_le_length (by simp)]
    have : List.drop (n.length + 1) (n ++ [61]) = [] := by
      apply List.drop_eq_nil_of_le; simp
    rw [this, List.nil_append]
  rw [h1, h2]

/-- What a flag does. -/
theorem setFlag_cases (o : Opts) (n v : Bytes) :
    (n = maxorders ∧ setFlag o n v = (match stoi v with
      | .error e => .error e | .ok x => .ok (some { o with mx := (x % 2 ^ 32).toNat }))) ∨
    (n = bucketsize ∧ setFlag o n v = (match stoi v with
      | .error e => .error e | .ok x => .ok (some { o with bucket := nextBlock (u64 x) % 2 ^ 64 }))) ∨
    (n = archivefile ∧ setFlag o n v = .ok (some { o with archive := v })) ∨
    (n ≠ maxorders ∧ n ≠ bucketsize ∧ n ≠ archivefile ∧ setFlag o n v = .ok none) := by
  unfold setFlag
  rw [flagMax_eq, flagBucket_eq, flagArchive_eq]
  obtain ⟨h1, h2, h3⟩ := names_ne
  by_cases a1 : n = maxorders
  · left; exact ⟨a1, by rw [if_pos a1]; rfl⟩
  · by_cases a2 : n = bucketsize
    · right; left; exact ⟨a2, by rw [if_neg a1, if_pos a2]; rfl⟩
    · by_cases a3 : n = archivefile
      · right; right; left; exact ⟨a3, by rw [if_neg a1, if_neg a2, if_pos a3]⟩
      · right; right; right; exact ⟨a1, a2, a3, by rw [if_neg a1, if_neg a2, if_neg a3]⟩

theorem parse_append (ts : List Bytes) (o : Opts) (l1 l2 : List Bytes) :
    parseArgs ts o (l1 ++ l2) = match parseArgs ts o l1 with
      | .error e => .error e
      | .ok none => .ok none
      | .ok (some (ts', o')) => parseArgs ts' o' l2 := by
  induction l1 generalizing ts o with
  | nil => simp [parseArgs]
  | cons a l1 ih =>
    rw [List.cons_append, parse_cons, parse_cons]
    split
    · exact ih _ _
    · cases setFlag o (a.take (find32 a 61 0)) (a.drop ((find32 a 61 0 + 1) % 2 ^ 32)) with
      | error e => rfl
      | ok r =>
        cases r with
        | none => rfl
        | some o' => exact ih _ _

/-- One argument, from success to success. -/
theorem parse_one {ts ts' : List Bytes} {o o' : Opts} {a : Bytes} (hs : a.length < 2 ^ 32 - 1) :
    parseArgs ts o [a] = .ok (some (ts', o')) ↔
      (IsTarget a ∧ ts' = ts ++ [a] ∧ o' = o) ∨
      (∃ v, IsOption a archivefile v ∧ ts' = ts ∧ o' = { o with archive := v }) ∨
      (∃ v x, IsOption a maxorders v ∧ stoi v = .ok x ∧ ts' = ts ∧ o' = { o with mx := (x % 2 ^ 32).toNat }) ∨
      (∃ v x, IsOption a bucketsize v ∧ stoi v = .ok x ∧ ts' = ts ∧
        o' = { o with bucket := nextBlock (u64 x) % 2 ^ 64 }) := by
  obtain ⟨ne1, ne2, ne3⟩ := names_ne
  rcases split_arg a with ht | ⟨n, v, hv⟩
  · rw [parse_target ts o a [] ht hs]
    simp only [parseArgs, Except.ok.injEq, Option.some.injEq, Prod.mk.injEq]
    constructor
    · rintro ⟨h1, h2⟩; exact Or.inl ⟨ht, h1.symm, h2.symm⟩
    · rintro (⟨_, h1, h2⟩ | ⟨v, h, _⟩ | ⟨v, x, h, _⟩ | ⟨v, x, h, _⟩)
      · exact ⟨h1.symm, h2.symm⟩
      all_goals exact absurd ht (option_not_target h)
  · rw [parse_option ts o a n v [] hv hs]
    constructor
    · intro h
      rcases setFlag_cases o n v with ⟨rfl, e⟩ | ⟨rfl, e⟩ | ⟨rfl, e⟩ | ⟨_, _, _, e⟩ <;> rw [e] at h
      · cases hx : stoi v with
        | error e => rw [hx] at h; cases h
        | ok x =>
          rw [hx] at h
          simp only [parseArgs, Except.ok.injEq, Option.some.injEq, Prod.mk.injEq] at h
          exact Or.inr (Or.inr (Or.inl ⟨v, x, hv, hx, h.1.symm, h.2.symm⟩))
      · cases hx : stoi v with
        | error e => rw [hx] at h; cases h
        | ok x =>
          rw [hx] at h
          simp only [parseArgs, Except.ok.injEq, Option.some.injEq, Prod.mk.injEq] at h
          exact Or.inr (Or.inr (Or.inr ⟨v, x, hv, hx, h.1.symm, h.2.symm⟩))
      · simp only [parseArgs, Except.ok.injEq, Option.some.injEq, Prod.mk.injEq] at h
        exact Or.inr (Or.inl ⟨v, hv, h.1.symm, h.2.symm⟩)
      · cases h
    · rintro (⟨h, _⟩ | ⟨v', h, rfl, rfl⟩ | ⟨v', x, h, hx, rfl, rfl⟩ | ⟨v', x, h, hx, rfl, rfl⟩)
      · exact absurd h (option_not_target hv)
      · obtain ⟨rfl, rfl⟩ := option_unique hv h
        rcases setFlag_cases o archivefile v with ⟨e, _⟩ | ⟨e, _⟩ | ⟨_, e⟩ | ⟨_, _, e, _⟩
        · exact absurd e (Ne.symm ne2)
        · exact absurd e (Ne.symm ne3)
        · rw [e]; rfl
        · exact absurd rfl e
      · obtain ⟨rfl, rfl⟩ := option_unique hv h
        rcases setFlag_cases o maxorders v with ⟨_, e⟩ | ⟨e, _⟩ | ⟨e, _⟩ | ⟨e, _, _, _⟩
        · rw [e, hx]; rfl
        · exact absurd e ne1
        · exact absurd e ne2
        · exact absurd rfl e
      · obtain ⟨rfl, rfl⟩ := option_unique hv h
        rcases setFlag_cases o bucketsize v with ⟨e, _⟩ | ⟨_, e⟩ | ⟨e, _⟩ | ⟨_, e, _, _⟩
        · exact absurd e (Ne.symm ne1)
        · rw [e, hx]; rfl
        · exact absurd e ne3
        · exact absurd rfl e

theorem parse_one_none {ts : List Bytes} {o : Opts} {a : Bytes} (hs : a.length < 2 ^ 32 - 1) :
    parseArgs ts o [a] = .ok none ↔
      ∃ n v, IsOption a n v ∧ n ≠ maxorders ∧ n ≠ bucketsize ∧ n ≠ archivefile := by
  rcases split_arg a with ht | ⟨n, v, hv⟩
  · rw [parse_target ts o a [] ht hs]
    constructor
    · intro h; cases h
    · rintro ⟨n, v, h, _⟩; exact absurd ht (option_not_target h)
  · rw [parse_option ts o a n v [] hv hs]
    constructor
    · intro h
      rcases setFlag_cases o n v with ⟨rfl, e⟩ | ⟨rfl, e⟩ | ⟨rfl, e⟩ | ⟨h1, h2, h3, e⟩
      · rw [e] at h; cases hx : stoi v <;> rw [hx] at h <;> cases h
      · rw [e] at h; cases hx : stoi v <;> rw [hx] at h <;> cases h
      · rw [e] at h; cases h
      · exact ⟨n, v, hv, h1, h2, h3⟩
    · rintro ⟨n', v', h, h1, h2, h3⟩
      obtain ⟨rfl, rfl⟩ := option_unique hv h
      rcases setFlag_cases o n v with ⟨e, _⟩ | ⟨e, _⟩ | ⟨e, _⟩ | ⟨_, _, _, e⟩
      · exact absurd e h1
      · exact absurd e h2
      · exact absurd e h3
      · rw [e]

/-! ### C29 -/

/-- **C29** Parsing succeeds exactly when each argument is a target, an archive name, or a number
option with a readable number. -/
theorem C29_accepted_iff (o : Opts) (args : List Bytes) (hs : ShortArgs args) :
    (∃ r, parseArgs [] o args = .ok (some r)) ↔ ∀ a ∈ args, Acceptable a := by
  induction args using List.reverseRecOn with
  | nil => simp [parseArgs]
  | append_singleton l a ih =>
    have hs' : ShortArgs l := fun x hx => hs x (by simp [hx])
    have ha : a.length < 2 ^ 32 - 1 := hs a (by simp)
    have ih := ih hs'
    rw [parse_append]
    constructor
    · rintro ⟨⟨ts', o'⟩, h⟩
      cases hp : parseArgs [] o l with
      | error e => rw [hp] at h; cases h
      | ok r =>
        cases r with
        | none => rw [hp] at h; cases h
        | some r =>
          rw [hp] at h
          intro x hx
          rcases List.mem_append.1 hx with hx | hx
          · exact ih.1 ⟨r, hp⟩ x hx
          · rw [List.mem_singleton] at hx
            subst hx
            rcases (parse_one ha).1 h with ⟨h, _⟩ | ⟨v, h, _⟩ | ⟨v, n, h, hn, _⟩ | ⟨v, n, h, hn, _⟩
            · exact Or.inl h
            · exact Or.inr (Or.inl ⟨v, h⟩)
            · exact Or.inr (Or.inr ⟨v, n, Or.inl h, hn⟩)
            · exact Or.inr (Or.inr ⟨v, n, Or.inr h, hn⟩)
    · intro h
      obtain ⟨⟨ts, o1⟩, hp⟩ := ih.2 (fun x hx => h x (by simp [hx]))
      rw [hp]
      rcases h a (by simp) with h | ⟨v, h⟩ | ⟨v, n, h | h, hn⟩
      · exact ⟨_, (parse_one ha).2 (Or.inl ⟨h, rfl, rfl⟩)⟩
      · exact ⟨_, (parse_one ha).2 (Or.inr (Or.inl ⟨v, h, rfl, rfl⟩))⟩
      · exact ⟨_, (parse_one ha).2 (Or.inr (Or.inr (Or.inl ⟨v, n, h, hn, rfl, rfl⟩)))⟩
      · exact ⟨_, (parse_one ha).2 (Or.inr (Or.inr (Or.inr ⟨v, n, h, hn, rfl, rfl⟩)))⟩

/-- **C29** The null result - usage, and nothing is archived - comes exactly from an option with an
unknown name, all arguments before it being acceptable. -/
theorem C29_refused_iff (o : Opts) (args : List Bytes) (hs : ShortArgs args) :
    parseArgs [] o args = .ok none ↔
      ∃ pre a post, args = pre ++ a :: post ∧ (∀ x ∈ pre, Acceptable x) ∧
        ∃ n v, IsOption a n v ∧ n ≠ maxorders ∧ n ≠ bucketsize ∧ n ≠ archivefile := by
  constructor
  · induction args using List.reverseRecOn with
    | nil => intro h; simp [parseArgs] at h
    | append_singleton l a ih =>
      have hs' : ShortArgs l := fun x hx => hs x (by simp [hx])
      have ha : a.length < 2 ^ 32 - 1 := hs a (by simp)
      intro h
      rw [parse_append] at h
      cases hp : parseArgs [] o l with
      | error e => rw [hp] at h; cases h
      | ok r =>
        cases r with
        | none =>
          obtain ⟨pre, x, post, h1, h2⟩ := ih hs' hp
          exact ⟨pre, x, post ++ [a], by rw [h1]; simp, h2⟩
        | some r =>
          rw [hp] at h
          exact ⟨l, a, [], rfl, (C29_accepted_iff o l hs').1 ⟨r, hp⟩, (parse_one_none ha).1 h⟩
  · rintro ⟨pre, a, post, rfl, h1, h2⟩
    have hs' : ShortArgs pre := fun x hx => hs x (by simp [hx])
    have ha : a.length < 2 ^ 32 - 1 := hs a (by simp)
    obtain ⟨r, hp⟩ := (C29_accepted_iff o pre hs').2 h1
    have : pre ++ a :: post = pre ++ ([a] ++ post) := by simp
    rw [this, parse_append, hp]
    simp only
    rw [parse_append, (parse_one_none ha).2 h2]

/-- The four possible effects of one argument on the settings. -/
theorem lastSet_snoc {l : List Bytes} {a n v : Bytes} :
    LastSet (l ++ [a]) n v ↔ a = n ++ [61] ++ v ∨ (LastSet l n v ∧ ∀ w, ¬ IsOption a n w) := by
  constructor
  · rintro ⟨pre, post, h1, h2⟩
    rcases List.eq_nil_or_concat post with rfl | ⟨post', x, rfl⟩
    · left
      have := List.append_inj' h1 (by simp)
      exact List.singleton_inj.1 this.2
    · right
      rw [List.concat_eq_append, ← List.cons_append, ← List.append_assoc] at h1
      obtain ⟨h3, h4⟩ := List.append_inj' h1 (by simp)
      have := List.singleton_inj.1 h4
      subst this
      exact ⟨⟨pre, post', h3, fun y hy => h2 y (by simp [hy])⟩, h2 a (by simp)⟩
  · rintro (h | ⟨⟨pre, post, h1, h2⟩, h3⟩)
    · exact ⟨l, [], by rw [h], by simp⟩
    · refine ⟨pre, post ++ [a], by rw [h1]; simp, ?_⟩
      intro x hx
      rcases List.mem_append.1 hx with hx | hx
      · exact h2 x hx
      · rw [List.mem_singleton] at hx; subst hx; exact h3

/-- What a successful parse has set. -/
structure Result (o : Opts) (args ts : List Bytes) (o' : Opts) : Prop where
  targets : ts = args.filter (fun a => decide ((61 : UInt8) ∉ a))
  archive : ∀ v, LastSet args archivefile v → o'.archive = v
  noArchive : Unset args archivefile → o'.archive = o.archive
  bucket : ∀ v, LastSet args bucketsize v → ∃ x, stoi v = .ok x ∧ o'.bucket = nextBlock (u64 x) % 2 ^ 64
  noBucket : Unset args bucketsize → o'.bucket = o.bucket
  mx : ∀ v, LastSet args maxorders v → ∃ x, stoi v = .ok x ∧ o'.mx = (x % 2 ^ 32).toNat
  noMx : Unset args maxorders → o'.mx = o.mx

theorem parse_result (o : Opts) (args : List Bytes) (hs : ShortArgs args) (ts : List Bytes) (o' : Opts)
    (h : parseArgs [] o args = .ok (some (ts, o'))) : Result o args ts o' := by
  obtain ⟨ne1, ne2, ne3⟩ := names_ne
  have hne : ∀ n, (n = maxorders ∨ n = bucketsize ∨ n = archivefile) → (61 : UInt8) ∉ n := by
    rintro n (rfl | rfl | rfl) <;> decide
  induction args using List.reverseRecOn generalizing ts o' with
  | nil =>
    simp only [parseArgs, Except.ok.injEq, Option.some.injEq, Prod.mk.injEq] at h
    obtain ⟨rfl, rfl⟩ := h
    constructor
    · rfl
    all_goals first
      | (intro _; rfl)
      | (rintro v ⟨pre, post, h, _⟩; simp at h)
  | append_singleton l a ih =>
    have hs' : ShortArgs l := fun x hx => hs x (by simp [hx])
    have ha : a.length < 2 ^ 32 - 1 := hs a (by simp)
    rw [parse_append] at h
    cases hp : parseArgs [] o l with
    | error e => rw [hp] at h; cases h
    | ok r =>
      cases r with
      | none => rw [hp] at h; cases h
      | some r =>
        obtain ⟨ts1, o1⟩ := r
        rw [hp] at h
        have R := ih hs' ts1 o1 hp
        have un : ∀ n, Unset (l ++ [a]) n → Unset l n := fun n hu x hx => hu x (by simp [hx])
        have una : ∀ n, Unset (l ++ [a]) n → ∀ v, ¬ IsOption a n v := fun n hu => hu a (by simp)
        have other : ∀ n m w, IsOption a m w → n ≠ m → (61 : UInt8) ∉ n → ∀ v, LastSet (l ++ [a]) n v → LastSet l n v := by
          intro n m w hw hnm hn v hv
          rcases lastSet_snoc.1 hv with h | h
          · exact absurd (option_unique (⟨h, hn⟩ : IsOption a n v) hw).1 hnm
          · exact h.1
        have same : ∀ n w, IsOption a n w → ∀ v, LastSet (l ++ [a]) n v → v = w := by
          intro n w hw v hv
          rcases lastSet_snoc.1 hv with h | h
          · exact (option_unique (⟨h, hw.2⟩ : IsOption a n v) hw).2
          · exact absurd hw (h.2 w)
        rcases (parse_one ha).1 h with ⟨ht, rfl, rfl⟩ | ⟨w, hw, rfl, rfl⟩ | ⟨w, x, hw, hx, rfl, rfl⟩ | ⟨w, x, hw, hx, rfl, rfl⟩
        · have no : ∀ n, (61 : UInt8) ∉ n → ∀ v, LastSet (l ++ [a]) n v → LastSet l n v := by
            intro n hn v hv
            rcases lastSet_snoc.1 hv with h | h
            · exact absurd ht (option_not_target ⟨h, hn⟩)
            · exact h.1
          constructor
          · rw [R.targets, List.filter_append]
            have : (61 : UInt8) ∉ a := ht
            simp [this]
          · exact fun v hv => R.archive v (no _ (by decide) v hv)
          · exact fun hu => R.noArchive (un _ hu)
          · exact fun v hv => R.bucket v (no _ (by decide) v hv)
          · exact fun hu => R.noBucket (un _ hu)
          · exact fun v hv => R.mx v (no _ (by decide) v hv)
          · exact fun hu => R.noMx (un _ hu)
        all_goals
          have hta : (61 : UInt8) ∈ a := by rw [hw.1]; simp
        · constructor
          · rw [R.targets, List.filter_append]; simp [hta]
          · exact fun v hv => (same _ _ hw v hv).symm
          · exact fun hu => absurd hw (una _ hu w)
          · exact fun v hv => R.bucket v (other _ _ _ hw ne3 (by decide) v hv)
          · exact fun hu => R.noBucket (un _ hu)
          · exact fun v hv => R.mx v (other _ _ _ hw ne2 (by decide) v hv)
          · exact fun hu => R.noMx (un _ hu)
        · constructor
          · rw [R.targets, List.filter_append]; simp [hta]
          · exact fun v hv => R.archive v (other _ _ _ hw ne2.symm (by decide) v hv)
          · exact fun hu => R.noArchive (un _ hu)
          · exact fun v hv => R.bucket v (other _ _ _ hw ne1.symm (by decide) v hv)
          · exact fun hu => R.noBucket (un _ hu)
          · intro v hv
            rw [same _ _ hw v hv]; exact ⟨x, hx, rfl⟩
          · exact fun hu => absurd hw (una _ hu w)
        · constructor
          · rw [R.targets, List.filter_append]; simp [hta]
          · exact fun v hv => R.archive v (other _ _ _ hw ne3.symm (by decide) v hv)
          · exact fun hu => R.noArchive (un _ hu)
          · intro v hv
            rw [same _ _ hw v hv]; exact ⟨x, hx, rfl⟩
          · exact fun hu => absurd hw (una _ hu w)
          · exact fun v hv => R.mx v (other _ _ _ hw ne1 (by decide) v hv)
          · exact fun hu => R.noMx (un _ hu)

theorem stoi_range {v : Bytes} {x : Int} (h : stoi v = .ok x) : -(2 ^ 31) ≤ x ∧ x < 2 ^ 31 := by
  have key : ∀ y : Int, (if -(2 ^ 31) ≤ y ∧ y < 2 ^ 31 then Except.ok y else Except.error Err.thrown : Res Int) = .ok x →
      -(2 ^ 31) ≤ x ∧ x < 2 ^ 31 := by
    intro y hy
    by_cases hc : -(2 ^ 31) ≤ y ∧ y < 2 ^ 31
    · rw [if_pos hc] at hy
      have := Except.ok.inj hy
      subst this; exact hc
    · rw [if_neg hc] at hy; cases hy
  unfold stoi at h
  dsimp only at h
  cases hr : readNum 10 (if (v.dropWhile isSpace).head? = some 45 ∨ (v.dropWhile isSpace).head? = some 43 then
      (v.dropWhile isSpace).drop 1 else v.dropWhile isSpace) with
  | none => rw [hr] at h; cases h
  | some r => rw [hr] at h; exact key _ h

/-- **C29** The outcome of a successful parse: the targets are the arguments without '=', in order;
each option has the value of its last occurrence, or stays as it was; and a bucket size that is not
negative is rounded up to the next multiple of 512, never down. -/
theorem C29_outcome (o : Opts) (args : List Bytes) (hs : ShortArgs args) (ts : List Bytes) (o' : Opts)
    (h : parseArgs [] o args = .ok (some (ts, o'))) :
    ts = args.filter (fun a => decide ((61 : UInt8) ∉ a)) ∧
    (∀ v, LastSet args archivefile v → o'.archive = v) ∧
    (Unset args archivefile → o'.archive = o.archive) ∧
    (∀ v n, LastSet args bucketsize v → stoi v = .ok n → 0 ≤ n →
      n ≤ o'.bucket ∧ (o'.bucket : Int) < n + 512 ∧ o'.bucket % 512 = 0) ∧
    (Unset args bucketsize → o'.bucket = o.bucket) ∧
    (∀ v n, LastSet args maxorders v → stoi v = .ok n → 0 ≤ n → (o'.mx : Int) = n) ∧
    (Unset args maxorders → o'.mx = o.mx) := by
  have R := parse_result o args hs ts o' h
  refine ⟨R.targets, R.archive, R.noArchive, ?_, R.noBucket, ?_, R.noMx⟩
  · intro v n hv hn h0
    obtain ⟨x, hx, hb⟩ := R.bucket v hv
    rw [hn] at hx
    cases hx
    have hr := stoi_range hn
    have hu : u64 n = n.toNat := by unfold u64; omega
    rw [hu] at hb
    unfold nextBlock blk at hb
    rw [hb]
    split
    · rw [Nat.mod_eq_of_lt (by omega)]; omega
    · rw [Nat.mod_eq_of_lt (by omega)]; omega
  · intro v n hv hn h0
    obtain ⟨x, hx, hb⟩ := R.mx v hv
    rw [hn] at hx
    cases hx
    have hr := stoi_range hn
    rw [hb]
    omega

/-- The options of one name, and the targets, of an argument list. -/
def optionsNamed (name : Bytes) (args : List Bytes) : List Bytes :=
  args.filter (fun a => (name ++ [61]).isPrefixOf a)

theorem isPrefix_option {a n : Bytes} (hn : (61 : UInt8) ∉ n) :
    (n ++ [61]).isPrefixOf a = true ↔ ∃ v, IsOption a n v := by
  rw [List.isPrefixOf_iff_prefix]
  constructor
  · rintro ⟨v, rfl⟩; exact ⟨v, rfl, hn⟩
  · rintro ⟨v, h, _⟩; exact ⟨v, h.symm⟩

theorem lastSet_iff {args : List Bytes} {n v : Bytes} (hn : (61 : UInt8) ∉ n) :
    LastSet args n v ↔ (optionsNamed n args).getLast? = some (n ++ [61] ++ v) := by
  induction args using List.reverseRecOn with
  | nil =>
    constructor
    · rintro ⟨pre, post, h, _⟩; simp at h
    · intro h; simp [optionsNamed] at h
  | append_singleton l a ih =>
    rw [lastSet_snoc, ih]
    unfold optionsNamed
    rw [List.filter_append]
    by_cases hp : (n ++ [61]).isPrefixOf a = true
    · obtain ⟨w, hw⟩ := (isPrefix_option hn).1 hp
      rw [List.filter_cons_of_pos hp]
      simp only [List.filter_nil, List.getLast?_append, List.getLast?_singleton, Option.some_or, Option.some.injEq]
      constructor
      · rintro (h | h)
        · exact h
        · exact absurd hw (h.2 w)
      · exact Or.inl
    · rw [List.filter_cons_of_neg hp]
      simp only [List.filter_nil, List.append_nil]
      constructor
      · rintro (h | h)
        · exact absurd ((isPrefix_option hn).2 ⟨v, h, hn⟩) hp
        · exact h.1
      · intro h
        exact Or.inr ⟨h, fun w hw => hp ((isPrefix_option hn).2 ⟨w, hw⟩)⟩

theorem unset_or_lastSet (args : List Bytes) (n : Bytes) (hn : (61 : UInt8) ∉ n) :
    (Unset args n ∧ optionsNamed n args = []) ∨ (∃ v, LastSet args n v) := by
  cases hl : (optionsNamed n args).getLast? with
  | none =>
    left
    have := List.getLast?_eq_none_iff.1 hl
    refine ⟨?_, this⟩
    intro a ha v hv
    have h1 : a ∈ optionsNamed n args := List.mem_filter.2 ⟨ha, (isPrefix_option hn).2 ⟨v, hv⟩⟩
    rw [this] at h1; cases h1
  | some a =>
    right
    have ha : a ∈ optionsNamed n args := List.mem_of_getLast? hl
    obtain ⟨v, hv⟩ := (isPrefix_option hn).1 (List.mem_filter.1 ha).2
    exact ⟨v, (lastSet_iff hn).2 (by rw [hl, hv.1])⟩

/-- **C29** Only the order among the targets, and among the settings of the same option, matters:
argument lists with the same arguments that agree in those give the same result. -/
theorem C29_order_of_different_options (o : Opts) (args args' : List Bytes) (hs : ShortArgs args)
    (hp : args'.Perm args)
    (ht : args'.filter (fun a => decide ((61 : UInt8) ∉ a)) = args.filter (fun a => decide ((61 : UInt8) ∉ a)))
    (h1 : optionsNamed archivefile args' = optionsNamed archivefile args)
    (h2 : optionsNamed bucketsize args' = optionsNamed bucketsize args)
    (h3 : optionsNamed maxorders args' = optionsNamed maxorders args)
    (r : List Bytes × Opts) (h : parseArgs [] o args = .ok (some r)) :
    parseArgs [] o args' = .ok (some r) := by
  have hs' : ShortArgs args' := fun a ha => hs a (hp.mem_iff.1 ha)
  obtain ⟨⟨ts', o2⟩, h'⟩ := (C29_accepted_iff o args' hs').2
    (fun a ha => (C29_accepted_iff o args hs).1 ⟨r, h⟩ a (hp.mem_iff.1 ha))
  rw [h']
  obtain ⟨ts, o1⟩ := r
  have R := parse_result o args hs ts o1 h
  have R' := parse_result o args' hs' ts' o2 h'
  have key : ∀ n, (61 : UInt8) ∉ n → optionsNamed n args' = optionsNamed n args →
      (Unset args n ∧ Unset args' n) ∨ ∃ v, LastSet args n v ∧ LastSet args' n v := by
    intro n hn he
    rcases unset_or_lastSet args n hn with ⟨hu, hl⟩ | ⟨v, hv⟩
    · rcases unset_or_lastSet args' n hn with ⟨hu', _⟩ | ⟨v, hv⟩
      · exact Or.inl ⟨hu, hu'⟩
      · have := (lastSet_iff hn).1 hv
        rw [he, hl] at this; cases this
    · exact Or.inr ⟨v, hv, (lastSet_iff hn).2 (by rw [he]; exact (lastSet_iff hn).1 hv)⟩
  have e1 : o2.archive = o1.archive := by
    rcases key _ (by decide) h1 with ⟨a, b⟩ | ⟨v, a, b⟩
    · rw [R'.noArchive b, R.noArchive a]
    · rw [R'.archive v b, R.archive v a]
  have e2 : o2.bucket = o1.bucket := by
    rcases key _ (by decide) h2 with ⟨a, b⟩ | ⟨v, a, b⟩
    · rw [R'.noBucket b, R.noBucket a]
    · obtain ⟨x, hx, p⟩ := R.bucket v a
      obtain ⟨y, hy, q⟩ := R'.bucket v b
      rw [hx] at hy; cases hy; rw [p, q]
  have e3 : o2.mx = o1.mx := by
    rcases key _ (by decide) h3 with ⟨a, b⟩ | ⟨v, a, b⟩
    · rw [R'.noMx b, R.noMx a]
    · obtain ⟨x, hx, p⟩ := R.mx v a
      obtain ⟨y, hy, q⟩ := R'.mx v b
      rw [hx] at hy; cases hy; rw [p, q]
  have e4 : ts' = ts := by rw [R'.targets, R.targets, ht]
  have e5 : o2 = o1 := by
    cases o1; cases o2; simp only [Opts.mk.injEq]; exact ⟨e2, e3, e1⟩
  rw [e4, e5]

/-- **C29, a gap** A negative bucket size is accepted: `bucketsize=-1` becomes 0 and
`bucketsize=-1000` becomes 2^64-512. -/
theorem C29_negative_accepted (o : Opts) :
    parseArgs [] o [bucketsize ++ [61, 45, 49]] = .ok (some ([], { o with bucket := 0 })) ∧
    parseArgs [] o [bucketsize ++ [61, 45, 49, 48, 48, 48]] =
      .ok (some ([], { o with bucket := 2 ^ 64 - 512 })) := by
  constructor
  · refine (parse_one (by decide)).2 (Or.inr (Or.inr (Or.inr ⟨[45, 49], -1, ⟨rfl, by decide⟩, by decide +kernel, rfl, ?_⟩)))
    have : nextBlock (u64 (-1)) % 2 ^ 64 = 0 := by decide +kernel
    rw [this]
  · refine (parse_one (by decide)).2 (Or.inr (Or.inr (Or.inr ⟨[45, 49, 48, 48, 48], -1000, ⟨rfl, by decide⟩, by decide +kernel, rfl, ?_⟩)))
    have : nextBlock (u64 (-1000)) % 2 ^ 64 = 2 ^ 64 - 512 := by decide +kernel
    rw [this]

/-- `parfu bucketsize=100001 archivefile=a /t`. -/
example : ShortArgs [bucketsize ++ [61, 49, 48, 48, 48, 48, 49], archivefile ++ [61, 97], [47, 116]] ∧
    parseArgs [] (defaultOpts 7) [bucketsize ++ [61, 49, 48, 48, 48, 48, 49], archivefile ++ [61, 97], [47, 116]] =
      .ok (some ([[47, 116]], ⟨100352, 7, [97]⟩)) := by
  unfold ShortArgs
  decide +kernel

end Parfu.Props
