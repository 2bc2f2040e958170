/-
C57: the option parser of parfu_behavior_control.c.
-/
import Verif.Behavior
set_option autoImplicit false

namespace Parfu.Props
open Parfu

/-! ### specification -/

namespace BehavSpec

/-- Is it -C or -X? -/
def isMode : BOpt → Bool
  | .create => true
  | .extract => true
  | _ => false

/-- Is it -N? -/
def isIters : BOpt → Bool
  | .iters _ => true
  | _ => false

/-- The archive names given with -f and -F, in order. -/
def names (os : List BOpt) : List Bytes :=
  os.filterMap fun | .arc a => some a | .arcOver a => some a | _ => none

/-- The arguments given with -e, in order. -/
def exponArgs (os : List BOpt) : List Bytes := os.filterMap fun | .expon a => some a | _ => none

/-- The arguments given with -B, in order. -/
def blockArgs (os : List BOpt) : List Bytes := os.filterMap fun | .blocks a => some a | _ => none

/-- `a` denotes a number between `lo` and `hi`. -/
def InRange (lo hi : Int) (a : Bytes) : Prop := ∃ v, atoi a = .ok v ∧ lo ≤ v ∧ v ≤ hi

/-- A command line that makes sense: no unknown option, -C or -X and -N at most once, all numbers in
range. -/
structure Sensible (os : List BOpt) : Prop where
  known : BOpt.bad ∉ os
  oneMode : os.countP isMode ≤ 1
  oneIters : os.countP isIters ≤ 1
  expons : ∀ a, BOpt.expon a ∈ os → InRange 8 26 a
  blocks : ∀ a, BOpt.blocks a ∈ os → InRange 1 2000 a
  iters : ∀ a, BOpt.iters a ∈ os → InRange 1 1000 a

/-- What the parser can work with at all: neither -d nor -L, at most ten values of each kind, and
numbers that fit an `int`. -/
structure Workable (os : List BOpt) : Prop where
  noDir : ∀ a, BOpt.targetDir a ∉ os
  noOut : ∀ a, BOpt.dataOut a ∉ os
  names : (names os).length ≤ 10
  expons : (exponArgs os).length ≤ 10
  blocks : (blockArgs os).length ≤ 10
  nums : ∀ a, BOpt.expon a ∈ os ∨ BOpt.blocks a ∈ os ∨ BOpt.iters a ∈ os → ∃ v, atoi a = .ok v

/-- The structure holds what was given, and nothing else. -/
structure Holds (os : List BOpt) (b : Behav) : Prop where
  arcs : b.arcs = BehavSpec.names os
  exps : b.exps.map Except.ok = (exponArgs os).map atoi
  bpfs : b.bpfs.map Except.ok = (blockArgs os).map atoi
  mode : b.mode = (if BOpt.create ∈ os then some 67 else if BOpt.extract ∈ os then some 88 else none)
  iterGiven : b.iterGiven = true ↔ ∃ a, BOpt.iters a ∈ os
  iters : ∀ a, BOpt.iters a ∈ os → atoi a = .ok b.iters
  trial : b.trial = true ↔ BOpt.trial ∈ os
  stdout : b.toStdout = true ↔ BOpt.stdout ∈ os
  overwrite : b.overwrite = true ↔ ∃ a, BOpt.arcOver a ∈ os
  dirs : b.targetDir = none ∧ b.dataOut = none

/-- The text `a` denotes the number `v`, as C's `atoi` is specified: white space, perhaps a sign, a run of
digits with that value, and then nothing or something that is not a digit. -/
def Denotes (a : Bytes) (v : Int) : Prop :=
  ∃ blanks run rest : Bytes, (∀ c ∈ blanks, isSpace c = true) ∧ run ≠ [] ∧
    (∀ c ∈ run, isDigit 10 c = true) ∧ (∀ c, rest.head? = some c → isDigit 10 c = false) ∧
    ((a = blanks ++ run ++ rest ∧ v = numVal 10 run) ∨
     (a = blanks ++ [43] ++ run ++ rest ∧ v = numVal 10 run) ∨
     (a = blanks ++ [45] ++ run ++ rest ∧ v = -(numVal 10 run : Int)))

/-- The option that ruins a command line: after `os`, all of which was fine, `o` makes the program's
behaviour undefined.  -d and -L always do; so do an eleventh value, and a number that does not fit an
`int` where it is read. -/
def Ruins (os : List BOpt) : BOpt → Prop
  | .targetDir _ => True
  | .dataOut _ => True
  | .arc _ => (names os).length = 10
  | .arcOver _ => (names os).length = 10
  | .expon a => (∀ v, atoi a ≠ .ok v) ∨ ((exponArgs os).length = 10 ∧ InRange 8 26 a)
  | .blocks a => (∀ v, atoi a ≠ .ok v) ∨ ((blockArgs os).length = 10 ∧ InRange 1 2000 a)
  | .iters a => (∀ v, atoi a ≠ .ok v) ∧ ∀ b, BOpt.iters b ∉ os
  | _ => False

end BehavSpec

open BehavSpec

/-! ### proofs -/

/-- The loop from a state `b` whose arrays have their first size. -/
structure Fresh (b : Behav) : Prop where
  len : b.arrayLen = 10
  arcB : b.arcBytes = 80
  expB : b.expBytes = 40
  bpfB : b.bpfBytes = 40

/-- What option `o`, accepted, does to a structure. -/
def upd (b : Behav) : BOpt → Behav
  | .create => { b with mode := some 67 }
  | .extract => { b with mode := some 88 }
  | .trial => { b with trial := true }
  | .stdout => { b with toStdout := true }
  | .dataOut _ => b
  | .targetDir _ => b
  | .arcOver a => { b with overwrite := true, arcs := b.arcs ++ [a] }
  | .arc a => { b with arcs := b.arcs ++ [a] }
  | .expon a => { b with exps := b.exps ++ [((atoi a).toOption).getD 0] }
  | .blocks a => { b with bpfs := b.bpfs ++ [((atoi a).toOption).getD 0] }
  | .iters a => { b with iters := ((atoi a).toOption).getD 0, iterGiven := true }
  | .bad => b

/-- Option `o` is acceptable in state `b`. -/
def accepts (b : Behav) : BOpt → Prop
  | .create => b.mode = none
  | .extract => b.mode = none
  | .expon a => InRange 8 26 a
  | .blocks a => InRange 1 2000 a
  | .iters a => b.iterGiven = false ∧ InRange 1 1000 a
  | .bad => False
  | _ => True

/-- Option `o` is one the parser can work with in state `b`. -/
def works (b : Behav) : BOpt → Prop
  | .dataOut _ => False
  | .targetDir _ => False
  | .arc _ => b.arcs.length < 10
  | .arcOver _ => b.arcs.length < 10
  | .expon a => b.exps.length < 10 ∧ ∃ v, atoi a = .ok v
  | .blocks a => b.bpfs.length < 10 ∧ ∃ v, atoi a = .ok v
  | .iters a => ∃ v, atoi a = .ok v
  | _ => True

theorem upd_fresh {b : Behav} {o : BOpt} (h : Fresh b) : Fresh (upd b o) := by
  obtain ⟨h1, h2, h3, h4⟩ := h
  cases o <;> exact ⟨h1, h2, h3, h4⟩

theorem opt_ok {b : Behav} {o : BOpt} (hf : Fresh b) (hw : works b o) (ha : accepts b o) :
    behavOpt b o = .ok (some (upd b o)) := by
  obtain ⟨h1, h2, h3, h4⟩ := hf
  cases o with
  | create => simp only [accepts] at ha; simp [behavOpt, upd, ha]
  | extract => simp only [accepts] at ha; simp [behavOpt, upd, ha]
  | trial => rfl
  | stdout => rfl
  | dataOut a => exact hw.elim
  | targetDir a => exact hw.elim
  | arc a =>
    simp only [works] at hw
    simp only [behavOpt, addArcFile, behavRoom, h1]
    rw [if_neg (by omega)]
    simp only [h2]
    rw [if_pos (by omega)]; simp [upd, h1, h2]
  | arcOver a =>
    simp only [works] at hw
    simp only [behavOpt, addArcFile, behavRoom, h1]
    rw [if_neg (by omega)]
    simp only [h2]
    rw [if_pos (by omega)]; simp [upd, h1, h2]
  | expon a =>
    obtain ⟨hl, -⟩ := hw
    obtain ⟨v, hv, hr1, hr2⟩ := ha
    simp only [behavOpt, hv, addMinExpon, behavRoom, h1]
    rw [if_neg (by omega), if_neg (by omega), if_neg (by omega)]
    simp only [h3]
    rw [if_pos (by omega)]
    simp [upd, hv, Except.toOption, h3]
  | blocks a =>
    obtain ⟨hl, -⟩ := hw
    obtain ⟨v, hv, hr1, hr2⟩ := ha
    simp only [behavOpt, hv, addBlPerFrag, behavRoom, h1]
    rw [if_neg (by omega), if_neg (by omega), if_neg (by omega)]
    simp only [h4]
    rw [if_pos (by omega)]
    simp [upd, hv, Except.toOption, h4]
  | iters a =>
    obtain ⟨hg, v, hv, hr1, hr2⟩ := ha
    simp only [behavOpt, hg, hv]
    simp only [Bool.false_eq_true, if_false]
    rw [if_neg (by omega)]
    simp [upd, hv, Except.toOption]
  | bad => exact ha.elim

theorem opt_null {b : Behav} {o : BOpt} (hw : works b o) (ha : ¬ accepts b o) :
    behavOpt b o = .ok none := by
  cases o with
  | create => simp only [accepts] at ha; simp [behavOpt, ha]
  | extract => simp only [accepts] at ha; simp [behavOpt, ha]
  | trial => exact absurd trivial ha
  | stdout => exact absurd trivial ha
  | dataOut a => exact hw.elim
  | targetDir a => exact hw.elim
  | arc a => exact absurd trivial ha
  | arcOver a => exact absurd trivial ha
  | expon a =>
    obtain ⟨-, v, hv⟩ := hw
    have hn : v < 8 ∨ v > 26 := by
      rcases (by omega : (v < 8 ∨ v > 26) ∨ (8 ≤ v ∧ v ≤ 26)) with h | ⟨h, h'⟩
      · exact h
      · exact absurd ⟨v, hv, h, h'⟩ ha
    simp [behavOpt, hv, hn]
  | blocks a =>
    obtain ⟨-, v, hv⟩ := hw
    have hn : v < 1 ∨ v > 2000 := by
      rcases (by omega : (v < 1 ∨ v > 2000) ∨ (1 ≤ v ∧ v ≤ 2000)) with h | ⟨h, h'⟩
      · exact h
      · exact absurd ⟨v, hv, h, h'⟩ ha
    simp [behavOpt, hv, hn]
  | iters a =>
    obtain ⟨v, hv⟩ := hw
    cases hg : b.iterGiven with
    | true => simp [behavOpt, hg]
    | false =>
      have hn : v < 1 ∨ v > 1000 := by
        rcases (by omega : (v < 1 ∨ v > 1000) ∨ (1 ≤ v ∧ v ≤ 1000)) with h | ⟨h, h'⟩
        · exact h
        · exact absurd ⟨hg, v, hv, h, h'⟩ ha
      simp [behavOpt, hg, hv, hn]
  | bad => rfl

/-- All of the list is acceptable, one after the other. -/
def acceptsAll : Behav → List BOpt → Prop
  | _, [] => True
  | b, o :: os => accepts b o ∧ acceptsAll (upd b o) os

def worksAll : Behav → List BOpt → Prop
  | _, [] => True
  | b, o :: os => works b o ∧ worksAll (upd b o) os

theorem loop_ok (os : List BOpt) : ∀ (b : Behav), Fresh b → worksAll b os → acceptsAll b os →
    ∀ rest, behavLoop (os ++ rest) b = behavLoop rest (os.foldl upd b) := by
  induction os with
  | nil => intro b _ _ _ rest; rfl
  | cons o os ih =>
    intro b hf hw ha rest
    rw [List.cons_append, behavLoop, opt_ok hf hw.1 ha.1]
    exact ih _ (upd_fresh hf) hw.2 ha.2 rest

theorem loop_null (os : List BOpt) : ∀ (b : Behav), Fresh b → worksAll b os → ¬ acceptsAll b os →
    behavLoop os b = .ok none := by
  induction os with
  | nil => intro b _ _ h; exact absurd trivial h
  | cons o os ih =>
    intro b hf hw ha
    rw [behavLoop]
    by_cases h1 : accepts b o
    · rw [opt_ok hf hw.1 h1]
      exact ih _ (upd_fresh hf) hw.2 (fun h2 => ha ⟨h1, h2⟩)
    · rw [opt_null hw.1 h1]

theorem fold_fresh (os : List BOpt) : ∀ (b : Behav), Fresh b → Fresh (os.foldl upd b) := by
  induction os with
  | nil => intro b h; exact h
  | cons o os ih => intro b h; exact ih _ (upd_fresh h)

theorem worksAll_of (os : List BOpt) : ∀ (b : Behav),
    (∀ a, BOpt.targetDir a ∉ os) → (∀ a, BOpt.dataOut a ∉ os) →
    b.arcs.length + (names os).length ≤ 10 → b.exps.length + (exponArgs os).length ≤ 10 →
    b.bpfs.length + (blockArgs os).length ≤ 10 →
    (∀ a, BOpt.expon a ∈ os ∨ BOpt.blocks a ∈ os ∨ BOpt.iters a ∈ os → ∃ v, atoi a = .ok v) →
    worksAll b os := by
  induction os with
  | nil => intros; trivial
  | cons o os ih =>
    intro b hd ho hn he hb hv
    have hd' : ∀ a, BOpt.targetDir a ∉ os := fun a h => hd a (List.mem_cons_of_mem _ h)
    have ho' : ∀ a, BOpt.dataOut a ∉ os := fun a h => ho a (List.mem_cons_of_mem _ h)
    have hv' : ∀ a, BOpt.expon a ∈ os ∨ BOpt.blocks a ∈ os ∨ BOpt.iters a ∈ os → ∃ v, atoi a = .ok v := by
      intro a h
      refine hv a ?_
      rcases h with h | h | h
      · exact .inl (List.mem_cons_of_mem _ h)
      · exact .inr (.inl (List.mem_cons_of_mem _ h))
      · exact .inr (.inr (List.mem_cons_of_mem _ h))
    refine ⟨?_, ih _ hd' ho' ?_ ?_ ?_ hv'⟩
    · cases o with
      | dataOut a => exact absurd (List.mem_cons_self) (ho a)
      | targetDir a => exact absurd (List.mem_cons_self) (hd a)
      | arc a => simp [names] at hn; simp [works]; omega
      | arcOver a => simp [names] at hn; simp [works]; omega
      | expon a => simp [exponArgs] at he; exact ⟨by omega, hv a (.inl List.mem_cons_self)⟩
      | blocks a => simp [blockArgs] at hb; exact ⟨by omega, hv a (.inr (.inl List.mem_cons_self))⟩
      | iters a => exact hv a (.inr (.inr List.mem_cons_self))
      | _ => trivial
    · cases o <;> simp [names, upd] at hn ⊢ <;> omega
    · cases o <;> simp [exponArgs, upd] at he ⊢ <;> omega
    · cases o <;> simp [blockArgs, upd] at hb ⊢ <;> omega

/-- The acceptable lists, without the states. -/
theorem acceptsAll_iff (os : List BOpt) : ∀ (b : Behav),
    acceptsAll b os ↔
      (BOpt.bad ∉ os ∧ (if b.mode = none then 0 else 1) + os.countP isMode ≤ 1 ∧
       (if b.iterGiven = false then 0 else 1) + os.countP isIters ≤ 1 ∧
       (∀ a, BOpt.expon a ∈ os → InRange 8 26 a) ∧ (∀ a, BOpt.blocks a ∈ os → InRange 1 2000 a) ∧
       (∀ a, BOpt.iters a ∈ os → InRange 1 1000 a)) := by
  induction os with
  | nil => intro b; simp [acceptsAll]; split <;> split <;> simp
  | cons o os ih =>
    intro b
    rw [acceptsAll, ih]
    cases o <;> simp [accepts, upd, isMode, isIters, List.countP_cons]
    all_goals grind

/-- The structure the loop ends with, field by field. -/
theorem fold_fields (os : List BOpt) : ∀ (b : Behav),
    (os.foldl upd b).arcs = b.arcs ++ names os ∧
    (os.foldl upd b).exps = b.exps ++ (exponArgs os).map (fun a => ((atoi a).toOption).getD 0) ∧
    (os.foldl upd b).bpfs = b.bpfs ++ (blockArgs os).map (fun a => ((atoi a).toOption).getD 0) ∧
    ((os.foldl upd b).trial = true ↔ b.trial = true ∨ BOpt.trial ∈ os) ∧
    ((os.foldl upd b).toStdout = true ↔ b.toStdout = true ∨ BOpt.stdout ∈ os) ∧
    ((os.foldl upd b).overwrite = true ↔ b.overwrite = true ∨ ∃ a, BOpt.arcOver a ∈ os) ∧
    ((os.foldl upd b).iterGiven = true ↔ b.iterGiven = true ∨ ∃ a, BOpt.iters a ∈ os) ∧
    (os.foldl upd b).targetDir = b.targetDir ∧ (os.foldl upd b).dataOut = b.dataOut ∧
    (os.countP isMode = 0 → (os.foldl upd b).mode = b.mode) ∧
    (os.countP isIters = 0 → (os.foldl upd b).iters = b.iters) := by
  induction os with
  | nil => intro b; simp [names, exponArgs, blockArgs]
  | cons o os ih =>
    intro b
    obtain ⟨i1, i2, i3, i4, i5, i6, i7, i8, i9, i10, i11⟩ := ih (upd b o)
    rw [List.foldl_cons]
    refine ⟨?_, ?_, ?_, ?_, ?_, ?_, ?_, ?_, ?_, ?_, ?_⟩
    · rw [i1]; cases o <;> simp [upd, names]
    · rw [i2]; cases o <;> simp [upd, exponArgs]
    · rw [i3]; cases o <;> simp [upd, blockArgs]
    · rw [i4]; cases o <;> simp [upd]
    · rw [i5]; cases o <;> simp [upd]
    · rw [i6]; cases o <;> simp [upd]
    · rw [i7]; cases o <;> simp [upd]
    · rw [i8]; cases o <;> simp [upd]
    · rw [i9]; cases o <;> simp [upd]
    · intro h; rw [List.countP_cons] at h
      rw [i10 (by omega)]; cases o <;> simp [upd, isMode] at h ⊢
    · intro h; rw [List.countP_cons] at h
      rw [i11 (by omega)]; cases o <;> simp [upd, isIters] at h ⊢

theorem fold_mode (os : List BOpt) : ∀ (b : Behav), os.countP isMode ≤ 1 →
    (os.foldl upd b).mode = (if BOpt.create ∈ os then some 67 else if BOpt.extract ∈ os then some 88 else b.mode) := by
  have no : ∀ l : List BOpt, l.countP isMode = 0 → BOpt.create ∉ l ∧ BOpt.extract ∉ l := by
    intro l h
    rw [List.countP_eq_zero] at h
    exact ⟨fun hc => h _ hc rfl, fun hc => h _ hc rfl⟩
  induction os with
  | nil => intro b _; simp
  | cons o os ih =>
    intro b h
    rw [List.countP_cons] at h
    rw [List.foldl_cons]
    cases o with
    | create =>
      have h0 : os.countP isMode = 0 := by
        have e : isMode .create = true := rfl
        have e' : isMode .extract = true := rfl
        simp only [e, e', if_true] at h; omega
      rw [(fold_fields os _).2.2.2.2.2.2.2.2.2.1 h0]; simp [upd]
    | extract =>
      have h0 : os.countP isMode = 0 := by
        have e : isMode .create = true := rfl
        have e' : isMode .extract = true := rfl
        simp only [e, e', if_true] at h; omega
      rw [(fold_fields os _).2.2.2.2.2.2.2.2.2.1 h0]; simp [upd, (no os h0).1]
    | _ => rw [ih _ (by omega)]; simp [upd]

theorem fold_iters (os : List BOpt) : ∀ (b : Behav), os.countP isIters ≤ 1 →
    ∀ a, BOpt.iters a ∈ os → (os.foldl upd b).iters = ((atoi a).toOption).getD 0 := by
  induction os with
  | nil => intro b _ a h; cases h
  | cons o os ih =>
    intro b h a ha
    rw [List.countP_cons] at h
    rw [List.foldl_cons]
    rcases List.mem_cons.1 ha with rfl | hm
    · have h0 : os.countP isIters = 0 := by
        have e : isIters (.iters a) = true := rfl
        simp only [e, if_true] at h; omega
      rw [(fold_fields os _).2.2.2.2.2.2.2.2.2.2 h0]; rfl
    · exact ih _ (by omega) a hm

/-- The structure `parfu_init_behavior_control` makes. -/
def behav0 : Behav :=
  { trial := false, mode := none, iterGiven := false, iters := -1, overwrite := false,
    targetDir := none, dataOut := none, toStdout := false, arrayLen := 10,
    arcBytes := 80, arcs := [], expBytes := 40, exps := [], bpfBytes := 40, bpfs := [] }

theorem parse_eq (os : List BOpt) : behavParse os = behavLoop os behav0 := rfl

theorem fresh0 : Fresh behav0 := ⟨rfl, rfl, rfl, rfl⟩

theorem works0 {os : List BOpt} (h : Workable os) : worksAll behav0 os :=
  worksAll_of os behav0 h.noDir h.noOut (by simpa [behav0] using h.names)
    (by simpa [behav0] using h.expons) (by simpa [behav0] using h.blocks) h.nums

theorem accepts0 (os : List BOpt) : acceptsAll behav0 os ↔ Sensible os := by
  rw [acceptsAll_iff]
  constructor
  · rintro ⟨h1, h2, h3, h4, h5, h6⟩
    exact ⟨h1, by simpa [behav0] using h2, by simpa [behav0] using h3, h4, h5, h6⟩
  · rintro ⟨h1, h2, h3, h4, h5, h6⟩
    exact ⟨h1, by simpa [behav0] using h2, by simpa [behav0] using h3, h4, h5, h6⟩

theorem map_getD (f : Bytes → Res Int) (l : List Bytes) (h : ∀ a ∈ l, ∃ v, f a = .ok v) :
    (l.map (fun a => ((f a).toOption).getD 0)).map Except.ok = l.map f := by
  rw [List.map_map]
  apply List.map_congr_left
  intro a ha
  obtain ⟨v, hv⟩ := h a ha
  simp [hv, Except.toOption]

theorem holds0 {os : List BOpt} (hs : Sensible os) : Holds os (os.foldl upd behav0) := by
  obtain ⟨i1, i2, i3, i4, i5, i6, i7, i8, i9, -, -⟩ := fold_fields os behav0
  have hmem : ∀ a, a ∈ exponArgs os → BOpt.expon a ∈ os := by
    intro a h
    obtain ⟨o, ho, he⟩ := List.mem_filterMap.1 h
    cases o <;> simp at he
    subst he; exact ho
  have hmem' : ∀ a, a ∈ blockArgs os → BOpt.blocks a ∈ os := by
    intro a h
    obtain ⟨o, ho, he⟩ := List.mem_filterMap.1 h
    cases o <;> simp at he
    subst he; exact ho
  refine ⟨by simpa [behav0] using i1, ?_, ?_, ?_, by simpa [behav0] using i7, ?_,
    by simpa [behav0] using i4, by simpa [behav0] using i5, by simpa [behav0] using i6, ⟨i8, i9⟩⟩
  · rw [i2]; simp only [behav0, List.nil_append]
    exact map_getD _ _ fun a h => by
      obtain ⟨v, hv, -⟩ := hs.expons a (hmem a h); exact ⟨v, hv⟩
  · rw [i3]; simp only [behav0, List.nil_append]
    exact map_getD _ _ fun a h => by
      obtain ⟨v, hv, -⟩ := hs.blocks a (hmem' a h); exact ⟨v, hv⟩
  · rw [fold_mode os behav0 hs.oneMode]; rfl
  · intro a h
    rw [fold_iters os behav0 hs.oneIters a h]
    obtain ⟨v, hv, -⟩ := hs.iters a h
    simp [hv, Except.toOption]

/-! ### C57 -/

/-- C57: within what the parser can work with, it returns NULL exactly for command lines that make no
sense, and otherwise a structure that holds exactly what was given.  (Missing: `Workable` excludes -d,
-L and an eleventh value, which are undefined behaviour, below.) -/
theorem C57_parse_partial (os : List BOpt) (hw : Workable os) :
    (Sensible os → ∃ b, behavParse os = .ok (some b) ∧ Holds os b) ∧
    (¬ Sensible os → behavParse os = .ok none) := by
  rw [parse_eq]
  constructor
  · intro hs
    have := loop_ok os behav0 fresh0 (works0 hw) ((accepts0 os).2 hs) []
    rw [List.append_nil] at this
    exact ⟨_, this, holds0 hs⟩
  · intro hs
    exact loop_null os behav0 fresh0 (works0 hw) fun h => hs ((accepts0 os).1 h)

theorem readNum_run {run rest : Bytes} (h0 : run ≠ []) (h1 : ∀ c ∈ run, isDigit 10 c = true)
    (h2 : ∀ c, rest.head? = some c → isDigit 10 c = false) :
    readNum 10 (run ++ rest) = some (numVal 10 run, rest) := by
  unfold readNum
  rw [takeWhile_append_of_all _ _ h1 h2, dropWhile_append_of_all _ _ h1 h2, if_neg h0]

/-- C57, numbers: a text that denotes a number is read as that number (undefined if it does not fit an
`int`); a text that does not is read as 0, hence refused by all three options. -/
theorem C57_numbers (a : Bytes) :
    (∀ v, Denotes a v → atoi a = if -2147483648 ≤ v ∧ v ≤ 2147483647 then .ok v else .error .ub) ∧
    ((∀ v, ¬ Denotes a v) → atoi a = .ok 0) := by
  have digit_facts : ∀ c : UInt8, isDigit 10 c = true → isSpace c = false ∧ c ≠ 45 ∧ c ≠ 43 := by
    intro c h
    unfold isDigit at h
    simp at h
    have hn : ∀ k : UInt8, k.toNat < 48 → c ≠ k := by
      intro k hk e; subst e; omega
    refine ⟨?_, hn 45 (by decide), hn 43 (by decide)⟩
    unfold isSpace
    have h32 := hn 32 (by decide)
    simp
    refine ⟨h32, fun _ => ?_⟩
    show (13 : UInt8).toNat < c.toNat
    have : (13 : UInt8).toNat = 13 := rfl
    omega
  have range : ∀ v : Int, (-(2 ^ 31) ≤ v ∧ v < 2 ^ 31) ↔ (-2147483648 ≤ v ∧ v ≤ 2147483647) := by
    intro v; constructor <;> intro h <;> omega
  constructor
  · rintro v ⟨ws, run, rest, hw, h0, h1, h2, h⟩
    have hd : ∀ t : Bytes, (∀ c, t.head? = some c → isSpace c = false) → (ws ++ t).dropWhile isSpace = t :=
      fun t ht => dropWhile_append_of_all _ _ hw ht
    obtain ⟨c, cs, rfl⟩ := List.exists_cons_of_ne_nil h0
    have hc := digit_facts c (h1 c (by simp))
    have hr := readNum_run h0 h1 h2
    rcases h with ⟨rfl, rfl⟩ | ⟨rfl, rfl⟩ | ⟨rfl, rfl⟩
    · unfold atoi
      rw [List.append_assoc, hd _ (by intro d hd; simp at hd; subst hd; exact hc.1)]
      have h45 : ((c :: cs ++ rest).head? == some 45) = false := by simp [hc.2.1]
      have hs : ¬ ((c :: cs ++ rest).head? = some 45 ∨ (c :: cs ++ rest).head? = some 43) := by
        simp [hc.2.1, hc.2.2]
      simp only [if_neg hs, hr, h45]
      simp only [range]; rfl
    · unfold atoi
      rw [List.append_assoc, List.append_assoc, hd _ (by intro d hd; simp at hd; subst hd; decide)]
      have h45 : (([43] ++ (c :: cs ++ rest)).head? == some (45 : UInt8)) = false := by simp
      have hs : (([43] ++ (c :: cs ++ rest)).head? = some (45 : UInt8) ∨
        ([43] ++ (c :: cs ++ rest)).head? = some (43 : UInt8)) := by simp
      have e : ([43] ++ (c :: cs ++ rest)).drop 1 = c :: cs ++ rest := rfl
      simp only [if_pos hs, e, hr, h45]
      simp only [range]; rfl
    · unfold atoi
      rw [List.append_assoc, List.append_assoc, hd _ (by intro d hd; simp at hd; subst hd; decide)]
      have h45 : (([45] ++ (c :: cs ++ rest)).head? == some (45 : UInt8)) = true := by simp
      have hs : (([45] ++ (c :: cs ++ rest)).head? = some (45 : UInt8) ∨
        ([45] ++ (c :: cs ++ rest)).head? = some (43 : UInt8)) := by simp
      have e : ([45] ++ (c :: cs ++ rest)).drop 1 = c :: cs ++ rest := rfl
      simp only [if_pos hs, e, hr, h45]
      simp only [range]; rfl
  · intro hno
    have hsplit : a = a.takeWhile isSpace ++ a.dropWhile isSpace := (List.takeWhile_append_dropWhile).symm
    have hws : ∀ c ∈ a.takeWhile isSpace, isSpace c = true := List.all_eq_true.mp List.all_takeWhile
    have key : ∀ u : Bytes, u.takeWhile (isDigit 10) ≠ [] →
        ∃ run rest : Bytes, u = run ++ rest ∧ run ≠ [] ∧ (∀ c ∈ run, isDigit 10 c = true) ∧
          (∀ c, rest.head? = some c → isDigit 10 c = false) := by
      intro u hu
      refine ⟨u.takeWhile (isDigit 10), u.dropWhile (isDigit 10), (List.takeWhile_append_dropWhile).symm,
        hu, List.all_eq_true.mp List.all_takeWhile, fun c hc => ?_⟩
      have := List.head?_dropWhile_not (isDigit 10) u
      rw [hc] at this
      simpa using this
    unfold atoi
    generalize hws' : a.takeWhile isSpace = ws at hsplit hws
    generalize ht : a.dropWhile isSpace = t at hsplit
    have none_of : ∀ u : Bytes, u.takeWhile (isDigit 10) = [] → readNum 10 u = none := by
      intro u hu; unfold readNum; rw [if_pos hu]
    suffices h : (if t.head? = some 45 ∨ t.head? = some 43 then t.drop 1 else t).takeWhile (isDigit 10) = [] by
      simp only [none_of _ h]
    refine Classical.byContradiction fun hne => ?_
    by_cases hs : t.head? = some 45 ∨ t.head? = some 43
    · rw [if_pos hs] at hne
      obtain ⟨run, rest, e, h0, h1, h2⟩ := key _ hne
      rcases hs with hs | hs
      · refine hno _ ⟨ws, run, rest, hws, h0, h1, h2, .inr (.inr ⟨?_, rfl⟩)⟩
        cases t with
        | nil => simp at hs
        | cons c t => simp at hs e; rw [hsplit, hs, e]; simp
      · refine hno _ ⟨ws, run, rest, hws, h0, h1, h2, .inr (.inl ⟨?_, rfl⟩)⟩
        cases t with
        | nil => simp at hs
        | cons c t => simp at hs e; rw [hsplit, hs, e]; simp
    · rw [if_neg hs] at hne
      obtain ⟨run, rest, e, h0, h1, h2⟩ := key _ hne
      exact hno _ ⟨ws, run, rest, hws, h0, h1, h2, .inl ⟨by rw [hsplit, e]; simp, rfl⟩⟩

/-- ` -12x` denotes -12; `x1` denotes nothing. -/
example : Denotes [32, 45, 49, 50, 120] (-12) ∧ ∀ v, ¬ Denotes [120, 49] v := by
  refine ⟨⟨[32], [49, 50], [120], by decide, by decide, by decide, by decide, .inr (.inr ⟨rfl, rfl⟩)⟩, ?_⟩
  rintro v ⟨ws, run, rest, hw, h0, h1, _, h⟩
  obtain ⟨c, cs, rfl⟩ := List.exists_cons_of_ne_nil h0
  have hws : ∀ (x : Bytes), [120, 49] = ws ++ x → ws = [] := by
    intro x e
    cases ws with
    | nil => rfl
    | cons d ds =>
      simp at e
      have := hw d (by simp)
      rw [← e.1] at this
      exact absurd this (by decide)
  have hc := h1 c (by simp)
  rcases h with ⟨e, -⟩ | ⟨e, -⟩ | ⟨e, -⟩
  · have := hws (c :: cs ++ rest) (by rw [e]; simp)
    subst this
    simp at e
    rw [← e.1] at hc
    exact absurd hc (by decide)
  · have := hws ([43] ++ (c :: cs ++ rest)) (by rw [e]; simp)
    subst this
    simp at e
  · have := hws ([45] ++ (c :: cs ++ rest)) (by rw [e]; simp)
    subst this
    simp at e

/-- `-C -f a -F b -e 12 -B 7 -N 3 -T`. -/
def someOptions : List BOpt :=
  [.create, .arc [97], .arcOver [98], .expon [49, 50], .blocks [55], .iters [51], .trial]

example : Workable someOptions ∧ Sensible someOptions := by
  have a12 : atoi [49, 50] = .ok 12 := by decide +kernel
  have a7 : atoi [55] = .ok 7 := by decide +kernel
  have a3 : atoi [51] = .ok 3 := by decide +kernel
  unfold someOptions
  refine ⟨⟨by simp, by simp, by decide, by decide, by decide, ?_⟩, ⟨by simp, by decide, by decide, ?_, ?_, ?_⟩⟩
  · intro a h
    simp at h
    rcases h with rfl | rfl | rfl
    · exact ⟨_, a12⟩
    · exact ⟨_, a7⟩
    · exact ⟨_, a3⟩
  · intro a h; simp at h; subst h; exact ⟨12, a12, by decide, by decide⟩
  · intro a h; simp at h; subst h; exact ⟨7, a7, by decide, by decide⟩
  · intro a h; simp at h; subst h; exact ⟨3, a3, by decide, by decide⟩

theorem behavParse_append {os : List BOpt} (hw : Workable os) (hs : Sensible os) (rest : List BOpt) :
    behavParse (os ++ rest) = behavLoop rest (os.foldl upd behav0) := by
  rw [parse_eq]; exact loop_ok os behav0 fresh0 (works0 hw) ((accepts0 os).2 hs) rest

/-- C57 (violated): giving a target directory (-d) or a data output file (-L) writes one byte beyond
the memory allocated for it, whatever the name. -/
theorem C57_directory_overflows (os rest : List BOpt) (hw : Workable os) (hs : Sensible os) (a : Bytes) :
    behavParse (os ++ .targetDir a :: rest) = .error .ub ∧
    behavParse (os ++ .dataOut a :: rest) = .error .ub := by
  have hd := (holds0 hs).dirs
  have hc : copyOption a = .error .ub := by unfold copyOption; rw [if_neg (by omega)]
  rw [behavParse_append hw hs, behavParse_append hw hs]
  constructor
  · simp [behavLoop, behavOpt, hd.1, hc]
  · simp [behavLoop, behavOpt, hd.2, hc]

theorem nullPointers_ub (bytes : Nat) : ∀ k i : Nat, bytes < 8 * (i + 1) → 0 < k → nullPointers bytes i k = .error .ub := by
  intro k i h hk
  cases k with
  | zero => omega
  | succ k => unfold nullPointers; rw [if_neg (by omega)]

/-- **C57** Setting the pointers `i` to `i + k - 1` of an array to NULL is defined exactly if the array has room for
`i + k` pointers of eight bytes. -/
theorem C57_clearing_iff (bytes : Nat) : ∀ k i : Nat, nullPointers bytes i k = .ok () ↔ k = 0 ∨ 8 * (i + k) ≤ bytes
  | 0, i => by simp [nullPointers]
  | k + 1, i => by
    unfold nullPointers
    by_cases h : 8 * (i + 1) ≤ bytes
    · rw [if_pos h, C57_clearing_iff bytes k (i + 1)]; omega
    · rw [if_neg h]
      constructor
      · intro h'; cases h'
      · intro h'; omega

/-- Ten pointers in 80 bytes, and not one more. -/
example : nullPointers 80 0 10 = .ok () ∧ nullPointers 80 9 2 = .error .ub := by decide

/-- C57: a structure is made exactly for array lengths of at least 1, and it is empty. -/
theorem C57_new (n : Int) : (behavNew n = none ↔ n < 1) ∧
    ∀ b, behavNew n = some b → (b.arrayLen : Int) = n ∧ b.arcs = [] ∧ b.exps = [] ∧ b.bpfs = [] ∧ b.mode = none ∧
      b.targetDir = none ∧ b.dataOut = none ∧ b.trial = false ∧ b.overwrite = false ∧ b.toStdout = false ∧
      8 * b.arrayLen = b.arcBytes ∧ 4 * b.arrayLen = b.expBytes ∧ 4 * b.arrayLen = b.bpfBytes := by
  unfold behavNew
  by_cases h : n < 1
  · simp [h]
  · rw [if_neg h]
    refine ⟨by simp [h], ?_⟩
    intro b hb
    simp only [Option.some.injEq] at hb
    subst hb
    refine ⟨?_, rfl, rfl, rfl, rfl, rfl, rfl, rfl, rfl, rfl, rfl, rfl, rfl⟩
    simp only
    omega

example : ∃ b, behavNew 1 = some b := ⟨_, rfl⟩

/-- **C57** The functions that add one value: an exponent is accepted exactly from 8 to 26, a block count
exactly from 1 to 2000, a name always, as long as fewer values are held than the structure was made for;
the value is put at the end, and nothing else changes. -/
theorem C57_add (n : Int) (b b0 : Behav) (h0 : behavNew n = some b0) (hl : b.arrayLen = b0.arrayLen)
    (ha : b.arcBytes = b0.arcBytes) (he : b.expBytes = b0.expBytes) (hp : b.bpfBytes = b0.bpfBytes) :
    (∀ v, (b.exps.length : Int) < n → addMinExpon b v = .ok (if 8 ≤ v ∧ v ≤ 26 then some { b with exps := b.exps ++ [v] } else none)) ∧
    (∀ v, (b.bpfs.length : Int) < n → addBlPerFrag b v = .ok (if 1 ≤ v ∧ v ≤ 2000 then some { b with bpfs := b.bpfs ++ [v] } else none)) ∧
    (∀ s, (b.arcs.length : Int) < n → addArcFile b s = .ok (some { b with arcs := b.arcs ++ [s] })) := by
  obtain ⟨k1, _, _, _, _, _, _, _, _, _, k2, k3, k4⟩ := (C57_new n).2 b0 h0
  refine ⟨?_, ?_, ?_⟩
  · intro v hv
    unfold addMinExpon behavRoom
    by_cases hr : 8 ≤ v ∧ v ≤ 26
    · rw [if_neg (by omega), if_neg (by omega), if_pos hr]
      simp only []
      rw [if_pos (by omega)]
    · rw [if_pos (by omega), if_neg hr]
  · intro v hv
    unfold addBlPerFrag behavRoom
    by_cases hr : 1 ≤ v ∧ v ≤ 2000
    · rw [if_neg (by omega), if_neg (by omega), if_pos hr]
      simp only []
      rw [if_pos (by omega)]
    · rw [if_pos (by omega), if_neg hr]
  · intro s hs
    unfold addArcFile behavRoom
    rw [if_neg (by omega)]
    simp only []
    rw [if_pos (by omega)]

example : ∃ b0, behavNew 3 = some b0 ∧ addBlPerFrag b0 2000 = .ok (some { b0 with bpfs := [2000] }) ∧
    addBlPerFrag b0 2001 = .ok none ∧ addBlPerFrag b0 0 = .ok none := by
  refine ⟨_, rfl, ?_, ?_, ?_⟩ <;> decide +kernel

/-- **C57, violated** The arrays never grow: whatever their length, asking for more room is undefined
behaviour (the new memory is an eighth of what is then written), or, for arrays of length 0, an
error. -/
theorem C57_never_grows (b : Behav) :
    behavExtend b = if b.arrayLen = 0 then .ok none else .error .ub := by
  unfold behavExtend
  simp only
  by_cases h0 : b.arrayLen = 0
  · rw [if_pos h0, if_neg (by omega), if_pos (by omega)]
  · rw [if_neg h0]
    by_cases h1 : 2 ^ 31 ≤ b.arrayLen * 2
    · rw [if_pos h1]
    · rw [if_neg h1, if_neg (by omega), nullPointers_ub _ _ _ (by omega) (by omega)]

theorem extend_ub {b : Behav} (h : b.arrayLen = 10) : behavExtend b = .error .ub := by
  unfold behavExtend; rw [h]; rfl

/-- C57 (violated): the eleventh archive file, exponent or block count is undefined behaviour: growing
the arrays gives the array of pointers one byte per pointer. -/
theorem C57_eleventh_value (os rest : List BOpt) (hw : Workable os) (hs : Sensible os) (a : Bytes) :
    ((names os).length = 10 → behavParse (os ++ .arc a :: rest) = .error .ub ∧
      behavParse (os ++ .arcOver a :: rest) = .error .ub) ∧
    ((exponArgs os).length = 10 → InRange 8 26 a → behavParse (os ++ .expon a :: rest) = .error .ub) ∧
    ((blockArgs os).length = 10 → InRange 1 2000 a → behavParse (os ++ .blocks a :: rest) = .error .ub) := by
  have hh := holds0 hs
  have hf := fold_fresh os behav0 fresh0
  rw [behavParse_append hw hs, behavParse_append hw hs, behavParse_append hw hs, behavParse_append hw hs]
  generalize os.foldl upd behav0 = b at hh hf
  refine ⟨fun h => ?_, fun h ⟨v, hv, h1, h2⟩ => ?_, fun h ⟨v, hv, h1, h2⟩ => ?_⟩
  · have hl : b.arcs.length = b.arrayLen := by rw [hh.arcs, h, hf.len]
    constructor
    · simp [behavLoop, behavOpt, addArcFile, behavRoom, hl, extend_ub hf.len]
    · simp only [behavLoop, behavOpt, addArcFile, behavRoom, hl, if_true]
      rw [extend_ub (by exact hf.len)]
  · have hl : b.exps.length = b.arrayLen := by
      have := congrArg List.length hh.exps
      simp only [List.length_map] at this
      rw [this, h, hf.len]
    simp only [behavLoop, behavOpt, hv, addMinExpon, behavRoom, hl, if_true]
    rw [if_neg (by omega), if_neg (by omega), extend_ub hf.len]
  · have hl : b.bpfs.length = b.arrayLen := by
      have := congrArg List.length hh.bpfs
      simp only [List.length_map] at this
      rw [this, h, hf.len]
    simp only [behavLoop, behavOpt, hv, addBlPerFrag, behavRoom, hl, if_true]
    rw [if_neg (by omega), if_neg (by omega), extend_ub hf.len]

/-- Ten archive files: such a command line. -/
example : Workable (List.replicate 10 (.arc [97])) ∧ Sensible (List.replicate 10 (.arc [97])) ∧
    (names (List.replicate 10 (.arc [97]))).length = 10 := by
  refine ⟨⟨by simp, by simp, by decide, by decide, by decide, by simp⟩,
    ⟨by simp, by decide, by decide, by simp, by simp, by simp⟩, by decide⟩

/-- C57 (violated): the archive names are stored without a terminator: reading one back as a string
leaves its allocation. -/
theorem C57_names_unterminated (os : List BOpt) (hw : Workable os) (b : Behav)
    (h : behavParse os = .ok (some b)) (hz : ∀ n ∈ names os, (0 : UInt8) ∉ n) :
    ∀ n ∈ b.arcs, readCStr n = .error .ub := by
  have hs : Sensible os := by
    apply Classical.byContradiction
    intro hc
    rw [(C57_parse_partial os hw).2 hc] at h; cases h
  obtain ⟨b', hb, hh⟩ := (C57_parse_partial os hw).1 hs
  rw [hb] at h
  cases h
  intro n hn
  rw [hh.arcs] at hn
  unfold readCStr
  rw [if_neg (hz n hn)]

/-! ### C57, exactly -/

theorem atoi_error {a : Bytes} {e : Err} (h : atoi a = .error e) : e = .ub := by
  have key : ∀ v : Int, (if -(2 ^ 31) ≤ v ∧ v < 2 ^ 31 then .ok v else .error .ub : Res Int) = .error e →
      e = .ub := by
    intro v h
    by_cases hv : -(2 ^ 31) ≤ v ∧ v < 2 ^ 31
    · rw [if_pos hv] at h; cases h
    · rw [if_neg hv] at h; cases h; rfl
  unfold atoi at h
  simp only at h
  split at h
  · cases h
  · exact key _ h

theorem copyOption_ub (a : Bytes) : copyOption a = .error .ub := by
  unfold copyOption; rw [if_neg (by omega)]

/-- What an option does, exactly, to a structure `b` the parser has made so far. -/
theorem opt_ruined {os : List BOpt} {b : Behav} (hf : Fresh b) (hh : Holds os b)
    (o : BOpt) (hr : Ruins os o) : behavOpt b o = .error .ub := by
  have hl1 : b.arrayLen = 10 := hf.len
  have he : b.exps.length = (exponArgs os).length := by
    have := congrArg List.length hh.exps; simpa using this
  have hb : b.bpfs.length = (blockArgs os).length := by
    have := congrArg List.length hh.bpfs; simpa using this
  cases o with
  | targetDir a => simp [behavOpt, hh.dirs.1, copyOption_ub]
  | dataOut a => simp [behavOpt, hh.dirs.2, copyOption_ub]
  | arc a =>
    have h10 : b.arcs.length = b.arrayLen := by rw [hh.arcs, hl1]; exact hr
    simp [behavOpt, addArcFile, behavRoom, h10, extend_ub hl1]
  | arcOver a =>
    have h10 : b.arcs.length = b.arrayLen := by rw [hh.arcs, hl1]; exact hr
    simp only [behavOpt, addArcFile, behavRoom, h10, if_true]
    rw [extend_ub (by exact hl1)]
  | expon a =>
    rcases hr with hr | ⟨h10, v, hv, h1, h2⟩
    · cases hv : atoi a with
      | ok v => exact absurd hv (hr v)
      | error e => simp only [behavOpt, hv]; rw [atoi_error hv]
    · rw [← he, ← hl1] at h10
      simp only [behavOpt, hv, addMinExpon, behavRoom, h10, if_true]
      rw [if_neg (by omega), if_neg (by omega), extend_ub hl1]
  | blocks a =>
    rcases hr with hr | ⟨h10, v, hv, h1, h2⟩
    · cases hv : atoi a with
      | ok v => exact absurd hv (hr v)
      | error e => simp only [behavOpt, hv]; rw [atoi_error hv]
    · rw [← hb, ← hl1] at h10
      simp only [behavOpt, hv, addBlPerFrag, behavRoom, h10, if_true]
      rw [if_neg (by omega), if_neg (by omega), extend_ub hl1]
  | iters a =>
    obtain ⟨hr, hn⟩ := hr
    have hg : b.iterGiven = false := by
      cases h : b.iterGiven with
      | false => rfl
      | true => obtain ⟨c, hc⟩ := hh.iterGiven.1 h; exact absurd hc (hn c)
    cases hv : atoi a with
    | ok v => exact absurd hv (hr v)
    | error e => simp only [behavOpt, hg, hv]; rw [atoi_error hv]; rfl
  | create => exact hr.elim
  | extract => exact hr.elim
  | trial => exact hr.elim
  | stdout => exact hr.elim
  | bad => exact hr.elim

/-- An option that does not ruin anything, and that the parser cannot work with, is refused. -/
theorem opt_refused {os : List BOpt} {b : Behav} (hf : Fresh b) (hh : Holds os b) (hw : Workable os)
    (o : BOpt) (hr : ¬ Ruins os o) (ha : ¬ (works b o ∧ accepts b o)) : behavOpt b o = .ok none := by
  have he : b.exps.length = (exponArgs os).length := by
    have := congrArg List.length hh.exps; simpa using this
  have hb : b.bpfs.length = (blockArgs os).length := by
    have := congrArg List.length hh.bpfs; simpa using this
  have hen := hw.expons
  have hbn := hw.blocks
  have han := hw.names
  by_cases hwo : works b o
  · exact opt_null hwo fun h => ha ⟨hwo, h⟩
  · cases o with
    | targetDir a => exact absurd trivial hr
    | dataOut a => exact absurd trivial hr
    | arc a =>
      simp only [works, Ruins] at hwo hr
      rw [hh.arcs] at hwo; omega
    | arcOver a =>
      simp only [works, Ruins] at hwo hr
      rw [hh.arcs] at hwo; omega
    | expon a =>
      simp only [works, Ruins, not_or, not_and] at hwo hr
      obtain ⟨hr0, hr⟩ := hr
      obtain ⟨v, hv⟩ : ∃ v, atoi a = .ok v :=
        Classical.byContradiction fun hc => hr0 fun v hv => hc ⟨v, hv⟩
      have h10 : ¬ b.exps.length < 10 := fun h => hwo h ⟨v, hv⟩
      have hn := hr (by omega)
      have : v < 8 ∨ v > 26 := by
        rcases (by omega : (v < 8 ∨ v > 26) ∨ (8 ≤ v ∧ v ≤ 26)) with h | ⟨h, h'⟩
        · exact h
        · exact absurd ⟨v, hv, h, h'⟩ hn
      simp [behavOpt, hv, this]
    | blocks a =>
      simp only [works, Ruins, not_or, not_and] at hwo hr
      obtain ⟨hr0, hr⟩ := hr
      obtain ⟨v, hv⟩ : ∃ v, atoi a = .ok v :=
        Classical.byContradiction fun hc => hr0 fun v hv => hc ⟨v, hv⟩
      have h10 : ¬ b.bpfs.length < 10 := fun h => hwo h ⟨v, hv⟩
      have hn := hr (by omega)
      have : v < 1 ∨ v > 2000 := by
        rcases (by omega : (v < 1 ∨ v > 2000) ∨ (1 ≤ v ∧ v ≤ 2000)) with h | ⟨h, h'⟩
        · exact h
        · exact absurd ⟨v, hv, h, h'⟩ hn
      simp [behavOpt, hv, this]
    | iters a =>
      simp only [works, Ruins] at hwo hr
      have hx : ∃ c, BOpt.iters c ∈ os := by
        refine Classical.byContradiction fun hc => hr ⟨fun v hv => hwo ⟨v, hv⟩, fun c hcm => hc ⟨c, hcm⟩⟩
      simp [behavOpt, hh.iterGiven.2 hx]
    | create => exact absurd trivial hwo
    | extract => exact absurd trivial hwo
    | trial => exact absurd trivial hwo
    | stdout => exact absurd trivial hwo
    | bad => exact absurd trivial hwo

theorem worksAll_append (p q : List BOpt) : ∀ b, worksAll b (p ++ q) ↔ worksAll b p ∧ worksAll (p.foldl upd b) q := by
  induction p with
  | nil => intro b; simp [worksAll]
  | cons o p ih => intro b; simp only [List.cons_append, worksAll, List.foldl_cons, ih, and_assoc]

theorem acceptsAll_append (p q : List BOpt) :
    ∀ b, acceptsAll b (p ++ q) ↔ acceptsAll b p ∧ acceptsAll (p.foldl upd b) q := by
  induction p with
  | nil => intro b; simp [acceptsAll]
  | cons o p ih => intro b; simp only [List.cons_append, acceptsAll, List.foldl_cons, ih, and_assoc]

theorem worksAll_conv (os : List BOpt) : ∀ (b : Behav), b.arcs.length ≤ 10 → b.exps.length ≤ 10 →
    b.bpfs.length ≤ 10 → worksAll b os →
    (∀ a, BOpt.targetDir a ∉ os) ∧ (∀ a, BOpt.dataOut a ∉ os) ∧
    b.arcs.length + (names os).length ≤ 10 ∧ b.exps.length + (exponArgs os).length ≤ 10 ∧
    b.bpfs.length + (blockArgs os).length ≤ 10 ∧
    (∀ a, BOpt.expon a ∈ os ∨ BOpt.blocks a ∈ os ∨ BOpt.iters a ∈ os → ∃ v, atoi a = .ok v) := by
  induction os with
  | nil => intro b h1 h2 h3 _; simp [names, exponArgs, blockArgs, h1, h2, h3]
  | cons o os ih =>
    intro b h1 h2 h3 ⟨hw, hws⟩
    cases o with
    | targetDir a => exact hw.elim
    | dataOut a => exact hw.elim
    | arc a =>
      have hw' : b.arcs.length < 10 := hw
      obtain ⟨i1, i2, i3, i4, i5, i6⟩ := ih (upd b (.arc a)) (by simp [upd]; omega) h2 h3 hws
      refine ⟨by simpa using i1, by simpa using i2, ?_, i4, i5, by simpa using i6⟩
      simp [upd, names] at i3 ⊢; omega
    | arcOver a =>
      have hw' : b.arcs.length < 10 := hw
      obtain ⟨i1, i2, i3, i4, i5, i6⟩ := ih (upd b (.arcOver a)) (by simp [upd]; omega) h2 h3 hws
      refine ⟨by simpa using i1, by simpa using i2, ?_, i4, i5, by simpa using i6⟩
      simp [upd, names] at i3 ⊢; omega
    | expon a =>
      obtain ⟨hw', hv⟩ := hw
      obtain ⟨i1, i2, i3, i4, i5, i6⟩ := ih (upd b (.expon a)) h1 (by simp [upd]; omega) h3 hws
      refine ⟨by simpa using i1, by simpa using i2, i3, ?_, i5, ?_⟩
      · simp [upd, exponArgs] at i4 ⊢; omega
      · intro c hc
        simp only [List.mem_cons, BOpt.expon.injEq, reduceCtorEq, false_or] at hc
        rcases hc with (rfl | hc) | hc | hc
        · exact hv
        · exact i6 c (.inl hc)
        · exact i6 c (.inr (.inl hc))
        · exact i6 c (.inr (.inr hc))
    | blocks a =>
      obtain ⟨hw', hv⟩ := hw
      obtain ⟨i1, i2, i3, i4, i5, i6⟩ := ih (upd b (.blocks a)) h1 h2 (by simp [upd]; omega) hws
      refine ⟨by simpa using i1, by simpa using i2, i3, i4, ?_, ?_⟩
      · simp [upd, blockArgs] at i5 ⊢; omega
      · intro c hc
        simp only [List.mem_cons, BOpt.blocks.injEq, reduceCtorEq, false_or] at hc
        rcases hc with hc | (rfl | hc) | hc
        · exact i6 c (.inl hc)
        · exact hv
        · exact i6 c (.inr (.inl hc))
        · exact i6 c (.inr (.inr hc))
    | iters a =>
      obtain ⟨i1, i2, i3, i4, i5, i6⟩ := ih (upd b (.iters a)) h1 h2 h3 hws
      refine ⟨by simpa using i1, by simpa using i2, i3, i4, i5, ?_⟩
      intro c hc
      simp only [List.mem_cons, BOpt.iters.injEq, reduceCtorEq, false_or] at hc
      rcases hc with hc | hc | (rfl | hc)
      · exact i6 c (.inl hc)
      · exact i6 c (.inr (.inl hc))
      · exact hw
      · exact i6 c (.inr (.inr hc))
    | create =>
      obtain ⟨i1, i2, i3, i4, i5, i6⟩ := ih (upd b .create) h1 h2 h3 hws
      exact ⟨by simpa using i1, by simpa using i2, i3, i4, i5, by simpa using i6⟩
    | extract =>
      obtain ⟨i1, i2, i3, i4, i5, i6⟩ := ih (upd b .extract) h1 h2 h3 hws
      exact ⟨by simpa using i1, by simpa using i2, i3, i4, i5, by simpa using i6⟩
    | trial =>
      obtain ⟨i1, i2, i3, i4, i5, i6⟩ := ih (upd b .trial) h1 h2 h3 hws
      exact ⟨by simpa using i1, by simpa using i2, i3, i4, i5, by simpa using i6⟩
    | stdout =>
      obtain ⟨i1, i2, i3, i4, i5, i6⟩ := ih (upd b .stdout) h1 h2 h3 hws
      exact ⟨by simpa using i1, by simpa using i2, i3, i4, i5, by simpa using i6⟩
    | bad =>
      obtain ⟨i1, i2, i3, i4, i5, i6⟩ := ih (upd b .bad) h1 h2 h3 hws
      exact ⟨by simpa using i1, by simpa using i2, i3, i4, i5, by simpa using i6⟩

theorem works0_conv {os : List BOpt} (h : worksAll behav0 os) : Workable os := by
  obtain ⟨i1, i2, i3, i4, i5, i6⟩ := worksAll_conv os behav0 (by decide) (by decide) (by decide) h
  exact ⟨i1, i2, by simpa [behav0] using i3, by simpa [behav0] using i4, by simpa [behav0] using i5, i6⟩

/-- A list that is not all right has a first option that is not. -/
theorem first_wrong (os : List BOpt) (h : ¬ (Workable os ∧ Sensible os)) :
    ∃ p o rest, os = p ++ o :: rest ∧ Workable p ∧ Sensible p ∧
      ¬ (works (p.foldl upd behav0) o ∧ accepts (p.foldl upd behav0) o) := by
  have key : ∀ r : List BOpt, ¬ (Workable r.reverse ∧ Sensible r.reverse) →
      ∃ p o rest, r.reverse = p ++ o :: rest ∧ Workable p ∧ Sensible p ∧
        ¬ (works (p.foldl upd behav0) o ∧ accepts (p.foldl upd behav0) o) := by
    intro r
    induction r with
    | nil => exact fun h => absurd ⟨works0_conv trivial, (accepts0 []).1 trivial⟩ h
    | cons o r ih =>
      intro h
      rw [List.reverse_cons] at h ⊢
      generalize r.reverse = l at h ih
      by_cases hl : Workable l ∧ Sensible l
      · refine ⟨l, o, [], rfl, hl.1, hl.2, fun ⟨h1, h2⟩ => h ⟨?_, ?_⟩⟩
        · exact works0_conv ((worksAll_append l [o] behav0).2 ⟨works0 hl.1, h1, trivial⟩)
        · exact (accepts0 _).1 ((acceptsAll_append l [o] behav0).2 ⟨(accepts0 l).2 hl.2, h2, trivial⟩)
      · obtain ⟨p, o', rest, rfl, h1, h2, h3⟩ := ih hl
        exact ⟨p, o', rest ++ [o], by simp, h1, h2, h3⟩
  have := key os.reverse
  rw [List.reverse_reverse] at this
  exact this h

/-- **C57, exactly.**  For every command line: the parser delivers a structure exactly for those it can
work with that make sense, and the structure then holds what was given; its behaviour is undefined
exactly if some option ruins a command line that was fine up to it; and in all other cases it returns
NULL. -/
theorem C57_parse_iff (os : List BOpt) :
    ((∃ b, behavParse os = .ok (some b)) ↔ Workable os ∧ Sensible os) ∧
    (∀ b, behavParse os = .ok (some b) → Holds os b) ∧
    (behavParse os = .error .ub ↔
      ∃ p o rest, os = p ++ o :: rest ∧ Workable p ∧ Sensible p ∧ Ruins p o) ∧
    (behavParse os = .ok none ∨ behavParse os = .error .ub ∨ ∃ b, behavParse os = .ok (some b)) := by
  have bad : ∀ p o rest, Workable p → Sensible p → Ruins p o → behavParse (p ++ o :: rest) = .error .ub := by
    intro p o rest h1 h2 h3
    rw [behavParse_append h1 h2, behavLoop, opt_ruined (fold_fresh p behav0 fresh0) (holds0 h2) o h3]
  by_cases hws : Workable os ∧ Sensible os
  · obtain ⟨b, hb, hh⟩ := (C57_parse_partial os hws.1).1 hws.2
    refine ⟨⟨fun _ => hws, fun _ => ⟨b, hb⟩⟩, ?_, ⟨?_, ?_⟩, .inr (.inr ⟨b, hb⟩)⟩
    · intro b' h; rw [hb] at h; cases h; exact hh
    · intro h; rw [hb] at h; cases h
    · rintro ⟨p, o, rest, rfl, h1, h2, h3⟩
      rw [bad p o rest h1 h2 h3] at hb; cases hb
  · obtain ⟨p, o, rest, rfl, h1, h2, h3⟩ := first_wrong os hws
    by_cases hr : Ruins p o
    · have hb := bad p o rest h1 h2 hr
      refine ⟨⟨?_, fun h => absurd h hws⟩, ?_, ⟨fun _ => ⟨p, o, rest, rfl, h1, h2, hr⟩, fun _ => hb⟩,
        .inr (.inl hb)⟩
      · rintro ⟨b, h⟩; rw [hb] at h; cases h
      · intro b h; rw [hb] at h; cases h
    · have hb : behavParse (p ++ o :: rest) = .ok none := by
        rw [behavParse_append h1 h2, behavLoop,
          opt_refused (fold_fresh p behav0 fresh0) (holds0 h2) h1 o hr h3]
      refine ⟨⟨?_, fun h => absurd h hws⟩, ?_, ⟨?_, ?_⟩, .inl hb⟩
      · rintro ⟨b, h⟩; rw [hb] at h; cases h
      · intro b h; rw [hb] at h; cases h
      · intro h; rw [hb] at h; cases h
      · rintro ⟨p', o', rest', e, h1', h2', h3'⟩
        rw [e, bad p' o' rest' h1' h2' h3'] at hb; cases hb

/-- `-C -N 3 -N 99999999999`: the second -N is refused before its number is read; `-C -N 99999999999`
is undefined. -/
example : behavParse [.create, .iters [51], .iters (List.replicate 11 57)] = .ok none ∧
    behavParse [.create, .iters (List.replicate 11 57)] = .error .ub := by
  constructor <;> decide +kernel

end Parfu.Props
