/-
What a scan with a limited number of descriptors does: it is the scan of the tree in which only the
first directories can be opened.
-/
import Verif.Descriptors
import Verif.ScanPrune
set_option autoImplicit false

namespace Parfu

namespace FdSpec

mutual
/-- How many directories there are that can be opened and are not below one that cannot (entries called
`.` and `..` do not count). -/
def openDirs : FNode → Nat
  | .dir _ true kids => 1 + openDirsIn kids
  | .dir _ false _ => 0
  | .reg _ _ => 0
  | .lnk _ _ => 0
  | .other _ => 0
def openDirsIn : Kids → Nat
  | .nil => 0
  | .cons name node rest => if isDots name then openDirsIn rest else openDirs node + openDirsIn rest
end

mutual
/-- The tree as a process sees it that can open `free` directories, in the order of a depth-first walk;
and how many it could still open then. -/
def limitDirs : FNode → Nat → FNode × Nat
  | .dir m o kids, free =>
    if o = true ∧ 0 < free then (.dir m true (limitKids kids (free - 1)).1, (limitKids kids (free - 1)).2)
    else (.dir m false kids, free)
  | .reg m c, free => (.reg m c, free)
  | .lnk m t, free => (.lnk m t, free)
  | .other m, free => (.other m, free)
def limitKids : Kids → Nat → Kids × Nat
  | .nil, free => (.nil, free)
  | .cons name node rest, free =>
    if isDots name then (.cons name node (limitKids rest free).1, (limitKids rest free).2)
    else
      (.cons name (limitDirs node free).1 (limitKids rest (limitDirs node free).2).1,
        (limitKids rest (limitDirs node free).2).2)
end

end FdSpec

open FdSpec

theorem readTarget_err {b : UInt8} {t : Bytes} {e : Err} (h : readTarget b t = .error e) : e = .ub := by
  unfold readTarget at h; split at h <;> cases h; rfl

theorem loopFiles_err (g : Bytes → UInt8) : ∀ (k : Kids) (rel : Bytes) (e : Err),
    loopFiles g rel k = .error e → e = .ub
  | .nil, _, _, h => by simp [loopFiles] at h
  | .cons name node rest, rel, e, h => by
    simp only [loopFiles] at h
    split at h
    · exact loopFiles_err g rest rel e h
    · split at h
      · split at h
        · rename_i hk; cases h; exact loopFiles_err g rest rel _ hk
        · cases h
      · split at h
        · rename_i hk; cases h; exact readTarget_err hk
        · split at h
          · rename_i hk; cases h; exact loopFiles_err g rest rel _ hk
          · cases h
      · exact loopFiles_err g rest rel e h
      · exact loopFiles_err g rest rel e h

/-- The two loops of `spider_directory` together. -/
def bothLoops (g : Bytes → UInt8) (rel : Bytes) (k : Kids) (free : Nat) : Res ((List PDir × List Ent) × Nat) :=
  match loopFiles g rel k with
  | .error e => .error e
  | .ok fs =>
    match spiderSubsFd g rel k free with
    | .error e => .error e
    | .ok (ds, left) => .ok ((ds, fs), left)

/-- A result with a number. -/
def addLeft {α : Type} (r : Res α) (left : Nat) : Res (α × Nat) :=
  match r with
  | .error e => .error e
  | .ok x => .ok (x, left)

/-- The two loops over one more entry. -/
theorem joinLoops {A : Res (List Ent)} {B : Res (List PDir × Nat)} {K : Res (List PDir × List Ent)} {left : Nat}
    (h : (match A with
      | .error e => (.error e : Res ((List PDir × List Ent) × Nat))
      | .ok fs => match B with
        | .error e => .error e
        | .ok (ds, l) => .ok ((ds, fs), l)) = addLeft K left) :
    (∃ fs ds, A = .ok fs ∧ B = .ok (ds, left) ∧ K = .ok (ds, fs)) ∨
    (∃ e, A = .error e ∧ K = .error e) ∨ (∃ fs e, A = .ok fs ∧ B = .error e ∧ K = .error e) := by
  cases A with
  | error e =>
    cases K with
    | error e' => simp only [addLeft, Except.error.injEq] at h; subst h; exact .inr (.inl ⟨_, rfl, rfl⟩)
    | ok r => simp [addLeft] at h
  | ok fs =>
    cases B with
    | error e =>
      cases K with
      | error e' => simp only [addLeft, Except.error.injEq] at h; subst h; exact .inr (.inr ⟨_, _, rfl, rfl, rfl⟩)
      | ok r => simp [addLeft] at h
    | ok r =>
      cases K with
      | error e' => simp [addLeft] at h
      | ok r' =>
        simp only [addLeft, Except.ok.injEq, Prod.mk.injEq] at h
        obtain ⟨rfl, rfl⟩ := h
        exact .inl ⟨_, _, rfl, rfl, rfl⟩

theorem dir_step {g : Bytes → UInt8} {m : Meta} {o : Bool} {kids : Kids} {rel : Bytes} {free : Nat}
    (ih : bothLoops g rel kids (free - 1) =
      addLeft (spiderKids g rel (limitKids kids (free - 1)).1) (limitKids kids (free - 1)).2) :
    spiderFd g rel (.dir m o kids) free =
      addLeft (spiderDir g rel (limitDirs (.dir m o kids) free).1) (limitDirs (.dir m o kids) free).2 := by
  simp only [spiderFd, limitDirs]
  split
  · unfold bothLoops at ih
    simp only [spiderDir, if_true]
    rcases joinLoops ih with ⟨fs, ds, h1, h2, h3⟩ | ⟨e, h1, h3⟩ | ⟨fs, e, h1, h2, h3⟩
    · rw [h1, h2, h3]; rfl
    · rw [h1, h3]; rfl
    · rw [h1, h2, h3]; rfl
  · simp [spiderDir, addLeft]

theorem kids_step {g : Bytes → UInt8} {name : Bytes} {node : FNode} {rest : Kids} {rel : Bytes} {free : Nat}
    (ih0 : bothLoops g rel rest free =
      addLeft (spiderKids g rel (limitKids rest free).1) (limitKids rest free).2)
    (ih1 : spiderFd g (joinRel rel name) node free =
      addLeft (spiderDir g (joinRel rel name) (limitDirs node free).1) (limitDirs node free).2)
    (ih : bothLoops g rel rest (limitDirs node free).2 =
      addLeft (spiderKids g rel (limitKids rest (limitDirs node free).2).1) (limitKids rest (limitDirs node free).2).2) :
    bothLoops g rel (.cons name node rest) free =
      addLeft (spiderKids g rel (limitKids (.cons name node rest) free).1) (limitKids (.cons name node rest) free).2 := by
  by_cases hd : isDots name
  · simp only [bothLoops, loopFiles, spiderSubsFd, limitKids, hd, if_true, spiderKids] at ih0 ⊢
    exact ih0
  cases node with
  | reg m c =>
    simp only [bothLoops, loopFiles, spiderSubsFd, isDirNode, limitKids, limitDirs, hd, if_false, spiderKids, addKid,
      Bool.false_eq_true] at ih0 ⊢
    rcases joinLoops ih0 with ⟨fs, ds, h1, h2, h3⟩ | ⟨e, h1, h3⟩ | ⟨fs, e, h1, h2, h3⟩
    · rw [h1, h2, h3]; rfl
    · rw [h1, h3]; rfl
    · rw [h1, h2, h3]; rfl
  | other m =>
    simp only [bothLoops, loopFiles, spiderSubsFd, isDirNode, limitKids, limitDirs, hd, if_false, spiderKids, addKid,
      Bool.false_eq_true] at ih0 ⊢
    rcases joinLoops ih0 with ⟨fs, ds, h1, h2, h3⟩ | ⟨e, h1, h3⟩ | ⟨fs, e, h1, h2, h3⟩
    · rw [h1, h2, h3]; rfl
    · rw [h1, h3]; rfl
    · rw [h1, h2, h3]; rfl
  | lnk m t =>
    have e2 := spiderKids_err g (limitKids rest free).1 rel
    simp only [bothLoops, loopFiles, spiderSubsFd, isDirNode, limitKids, limitDirs, hd, if_false, spiderKids, addKid,
      Bool.false_eq_true] at ih0 ⊢
    cases ht : readTarget (g (joinRel rel name)) t with
    | error e =>
      cases readTarget_err ht
      rcases joinLoops ih0 with ⟨fs, ds, h1, h2, h3⟩ | ⟨e, h1, h3⟩ | ⟨fs, e, h1, h2, h3⟩
      · rw [h3]; rfl
      · cases e2 _ h3; rw [h3]; rfl
      · cases e2 _ h3; rw [h3]; rfl
    | ok t' =>
      rcases joinLoops ih0 with ⟨fs, ds, h1, h2, h3⟩ | ⟨e, h1, h3⟩ | ⟨fs, e, h1, h2, h3⟩
      · rw [h1, h2, h3]; rfl
      · rw [h1, h3]; rfl
      · rw [h1, h2, h3]; rfl
  | dir m o kids =>
    have e2 := spiderKids_err g (limitKids rest (limitDirs (.dir m o kids) free).2).1 rel
    have hk : ∃ m' o' kids', (limitDirs (.dir m o kids) free).1 = .dir m' o' kids' := by
      simp only [limitDirs]; split <;> exact ⟨_, _, _, rfl⟩
    obtain ⟨m', o', kids', hk⟩ := hk
    simp only [bothLoops, loopFiles, spiderSubsFd, isDirNode, limitKids, hd, if_false, if_true, spiderKids,
      Bool.false_eq_true] at ih ⊢
    rw [ih1, hk]
    simp only [addKid]
    have hj := joinLoops ih
    cases hs : spiderDir g (joinRel rel name) (.dir m' o' kids') with
    | error e =>
      cases spiderDir_err g _ _ _ hs
      rcases hj with ⟨fs, ds, h1, h2, h3⟩ | ⟨e, h1, h3⟩ | ⟨fs, e, h1, h2, h3⟩
      · rw [h1, h3]; rfl
      · cases e2 _ h3; rw [h1, h3]; rfl
      · cases e2 _ h3; rw [h1, h3]; rfl
    | ok d =>
      rcases hj with ⟨fs, ds, h1, h2, h3⟩ | ⟨e, h1, h3⟩ | ⟨fs, e, h1, h2, h3⟩
      · simp only [addLeft]; rw [h1, h2, h3]
      · rw [h1, h3]; rfl
      · simp only [addLeft]; rw [h1, h2, h3]

mutual
/-- `spider_directory` with `free` descriptors is the scan (Verif/Scan.lean) of the tree as seen with
`free` descriptors. -/
theorem spiderFd_eq (g : Bytes → UInt8) : ∀ (n : FNode) (rel : Bytes) (free : Nat),
    spiderFd g rel n free = addLeft (spiderDir g rel (limitDirs n free).1) (limitDirs n free).2
  | .dir m o kids, rel, free => dir_step (bothLoops_eq g kids rel (free - 1))
  | .reg _ _, rel, free => rfl
  | .lnk _ _, rel, free => rfl
  | .other _, rel, free => rfl
theorem bothLoops_eq (g : Bytes → UInt8) : ∀ (k : Kids) (rel : Bytes) (free : Nat),
    bothLoops g rel k free = addLeft (spiderKids g rel (limitKids k free).1) (limitKids k free).2
  | .nil, _, _ => rfl
  | .cons name node rest, rel, free =>
    kids_step (bothLoops_eq g rest rel free) (spiderFd_eq g node (joinRel rel name) free)
      (bothLoops_eq g rest rel (limitDirs node free).2)
end

mutual
theorem limitDirs_left : ∀ (n : FNode) (free : Nat), (limitDirs n free).2 = free - openDirs n
  | .dir m o kids, free => by
    simp only [limitDirs]
    cases o with
    | false => simp [openDirs]
    | true =>
      simp only [true_and, openDirs]
      split
      · simp only [limitKids_left]; omega
      · simp only; omega
  | .reg _ _, free => by simp [limitDirs, openDirs]
  | .lnk _ _, free => by simp [limitDirs, openDirs]
  | .other _, free => by simp [limitDirs, openDirs]
theorem limitKids_left : ∀ (k : Kids) (free : Nat), (limitKids k free).2 = free - openDirsIn k
  | .nil, free => by simp [limitKids, openDirsIn]
  | .cons name node rest, free => by
    simp only [limitKids, openDirsIn]
    split
    · simp only [limitKids_left]
    · simp only [limitKids_left, limitDirs_left]; omega
end

mutual
/-- With enough descriptors the process sees the tree as it is. -/
theorem limitDirs_all : ∀ (n : FNode) (free : Nat), openDirs n ≤ free → (limitDirs n free).1 = n
  | .dir m o kids, free, h => by
    simp only [limitDirs]
    cases o with
    | false => simp
    | true =>
      simp only [openDirs] at h
      rw [if_pos ⟨rfl, by omega⟩]
      simp only [limitKids_all kids (free - 1) (by omega)]
  | .reg _ _, free, _ => by simp [limitDirs]
  | .lnk _ _, free, _ => by simp [limitDirs]
  | .other _, free, _ => by simp [limitDirs]
theorem limitKids_all : ∀ (k : Kids) (free : Nat), openDirsIn k ≤ free → (limitKids k free).1 = k
  | .nil, free, _ => by simp [limitKids]
  | .cons name node rest, free, h => by
    simp only [limitKids, openDirsIn] at h ⊢
    split
    · rename_i hd
      rw [if_pos hd] at h
      simp only [limitKids_all rest free h]
    · rename_i hd
      rw [if_neg hd] at h
      simp only [limitDirs_all node free (by omega), limitDirs_left,
        limitKids_all rest (free - openDirs node) (by omega)]
end

end Parfu
