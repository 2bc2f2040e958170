/-
Helper lemmas about the scan.
-/
import Verif.ScanSpec
import Verif.TarLemmas
set_option autoImplicit false

namespace Parfu
open ScanSpec

/-! ### preorder listing of a scanned tree, and breadth first order -/

mutual
def PDir.flat : PDir → List PDir
  | .mk e s f => .mk e s f :: PDir.flatL s
def PDir.flatL : List PDir → List PDir
  | [] => []
  | d :: ds => d.flat ++ PDir.flatL ds
end

theorem PDir.flat_eq (d : PDir) : d.flat = d :: PDir.flatL d.subs := by
  cases d; simp [PDir.flat, PDir.subs]

theorem PDir.flatL_append (xs ys : List PDir) :
    PDir.flatL (xs ++ ys) = PDir.flatL xs ++ PDir.flatL ys := by
  induction xs with
  | nil => simp [PDir.flatL]
  | cons x xs ih => simp [PDir.flatL, ih]

theorem bfsLoop_perm (dirs : List PDir) (i : Nat) :
    (bfsLoop dirs i).Perm (dirs.take i ++ PDir.flatL (dirs.drop i)) := by
  fun_induction bfsLoop dirs i with
  | case1 dirs i h ih =>
    refine ih.trans ?_
    have h1 : (dirs ++ dirs[i].subs).take (i + 1) = dirs.take i ++ [dirs[i]] := by
      rw [List.take_append_of_le_length (by omega), List.take_append_getElem h]
    rw [h1, List.drop_append_of_le_length (by omega), PDir.flatL_append, List.append_assoc]
    refine List.Perm.append_left _ ?_
    rw [List.drop_eq_getElem_cons h, PDir.flatL, PDir.flat_eq]
    simp only [List.cons_append, List.nil_append]
    exact List.Perm.cons _ List.perm_append_comm
  | case2 dirs i h =>
    rw [List.take_of_length_le (by omega), List.drop_of_length_le (by omega)]
    simp [PDir.flatL]

/-- Every directory in the list is an initial one or comes after a directory that contains it. -/
theorem bfsLoop_parent (init : List PDir) (dirs : List PDir) (i : Nat)
    (hinv : ∀ pre d post, dirs = pre ++ d :: post → d ∈ init ∨ ∃ p ∈ pre, d ∈ p.subs) :
    ∀ pre d post, bfsLoop dirs i = pre ++ d :: post → d ∈ init ∨ ∃ p ∈ pre, d ∈ p.subs := by
  fun_induction bfsLoop dirs i with
  | case1 dirs i h ih =>
    apply ih
    intro pre d post heq
    rcases List.append_eq_append_iff.1 heq with ⟨a, h1, h2⟩ | ⟨a, h1, h2⟩
    · -- the split point is in the appended part
      right
      refine ⟨dirs[i], ?_, ?_⟩
      · rw [h1]; exact List.mem_append_left _ (List.getElem_mem h)
      · rw [h2]; simp
    · cases a with
      | nil =>
        right
        simp only [List.append_nil, List.nil_append] at h1 h2
        refine ⟨dirs[i], ?_, ?_⟩
        · rw [← h1]; exact List.getElem_mem h
        · rw [← h2]; simp
      | cons x xs =>
        simp only [List.cons_append, List.cons.injEq] at h2
        exact hinv pre d xs (by rw [h1, h2.1])
  | case2 dirs i h => exact hinv

theorem bfsLoop_prefix (dirs : List PDir) (i : Nat) : ∃ t, bfsLoop dirs i = dirs ++ t := by
  fun_induction bfsLoop dirs i with
  | case1 dirs i h ih =>
    obtain ⟨t, ht⟩ := ih
    exact ⟨dirs[i].subs ++ t, by rw [ht, List.append_assoc]⟩
  | case2 dirs i h => exact ⟨[], by simp⟩

/-! ### the objects of a tree -/

mutual
/-- All (path, object) pairs of a tree (helper). -/
def objects : FNode → List (List Bytes × FNode)
  | .dir m o kids => ([], .dir m o kids) :: objectsK kids
  | .reg m c => [([], .reg m c)]
  | .lnk m t => [([], .lnk m t)]
  | .other m => [([], .other m)]
def objectsK : Kids → List (List Bytes × FNode)
  | .nil => []
  | .cons name n rest =>
    if isDots name then objectsK rest
    else (objects n).map (fun x => (name :: x.1, x.2)) ++ objectsK rest
end

theorem isDots_iff (n : Bytes) : isDots n = true ↔ n = [46] ∨ n = [46, 46] := by
  unfold isDots; simp

theorem not_isDots_iff (n : Bytes) : isDots n = false ↔ n ≠ [46] ∧ n ≠ [46, 46] := by
  unfold isDots; simp

theorem Child.not_dots {k n c} (h : Child k n c) : n ≠ [46] ∧ n ≠ [46, 46] := by
  induction h with
  | here h1 h2 => exact ⟨h1, h2⟩
  | there _ ih => exact ih

mutual
theorem mem_objects_of_at : ∀ (t : FNode) (p : List Bytes) (n : FNode), At t p n → (p, n) ∈ objects t
  | .dir m o kids, p, n, h => by
    cases h with
    | self => simp [objects]
    | step hc ha =>
      simp only [objects, List.mem_cons]
      right
      exact mem_objectsK_of_child kids _ _ _ _ hc ha
  | .reg _ _, p, n, h => by cases h; simp [objects]
  | .lnk _ _, p, n, h => by cases h; simp [objects]
  | .other _, p, n, h => by cases h; simp [objects]
theorem mem_objectsK_of_child : ∀ (k : Kids) (name : Bytes) (c : FNode) (p : List Bytes) (n : FNode),
    Child k name c → At c p n → (name :: p, n) ∈ objectsK k
  | .nil, _, _, _, _, h, _ => by cases h
  | .cons name' node rest, name, c, p, n, h, ha => by
    cases h with
    | here h1 h2 =>
      have : isDots name' = false := (not_isDots_iff _).2 ⟨h1, h2⟩
      simp only [objectsK, this]
      simp only [Bool.false_eq_true, if_false, List.mem_append, List.mem_map]
      left
      exact ⟨(p, n), mem_objects_of_at node p n ha, rfl⟩
    | there h =>
      have := mem_objectsK_of_child rest name c p n h ha
      simp only [objectsK]
      split
      · exact this
      · exact List.mem_append_right _ this
end

mutual
theorem at_of_mem_objects : ∀ (t : FNode) (p : List Bytes) (n : FNode), (p, n) ∈ objects t → At t p n
  | .dir m o kids, p, n, h => by
    simp only [objects, List.mem_cons, Prod.mk.injEq] at h
    rcases h with ⟨rfl, rfl⟩ | h
    · exact .self _
    · obtain ⟨name, q, c, rfl, hc, ha⟩ := child_of_mem_objectsK kids p n h
      exact .step hc ha
  | .reg _ _, p, n, h => by simp [objects] at h; obtain ⟨rfl, rfl⟩ := h; exact .self _
  | .lnk _ _, p, n, h => by simp [objects] at h; obtain ⟨rfl, rfl⟩ := h; exact .self _
  | .other _, p, n, h => by simp [objects] at h; obtain ⟨rfl, rfl⟩ := h; exact .self _
theorem child_of_mem_objectsK : ∀ (k : Kids) (p : List Bytes) (n : FNode), (p, n) ∈ objectsK k →
    ∃ name q c, p = name :: q ∧ Child k name c ∧ At c q n
  | .nil, _, _, h => by simp [objectsK] at h
  | .cons name' node rest, p, n, h => by
    simp only [objectsK] at h
    split at h
    · obtain ⟨name, q, c, h1, h2, h3⟩ := child_of_mem_objectsK rest p n h
      exact ⟨name, q, c, h1, .there h2, h3⟩
    · rename_i hd
      rcases List.mem_append.1 h with h | h
      · obtain ⟨⟨q, c⟩, hx, heq⟩ := List.mem_map.1 h
        simp only [Prod.mk.injEq] at heq
        obtain ⟨rfl, rfl⟩ := heq
        have hd' := (not_isDots_iff name').1 (by simpa using hd)
        exact ⟨name', q, node, rfl, .here hd'.1 hd'.2, at_of_mem_objects node q _ hx⟩
      · obtain ⟨name, q, c, h1, h2, h3⟩ := child_of_mem_objectsK rest p n h
        exact ⟨name, q, c, h1, .there h2, h3⟩
end

theorem mem_objects_iff (t : FNode) (p : List Bytes) (n : FNode) : (p, n) ∈ objects t ↔ At t p n :=
  ⟨at_of_mem_objects t p n, mem_objects_of_at t p n⟩

/-! ### distinctness -/

theorem child_mem_names {k n c} (h : Child k n c) : n ∈ names k := by
  induction h with
  | here h1 h2 => simp [names, h1, h2]
  | there _ ih =>
    simp only [names]
    split
    · exact ih
    · exact List.mem_cons_of_mem _ ih

mutual
theorem objects_nodup : ∀ (t : FNode), TreeOk t → ((objects t).map Prod.fst).Nodup
  | .dir m o kids, h => by
    simp only [TreeOk] at h
    simp only [objects, List.map_cons, List.nodup_cons]
    refine ⟨?_, objectsK_nodup kids h.1 h.2⟩
    intro hm
    obtain ⟨⟨p, n⟩, hx, heq⟩ := List.mem_map.1 hm
    simp only at heq
    subst heq
    obtain ⟨_, _, _, h1, _⟩ := child_of_mem_objectsK kids _ n hx
    simp at h1
  | .reg _ _, _ => by simp [objects]
  | .lnk _ _, _ => by simp [objects]
  | .other _, _ => by simp [objects]
theorem objectsK_nodup : ∀ (k : Kids), (names k).Nodup → KidsOk k → ((objectsK k).map Prod.fst).Nodup
  | .nil, _, _ => by simp [objectsK]
  | .cons name node rest, hn, hk => by
    simp only [KidsOk] at hk
    by_cases hd : isDots name = true
    · have hd' := (isDots_iff name).1 hd
      simp only [objectsK, hd, if_true]
      simp only [names, hd', if_true] at hn
      exact objectsK_nodup rest hn hk.2
    · have hd' := (not_isDots_iff name).1 (by simpa using hd)
      simp only [names] at hn
      rw [if_neg (by simp [hd'.1, hd'.2])] at hn
      rw [List.nodup_cons] at hn
      simp only [objectsK, hd]
      simp only [Bool.false_eq_true, if_false, List.map_append, List.map_map]
      rw [List.nodup_append]
      refine ⟨?_, objectsK_nodup rest hn.2 hk.2, ?_⟩
      · have ih := objects_nodup node (hk.1 hd').2
        have : ((fun x : List Bytes × FNode => x.1) ∘ fun x : List Bytes × FNode => (name :: x.1, x.2)) =
            (fun p => name :: p) ∘ Prod.fst := rfl
        rw [this, ← List.map_map]
        exact List.Pairwise.map _ (fun a b hab h => hab (List.cons.inj h).2) ih
      · intro a ha b hb hab
        subst hab
        obtain ⟨⟨p, n⟩, hx, heq⟩ := List.mem_map.1 ha
        simp only [Function.comp] at heq
        obtain ⟨⟨p', n'⟩, hx', heq'⟩ := List.mem_map.1 hb
        simp only at heq'
        subst heq'
        obtain ⟨nm, q, c, h1, h2, _⟩ := child_of_mem_objectsK rest p' n' hx'
        rw [h1] at heq
        have : name = nm := (List.cons.inj heq).1
        exact hn.1 (this ▸ child_mem_names h2)
end

/-! ### path texts -/

theorem pathText_cons_ne {a : Bytes} {r : List Bytes} (hr : r ≠ []) :
    pathText (a :: r) = a ++ [47] ++ pathText r := by
  cases r with
  | nil => exact absurd rfl hr
  | cons b r => rfl

theorem pathText_ne_nil {p : List Bytes} (hp : ∀ n ∈ p, n ≠ []) (h : p ≠ []) : pathText p ≠ [] := by
  cases p with
  | nil => exact absurd rfl h
  | cons a r =>
    have ha := hp a (by simp)
    cases r with
    | nil => simpa [pathText] using ha
    | cons b r => simp [pathText]

theorem joinRel_pathText (p : List Bytes) (n : Bytes) (hp : ∀ n ∈ p, n ≠ []) :
    joinRel (pathText p) n = pathText (p ++ [n]) := by
  induction p with
  | nil => simp [joinRel, pathText]
  | cons a r ih =>
    have hr : ∀ n ∈ r, n ≠ [] := fun n hn => hp n (by simp [hn])
    unfold joinRel at *
    have hne := pathText_ne_nil hp (by simp : a :: r ≠ [])
    rw [if_neg (by simpa [List.length_eq_zero_iff] using hne)]
    cases r with
    | nil => simp [pathText]
    | cons b r =>
      have ih' := ih hr
      have hne' := pathText_ne_nil hr (by simp : b :: r ≠ [])
      rw [if_neg (by simpa [List.length_eq_zero_iff] using hne')] at ih'
      rw [List.cons_append, pathText_cons_ne (a := a) (r := b :: r ++ [n]) (by simp), ← ih',
        pathText_cons_ne (a := a) (r := b :: r) (by simp)]
      simp [List.append_assoc]

theorem split_at_sep {a a' r r' : Bytes} (ha : (47:UInt8) ∉ a) (ha' : (47:UInt8) ∉ a')
    (h : a ++ 47 :: r = a' ++ 47 :: r') : a = a' ∧ r = r' := by
  induction a generalizing a' with
  | nil =>
    cases a' with
    | nil => simp at h; exact ⟨rfl, h⟩
    | cons x xs => simp at h; exact absurd h.1.symm (by intro hh; simp [hh] at ha')
  | cons x xs ih =>
    cases a' with
    | nil => simp at h; exact absurd h.1 (by intro hh; simp [hh] at ha)
    | cons y ys =>
      simp only [List.cons_append, List.cons.injEq] at h
      obtain ⟨h1, h2⟩ := ih (a' := ys) (by intro hm; exact ha (by simp [hm]))
        (by intro hm; exact ha' (by simp [hm])) h.2
      exact ⟨by rw [h.1, h1], h2⟩

theorem pathText_inj {p q : List Bytes} (hp : ∀ n ∈ p, NameOk n) (hq : ∀ n ∈ q, NameOk n)
    (h : pathText p = pathText q) : p = q := by
  induction p generalizing q with
  | nil =>
    cases q with
    | nil => rfl
    | cons a r =>
      exact absurd h.symm (pathText_ne_nil (fun n hn => (hq n hn).1) (by simp))
  | cons a r ih =>
    cases q with
    | nil => exact absurd h (pathText_ne_nil (fun n hn => (hp n hn).1) (by simp))
    | cons b s =>
      have ha := (hp a (by simp)).2.1
      have hb := (hq b (by simp)).2.1
      cases r with
      | nil =>
        cases s with
        | nil => simpa [pathText] using h
        | cons c s =>
          simp only [pathText] at h
          rw [h] at ha
          exact absurd (by simp) ha
      | cons c r =>
        cases s with
        | nil =>
          simp only [pathText] at h
          rw [← h] at hb
          exact absurd (by simp) hb
        | cons d s =>
          rw [pathText_cons_ne (a := a) (by simp), pathText_cons_ne (a := b) (by simp)] at h
          simp only [List.append_assoc, List.singleton_append] at h
          obtain ⟨h1, h2⟩ := split_at_sep ha hb h
          rw [h1, ih (fun n hn => hp n (by simp [hn])) (fun n hn => hq n (by simp [hn])) h2]

/-! ### the scan lists the objects -/

/-- Entries of a list of scanned directories: their own and their files'. -/
def entsOf (ds : List PDir) : List Ent := ds.map PDir.ent ++ ds.flatMap PDir.files

theorem entsOf_append (a b : List PDir) : (entsOf (a ++ b)).Perm (entsOf a ++ entsOf b) := by
  unfold entsOf
  simp only [List.map_append, List.flatMap_append]
  rw [List.append_assoc, List.append_assoc]
  refine List.Perm.append_left _ ?_
  rw [← List.append_assoc, ← List.append_assoc]
  exact List.Perm.append_right _ List.perm_append_comm

theorem entsOf_cons (d : PDir) (ds : List PDir) :
    (entsOf (d :: ds)).Perm (d.ent :: (d.files ++ entsOf ds)) := by
  unfold entsOf
  simp only [List.map_cons, List.flatMap_cons, List.cons_append]
  refine List.Perm.cons _ ?_
  rw [← List.append_assoc, ← List.append_assoc]
  exact List.Perm.append_right _ List.perm_append_comm

/-- Descriptions of all objects, with `p` in front of the paths. -/
def descs (p : List Bytes) (os : List (List Bytes × FNode)) : List Ent :=
  os.filterMap (fun x => describe (p ++ x.1) x.2)

theorem descs_append (p os os') : descs p (os ++ os') = descs p os ++ descs p os' := by
  simp [descs]

theorem descs_map_cons (p : List Bytes) (name : Bytes) (os : List (List Bytes × FNode)) :
    descs p (os.map (fun x => (name :: x.1, x.2))) = descs (p ++ [name]) os := by
  unfold descs
  rw [List.filterMap_map]
  congr 1
  funext x
  simp [Function.comp]

mutual
theorem spiderDir_perm (g : Bytes → UInt8) : ∀ (n : FNode) (p : List Bytes) (d : PDir),
    IsDir n → TreeOk n → Openable n → (∀ x ∈ p, x ≠ []) →
    spiderDir g (pathText p) n = .ok d → (entsOf d.flat).Perm (descs p (objects n))
  | .dir m o kids, p, d, _, hok, hop, hp, h => by
    simp only [Openable] at hop
    simp only [TreeOk] at hok
    simp only [spiderDir, hop.1, if_true] at h
    split at h
    · cases h
    · rename_i ds fs hk
      have hd := Except.ok.inj h
      subst hd
      have ih := spiderKids_perm g kids p ds fs hok.2 hop.2 hp hk
      rw [PDir.flat_eq]
      refine (entsOf_cons _ _).trans ?_
      simp only [PDir.ent, PDir.files, PDir.subs]
      have : descs p (objects (.dir m o kids)) =
          ⟨pathText p, .dir, [], 0⟩ :: descs p (objectsK kids) := by
        simp [objects, descs, describe]
      rw [this]
      exact List.Perm.cons _ (List.perm_append_comm.trans ih)
  | .reg _ _, _, _, hd, _, _, _, _ => by simp [IsDir] at hd
  | .lnk _ _, _, _, hd, _, _, _, _ => by simp [IsDir] at hd
  | .other _, _, _, hd, _, _, _, _ => by simp [IsDir] at hd
theorem spiderKids_perm (g : Bytes → UInt8) : ∀ (k : Kids) (p : List Bytes) (ds : List PDir)
    (fs : List Ent), KidsOk k → OpenableK k → (∀ x ∈ p, x ≠ []) →
    spiderKids g (pathText p) k = .ok (ds, fs) →
    (entsOf (PDir.flatL ds) ++ fs).Perm (descs p (objectsK k))
  | .nil, p, ds, fs, _, _, _, h => by
    simp [spiderKids] at h
    obtain ⟨rfl, rfl⟩ := h
    simp [PDir.flatL, entsOf, descs, objectsK]
  | .cons name node rest, p, ds, fs, hok, hop, hp, h => by
    simp only [KidsOk] at hok
    simp only [OpenableK] at hop
    by_cases hd : isDots name = true
    · simp only [spiderKids, hd, if_true] at h
      simp only [objectsK, hd, if_true]
      exact spiderKids_perm g rest p ds fs hok.2 hop.2 hp h
    · have hd' := (not_isDots_iff name).1 (by simpa using hd)
      have hnm := (hok.1 hd').1
      have hj : joinRel (pathText p) name = pathText (p ++ [name]) := joinRel_pathText p name hp
      have hp' : ∀ x ∈ p ++ [name], x ≠ [] := by
        intro x hx
        rcases List.mem_append.1 hx with hx | hx
        · exact hp x hx
        · simp at hx; subst hx; exact hnm.1
      simp only [spiderKids, hd] at h
      simp only [objectsK, hd]
      simp only [Bool.false_eq_true, if_false] at h ⊢
      rw [descs_append, descs_map_cons]
      unfold addKid at h
      split at h
      · cases h
      rename_i ds' fs' hr
      have ih := spiderKids_perm g rest p ds' fs' hok.2 hop.2 hp hr
      cases node with
      | reg m c =>
        have := Except.ok.inj h
        simp only [Prod.mk.injEq] at this
        obtain ⟨rfl, rfl⟩ := this
        have : descs (p ++ [name]) (objects (.reg m c)) = [⟨joinRel (pathText p) name, .reg, [], c.length⟩] := by
          simp [objects, descs, describe, hj]
        rw [this, List.singleton_append]
        exact List.perm_middle.trans (List.Perm.cons _ ih)
      | lnk m t =>
        simp only [] at h
        split at h
        · cases h
        rename_i t' ht
        have := Except.ok.inj h
        simp only [Prod.mk.injEq] at this
        obtain ⟨rfl, rfl⟩ := this
        have htt : t' = t := by
          unfold readTarget at ht; split at ht
          · exact (Except.ok.inj ht).symm
          · cases ht
        subst htt
        have : descs (p ++ [name]) (objects (.lnk m t')) = [⟨joinRel (pathText p) name, .lnk, t', 0⟩] := by
          simp [objects, descs, describe, hj]
        rw [this, List.singleton_append]
        exact List.perm_middle.trans (List.Perm.cons _ ih)
      | dir m o kids =>
        simp only [] at h
        split at h
        · cases h
        rename_i d hdir
        have := Except.ok.inj h
        simp only [Prod.mk.injEq] at this
        obtain ⟨rfl, rfl⟩ := this
        rw [hj] at hdir
        have ih2 := spiderDir_perm g (.dir m o kids) (p ++ [name]) d trivial (hok.1 hd').2
          (hop.1 hd') hp' hdir
        rw [PDir.flatL]
        refine ((entsOf_append _ _).append_right _).trans ?_
        rw [List.append_assoc]
        exact ih2.append ih
      | other m =>
        have := Except.ok.inj h
        simp only [Prod.mk.injEq] at this
        obtain ⟨rfl, rfl⟩ := this
        have : descs (p ++ [name]) (objects (.other m)) = [] := by simp [objects, descs, describe]
        rw [this, List.nil_append]
        exact ih
end

mutual
theorem spiderDir_ok (g : Bytes → UInt8) (hg : ∀ r, g r = 0) :
    ∀ (n : FNode) (rel : Bytes), ∃ d, spiderDir g rel n = .ok d
  | .dir m o kids, rel => by
    obtain ⟨r, hr⟩ := spiderKids_ok g hg kids rel
    simp only [spiderDir]
    split
    · rw [hr]; exact ⟨_, rfl⟩
    · exact ⟨_, rfl⟩
  | .reg _ _, _ => by simp only [spiderDir]; exact ⟨_, rfl⟩
  | .lnk _ _, _ => by simp only [spiderDir]; exact ⟨_, rfl⟩
  | .other _, _ => by simp only [spiderDir]; exact ⟨_, rfl⟩
theorem spiderKids_ok (g : Bytes → UInt8) (hg : ∀ r, g r = 0) :
    ∀ (k : Kids) (rel : Bytes), ∃ r, spiderKids g rel k = .ok r
  | .nil, _ => by simp only [spiderKids]; exact ⟨_, rfl⟩
  | .cons name node rest, rel => by
    obtain ⟨r, hr⟩ := spiderKids_ok g hg rest rel
    simp only [spiderKids]
    split
    · exact ⟨_, hr⟩
    · obtain ⟨d, hd⟩ := spiderDir_ok g hg node (joinRel rel name)
      rw [hr, hd]
      obtain ⟨ds, fs⟩ := r
      cases node with
      | lnk m t => simp only [addKid, readTarget, hg, if_true]; exact ⟨_, rfl⟩
      | _ => exact ⟨_, rfl⟩
end

/-! ### the collection -/

theorem mapRes_ok_length {α β : Type} {f : α → Res β} {l : List α} {r : List β}
    (h : mapRes f l = .ok r) : r.length = l.length := by
  induction l generalizing r with
  | nil => simp [mapRes] at h; subst h; rfl
  | cons a l ih =>
    simp only [mapRes] at h
    split at h
    · cases h
    split at h
    · cases h
    rename_i bs hbs
    have := Except.ok.inj h
    subst this
    simp [ih hbs]

theorem mapRes_map {α β γ : Type} {f : α → Res β} {k : β → γ} {k' : α → γ}
    (hf : ∀ a b, f a = .ok b → k b = k' a) {l : List α} {r : List β}
    (h : mapRes f l = .ok r) : r.map k = l.map k' := by
  induction l generalizing r with
  | nil => simp [mapRes] at h; subst h; rfl
  | cons a l ih =>
    simp only [mapRes] at h
    split at h
    · cases h
    rename_i b hb
    split at h
    · cases h
    rename_i bs hbs
    have := Except.ok.inj h
    subst this
    simp [ih hbs, hf a b hb]

theorem mapRes_ok {α β : Type} {f : α → Res β} (hf : ∀ a, ∃ b, f a = .ok b) (l : List α) :
    ∃ r, mapRes f l = .ok r := by
  induction l with
  | nil => exact ⟨_, rfl⟩
  | cons a l ih =>
    obtain ⟨b, hb⟩ := hf a
    obtain ⟨r, hr⟩ := ih
    exact ⟨b :: r, by simp only [mapRes, hb, hr]⟩

theorem mapRes_mem {α β : Type} {f : α → Res β} {l : List α} {r : List β} (h : mapRes f l = .ok r) :
    ∀ b ∈ r, ∃ a ∈ l, f a = .ok b := by
  induction l generalizing r with
  | nil => simp [mapRes] at h; subst h; simp
  | cons a l ih =>
    simp only [mapRes] at h
    split at h
    · cases h
    rename_i b hb
    split at h
    · cases h
    rename_i bs hbs
    have := Except.ok.inj h
    subst this
    intro c hc
    rcases List.mem_cons.1 hc with rfl | hc
    · exact ⟨a, by simp, hb⟩
    · obtain ⟨a', ha', h'⟩ := ih hbs c hc
      exact ⟨a', by simp [ha'], h'⟩

theorem mkRef_ent {base : Bytes} {e : Ent} {r : Ref} (h : mkRef base e = .ok r) : r.ent = e := by
  unfold mkRef at h
  simp only [bind, Except.bind] at h
  split at h
  · cases h
  · have := Except.ok.inj h; subst this; rfl

theorem headerSize_ok (base : Bytes) (e : Ent) : ∃ n, headerSize base e = .ok n := by
  unfold headerSize computeHdrSize; rw [hdrSize_eq]; exact ⟨_, rfl⟩

theorem mkRef_ok (base : Bytes) (e : Ent) : ∃ r, mkRef base e = .ok r := by
  obtain ⟨n, hn⟩ := headerSize_ok base e
  unfold mkRef; rw [hn]; exact ⟨_, rfl⟩

theorem collect_spec {base : Bytes} {root : PDir} {c : Coll} (h : collect base root = .ok c) :
    c.dirs.map Ref.ent = (bfsLoop [root] 0).map PDir.ent ∧
    c.files.map Ref.ent = (bfsLoop [root] 0).flatMap PDir.files ∧
    (∀ r ∈ c.dirs ++ c.files, mkRef base r.ent = .ok r) := by
  unfold collect at h
  split at h
  · cases h
  rename_i ds hds
  split at h
  · cases h
  rename_i fs hfs
  have := Except.ok.inj h
  subst this
  refine ⟨?_, ?_, ?_⟩
  · have := mapRes_map (k := Ref.ent) (k' := id) (fun a b hb => mkRef_ent hb) hds
    simpa using this
  · have := mapRes_map (k := Ref.ent) (k' := id) (fun a b hb => mkRef_ent hb) hfs
    simpa using this
  · intro r hr
    rcases List.mem_append.1 hr with hr | hr
    · obtain ⟨a, _, ha⟩ := mapRes_mem hds r hr
      rw [mkRef_ent ha]; exact ha
    · obtain ⟨a, _, ha⟩ := mapRes_mem hfs r hr
      rw [mkRef_ent ha]; exact ha

theorem collect_ok (base : Bytes) (root : PDir) : ∃ c, collect base root = .ok c := by
  obtain ⟨ds, hds⟩ := mapRes_ok (mkRef_ok base) ((bfsLoop [root] 0).map PDir.ent)
  obtain ⟨fs, hfs⟩ := mapRes_ok (mkRef_ok base) ((bfsLoop [root] 0).flatMap PDir.files)
  unfold collect; rw [hds]; simp only [hfs]; exact ⟨_, rfl⟩

end Parfu
