/-
Lemmas about the model of parfu 0.5.1's scan.
-/
import Verif.LegacyScan
import Verif.LegacyScanSpec
import Verif.ScanPrune
import Verif.PropsLegacyList
set_option autoImplicit false

namespace Parfu
open ScanSpec LegacyScanSpec Props

/-- Is the path free of hidden names (test)? -/
def vis (p : List Bytes) : Bool := p.all (fun n => !isHidden n)

theorem vis_iff (p : List Bytes) : vis p = true ↔ NoHidden p := by
  unfold vis NoHidden isHidden; simp

theorem isHidden_of_isDots {n : Bytes} (h : isDots n = true) : isHidden n = true := by
  rcases (isDots_iff n).1 h with rfl | rfl <;> rfl

/-- The entry made for one object. -/
def entOf (r a : Bytes) : FNode → Option LegEnt
  | .reg _ c => some ⟨r, a, .reg, [], c.length⟩
  | .lnk _ t => some ⟨r, a, .lnk, t, -2⟩
  | .dir _ _ _ => some ⟨r, a, .dir, [], -3⟩
  | .other _ => none

/-- The entries of one listing. -/
def flatK (r a : Bytes) : Kids → List LegEnt
  | .nil => []
  | .cons name n rest =>
    if isHidden name then flatK r a rest
    else (entOf (legJoin r name) (joinRel a name) n).toList ++ flatK r a rest

mutual
/-- The entries of everything below an object. -/
def deep (r a : Bytes) : FNode → List LegEnt
  | .dir _ _ k => deepK r a k
  | _ => []
def deepK (r a : Bytes) : Kids → List LegEnt
  | .nil => []
  | .cons name n rest =>
    if isHidden name then deepK r a rest
    else ((entOf (legJoin r name) (joinRel a name) n).toList ++
      deep (legJoin r name) (joinRel a name) n) ++ deepK r a rest
end

theorem deepK_perm (d : QDir) : ∀ k : Kids, (deepK d.rel d.arc k).Perm
    (flatK d.rel d.arc k ++ (subDirs d k).flatMap (fun q => deep q.rel q.arc q.node))
  | .nil => by simp [deepK, flatK, subDirs]
  | .cons name n rest => by
    have ih := deepK_perm d rest
    unfold deepK flatK subDirs
    split
    · exact ih
    · rw [List.append_assoc, List.append_assoc]
      refine List.Perm.append_left _ ?_
      cases n with
      | dir m o k =>
        simp only [List.flatMap_cons]
        refine (List.Perm.append_left _ ih).trans ?_
        rw [← List.append_assoc, ← List.append_assoc]
        exact List.Perm.append_right _ List.perm_append_comm
      | reg _ _ => simpa [deep] using ih
      | lnk _ _ => simpa [deep] using ih
      | other _ => simpa [deep] using ih

/-- An entry as the scan makes it: with the header size of its names and size, and no place yet. -/
structure Fresh (f : Frag) : Prop where
  hdr : ∃ h, computeHdrSize f.rel f.target f.size = .ok h ∧ f.hdr = h
  none : f.padName = none
  unset : f.locA = -1 ∧ f.locO = -1 ∧ f.padLoc = -1 ∧ f.padHdr = -1 ∧ f.padSize = -1 ∧ f.nFrag = -1 ∧ f.fp = -1 ∧ f.bucket = -1

theorem addName_ok {fs : List Frag} {l : FList} (h : LInv 100 fs l) (k : LKind) (r a t : Bytes)
    (sz : Int) : ∃ f l', addName l k r a t sz = .ok l' ∧ LInv 100 (fs ++ [f]) l' ∧
      entryOf f = ⟨r, a, k, t, sz⟩ ∧ Fresh f := by
  unfold addName
  obtain ⟨n, hn⟩ : ∃ n, computeHdrSize r t sz = .ok n := by
    unfold computeHdrSize; rw [hdrSize_eq]; exact ⟨_, rfl⟩
  rw [hn]
  obtain ⟨l', e, i⟩ := h.add (by omega) ⟨r, a, k, t, sz, n, -1, -1, -1, none, -1, -1, -1, -1, -1⟩
  exact ⟨_, l', e, i, rfl, ⟨⟨n, hn, rfl⟩, rfl, by simp⟩⟩

theorem addFound_ok {fs : List Frag} {l : FList} (h : LInv 100 fs l) (r a : Bytes) (n : FNode) :
    ∃ gs l', addFound l r a n = .ok l' ∧ LInv 100 (fs ++ gs) l' ∧
      gs.map entryOf = (entOf r a n).toList ∧ ∀ f ∈ gs, Fresh f := by
  cases n with
  | reg m c =>
    obtain ⟨f, l', e, i, s, hf⟩ := addName_ok h .reg r a [] c.length
    exact ⟨[f], l', e, i, by simp [entOf, s], by simpa using hf⟩
  | lnk m t =>
    obtain ⟨f, l', e, i, s, hf⟩ := addName_ok h .lnk r a t (-2)
    exact ⟨[f], l', e, i, by simp [entOf, s], by simpa using hf⟩
  | dir m o k =>
    obtain ⟨f, l', e, i, s, hf⟩ := addName_ok h .dir r a [] (-3)
    exact ⟨[f], l', e, i, by simp [entOf, s], by simpa using hf⟩
  | other m => exact ⟨[], l, rfl, by simpa using h, rfl, by simp⟩

theorem addListing_ok (d : QDir) : ∀ (k : Kids) {fs : List Frag} {l : FList}, LInv 100 fs l →
    ∃ gs l', addListing d l k = .ok l' ∧ LInv 100 (fs ++ gs) l' ∧ gs.map entryOf = flatK d.rel d.arc k ∧
      ∀ f ∈ gs, Fresh f
  | .nil, fs, l, h => ⟨[], l, rfl, by simpa using h, rfl, by simp⟩
  | .cons name n rest, fs, l, h => by
    unfold addListing flatK
    split
    · exact addListing_ok d rest h
    · obtain ⟨gs, l', e, i, s, hf⟩ := addFound_ok h (legJoin d.rel name) (joinRel d.arc name) n
      obtain ⟨gs', l'', e', i', s', hf'⟩ := addListing_ok d rest i
      refine ⟨gs ++ gs', l'', ?_, by rw [← List.append_assoc]; exact i', by simp [s, s'],
        fun f hm => (List.mem_append.1 hm).elim (hf f) (hf' f)⟩
      rw [e]; exact e'

theorem subDirs_node (d : QDir) : ∀ (k : Kids), ∀ q ∈ subDirs d k,
    ∃ name, isHidden name = false ∧ Child k name q.node ∧ IsDir q.node
  | .nil, q, h => by simp [subDirs] at h
  | .cons name n rest, q, h => by
    unfold subDirs at h
    by_cases hh : isHidden name = true
    · rw [if_pos hh] at h
      obtain ⟨nm, a, b, c⟩ := subDirs_node d rest q h
      exact ⟨nm, a, b.there, c⟩
    · rw [if_neg hh] at h
      have hd : isDots name = false := by
        cases hx : isDots name with
        | false => rfl
        | true => exact absurd (isHidden_of_isDots hx) hh
      have hd := (not_isDots_iff name).1 hd
      cases n with
      | dir m o k =>
        rcases List.mem_cons.1 h with rfl | h
        · exact ⟨name, by simpa using hh, .here hd.1 hd.2, trivial⟩
        · obtain ⟨nm, a, b, c⟩ := subDirs_node d rest q h
          exact ⟨nm, a, b.there, c⟩
      | _ =>
        obtain ⟨nm, a, b, c⟩ := subDirs_node d rest q h
        exact ⟨nm, a, b.there, c⟩

theorem subDirs_complete (d : QDir) : ∀ (k : Kids) (name : Bytes) (c : FNode), Child k name c →
    isHidden name = false → IsDir c → ∃ q ∈ subDirs d k, q.node = c
  | .nil, _, _, h, _, _ => by cases h
  | .cons name n rest, nm, c, h, hh, hd => by
    unfold subDirs
    cases h with
    | here h1 h2 =>
      rw [if_neg (by simp [hh])]
      cases n <;> simp_all [IsDir]
    | there h =>
      obtain ⟨q, hq, e⟩ := subDirs_complete d rest nm c h hh hd
      split
      · exact ⟨q, hq, e⟩
      · cases n with
        | dir m o k => exact ⟨q, List.mem_cons_of_mem _ hq, e⟩
        | _ => exact ⟨q, hq, e⟩

/-- Every directory that a scan reaches in tree `n` can be opened. -/
def VisOpen (n : FNode) : Prop := ∀ p m o k, At n p (.dir m o k) → NoHidden p → o = true

theorem VisOpen.child {m o k name c} (h : VisOpen (.dir m o k)) (hc : Child k name c)
    (hh : isHidden name = false) : VisOpen c := by
  intro p m' o' k' ha hn
  refine h (name :: p) m' o' k' (.step hc ha) ?_
  intro x hx
  rcases List.mem_cons.1 hx with rfl | hx
  · simpa [isHidden] using hh
  · exact hn x hx

theorem scanQueue_ok (l : FList) (qs : List QDir) : ∀ (fs : List Frag), LInv 100 fs l →
    (∀ q ∈ qs, IsDir q.node ∧ VisOpen q.node) →
    ∃ gs l', scanQueue l qs = .ok (some l') ∧ LInv 100 (fs ++ gs) l' ∧
      (gs.map entryOf).Perm (qs.flatMap fun q => deep q.rel q.arc q.node) ∧ ∀ f ∈ gs, Fresh f := by
  fun_induction scanQueue l qs with
  | case1 l =>
    intro fs h _
    exact ⟨[], l, rfl, by simpa using h, by simp, by simp⟩
  | case2 l rel arc m kids rest e he =>
    intro fs h _
    obtain ⟨gs, l', e', _, _⟩ := addListing_ok ⟨rel, arc, .dir m true kids⟩ kids h
    rw [e'] at he; cases he
  | case3 l rel arc m kids rest l' he ih =>
    intro fs h hq
    obtain ⟨gs, l1, e', i, s, hf⟩ := addListing_ok ⟨rel, arc, .dir m true kids⟩ kids h
    rw [e'] at he; cases he
    have hd := hq _ List.mem_cons_self
    obtain ⟨gs', l2, e2, i2, s2, hf'⟩ := ih (fs ++ gs) i (by
      intro q hm
      rcases List.mem_append.1 hm with hm | hm
      · exact hq q (List.mem_cons_of_mem _ hm)
      · obtain ⟨name, h1, h2, h3⟩ := subDirs_node _ _ q hm
        exact ⟨h3, hd.2.child h2 h1⟩)
    refine ⟨gs ++ gs', l2, e2, by rw [← List.append_assoc]; exact i2, ?_,
      fun f hm => (List.mem_append.1 hm).elim (hf f) (hf' f)⟩
    rw [List.map_append, s, List.flatMap_cons]
    refine (List.Perm.append_left _ s2).trans ?_
    rw [List.flatMap_append]
    have := deepK_perm ⟨rel, arc, .dir m true kids⟩ kids
    simp only [deep]
    refine List.Perm.trans ?_ (List.Perm.append_right _ this.symm)
    simp only [List.append_assoc]
    exact List.Perm.append_left _ List.perm_append_comm
  | case4 l q rest hne =>
    intro fs h hq
    obtain ⟨hd, ho⟩ := hq _ List.mem_cons_self
    obtain ⟨rel, arc, node⟩ := q
    cases node with
    | dir m o k =>
      have := ho [] m o k (.self _) (by simp [NoHidden])
      subst this
      exact (hne rel arc m k rfl).elim
    | _ => simp [IsDir] at hd

theorem scanQueue_blocked (l : FList) (qs : List QDir) : ∀ (fs : List Frag), LInv 100 fs l →
    (∃ q ∈ qs, ¬ IsDir q.node ∨ ∃ p m k, At q.node p (.dir m false k) ∧ NoHidden p) →
    scanQueue l qs = .ok none := by
  fun_induction scanQueue l qs with
  | case1 l => intro fs h hq; simp at hq
  | case2 l rel arc m kids rest e he =>
    intro fs h _
    obtain ⟨gs, l', e', _, _⟩ := addListing_ok ⟨rel, arc, .dir m true kids⟩ kids h
    rw [e'] at he; cases he
  | case3 l rel arc m kids rest l' he ih =>
    intro fs h hq
    obtain ⟨gs, l1, e', i, s, hf⟩ := addListing_ok ⟨rel, arc, .dir m true kids⟩ kids h
    rw [e'] at he; cases he
    refine ih (fs ++ gs) i ?_
    obtain ⟨q, hm, hb⟩ := hq
    rcases List.mem_cons.1 hm with rfl | hm
    · rcases hb with hb | ⟨p, m', k', ha, hn⟩
      · exact absurd trivial hb
      · cases ha with
        | @step _ _ _ name c p _ hc ha =>
          have hnd : IsDir c := by cases ha <;> trivial
          have hh : isHidden name = false := by
            have := hn name List.mem_cons_self
            simpa [isHidden] using this
          obtain ⟨q, hq, rfl⟩ := subDirs_complete ⟨rel, arc, .dir m true kids⟩ kids name c hc hh hnd
          exact ⟨q, List.mem_append_right _ hq, Or.inr ⟨p, m', k', ha,
            fun x hx => hn x (List.mem_cons_of_mem _ hx)⟩⟩
    · exact ⟨q, List.mem_append_left _ hm, hb⟩
  | case4 l q rest hne => intros; rfl

/-- The objects of a tree that no hidden name leads to. -/
def visObjects (n : FNode) : List (List Bytes × FNode) := (objects n).filter fun x => vis x.1

theorem legJoin_fullPath (top : Bytes) (p : List Bytes) (name : Bytes) (hp : ∀ n ∈ p, NameOk n) :
    legJoin (fullPath top p) name = fullPath top (p ++ [name]) := by
  have hne : ∀ n ∈ p, n ≠ [] := fun n hn => (hp n hn).1
  have hj := joinRel_pathText p name hne
  by_cases h0 : p = []
  · subst h0
    simp [fullPath, legJoin, pathText]
  · have hpt : pathText p ≠ [] := pathText_ne_nil hne h0
    have hlast : (pathText p).getLast? ≠ some 47 := by
      clear hj hpt
      revert hp hne h0
      induction p with
      | nil => intro _ _ h; exact (h rfl).elim
      | cons a r ih =>
        intro hp hne h0
        cases r with
        | nil =>
          intro h
          simp only [pathText] at h
          have := List.mem_of_getLast? h
          exact (hp a (by simp)).2.1 this
        | cons b r =>
          simp only [pathText]
          have hb : pathText (b :: r) ≠ [] :=
            pathText_ne_nil (fun n hn => hne n (List.mem_cons_of_mem _ hn)) (by simp)
          rw [List.getLast?_append_of_ne_nil _ hb]
          exact ih (fun n hn => hp n (List.mem_cons_of_mem _ hn))
            (fun n hn => hne n (List.mem_cons_of_mem _ hn)) (by simp)
    have hl : (fullPath top p).getLast? ≠ some 47 := by
      unfold fullPath
      rw [if_neg h0]
      split
      · rw [List.getLast?_append_of_ne_nil _ hpt]; exact hlast
      · rw [List.getLast?_append_of_ne_nil _ hpt]; exact hlast
    have hlen : (pathText p).length ≠ 0 := by simpa using hpt
    have hj' : pathText (p ++ [name]) = pathText p ++ [47] ++ name := by
      rw [← hj]; unfold joinRel; rw [if_neg hlen]
    unfold legJoin
    rw [if_neg hl]
    unfold fullPath
    rw [if_neg h0, if_neg (by simp : ¬ (p ++ [name] = [])), hj']
    split <;> simp

theorem entOf_listed (top : Bytes) (p : List Bytes) (n : FNode) :
    entOf (fullPath top p) (pathText p) n = listed top p n := by
  cases n <;> rfl

/-- The entries of a list of objects, with `p` in front of the paths. -/
def listings (top : Bytes) (p : List Bytes) (os : List (List Bytes × FNode)) : List LegEnt :=
  os.filterMap (fun x => listed top (p ++ x.1) x.2)

theorem objects_cons (n : FNode) : ∃ r, objects n = ([], n) :: r := by
  cases n <;> exact ⟨_, by simp only [objects]; rfl⟩

mutual
theorem deep_eq (top : Bytes) : ∀ (n : FNode) (p : List Bytes), TreeOk n → (∀ x ∈ p, NameOk x) →
    (entOf (fullPath top p) (pathText p) n).toList ++ deep (fullPath top p) (pathText p) n =
      listings top p ((objects n).filter fun x => vis x.1)
  | .dir m o k, p, h, hp => by
    simp only [TreeOk] at h
    have ih := deepK_eq top k p h.2 hp
    simp only [deep, ih, entOf_listed, objects, listings]
    rw [List.filter_cons_of_pos (by simp [vis])]
    simp [listed]
  | .reg m c, p, h, hp => by
    simp only [deep, entOf_listed, objects, listings]
    rw [List.filter_cons_of_pos (by simp [vis])]
    simp [listed]
  | .lnk m c, p, h, hp => by
    simp only [deep, entOf_listed, objects, listings]
    rw [List.filter_cons_of_pos (by simp [vis])]
    simp [listed]
  | .other m, p, h, hp => by
    simp only [deep, entOf_listed, objects, listings]
    rw [List.filter_cons_of_pos (by simp [vis])]
    simp [listed]
theorem deepK_eq (top : Bytes) : ∀ (k : Kids) (p : List Bytes), KidsOk k → (∀ x ∈ p, NameOk x) →
    deepK (fullPath top p) (pathText p) k =
      listings top p ((objectsK k).filter fun x => vis x.1)
  | .nil, p, h, hp => by simp [deepK, objectsK, listings]
  | .cons name n rest, p, h, hp => by
    simp only [KidsOk] at h
    have ih := deepK_eq top rest p h.2 hp
    by_cases hh : isHidden name = true
    · simp only [deepK, if_pos hh, ih]
      simp only [objectsK]
      split
      · rfl
      · have hz : ((objects n).map fun x => (name :: x.1, x.2)).filter (fun x => vis x.1) = [] := by
          apply List.filter_eq_nil_iff.2
          intro x hx
          obtain ⟨y, _, rfl⟩ := List.mem_map.1 hx
          simp [vis, hh]
        rw [List.filter_append, hz, List.nil_append]
    · have hd : isDots name = false := by
        cases hx : isDots name with
        | false => rfl
        | true => exact absurd (isHidden_of_isDots hx) hh
      have hd' := (not_isDots_iff name).1 hd
      have hn := (h.1 hd').1
      have ih' := deep_eq top n (p ++ [name]) (h.1 hd').2 (by
        intro x hx
        rcases List.mem_append.1 hx with hx | hx
        · exact hp x hx
        · simp at hx; subst hx; exact hn)
      simp only [deepK, if_neg hh, objectsK, hd, Bool.false_eq_true, if_false, ih]
      rw [legJoin_fullPath top p name hp, joinRel_pathText p name (fun x hx => (hp x hx).1), ih']
      rw [List.filter_append]
      unfold listings
      rw [List.filterMap_append, List.filter_map, List.filterMap_map]
      congr 1
      have : (fun x : List Bytes × FNode => vis x.1) ∘ (fun x : List Bytes × FNode => (name :: x.1, x.2)) =
          fun x => vis x.1 := by
        funext x; simp [vis, hh]
      rw [this]
      congr 1
      funext x
      simp
end

end Parfu
