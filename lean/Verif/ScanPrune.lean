/-
Lemmas for scans that meet directories which cannot be opened, for links, and for parents.
-/
import Verif.ScanLemmas
set_option autoImplicit false

namespace Parfu
open ScanSpec

mutual
/-- The tree as a process without the right to open some directories sees it. -/
def prune : FNode → FNode
  | .dir m o kids => .dir m true (if o then pruneK kids else .nil)
  | n => n
def pruneK : Kids → Kids
  | .nil => .nil
  | .cons n c r => .cons n (prune c) (pruneK r)
end

theorem names_pruneK : ∀ k : Kids, names (pruneK k) = names k
  | .nil => rfl
  | .cons n c r => by simp only [pruneK, names, names_pruneK r]

mutual
theorem prune_ok : ∀ n : FNode, TreeOk n → TreeOk (prune n)
  | .dir m o kids, h => by
    simp only [TreeOk] at h
    simp only [prune, TreeOk]
    split
    · rw [names_pruneK]; exact ⟨h.1, pruneK_ok kids h.2⟩
    · simp [names, KidsOk]
  | .reg _ _, _ => by simp [prune, TreeOk]
  | .lnk _ _, _ => by simp [prune, TreeOk]
  | .other _, _ => by simp [prune, TreeOk]
theorem pruneK_ok : ∀ k : Kids, KidsOk k → KidsOk (pruneK k)
  | .nil, _ => by simp [pruneK, KidsOk]
  | .cons n c r, h => by
    simp only [KidsOk] at h
    simp only [pruneK, KidsOk]
    exact ⟨fun hh => ⟨(h.1 hh).1, prune_ok c (h.1 hh).2⟩, pruneK_ok r h.2⟩
end

mutual
theorem prune_openable : ∀ n : FNode, Openable (prune n)
  | .dir m o kids => by
    simp only [prune, Openable, true_and]
    split
    · exact pruneK_openable kids
    · simp [OpenableK]
  | .reg _ _ => by simp [prune, Openable]
  | .lnk _ _ => by simp [prune, Openable]
  | .other _ => by simp [prune, Openable]
theorem pruneK_openable : ∀ k : Kids, OpenableK (pruneK k)
  | .nil => by simp [pruneK, OpenableK]
  | .cons n c r => by
    simp only [pruneK, OpenableK]
    exact ⟨fun _ => prune_openable c, pruneK_openable r⟩
end

mutual
theorem spiderDir_prune (g : Bytes → UInt8) : ∀ (n : FNode) (rel : Bytes),
    spiderDir g rel (prune n) = spiderDir g rel n
  | .dir m o kids, rel => by
    simp only [prune]
    cases o
    · simp [spiderDir, spiderKids]
    · simp only [spiderDir, if_true]
      rw [spiderKids_prune g kids rel]
  | .reg _ _, _ => by simp [prune]
  | .lnk _ _, _ => by simp [prune]
  | .other _, _ => by simp [prune]
theorem spiderKids_prune (g : Bytes → UInt8) : ∀ (k : Kids) (rel : Bytes),
    spiderKids g rel (pruneK k) = spiderKids g rel k
  | .nil, _ => by simp [pruneK]
  | .cons n c r, rel => by
    simp only [pruneK, spiderKids]
    rw [spiderKids_prune g r rel, spiderDir_prune g c]
    cases c <;> simp [prune, addKid]
end

theorem child_pruneK {k : Kids} {n : Bytes} {c' : FNode} :
    Child (pruneK k) n c' ↔ ∃ c, c' = prune c ∧ Child k n c := by
  constructor
  · intro h
    generalize hk : pruneK k = k' at h
    induction h generalizing k with
    | here h1 h2 =>
      cases k with
      | nil => simp [pruneK] at hk
      | cons a b r =>
        simp only [pruneK, Kids.cons.injEq] at hk
        obtain ⟨rfl, rfl, rfl⟩ := hk
        exact ⟨b, rfl, .here h1 h2⟩
    | there h ih =>
      cases k with
      | nil => simp [pruneK] at hk
      | cons a b r =>
        simp only [pruneK, Kids.cons.injEq] at hk
        obtain ⟨rfl, rfl, h3⟩ := hk
        obtain ⟨c, h1, h2⟩ := ih h3
        exact ⟨c, h1, .there h2⟩
  · rintro ⟨c, rfl, h⟩
    induction h with
    | here h1 h2 => simp only [pruneK]; exact .here h1 h2
    | there h ih => simp only [pruneK]; exact .there ih

theorem at_prune {t : FNode} {p : List Bytes} {n' : FNode} :
    At (prune t) p n' ↔ ∃ n, n' = prune n ∧ Seen t p n := by
  constructor
  · intro h
    generalize ht : prune t = t' at h
    induction h generalizing t with
    | self _ => exact ⟨t, ht.symm, .self t⟩
    | step hc ha ih =>
      cases t with
      | dir m o kids =>
        simp only [prune, FNode.dir.injEq] at ht
        obtain ⟨rfl, rfl, hk⟩ := ht
        cases o
        · simp at hk; subst hk; cases hc
        · simp at hk; subst hk
          obtain ⟨c, rfl, hc'⟩ := child_pruneK.1 hc
          obtain ⟨n, h1, h2⟩ := ih rfl
          exact ⟨n, h1, .step hc' h2⟩
      | reg _ _ => simp [prune] at ht
      | lnk _ _ => simp [prune] at ht
      | other _ => simp [prune] at ht
  · rintro ⟨n, rfl, h⟩
    induction h with
    | self t => exact .self _
    | step hc hs ih =>
      simp only [prune, if_true]
      exact .step (child_pruneK.2 ⟨_, rfl, hc⟩) ih

theorem describe_prune (p : List Bytes) (n : FNode) : describe p (prune n) = describe p n := by
  cases n <;> simp [prune, describe]

theorem seen_at {t p n} (h : Seen t p n) : At t p n := by
  induction h with
  | self t => exact .self _
  | step hc _ ih => exact .step hc ih

theorem openable_child {k n c} (h : Child k n c) (ho : OpenableK k) : Openable c := by
  induction h with
  | here h1 h2 => simp only [OpenableK] at ho; exact ho.1 ⟨h1, h2⟩
  | there _ ih => simp only [OpenableK] at ho; exact ih ho.2

theorem at_seen {t p n} (h : At t p n) (ho : Openable t) : Seen t p n := by
  induction h with
  | self t => exact .self _
  | step hc _ ih =>
    simp only [Openable] at ho
    obtain ⟨rfl, ho⟩ := ho
    exact .step hc (ih (openable_child hc ho))

/-! ### paths of a legal tree are legal -/

theorem child_ok {k n c} (h : Child k n c) (hk : KidsOk k) : NameOk n ∧ TreeOk c := by
  induction h with
  | here h1 h2 => simp only [KidsOk] at hk; exact hk.1 ⟨h1, h2⟩
  | there _ ih => simp only [KidsOk] at hk; exact ih hk.2

theorem at_nameOk {t p n} (h : At t p n) (ht : TreeOk t) : ∀ x ∈ p, NameOk x := by
  induction h with
  | self t => simp
  | step hc _ ih =>
    simp only [TreeOk] at ht
    have := child_ok hc ht.2
    intro x hx
    rcases List.mem_cons.1 hx with rfl | hx
    · exact this.1
    · exact ih this.2 x hx

/-! ### links -/

mutual
theorem spiderDir_links (g : Bytes → UInt8) : ∀ (n : FNode) (p : List Bytes) (d : PDir),
    IsDir n → TreeOk n → Openable n → (∀ x ∈ p, x ≠ []) → spiderDir g (pathText p) n = .ok d →
    ∀ q m t, (q, FNode.lnk m t) ∈ objects n → g (pathText (p ++ q)) = 0
  | .dir m o kids, p, d, _, hok, hop, hp, h => by
    simp only [Openable] at hop
    simp only [TreeOk] at hok
    simp only [spiderDir, hop.1, if_true] at h
    split at h
    · cases h
    · rename_i ds fs hk
      intro q m' t hm
      simp only [objects, List.mem_cons, Prod.mk.injEq, reduceCtorEq, and_false, false_or] at hm
      exact spiderKids_links g kids p ds fs hok.2 hop.2 hp hk q m' t hm
  | .reg _ _, _, _, hd, _, _, _, _ => by simp [IsDir] at hd
  | .lnk _ _, _, _, hd, _, _, _, _ => by simp [IsDir] at hd
  | .other _, _, _, hd, _, _, _, _ => by simp [IsDir] at hd
theorem spiderKids_links (g : Bytes → UInt8) : ∀ (k : Kids) (p : List Bytes) (ds : List PDir)
    (fs : List Ent), KidsOk k → OpenableK k → (∀ x ∈ p, x ≠ []) →
    spiderKids g (pathText p) k = .ok (ds, fs) →
    ∀ q m t, (q, FNode.lnk m t) ∈ objectsK k → g (pathText (p ++ q)) = 0
  | .nil, p, ds, fs, _, _, _, h => by simp [objectsK]
  | .cons name node rest, p, ds, fs, hok, hop, hp, h => by
    simp only [KidsOk] at hok
    simp only [OpenableK] at hop
    intro q m t hm
    by_cases hd : isDots name = true
    · simp only [spiderKids, hd, if_true] at h
      simp only [objectsK, hd, if_true] at hm
      exact spiderKids_links g rest p ds fs hok.2 hop.2 hp h q m t hm
    · have hd' := (not_isDots_iff name).1 (by simpa using hd)
      have hnm := (hok.1 hd').1
      have hj : joinRel (pathText p) name = pathText (p ++ [name]) := joinRel_pathText p name hp
      have hp' : ∀ x ∈ p ++ [name], x ≠ [] := by
        intro x hx
        rcases List.mem_append.1 hx with hx | hx
        · exact hp x hx
        · simp at hx; subst hx; exact hnm.1
      simp only [spiderKids, hd] at h
      simp only [objectsK, hd] at hm
      simp only [Bool.false_eq_true, if_false] at h hm
      unfold addKid at h
      split at h
      · cases h
      rename_i ds' fs' hr
      rcases List.mem_append.1 hm with hm | hm
      · obtain ⟨⟨q', n'⟩, hx, heq⟩ := List.mem_map.1 hm
        simp only [Prod.mk.injEq] at heq
        obtain ⟨rfl, rfl⟩ := heq
        cases node with
        | reg m' c => simp [objects] at hx
        | other m' => simp [objects] at hx
        | lnk m' t' =>
          simp only [objects, List.mem_singleton, Prod.mk.injEq] at hx
          obtain ⟨rfl, _⟩ := hx
          simp only [readTarget] at h
          split at h
          · cases h
          rename_i hz
          split at hz
          · rename_i hz0; rw [← hj]; exact hz0
          · cases hz
        | dir m' o' kids' =>
          simp only [] at h
          split at h
          · cases h
          rename_i d hdir
          rw [hj] at hdir
          have := spiderDir_links g (.dir m' o' kids') (p ++ [name]) d trivial (hok.1 hd').2
            (hop.1 hd') hp' hdir q' m t hx
          simpa using this
      · exact spiderKids_links g rest p ds' fs' hok.2 hop.2 hp hr q m t hm
end

mutual
theorem spiderDir_err (g : Bytes → UInt8) : ∀ (n : FNode) (rel : Bytes) (e : Err),
    spiderDir g rel n = .error e → e = .ub
  | .dir m o kids, rel, e, h => by
    simp only [spiderDir] at h
    split at h
    · split at h
      · rename_i e' hk
        have := Except.error.inj h; subst this
        exact spiderKids_err g kids rel _ hk
      · cases h
    · cases h
  | .reg _ _, _, _, h => by simp [spiderDir] at h
  | .lnk _ _, _, _, h => by simp [spiderDir] at h
  | .other _, _, _, h => by simp [spiderDir] at h
theorem spiderKids_err (g : Bytes → UInt8) : ∀ (k : Kids) (rel : Bytes) (e : Err),
    spiderKids g rel k = .error e → e = .ub
  | .nil, _, _, h => by simp [spiderKids] at h
  | .cons name node rest, rel, e, h => by
    simp only [spiderKids] at h
    split at h
    · exact spiderKids_err g rest rel e h
    · unfold addKid at h
      split at h
      · rename_i e' hk
        have := Except.error.inj h; subst this
        exact spiderKids_err g rest rel _ hk
      · cases node with
        | reg m c => cases h
        | other m => cases h
        | lnk m t =>
          simp only [readTarget] at h
          split at h
          · rename_i hz
            have := Except.error.inj h; subst this
            split at hz
            · cases hz
            · exact (Except.error.inj hz).symm
          · cases h
        | dir m o kids =>
          simp only [] at h
          split at h
          · rename_i hz
            have := Except.error.inj h; subst this
            exact spiderDir_err g _ _ _ hz
          · cases h
end

/-! ### parents -/

/-- `r'` is `rel` with one more component. -/
def Ext (rel r' : Bytes) : Prop := ∃ n, NameOk n ∧ r' = joinRel rel n

theorem Ext.parent {a b : Bytes} (h : Ext a b) : ParentOf a b := by
  obtain ⟨n, h1, h2⟩ := h
  refine ⟨n, h1, ?_⟩
  unfold joinRel at h2
  split at h2
  · rename_i h0; left; exact ⟨List.length_eq_zero_iff.1 h0, h2⟩
  · rename_i h0; right; exact ⟨fun hh => h0 (by simp [hh]), h2⟩

/-- Every directory below names its own contents. -/
def Good (q : PDir) : Prop :=
  (∀ s ∈ q.subs, Ext q.ent.rel s.ent.rel) ∧ (∀ f ∈ q.files, Ext q.ent.rel f.rel)

mutual
theorem spiderDir_good (g : Bytes → UInt8) : ∀ (n : FNode) (rel : Bytes) (d : PDir),
    TreeOk n → spiderDir g rel n = .ok d →
    d.ent = ⟨rel, .dir, [], 0⟩ ∧ ∀ q ∈ d.flat, Good q ∧ q.ent.kind = .dir ∧ ∀ f ∈ q.files, f.kind ≠ .dir
  | .dir m o kids, rel, d, hok, h => by
    simp only [TreeOk] at hok
    simp only [spiderDir] at h
    split at h
    · split at h
      · cases h
      · rename_i ds fs hk
        have := Except.ok.inj h; subst this
        obtain ⟨h1, h2, h3, h4⟩ := spiderKids_good g kids rel ds fs hok.2 hk
        refine ⟨rfl, ?_⟩
        intro q hq
        rw [PDir.flat_eq] at hq
        rcases List.mem_cons.1 hq with rfl | hq
        · exact ⟨⟨h1, h2⟩, rfl, h4⟩
        · exact h3 q hq
    · have := Except.ok.inj h; subst this
      simp [PDir.flat, PDir.flatL, Good, PDir.ent, PDir.subs, PDir.files]
  | .reg _ _, _, d, _, h => by
    simp only [spiderDir] at h; have := Except.ok.inj h; subst this
    simp [PDir.flat, PDir.flatL, Good, PDir.ent, PDir.subs, PDir.files]
  | .lnk _ _, _, _, _, h => by
    simp only [spiderDir] at h; have := Except.ok.inj h; subst this
    simp [PDir.flat, PDir.flatL, Good, PDir.ent, PDir.subs, PDir.files]
  | .other _, _, _, _, h => by
    simp only [spiderDir] at h; have := Except.ok.inj h; subst this
    simp [PDir.flat, PDir.flatL, Good, PDir.ent, PDir.subs, PDir.files]
theorem spiderKids_good (g : Bytes → UInt8) : ∀ (k : Kids) (rel : Bytes) (ds : List PDir)
    (fs : List Ent), KidsOk k → spiderKids g rel k = .ok (ds, fs) →
    (∀ s ∈ ds, Ext rel s.ent.rel) ∧ (∀ f ∈ fs, Ext rel f.rel) ∧
    (∀ q ∈ PDir.flatL ds, Good q ∧ q.ent.kind = .dir ∧ ∀ f ∈ q.files, f.kind ≠ .dir) ∧
    (∀ f ∈ fs, f.kind ≠ .dir)
  | .nil, rel, ds, fs, _, h => by
    simp [spiderKids] at h
    obtain ⟨rfl, rfl⟩ := h
    simp [PDir.flatL]
  | .cons name node rest, rel, ds, fs, hok, h => by
    simp only [KidsOk] at hok
    by_cases hd : isDots name = true
    · simp only [spiderKids, hd, if_true] at h
      exact spiderKids_good g rest rel ds fs hok.2 h
    · have hd' := (not_isDots_iff name).1 (by simpa using hd)
      have hnm := (hok.1 hd').1
      have hext : Ext rel (joinRel rel name) := ⟨name, hnm, rfl⟩
      simp only [spiderKids, hd] at h
      simp only [Bool.false_eq_true, if_false] at h
      unfold addKid at h
      split at h
      · cases h
      rename_i ds' fs' hr
      obtain ⟨i1, i2, i3, i4⟩ := spiderKids_good g rest rel ds' fs' hok.2 hr
      cases node with
      | reg m c =>
        have := Except.ok.inj h
        simp only [Prod.mk.injEq] at this
        obtain ⟨rfl, rfl⟩ := this
        refine ⟨i1, ?_, i3, ?_⟩
        · intro f hf
          rcases List.mem_cons.1 hf with rfl | hf
          · exact hext
          · exact i2 f hf
        · intro f hf
          rcases List.mem_cons.1 hf with rfl | hf
          · simp
          · exact i4 f hf
      | lnk m t =>
        simp only [] at h
        split at h
        · cases h
        have := Except.ok.inj h
        simp only [Prod.mk.injEq] at this
        obtain ⟨rfl, rfl⟩ := this
        refine ⟨i1, ?_, i3, ?_⟩
        · intro f hf
          rcases List.mem_cons.1 hf with rfl | hf
          · exact hext
          · exact i2 f hf
        · intro f hf
          rcases List.mem_cons.1 hf with rfl | hf
          · simp
          · exact i4 f hf
      | dir m o kids =>
        simp only [] at h
        split at h
        · cases h
        rename_i d hdir
        have := Except.ok.inj h
        simp only [Prod.mk.injEq] at this
        obtain ⟨rfl, rfl⟩ := this
        obtain ⟨j1, j2⟩ := spiderDir_good g (.dir m o kids) _ d (hok.1 hd').2 hdir
        refine ⟨?_, i2, ?_, i4⟩
        · intro s hs
          rcases List.mem_cons.1 hs with rfl | hs
          · rw [j1]; exact hext
          · exact i1 s hs
        · intro q hq
          rw [PDir.flatL] at hq
          rcases List.mem_append.1 hq with hq | hq
          · exact j2 q hq
          · exact i3 q hq
      | other m =>
        have := Except.ok.inj h
        simp only [Prod.mk.injEq] at this
        obtain ⟨rfl, rfl⟩ := this
        exact ⟨i1, i2, i3, i4⟩
end

theorem mem_bfs_flat {d q : PDir} (h : q ∈ bfsLoop [d] 0) : q ∈ d.flat := by
  have := (bfsLoop_perm [d] 0).mem_iff.1 h
  simpa [PDir.flatL] using this

end Parfu
