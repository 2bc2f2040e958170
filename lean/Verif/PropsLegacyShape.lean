/-
C77: the tree keeps its shape between the scan and the copying (parfu 0.5.1).
-/
import Verif.PropsLegacyChange
import Verif.PropsLegacyDemo
set_option autoImplicit false
namespace Parfu.Props
open Parfu ScanSpec LegacyScanSpec MoveSpec TarSpec LegacyRunSpec SplitSpec

theorem addListing_shape (d d' : QDir) (hr : d.rel = d'.rel) (ha : d.arc = d'.arc) : ∀ (k k' : Kids) (l : FList), SameKids k k' →
    addListing d l k = addListing d' l k'
  | .nil, .nil, _, _ => rfl
  | .nil, .cons .., _, h | .cons .., .nil, _, h => False.elim h
  | .cons n c r, .cons n' c' r', l, h => by
    obtain ⟨rfl, h1, h2⟩ := h
    have hf : ∀ l, addFound l (legJoin d.rel n) (joinRel d.arc n) c = addFound l (legJoin d'.rel n) (joinRel d'.arc n) c' := by
      intro l
      rw [hr, ha]
      cases c <;> cases c' <;> simp only [SameShape] at h1 <;> try exact h1.elim
      · simp only [addFound, h1]
      · subst h1; rfl
      · rfl
      · rfl
    unfold addListing
    rw [hf]
    split
    · exact addListing_shape d d' hr ha r r' l h2
    · split
      · rfl
      · exact addListing_shape d d' hr ha r r' _ h2

/-- Two directories to visit, of the same name and shape. -/
def SameQ (a b : QDir) : Prop := a.rel = b.rel ∧ a.arc = b.arc ∧ SameShape a.node b.node

theorem subDirs_shape (d d' : QDir) (hr : d.rel = d'.rel) (ha : d.arc = d'.arc) : ∀ (k k' : Kids), SameKids k k' →
    List.Forall₂ SameQ (subDirs d k) (subDirs d' k')
  | .nil, .nil, _ => .nil
  | .nil, .cons .., h | .cons .., .nil, h => False.elim h
  | .cons n c r, .cons n' c' r', h => by
    obtain ⟨rfl, h1, h2⟩ := h
    have ih := subDirs_shape d d' hr ha r r' h2
    unfold subDirs
    split
    · exact ih
    · cases c <;> cases c' <;> simp only [SameShape] at h1 <;> try exact h1.elim
      · exact ih
      · exact ih
      · exact .cons ⟨by simp only [hr], by simp only [ha], h1⟩ ih
      · exact ih

theorem scanQueue_shape (l : FList) (q : List QDir) : ∀ q', List.Forall₂ SameQ q q' → scanQueue l q = scanQueue l q' := by
  fun_induction scanQueue l q with
  | case1 l => intro q' h; cases h; rw [scanQueue.eq_def]
  | case2 l rel arc m kids rest e he => 
    intro q' h
    cases h with
    | cons hd ht =>
      rename_i d' rest'
      obtain ⟨rel', arc', node'⟩ := d'
      obtain ⟨h1, h2, h3⟩ := hd
      simp only [] at h1 h2 h3
      subst h1 h2
      cases node' <;> simp only [SameShape] at h3
      rename_i m' o' kids'
      obtain ⟨rfl, h3⟩ := h3
      rw [scanQueue.eq_def]
      simp only []
      rw [← addListing_shape ⟨rel, arc, .dir m true kids⟩ ⟨rel, arc, .dir m' true kids'⟩ rfl rfl kids kids' l h3, he]
  | case3 l rel arc m kids rest l' hl ih =>
    intro q' h
    cases h with
    | cons hd ht =>
      rename_i d' rest'
      obtain ⟨rel', arc', node'⟩ := d'
      obtain ⟨h1, h2, h3⟩ := hd
      simp only [] at h1 h2 h3
      subst h1 h2
      cases node' <;> simp only [SameShape] at h3
      rename_i m' o' kids'
      obtain ⟨rfl, h3⟩ := h3
      conv => rhs; rw [scanQueue.eq_def]
      simp only []
      rw [← addListing_shape ⟨rel, arc, .dir m true kids⟩ ⟨rel, arc, .dir m' true kids'⟩ rfl rfl kids kids' l h3, hl]
      exact ih _ (List.rel_append ht (subDirs_shape ⟨rel, arc, .dir m true kids⟩ ⟨rel, arc, .dir m' true kids'⟩ rfl rfl kids kids' h3))
  | case4 l d rest hno =>
    intro q' h
    cases h with
    | cons hd ht =>
      rename_i d' rest'
      obtain ⟨rel', arc', node'⟩ := d'
      obtain ⟨rel, arc, node⟩ := d
      obtain ⟨h1, h2, h3⟩ := hd
      simp only [] at h1 h2 h3
      subst h1 h2
      rw [scanQueue.eq_def]
      cases node <;> cases node' <;> simp only [SameShape] at h3 <;> try exact h3.elim
      · rfl
      · rfl
      · rename_i m o k m' o' k'
        obtain ⟨rfl, h3⟩ := h3
        cases o
        · rfl
        · exact (hno rel arc m k rfl).elim
      · rfl

/-- The scan does not see the difference. -/
theorem legacyScan_shape (top : Bytes) (seen : Option FNode) (n n' : FNode) (h : SameShape n n') :
    legacyScan top seen n = legacyScan top seen n' := by
  unfold legacyScan
  split
  · rfl
  · rfl
  split
  · split
    · rfl
    · exact scanQueue_shape _ _ _ (.cons ⟨rfl, rfl, h⟩ .nil)
  · rfl

/-- **C77 (partial)** If the tree has the same shape (names, listings, kinds, sizes, link targets) at the time of
the copying as it had at the time of the scan, the archive of a successful run holds the tree as it is at
the time of the copying: contents, permissions, owners and times.
Missing: changes of other kinds (`C77_same_blocks_partial`, `C77_grown_file_hides_others`), and what
`C46_archive_partial` needs. -/
theorem C77_same_shape_partial (L : LegEnv) (Q : QSort Frag) (nul top : Bytes) (scanned now : FNode) (hp : Platform L nul)
    (hsh : SameShape scanned now) (ha : LegArchivable L.env L.fs top now)
    (seen : Option FNode) (hseen : DirOrLink seen) (n : Nat) (hn : 0 < n) (front : List WriteReq) (wss : List (List WriteReq))
    (h : legacyMain L Q nul top seen scanned n = .ok (some (front, wss)))
    (hgap : ∀ cat, (512, cat) ∈ front → (cat.length + 1024) % 4194304 ≠ 0)
    (ws : List WriteReq) (hws : ws.Perm (front ++ wss.flatten)) (old : Bytes) :
    ∃ cat all, readArchive (ws.foldl writeAt old) = some (cat :: all) ∧ terminated (ws.foldl writeAt old) = true ∧
      cat.path = catalogName ∧ MembersOf L.env top now (all.filter fun m => !ownMember m) := by
  have heq : legacyMain L Q nul top seen scanned n = legacyMain L Q nul top seen now n := by
    unfold legacyMain
    rw [legacyScan_shape top seen scanned now hsh]
  rw [heq] at h
  obtain ⟨cat, all, h1, h2, h3, _, _, h4, _⟩ := C46_archive_partial L Q nul top now hp ha seen hseen n hn front wss h hgap ws hws old
  exact ⟨cat, all, h1, h2, h3, h4⟩

/-- The demonstration tree as it was when it was scanned: other contents, owners and times. -/
def legBefore : FNode :=
  .dir ⟨493, 7, 7, 99⟩ true
    (.cons [46] (.other ⟨0, 0, 0, 0⟩) <| .cons [46, 46] (.other ⟨0, 0, 0, 0⟩) <|
     .cons [46, 97] (.reg ⟨0, 0, 0, 0⟩ [8]) <| .cons [97] (.reg ⟨420, 5, 5, 12⟩ [9, 9]) <|
     .cons [98] (.dir ⟨0, 0, 0, 0⟩ true (.cons [99] (.lnk ⟨0, 0, 0, 3⟩ [120]) .nil)) .nil)

theorem legBefore_same : SameShape legBefore legDemo := by
  simp [legBefore, legDemo, SameShape, SameKids]

example (Q : QSort Frag) : ∃ front wss, legacyMain legEnv Q glibcNull [100] (some legBefore) legBefore 5 = .ok (some (front, wss)) ∧
    ∀ (ws : List WriteReq) (old : Bytes), ws.Perm (front ++ wss.flatten) →
      ∃ cat all, readArchive (ws.foldl writeAt old) = some (cat :: all) ∧
        MembersOf demoEnv2 [100] legDemo (all.filter fun m => !ownMember m) := by
  obtain ⟨front, wss, h, hgap, _⟩ := leg_demo_run Q
  have heq : legacyMain legEnv Q glibcNull [100] (some legBefore) legBefore 5 =
      legacyMain legEnv Q glibcNull [100] (some legDemo) legDemo 5 := by
    unfold legacyMain
    rw [legacyScan_shape [100] (some legBefore) legBefore legDemo legBefore_same]
    rfl
  rw [← heq] at h
  refine ⟨front, wss, h, ?_⟩
  intro ws old hws
  obtain ⟨cat, all, h1, _, _, h4⟩ := C77_same_shape_partial legEnv Q glibcNull [100] legBefore legDemo leg_platform legBefore_same leg_archivable
    (some legBefore) trivial 5 (by omega) front wss h hgap ws hws old
  exact ⟨cat, all, h1, h4⟩

end Parfu.Props
