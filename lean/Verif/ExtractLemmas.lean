/-
Lemmas: extracting the members of a tree, directories before what they contain.
-/
import Verif.ExtractSpec
import Verif.MoveObjects
set_option autoImplicit false

namespace Parfu
open TarSpec ScanSpec MoveSpec ExtractSpec

theorem dirPart_join (d name : Bytes) (h : (47:UInt8) ∉ name) : dirPart (d ++ [47] ++ name) = d := by
  unfold dirPart
  have : (d ++ [47] ++ name).reverse = name.reverse ++ (47 :: d.reverse) := by simp
  rw [this]
  have hd : ∀ (l : Bytes) (r : Bytes), (47:UInt8) ∉ l → (l ++ 47 :: r).dropWhile (· ≠ 47) = 47 :: r := by
    intro l r hl
    induction l with
    | nil => simp
    | cons a l ih =>
      simp only [List.mem_cons, not_or] at hl
      rw [List.cons_append, List.dropWhile_cons_of_pos (by simpa using Ne.symm hl.1), ih hl.2]
  rw [hd _ _ (by simpa using h)]
  simp

theorem dirPart_plain (name : Bytes) (h : (47:UInt8) ∉ name) : dirPart name = [] := by
  unfold dirPart
  have hd : ∀ l : Bytes, (47:UInt8) ∉ l → l.dropWhile (· ≠ 47) = [] := by
    intro l hl
    induction l with
    | nil => rfl
    | cons a l ih =>
      simp only [List.mem_cons, not_or] at hl
      rw [List.dropWhile_cons_of_pos (by simpa using Ne.symm hl.1), ih hl.2]
  rw [hd _ (by simpa using h)]
  rfl

theorem bare_slash (x : Bytes) : bare (x ++ [47]) = x := by
  simp [bare]

theorem bare_plain {x : Bytes} (h : x.getLast? ≠ some 47) : bare x = x := by
  simp [bare, h]

theorem placeOf_snoc (base : Bytes) (p : List Bytes) (name : Bytes) :
    placeOf base (p ++ [name]) = placeOf base p ++ [47] ++ name := by
  unfold placeOf
  rw [if_neg (by simp)]
  induction p generalizing base with
  | nil => simp [pathText]
  | cons a r ih =>
    rw [if_neg (by simp)]
    cases r with
    | nil => simp [pathText]
    | cons b r =>
      have := ih (base ++ [47] ++ a)
      rw [if_neg (by simp)] at this
      simp only [List.cons_append, pathText, List.append_assoc] at this ⊢
      exact this

theorem placeOf_inj {base : Bytes} {p q : List Bytes} (hp : ∀ n ∈ p, NameOk n) (hq : ∀ n ∈ q, NameOk n)
    (h : placeOf base p = placeOf base q) : p = q := by
  unfold placeOf at h
  by_cases h1 : p = []
  · by_cases h2 : q = []
    · rw [h1, h2]
    · rw [if_pos h1, if_neg h2] at h
      have := congrArg List.length h
      simp at this
  · by_cases h2 : q = []
    · rw [if_neg h1, if_pos h2] at h
      have := congrArg List.length h
      simp at this
    · rw [if_neg h1, if_neg h2] at h
      exact pathText_inj hp hq (List.append_cancel_left h)

theorem bare_archived {base : Bytes} {p : List Bytes} {n : FNode} (hp : ∀ a ∈ p, NameOk a) (hn : p = [] → IsDir n) :
    bare (archivedPath base p n) = placeOf base p := by
  cases n with
  | dir m o k =>
    unfold archivedPath placeOf
    by_cases h : p = []
    · rw [if_pos h, if_pos h, bare_slash]
    · rw [if_neg h, if_neg h, bare_slash]
  | _ =>
    have hne : p ≠ [] := fun h => by simpa [IsDir] using hn h
    show bare (base ++ [47] ++ pathText p) = _
    unfold placeOf
    rw [if_neg hne]
    apply bare_plain
    rw [List.getLast?_append_of_ne_nil]
    · obtain ⟨c, h1, h2⟩ := pathText_last hp hne
      rw [h1]
      simpa using h2
    · exact pathText_ne_nil (fun a ha => (hp a ha).1) hne

theorem memberObj_memberOf {env : Env} {base : Bytes} {p : List Bytes} {n : FNode} {m : Member}
    (h : memberOf env base p n = some m) : memberObj m = objOf n ∧ m.path = archivedPath base p n := by
  unfold memberOf at h
  cases n <;> simp only [] at h
  case other => cases h
  all_goals
    split at h
    · simp only [Option.some.injEq] at h; subst h; exact ⟨by simp [memberObj, objOf], rfl⟩
    · cases h

/-- What has been extracted when the objects `done` have been, and perhaps files of the names `N`. -/
structure Extracted (base : Bytes) (N : List Bytes) (done : List (List Bytes × FNode)) (w : World) : Prop where
  objs : ∀ x ∈ done, w (placeOf base x.1) = objOf x.2
  only : ∀ x o, w x = some o → (∃ d ∈ done, x = placeOf base d.1) ∨ (x ∈ N ∧ o.kind = .file)

theorem isDir_obj {n : FNode} (h : IsDir n) : ∃ o, objOf n = some o ∧ o.kind = .dir := by
  cases n <;> simp [IsDir] at h
  exact ⟨_, rfl, rfl⟩

/-- Extracting objects, directories first, and files of other names in between. -/
theorem extract_ok {env : Env} {base : Bytes} {here : Bytes → Bool} {N : List Bytes} {own : Member → Bool}
    (hN : ∀ x ∈ N, (47:UInt8) ∉ x ∧ ∀ p, placeOf base p ≠ x) (hbase : here (dirPart base) = true)
    (hcwd : N ≠ [] → here [] = true) (hown : ∀ m, own m = true → m.flag = 48 ∧ m.path ∈ N) :
    ∀ (all : List Member) (objs done : List (List Bytes × FNode)) (w : World),
      List.Forall₂ (fun m o => memberOf env base o.1 o.2 = some m) (all.filter fun m => !own m) objs →
      ((done ++ objs).map Prod.fst).Nodup →
      (∀ x ∈ done ++ objs, (∀ a ∈ x.1, NameOk a) ∧ (x.1 = [] → IsDir x.2)) →
      (∀ pre x post, done ++ objs = pre ++ x :: post → x.1 ≠ [] → ∃ y ∈ pre, IsDir y.2 ∧ ∃ name, x.1 = y.1 ++ [name]) →
      Extracted base N done w → ∃ w', extract here w all = some w' ∧ Extracted base N (done ++ objs) w' := by
  intro all
  induction all with
  | nil =>
    intro objs done w hf _ _ _ he
    cases hf
    exact ⟨w, rfl, by simpa using he⟩
  | cons m all ih =>
    intro objs done w hf hnd hok hpar he
    by_cases ho : own m = true
    · -- one of the other files
      obtain ⟨hfl, hpN⟩ := hown m ho
      obtain ⟨h47, hpl⟩ := hN _ hpN
      have hbare : bare m.path = m.path := by
        apply bare_plain
        intro hl
        exact h47 (List.mem_of_getLast? hl)
      have hstep : ∃ o : Obj, o.kind = .file ∧ extractOne here w m = some (fun x => if x = m.path then some o else w x) := by
        refine ⟨⟨.file, m.mode, m.uid, m.gid, m.mtime, m.data⟩, rfl, ?_⟩
        unfold extractOne
        simp only [hbare, dirPart_plain _ h47]
        rw [if_pos (Or.inl (hcwd (List.ne_nil_of_mem hpN)))]
        have hm : memberObj m = some ⟨.file, m.mode, m.uid, m.gid, m.mtime, m.data⟩ := by unfold memberObj; rw [if_pos hfl]
        rw [hm]
        simp only []
        cases hw : w m.path with
        | none => rfl
        | some old =>
          rcases he.only _ _ hw with ⟨d, _, hd⟩ | ⟨_, hk⟩
          · exact absurd hd.symm (hpl _)
          · simp only []; rw [if_pos ⟨hk, trivial⟩]
      obtain ⟨o, hok1, hst⟩ := hstep
      rw [List.filter_cons_of_neg (by simp [ho])] at hf
      obtain ⟨w', h1, h2⟩ := ih objs done (fun x => if x = m.path then some o else w x) hf hnd hok hpar (by
        constructor
        · intro x hx
          rw [if_neg (hpl _)]
          exact he.objs x hx
        · intro x o' hx
          split at hx
          · rename_i hxe
            simp only [Option.some.injEq] at hx
            subst hx
            exact Or.inr ⟨hxe ▸ hpN, hok1⟩
          · exact he.only x o' hx)
      refine ⟨w', ?_, h2⟩
      unfold extract
      rw [hst]
      exact h1
    · rw [List.filter_cons_of_pos (by simpa using ho)] at hf
      cases hf with
      | @cons _ x _ objs hmx hf =>
        obtain ⟨hobj, hpath⟩ := memberObj_memberOf hmx
        obtain ⟨hnames, hroot⟩ := hok x (by simp)
        have hb : bare m.path = placeOf base x.1 := by rw [hpath]; exact bare_archived hnames hroot
        -- the place is free
        have hfree : w (placeOf base x.1) = none := by
          cases hw : w (placeOf base x.1) with
          | none => rfl
          | some o =>
            exfalso
            rcases he.only _ _ hw with ⟨d, hd, hpe⟩ | ⟨hin, _⟩
            · have heq := placeOf_inj hnames (hok d (by simp [hd])).1 hpe
              rw [List.map_append, List.map_cons] at hnd
              have := (List.nodup_append.1 hnd).2.2 d.1 (List.mem_map_of_mem hd) x.1 (by simp)
              exact this heq.symm
            · exact (hN _ hin).2 _ rfl
        -- its directory is there
        have hparent : here (dirPart (placeOf base x.1)) = true ∨ (w (dirPart (placeOf base x.1))).any (fun o => o.kind = .dir) := by
          by_cases hx0 : x.1 = []
          · left; rw [hx0]; simpa [placeOf] using hbase
          · right
            obtain ⟨y, hy, hyd, name, hname⟩ := hpar done x objs rfl hx0
            rw [hname, placeOf_snoc, dirPart_join _ _ ((hnames name (by simp [hname])).2.1), he.objs y hy]
            obtain ⟨o, ho1, ho2⟩ := isDir_obj hyd
            rw [ho1]
            simp [ho2]
        obtain ⟨o, hoo⟩ : ∃ o, objOf x.2 = some o := by
          rcases x with ⟨p, n⟩
          cases n <;> simp [objOf]
          simp [memberOf] at hmx
        have hst : extractOne here w m = some (fun z => if z = placeOf base x.1 then some o else w z) := by
          unfold extractOne
          simp only [hb]
          rw [if_pos hparent, hobj, hoo]
          simp only [hfree]
        obtain ⟨w', h1, h2⟩ := ih objs (done ++ [x]) (fun z => if z = placeOf base x.1 then some o else w z)
          hf (by simpa using hnd) (by simpa using hok) (by simpa using hpar) (by
          constructor
          · intro y hy
            rcases List.mem_append.1 hy with hy | hy
            · rw [if_neg]
              · exact he.objs y hy
              · intro hpe
                have heq := placeOf_inj (hok y (by simp [hy])).1 hnames hpe
                rw [List.map_append, List.map_cons] at hnd
                exact (List.nodup_append.1 hnd).2.2 y.1 (List.mem_map_of_mem hy) x.1 (by simp) heq
            · simp only [List.mem_singleton] at hy
              subst hy
              rw [if_pos rfl, hoo]
          · intro z o' hz
            split at hz
            · rename_i hze
              exact Or.inl ⟨x, by simp, hze⟩
            · rcases he.only z o' hz with ⟨d, hd, hde⟩ | h
              · exact Or.inl ⟨d, by simp [hd], hde⟩
              · exact Or.inr h)
        refine ⟨w', ?_, by simpa using h2⟩
        unfold extract
        rw [hst]
        exact h1

end Parfu
