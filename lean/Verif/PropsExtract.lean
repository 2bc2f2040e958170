/-
Property theorems C53, C54: extracting an archive gives the tree back.
-/
import Verif.ExtractLemmas
import Verif.PropsRun
import Verif.PropsLegacyDemo
set_option autoImplicit false

namespace Parfu.Props
open Parfu MoveSpec TarSpec ScanSpec PlanSpec ProtocolSpec LegacyScanSpec LegacyRunSpec ExtractSpec

/-- `w` is the tree whose objects are those of `Sel`, put at `base`, together with nothing but files
named in `N`. -/
def IsTree (base : Bytes) (Sel : List Bytes → FNode → Prop) (N : List Bytes) (w : World) : Prop :=
  (∀ p n, Sel p n → w (placeOf base p) = objOf n) ∧
  (∀ x o, w x = some o → (∃ p n, Sel p n ∧ x = placeOf base p) ∨ (x ∈ N ∧ o.kind = .file))

theorem seen_functional {root : FNode} (hok : TreeOk root) {p : List Bytes} {n n' : FNode}
    (h : Seen root p n) (h' : Seen root p n') : n = n' := at_functional hok (seen_at h) (seen_at h')

theorem isTree_of {base : Bytes} {Sel : List Bytes → FNode → Prop} {N : List Bytes} {w : World}
    {objs : List (List Bytes × FNode)} (hN : ∀ x ∈ N, ∀ p, placeOf base p ≠ x)
    (hsel : ∀ p n, Sel p n → ∀ a ∈ p, NameOk a) (hfun : ∀ p n n', Sel p n → Sel p n' → n = n')
    (hobjs : ∀ p n, (p, n) ∈ objs ↔ Sel p n ∧ describe p n ≠ none) (he : Extracted base N objs w) :
    IsTree base Sel N w := by
  constructor
  · intro p n hs
    by_cases hd : describe p n = none
    · have ho : objOf n = none := by
        cases n <;> first | rfl | (simp [describe] at hd)
      rw [ho]
      cases hw : w (placeOf base p) with
      | none => rfl
      | some o =>
        exfalso
        rcases he.only _ _ hw with ⟨d, hd', hpe⟩ | ⟨hin, _⟩
        · rcases d with ⟨q, k⟩
          obtain ⟨hs', hd''⟩ := (hobjs q k).1 hd'
          have := placeOf_inj (hsel _ _ hs) (hsel _ _ hs') hpe
          subst this
          rw [hfun _ _ _ hs hs'] at hd
          exact hd'' hd
        · exact hN _ hin _ rfl
    · exact he.objs (p, n) ((hobjs p n).2 ⟨hs, hd⟩)
  · intro x o hw
    rcases he.only _ _ hw with ⟨⟨q, k⟩, hd', hpe⟩ | h
    · exact Or.inl ⟨q, k, ((hobjs q k).1 hd').1, hpe⟩
    · exact Or.inr h

section
variable {cfg : Cfg} {base : Bytes} {root : FNode} {S : StdSort Ref} {g : Bytes → UInt8}
  {b mx : Nat} {c : Coll} {bundles : List (List Order)} {archive : Bytes} {eager : Bool}
  {file0 : Option Bytes} {tr : List Ev} {s : Sys}

/-- **C53** The archive of every successful run, extracted by a tar program in a place where nothing is
in the way, gives back the tree that was archived, and nothing else: every object that could be
reached, with type, contents or target, permissions, owner and time, at its old place in the tree. -/
theorem C53_extract_round_trip (j : Job cfg.env cfg.fs base root S g b mx c bundles)
    (hl : Launchable cfg b archive)
    (h : CreateRun cfg eager b archive base (bundles.map printBundle) file0 tr s) (hb : s.boss = .exit 0)
    (here : Bytes → Bool) (hhere : here (dirPart base) = true) :
    ∃ A ms w, s.file = some A ∧ readArchive A = some ms ∧ extract here (fun _ => none) ms = some w ∧
      IsTree base (Seen root) [] w := by
  obtain ⟨A, ms, objs, h1, h2, h3, h4, h5, h6⟩ := C19_every_successful_run j hl h hb
  have hroot : ([], root) ∈ objs := by
    refine (h5 _ _).2 ⟨.self _, ?_⟩
    have := j.tree.isDir
    cases root <;> simp [IsDir] at this
    simp [describe]
  have hf : List.Forall₂ (fun m o => memberOf cfg.env base o.1 o.2 = some m) (ms.filter fun m => !(fun _ => false) m) objs := by
    have : (ms.filter fun m => !(fun _ : Member => false) m) = ms := by simp
    rw [this]
    clear h2 this h6 h4 h5 hroot
    induction ms generalizing objs with
    | nil => cases objs with
      | nil => exact .nil
      | cons => simp at h3
    | cons m ms ih => cases objs with
      | nil => simp at h3
      | cons o objs =>
        simp only [List.map_cons, List.cons.injEq] at h3
        exact .cons h3.1.symm (ih _ h3.2)
  obtain ⟨w, hw, he⟩ := extract_ok (N := []) (own := fun _ => false) (here := here) (by simp) hhere (by simp) (by simp) ms objs [] (fun _ => none) hf
    (by simpa using h4) (by
      rintro ⟨p, n⟩ hx
      simp only [List.nil_append] at hx
      obtain ⟨hs, _⟩ := (h5 p n).1 hx
      refine ⟨at_nameOk (seen_at hs) j.tree.treeOk, ?_⟩
      intro hp
      simp only [] at hp
      subst hp
      rw [seen_functional j.tree.treeOk hs (.self _)]
      exact j.tree.isDir) (by
      intro pre x post hx hne
      simp only [List.nil_append] at hx
      refine h6 pre x post hx ?_
      rintro rfl
      rw [hx] at hroot
      simp only [List.nil_append, List.mem_cons] at hroot
      rcases hroot with rfl | hroot
      · exact hne rfl
      · obtain ⟨q, r, rfl⟩ := List.append_of_mem hroot
        obtain ⟨y, _, _, name, hn⟩ := h6 (x :: q) _ r hx (by simp)
        simp at hn) ⟨by simp, by simp⟩
  exact ⟨A, ms, w, h1, h2, hw, isTree_of (by simp) (fun p n hs => at_nameOk (seen_at hs) j.tree.treeOk)
    (fun p n n' a a' => seen_functional j.tree.treeOk a a') h5 (by simpa using he)⟩
end

theorem at_snoc {root : FNode} {p : List Bytes} {name : Bytes} {n : FNode} (h : At root (p ++ [name]) n) :
    ∃ d, At root p d ∧ IsDir d := by
  induction p generalizing root with
  | nil =>
    cases h with
    | step hc h' => exact ⟨_, .self _, trivial⟩
  | cons a p ih =>
    cases h with
    | step hc h' =>
      obtain ⟨d, h1, h2⟩ := ih h'
      exact ⟨d, .step hc h1, h2⟩

/-- **C54** The archive of every run of parfu 0.5.1 that succeeds (without a catalog of the one unlucky
length), extracted by a tar program in a place where nothing is in the way, gives back the part of
the tree without dot-names, plus nothing but the files ".parfu_catalog" and ".parfu_spacer ". -/
theorem C54_legacy_extract_partial (L : LegEnv) (Q : QSort Frag) (nul top : Bytes) (root : FNode) (hp : Platform L nul)
    (ha : LegArchivable L.env L.fs top root) (seen : Option FNode) (hseen : DirOrLink seen) (n : Nat) (hn : 0 < n)
    (front : List WriteReq) (wss : List (List WriteReq))
    (h : legacyMain L Q nul top seen root n = .ok (some (front, wss)))
    (hgap : ∀ cat, (512, cat) ∈ front → (cat.length + 1024) % 4194304 ≠ 0)
    (hname : baseOf top ∉ [catalogName, spacerName])
    (here : Bytes → Bool) (hhere : here (dirPart (baseOf top)) = true) (hcwd : here [] = true)
    (ws : List WriteReq) (hws : ws.Perm (front ++ wss.flatten)) (old : Bytes) :
    ∃ ms w, readArchive (ws.foldl writeAt old) = some ms ∧ extract here (fun _ => none) ms = some w ∧
      IsTree (baseOf top) (Visible root) [catalogName, spacerName] w := by
  obtain ⟨cat, all, h1, _, h2, h3, _, ⟨h4, h5⟩, h6⟩ := C46_archive_partial L Q nul top root hp ha seen hseen n hn front wss h hgap ws hws old
  have hcat : ownMember cat = true := by
    unfold ownMember
    simp only [decide_eq_true_eq]
    exact ⟨h3, Or.inl h2⟩
  -- one object for each member
  have hex : ∀ ms : List Member, (∀ m ∈ ms, ∃ p k, Visible root p k ∧ memberOf L.env (baseOf top) p k = some m) →
      ∃ objs : List (List Bytes × FNode), List.Forall₂ (fun m o => memberOf L.env (baseOf top) o.1 o.2 = some m) ms objs ∧
        ∀ o ∈ objs, Visible root o.1 o.2 := by
    intro ms
    induction ms with
    | nil => intro _; exact ⟨[], .nil, by simp⟩
    | cons m ms ih =>
      intro hm
      obtain ⟨objs, i1, i2⟩ := ih (fun m hm' => hm m (by simp [hm']))
      obtain ⟨p, k, j1, j2⟩ := hm m (by simp)
      exact ⟨(p, k) :: objs, .cons j2 i1, List.forall_mem_cons.2 ⟨j1, i2⟩⟩
  obtain ⟨objs, hf, hvis⟩ := hex _ (fun m hm => (h4 m).1 hm)
  have hvf : ∀ p k k', Visible root p k → Visible root p k' → k = k' := fun p k k' a a' => at_functional ha.treeOk a.1 a'.1
  have hvn : ∀ p k, Visible root p k → ∀ a ∈ p, NameOk a := fun p k a => at_nameOk a.1 ha.treeOk
  have hpathOf : ∀ (m : Member) (o : List Bytes × FNode), memberOf L.env (baseOf top) o.1 o.2 = some m → m.path = archivedPath (baseOf top) o.1 o.2 :=
    fun m o hm => (memberObj_memberOf hm).2
  -- paths differ
  have hnd : ∀ (ms : List Member) (objs : List (List Bytes × FNode)),
      List.Forall₂ (fun m o => memberOf L.env (baseOf top) o.1 o.2 = some m) ms objs →
      (∀ o ∈ objs, Visible root o.1 o.2) → (ms.map Member.path).Nodup → (objs.map Prod.fst).Nodup := by
    intro ms objs hf
    induction hf with
    | nil => intro _ _; simp
    | @cons m o ms objs hm hf ih =>
      intro hv hnd
      simp only [List.map_cons, List.nodup_cons] at hnd ⊢
      refine ⟨?_, ih (fun o ho => hv o (by simp [ho])) hnd.2⟩
      intro hin
      obtain ⟨o', ho', hoe⟩ := List.mem_map.1 hin
      have : o' = o := Prod.ext hoe (hvf _ _ _ (hoe ▸ hv o' (by simp [ho'])) (hv o (by simp)))
      subst this
      apply hnd.1
      obtain ⟨i, hi, rfl⟩ := List.mem_iff_getElem.1 ho'
      have hl := hf.length_eq
      have := hf.get (i := i) (by omega) hi
      simp only [List.get_eq_getElem] at this
      rw [List.mem_map]
      refine ⟨ms[i], List.getElem_mem _, ?_⟩
      rw [hpathOf _ _ this, hpathOf _ _ hm]
  have hobjs : ∀ p k, (p, k) ∈ objs ↔ Visible root p k ∧ describe p k ≠ none := by
    intro p k
    constructor
    · intro hin
      obtain ⟨i, hi, hie⟩ := List.mem_iff_getElem.1 hin
      have := hf.get (i := i) (by rw [hf.length_eq]; exact hi) hi
      simp only [List.get_eq_getElem, hie] at this
      refine ⟨hvis _ hin, ?_⟩
      cases k <;> simp [describe]
      simp [memberOf] at this
    · rintro ⟨hv, hd⟩
      obtain ⟨-, -, -, -, ⟨u, hu, -⟩, ⟨gr, hg, -⟩⟩ := ha.owners p k hv hd
      have : ∃ m, memberOf L.env (baseOf top) p k = some m := by
        unfold memberOf
        cases k <;> simp only [metaOf] at hu hg
        case other => simp [describe] at hd
        all_goals
          simp only [hu, hg]
          exact ⟨_, rfl⟩
      obtain ⟨m, hm⟩ := this
      have hin := (h4 m).2 ⟨p, k, hv, hm⟩
      obtain ⟨i, hi, hie⟩ := List.mem_iff_getElem.1 hin
      have hi' : i < objs.length := by rw [← hf.length_eq]; exact hi
      have := hf.get (i := i) hi hi'
      simp only [List.get_eq_getElem, hie] at this
      have hpe : placeOf (baseOf top) p = placeOf (baseOf top) objs[i].1 := by
        have hr : ∀ q k, Visible root q k → q = [] → IsDir k := by
          rintro q k hq rfl
          rw [hvf _ _ _ hq ⟨.self root, by simp [NoHidden]⟩]
          exact ha.isDir
        have e1 := bare_archived (base := baseOf top) (hvn _ _ hv) (hr _ _ hv)
        have hv' := hvis objs[i] (List.getElem_mem _)
        have e2 := bare_archived (base := baseOf top) (hvn _ _ hv') (hr _ _ hv')
        rw [← e1, ← e2, ← hpathOf _ (p, k) hm, ← hpathOf _ _ this]
      have hp' := placeOf_inj (hvn _ _ hv) (hvn _ _ (hvis objs[i] (List.getElem_mem _))) hpe
      have hk := hvf _ _ _ (hp' ▸ hv) (hvis objs[i] (List.getElem_mem _))
      have : (p, k) = objs[i] := Prod.ext hp' hk
      rw [this]
      exact List.getElem_mem _
  have hNp : ∀ x ∈ [catalogName, spacerName], (47:UInt8) ∉ x ∧ ∀ p, placeOf (baseOf top) p ≠ x := by
    intro x hx
    have h47 : (47:UInt8) ∉ x := by
      simp only [List.mem_cons, List.not_mem_nil, or_false] at hx
      rcases hx with rfl | rfl <;> decide
    refine ⟨h47, ?_⟩
    intro p hpx
    unfold placeOf at hpx
    split at hpx
    · exact hname (hpx ▸ hx)
    · exact h47 (hpx ▸ by simp)
  have hrootV : Visible root [] root := ⟨.self root, by simp [NoHidden]⟩
  obtain ⟨w, hw, he⟩ := extract_ok (env := L.env) (base := baseOf top) (N := [catalogName, spacerName]) (own := ownMember) (here := here)
    hNp hhere (fun _ => hcwd) (by
      intro m hm
      unfold ownMember at hm
      simp only [decide_eq_true_eq] at hm
      refine ⟨hm.1, ?_⟩
      rcases hm.2 with hm | hm <;> rw [hm] <;> simp [catalogName, spacerName]) (cat :: all) objs [] (fun _ => none)
    (by rw [List.filter_cons_of_neg (by simp [hcat])]; exact hf) (by simpa using hnd _ _ hf hvis h5) (by
      rintro ⟨p, k⟩ hx
      simp only [List.nil_append] at hx
      have hv := hvis _ hx
      refine ⟨hvn _ _ hv, ?_⟩
      intro hp
      simp only [] at hp
      subst hp
      rw [hvf _ _ _ hv hrootV]
      exact ha.isDir) (by
      rintro pre ⟨p, k⟩ post hx hne
      simp only [List.nil_append] at hx
      simp only [] at hne
      obtain ⟨q, name, rfl⟩ : ∃ q name, p = q ++ [name] := ⟨p.dropLast, p.getLast hne, (List.dropLast_append_getLast hne).symm⟩
      have hv := hvis (q ++ [name], k) (by rw [hx]; simp)
      obtain ⟨d, hd1, hd2⟩ := at_snoc hv.1
      have hdv : Visible root q d := ⟨hd1, fun x hx' => hv.2 x (by simp [hx'])⟩
      have hin : (q, d) ∈ objs := (hobjs q d).2 ⟨hdv, by cases d <;> simp [IsDir] at hd2; simp [describe]⟩
      rw [hx] at hin hf
      rcases List.mem_append.1 hin with hin | hin
      · exact ⟨_, hin, hd2, name, rfl⟩
      · exfalso
        rcases List.mem_cons.1 hin with hin | hin
        · have := congrArg (fun z => z.1.length) hin
          simp at this
        · obtain ⟨i, hi, hie⟩ := List.mem_iff_getElem.1 hin
          have hl := hf.length_eq
          simp only [List.length_append, List.length_cons] at hl
          have e1 := hf.get (i := pre.length) (by omega) (by simp)
          have e2 := hf.get (i := pre.length + 1 + i) (by omega) (by simp; omega)
          simp only [List.get_eq_getElem] at e1 e2
          have g1 : (pre ++ (q ++ [name], k) :: post)[pre.length]'(by simp) = (q ++ [name], k) := by simp
          have g2 : (pre ++ (q ++ [name], k) :: post)[pre.length + 1 + i]'(by simp; omega) = (q, d) := by
            rw [List.getElem_append_right (by omega)]
            simp only [show pre.length + 1 + i - pre.length = i + 1 by omega, List.getElem_cons_succ]
            exact hie
          rw [g1] at e1
          rw [g2] at e2
          have := List.pairwise_iff_getElem.1 h6 pre.length (pre.length + 1 + i) (by omega) (by omega) (by omega)
          apply this
          have p1 := hpathOf _ _ e1
          have p2 := hpathOf _ _ e2
          rw [p1, p2]
          obtain ⟨m, o, kk, rfl⟩ : ∃ m o kk, d = .dir m o kk := by
            cases d <;> simp [IsDir] at hd2
            exact ⟨_, _, _, rfl⟩
          constructor
          · simp only [memberOf] at e2
            split at e2
            · simp only [Option.some.injEq] at e2
              rw [← e2]
            · cases e2
          · have hq : archivedPath (baseOf top) q (.dir m o kk) = placeOf (baseOf top) q ++ [47] := by
              show (if q = [] then _ else _) = _
              unfold placeOf
              by_cases hq0 : q = []
              · rw [if_pos hq0, if_pos hq0]
              · rw [if_neg hq0, if_neg hq0]
            have hqn : placeOf (baseOf top) (q ++ [name]) <+: archivedPath (baseOf top) (q ++ [name]) k := by
              unfold archivedPath placeOf
              cases k <;> simp
            simp only []
            rw [hq]
            rw [placeOf_snoc] at hqn
            exact (List.prefix_append _ _).trans hqn) ⟨by simp, by simp⟩
  exact ⟨cat :: all, w, h1, hw, isTree_of (fun x hx => (hNp x hx).2) hvn hvf hobjs (by simpa using he)⟩

/-! ### concrete runs -/

/-- Three processes archive the example tree; what is extracted in the directory `/` has the file
`b` with its three bytes. -/
example : ∃ tr s A ms w, CreateRun demoCfg true 102400 [97] demoBase (demoBundles.map printBundle) none tr s ∧
    s.file = some A ∧ readArchive A = some ms ∧ extract (fun x => x = dirPart demoBase) (fun _ => none) ms = some w ∧
    w (demoBase ++ [47, 98]) = some ⟨.file, 420, 0, 0, 0, [1, 2, 3]⟩ := by
  obtain ⟨_, _, tr, s, h, hf⟩ := C19_runs_succeed demo_job' demo_launchable (by decide) rfl Run.nil
  rw [List.nil_append] at h
  obtain ⟨A, ms, w, h1, h2, h3, h4, _⟩ := C53_extract_round_trip demo_job' demo_launchable h hf.1 (fun x => x = dirPart demoBase) (by simp)
  refine ⟨tr, s, A, ms, w, h, h1, h2, h3, ?_⟩
  have := h4 [[98]] (.reg ⟨420, 0, 0, 0⟩ [1, 2, 3]) (.step (.there (.there (.here (by decide) (by decide)))) (.self _))
  exact this

/-- Five ranks of parfu 0.5.1 archive the example tree `d`, over an old file `old`; what is extracted has
the file `d/a`, the link `d/b/c` and no hidden file. -/
example (Q : QSort Frag) (old : Bytes) : ∃ front wss ms w,
    legacyMain legEnv Q glibcNull [100] (some legDemo) legDemo 5 = .ok (some (front, wss)) ∧
    readArchive ((front ++ wss.flatten).foldl writeAt old) = some ms ∧ extract (fun x => x = []) (fun _ => none) ms = some w ∧
    w [100, 47, 97] = some ⟨.file, 0, 0, 0, 0, [1, 2]⟩ ∧ w [100, 47, 98, 47, 99] = some ⟨.link, 0, 0, 0, 0, [120]⟩ := by
  obtain ⟨front, wss, h, hgap, _⟩ := leg_demo_run Q
  obtain ⟨ms, w, h1, h2, h3, _⟩ := C54_legacy_extract_partial legEnv Q glibcNull [100] legDemo leg_platform leg_archivable
    (some legDemo) trivial 5 (by omega) front wss h hgap (by decide) (fun x => x = []) (by decide) (by simp) _ (.refl _) old
  refine ⟨front, wss, ms, w, h, h1, h2, ?_, ?_⟩
  · exact h3 [[97]] (.reg ⟨0, 0, 0, 0⟩ [1, 2]) ⟨.step (.there (.there (.there (.here (by decide) (by decide))))) (.self _), by simp [NoHidden]⟩
  · exact h3 [[98], [99]] (.lnk ⟨0, 0, 0, 0⟩ [120])
      ⟨.step (.there (.there (.there (.there (.here (by decide) (by decide)))))) (.step (.here (by decide) (by decide)) (.self _)), by simp [NoHidden]⟩

end Parfu.Props
