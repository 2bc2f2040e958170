/-
Lemmas: from a tree to the list the writer of parfu 0.5.1 gets.
-/
import Verif.LegacyRunSpec
import Verif.LegacyArchiveRun
import Verif.PropsLegacyScan
set_option autoImplicit false

namespace Parfu
open SplitSpec Props MoveSpec TarSpec ScanSpec LegacyScanSpec LegacyRunSpec

theorem digits_half (n : Nat) : 2 * (digits 10 n).length ≤ n + 2 := by
  induction n using Nat.strongRecOn with
  | ind n ih =>
    by_cases h : n < 10
    · rw [digits_lt h]; simp
    · rw [digits_ge (by omega) (by omega)]
      have := ih (n / 10) (by omega)
      simp; omega

theorem recText_le (kw val : Bytes) : (recText kw val).length ≤ 2 * (kw.length + val.length) + 8 := by
  obtain ⟨n, h1, h2, h3, h4, h5⟩ := recText_spec kw val
  have h6 := congrArg List.length h3
  have := digits_half n
  simp only [List.length_append, List.length_singleton] at h6
  omega

theorem computeHdr_le {name link : Bytes} {size : Int} {h : Nat} (hn : name.length ≤ 4096) (hl : link.length ≤ 4096)
    (hz : size ≤ 8589934591) (hc : computeHdrSize name link size = .ok h) : 512 ≤ h ∧ h ≤ 20000 := by
  unfold computeHdrSize at hc
  rw [hdrSize_eq] at hc
  have h1 := recText_le kwPath name
  have h2 := recText_le kwLinkpath link
  have hpl : (recTexts (paxPairs { offset := 0, stat := { kind := .reg, perm := 0, uid := 0, gid := 0, size := size, mtime := 0 }, filename := name, linkname := link })).length ≤ 16500 := by
    unfold paxPairs
    have : ¬ (size > maxFileSize) := by unfold maxFileSize; omega
    simp only [this, and_false, if_false, List.append_nil]
    have k1 : kwPath.length = 4 := rfl
    have k2 : kwLinkpath.length = 8 := rfl
    split <;> split <;> simp only [List.cons_append, List.nil_append, recTexts_cons, List.length_append] <;>
      simp only [recTexts, List.map_nil, List.flatten_nil, List.length_nil] <;> omega
  simp only [Except.ok.injEq] at hc
  unfold paxHdrSz roundToBlock blk at hc
  split at hc <;> omega

theorem computeHdr_irrel {name link : Bytes} {a b : Int} (ha : a ≤ 8589934591) (hb : b ≤ 8589934591) :
    computeHdrSize name link a = computeHdrSize name link b := by
  unfold computeHdrSize
  rw [hdrSize_eq, hdrSize_eq]
  have h1 : ¬ (a > maxFileSize) := by unfold maxFileSize; omega
  have h2 : ¬ (b > maxFileSize) := by unfold maxFileSize; omega
  simp only [paxPairs, h1, h2, and_false, if_false]

theorem baseOf_slash {top : Bytes} (h : top.getLast? = some 47) : top = baseOf top ++ [47] := by
  unfold baseOf
  rw [if_pos h]
  obtain ⟨l, rfl⟩ := List.getLast?_eq_some_iff.1 h
  simp

theorem fullPath_base (top : Bytes) {p : List Bytes} (hp : p ≠ []) :
    fullPath top p = baseOf top ++ [47] ++ pathText p := by
  unfold fullPath
  rw [if_neg hp]
  split
  · rename_i h
    rw [← baseOf_slash h]
  · rename_i h
    unfold baseOf
    rw [if_neg h]

theorem rel_base (top arc : Bytes) :
    (if top.getLast? = some 47 then top ++ arc else top ++ [47] ++ arc) = baseOf top ++ [47] ++ arc := by
  split
  · rename_i h
    rw [← baseOf_slash h]
  · rename_i h
    unfold baseOf
    rw [if_neg h]

theorem archivedPath_len (base : Bytes) (p : List Bytes) (n : FNode) :
    base.length + 1 + (pathText p).length ≤ (archivedPath base p n).length := by
  cases n with
  | dir m o k =>
    by_cases h : p = []
    · subst h; simp [archivedPath, pathText]
    · simp [archivedPath, h]; omega
  | _ => simp [archivedPath]; omega

theorem baseOf_chars {top : Bytes} {c : UInt8} (h : c ∉ top) : c ∉ baseOf top := by
  unfold baseOf
  split
  · intro hc; exact h (List.mem_of_mem_dropLast hc)
  · exact h

/-- A slash in the path: not one of parfu's own members. -/
theorem not_own {base : Bytes} {p : List Bytes} {n : FNode} {m : Member} (h : m.path = archivedPath base p n) :
    ownMember m = false := by
  have h47 : (47:UInt8) ∈ m.path := by
    rw [h]
    cases n with
    | dir m o k => by_cases hp : p = [] <;> simp [archivedPath, hp]
    | _ => simp [archivedPath]
  have h1 : (47:UInt8) ∉ catalogName := by decide
  have h2 : (47:UInt8) ∉ spacerName := by decide
  unfold ownMember
  simp only [decide_eq_false_iff_not, not_and, not_or]
  exact fun _ => ⟨fun he => h1 (by rw [he] at h47; exact h47), fun he => h2 (by rw [he] at h47; exact h47)⟩

theorem memberOf_path {env : Env} {base : Bytes} {p : List Bytes} {n : FNode} {m : Member}
    (h : memberOf env base p n = some m) : m.path = archivedPath base p n := by
  unfold memberOf at h
  cases n <;> simp only [] at h
  case other => cases h
  all_goals
    split at h
    · simp at h; rw [← h]
    · cases h

theorem memberOf_describe {env : Env} {base : Bytes} {p : List Bytes} {n : FNode} {m : Member}
    (h : memberOf env base p n = some m) : describe p n ≠ none := by
  cases n <;> simp [describe]
  simp [memberOf] at h

/-- The size by which an entry is sorted. -/
def markOf : FNode → Int
  | .reg _ c => c.length
  | .lnk _ _ => -2
  | .dir _ _ _ => -3
  | .other _ => 0

theorem markOf_dir {env : Env} {base : Bytes} {p : List Bytes} {n : FNode} {m : Member}
    (h : memberOf env base p n = some m) (hf : m.flag = 53) : markOf n = -3 ∧ ∃ d o k, n = .dir d o k := by
  unfold memberOf at h
  cases n <;> simp only [] at h
  case other => cases h
  all_goals
    split at h
    · simp at h; rw [← h] at hf; simp [markOf] at hf ⊢
    · cases h

/-- The link target of an object. -/
def targetOf : FNode → Bytes
  | .lnk _ t => t
  | _ => []

/-- What an entry says about an object before the layout. -/
def Marks (e : Frag) (n : FNode) : Prop := e.size = markOf n ∧ e.locA = -1 ∧ e.target = targetOf n

/-- The name of an entry and its header. -/
structure Headed (top : Bytes) (p : List Bytes) (e : Frag) : Prop where
  min : 512 ≤ e.hdr
  max : e.hdr ≤ 20000
  rel : e.rel = baseOf top ++ [47] ++ pathText p
  none : e.padName = none
  made : e.size ≤ 8589934591 ∧ computeHdrSize e.rel e.target e.size = .ok e.hdr.toNat

theorem markOf_ge (n : FNode) : -3 ≤ markOf n := by cases n <;> simp [markOf]

theorem forall2_pairwise {α β : Type} {R : α → β → Prop} {S : α → α → Prop} {T : β → β → Prop}
    (hT : ∀ a b a' b', S a b → R a a' → R b b' → T a' b') {l : List α} {l' : List β} (h : List.Forall₂ R l l')
    (hl : l.Pairwise S) : l'.Pairwise T := by
  induction h with
  | nil => exact .nil
  | cons hab ht ih =>
    rw [List.pairwise_cons] at hl ⊢
    refine ⟨?_, ih hl.2⟩
    intro y hy
    obtain ⟨x, hx, hr⟩ := forall2_mem_left (R := fun b a => R a b) ht.flip y hy
    exact hT _ _ _ _ (hl.1 x hx) hab hr

/-- A path that continues that of a directory belongs to something inside it (or to itself). -/
theorem inside_path {base : Bytes} {p q : List Bytes} {n : FNode} {d : Meta} {o : Bool} {k : Kids} (hq : ∀ x ∈ q, NameOk x)
    (h : archivedPath base p (.dir d o k) <+: archivedPath base q n) :
    pathText q = pathText p ∨ ∃ b t, b ≠ (0:UInt8) ∧ pathText q = pathText p ++ b :: t := by
  have hz : (0:UInt8) ∉ pathText q := pathText_chars hq
  by_cases hp : p = []
  · subst hp
    cases hx : pathText q with
    | nil => left; rfl
    | cons b t =>
      right
      refine ⟨b, t, ?_, by simp [pathText]⟩
      rintro rfl
      rw [hx] at hz; simp at hz
  · simp only [archivedPath, if_neg hp] at h
    obtain ⟨t, ht⟩ := h
    have hc : ∀ s : Bytes, base ++ [47] ++ pathText p ++ [47] ++ t = base ++ [47] ++ s → pathText p ++ 47 :: t = s := by
      intro s hs
      simpa using hs
    cases n with
    | dir d' o' k' =>
      by_cases hq0 : q = []
      · subst hq0
        simp [archivedPath] at ht
      · simp only [archivedPath, if_neg hq0] at ht
        have := hc (pathText q ++ [47]) (by rw [ht]; simp)
        rcases List.eq_nil_or_concat t with rfl | ⟨t', c, rfl⟩
        · left
          have := List.append_inj' this rfl
          exact this.1.symm
        · right
          refine ⟨47, t', by decide, ?_⟩
          rw [List.concat_eq_append, ← List.cons_append, ← List.append_assoc] at this
          exact (List.append_inj' this rfl).1.symm
    | _ => exact .inr ⟨47, t, by decide, (hc _ ht).symm⟩

/-- The data of a regular file. -/
def regData : FNode → Option Bytes
  | .reg _ c => some c
  | _ => none

/-- What becomes of an entry the scan made. -/
theorem entry_ok {L : LegEnv} {top : Bytes} {root : FNode} (ha : LegArchivable L.env L.fs top root) {p : List Bytes} {n : FNode}
    (hv : Visible root p n) {f : Frag} (hf : Fresh f) (hl : listed top p n = some (entryOf f)) :
    let e : Frag := { f with rel := if top.getLast? = some 47 then top ++ f.arc else top ++ [47] ++ f.arc }
    ∃ m, memberOf L.env (baseOf top) p n = some m ∧ EntOk L e m ∧ Plain e ∧ e.arc = pathText p ∧
      Headed top p e ∧ Marks e n ∧
      ((archivedPath (baseOf top) p n).length ≤ 100 → (∀ m t, n = .lnk m t → t.length ≤ 100) →
        e.hdr = 512 ∧ e.target.length ≤ 100 ∧ e.rel.length ≤ 100 ∧ e.arc.length ≤ 100 ∧ e.padName = none) := by
  have hname : ∀ x ∈ p, NameOk x := at_nameOk hv.1 ha.treeOk
  have hbn : (0:UInt8) ∉ baseOf top := baseOf_chars ha.top_chars.1
  have hbt : (9:UInt8) ∉ baseOf top := baseOf_chars ha.top_chars.2
  have hlen := archivedPath_len (baseOf top) p n
  have hpm := ha.paths p n hv
  have hpn := pathText_chars hname
  have hpt := ha.noTab p n hv
  have harc : f.arc = pathText p := by
    have : (entryOf f).arc = pathText p := by cases n <;> simp [listed] at hl <;> rw [← hl]
    exact this
  obtain ⟨ent, hd⟩ : ∃ ent, describe p n = some ent := by
    cases n <;> simp [describe]
    simp [listed] at hl
  have hsz : ent.size < 2 ^ 33 - 1 := by
    cases n with
    | reg m c => have := ha.sizes p m c hv; simp [describe] at hd; rw [← hd]; exact this
    | lnk m t => simp [describe] at hd; rw [← hd]; simp
    | dir m o k => simp [describe] at hd; rw [← hd]; simp
    | other m => simp [describe] at hd
  have hlink : ∀ m t, n = .lnk m t → t.length < 4096 ∧ (0:UInt8) ∉ t := by
    intro m t h; subst h; exact ⟨(ha.links p m t hv).1, (ha.links p m t hv).2.1⟩
  obtain ⟨t, H, m, o1, o2, o3, o4, o5, o6⟩ := object_core (env := L.env) (fs := L.fs) (base := baseOf top) hd hsz hname hbn
    (by omega) (ha.fs p n hv) (ha.owners p n hv (by rw [hd]; simp)) hlink (by
      intro m o k h hp
      subst h
      have h1 := ha.dirs p m o k hv
      rw [fullPath_base top hp] at h1
      refine h1 ?_
      obtain ⟨c, k1, k2⟩ := pathText_last hname hp
      rw [List.getLast?_append, k1]
      simpa using k2)
  have ho7 : ∀ padding rest : Bytes, (contentOf n).length + padding.length = pad512 (contentOf n).length →
      readMember (H ++ (contentOf n ++ (padding ++ rest))) = some (m, rest) := by rw [o5]; exact o6
  -- what the entry says
  obtain ⟨hh, hh1, hh2⟩ := hf.hdr
  have hrel : f.rel = fullPath top p := by
    have : (entryOf f).rel = fullPath top p := by cases n <;> simp [listed] at hl <;> rw [← hl]
    exact this
  have htgt : f.target = ent.target := by
    have : (entryOf f).target = ent.target := by
      cases n <;> simp [listed] at hl <;> simp [describe] at hd <;> rw [← hl, ← hd]
    exact this
  have hfz : f.size ≤ 8589934591 := by
    have : (entryOf f).size ≤ 8589934591 := by
      cases n with
      | reg m c => have := ha.sizes p m c hv; simp [listed] at hl; rw [← hl]; simp only []; omega
      | lnk m t => simp [listed] at hl; rw [← hl]; simp
      | dir m o k => simp [listed] at hl; rw [← hl]; simp
      | other m => simp [listed] at hl
    exact this
  have htl : ent.target.length ≤ 4096 := by
    cases n <;> simp [describe] at hd <;> rw [← hd] <;> simp only [List.length_nil] <;> try omega
    exact le_of_lt (hlink _ _ rfl).1
  have hpl : (baseOf top ++ [47] ++ pathText p).length ≤ (archivedPath (baseOf top) p n).length := by
    simp only [List.length_append, List.length_singleton]; omega
  have hlenH : hh = H.length := by
    by_cases hp : p = []
    · subst hp
      have hn : n = root := by cases hv.1; rfl
      subst hn
      have hid := ha.isDir
      cases n with
      | dir m o k =>
        have hdir := ha.dirs [] m o k hv
        have e1 : ent.target = [] := by simp [describe] at hd; rw [← hd]
        have e2 : ent.size = 0 := by simp [describe] at hd; rw [← hd]
        have e3 : fullPath top [] = top := by simp [fullPath]
        rw [e3] at hdir hrel
        have e4 : computeHdrSize top [] 0 = computeHdrSize (baseOf top ++ [47] ++ pathText []) [] 0 := by
          by_cases hs : top.getLast? = some 47
          · have := baseOf_slash hs
            simp only [pathText, List.append_nil]
            rw [← this]
          · have hbt : baseOf top = top := by unfold baseOf; rw [if_neg hs]
            rw [hbt]
            simp only [pathText, List.append_nil]
            exact hdr_slash top (by rw [hbt] at hlen hpm; omega) (hdir hs)
        rw [hrel, htgt, computeHdr_irrel hfz (show (ent.size : Int) ≤ 8589934591 by omega), e1, e2] at hh1
        rw [e1, e2] at o3
        have h5 := o3.symm.trans (e4.symm.trans hh1)
        simp only [Except.ok.injEq] at h5
        exact h5.symm
      | _ => simp [IsDir] at hid
    · rw [hrel, fullPath_base top hp, htgt] at hh1
      rw [computeHdr_irrel hfz (show (ent.size : Int) ≤ 8589934591 by omega), o3] at hh1
      simp only [Except.ok.injEq] at hh1
      exact hh1.symm
  have hbd := computeHdr_le (by omega) htl (show (ent.size : Int) ≤ 8589934591 by omega) o3
  have hHdr : hdrOf L (baseOf top ++ [47] ++ pathText p) = H := by
    unfold hdrOf; rw [o1]; simp only []; rw [o2]
  have hread : L.fs.read (baseOf top ++ [47] ++ pathText p) = regData n := by
    unfold FS.read; rw [ha.fs p n hv]
    cases n <;> rfl
  intro e
  have erel : e.rel = baseOf top ++ [47] ++ pathText p := by
    show (if top.getLast? = some 47 then top ++ f.arc else top ++ [47] ++ f.arc) = _
    rw [rel_base, harc]
  have ehdr : e.hdr = H.length := by show f.hdr = _; rw [hh2, hlenH]
  obtain ⟨u1, u2, u3, u4, u5, u6, u7, u8⟩ := hf.unset
  have hkind : e.kind ≠ .invalid := by
    have : (entryOf f).kind ≠ .invalid := by cases n <;> simp [listed] at hl <;> rw [← hl] <;> simp
    exact this
  have hbody : bodyOf L e = contentOf n := by
    unfold bodyOf contOf
    rw [erel, hread]
    have hk : e.kind = (entryOf f).kind := rfl
    rw [hk]
    cases n <;> simp [listed] at hl <;> rw [← hl] <;> simp [contentOf, regData]
  refine ⟨m, o4, ⟨?_, ?_, ?_, ?_, ?_⟩, ?_, harc, ⟨by omega, by omega, erel, hf.none, hfz, ?_⟩, ?_, ?_⟩
  · exact ⟨t, by rw [erel]; exact o1, by rw [erel, hHdr]; exact o2⟩
  · rw [erel, hHdr, ehdr]
  · intro hk
    have hk : (entryOf f).kind = .reg := hk
    have hz : e.size = (entryOf f).size := rfl
    rw [hz]
    unfold contOf
    rw [erel, hread]
    cases n <;> simp [listed] at hl <;> rw [← hl] at hk ⊢ <;> simp [regData] at hk ⊢
  · intro hk
    have hk : (entryOf f).kind ≠ .reg := hk
    have hz : e.size = (entryOf f).size := rfl
    rw [hz]
    cases n <;> simp [listed] at hl <;> rw [← hl] at hk ⊢ <;> simp at hk ⊢
  · rw [hbody, erel, hHdr]
    exact ho7
  · refine ⟨?_, ?_, ?_, ?_, hkind, ?_, ?_, ?_, ?_, ?_, ?_, ?_, ?_, ?_, ?_⟩
    · rw [erel]
      constructor <;> simp only [List.mem_append, List.mem_singleton, not_or]
      · exact ⟨⟨hbn, by decide⟩, hpn⟩
      · exact ⟨⟨hbt, by decide⟩, hpt⟩
    · show LegTabFree f.arc
      rw [harc]; exact ⟨hpn, hpt⟩
    · show LegTabFree f.target
      rw [htgt]
      cases n with
      | lnk m t => simp [describe] at hd; rw [← hd]; exact ⟨(ha.links p _ _ hv).2.1, (ha.links p _ _ hv).2.2⟩
      | reg m c => simp [describe] at hd; rw [← hd]; exact ⟨by simp, by simp⟩
      | dir m o k => simp [describe] at hd; rw [← hd]; exact ⟨by simp, by simp⟩
      | other m => simp [describe] at hd
    · intro q hq
      have : f.padName = some q := hq
      rw [hf.none] at this; cases this
    · have hz : e.size = (entryOf f).size := rfl
      have hz' : -3 ≤ (entryOf f).size := by cases n <;> simp [listed] at hl <;> rw [← hl] <;> simp
      have : e.size ≤ 8589934591 := hfz
      unfold FitsLong; omega
    · unfold FitsLong; omega
    all_goals first
      | (show FitsLong f.locA; rw [u1]; exact ⟨by omega, by omega⟩)
      | (show FitsLong f.locO; rw [u2]; exact ⟨by omega, by omega⟩)
      | (show FitsLong f.padLoc; rw [u3]; exact ⟨by omega, by omega⟩)
      | (show FitsLong f.padHdr; rw [u4]; exact ⟨by omega, by omega⟩)
      | (show FitsLong f.padSize; rw [u5]; exact ⟨by omega, by omega⟩)
      | (show FitsI32 f.nFrag; rw [u6]; exact ⟨by omega, by omega⟩)
      | (show FitsI32 f.fp; rw [u7]; exact ⟨by omega, by omega⟩)
      | (show FitsI32 f.bucket; rw [u8]; exact ⟨by omega, by omega⟩)
  · rw [erel, ehdr]
    have ht : e.target = ent.target := htgt
    rw [ht, Int.toNat_natCast, computeHdr_irrel (show e.size ≤ 8589934591 from hfz) (show (ent.size : Int) ≤ 8589934591 by omega)]
    exact o3
  · have hz : e.size = (entryOf f).size := rfl
    refine ⟨?_, u1, ?_⟩
    · rw [hz]
      cases n <;> simp [listed] at hl <;> rw [← hl] <;> rfl
    · show f.target = _
      rw [htgt]
      cases n <;> simp [describe] at hd <;> rw [← hd] <;> rfl
  · intro h1 h2
    have ht : ent.target.length ≤ 100 := by
      cases n <;> simp [describe] at hd <;> rw [← hd] <;> simp only [List.length_nil] <;> try omega
      exact h2 _ _ rfl
    have h3 := hdr512 (pad := baseOf top ++ [47] ++ pathText p) (t := ent.target) (s := ent.size) (by omega) ht (by omega)
    rw [h3] at o3
    simp only [Except.ok.injEq] at o3
    have h4 : (baseOf top ++ [47] ++ pathText p).length ≤ (archivedPath (baseOf top) p n).length := by
      cases n <;> simp only [archivedPath] <;> try omega
      split
      · rename_i h; subst h; simp [pathText]
      · simp
    refine ⟨by omega, by show f.target.length ≤ 100; rw [htgt]; exact ht, by rw [erel]; omega, ?_, hf.none⟩
    show f.arc.length ≤ 100
    rw [harc]
    simp only [List.length_append] at h4
    omega

/-- The entry after its path has been filled in. -/
def filled (top : Bytes) (f : Frag) : Frag :=
  { f with rel := if top.getLast? = some 47 then top ++ f.arc else top ++ [47] ++ f.arc }

/-- The archive name within the path of a member. -/
def arcOf (base path : Bytes) : Bytes := baseOf (path.drop (base.length + 1))

theorem arcOf_path {base : Bytes} {p : List Bytes} {n : FNode} (hp : ∀ x ∈ p, NameOk x) :
    arcOf base (archivedPath base p n) = pathText p := by
  have hd : ∀ s : Bytes, (base ++ [47] ++ s).drop (base.length + 1) = s := by
    intro s
    have : base.length + 1 = (base ++ [47]).length := by simp
    rw [this, List.drop_left]
  have hlast : ∀ q : List Bytes, (∀ x ∈ q, NameOk x) → (pathText q).getLast? ≠ some 47 := by
    intro q hq
    by_cases h : q = []
    · subst h; simp [pathText]
    · obtain ⟨c, h1, h2⟩ := pathText_last hq h
      rw [h1]; simpa using h2
  unfold arcOf
  cases n with
  | dir m o k =>
    by_cases h : p = []
    · subst h
      simp [archivedPath, pathText, baseOf]
    · have : archivedPath base p (.dir m o k) = base ++ [47] ++ (pathText p ++ [47]) := by
        simp [archivedPath, if_neg h]
      rw [this, hd]
      simp [baseOf]
  | _ =>
    rw [show archivedPath base p _ = base ++ [47] ++ pathText p from rfl, hd]
    unfold baseOf
    rw [if_neg (hlast p hp)]

theorem forall2_of_forall {α β : Type} {R : α → β → Prop} {l : List α} (h : ∀ a ∈ l, ∃ b, R a b) :
    ∃ l', List.Forall₂ R l l' := by
  induction l with
  | nil => exact ⟨[], .nil⟩
  | cons a l ih =>
    obtain ⟨b, hb⟩ := h a (by simp)
    obtain ⟨l', hl⟩ := ih (fun x hx => h x (by simp [hx]))
    exact ⟨b :: l', .cons hb hl⟩

theorem forall2_mem_right {α β : Type} {R : α → β → Prop} {l : List α} {l' : List β} (h : List.Forall₂ R l l') :
    ∀ b ∈ l', ∃ a ∈ l, R a b := forall2_mem_left (R := fun b a => R a b) h.flip

theorem at_functional {root : FNode} (hok : TreeOk root) {p : List Bytes} {n n' : FNode} (h : At root p n) (h' : At root p n') :
    n = n' := by
  have h1 := (mem_objects_iff _ _ _).2 h
  have h2 := (mem_objects_iff _ _ _).2 h'
  have hnd := objects_nodup root hok
  generalize objects root = os at *
  induction os with
  | nil => simp at h1
  | cons x os ih =>
    rw [List.map_cons, List.nodup_cons] at hnd
    rcases List.mem_cons.1 h1 with e1 | h1 <;> rcases List.mem_cons.1 h2 with e2 | h2
    · rw [← e1] at e2; simpa using e2.symm
    · exact absurd (by rw [← e1]; exact List.mem_map.2 ⟨_, h2, rfl⟩) hnd.1
    · exact absurd (by rw [← e2]; exact List.mem_map.2 ⟨_, h1, rfl⟩) hnd.1
    · exact ih h1 h2 hnd.2

/-- The list that is given to the writer. -/
theorem list_ok {L : LegEnv} {top : Bytes} {root : FNode} (ha : LegArchivable L.env L.fs top root) (Q : QSort Frag)
    (hlax : L.strict = false) (hclk : ∀ i, L.now i < 2 ^ 64) (hc1 : L.nowCat < 2 ^ 64) (hc2 : L.nowGap < 2 ^ 64) :
    ∃ l es ms, legacyScan top (some root) root = .ok (some l) ∧ fillRel top l.frags = .ok es ∧
      RunOk L legBucket (qsortEntries Q es) ms ∧ MembersOf L.env top root ms ∧ ((qsortEntries Q es).map Frag.arc).Nodup ∧
      (∀ p n, Visible root p n → describe p n ≠ none → ∃ e ∈ qsortEntries Q es, e.arc = pathText p) ∧
      (qsortEntries Q es).Pairwise (fun a b => a.size ≤ b.size) ∧
      ms.Pairwise (fun a b => ¬ (b.flag = 53 ∧ b.path <+: a.path)) ∧
      (∀ e ∈ qsortEntries Q es, ∃ p n, Visible root p n ∧ describe p n ≠ none ∧ e.arc = pathText p ∧
        Headed top p e ∧ Marks e n ∧
        ((archivedPath (baseOf top) p n).length ≤ 100 → (∀ m t, n = .lnk m t → t.length ≤ 100) →
          e.hdr = 512 ∧ e.target.length ≤ 100 ∧ e.rel.length ≤ 100 ∧ e.arc.length ≤ 100 ∧ e.padName = none)) := by
  obtain ⟨fs, l, hscan, hfr, _, hperm, hfresh⟩ := legacyScan_ok top root ha.isDir ha.treeOk (fun p m o k h h' => ha.opened p m o k ⟨h, h'⟩)
  obtain ⟨l', hscan', hex, hnd⟩ := C32_scan_exact_partial top root ha.isDir ha.treeOk (fun p m o k h h' => ha.opened p m o k ⟨h, h'⟩)
  rw [hscan] at hscan'
  simp only [Except.ok.injEq, Option.some.injEq] at hscan'
  subst hscan'
  have hfill : fillRel top l.frags = .ok (l.frags.map (filled top)) := by
    unfold fillRel; rw [if_neg ha.top_ne]; rfl
  have hp : (qsortEntries Q (l.frags.map (filled top))).Perm (l.frags.map (filled top)) :=
    Q.perm cmpFrag (l.frags.map (filled top)) C33_total
  -- each entry
  have hone : ∀ e ∈ qsortEntries Q (l.frags.map (filled top)), ∃ m p n, Visible root p n ∧
      memberOf L.env (baseOf top) p n = some m ∧ EntOk L e m ∧ Plain e ∧ e.arc = pathText p ∧
      Headed top p e ∧ Marks e n ∧
      ((archivedPath (baseOf top) p n).length ≤ 100 → (∀ m t, n = .lnk m t → t.length ≤ 100) →
        e.hdr = 512 ∧ e.target.length ≤ 100 ∧ e.rel.length ≤ 100 ∧ e.arc.length ≤ 100 ∧ e.padName = none) := by
    intro e he
    have he' := hp.mem_iff.1 he
    rw [List.mem_map] at he'
    obtain ⟨f, hf, rfl⟩ := he'
    obtain ⟨p, n, h1, h2, h3⟩ := (hex (entryOf f)).1 (List.mem_map_of_mem hf)
    obtain ⟨m, k⟩ := entry_ok ha ⟨h1, h2⟩ (hfresh f (by rw [← hfr]; exact hf)) h3
    exact ⟨m, p, n, ⟨h1, h2⟩, k⟩
  obtain ⟨ms, hms⟩ := forall2_of_forall hone
  have harcs : ms.map (fun m => arcOf (baseOf top) m.path) = (qsortEntries Q (l.frags.map (filled top))).map Frag.arc := by
    clear hone hp
    generalize qsortEntries Q (l.frags.map (filled top)) = qs at hms
    induction hms with
    | nil => rfl
    | cons h _ ih =>
      obtain ⟨p, n, hv, hm, _, _, harc, _⟩ := h
      simp only [List.map_cons]
      rw [ih, memberOf_path hm, arcOf_path (at_nameOk hv.1 ha.treeOk), harc]
  have hlen : (qsortEntries Q (l.frags.map (filled top))).length = l.frags.length := by
    rw [hp.length_eq, List.length_map]
  have hb : legBucket = 4194304 := rfl
  have hfind : ∀ p n, Visible root p n → describe p n ≠ none →
      ∃ f ∈ l.frags, f.arc = pathText p := by
    intro p n hv hd
    have : ∃ e, listed top p n = some e ∧ e.arc = pathText p := by
      cases n <;> simp [listed, describe] at hd ⊢
    obtain ⟨x, hx, hxa⟩ := this
    have := (hex x).2 ⟨p, n, hv.1, hv.2, hx⟩
    rw [List.mem_map] at this
    obtain ⟨f, hf, rfl⟩ := this
    exact ⟨f, hf, hxa⟩
  refine ⟨l, _, ms, hscan, hfill, ⟨hlax, hclk, hc1, hc2, by omega, by omega, by rw [hb]; exact ⟨8192, by norm_num⟩, ?_, ?_, ?_, ?_, ?_⟩, ⟨?_, ?_⟩, ?_, ?_, ?_, ?_, ?_⟩
  · refine (Q.sorted cmpFrag (l.frags.map (filled top)) C33_total).imp ?_
    intro a b h
    unfold cmpFrag at h
    split at h
    · omega
    · omega
  · intro e he
    obtain ⟨m, p, n, hv, _, _, _, _, k1, _⟩ := hone e he
    have := k1.max
    omega
  · intro e he
    obtain ⟨m, p, n, hv, _, _, k, _⟩ := hone e he
    exact k
  · rw [hlen]
    obtain ⟨p, n, hpne, hv, hd⟩ := ha.nonempty
    obtain ⟨f, hf, hfa⟩ := hfind p n hv hd
    have hr : Visible root [] root := ⟨.self _, by simp [NoHidden]⟩
    obtain ⟨g, hg, hga⟩ := hfind [] root hr (by
      have := ha.isDir
      cases root <;> simp [IsDir, describe] at this ⊢)
    have hne : f ≠ g := by
      rintro rfl
      rw [hfa] at hga
      exact pathText_ne_nil (fun x hx => (at_nameOk hv.1 ha.treeOk x hx).1) hpne hga
    match hl : l.frags with
    | [] => rw [hl] at hf; simp at hf
    | [x] => rw [hl] at hf hg; simp at hf hg; exact absurd (hf.trans hg.symm) hne
    | _ :: _ :: _ => simp
  · refine hms.imp ?_
    rintro e m ⟨p, n, hv, hm, k, _⟩
    exact ⟨k, not_own (memberOf_path hm)⟩
  · intro m
    constructor
    · intro hm
      obtain ⟨e, _, p, n, hv, hmo, _⟩ := forall2_mem_right hms m hm
      exact ⟨p, n, hv, hmo⟩
    · rintro ⟨p, n, hv, hmo⟩
      obtain ⟨f, hf, hfa⟩ := hfind p n hv (memberOf_describe hmo)
      obtain ⟨m', hm', p', n', hv', hmo', _, _, harc, _⟩ := forall2_mem_left hms (filled top f)
        (hp.mem_iff.2 (List.mem_map_of_mem hf))
      have he : pathText p' = pathText p := by rw [← harc, ← hfa]; rfl
      have := pathText_inj (at_nameOk hv'.1 ha.treeOk) (at_nameOk hv.1 ha.treeOk) he
      subst this
      rw [at_functional ha.treeOk hv'.1 hv.1, hmo] at hmo'
      cases hmo'
      exact hm'
  · have : ((ms.map Member.path).map (arcOf (baseOf top))).Nodup := by
      rw [List.map_map]
      show (ms.map (fun m => arcOf (baseOf top) m.path)).Nodup
      rw [harcs]
      refine (hp.map Frag.arc).nodup_iff.2 ?_
      rw [List.map_map]
      exact hnd
    exact List.Nodup.of_map _ this
  · refine (hp.map Frag.arc).nodup_iff.2 ?_
    rw [List.map_map]
    exact hnd
  · intro p n hv hd
    obtain ⟨f, hf, hfa⟩ := hfind p n hv hd
    exact ⟨filled top f, hp.mem_iff.2 (List.mem_map_of_mem hf), hfa⟩
  · refine (Q.sorted cmpFrag (l.frags.map (filled top)) C33_total).imp ?_
    intro a b h
    unfold cmpFrag at h
    split at h
    · omega
    · omega
  · have hnd' : ((qsortEntries Q (l.frags.map (filled top))).map Frag.arc).Nodup := by
      refine (hp.map Frag.arc).nodup_iff.2 ?_
      rw [List.map_map]
      exact hnd
    have hso := Q.sorted cmpFrag (l.frags.map (filled top)) C33_total
    refine forall2_pairwise (S := fun a b => cmpFrag a b ≤ 0 ∧ a.arc ≠ b.arc) ?_ hms
      (List.pairwise_and_iff.2 ⟨hso, List.pairwise_map.1 hnd'⟩)
    rintro a b ma mb ⟨hcmp, hne⟩ ⟨p, n, hv, hm, _, _, harc, _, hsz, _⟩ ⟨p', n', hv', hm', _, _, harc', _, hsz', _⟩ ⟨hfl, hpre⟩
    obtain ⟨hmk, d, o, k, rfl⟩ := markOf_dir hm' hfl
    rw [memberOf_path hm, memberOf_path hm'] at hpre
    have hge := markOf_ge n
    have hsz := hsz.1
    have hsz' := hsz'.1
    have hlt : cmpFrag b a < 0 := by
      unfold cmpFrag
      rw [if_neg (by omega)]
      split
      · decide
      · rcases inside_path (at_nameOk hv.1 ha.treeOk) hpre with h | ⟨c, t, hc, h⟩
        · exact absurd (by rw [harc, harc', h]) hne
        · rw [harc, harc', h]
          exact strcmp_prefix _ (pathText_chars (at_nameOk hv'.1 ha.treeOk)) c hc t
    have := (C33_total.anti b a).1 hlt
    omega
  · intro e he
    obtain ⟨m, p, n, hv, hm, _, _, harc, k1, k2, k3⟩ := hone e he
    exact ⟨p, n, hv, memberOf_describe hm, harc, k1, k2, k3⟩

end Parfu
