/-
Lemmas for C81: what parfu 0.5.1's writer and scan depend on.
-/
import Verif.PropsBoth
import Verif.ListingSpec
set_option autoImplicit false

namespace Parfu
open ScanSpec LegacyScanSpec LegacyRunSpec ListingSpec

theorem ListingSpec.SameFiles.lstat {fs fs' : FS} (h : SameFiles fs fs') : fs'.lstat = fs.lstat := by
  funext p
  have := h p
  unfold FS.lstat
  cases e : fs p with
  | none => rw [e] at this; cases e' : fs' p with
    | none => rfl
    | some n => rw [e'] at this; cases this
  | some n => rw [e] at this; cases e' : fs' p with
    | none => rw [e'] at this; cases this
    | some n' =>
      rw [e'] at this
      simp only [Option.map_some, Option.some.injEq] at this
      cases n <;> cases n' <;> simp only [ownPart, FNode.reg.injEq, FNode.lnk.injEq, FNode.dir.injEq, FNode.other.injEq, reduceCtorEq] at this <;>
        simp [lstatNode, this]

theorem ListingSpec.SameFiles.read {fs fs' : FS} (h : SameFiles fs fs') : fs'.read = fs.read := by
  funext p
  have := h p
  unfold FS.read
  cases e : fs p with
  | none => rw [e] at this; cases e' : fs' p with
    | none => rfl
    | some n => rw [e'] at this; cases this
  | some n => rw [e] at this; cases e' : fs' p with
    | none => rw [e'] at this; cases this
    | some n' =>
      rw [e'] at this
      simp only [Option.map_some, Option.some.injEq] at this
      cases n <;> cases n' <;> simp only [ownPart, FNode.reg.injEq, FNode.lnk.injEq, FNode.dir.injEq, FNode.other.injEq, reduceCtorEq] at this <;>
        simp [this]

section
variable {L : LegEnv} {fs' : FS}

theorem moveFrag_files (hr : fs'.read = L.fs.read) (hl : fs'.lstat = L.fs.lstat) :
    moveFrag { L with fs := fs' } = moveFrag L := by
  funext bl acc bloc s f
  unfold moveFrag putData putHeader
  simp only [hr, hl]

theorem bucketLoop_files (hr : fs'.read = L.fs.read) (hl : fs'.lstat = L.fs.lstat) (bl acc : Int) (idx : Nat) :
    ∀ (fr : List Frag) (s : BState), bucketLoop { L with fs := fs' } bl acc idx s fr = bucketLoop L bl acc idx s fr
  | [], s => rfl
  | f :: fr, s => by
    unfold bucketLoop
    rw [moveFrag_files hr hl]
    have : (fun s' => bucketLoop { L with fs := fs' } bl acc idx s' fr) = fun s' => bucketLoop L bl acc idx s' fr := by
      funext s'; exact bucketLoop_files hr hl bl acc idx fr s'
    rw [this]

theorem oneBucket_files (hr : fs'.read = L.fs.read) (hl : fs'.lstat = L.fs.lstat) :
    oneBucket { L with fs := fs' } = oneBucket L := by
  funext bl acc dstart fr call idx buf
  unfold oneBucket
  simp only [bucketLoop_files hr hl]
  rfl

theorem bucketsLoop_files (hr : fs'.read = L.fs.read) (hl : fs'.lstat = L.fs.lstat) (bl acc : Int) (ds : Nat)
    (fr : List Frag) (call : List Nat) :
    ∀ (is : List Nat) (buf : Bytes), bucketsLoop { L with fs := fs' } bl acc ds fr call is buf = bucketsLoop L bl acc ds fr call is buf
  | [], _ => rfl
  | i :: is, buf => by
    unfold bucketsLoop
    rw [oneBucket_files hr hl]
    simp only [bucketsLoop_files hr hl bl acc ds fr call is]

theorem legacyRun_files (hr : fs'.read = L.fs.read) (hl : fs'.lstat = L.fs.lstat) :
    legacyRun { L with fs := fs' } = legacyRun L := by
  have h1 : ∀ bl acc ds text call n rank,
      rankPart { L with fs := fs' } bl acc ds text call n rank = rankPart L bl acc ds text call n rank := by
    intro bl acc ds text call n rank
    unfold rankPart allBuckets
    simp only [bucketsLoop_files hr hl]
  have h2 : ∀ bl acc ds text call n,
      rankPart { L with fs := fs' } bl acc ds text call n = rankPart L bl acc ds text call n := by
    intros; funext r; exact h1 _ _ _ _ _ _ _
  funext nul bl acc pad es n
  unfold legacyRun
  simp only [h2]
  rfl

end

/-! ### the scan -/

theorem listed_own (top : Bytes) (p : List Bytes) (n : FNode) : listed top p (ownPart n) = listed top p n := by
  cases n <;> rfl

/-- A fresh entry says everything that is in it. -/
theorem fresh_eq {f f' : Frag} (h : Fresh f) (h' : Fresh f') (he : entryOf f = entryOf f') : f = f' := by
  obtain ⟨x, e1, e2⟩ := h.hdr
  obtain ⟨x', e1', e2'⟩ := h'.hdr
  obtain ⟨a1, a2, a3, a4, a5, a6, a7, a8⟩ := h.unset
  obtain ⟨b1, b2, b3, b4, b5, b6, b7, b8⟩ := h'.unset
  have hn := h.none
  have hn' := h'.none
  cases f
  cases f'
  simp only [entryOf, LegEnt.mk.injEq] at he
  obtain ⟨rfl, rfl, rfl, rfl, rfl⟩ := he
  simp only at *
  rw [e1] at e1'
  cases e1'
  simp_all

/-- A directory behind no dot-name that cannot be opened can be reached, or one above it. -/
theorem blocked_seen {t : FNode} {p : List Bytes} {m : Meta} {k : Kids} (h : At t p (.dir m false k)) (hh : NoHidden p) :
    ∃ q m k, Seen t q (.dir m false k) ∧ NoHidden q := by
  generalize hn : FNode.dir m false k = n at h
  induction h with
  | self t => subst hn; exact ⟨[], m, k, .self _, by simp [NoHidden]⟩
  | @step m' o kids name c p n hc h' ih =>
    cases o with
    | false => exact ⟨[], m', kids, .self _, by simp [NoHidden]⟩
    | true =>
      obtain ⟨q, m2, k2, hs, hq⟩ := ih (fun x hx => hh x (by simp [hx])) hn
      refine ⟨name :: q, m2, k2, .step hc hs, ?_⟩
      intro x hx
      rcases List.mem_cons.1 hx with rfl | hx
      · exact hh _ (by simp)
      · exact hq x hx

theorem scan_seen (top : Bytes) {seen seen' : Option FNode} (h : DirOrLink seen) (h' : DirOrLink seen') (t : FNode) :
    legacyScan top seen t = legacyScan top seen' t := by
  unfold legacyScan
  rw [(Props.topAllowed_iff _).2 h, (Props.topAllowed_iff _).2 h']

theorem own_blocked {t t' : FNode} (hs : SameObjects t t') {q : List Bytes} {m : Meta} {k : Kids}
    (h : Seen t q (.dir m false k)) : ∃ k', Seen t' q (.dir m false k') := by
  obtain ⟨n', hn', e⟩ := (hs q (.dir m false .nil)).1 ⟨_, h, rfl⟩
  cases n' <;> simp only [ownPart, FNode.dir.injEq, reduceCtorEq] at e
  obtain ⟨rfl, rfl, _⟩ := e
  exact ⟨_, hn'⟩

theorem ListingSpec.SameObjects.symm {t t' : FNode} (h : SameObjects t t') : SameObjects t' t := fun p x => (h p x).symm

theorem ListingSpec.SameObjects.isDir {t t' : FNode} (hs : SameObjects t t') (hd : IsDir t) : IsDir t' := by
  cases t with
  | dir m o k =>
    obtain ⟨n', hn', e⟩ := (hs [] (.dir m o .nil)).1 ⟨_, .self _, rfl⟩
    cases hn'
    cases t' <;> first | trivial | (simp [ownPart] at e)
  | _ => exact hd.elim

/-- The scan finds the same entries, in some order. -/
theorem scan_same (top : Bytes) {seen seen' : Option FNode} (h : DirOrLink seen) (h' : DirOrLink seen') {t t' : FNode}
    (hd : IsDir t) (hok : TreeOk t) (hok' : TreeOk t') (hs : SameObjects t t') :
    (legacyScan top seen t = .ok none ∧ legacyScan top seen' t' = .ok none) ∨
    ∃ l l', legacyScan top seen t = .ok (some l) ∧ legacyScan top seen' t' = .ok (some l') ∧ l.frags.Perm l'.frags ∧
      (l.frags.map Frag.arc).Nodup ∧ (∀ f ∈ l.frags, (0 : UInt8) ∉ f.arc) := by
  have hd' := hs.isDir hd
  have hD : ∀ {x : FNode}, IsDir x → DirOrLink (some x) := by
    intro x hx; cases x <;> first | trivial | exact hx.elim
  rw [scan_seen top h (hD hd) t, scan_seen top h' (hD hd') t']
  by_cases hb : ∃ q m k, Seen t q (.dir m false k) ∧ NoHidden q
  · obtain ⟨q, m, k, hq, hh⟩ := hb
    obtain ⟨k', hq'⟩ := own_blocked hs hq
    exact Or.inl ⟨Props.C32_unreadable_fails top t q m k (seen_at hq) hh,
      Props.C32_unreadable_fails top t' q m k' (seen_at hq') hh⟩
  · have ho : ∀ p m o k, At t p (.dir m o k) → NoHidden p → o = true := by
      intro p m o k ha hh
      cases o with
      | true => rfl
      | false => exact (hb (blocked_seen ha hh)).elim
    have ho' : ∀ p m o k, At t' p (.dir m o k) → NoHidden p → o = true := by
      intro p m o k ha hh
      cases o with
      | true => rfl
      | false =>
        obtain ⟨q, m2, k2, hq, hqh⟩ := blocked_seen ha hh
        obtain ⟨k3, hq3⟩ := own_blocked hs.symm hq
        exact (hb ⟨q, m2, k3, hq3, hqh⟩).elim
    obtain ⟨fs, l, e, hf, _, _, hfr⟩ := Props.legacyScan_ok top t hd hok ho
    obtain ⟨fs', l', e', hf', _, _, hfr'⟩ := Props.legacyScan_ok top t' hd' hok' ho'
    subst hf hf'
    obtain ⟨_, e1, hm, hn⟩ := Props.C32_scan_exact_partial top t hd hok ho
    rw [e] at e1; cases e1
    obtain ⟨_, e1, hm', hn'⟩ := Props.C32_scan_exact_partial top t' hd' hok' ho'
    rw [e'] at e1; cases e1
    have key : ∀ {a b : FNode}, SameObjects a b → (∀ p m o k, At a p (.dir m o k) → NoHidden p → o = true) → ∀ x,
        (∃ p n, At a p n ∧ NoHidden p ∧ listed top p n = some x) → ∃ p n, At b p n ∧ NoHidden p ∧ listed top p n = some x := by
      rintro a b hab hoa x ⟨p, n, ha, hh, hl⟩
      have hsn := (Props.visible_iff (fun p m o k hv => hoa p m o k hv.1 hv.2) p n).1 ⟨ha, hh⟩
      obtain ⟨n', hn', en⟩ := (hab p _).1 ⟨n, hsn.1, rfl⟩
      exact ⟨p, n', seen_at hn', hh, by rw [← listed_own, en, listed_own, hl]⟩
    have hent : ∀ x, x ∈ l.frags.map entryOf ↔ x ∈ l'.frags.map entryOf := by
      intro x
      rw [hm, hm']
      exact ⟨key hs ho x, key hs.symm ho' x⟩
    refine Or.inr ⟨l, l', e, e', ?_, hn, ?_⟩
    · refine (List.perm_ext_iff_of_nodup hn.of_map hn'.of_map).2 ?_
      intro f
      constructor
      · intro hfm
        obtain ⟨f', hfm', he⟩ := List.mem_map.1 ((hent (entryOf f)).1 (List.mem_map_of_mem hfm))
        rw [fresh_eq (hfr f hfm) (hfr' f' hfm') he.symm]; exact hfm'
      · intro hfm
        obtain ⟨f', hfm', he⟩ := List.mem_map.1 ((hent (entryOf f)).2 (List.mem_map_of_mem hfm))
        rw [fresh_eq (hfr' f hfm) (hfr f' hfm') he.symm]; exact hfm'
    · intro f hfm
      obtain ⟨p, n, ha, hh, hl⟩ := (hm _).1 (List.mem_map_of_mem hfm)
      have ea : f.arc = pathText p := by
        have : (entryOf f).arc = pathText p := by cases n <;> simp [listed] at hl <;> rw [← hl]
        exact this
      rw [ea]
      intro h0
      exact pathText_chars (at_nameOk ha hok) h0

end Parfu
