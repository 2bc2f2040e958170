/-
C77: the tree changes between the scan and the copying (parfu 0.5.1).
-/
import Verif.LegacyThree
import Verif.PropsChange
set_option autoImplicit false

namespace Parfu
open SplitSpec Props MoveSpec TarSpec LegacyRunSpec ScanSpec LegacyScanSpec

/-- The header of what is there now, and its data up to the scanned size, are in one piece. -/
theorem entry_holds_now {L : LegEnv} {A : Bytes} {dstart : Nat} {acc : Int} {g : Frag × List Frag}
    (hg : Laid acc g) (he : NowOk L g.1) (hother : g.1.kind ≠ .reg → g.1.size ≤ 0)
    (hp : ∀ f ∈ g.2, Holds A (dstart + (fragStart f).toNat) (pieceOf L f)) :
    Holds A (dstart + g.1.locA.toNat) (hdrOf L g.1.rel ++ (bodyOf L g.1).take (dataLen g.1).toNat) := by
  have hlen := he.len
  have hpos := hg.pos
  have hloc := hg.loc
  by_cases hs : Small 512 acc g.1
  · obtain ⟨f, h1, h2, h3, h4, _⟩ := hg.good.small hs
    obtain ⟨s1, s2, s3, s4, s5⟩ := hg.good.same f (by rw [h1]; simp)
    have hst : fragStart f = g.1.locA := by unfold fragStart; rw [if_pos h4, h2, s5]; omega
    have := hp f (by rw [h1]; simp)
    rw [hst] at this
    have hd : pieceOf L f = hdrOf L g.1.rel ++ (bodyOf L g.1).take (dataLen g.1).toNat := by
      unfold pieceOf
      rw [if_pos h4, s1]
      congr 1
      unfold dataOf bodyOf dataLen
      rw [s3, h3, h4, s1]
      by_cases hk : g.1.kind = .reg
      · by_cases hz : 0 < g.1.size
        · rw [if_pos ⟨hk, hz⟩, if_pos hk, show max g.1.size 0 = g.1.size by omega]; simp
        · rw [if_neg (by omega), if_pos hk, show (max g.1.size 0).toNat = 0 by omega]; simp
      · rw [if_neg (fun h => hk h.1), if_neg hk]; simp
    rw [← hd]; exact this
  · have hc := hg.cov hs
    have hsz := hg.large hs
    obtain ⟨l1, l2, l3⟩ := hg.good.large hs
    have hk : g.1.kind = .reg := by
      by_contra hk
      have := hother hk; omega
    have hroom := room_ge (bl := 512) (by omega) g.1
    have hdl : dataLen g.1 = g.1.size := by unfold dataLen; omega
    have hz : g.1.size ≤ (if room 512 g.1 % acc = 0 then room 512 g.1 - g.1.hdr else g.1.size) := by
      split <;> omega
    have hdata : ∀ f ∈ g.2, Holds A (dstart + f.locA.toNat) (dataOf L f) := by
      intro f hf
      have := hp f hf
      obtain ⟨s1, s2, s3, s4, s5⟩ := hg.good.same f hf
      have f1 := (l3 f hf).1
      have f2 := covers_locO hc f hf
      unfold pieceOf at this
      unfold fragStart at this
      by_cases h0 : f.locO = 0
      · rw [if_pos h0, if_pos h0, holds_append, s1] at this
        have h2 := this.2
        have : dstart + (f.locA - f.hdr).toNat + (hdrOf L g.1.rel).length = dstart + f.locA.toNat := by omega
        rw [this] at h2
        exact h2
      · rw [if_neg h0, if_neg h0] at this
        simpa using this
    have hc2 := covers_holds (L := L) (A := A) (dstart := dstart) (loc := g.1.locA) (hdr := g.1.hdr) (rel := g.1.rel)
      (by omega) g.2 0 _ hc (le_refl _) (fun f hf => ⟨(hg.good.same f hf).1, by rw [(hg.good.same f hf).2.2.1, hk], (l3 f hf).1⟩) hdata
    have hb : bodyOf L g.1 = contOf L g.1.rel := by unfold bodyOf; rw [if_pos hk]
    rw [holds_append, hb, hdl]
    constructor
    · obtain ⟨f0, fs, hf⟩ := List.exists_cons_of_ne_nil l2
      have h0 : f0.locO = 0 := by rw [hf] at hc; exact hc.1
      have := hp f0 (by rw [hf]; simp)
      obtain ⟨s1, s2, s3, s4, s5⟩ := hg.good.same f0 (by rw [hf]; simp)
      have f1 := (l3 f0 (by rw [hf]; simp)).1
      unfold pieceOf fragStart at this
      rw [if_pos h0, if_pos h0, holds_append, s1] at this
      have e : f0.locA - f0.hdr = g.1.locA := by omega
      rw [e] at this
      exact this.1
    · have e : dstart + g.1.locA.toNat + (hdrOf L g.1.rel).length = dstart + (g.1.locA + g.1.hdr + 0).toNat := by omega
      rw [e]
      simp only [Int.toNat_zero, List.drop_zero] at hc2
      generalize (if room 512 g.1 % acc = 0 then room 512 g.1 - g.1.hdr else g.1.size) = z at hz hc2
      have e2 : (z - 0).toNat = g.1.size.toNat + (z.toNat - g.1.size.toNat) := by omega
      rw [e2, List.take_add, holds_append] at hc2
      exact hc2.1

/-- An entry whose file takes as many blocks as it did is read as what is there now. -/
theorem readsTo_entry_now {L : LegEnv} {A : Bytes} {dstart : Nat} {acc : Int} {g : Frag × List Frag} {top : Bytes} {root : FNode}
    {p : List Bytes} {n n' : FNode} (hg : Laid acc g) (he : EntNow L top root g.1 p n n')
    (hblk : pad512 (contentOf n').length = pad512 (contentOf n).length)
    (hp : ∀ f ∈ g.2, Holds A (dstart + (fragStart f).toNat) (pieceOf L f))
    (hA : dstart + (g.1.locA + room 512 g.1).toNat ≤ A.length) :
    ∃ D m, D.length = (contentOf n').length ∧ D.take (contentOf n).length = (contentOf n').take (contentOf n).length ∧
      memberOf L.env (baseOf top) p (withData n' D) = some m ∧
      ReadsTo A (dstart + g.1.locA.toNat) (dstart + (g.1.locA + room 512 g.1).toNat) [m] := by
  have hother : g.1.kind ≠ .reg → g.1.size ≤ 0 := by
    intro hk
    have h1 := (he.other hk).2
    have h2 := he.size
    rw [h1] at h2
    unfold dataLen at h2
    simp at h2
    omega
  have hh := entry_holds_now hg he.toNowOk hother hp
  obtain ⟨t, _, ht⟩ := he.hdr
  have hl := C01_header_length L.env t _ ht
  have hlen := he.len
  have hloc := hg.loc
  have hsz := he.size
  rw [he.body, hsz, Int.toNat_natCast] at hh
  have hroom : room 512 g.1 = (((hdrOf L g.1.rel).length + pad512 (contentOf n').length : Nat) : Int) := by
    rw [hblk]
    unfold room pad512
    push_cast
    rw [hsz, hlen]
    omega
  have e : dstart + (g.1.locA + room 512 g.1).toNat =
      dstart + g.1.locA.toNat + (hdrOf L g.1.rel).length + pad512 (contentOf n').length := by
    rw [hroom]; omega
  rw [e] at hA ⊢
  have hpd : (contentOf n').length ≤ pad512 (contentOf n').length := by unfold pad512; omega
  have hDl : ((A.drop (dstart + g.1.locA.toNat + (hdrOf L g.1.rel).length)).take (contentOf n').length).length = (contentOf n').length := by
    rw [List.length_take, List.length_drop]; omega
  generalize hD : (A.drop (dstart + g.1.locA.toNat + (hdrOf L g.1.rel).length)).take (contentOf n').length = D at hDl
  rw [holds_append] at hh
  have hHD : Holds A (dstart + g.1.locA.toNat) (hdrOf L g.1.rel ++ D) := by
    rw [holds_append]
    refine ⟨hh.1, ?_⟩
    unfold Holds
    rw [hDl, hD]
  have hpre : D.take (contentOf n).length = (contentOf n').take (contentOf n).length := by
    have h2 := hh.2
    unfold Holds at h2
    rw [List.length_take] at h2
    rw [← hD, List.take_take, h2]
  obtain ⟨m, hm, _⟩ := he.reads D (zeros (pad512 D.length - D.length)) [] hDl (by
    rw [← hDl] at hpd; simp only [zeros, List.length_replicate]; omega)
  refine ⟨D, m, hDl, hpre, hm, ?_⟩
  rw [← hDl]
  refine readsTo_member hHD hl.2.2 (not_zero_block ht) (by rw [hDl]; exact hA) ?_
  intro padding rest hpad
  obtain ⟨m', hm', hr⟩ := he.reads D padding rest hDl hpad
  rw [hm] at hm'
  cases hm'
  exact hr

theorem NowOk.same {L : LegEnv} {e e' : Frag} (h : NowOk L e) (hs : SameFile e' e) : NowOk L e' := by
  obtain ⟨s1, s2, s3, s4, s5⟩ := hs
  exact ⟨by rw [s1]; exact h.hdr, by rw [s1, s5]; exact h.len, by rw [s1, s3]; exact h.reg⟩

theorem EntNow.same {L : LegEnv} {top : Bytes} {root : FNode} {e e' : Frag} {p : List Bytes} {n n' : FNode}
    (h : EntNow L top root e p n n') (hs : SameFile e' e) (hz : e'.size = e.size) : EntNow L top root e' p n n' := by
  obtain ⟨s1, s2, s3, s4, s5⟩ := id hs
  have hb : bodyOf L e' = bodyOf L e := by unfold bodyOf; rw [s1, s3]
  have hdl : dataLen e' = dataLen e := by unfold dataLen; rw [hz]
  exact ⟨h.toNowOk.same hs, h.vis, h.there, h.changed, by rw [hb]; exact h.body, by rw [hdl]; exact h.size,
    by rw [s3, hz]; exact h.kind, by rw [s3]; exact h.other, by rw [s1]; exact h.reads⟩

end Parfu

namespace Parfu.Props
open Parfu ScanSpec LegacyScanSpec MoveSpec TarSpec LegacyRunSpec SplitSpec

theorem alike_blocks {n n' : FNode} (h : Alike n n') : pad512 (contentOf n').length = pad512 (contentOf n).length := by
  cases n <;> cases n' <;> simp only [Alike] at h <;> first | exact h.elim | exact h.symm | rfl

theorem alike_changed_leg {n n' : FNode} (h : Alike n n') (hs : (contentOf n').length < 2 ^ 33 - 1) : Changed n n' := by
  cases n <;> cases n' <;> simp only [Alike] at h <;> first | exact h.elim | exact h | skip
  exact hs

theorem stored_withData {n n' : FNode} {D : Bytes} (h : Changed n n') (hl : D.length = (contentOf n').length)
    (hp : D.take (contentOf n).length = (contentOf n').take (contentOf n).length) : Stored n n' (withData n' D) := by
  cases n <;> cases n' <;> simp only [Changed] at h <;> first | exact h.elim | skip
  · exact ⟨D, rfl, hl, hp⟩
  · rfl
  · rfl

/-- The entries of a run and what is there now. -/
theorem legacy_now {L0 L : LegEnv} {Q : QSort Frag} {nul top : Bytes} {root : FNode} (hp0 : Platform L0 nul) (hp : Platform L nul)
    (ha : LegArchivable L0.env L0.fs top root)
    (hnow : ∀ p n, Visible root p n → describe p n ≠ none →
      ∃ n', L.fs (baseOf top ++ [47] ++ pathText p) = some n' ∧ Changed n n' ∧ MetaOk L.env (metaOf n'))
    {seen : Option FNode} (hseen : DirOrLink seen) {n : Nat} (hn : 0 < n)
    {front0 : List WriteReq} {wss0 : List (List WriteReq)}
    (h0 : legacyMain L0 Q nul top seen root n = .ok (some (front0, wss0))) :
    ∃ es front wss cat gs r call,
      (∀ L', legacyMain L' Q nul top seen root n = legacyRun L' nul 512 legBucket blockingName es n) ∧
      NowRun L nul blockingName legBucket es n front wss cat gs r call ∧ (es.map Frag.arc).Nodup ∧
      (∀ p n, Visible root p n → describe p n ≠ none → ∃ e ∈ es, e.arc = pathText p) ∧ es.Pairwise (fun a b => a.size ≤ b.size) ∧
      (∀ e ∈ es, Plain e) ∧ ∀ e ∈ es, ∃ p n n', e.arc = pathText p ∧ describe p n ≠ none ∧ Headed top p e ∧ Marks e n ∧ EntNow L top root e p n n' := by
  obtain ⟨es, ms, h1, h3, h4, h5, h8, h9, h6, h7⟩ := main_run hp0 ha Q
  rw [h1 seen ((topAllowed_iff seen).2 hseen)] at h0
  have hent : ∀ e ∈ es, ∃ p n n', e.arc = pathText p ∧ describe p n ≠ none ∧ Headed top p e ∧ Marks e n ∧ EntNow L top root e p n n' := by
    intro e he
    obtain ⟨p, n, hv, hd, harc, hh, hm, _⟩ := h7 e he
    obtain ⟨m0, _, hem, _⟩ := forall2_mem_left h3.members e he
    obtain ⟨n', k1, k2, k3⟩ := hnow p n hv hd
    exact ⟨p, n, n', harc, hd, hh, hm, ent_now ha hv hd hem hh hm k1 k2 k3⟩
  have hs : LegSetup L legBucket := ⟨hp.lax, hp.clock, hp.clockCat, hp.clockGap, by decide, by decide, by decide⟩
  obtain ⟨front, wss, cat, gs, r, call, hrun⟩ := now_run h3 hs (fun e he => by
    obtain ⟨p, n, n', _, _, _, _, hen⟩ := hent e he
    exact hen.toNowOk) blocking_free hp.nul hn h0
  exact ⟨es, front, wss, cat, gs, r, call, fun L' => h1 seen ((topAllowed_iff seen).2 hseen) L' n, hrun, h5, h8, h9, h3.plain, hent⟩

/-- **C77 (partial)** Files may change while they wait to be copied by parfu 0.5.1, as long as each still
takes the same number of 512-byte blocks; directories may gain or lose entries that were not listed; links
may point elsewhere (short targets); permissions, owners and times may change.  Then a run that would have
succeeded on the tree as it was succeeds, on all ranks, and the archive reads, besides parfu's own members,
as one member for each listed object: the object as it is now - except that of a file that has become longer
only the bytes up to its old size are sure to be right.  In particular no change of one object damages the
member of another.
Missing: files that need more or fewer blocks (`C77_grown_file_hides_others`,
`C77_shrunk_file_hides_others`), and changes while the ranks are at work. -/
theorem C77_same_blocks_partial (L0 L : LegEnv) (Q : QSort Frag) (nul top : Bytes) (root : FNode) (hp0 : Platform L0 nul)
    (hp : Platform L nul) (ha : LegArchivable L0.env L0.fs top root)
    (hnow : ∀ p n, Visible root p n → describe p n ≠ none →
      ∃ n', L.fs (baseOf top ++ [47] ++ pathText p) = some n' ∧ Alike n n' ∧ fileLength n' < 2 ^ 33 - 1 ∧ MetaOk L.env (metaOf n'))
    (seen : Option FNode) (hseen : DirOrLink seen) (n : Nat) (hn : 0 < n)
    (front0 : List WriteReq) (wss0 : List (List WriteReq))
    (h0 : legacyMain L0 Q nul top seen root n = .ok (some (front0, wss0))) :
    ∃ front wss, legacyMain L Q nul top seen root n = .ok (some (front, wss)) ∧
      ((∀ cat, (512, cat) ∈ front → (cat.length + 1024) % 4194304 ≠ 0) →
        ∀ (ws : List WriteReq), ws.Perm (front ++ wss.flatten) → ∀ old : Bytes,
        ∃ (cat : Member) (all : List Member) (objs : List (List Bytes × FNode)),
          readArchive (ws.foldl writeAt old) = some (cat :: all) ∧ terminated (ws.foldl writeAt old) = true ∧
          cat.path = catalogName ∧
          (all.filter fun m => !ownMember m).map some = objs.map (fun x => memberOf L.env (baseOf top) x.1 x.2) ∧
          (objs.map Prod.fst).Nodup ∧
          (∀ p, p ∈ objs.map Prod.fst ↔ ∃ n, Visible root p n ∧ describe p n ≠ none) ∧
          (∀ p st, (p, st) ∈ objs → ∃ n n', Visible root p n ∧ L.fs (baseOf top ++ [47] ++ pathText p) = some n' ∧
            Stored n n' st)) := by
  obtain ⟨es, front, wss, cat, gs, r, call, hmain, hrun, hnd, hall, _, _, hent⟩ := legacy_now hp0 hp ha (fun p n hv hd => by
    obtain ⟨n', k1, k2, k3, k4⟩ := hnow p n hv hd
    refine ⟨n', k1, alike_changed_leg k2 ?_, k4⟩
    cases n' <;> first | exact k3 | (simp [contentOf])) hseen hn h0
  refine ⟨front, wss, by rw [hmain]; exact hrun.run, ?_⟩
  intro hgap ws hws old
  have hs : LegSetup L legBucket := ⟨hp.lax, hp.clock, hp.clockCat, hp.clockGap, by decide, by decide, by decide⟩
  have hclen : cat.length < 2 ^ 32 := listToBuffer_le hrun.catalog
  have htext : (512, cat) ∈ front :=
    (frontWrites_ok (acc := legBucket.toNat) (by decide) (by decide) (by decide) hclen hs.clockCat hs.clockGap hrun.before).text
  obtain ⟨ds, hds, _, hwr, _, mc, xs, hmc, hmcd, hxs, hfr⟩ := now_file (by decide) (by decide) hs hrun (by
    have := hgap cat htext
    have hb : legBucket.toNat = 4194304 := rfl
    rw [hb]; omega) ws hws old
  generalize ws.foldl writeAt old = A at *
  -- each entry
  have hone : ∀ g ∈ gs.map (fun g => (g.1, g.2.map (named nul))), ∃ x : Member × (List Bytes × FNode),
      (ds + (g.1.locA + room 512 g.1).toNat ≤ A.length →
        ReadsTo A (ds + g.1.locA.toNat) (ds + (g.1.locA + room 512 g.1).toNat) [x.1]) ∧
      some x.1 = memberOf L.env (baseOf top) x.2.1 x.2.2 ∧
      (∃ n n', Visible root x.2.1 n ∧ L.fs (baseOf top ++ [47] ++ pathText x.2.1) = some n' ∧ Stored n n' x.2.2) ∧
      ownMember x.1 = false ∧ g.1.arc = pathText x.2.1 ∧ ∃ n, Visible root x.2.1 n ∧ describe x.2.1 n ≠ none := by
    intro g hg
    rw [List.mem_map] at hg
    obtain ⟨g0, hg0, rfl⟩ := hg
    obtain ⟨e, he, hsf, hsz⟩ := forall2_mem_left hrun.lay.same g0 hg0
    obtain ⟨hl, _, _⟩ := hrun.lay.laid g0 hg0
    obtain ⟨p, n1, n', harc, hd, _, _, hen⟩ := hent e he
    have hen' := hen.same hsf hsz
    have harc' : g0.1.arc = pathText p := by rw [← harc]; exact hsf.2.1
    have hpc : ∀ f ∈ g0.2.map (named nul), Holds A (ds + (fragStart f).toNat) (pieceOf L f) := by
      intro f hf
      apply hwr.pieces
      rw [← named_out, List.mem_flatMap]
      exact ⟨(g0.1, g0.2.map (named nul)), List.mem_map.2 ⟨g0, hg0, rfl⟩, hf⟩
    have hblk : pad512 (contentOf n').length = pad512 (contentOf n1).length := by
      obtain ⟨n2, k1, k2, _⟩ := hnow p n1 hen.vis hd
      rw [hen.there] at k1
      cases k1
      exact alike_blocks k2
    by_cases hb : ds + (g0.1.locA + room 512 g0.1).toNat ≤ A.length
    · obtain ⟨D, m, d1, d2, d3, d4⟩ := readsTo_entry_now (named_laid (nul := nul) hl) hen' hblk hpc hb
      exact ⟨(m, p, withData n' D), fun _ => d4, d3.symm, ⟨n1, n', hen.vis, hen.there, stored_withData hen.changed d1 d2⟩,
        not_own (memberOf_path d3), harc', n1, hen.vis, hd⟩
    · obtain ⟨m, hm, _⟩ := hen'.reads (contentOf n') (zeros (pad512 (contentOf n').length - (contentOf n').length)) [] rfl (by
        have : (contentOf n').length ≤ pad512 (contentOf n').length := by unfold pad512; omega
        simp only [zeros, List.length_replicate]; omega)
      exact ⟨(m, p, withData n' (contentOf n')), fun h => absurd h hb, hm.symm,
        ⟨n1, n', hen.vis, hen.there, stored_withData hen.changed rfl rfl⟩, not_own (memberOf_path hm), harc', n1, hen.vis, hd⟩
  obtain ⟨xs', hF⟩ := forall2_of_forall hone
  have hfrq : (outFrags gs).map (named nul) = [] ++ outFrags (gs.map fun g => (g.1, g.2.map (named nul))) := by
    rw [named_out]; rfl
  obtain ⟨all, a1, a2⟩ := read_entries_gen hs hrun.ready hwr (gs.map fun g => (g.1, g.2.map (named nul))) (xs'.map Prod.fst) []
    (-1) 0 hfrq (by rw [named_out]; exact hrun.ready.tight) (fun _ => ⟨rfl, rfl⟩) (by simp)
    (by
      intro g hg
      rw [List.mem_map] at hg
      obtain ⟨g0, hg0, rfl⟩ := hg
      obtain ⟨l1, l2, l3⟩ := hrun.lay.laid g0 hg0
      refine ⟨named_laid l1, by simpa using l2, ?_⟩
      intro f hf
      cases hq : g0.2 with
      | nil => exact absurd hq l2
      | cons f0 fs =>
        rw [hq] at hf l3
        simp only [List.map_cons, List.head?_cons, Option.mem_def, Option.some.injEq] at hf
        subst hf
        exact l3 f0 (by simp))
    (by
      rw [List.forall₂_map_right_iff]
      exact hF.imp fun g x hx => ⟨hx.1, hx.2.2.2.1⟩)
  have hread := hfr all (by simpa using a1)
  rw [List.drop_zero] at hread
  refine ⟨mc, xs ++ all, xs'.map Prod.snd, hread.1, hread.2, hmc.1, ?_, ?_, ?_, ?_⟩
  · have : (xs ++ all).filter (fun m => !ownMember m) = xs'.map Prod.fst := by
      rw [List.filter_append, a2, List.filter_eq_nil_iff.2 (fun x hx => by simp [hxs x hx])]
      rfl
    rw [this, List.map_map, List.map_map]
    apply List.map_congr_left
    intro x hx
    obtain ⟨g, _, hg⟩ := forall2_mem_right hF x hx
    exact hg.2.1
  · apply List.Nodup.of_map pathText
    have h1 : (xs'.map fun x => pathText x.2.1) = gs.map fun g => g.1.arc := by
      have h2 : List.Forall₂ (fun a b => a = b) (gs.map fun g => g.1.arc) (xs'.map fun x => pathText x.2.1) := by
        rw [List.forall₂_map_left_iff, List.forall₂_map_right_iff]
        rw [List.forall₂_map_left_iff] at hF
        exact hF.imp fun g x hx => hx.2.2.2.2.1
      rw [List.forall₂_eq_eq_eq] at h2
      exact h2.symm
    have h3 : (gs.map fun g => g.1.arc) = es.map Frag.arc := by
      have h2 : List.Forall₂ (fun a b => a = b) (gs.map fun g => g.1.arc) (es.map Frag.arc) := by
        rw [List.forall₂_map_left_iff, List.forall₂_map_right_iff]
        exact hrun.lay.same.imp fun g e he => he.1.2.1
      rw [List.forall₂_eq_eq_eq] at h2
      exact h2
    rw [List.map_map, List.map_map]
    show (xs'.map fun x => pathText x.2.1).Nodup
    rw [h1, h3]
    exact hnd
  · intro p
    rw [List.map_map, List.mem_map]
    constructor
    · rintro ⟨x, hx, rfl⟩
      obtain ⟨g, _, hg⟩ := forall2_mem_right hF x hx
      exact hg.2.2.2.2.2
    · rintro ⟨n1, hv, hd⟩
      obtain ⟨e, he, harc⟩ := hall p n1 hv hd
      obtain ⟨g, hg, hge⟩ := forall2_mem_right hrun.lay.same e he
      rw [List.forall₂_map_left_iff] at hF
      obtain ⟨x, hx, hgx⟩ := forall2_mem_left hF g hg
      refine ⟨x, hx, ?_⟩
      obtain ⟨n2, hv2, _⟩ := hgx.2.2.2.2.2
      apply pathText_inj (at_nameOk hv2.1 ha.treeOk) (at_nameOk hv.1 ha.treeOk)
      rw [← hgx.2.2.2.2.1, ← harc]
      exact hge.1.2.1
  · intro p st hps
    rw [List.mem_map] at hps
    obtain ⟨x, hx, hxe⟩ := hps
    obtain ⟨g, _, hg⟩ := forall2_mem_right hF x hx
    have := hg.2.2.1
    rw [hxe] at this
    exact this

/-! ### a file that needs more or fewer blocks than it did -/

/-- parfu 0.5.1 on a directory with two files, the second one longer, that fit one bucket, if the first file is `(mb', cb')` by
the time it is copied. -/
theorem two_changed (L0 L : LegEnv) (Q : QSort Frag) (nul top : Bytes) (mt mb mc : Meta) (nb cb nc cc : Bytes)
    (hp0 : Platform L0 nul) (hp : Platform L nul) (hnl : nul.length ≤ 100)
    (ha : LegArchivable L0.env L0.fs top (twoFiles mt nb mb cb nc mc cc))
    (seen : Option FNode) (hseen : DirOrLink seen) (n : Nat) (hn : 0 < n)
    (hdot : nb.head? ≠ some 46 ∧ nc.head? ≠ some 46) (hbase : (baseOf top).length < 100)
    (hpb : (baseOf top ++ [47] ++ nb).length ≤ 100) (hpc : (baseOf top ++ [47] ++ nc).length ≤ 100)
    (hb : 0 < cb.length) (hbc : cb.length < cc.length) (hfit : 1536 + pad512 cb.length + pad512 cc.length ≤ 4194304)
    (mt' : Meta) (o' : Bool) (k' : Kids) (mb' : Meta) (cb' : Bytes)
    (htop : L.fs (baseOf top ++ [47]) = some (.dir mt' o' k') ∧ MetaOk L.env mt')
    (hfile : L.fs (baseOf top ++ [47] ++ nb) = some (.reg mb' cb') ∧ MetaOk L.env mb' ∧ cb'.length < 2 ^ 33 - 1)
    (hrest : L.fs (baseOf top ++ [47] ++ nc) = some (.reg mc cc) ∧ MetaOk L.env mc) :
    ∃ front wss, legacyMain L Q nul top seen (twoFiles mt nb mb cb nc mc cc) n = .ok (some (front, wss)) ∧
      (∀ (ws : List WriteReq), ws.Perm (front ++ wss.flatten) → ∀ old : Bytes,
        ∃ (x y z : Frag) (ds : Nat) (cat : Member) (own : List Member) (md : Member),
          cat.path = catalogName ∧ (∀ m ∈ own, ownMember m = true) ∧ ReadsTo (ws.foldl writeAt old) 0 ds (cat :: own) ∧
          memberOf L.env (baseOf top) [] (.dir mt' o' k') = some md ∧
          ReadsTo (ws.foldl writeAt old) ds (ds + 512) [md] ∧
          ThreeFile L legBucket x y z ds (ws.foldl writeAt old) ∧
          y.size = cb.length ∧ (room 512 y).toNat = 512 + pad512 cb.length ∧ (room 512 z).toNat = 512 + pad512 cc.length ∧
          contOf L y.rel = cb' ∧ ((hdrOf L y.rel).length = 512 ∧ ∀ rest, (hdrOf L y.rel ++ rest).take 1024 ≠ zeros 1024) ∧
          ∀ D padding rest : Bytes, D.length = cb'.length → D.length + padding.length = pad512 D.length →
            ∃ m, memberOf L.env (baseOf top) [nb] (.reg mb' D) = some m ∧
              readMember (hdrOf L y.rel ++ (D ++ (padding ++ rest))) = some (m, rest)) := by
  have hpcb : cb.length ≤ pad512 cb.length ∧ cc.length ≤ pad512 cc.length := by unfold pad512; omega
  have hshort : ∀ p m, Visible (twoFiles mt nb mb cb nc mc cc) p m → (archivedPath (baseOf top) p m).length ≤ 100 ∧
      ∀ d t, m = .lnk d t → t.length ≤ 100 := by
    intro p m hv
    rcases two_cases hv with ⟨rfl, rfl⟩ | ⟨rfl, rfl⟩ | ⟨rfl, rfl⟩
    · refine ⟨?_, fun d t h => by unfold twoFiles at h; cases h⟩
      simp only [archivedPath, twoFiles, if_true, List.length_append, List.length_singleton]; omega
    · refine ⟨?_, fun d t h => by cases h⟩
      simpa [archivedPath, pathText] using hpb
    · refine ⟨?_, fun d t h => by cases h⟩
      simpa [archivedPath, pathText] using hpc
  obtain ⟨front0, wss0, h0⟩ := C48_run_succeeds L0 Q nul top _ hp0 hnl ha seen hseen n hn hshort (by
    intro os hnd hv
    have hl := (List.subperm_of_subset hnd (l₂ := [([], twoFiles mt nb mb cb nc mc cc), ([nb], .reg mb cb), ([nc], .reg mc cc)]) (fun o ho => by
      rcases o with ⟨p, m⟩
      rcases two_cases (hv _ ho) with ⟨h1, h2⟩ | ⟨h1, h2⟩ | ⟨h1, h2⟩ <;> simp only [] at h1 h2 <;> rw [h1, h2] <;> simp)).length_le
    simp only [List.length_cons, List.length_nil] at hl
    have : ∀ o ∈ os, fileLength o.2 / 4194304 + 2 ≤ 2 := by
      intro o ho
      rcases o with ⟨p, m⟩
      rcases two_cases (hv _ ho) with ⟨_, h⟩ | ⟨_, h⟩ | ⟨_, h⟩ <;> simp only [] at h <;> rw [h]
      · simp [fileLength, twoFiles]
      · simp only [fileLength]; omega
      · simp only [fileLength]; omega
    have := sum_le_mul (fun o => fileLength o.2 / 4194304 + 2) os 2 this
    omega)
  have hnow : ∀ p n, Visible (twoFiles mt nb mb cb nc mc cc) p n → describe p n ≠ none →
      ∃ n', L.fs (baseOf top ++ [47] ++ pathText p) = some n' ∧ Changed n n' ∧ MetaOk L.env (metaOf n') := by
    intro p n hv _
    rcases two_cases hv with ⟨rfl, rfl⟩ | ⟨rfl, rfl⟩ | ⟨rfl, rfl⟩
    · exact ⟨.dir mt' o' k', by simpa [pathText] using htop.1, trivial, htop.2⟩
    · exact ⟨.reg mb' cb', by simpa [pathText] using hfile.1, hfile.2.2, hfile.2.1⟩
    · refine ⟨.reg mc cc, by simpa [pathText] using hrest.1, ?_, hrest.2⟩
      show cc.length < 2 ^ 33 - 1
      omega
  obtain ⟨es, front, wss, cat, gs, r, call, hmain, hrun, hnd, hall, hsort, hplain, hent⟩ := legacy_now hp0 hp ha hnow hseen hn h0
  refine ⟨front, wss, by rw [hmain]; exact hrun.run, ?_⟩
  intro ws hws old
  obtain ⟨x, y, z, rfl, ⟨x1, x2, x3, x4⟩, ⟨y1, y2, y3, y4⟩, ⟨z1, z2, z3, z4⟩⟩ := two_entries ha hdot hbc hnd hall hsort
    (fun e he => by obtain ⟨p, m, n', k1, k2, k3, k4, k5⟩ := hent e he; exact ⟨p, m, k5.vis, k1, k3, k4⟩)
  have hh : ∀ (e : Frag) (p : List Bytes), Headed top p e → e.target = [] → (baseOf top ++ [47] ++ pathText p).length ≤ 100 → e.size ≤ 4194304 → e.hdr = 512 := by
    intro e p he ht hl hz
    have := he.made.2
    rw [hdr512 (by rw [he.rel]; exact hl) (by rw [ht]; simp) (by omega)] at this
    have := Except.ok.inj this
    have := he.min
    omega
  have hx512 := hh x [] x4 x3 (by simp [pathText]; omega) (by omega)
  have hy512 := hh y [nb] y4 y3 hpb (by omega)
  have hz512 := hh z [nc] z4 z3 hpc (by omega)
  -- what is there now
  have hname : nb ≠ [] ∧ nc ≠ [] ∧ nb ≠ nc := by
    have h5 := hnd
    simp only [List.map_cons, List.map_nil, x1, y1, z1, List.nodup_cons, List.mem_cons, List.not_mem_nil, or_false, not_or] at h5
    exact ⟨fun h => h5.1.1 h.symm, fun h => h5.1.2 h.symm, h5.2.1⟩
  have hex : EntNow L top (twoFiles mt nb mb cb nc mc cc) x [] (twoFiles mt nb mb cb nc mc cc) (.dir mt' o' k') := by
    obtain ⟨p, m, n', k1, k2, k3, k4, k5⟩ := hent x (by simp)
    rw [x1] at k1
    rcases two_cases k5.vis with ⟨rfl, rfl⟩ | ⟨rfl, rfl⟩ | ⟨rfl, rfl⟩
    · have := k5.there
      rw [show baseOf top ++ [47] ++ pathText [] = baseOf top ++ [47] by simp [pathText], htop.1] at this
      cases this
      exact k5
    · exact absurd k1.symm (by simpa [pathText] using hname.1)
    · exact absurd k1.symm (by simpa [pathText] using hname.2.1)
  have hey : EntNow L top (twoFiles mt nb mb cb nc mc cc) y [nb] (.reg mb cb) (.reg mb' cb') := by
    obtain ⟨p, m, n', k1, k2, k3, k4, k5⟩ := hent y (by simp)
    rw [y1] at k1
    rcases two_cases k5.vis with ⟨rfl, rfl⟩ | ⟨rfl, rfl⟩ | ⟨rfl, rfl⟩
    · exact absurd k1 (by simpa [pathText] using hname.1)
    · have := k5.there
      rw [show baseOf top ++ [47] ++ pathText [nb] = baseOf top ++ [47] ++ nb by simp [pathText], hfile.1] at this
      cases this
      exact k5
    · exact absurd k1 (by simpa [pathText] using hname.2.2)
  have hez : NowOk L z := by
    obtain ⟨p, m, n', k1, k2, k3, k4, k5⟩ := hent z (by simp)
    exact k5.toNowOk
  have hs : LegSetup L legBucket := ⟨hp.lax, hp.clock, hp.clockCat, hp.clockGap, by decide, by decide, by decide⟩
  have hclen : cat.length < 2 ^ 32 := listToBuffer_le hrun.catalog
  have hlb : legBucket = 4194304 := rfl
  have hcat : 512 + cat.length + 512 < 4194304 := by
    have hlines : ∀ e ∈ [x, y, z], (catLine nul true e).length ≤ 340 + 0 + 2 * 100 := by
      intro e he
      have hpl := hplain e he
      simp only [List.mem_cons, List.not_mem_nil, or_false] at he
      simp only [List.length_append, List.length_singleton] at hpb hpc
      rcases he with rfl | rfl | rfl
      · exact lineArc_le hpl (by rw [x1]; simp) (by rw [x3]; simp)
      · exact lineArc_le hpl (by rw [y1]; omega) (by rw [y3]; simp)
      · exact lineArc_le hpl (by rw [z1]; omega) (by rw [z3]; simp)
    have hsum := sum_le_mul (fun e => (catLine nul true e).length) [x, y, z] 540 hlines
    have hfl : (([x, y, z].map (catLine nul true)).flatten).length = ([x, y, z].map (fun e => (catLine nul true e).length)).sum := by
      rw [List.length_flatten, List.map_map]; rfl
    obtain ⟨t1, t2, _⟩ := listToBuffer_text hrun.catalog
    rw [t1]
    have v1 : versionText.length = 10 := rfl
    have v2 : (typeText true).length = 10 := rfl
    have hl3 : [x, y, z].length = 3 := rfl
    rw [hl3] at hsum
    simp only [catText, List.length_append, List.length_singleton, hfl, v1, v2, hl3]
    rw [pad10_len (by omega) (by omega), pad10_len (by omega) (by omega), pad10_len (by omega) (by omega)]
    omega
  obtain ⟨ds, hds, _, hwr, him, mc', xs, hmc, hmcd, hxs, hfr⟩ := now_file (by decide) (by decide) hs hrun (by
    have hb : legBucket.toNat = 4194304 := rfl
    rw [hb, Nat.mod_eq_of_lt hcat]; omega) ws hws old
  generalize ws.foldl writeAt old = A at *
  have hkind : ∀ e ∈ [x, y, z], 0 < e.size → e.kind = .reg := by
    intro e he hpos
    obtain ⟨p, m, n', k1, k2, k3, k4, k5⟩ := hent e he
    by_contra hk
    have h1 := (k5.other hk).2
    have h2 := k5.size
    rw [h1] at h2
    unfold dataLen at h2
    simp at h2
    omega
  have ry : (room 512 y).toNat = 512 + pad512 cb.length := by
    have : dataLen y = y.size := by unfold dataLen; omega
    unfold room pad512; rw [this, hy512, y2]; omega
  have rz : (room 512 z).toNat = 512 + pad512 cc.length := by
    have : dataLen z = z.size := by unfold dataLen; omega
    unfold room pad512; rw [this, hz512, z2]; omega
  have h3 := three_file hs hn hrun ⟨hx512, by omega, hex.toNowOk⟩ ⟨hy512, by omega, hkind y (by simp) (by omega), hey.toNowOk⟩
    ⟨hz512, by omega, hkind z (by simp) (by omega), hez⟩ (by omega) hwr him
  have hcont : contOf L y.rel = cb' := by
    have := hey.body
    unfold bodyOf at this
    rw [if_pos (hkind y (by simp) (by omega))] at this
    exact this
  obtain ⟨t, ht1, ht2⟩ := hey.hdr
  obtain ⟨t', ht1', ht2'⟩ := hex.hdr
  have hl := holds_le h3.end_ (by unfold zeros; exact List.cons_ne_nil _ _)
  have hlx : (hdrOf L x.rel).length = 512 := by have := hex.len; omega
  have hly : (hdrOf L y.rel).length = 512 := by have := hey.len; omega
  obtain ⟨md, hmd, hmr⟩ := hex.reads [] [] [] rfl rfl
  refine ⟨x, y, z, ds, mc', xs, md, hmc.1, hxs, hfr, hmd, ?_, h3, y2, ry, rz, hcont, ⟨hly, not_zero_block ht2⟩, hey.reads⟩
  have := readsTo_member (A := A) (H := hdrOf L x.rel) (D := []) (w := ds) (m := md) (by rw [List.append_nil]; exact h3.first) (by omega)
    (not_zero_block ht2') (by
      have : pad512 ([] : Bytes).length = 0 := rfl
      rw [this]; omega) (by
      intro padding rest hpad
      obtain ⟨m', hm', hr⟩ := hex.reads [] padding rest rfl hpad
      rw [hmd] at hm'
      cases hm'
      exact hr)
  have e : ds + (hdrOf L x.rel).length + pad512 ([] : Bytes).length = ds + 512 := by
    have : pad512 ([] : Bytes).length = 0 := rfl
    rw [this]; omega
  rw [e] at this
  exact this

/-- What is at the end of a bucket and of the file. -/
theorem reads_end {A : Bytes} {w : Nat} (h : Holds A w (zeros 1024)) : ReadsAs (A.drop w) [] := by
  unfold Holds at h
  have hz : (zeros 1024).length = 1024 := by unfold zeros; rw [List.length_replicate]
  rw [hz] at h
  exact ⟨by rw [readArchive, if_pos (Or.inr h)], by rw [terminated, if_pos h]⟩

/-- The second member of such an archive, whatever its header says of its length. -/
theorem second_reads {L : LegEnv} {acc : Int} {x y z : Frag} {ds : Nat} {A : Bytes} (h3 : ThreeFile L acc x y z ds A)
    {base nb cb' : Bytes} {mb' : Meta} (hl : (hdrOf L y.rel).length = 512) (hz : ∀ rest, (hdrOf L y.rel ++ rest).take 1024 ≠ zeros 1024)
    (hcont : contOf L y.rel = cb')
    (hreads : ∀ D padding rest : Bytes, D.length = cb'.length → D.length + padding.length = pad512 D.length →
            ∃ m, memberOf L.env base [nb] (.reg mb' D) = some m ∧
              readMember (hdrOf L y.rel ++ (D ++ (padding ++ rest))) = some (m, rest))
    (hA : ds + 1024 + pad512 cb'.length ≤ A.length) :
    ∃ D m, D.length = cb'.length ∧ D.take y.size.toNat = cb'.take y.size.toNat ∧ memberOf L.env base [nb] (.reg mb' D) = some m ∧
      ReadsTo A (ds + 512) (ds + 1024 + pad512 cb'.length) [m] := by
  have hh := h3.second
  rw [hcont, holds_append, hl] at hh
  have hpd : cb'.length ≤ pad512 cb'.length := by unfold pad512; omega
  have hDl : ((A.drop (ds + 512 + 512)).take cb'.length).length = cb'.length := by
    rw [List.length_take, List.length_drop]; omega
  generalize hD : (A.drop (ds + 512 + 512)).take cb'.length = D at hDl
  have hHD : Holds A (ds + 512) (hdrOf L y.rel ++ D) := by
    rw [holds_append]
    refine ⟨hh.1, ?_⟩
    unfold Holds
    rw [hDl, hl, hD]
  have hpre : D.take y.size.toNat = cb'.take y.size.toNat := by
    have h2 := hh.2
    unfold Holds at h2
    rw [List.length_take] at h2
    rw [← hD, List.take_take, h2]
  obtain ⟨m, hm, _⟩ := hreads D (zeros (pad512 D.length - D.length)) [] hDl (by
    rw [← hDl] at hpd; simp only [zeros, List.length_replicate]; omega)
  refine ⟨D, m, hDl, hpre, hm, ?_⟩
  have := readsTo_member hHD (by omega) hz (by rw [hDl]; omega) (m := m) (by
    intro padding rest hpad
    obtain ⟨m', hm', hr⟩ := hreads D padding rest hDl hpad
    rw [hm] at hm'
    cases hm'
    exact hr)
  rw [hDl, hl] at this
  rw [show ds + 1024 + pad512 cb'.length = ds + 512 + 512 + pad512 cb'.length by omega]
  exact this

/-- **C77, violated** If a file grows while parfu 0.5.1 is at work, by as many blocks as the next member needs, that member
cannot be read: a directory with two files, of which the first one has grown.  All ranks report success, the
archive reads to its end mark without complaint, and holds the directory and the first file (its first bytes,
followed by what was planned there: the other file's header and data) - but not the second file, which never
changed. -/
theorem C77_grown_file_hides_others (L0 L : LegEnv) (Q : QSort Frag) (nul top : Bytes) (mt mb mc : Meta) (nb cb nc cc : Bytes)
    (hp0 : Platform L0 nul) (hp : Platform L nul) (hnl : nul.length ≤ 100)
    (ha : LegArchivable L0.env L0.fs top (twoFiles mt nb mb cb nc mc cc))
    (seen : Option FNode) (hseen : DirOrLink seen) (n : Nat) (hn : 0 < n)
    (hdot : nb.head? ≠ some 46 ∧ nc.head? ≠ some 46) (hbase : (baseOf top).length < 100)
    (hpb : (baseOf top ++ [47] ++ nb).length ≤ 100) (hpc : (baseOf top ++ [47] ++ nc).length ≤ 100)
    (hb : 0 < cb.length) (hbc : cb.length < cc.length) (hfit : 1536 + pad512 cb.length + pad512 cc.length ≤ 4194304)
    (mt' : Meta) (o' : Bool) (k' : Kids) (mb' : Meta) (cb' : Bytes)
    (htop : L.fs (baseOf top ++ [47]) = some (.dir mt' o' k') ∧ MetaOk L.env mt')
    (hfile : L.fs (baseOf top ++ [47] ++ nb) = some (.reg mb' cb') ∧ MetaOk L.env mb' ∧ cb'.length < 2 ^ 33 - 1)
    (hrest : L.fs (baseOf top ++ [47] ++ nc) = some (.reg mc cc) ∧ MetaOk L.env mc)
    (hgrown : pad512 cb'.length = pad512 cb.length + 512 + pad512 cc.length) :
    ∃ front wss, legacyMain L Q nul top seen (twoFiles mt nb mb cb nc mc cc) n = .ok (some (front, wss)) ∧
      (∀ (ws : List WriteReq), ws.Perm (front ++ wss.flatten) → ∀ old : Bytes,
        ∃ (cat : Member) (all : List Member) (D : Bytes),
          readArchive (ws.foldl writeAt old) = some (cat :: all) ∧ terminated (ws.foldl writeAt old) = true ∧
          cat.path = catalogName ∧ D.length = cb'.length ∧ D.take cb.length = cb'.take cb.length ∧
          (all.filter fun m => !ownMember m).map some =
            [memberOf L.env (baseOf top) [] (.dir mt' o' k'), memberOf L.env (baseOf top) [nb] (.reg mb' D)]) := by
  obtain ⟨front, wss, h1, h2⟩ := two_changed L0 L Q nul top mt mb mc nb cb nc cc hp0 hp hnl ha seen hseen n hn hdot hbase hpb hpc hb hbc
    hfit mt' o' k' mb' cb' htop hfile hrest
  refine ⟨front, wss, h1, ?_⟩
  intro ws hws old
  obtain ⟨x, y, z, ds, cat, own, md, k1, k2, k3, k4, k5, k6, k7, k8, k9, k10, k11, k12⟩ := h2 ws hws old
  generalize ws.foldl writeAt old = A at *
  have hlb : legBucket.toNat = 4194304 := rfl
  have hl := holds_le k6.end_ (by unfold zeros; exact List.cons_ne_nil _ _)
  obtain ⟨D, m, d1, d2, d3, d4⟩ := second_reads k6 k11.1 k11.2 k10 k12 (by omega)
  obtain ⟨fs, f1, f2⟩ := k6.fill
  rw [k8, k9, show ds + 512 + (512 + pad512 cb.length) + (512 + pad512 cc.length) = ds + 1024 + pad512 cb'.length by omega] at f2
  have hall := ((k3.trans k5).trans d4).trans f2 [] (reads_end k6.end_)
  rw [List.drop_zero] at hall
  simp only [List.cons_append, List.append_nil, List.append_assoc] at hall
  refine ⟨cat, _, D, hall.1, hall.2, k1, d1, ?_, ?_⟩
  · rw [show cb.length = y.size.toNat by omega]; exact d2
  · have h47 : ownMember md = false := not_own (memberOf_path k4)
    have h48 : ownMember m = false := not_own (memberOf_path d3)
    rw [List.filter_append, List.filter_eq_nil_iff.2 (fun a ha => by simp [k2 a ha])]
    simp only [List.nil_append, List.filter_cons, h47, h48, Bool.not_false, if_true]
    rw [List.filter_eq_nil_iff.2 (fun a ha => by simp [f1 a ha]), k4, d3]
    rfl

/-- **C77, violated** If a file becomes shorter by two blocks or more while parfu 0.5.1 is at work, the members behind it
cannot be read: a directory with two files, of which the first one has shrunk.  All ranks report success, the
archive reads to an end mark without complaint - 1024 zero bytes where the rest of the file would have been -
and holds the directory and the first file, but not the second one, which never changed. -/
theorem C77_shrunk_file_hides_others (L0 L : LegEnv) (Q : QSort Frag) (nul top : Bytes) (mt mb mc : Meta) (nb cb nc cc : Bytes)
    (hp0 : Platform L0 nul) (hp : Platform L nul) (hnl : nul.length ≤ 100)
    (ha : LegArchivable L0.env L0.fs top (twoFiles mt nb mb cb nc mc cc))
    (seen : Option FNode) (hseen : DirOrLink seen) (n : Nat) (hn : 0 < n)
    (hdot : nb.head? ≠ some 46 ∧ nc.head? ≠ some 46) (hbase : (baseOf top).length < 100)
    (hpb : (baseOf top ++ [47] ++ nb).length ≤ 100) (hpc : (baseOf top ++ [47] ++ nc).length ≤ 100)
    (hb : 0 < cb.length) (hbc : cb.length < cc.length) (hfit : 1536 + pad512 cb.length + pad512 cc.length ≤ 4194304)
    (mt' : Meta) (o' : Bool) (k' : Kids) (mb' : Meta) (cb' : Bytes)
    (htop : L.fs (baseOf top ++ [47]) = some (.dir mt' o' k') ∧ MetaOk L.env mt')
    (hfile : L.fs (baseOf top ++ [47] ++ nb) = some (.reg mb' cb') ∧ MetaOk L.env mb' ∧ cb'.length < 2 ^ 33 - 1)
    (hrest : L.fs (baseOf top ++ [47] ++ nc) = some (.reg mc cc) ∧ MetaOk L.env mc)
    (hshrunk : pad512 cb'.length + 1024 ≤ pad512 cb.length) :
    ∃ front wss, legacyMain L Q nul top seen (twoFiles mt nb mb cb nc mc cc) n = .ok (some (front, wss)) ∧
      (∀ (ws : List WriteReq), ws.Perm (front ++ wss.flatten) → ∀ old : Bytes,
        ∃ (cat : Member) (all : List Member),
          readArchive (ws.foldl writeAt old) = some (cat :: all) ∧ terminated (ws.foldl writeAt old) = true ∧
          cat.path = catalogName ∧
          (all.filter fun m => !ownMember m).map some =
            [memberOf L.env (baseOf top) [] (.dir mt' o' k'), memberOf L.env (baseOf top) [nb] (.reg mb' cb')]) := by
  obtain ⟨front, wss, h1, h2⟩ := two_changed L0 L Q nul top mt mb mc nb cb nc cc hp0 hp hnl ha seen hseen n hn hdot hbase hpb hpc hb hbc
    hfit mt' o' k' mb' cb' htop hfile hrest
  refine ⟨front, wss, h1, ?_⟩
  intro ws hws old
  obtain ⟨x, y, z, ds, cat, own, md, k1, k2, k3, k4, k5, k6, k7, k8, k9, k10, k11, k12⟩ := h2 ws hws old
  generalize ws.foldl writeAt old = A at *
  have hlb : legBucket.toNat = 4194304 := rfl
  have hl := holds_le k6.end_ (by unfold zeros; exact List.cons_ne_nil _ _)
  have hpd : cb'.length ≤ pad512 cb'.length ∧ pad512 cb.length < cb.length + 512 := by unfold pad512; omega
  obtain ⟨D, m, d1, d2, d3, d4⟩ := second_reads k6 k11.1 k11.2 k10 k12 (by omega)
  have hD : D = cb' := by
    have e1 : D.take y.size.toNat = D := List.take_of_length_le (by omega)
    have e2 : cb'.take y.size.toNat = cb' := List.take_of_length_le (by omega)
    rw [e1, e2] at d2
    exact d2
  subst hD
  have hzero : Holds A (ds + 1024 + pad512 D.length) (zeros 1024) := by
    rw [holds_iff]
    intro i hi
    simp only [zeros, List.length_replicate] at hi
    have := k6.gap (1024 + pad512 D.length + i) (by rw [k10]; omega) (by omega)
    rw [show ds + (1024 + pad512 D.length + i) = ds + 1024 + pad512 D.length + i by omega] at this
    rw [this]
    unfold zeros
    rw [List.getElem?_replicate_of_lt hi]
  have hall := ((k3.trans k5).trans d4) [] (reads_end hzero)
  rw [List.drop_zero] at hall
  simp only [List.cons_append, List.append_nil, List.append_assoc] at hall
  refine ⟨cat, _, hall.1, hall.2, k1, ?_⟩
  have h47 : ownMember md = false := not_own (memberOf_path k4)
  have h48 : ownMember m = false := not_own (memberOf_path d3)
  rw [List.filter_append, List.filter_eq_nil_iff.2 (fun a ha => by simp [k2 a ha])]
  simp only [List.nil_append, List.filter_cons, h47, h48, Bool.not_false, if_true, List.filter_nil]
  rw [k4, d3]
  rfl

/-! ### what success says -/

theorem putHeader_present {L : LegEnv} {bloc : Int} {buf out : Bytes} {f : Frag} (h : putHeader L bloc buf f = .ok out) :
    ∃ n, L.fs f.rel = some n ∧ ∀ m, n ≠ .other m := by
  unfold putHeader at h
  cases hf : L.fs f.rel with
  | none =>
    have : tarentryCtor L.fs.lstat f.rel 0 = .error (.exit 1) := by unfold tarentryCtor FS.lstat; rw [hf]; rfl
    rw [this] at h; cases h
  | some n =>
    refine ⟨n, rfl, ?_⟩
    rintro m rfl
    have : tarentryCtor L.fs.lstat f.rel 0 = .ok ⟨0, ⟨.other, m.perm, m.uid, m.gid, 0, m.mtime⟩, f.rel, []⟩ := by
      unfold tarentryCtor FS.lstat; rw [hf]; rfl
    rw [this] at h
    simp only [] at h
    cases hh : makeTarHeader L.env ⟨0, ⟨.other, m.perm, m.uid, m.gid, 0, m.mtime⟩, f.rel, []⟩ with
    | error e => rw [hh] at h; cases h
    | ok b =>
      obtain ⟨_, hd, _, h2, _⟩ := makeTarHeader_shape hh
      unfold ustarBlock at h2
      rw [if_pos rfl] at h2
      cases h2

theorem moveFrag_present {L : LegEnv} {bl acc bloc : Int} {s s' : BState} {f : Frag} (h : moveFrag L bl acc bloc s f = .ok (some s'))
    (h0 : f.locO = 0) : ∃ n, L.fs f.rel = some n ∧ ∀ m, n ≠ .other m := by
  unfold moveFrag at h
  obtain ⟨⟨b1, t1⟩, h1, h⟩ := bindRO_eq h
  simp only [] at h
  rw [if_pos h0] at h
  cases hh : putHeader L bloc b1 f with
  | error e => rw [hh] at h; cases h
  | ok b => exact putHeader_present hh

/-- **C77** Whatever has become of the tree since parfu 0.5.1 listed it: if all ranks report success, every listed
object was still at its path when it was copied - a file, a directory or a link - and every file that was listed
with data in it was still a file. -/
theorem C77_success_means_present (L0 L : LegEnv) (Q : QSort Frag) (nul top : Bytes) (root : FNode) (hp0 : Platform L0 nul)
    (ha : LegArchivable L0.env L0.fs top root) (seen : Option FNode) (hseen : DirOrLink seen) (n : Nat) (hn : 0 < n)
    (front : List WriteReq) (wss : List (List WriteReq))
    (h : legacyMain L Q nul top seen root n = .ok (some (front, wss))) :
    ∀ p nd, Visible root p nd → describe p nd ≠ none → ∃ nd', L.fs (baseOf top ++ [47] ++ pathText p) = some nd' ∧
      (∀ m, nd' ≠ .other m) ∧ (0 < fileLength nd → ∃ m c, nd' = .reg m c) := by
  obtain ⟨es, ms, h1, hr, h4, h5, h8, h9, h6, h7⟩ := main_run hp0 ha Q
  rw [h1 seen ((topAllowed_iff seen).2 hseen)] at h
  have hmin := hr.accMin
  have hmax := hr.accMax
  unfold legacyRun at h
  obtain ⟨cat, hcat, h⟩ := bindRO_eq h
  split at h
  · cases h
  rename_i fw0 hfw0
  obtain ⟨⟨gs, r⟩, hsp, h⟩ := bindRO_eq h
  simp only [] at h
  obtain ⟨text, htx, h⟩ := bindRO_eq h
  obtain ⟨call, hcl, h⟩ := bindRO_eq h
  split at h
  · cases h
  rename_i hck
  have hck : checkCalls (outFrags gs) call = true := by simpa using hck
  obtain ⟨wss', hall, h⟩ := bindRO_eq h
  have hrt := run_text hr blocking_free hp0.nul hsp htx hcl hck
  have hck' : checkCalls ((outFrags gs).map (named nul)) call = true := by
    unfold checkCalls at hck ⊢
    rw [← hck]
    congr 1
    funext i
    cases call[i]? with
    | none => rfl
    | some c =>
      simp only [List.getElem?_map]
      cases (outFrags gs)[c]? with
      | none => rfl
      | some f => rfl
  have hmv := ranks_moved hn hrt (by rw [named_rankCall]; exact hcl) hck' hall
  have hput := split_any (by omega) (by omega) hr.accDvd hr.hdr hsp
  intro p nd hv hd
  obtain ⟨e, he, harc⟩ := h8 p nd hv hd
  obtain ⟨p', nd', hv', hd', harc', hh, hm, _⟩ := h7 e he
  have hpp : p' = p := by
    apply pathText_inj (at_nameOk hv'.1 ha.treeOk) (at_nameOk hv.1 ha.treeOk)
    rw [← harc', harc]
  subst hpp
  have hnd : nd' = nd := at_functional ha.treeOk hv'.1 hv.1
  subst hnd
  obtain ⟨g, hg, hge⟩ := forall2_mem_right hput e he
  obtain ⟨m0, _, hem, _⟩ := forall2_mem_left hr.members e he
  have hlarge : ¬ Small 512 legBucket e → 0 < e.size := fun hns => large_size (by omega) hr.accDvd (by have := hr.hdr e he; omega) hns
  -- the first fragment
  obtain ⟨f, hf, hf0, hfrel, hfk, hfs⟩ : ∃ f ∈ g.2, f.locO = 0 ∧ f.rel = e.rel ∧ f.kind = e.kind ∧ (0 < e.size → 0 < f.size) := by
    by_cases hs : Small 512 legBucket e
    · obtain ⟨f, f1, f2, f3, f4, f5, _⟩ := hge.small hs
      exact ⟨f, by rw [f1]; simp, f5, f2.1.trans hge.same.1, f2.2.2.1.trans hge.same.2.2.1, by rw [f4]; exact id⟩
    · obtain ⟨k1, k2⟩ := hge.large hs
      have hc := k2 (by have := hlarge hs; omega) (hr.hdr e he)
      obtain ⟨f0, fs, hfs⟩ := List.exists_cons_of_ne_nil (k1.large (by
        unfold Small at hs ⊢
        rw [room_congr hge.same.2.2.2.2 hge.size]; exact hs)).2.1
      rw [hfs] at hc
      have hsf := k1.same f0 (by rw [hfs]; simp)
      exact ⟨f0, by rw [hfs]; simp, hc.1, hsf.1.trans hge.same.1, hsf.2.2.1.trans hge.same.2.2.1, fun _ => hc.2.1⟩
  obtain ⟨s1, s2, _, hmf⟩ := hmv (named nul f) (List.mem_map.2 ⟨f, by rw [List.mem_flatMap]; exact ⟨g, hg, hf⟩, rfl⟩)
  have hrel : (named nul f).rel = baseOf top ++ [47] ++ pathText p' := hfrel.trans hh.rel
  obtain ⟨x, x1, x2⟩ := moveFrag_present hmf hf0
  rw [hrel] at x1
  refine ⟨x, x1, x2, ?_⟩
  intro hpos
  obtain ⟨hmk, _, _⟩ := hm
  have hreg : e.kind = .reg ∧ 0 < e.size := by
    cases nd' with
    | reg m c =>
      have hsz : e.size = (c.length : Int) := hmk
      have : (fileLength (.reg m c)) = c.length := rfl
      refine ⟨?_, by omega⟩
      by_contra hk
      have := hem.other hk
      omega
    | _ => simp [fileLength] at hpos
  obtain ⟨_, hdat⟩ := moveFrag_inv hmf
  obtain ⟨c, hc, _⟩ := hdat (by show f.kind = .reg; rw [hfk]; exact hreg.1) (hfs hreg.2)
  rw [hrel] at hc
  unfold FS.read at hc
  rw [x1] at hc
  cases x with
  | reg m c' => exact ⟨m, c', rfl⟩
  | _ => simp at hc

/-! ### examples -/

/-- A directory `d` with files `b` and `c`. -/
def pairTree (b c : Bytes) : FNode := twoFiles ⟨0, 0, 0, 0⟩ [98] ⟨0, 0, 0, 0⟩ b [99] ⟨0, 0, 0, 0⟩ c

def pairFs (b c : Bytes) : FS := fun path => if path = [100, 47] then some (pairTree b c)
  else if path = [100, 47, 98] then some (.reg ⟨0, 0, 0, 0⟩ b)
  else if path = [100, 47, 99] then some (.reg ⟨0, 0, 0, 0⟩ c) else none

def pairEnv (b c : Bytes) : LegEnv := ⟨demoEnv2, pairFs b c, false, fun _ => 1700000000, 1700000000, 1700000000⟩

theorem pair_platform (b c : Bytes) : Platform (pairEnv b c) glibcNull :=
  ⟨rfl, fun _ => by simp [pairEnv], by simp [pairEnv], by simp [pairEnv], by decide⟩

theorem pair_meta : MetaOk demoEnv2 ⟨0, 0, 0, 0⟩ :=
  ⟨by decide, by decide, by decide, by decide, ⟨[114], rfl, by decide, by decide⟩, ⟨[103], rfl, by decide, by decide⟩⟩

theorem pair_at (b c : Bytes) : pairFs b c [100, 47] = some (pairTree b c) ∧ pairFs b c [100, 47, 98] = some (.reg ⟨0, 0, 0, 0⟩ b) ∧
    pairFs b c [100, 47, 99] = some (.reg ⟨0, 0, 0, 0⟩ c) := by
  have hz : ([100, 47] : Bytes) ≠ [100, 47, 98] := by decide
  have hz2 : ([100, 47, 99] : Bytes) ≠ [100, 47, 98] := by decide
  unfold pairFs
  refine ⟨by rw [if_pos rfl], ?_, ?_⟩
  · rw [if_neg (fun h => hz h.symm), if_pos rfl]
  · rw [if_neg (by decide), if_neg hz2, if_pos rfl]

theorem pair_archivable {b c : Bytes} (hb : b.length < 2 ^ 32) (hc : c.length < 2 ^ 32) :
    LegArchivable demoEnv2 (pairFs b c) [100] (pairTree b c) := by
  have hbase : baseOf [100] = [100] := rfl
  have hn1 : NameOk [98] := by unfold NameOk; decide
  have hn2 : NameOk [99] := by unfold NameOk; decide
  obtain ⟨a1, a2, a3⟩ := pair_at b c
  constructor
  · trivial
  · unfold pairTree twoFiles
    refine ⟨?_, ?_⟩
    · simp only [names]
      decide
    · exact ⟨fun _ => ⟨hn1, trivial⟩, fun _ => ⟨hn2, trivial⟩, trivial⟩
  · intro p m o k h
    rcases two_cases h with ⟨_, h⟩ | ⟨_, h⟩ | ⟨_, h⟩
    · unfold twoFiles at h
      simp only [FNode.dir.injEq] at h
      exact h.2.1
    · cases h
    · cases h
  · intro p n h
    rcases two_cases h with ⟨rfl, rfl⟩ | ⟨rfl, rfl⟩ | ⟨rfl, rfl⟩
    · exact a1
    · exact a2
    · exact a3
  · decide
  · decide
  · intro p n h
    rw [hbase]
    rcases two_cases h with ⟨rfl, rfl⟩ | ⟨rfl, rfl⟩ | ⟨rfl, rfl⟩
    · simp [archivedPath, pathText, twoFiles]
    · simp [archivedPath, pathText]
    · simp [archivedPath, pathText]
  · intro p m o k h _
    rcases two_cases h with ⟨rfl, _⟩ | ⟨_, h⟩ | ⟨_, h⟩
    · decide
    · cases h
    · cases h
  · intro p m t h
    rcases two_cases h with ⟨_, h⟩ | ⟨_, h⟩ | ⟨_, h⟩
    · unfold twoFiles at h; cases h
    · cases h
    · cases h
  · intro p n h
    rcases two_cases h with ⟨rfl, _⟩ | ⟨rfl, _⟩ | ⟨rfl, _⟩ <;> decide
  · intro p n h _
    have hm : metaOf n = ⟨0, 0, 0, 0⟩ := by
      rcases two_cases h with ⟨_, rfl⟩ | ⟨_, rfl⟩ | ⟨_, rfl⟩ <;> rfl
    rw [hm]
    exact pair_meta
  · intro p m c' h
    rcases two_cases h with ⟨_, h⟩ | ⟨_, h⟩ | ⟨_, h⟩
    · unfold twoFiles at h; cases h
    · simp only [FNode.reg.injEq] at h
      rw [h.2]; omega
    · simp only [FNode.reg.injEq] at h
      rw [h.2]; omega
  · exact ⟨[[99]], _, by simp, ⟨.step (.there (.here (by decide) (by decide))) (.self _), by simp [NoHidden]⟩, by simp [describe]⟩

/-- No member has the path of the second file if the members are those of the directory and of the first one. -/
theorem no_second {env : Env} {t b : FNode} {ms : List Member}
    (h : ms.map some = [memberOf env [100] [] t, memberOf env [100] [[98]] b]) (hb : ∃ m c, b = .reg m c) :
    ∀ m ∈ ms, m.path ≠ [100, 47, 99] := by
  intro m hm he
  have hmem : some m ∈ [memberOf env [100] [] t, memberOf env [100] [[98]] b] := by rw [← h]; exact List.mem_map.2 ⟨m, hm, rfl⟩
  simp only [List.mem_cons, List.not_mem_nil, or_false] at hmem
  obtain ⟨mb, cb, rfl⟩ := hb
  rcases hmem with h1 | h1
  · have := memberOf_path h1.symm
    rw [he] at this
    cases t <;> simp [archivedPath, pathText] at this
  · have := memberOf_path h1.symm
    rw [he] at this
    simp [archivedPath, pathText] at this

/-- Files of 1500 and 1600 bytes, the first one grown to 4000 bytes or shrunk to 100. -/
def pairB : Bytes := List.replicate 1500 1
def pairC : Bytes := List.replicate 1600 2
def pairMore : Bytes := List.replicate 4000 1
def pairLess : Bytes := List.replicate 100 1
theorem pairB_len : pairB.length = 1500 := by unfold pairB; rw [List.length_replicate]
theorem pairC_len : pairC.length = 1600 := by unfold pairC; rw [List.length_replicate]
theorem pairMore_len : pairMore.length = 4000 := by unfold pairMore; rw [List.length_replicate]
theorem pairLess_len : pairLess.length = 100 := by unfold pairLess; rw [List.length_replicate]

/-- The file `c` is lost because `b` has grown. -/
example (Q : QSort Frag) : ∃ front wss, legacyMain (pairEnv pairMore pairC) Q glibcNull [100] (some (pairTree pairB pairC)) (pairTree pairB pairC) 3 =
      .ok (some (front, wss)) ∧ ∃ cat all, readArchive ((front ++ wss.flatten).foldl writeAt []) = some (cat :: all) ∧
      terminated ((front ++ wss.flatten).foldl writeAt []) = true ∧ cat.path = catalogName ∧
      ∀ m ∈ all, ownMember m = false → m.path ≠ [100, 47, 99] := by
  have lb := pairB_len
  have lc := pairC_len
  have lm := pairMore_len
  obtain ⟨a1, a2, a3⟩ := pair_at pairMore pairC
  obtain ⟨front, wss, h1, h2⟩ := C77_grown_file_hides_others (pairEnv pairB pairC) (pairEnv pairMore pairC) Q glibcNull [100] ⟨0, 0, 0, 0⟩ ⟨0, 0, 0, 0⟩ ⟨0, 0, 0, 0⟩
    [98] pairB [99] pairC (pair_platform _ _) (pair_platform _ _) (by decide) (pair_archivable (by omega) (by omega)) (some (pairTree pairB pairC)) trivial 3 (by omega)
    (by decide) (by decide) (by decide) (by decide) (by omega) (by omega) (by rw [lb, lc]; decide) _ _ _ _ pairMore ⟨a1, pair_meta⟩ ⟨a2, pair_meta, by omega⟩ ⟨a3, pair_meta⟩
    (by rw [lb, lc, lm]; rfl)
  obtain ⟨cat, all, D, k1, k2, k3, k4, k5, k6⟩ := h2 _ (List.Perm.refl _) []
  refine ⟨front, wss, h1, cat, all, k1, k2, k3, ?_⟩
  intro m hm ho
  exact no_second k6 ⟨_, _, rfl⟩ m (List.mem_filter.2 ⟨hm, by simp [ho]⟩)

/-- The file `c` is lost because `b` has shrunk. -/
example (Q : QSort Frag) : ∃ front wss, legacyMain (pairEnv pairLess pairC) Q glibcNull [100] (some (pairTree pairB pairC)) (pairTree pairB pairC) 3 =
      .ok (some (front, wss)) ∧ ∃ cat all, readArchive ((front ++ wss.flatten).foldl writeAt []) = some (cat :: all) ∧
      terminated ((front ++ wss.flatten).foldl writeAt []) = true ∧ cat.path = catalogName ∧
      ∀ m ∈ all, ownMember m = false → m.path ≠ [100, 47, 99] := by
  have lb := pairB_len
  have lc := pairC_len
  have lm := pairLess_len
  obtain ⟨a1, a2, a3⟩ := pair_at pairLess pairC
  obtain ⟨front, wss, h1, h2⟩ := C77_shrunk_file_hides_others (pairEnv pairB pairC) (pairEnv pairLess pairC) Q glibcNull [100] ⟨0, 0, 0, 0⟩ ⟨0, 0, 0, 0⟩ ⟨0, 0, 0, 0⟩
    [98] pairB [99] pairC (pair_platform _ _) (pair_platform _ _) (by decide) (pair_archivable (by omega) (by omega)) (some (pairTree pairB pairC)) trivial 3 (by omega)
    (by decide) (by decide) (by decide) (by decide) (by omega) (by omega) (by rw [lb, lc]; decide) _ _ _ _ pairLess ⟨a1, pair_meta⟩ ⟨a2, pair_meta, by omega⟩ ⟨a3, pair_meta⟩
    (by rw [lb, lm]; decide)
  obtain ⟨cat, all, k1, k2, k3, k4⟩ := h2 _ (List.Perm.refl _) []
  refine ⟨front, wss, h1, cat, all, k1, k2, k3, ?_⟩
  intro m hm ho
  exact no_second k4 ⟨_, _, rfl⟩ m (List.mem_filter.2 ⟨hm, by simp [ho]⟩)

/-- The file `b` has other bytes, and more of them, but not more blocks: the run succeeds, and the archive (unless its
catalog ends 512 bytes before a bucket's end) has three members besides parfu's own. -/
example (Q : QSort Frag) : ∃ front wss, legacyMain (pairEnv (pairB ++ [7, 8]) pairC) Q glibcNull [100] (some (pairTree pairB pairC)) (pairTree pairB pairC) 3 =
      .ok (some (front, wss)) ∧ ((∀ cat, (512, cat) ∈ front → (cat.length + 1024) % 4194304 ≠ 0) →
      ∃ cat all, readArchive ((front ++ wss.flatten).foldl writeAt []) = some (cat :: all) ∧
        ∃ x y z : Member, x ∈ all ∧ y ∈ all ∧ z ∈ all ∧ x.path = [100, 47] ∧ y.path = [100, 47, 98] ∧ z.path = [100, 47, 99]) := by
  have lb := pairB_len
  have lc := pairC_len
  have lm : (pairB ++ [7, 8]).length = 1502 := by rw [List.length_append, lb]; rfl
  obtain ⟨a1, a2, a3⟩ := pair_at (pairB ++ [7, 8]) pairC
  obtain ⟨front0, wss0, h0, _⟩ := two_changed (pairEnv pairB pairC) (pairEnv pairB pairC) Q glibcNull [100] ⟨0, 0, 0, 0⟩ ⟨0, 0, 0, 0⟩ ⟨0, 0, 0, 0⟩
    [98] pairB [99] pairC (pair_platform _ _) (pair_platform _ _) (by decide) (pair_archivable (by omega) (by omega)) (some (pairTree pairB pairC)) trivial 3 (by omega)
    (by decide) (by decide) (by decide) (by decide) (by omega) (by omega) (by rw [lb, lc]; decide) _ _ _ _ pairB ⟨(pair_at pairB pairC).1, pair_meta⟩ ⟨(pair_at pairB pairC).2.1, pair_meta, by omega⟩ ⟨(pair_at pairB pairC).2.2, pair_meta⟩
  obtain ⟨front, wss, h1, h2⟩ := C77_same_blocks_partial (pairEnv pairB pairC) (pairEnv (pairB ++ [7, 8]) pairC) Q glibcNull [100] (pairTree pairB pairC)
    (pair_platform _ _) (pair_platform _ _) (pair_archivable (by omega) (by omega)) (by
      intro p n hv _
      rcases two_cases hv with ⟨rfl, rfl⟩ | ⟨rfl, rfl⟩ | ⟨rfl, rfl⟩
      · exact ⟨_, a1, trivial, by simp [fileLength, pairTree, twoFiles], pair_meta⟩
      · refine ⟨_, a2, ?_, ?_, pair_meta⟩
        · show pad512 _ = pad512 _
          rw [lb, lm]; rfl
        · show (pairB ++ [7, 8]).length < _
          rw [lm]; decide
      · refine ⟨_, a3, rfl, ?_, pair_meta⟩
        show pairC.length < _
        rw [lc]; decide) (some (pairTree pairB pairC)) trivial 3 (by omega) front0 wss0 h0
  refine ⟨front, wss, h1, ?_⟩
  intro hgap
  obtain ⟨cat, all, objs, k1, k2, k3, k4, k5, k6, k7⟩ := h2 hgap _ (List.Perm.refl _) []
  refine ⟨cat, all, k1, ?_⟩
  have hone : ∀ p n, Visible (pairTree pairB pairC) p n → describe p n ≠ none → ∃ m ∈ all, ∃ st, m.path = archivedPath [100] p st ∧
      ((∃ a b c, n = .dir a b c) → ∃ a b c, st = .dir a b c) ∧ ((∃ a c, n = .reg a c) → ∃ a c, st = .reg a c) := by
    intro p n hv hd
    obtain ⟨⟨p', st⟩, ho, rfl⟩ := List.mem_map.1 ((k6 p).2 ⟨n, hv, hd⟩)
    have hm : memberOf (pairEnv (pairB ++ [7, 8]) pairC).env (baseOf [100]) p' st ∈ (all.filter fun m => !ownMember m).map some := by
      rw [k4]; exact List.mem_map.2 ⟨_, ho, rfl⟩
    obtain ⟨m, hm1, hm2⟩ := List.mem_map.1 hm
    refine ⟨m, (List.mem_filter.1 hm1).1, st, memberOf_path hm2.symm, ?_, ?_⟩
    · rintro ⟨a, b, c, rfl⟩
      obtain ⟨n1, n2, v1, v2, v3⟩ := k7 p' st ho
      have := at_functional (pair_archivable (b := pairB) (c := pairC) (by omega) (by omega)).treeOk v1.1 hv.1
      subst this
      rcases two_cases v1 with ⟨rfl, h⟩ | ⟨rfl, h⟩ | ⟨rfl, h⟩
      · have h3 : (pairEnv (pairB ++ [7, 8]) pairC).fs (baseOf [100] ++ [47] ++ pathText []) = _ := a1
        rw [h3] at v2
        cases v2
        exact ⟨_, _, _, v3⟩
      · cases h
      · cases h
    · rintro ⟨a, c, rfl⟩
      obtain ⟨n1, n2, v1, v2, v3⟩ := k7 p' st ho
      have := at_functional (pair_archivable (b := pairB) (c := pairC) (by omega) (by omega)).treeOk v1.1 hv.1
      subst this
      rcases two_cases v1 with ⟨rfl, h⟩ | ⟨rfl, h⟩ | ⟨rfl, h⟩
      · unfold twoFiles at h; cases h
      · have h3 : (pairEnv (pairB ++ [7, 8]) pairC).fs (baseOf [100] ++ [47] ++ pathText [[98]]) = _ := a2
        rw [h3] at v2
        cases v2
        obtain ⟨d, hd, _⟩ := v3
        exact ⟨_, _, hd⟩
      · have h3 : (pairEnv (pairB ++ [7, 8]) pairC).fs (baseOf [100] ++ [47] ++ pathText [[99]]) = _ := a3
        rw [h3] at v2
        cases v2
        obtain ⟨d, hd, _⟩ := v3
        exact ⟨_, _, hd⟩
  obtain ⟨x, x1, sx, x2, x3, _⟩ := hone [] _ ⟨.self _, by simp [NoHidden]⟩ (by simp [describe, pairTree, twoFiles])
  obtain ⟨y, y1, sy, y2, _, y3⟩ := hone [[98]] (.reg ⟨0, 0, 0, 0⟩ pairB) ⟨.step (.here (by decide) (by decide)) (.self _), by simp [NoHidden]⟩ (by simp [describe])
  obtain ⟨z, z1, sz, z2, _, z3⟩ := hone [[99]] (.reg ⟨0, 0, 0, 0⟩ pairC) ⟨.step (.there (.here (by decide) (by decide))) (.self _), by simp [NoHidden]⟩ (by simp [describe])
  obtain ⟨_, _, _, rfl⟩ := x3 ⟨_, _, _, rfl⟩
  obtain ⟨_, _, rfl⟩ := y3 ⟨_, _, rfl⟩
  obtain ⟨_, _, rfl⟩ := z3 ⟨_, _, rfl⟩
  exact ⟨x, y, z, x1, y1, z1, by rw [x2]; rfl, by rw [y2]; rfl, by rw [z2]; rfl⟩

end Parfu.Props
