/-
Property C69, exactly: when the create mode of parfu 0.5.1 succeeds.
-/
import Verif.PropsLegacyOverrun
set_option autoImplicit false

namespace Parfu.Props
open Parfu ScanSpec LegacyScanSpec MoveSpec TarSpec LegacyRunSpec SplitSpec

/-- What rank 0 plans for a sorted list of entries: the pieces `gs` of the entries, with bucket numbers
and places, after the catalog for the archive, the catalog for the ranks and the list of buckets could be
made and rank 0's check of this list has passed. -/
def PlanOf (nul : Bytes) (acc : Int) (pad : Bytes) (es : List Frag) (gs : List (Frag × List Frag)) : Prop :=
  (∃ cat, listToBuffer nul true acc es = .ok (some cat)) ∧
  (∃ r, splitList 512 acc pad es = .ok (some (gs, r))) ∧
  (∃ text, listToBuffer nul false acc (outFrags gs) = .ok (some text)) ∧
  ∃ call, rankCallList (outFrags gs) = .ok (some call) ∧ checkCalls (outFrags gs) call = true

/-- Every file that fits a bucket with its header has its data planned to begin inside the bucket they
are to be copied to. -/
def BeginInside (acc : Int) (gs : List (Frag × List Frag)) : Prop :=
  ∀ g ∈ gs, room 512 g.1 ≤ acc → ∀ f ∈ g.2, 0 < f.size → f.locA < (f.bucket + 1) * acc

/-- … and to end inside. -/
def EndInside (acc : Int) (gs : List (Frag × List Frag)) : Prop :=
  ∀ g ∈ gs, room 512 g.1 ≤ acc → ∀ f ∈ g.2, 0 < f.size → f.locA + f.size ≤ (f.bucket + 1) * acc

/-- The outcome of a run, from the plan. -/
theorem run_exact {L : LegEnv} {nul pad : Bytes} {acc : Int} {es : List Frag} {ms : List Member} (hr : RunOk L acc es ms)
    (hpad : LegTabFree pad) (hnul : LegTabFree nul) {n : Nat} (hn : 0 < n) :
    ((∃ front wss, legacyRun L nul 512 acc pad es n = .ok (some (front, wss))) ↔ ∃ gs, PlanOf nul acc pad es gs ∧ EndInside acc gs) ∧
    ((∃ gs, PlanOf nul acc pad es gs ∧ BeginInside acc gs ∧ ¬ EndInside acc gs) → legacyRun L nul 512 acc pad es n = .error .ub) := by
  have hmin := hr.accMin
  have hmax := hr.accMax
  have h512 : (512 : Int).toNat = 512 := rfl
  -- with a plan, the outcome is that of the ranks
  have key : ∀ gs, PlanOf nul acc pad es gs → ∃ text call dstart front r, splitList 512 acc pad es = .ok (some (gs, r)) ∧
      listToBuffer nul false acc (outFrags gs) = .ok (some text) ∧
      rankCallList (outFrags gs) = .ok (some call) ∧ checkCalls (outFrags gs) call = true ∧
      legacyRun L nul 512 acc pad es n = (allRanks (rankPart L 512 acc dstart text call n) (List.range n) >>? fun wss =>
        .ok (some (front, wss))) := by
    rintro gs ⟨⟨cat, hcat⟩, ⟨r, hsp⟩, ⟨text, htx⟩, call, hcl, hck⟩
    have hclen := listToBuffer_le hcat
    have hfw : ∃ front, frontWrites L 512 acc.toNat cat = .ok front := by
      unfold frontWrites
      rw [hdr512 (by decide) (by decide) (by omega)]
      simp only []
      rw [if_neg (by simp)]
      exact ⟨_, rfl⟩
    obtain ⟨front, hfw⟩ := hfw
    refine ⟨text, call, dataOffset acc.toNat (512 + cat.length), front, r, hsp, htx, hcl, hck, ?_⟩
    unfold legacyRun
    rw [hcat, bindRO_some, h512, hfw]
    simp only []
    rw [hsp, bindRO_some]
    simp only []
    rw [htx, bindRO_some, hcl, bindRO_some, if_neg (by rw [hck]; simp)]
  have hins : ∀ gs, EndInside acc gs ↔ Inside 512 acc gs := fun gs => Iff.rfl
  -- with a plan, it succeeds if and only if all is inside
  have hexact : ∀ gs, PlanOf nul acc pad es gs →
      ((∃ front wss, legacyRun L nul 512 acc pad es n = .ok (some (front, wss))) ↔ EndInside acc gs) := by
    intro gs hpl
    obtain ⟨text, call, dstart, front, r, hsp, htx, hcl, hck, hrun⟩ := key gs hpl
    constructor
    · rintro ⟨fr, wss, h⟩
      rw [hrun] at h
      obtain ⟨wss', hall, _⟩ := bindRO_eq h
      have hlay := run_layout hr hpad hnul hn hsp htx hcl hck hall
      intro g hg hsm f hf hz
      obtain ⟨hl, _, _⟩ := hlay.laid g hg
      obtain ⟨f', q1, q2, q3, q4, q5, q6⟩ := hl.good.small hsm
      rw [q1] at hf
      simp only [List.mem_singleton] at hf
      subst hf
      have := room_ge (bl := 512) (by omega) g.1
      have hd : g.1.size ≤ dataLen g.1 := by unfold dataLen; omega
      omega
    · intro hin
      have hlay := layout_inside (by omega) hr.accDvd hr.hdr hr.sorted hsp ((hins gs).1 hin)
      obtain ⟨_, _, wss, e1, _⟩ := run_core hr hpad hnul hn (dstart := dstart) hsp htx hcl hck hlay
      exact ⟨front, wss, by rw [hrun, e1, bindRO_some]⟩
  refine ⟨⟨?_, ?_⟩, ?_⟩
  · rintro ⟨front, wss, h⟩
    have hplan : ∃ gs, PlanOf nul acc pad es gs := by
      have h' := h
      unfold legacyRun at h'
      obtain ⟨cat, hcat, h'⟩ := bindRO_eq h'
      split at h'
      · cases h'
      obtain ⟨⟨gs, r⟩, hsp, h'⟩ := bindRO_eq h'
      simp only [] at h'
      obtain ⟨text, htx, h'⟩ := bindRO_eq h'
      obtain ⟨call, hcl, h'⟩ := bindRO_eq h'
      split at h'
      · cases h'
      rename_i hck
      exact ⟨gs, ⟨cat, hcat⟩, ⟨r, hsp⟩, ⟨text, htx⟩, call, hcl, by simpa using hck⟩
    obtain ⟨gs, hpl⟩ := hplan
    exact ⟨gs, hpl, (hexact gs hpl).1 ⟨front, wss, h⟩⟩
  · rintro ⟨gs, hpl, hin⟩
    exact (hexact gs hpl).2 hin
  · rintro ⟨gs, hpl, hbeg, hout⟩
    obtain ⟨text, call, dstart, front, r, hsp, htx, hcl, hck, hrun⟩ := key gs hpl
    have hput := split_any (by omega) (by omega) hr.accDvd hr.hdr hsp
    have hrt := run_text hr hpad hnul hsp htx hcl hck
    have hfrag : ∀ f ∈ (outFrags gs).map (named nul),
        FragOk L f ∧ (0 < f.size → acc * f.bucket ≤ f.locA ∧ f.locA - acc * f.bucket < acc) := by
      intro f hf
      rw [List.mem_map] at hf
      obtain ⟨f', hf, rfl⟩ := hf
      rw [List.mem_flatMap] at hf
      obtain ⟨g, hg, hfg⟩ := hf
      obtain ⟨e, he, hp⟩ := forall2_mem_left hput g hg
      obtain ⟨m, _, hem0, _⟩ := forall2_mem_left hr.members e he
      have hem := hem0.same hp.same hp.size
      have hroom : room 512 g.1 = room 512 e := room_congr hp.same.2.2.2.2 hp.size
      have emul : (f'.bucket + 1) * acc = acc * f'.bucket + acc := by ring
      have emul2 : f'.bucket * acc = acc * f'.bucket := by ring
      have hb := hp.pos
      have hpos : SameFile f' g.1 ∧ 0 ≤ f'.locO ∧ f'.size < 2 ^ 31 ∧ (0 < f'.size → acc * f'.bucket ≤ f'.locA ∧ f'.locA - acc * f'.bucket < acc) := by
        by_cases hsm : Small 512 acc e
        · obtain ⟨x, f1, f2, f3, f4, f5, f6, f7, f8⟩ := hp.small hsm
          have hbf := hbeg g hg (by rw [hroom]; exact hsm) f' hfg
          rw [f1] at hfg
          simp only [List.mem_singleton] at hfg
          subst hfg
          have hrg := room_ge (bl := 512) (by omega) e
          have hd : e.size ≤ dataLen e := by unfold dataLen; omega
          unfold Small at hsm
          exact ⟨f2, by omega, by omega, fun hz => by have := hbf hz; omega⟩
        · obtain ⟨hg1, hc⟩ := hp.large hsm
          have hz := large_size (by omega) hr.accDvd (le_of_lt (hr.hdr e he)) hsm
          have hcov := hc (by omega) (hr.hdr e he)
          obtain ⟨l1, l2, l3⟩ := hg1.large (by unfold Small; rw [hroom]; exact hsm)
          obtain ⟨m1, m2, m3⟩ := l3 f' hfg
          exact ⟨hg1.same f' hfg, covers_locO hcov f' hfg, by omega, fun hz => by omega⟩
      obtain ⟨⟨s1, s2, s3, s4, s5⟩, hpos⟩ := hpos
      refine ⟨⟨?_, ?_, ?_, hpos.1, hpos.2.1⟩, hpos.2.2⟩
      · show ∃ t, tarentryCtor L.fs.lstat f'.rel 0 = .ok t ∧ makeTarHeader L.env t = .ok (hdrOf L f'.rel)
        rw [s1]; exact hem.hdr
      · show ((hdrOf L f'.rel).length : Int) = f'.hdr
        rw [s1, s5]; exact hem.len
      · intro hk _
        show L.fs.read f'.rel = some (contOf L f'.rel)
        rw [s1]
        exact (hem.reg (by rw [← s3]; exact hk)).1
    have hck' : checkCalls ((outFrags gs).map (named nul)) call = true := by
      unfold checkCalls at hck ⊢
      rw [← hck]
      congr 1
      funext i
      cases call[i]? with
      | none => rfl
      | some c =>
        simp only [List.getElem?_map]
        cases (outFrags gs)[c]? with
        | none => rfl
        | some f => rfl
    rcases ranks_unchecked hr.lax (by omega) (dstart := dstart) hrt hck' hfrag n (List.range n) with ⟨wss, h⟩ | h
    · exact absurd ((hexact gs hpl).1 ⟨front, wss, by rw [hrun, h, bindRO_some]⟩) hout
    · rw [hrun, h, bindRO_err]

/-- **C69, exactly** For every archivable tree there is a list of its objects, sorted by size, such that the
create mode succeeds if and only if rank 0 can make a plan for this list (`PlanOf`) in which all data of
files that fit a bucket end inside the bucket they are copied to.  If all of them begin inside, but some
do not end there, the run has undefined behaviour.  The list and the plan do not depend on the number of
ranks. -/
theorem C69_succeeds_iff (L : LegEnv) (Q : QSort Frag) (nul top : Bytes) (root : FNode) (hp : Platform L nul)
    (ha : LegArchivable L.env L.fs top root) (seen : Option FNode) (hseen : DirOrLink seen) :
    ∃ es : List Frag, es.Pairwise (fun a b => a.size ≤ b.size) ∧ (es.map Frag.arc).Nodup ∧
      (∀ p m, Visible root p m → describe p m ≠ none → ∃ e ∈ es, e.arc = pathText p) ∧
      (∀ e ∈ es, ∃ p m h, Visible root p m ∧ e.arc = pathText p ∧ Planned top p m h ∧ e.hdr = h ∧ e.size = markOf m) ∧
      ∀ n, 0 < n →
        ((∃ front wss, legacyMain L Q nul top seen root n = .ok (some (front, wss))) ↔
          ∃ gs, PlanOf nul 4194304 blockingName es gs ∧ EndInside 4194304 gs) ∧
        ((∃ gs, PlanOf nul 4194304 blockingName es gs ∧ BeginInside 4194304 gs ∧ ¬ EndInside 4194304 gs) →
          legacyMain L Q nul top seen root n = .error .ub) := by
  obtain ⟨es, ms, h1, h3, h4, h5, h8, h9, h6, h7⟩ := main_run hp ha Q
  refine ⟨es, h9, h5, h8, ?_, ?_⟩
  · intro e he
    obtain ⟨p, m, k1, _, k3, k4, k5, _⟩ := h7 e he
    have hm := k4.min
    refine ⟨p, m, e.hdr.toNat, k1, k3, ?_, by omega, k5.1⟩
    unfold Planned
    have := k4.made.2
    rw [k4.rel, k5.1, k5.2.2] at this
    exact this
  · intro n hn
    rw [h1 seen ((topAllowed_iff seen).2 hseen)]
    exact run_exact h3 blocking_free hp.nul hn

/-- Such a plan: a directory, a file with a long header and a slightly bigger one with a short header
(`badOrder`); the third begins in its bucket and ends behind it. -/
example : ∃ gs, PlanOf glibcNull 4194304 blockingName badOrder gs ∧ BeginInside 4194304 gs ∧ ¬ EndInside 4194304 gs := by
  have h : ∃ x, splitList 512 4194304 blockingName badOrder = .ok (some x) ∧
      (∃ f ∈ outFrags x.1, f.bucket * realAcc < f.locA) ∧
      (∀ g ∈ x.1, room 512 g.1 ≤ 4194304 → ∀ f ∈ g.2, 0 < f.size → f.locA < (f.bucket + 1) * 4194304) ∧
      (¬ ∀ g ∈ x.1, room 512 g.1 ≤ 4194304 → ∀ f ∈ g.2, 0 < f.size → f.locA + f.size ≤ (f.bucket + 1) * 4194304) ∧
      (rankCallList (outFrags x.1) = .ok (some [0, 1, 2])) ∧ checkCalls (outFrags x.1) [0, 1, 2] = true ∧
      (outFrags x.1).length = 4 ∧ (outFrags x.1).all (fun f => (catLine glibcNull false f).length < 1000) = true := by
    refine ⟨_, rfl, ?_⟩
    decide +kernel
  obtain ⟨⟨gs, r⟩, h1, _, h3, h4, h5, h6, h7, h8⟩ := h
  simp only [] at h3 h4 h5 h6 h7 h8
  refine ⟨gs, ⟨?_, ⟨r, h1⟩, ?_, [0, 1, 2], h5, h6⟩, h3, h4⟩
  · exact C30_write_succeeds glibcNull true 4194304 (by unfold FitsI32; omega) badOrder (by decide) (by decide) (by decide +kernel)
  · refine C30_write_succeeds glibcNull false 4194304 (by unfold FitsI32; omega) _ (by omega) (by omega) ?_
    have := sum_le_mul (fun e => (catLine glibcNull false e).length) (outFrags gs) 1000 (fun f hf => by
      have := List.all_eq_true.1 h8 f hf
      simp only [decide_eq_true_eq] at this
      omega)
    omega

/-- **C69** Whether the create mode succeeds on an archivable tree does not depend on the number of ranks. -/
theorem C69_any_ranks (L : LegEnv) (Q : QSort Frag) (nul top : Bytes) (root : FNode) (hp : Platform L nul)
    (ha : LegArchivable L.env L.fs top root) (seen : Option FNode) (hseen : DirOrLink seen) (n n' : Nat) (hn : 0 < n) (hn' : 0 < n') :
    (∃ front wss, legacyMain L Q nul top seen root n = .ok (some (front, wss))) ↔
    ∃ front wss, legacyMain L Q nul top seen root n' = .ok (some (front, wss)) := by
  obtain ⟨es, _, _, _, _, h⟩ := C69_succeeds_iff L Q nul top root hp ha seen hseen
  rw [(h n hn).1, (h n' hn').1]

/-- A tree for which all is inside, and one for which it is not. -/
example (Q : QSort Frag) : (∃ front wss, legacyMain legEnv Q glibcNull [100] (some legDemo) legDemo 1 = .ok (some (front, wss))) ∧
    ¬ ∃ front wss, legacyMain overEnv Q glibcNull [100] (some overTree) overTree 1 = .ok (some (front, wss)) := by
  constructor
  · obtain ⟨front, wss, h, _⟩ := leg_demo_run Q
    exact (C69_any_ranks legEnv Q glibcNull [100] legDemo leg_platform leg_archivable (some legDemo) trivial 5 1 (by omega) (by omega)).1
      ⟨front, wss, h⟩
  · rintro ⟨front, wss, h⟩
    rw [C69_tree_overruns Q 1 (by omega)] at h
    cases h

end Parfu.Props
