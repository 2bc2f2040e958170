/-
Property theorems C07: exactly when the scan succeeds, and what every successful scan lists.
-/
import Verif.PropsScan
set_option autoImplicit false

namespace Parfu.Props
open Parfu ScanSpec

theorem addKid_zero {g : Bytes → UInt8} {r : Bytes} {node : FNode} {dres dres' : Res PDir} {kres kres' : Res (List PDir × List Ent)}
    (hd : ∀ d, dres = .ok d → dres' = .ok d) (hk : ∀ k, kres = .ok k → kres' = .ok k) {x : List PDir × List Ent}
    (h : addKid g r node dres kres = .ok x) : addKid (fun _ => 0) r node dres' kres' = .ok x := by
  unfold addKid at h ⊢
  cases hkr : kres with
  | error e => rw [hkr] at h; cases h
  | ok k =>
    obtain ⟨ds, fs⟩ := k
    rw [hk _ hkr]
    rw [hkr] at h
    cases node with
    | reg m c => exact h
    | other m => exact h
    | lnk m t =>
      simp only [readTarget] at h ⊢
      by_cases hz : g r = 0
      · rw [if_pos hz] at h; exact h
      · rw [if_neg hz] at h; cases h
    | dir m o k =>
      simp only [] at h ⊢
      cases hdr : dres with
      | error e => rw [hdr] at h; cases h
      | ok d => rw [hd _ hdr]; rw [hdr] at h; exact h

mutual
theorem spiderDir_zero (g : Bytes → UInt8) : ∀ (n : FNode) (rel : Bytes) (d : PDir), spiderDir g rel n = .ok d →
    spiderDir (fun _ => 0) rel n = .ok d
  | .dir m o kids, rel, d => by
    intro h
    simp only [spiderDir] at h ⊢
    split
    · rename_i ho
      rw [if_pos ho] at h
      cases hk : spiderKids g rel kids with
      | error e => rw [hk] at h; cases h
      | ok x => rw [spiderKids_zero g kids rel x hk]; rw [hk] at h; exact h
    · rename_i ho
      rw [if_neg ho] at h; exact h
  | .reg _ _, _, _ => by intro h; simp only [spiderDir] at h ⊢; exact h
  | .lnk _ _, _, _ => by intro h; simp only [spiderDir] at h ⊢; exact h
  | .other _, _, _ => by intro h; simp only [spiderDir] at h ⊢; exact h
theorem spiderKids_zero (g : Bytes → UInt8) : ∀ (k : Kids) (rel : Bytes) (x : List PDir × List Ent), spiderKids g rel k = .ok x →
    spiderKids (fun _ => 0) rel k = .ok x
  | .nil, _, _ => by intro h; simp only [spiderKids] at h ⊢; exact h
  | .cons name node rest, rel, x => by
    intro h
    simp only [spiderKids] at h ⊢
    split
    · rename_i hn
      rw [if_pos hn] at h; exact spiderKids_zero g rest rel x h
    · rename_i hn
      rw [if_neg hn] at h
      exact addKid_zero (fun d hd => spiderDir_zero g node _ d hd) (fun k hk => spiderKids_zero g rest rel k hk) h
end

/-- A successful scan gives what it would give with zero bytes behind all link targets. -/
theorem scan_zero {g : Bytes → UInt8} {base : Bytes} {root : FNode} {c : Coll} (h : scan g base root = .ok c) :
    scan (fun _ => 0) base root = .ok c := by
  unfold scan at h ⊢
  cases hs : spiderDir g [] root with
  | error e => rw [hs] at h; cases h
  | ok d => rw [spiderDir_zero g root [] d hs]; rw [hs] at h; exact h

mutual
theorem spiderDir_fails (g : Bytes → UInt8) : ∀ (n : FNode) (q : List Bytes) (e : Err), (∀ x ∈ q, x ≠ []) →
    TreeOk n → spiderDir g (pathText q) n = .error e → ∃ p m t, Seen n p (.lnk m t) ∧ g (pathText (q ++ p)) ≠ 0
  | .dir m o kids, q, e => by
    intro hq hok h
    simp only [spiderDir] at h
    split at h
    · rename_i ho
      cases hk : spiderKids g (pathText q) kids with
      | error e' =>
        obtain ⟨name, c, p, m', t, h1, h2, h3⟩ := spiderKids_fails g kids q e' hq hok.2 hk
        subst ho
        exact ⟨name :: p, m', t, .step h1 h2, h3⟩
      | ok x => rw [hk] at h; cases h
    · cases h
  | .reg _ _, _, _ => by intro _ _ h; simp only [spiderDir] at h; cases h
  | .lnk _ _, _, _ => by intro _ _ h; simp only [spiderDir] at h; cases h
  | .other _, _, _ => by intro _ _ h; simp only [spiderDir] at h; cases h
theorem spiderKids_fails (g : Bytes → UInt8) : ∀ (k : Kids) (q : List Bytes) (e : Err), (∀ x ∈ q, x ≠ []) →
    KidsOk k → spiderKids g (pathText q) k = .error e →
    ∃ name c p m t, Child k name c ∧ Seen c p (.lnk m t) ∧ g (pathText (q ++ name :: p)) ≠ 0
  | .nil, _, _ => by intro _ _ h; simp only [spiderKids] at h; cases h
  | .cons name node rest, q, e => by
    intro hq hok h
    obtain ⟨hhere, hrest⟩ := hok
    simp only [spiderKids] at h
    split at h
    · obtain ⟨nm, c, p, m, t, h1, h2, h3⟩ := spiderKids_fails g rest q e hq hrest h
      exact ⟨nm, c, p, m, t, .there h1, h2, h3⟩
    · rename_i hn
      have hd := (not_isDots_iff name).1 (by simpa using hn)
      obtain ⟨hname, hnode⟩ := hhere hd
      rw [joinRel_pathText q name hq] at h
      have hq' : ∀ x ∈ q ++ [name], x ≠ [] := by
        intro x hx
        rcases List.mem_append.1 hx with hx | hx
        · exact hq x hx
        · rw [List.mem_singleton] at hx; subst hx; exact hname.1
      cases hk : spiderKids g (pathText q) rest with
      | error e' =>
        obtain ⟨nm, c, p, m, t, h1, h2, h3⟩ := spiderKids_fails g rest q e' hq hrest hk
        exact ⟨nm, c, p, m, t, .there h1, h2, h3⟩
      | ok x =>
        obtain ⟨ds, fs⟩ := x
        rw [hk] at h
        cases node with
        | reg m c => simp only [addKid] at h; cases h
        | other m => simp only [addKid] at h; cases h
        | lnk m t =>
          simp only [addKid, readTarget] at h
          by_cases hz : g (pathText (q ++ [name])) = 0
          · rw [if_pos hz] at h; cases h
          · exact ⟨name, _, [], m, t, .here hd.1 hd.2, .self _, hz⟩
        | dir m o k =>
          simp only [addKid] at h
          cases hs : spiderDir g (pathText (q ++ [name])) (.dir m o k) with
          | error e' =>
            obtain ⟨p, m', t, h1, h2⟩ := spiderDir_fails g (.dir m o k) (q ++ [name]) e' hq' hnode hs
            refine ⟨name, _, p, m', t, .here hd.1 hd.2, h1, ?_⟩
            rw [List.append_assoc] at h2; exact h2
          | ok d => rw [hs] at h; cases h
end

/-- **C07** Whatever bytes are behind the link targets: every scan that succeeds lists exactly the supported
objects that can be reached through directories that can be opened, each once, with its relative path, type,
target and size. -/
theorem C07_success_exact (g : Bytes → UInt8) (base : Bytes) (root : FNode) (hd : IsDir root) (hok : TreeOk root)
    (c : Coll) (h : scan g base root = .ok c) :
    (∀ e, e ∈ (c.dirs ++ c.files).map Ref.ent ↔ ∃ p n, Seen root p n ∧ describe p n = some e) ∧
    ((c.dirs ++ c.files).map (fun r => r.ent.rel)).Nodup ∧
    (∀ r ∈ c.dirs, r.ent.kind = .dir) ∧ (∀ r ∈ c.files, r.ent.kind ≠ .dir) := by
  obtain ⟨c', h1, h2⟩ := C07_scan_exact (fun _ => 0) base root hd hok (fun _ => rfl)
  rw [scan_zero h] at h1
  cases h1
  exact h2

/-- **C07** Exactly when the scan succeeds: when the byte behind the target of every link it meets is zero.
Otherwise its behaviour is undefined. -/
theorem C07_succeeds_iff (g : Bytes → UInt8) (base : Bytes) (root : FNode) (hd : IsDir root) (hok : TreeOk root) :
    ((∃ c, scan g base root = .ok c) ↔ ∀ p m t, Seen root p (.lnk m t) → g (pathText p) = 0) ∧
    ((¬ ∃ c, scan g base root = .ok c) → scan g base root = .error .ub) := by
  obtain ⟨l1, l2⟩ := C07_link_reading_is_luck g base root hd hok
  refine ⟨⟨?_, ?_⟩, ?_⟩
  · rintro ⟨c, hc⟩ p m t hs
    refine Classical.byContradiction fun hz => ?_
    rw [l1 p m t hs hz] at hc; cases hc
  · intro hz
    cases hs : spiderDir g (pathText []) root with
    | error e =>
      obtain ⟨p, m, t, h1, h2⟩ := spiderDir_fails g root [] e (by simp) hok hs
      exact absurd (hz p m t h1) h2
    | ok d =>
      obtain ⟨c, hc⟩ := collect_ok base d
      have hs' : spiderDir g [] root = .ok d := hs
      exact ⟨c, by unfold scan; rw [hs']; exact hc⟩
  · intro hn
    cases h : scan g base root with
    | ok c => exact absurd ⟨c, h⟩ hn
    | error e => rw [l2 e h]

/-- A tree with a link, scanned with a non-zero byte elsewhere: the scan succeeds and lists the link. -/
example : ∃ c, scan (fun r => if r = [120] then 7 else 0) [47, 116] demoTree = .ok c ∧
    (⟨[100, 47, 108], .lnk, [116], 0⟩ : Ent) ∈ (c.dirs ++ c.files).map Ref.ent := by
  have h : (scan (fun r => if r = [120] then 7 else 0) [47, 116] demoTree).toOption.isSome = true := by decide +kernel
  cases hs : scan (fun r => if r = [120] then 7 else 0) [47, 116] demoTree with
  | error e => rw [hs] at h; cases h
  | ok c =>
    refine ⟨c, rfl, ((C07_success_exact _ _ demoTree demoTree_ok.1 demoTree_ok.2 c hs).1 _).2 ?_⟩
    exact ⟨[[100], [108]], .lnk ⟨420, 0, 0, 0⟩ [116], .step (.there (.there (.there (.here (by decide) (by decide)))))
      (.step (.there (.here (by decide) (by decide))) (.self _)), rfl⟩

end Parfu.Props
