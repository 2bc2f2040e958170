/-
C20, exactly: which archives of parfu 0.6 are determined by the archived tree.
-/
import Verif.PropsMove
set_option autoImplicit false

namespace Parfu.Props
open Parfu MoveSpec TarSpec ScanSpec PlanSpec

section
variable {env : Env} {fs : FS} {base : Bytes} {root : FNode} {S : StdSort Ref} {g : Bytes → UInt8}
  {b mx : Nat} {c : Coll} {bundles : List (List Order)}

/-- Headers take whole blocks. -/
theorem Job.hdr_blocks (j : Job env fs base root S g b mx c bundles) : ∀ o ∈ bundles.flatten, o.hdr % 512 = 0 := by
  obtain ⟨hok, ⟨path, node, H, m, hE⟩, hr⟩ := j.setup
  obtain ⟨hflat, hs, hhdr, _, _, _⟩ := plan_flat hok j.planned
  intro o ho
  rw [hflat] at ho
  obtain ⟨q, hq, hf⟩ := List.mem_flatMap.1 ho
  have hsp := frags_spec 0 b q (hs q hq) (hhdr q hq).2 o hf
  obtain ⟨e, _, hH⟩ := (hE q hq).made
  have h1 := C01_header_length env e (H q) hH
  have h2 := (hE q hq).hlen
  rcases hsp.2.2.2.2.1 with h | h <;> omega

/-- Whatever is in the workers' buffers, the job can be carried out with it. -/
theorem Job.carried (j : Job env fs base root S g b mx c bundles) (memory : Bytes) (hm : memory.length = b) :
    ∃ xs, Carried env fs base b bundles xs ∧ ∀ x ∈ xs, x.memory = memory := by
  have : ∀ (ls : List (List Order)), (∀ l ∈ ls, l ∈ bundles) → ∃ xs : List Task, xs.map Task.bundle = ls ∧
      (∀ x ∈ xs, x.memory.length = b ∧ workerDo env fs base x.memory (received x.bundle) = .ok x.write) ∧
      ∀ x ∈ xs, x.memory = memory := by
    intro ls
    induction ls with
    | nil => intro _; exact ⟨[], rfl, by simp, by simp⟩
    | cons l ls ih =>
      intro h
      obtain ⟨xs, h1, h2, h3⟩ := ih (fun l hl => h l (by simp [hl]))
      obtain ⟨w, hw⟩ := C19_no_worker_fails j l (h l (by simp)) memory hm
      refine ⟨⟨l, memory, w⟩ :: xs, by simp [h1], ?_, ?_⟩
      · intro x hx
        rcases List.mem_cons.1 hx with rfl | hx
        · exact ⟨hm, hw⟩
        · exact h2 x hx
      · intro x hx
        rcases List.mem_cons.1 hx with rfl | hx
        · rfl
        · exact h3 x hx
  obtain ⟨xs, h1, h2, h3⟩ := this bundles (fun _ h => h)
  exact ⟨xs, ⟨h1, h2⟩, h3⟩

theorem chain_gap : ∀ (l : List Order) (w w' i : Nat), ChainTo w l w' → w % 512 = 0 →
    (∀ o ∈ l, o.hdr % 512 = 0) → (∀ o ∈ l.dropLast, o.size % 512 = 0) → w ≤ i → i < endOf l →
    ∃ o ∈ l, o.pos ≤ i ∧ i < Order.stop o := by
  intro l
  induction l with
  | nil => intro w w' i _ _ _ _ _ h; simp [endOf] at h
  | cons o os ih =>
    intro w w' i hch hw hh hd h1 h2
    obtain ⟨hp, hch'⟩ := hch
    by_cases hi : i < Order.stop o
    · exact ⟨o, by simp, by omega, hi⟩
    · cases os with
      | nil =>
        exfalso
        simp [endOf, Order.stop] at h2
        unfold Order.stop at hi; omega
      | cons x xs =>
        have hs : Order.stop o % 512 = 0 := by
          have a := hh o (by simp)
          have b := hd o (by simp [List.dropLast])
          unfold Order.stop; omega
        have hup : up512 (Order.stop o) = Order.stop o := by unfold up512; omega
        rw [hup] at hch'
        obtain ⟨y, hy, h3⟩ := ih (Order.stop o) w' i hch' hs (fun y hy => hh y (by simp [hy]))
          (fun y hy => hd y (by rw [List.dropLast_cons_of_ne_nil (by simp)]; exact List.mem_cons_of_mem _ hy)) (by omega)
          (by simpa [endOf] using h2)
        exact ⟨y, List.mem_cons_of_mem _ hy, h3⟩

/-- **C20, exactly** All archives that can come of a job are the same file, whatever was in memory before and
in whatever order the writes are made, exactly if in every bundle all orders but the last move whole blocks
(512 bytes) of data.  So the archive of any tree with two small files next to each other, of which the first does
not fill its blocks, depends on what was in memory. -/
theorem C20_determined_iff (j : Job env fs base root S g b mx c bundles) :
    (∀ xs xs' ws ws', Carried env fs base b bundles xs → Carried env fs base b bundles xs' →
      ws.Perm (xs.map Task.write) → ws'.Perm (xs'.map Task.write) → writeAll ws = writeAll ws') ↔
    ∀ l ∈ bundles, ∀ o ∈ l.dropLast, o.size % 512 = 0 := by
  obtain ⟨hok, _, hr⟩ := j.setup
  obtain ⟨k1, _, _⟩ := chainTo_bundles bundles 0 _ hr.nonempty (by omega) hr.chain
  constructor
  · intro hall l hl o ho
    apply Classical.byContradiction
    intro hbad
    obtain ⟨hch, hmod, _⟩ := k1 l hl
    have hol : o ∈ l := List.dropLast_subset _ ho
    have hh := j.hdr_blocks o (List.mem_flatten.2 ⟨l, hl, hol⟩)
    -- the byte behind the data of `o`
    obtain ⟨last, hlast⟩ : ∃ x, l.getLast? = some x := by
      cases hg : l.getLast? with
      | none => rw [List.getLast?_eq_none_iff.1 hg] at hol; simp at hol
      | some x => exact ⟨x, rfl⟩
    have hne : l ≠ [] := by intro h; rw [h] at hol; simp at hol
    have hlx : l.getLast hne = last := by
      have := List.getLast?_eq_some_getLast hne
      rw [this] at hlast; exact Option.some.inj hlast
    obtain ⟨pre, post, hsplit⟩ := List.append_of_mem ho
    have hl2 : l = pre ++ (o :: (post ++ [last])) := by
      have := List.dropLast_concat_getLast hne
      rw [hsplit, hlx] at this
      rw [← this]; simp
    have hch2 := hch
    rw [hl2, chainTo_append] at hch2
    obtain ⟨m, c1, c2⟩ := hch2
    obtain ⟨hpos, c3⟩ := c2
    have hpw := chainTo_pairwise c3
    have hposm : o.pos % 512 = 0 := by
      have : ∀ (xs : List Order) (w w' : Nat), w % 512 = 0 → ChainTo w xs w' → w' % 512 = 0 := by
        intro xs
        induction xs with
        | nil => intro w w' h1 h2; simp [ChainTo] at h2; omega
        | cons x xs ih => intro w w' h1 h2; exact ih _ _ (up512_mod _) h2.2
      rw [hpos]
      apply this pre (startOf l) m hmod
      rw [← hl2] at c1
      exact c1
    have hgap : Order.stop o < up512 (Order.stop o) := by
      unfold Order.stop up512; omega
    have hlastpos := hpw.2 last (by simp)
    have hend := endOf_getLast hlast
    have hso := (chainTo_pairwise hch).2 o hol
    have hpad : ∀ x ∈ l, Order.stop o < x.pos ∨ Order.stop x ≤ Order.stop o := by
      intro x hx
      have hpl := (chainTo_pairwise hch).1
      rw [hl2] at hx hpl
      rcases List.mem_append.1 hx with hx | hx
      · right
        have := (List.pairwise_append.1 hpl).2.2 x hx o (by simp)
        unfold Order.stop at *; omega
      · rcases List.mem_cons.1 hx with rfl | hx
        · right; omega
        · left
          have := hpw.2 x hx
          omega
    have key : ∀ v : UInt8, ∃ xs, Carried env fs base b bundles xs ∧
        (writeAll (xs.map Task.write))[Order.stop o]? = some v := by
      intro v
      obtain ⟨xs, hxs, hm⟩ := j.carried (List.replicate b v) (List.length_replicate ..)
      refine ⟨xs, hxs, ?_⟩
      obtain ⟨x, hx, rfl⟩ : ∃ x ∈ xs, x.bundle = l := by
        have : l ∈ xs.map Task.bundle := by rw [hxs.1]; exact hl
        obtain ⟨x, hx, e⟩ := List.mem_map.1 this
        exact ⟨x, hx, e⟩
      have hst : o.pos ≤ Order.stop o := by unfold Order.stop; omega
      rw [C20_padding_is_memory j xs hxs _ (List.Perm.refl _) x hx (Order.stop o) (by omega) (by omega) hpad,
        hm x hx, List.getElem?_replicate, if_pos]
      have := j.fits x.bundle hl
      have := le_up512 (endOf x.bundle)
      omega
    obtain ⟨xs, h1, h2⟩ := key 0
    obtain ⟨xs', h3, h4⟩ := key 1
    rw [hall xs xs' _ _ h1 h3 (List.Perm.refl _) (List.Perm.refl _), h4] at h2
    exact absurd h2 (by decide)
  · intro hfull xs xs' ws ws' h1 h2 h3 h4
    apply List.ext_getElem?
    intro i
    apply (C20_determined_partial j xs xs' h1 h2 ws ws' h3 h4).2
    rintro ⟨l, hl, h5, h6, h7⟩
    obtain ⟨hch, hmod, _⟩ := k1 l hl
    obtain ⟨o, ho, h8, h9⟩ := chain_gap l _ _ i hch hmod
      (fun o ho => j.hdr_blocks o (List.mem_flatten.2 ⟨l, hl, ho⟩)) (fun o ho => hfull l hl o ho) h5 h6
    rcases h7 o ho with h | h <;> omega

end

/-- The demonstration job: its second bundle has a file of one byte before another file, so its archive is not
determined. -/
example : ¬ ∀ xs xs' ws ws', Carried demoEnv2 demoFs demoBase 102400 demoBundles xs →
    Carried demoEnv2 demoFs demoBase 102400 demoBundles xs' →
    ws.Perm (xs.map Task.write) → ws'.Perm (xs'.map Task.write) → writeAll ws = writeAll ws' := by
  rw [C20_determined_iff demo_job]
  decide

end Parfu.Props
