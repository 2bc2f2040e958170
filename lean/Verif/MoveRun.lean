/-
A whole archiving run: every bundle is carried out by some worker and the writes reach the archive
in any order.
-/
import Verif.MoveObjects
set_option autoImplicit false

namespace Parfu
open MoveSpec TarSpec ScanSpec PlanSpec Props

/-! ### chains of orders -/

theorem chainTo_pairwise {w w' : Nat} {l : List Order} (h : ChainTo w l w') :
    l.Pairwise (fun a b => Order.stop a ≤ b.pos) ∧ ∀ o ∈ l, w ≤ o.pos := by
  induction l generalizing w with
  | nil => simp
  | cons o os ih =>
    simp only [ChainTo] at h
    obtain ⟨i1, i2⟩ := ih h.2
    have hup := le_up512 (Order.stop o)
    refine ⟨List.pairwise_cons.2 ⟨fun x hx => by have := i2 x hx; omega, i1⟩, ?_⟩
    intro x hx
    rcases List.mem_cons.1 hx with rfl | hx
    · omega
    · have := i2 x hx
      have hst : o.pos ≤ Order.stop o := by unfold Order.stop; omega
      omega

theorem chainTo_bundles : ∀ (bs : List (List Order)) (w w' : Nat), (∀ l ∈ bs, l ≠ []) →
    w % 512 = 0 → ChainTo w bs.flatten w' →
    (∀ l ∈ bs, ChainTo (startOf l) l (up512 (endOf l)) ∧ startOf l % 512 = 0 ∧
      up512 (endOf l) ≤ w') ∧ (bs ≠ [] → ∃ l ∈ bs, up512 (endOf l) = w') ∧
    w ≤ w' := by
  intro bs
  induction bs with
  | nil => intro w w' _ _ h; simp [ChainTo] at h; simp [h]
  | cons x bs ih =>
    intro w w' hne hw hch
    rw [List.flatten_cons, chainTo_append] at hch
    obtain ⟨m, h1, h2⟩ := hch
    have hx := hne x (by simp)
    have hs := chainTo_start h1 hx
    have he := chainTo_end h1 hx
    have hle := chainTo_le h1
    have hm : m % 512 = 0 := by rw [he]; exact up512_mod _
    obtain ⟨i1, i2, i3⟩ := ih m w' (fun l hl => hne l (by simp [hl])) hm h2
    refine ⟨?_, ?_, by omega⟩
    · intro l hl
      rcases List.mem_cons.1 hl with rfl | hl
      · refine ⟨?_, by omega, by omega⟩
        rw [hs, ← he]; exact h1
      · exact i1 l hl
    · intro _
      by_cases hb : bs = []
      · subst hb
        simp [ChainTo] at h2
        exact ⟨x, by simp, by omega⟩
      · obtain ⟨l, hl, e⟩ := i2 hb
        exact ⟨l, by simp [hl], e⟩

theorem endOf_getLast {l : List Order} {o : Order} (h : l.getLast? = some o) :
    endOf l = o.pos + o.hdr + o.size := by
  unfold endOf; rw [h]; rfl

theorem startOf_head {l : List Order} {o : Order} (h : l.head? = some o) : startOf l = o.pos := by
  unfold startOf; rw [h]

/-! ### what a run leaves in the archive -/

/-- The bytes an order is meant to bring: the header of its object if it asks for one, then the
requested range of the object's data. -/
def loadOf (env : Env) (fs : FS) (base : Bytes) (w : WOrder) : Bytes :=
  (if w.hdr ≠ 0 then
    match tarentryCtor fs.lstat (fullName base w.rel) 0 with
    | .ok e => match makeTarHeader env e with
      | .ok h => h
      | .error _ => []
    | .error _ => []
  else []) ++
  match fs.read (fullName base w.rel) with
  | some c => (c.drop w.off).take w.size
  | none => []

theorem holds_trans {A d s : Bytes} {a k : Nat} (h1 : Holds A a d) (h2 : Holds d k s) :
    Holds A (a + k) s := by
  by_cases hs : s = []
  · subst hs; exact holds_nil _ _
  · have hle := holds_le h2 hs
    rw [holds_iff] at h1 h2 ⊢
    intro i hi
    rw [Nat.add_assoc, h1 (k + i) (by omega), h2 i hi]

/-- What is assumed of a plan so that it can be carried out: bundles are non-empty chains, they fit
the bucket, messages and positions are in range, and each order can be loaded. -/
structure Runnable (env : Env) (fs : FS) (base : Bytes) (b : Nat) (bundles : List (List Order)) (E : Nat) :
    Prop where
  ne : bundles ≠ []
  nonempty : ∀ l ∈ bundles, l ≠ []
  chain : ChainTo 0 bundles.flatten E
  fits : ∀ l ∈ bundles, up512 (endOf l) - startOf l ≤ b
  small : ∀ o ∈ bundles.flatten, FitsInt o
  msg : ∀ l ∈ bundles, (printBundle l).length + 2 < 2 ^ 31
  noTab : ∀ o ∈ bundles.flatten, NoTab o
  noNul : ∀ o ∈ bundles.flatten, NoNul o
  loads : ∀ o ∈ bundles.flatten, Loads env fs base (asReceived o) (loadOf env fs base (asReceived o))

/-- One bundle, from the message to the write. -/
theorem run_bundle {env : Env} {fs : FS} {base : Bytes} {b E : Nat} {bundles : List (List Order)}
    (h : Runnable env fs base b bundles E) (l : List Order) (hl : l ∈ bundles) (garbage : Bytes)
    (hgl : garbage.length = b) :
    ∃ data, workerDo env fs base garbage (received l) = .ok (startOf l, data) ∧ startOf l + data.length = up512 (endOf l) ∧
      (∀ o ∈ l, Holds data (o.pos - startOf l) (loadOf env fs base (asReceived o))) ∧
      (∀ i, endOf l ≤ i → i < up512 (endOf l) → data[i - startOf l]? = some 0) ∧
      (∀ i, startOf l ≤ i → i < endOf l →
        (∀ o ∈ l, i < o.pos ∨ o.pos + (loadOf env fs base (asReceived o)).length ≤ i) →
        data[i - startOf l]? = garbage[i - startOf l]?) := by
  have hsub : ∀ o ∈ l, o ∈ bundles.flatten := fun o ho => List.mem_flatten.2 ⟨l, hl, ho⟩
  obtain ⟨k1, _, _⟩ := chainTo_bundles bundles 0 E h.nonempty (by omega) h.chain
  obtain ⟨hch, hmod, _⟩ := k1 l hl
  have hne := h.nonempty l hl
  obtain ⟨first, hfirst⟩ : ∃ o, l.head? = some o := by
    cases l with
    | nil => exact absurd rfl hne
    | cons o os => exact ⟨o, rfl⟩
  obtain ⟨last, hlast⟩ : ∃ o, l.getLast? = some o := by
    cases hg : l.getLast? with
    | none => exact absurd (List.getLast?_eq_none_iff.1 hg) hne
    | some o => exact ⟨o, rfl⟩
  have hstart := startOf_head hfirst
  have hend := endOf_getLast hlast
  have hpw := chainTo_pairwise hch
  have hmem : last ∈ l := List.mem_of_getLast? hlast
  have hsl := hpw.2 last hmem
  have hmsg := h.msg l hl
  have hpar := (C17_roundtrip_partial l (fun o ho => h.noTab o (hsub o ho))
    (fun o ho => h.noNul o (hsub o ho))
    (fun o ho => h.small o (hsub o ho)) (by omega)).2
  have hpb : (l.map asReceived).Pairwise Before := by
    rw [List.pairwise_map]
    exact hpw.1.imp (fun hab => hab)
  have hb0 : (l.map asReceived).head? = some (asReceived first) := by rw [List.head?_map, hfirst]; rfl
  have hb1 : (l.map asReceived).getLast? = some (asReceived last) := by rw [List.getLast?_map, hlast]; rfl
  have hlasts := h.small last (hsub last hmem)
  unfold FitsInt at hlasts
  have hfit := h.fits l hl
  have hup : up512 (endOf l) = startOf l + up512 (endOf l - startOf l) := by
    rw [← up512_add hmod]; congr 1; omega
  have hcalc : (asReceived last).pos + (asReceived last).hdr + (asReceived last).size -
      (asReceived first).pos = endOf l - startOf l := by
    rw [hend, hstart]; rfl
  obtain ⟨data, e1, e2, e3, e4, e5⟩ := moveData_loads (env := env) (fs := fs) (base := base)
    (loadOf env fs base) (l.map asReceived) garbage (asReceived first) (asReceived last) hb0 hb1
    (by intro w hw; obtain ⟨o, ho, rfl⟩ := List.mem_map.1 hw; exact h.loads o (hsub o ho)) hpb
    (by simp only [asReceived]; omega) (by rw [hcalc, hgl]; omega)
  rw [hcalc] at e2 e4 e5
  have hfp : (asReceived first).pos = startOf l := hstart.symm
  rw [hfp] at e1 e3 e5
  refine ⟨data, ?_, by omega, ?_, ?_, ?_⟩
  · unfold workerDo received
    rw [hpar]
    have hn : 0 < l.length := List.length_pos_iff.2 hne
    have hz : orderNFilename (l.map asReceived) 0 = .ok (asReceived first).rel := by
      unfold orderNFilename
      rw [if_neg (by omega)]
      rw [← List.head?_eq_getElem?, hb0]
    simp only [bind, Except.bind, totalSize, hb0, hb1, hz]
    exact e1
  · intro o ho
    exact e3 (asReceived o) (List.mem_map.2 ⟨o, ho, rfl⟩)
  · intro i h1 h2
    exact e4 (i - startOf l) (by omega) (by omega)
  · intro i h1 h2 h3
    apply e5 (i - startOf l) (by omega)
    intro w hw
    obtain ⟨o, ho, rfl⟩ := List.mem_map.1 hw
    have := h3 o ho
    have h4 := hpw.2 o ho
    show i - startOf l < o.pos - startOf l ∨ o.pos - startOf l + (loadOf env fs base (asReceived o)).length ≤ i - startOf l
    omega

/-- The writes of a run go to the bundles' padded ranges, which do not meet. -/
theorem carried_apart {env : Env} {fs : FS} {base : Bytes} {b E : Nat} {bundles : List (List Order)}
    (h : Runnable env fs base b bundles E) (xs : List Task)
    (hxs : Carried env fs base b bundles xs) :
    (∀ x ∈ xs, x.write.1 = startOf x.bundle ∧
      x.write.1 + x.write.2.length = up512 (endOf x.bundle)) ∧
    (xs.map Task.write).Pairwise (fun a b : WriteReq => Apart a.1 a.2.length b.1 b.2.length) := by
  have hmemb : ∀ x ∈ xs, x.bundle ∈ bundles := by
    intro x hx; rw [← hxs.1]; exact List.mem_map.2 ⟨x, hx, rfl⟩
  have hdata : ∀ x ∈ xs, ∃ data : Bytes, x.write = (startOf x.bundle, data) ∧
      startOf x.bundle + data.length = up512 (endOf x.bundle) ∧
      (∀ o ∈ x.bundle, Holds data (o.pos - startOf x.bundle) (loadOf env fs base (asReceived o))) ∧
      (∀ i, endOf x.bundle ≤ i → i < up512 (endOf x.bundle) → data[i - startOf x.bundle]? = some 0) ∧
      (∀ i, startOf x.bundle ≤ i → i < endOf x.bundle →
        (∀ o ∈ x.bundle, i < o.pos ∨ o.pos + (loadOf env fs base (asReceived o)).length ≤ i) →
        data[i - startOf x.bundle]? = x.memory[i - startOf x.bundle]?) := by
    intro x hx
    obtain ⟨hm, hw⟩ := hxs.2 x hx
    obtain ⟨d, hd⟩ := run_bundle h x.bundle (hmemb x hx) x.memory hm
    refine ⟨d, ?_, hd.2⟩
    have := hd.1
    rw [hw] at this
    exact Except.ok.inj this
  have hend : ∀ x ∈ xs, x.write.1 = startOf x.bundle ∧
      x.write.1 + x.write.2.length = up512 (endOf x.bundle) := by
    intro x hx
    obtain ⟨d, e, l, _⟩ := hdata x hx
    rw [e]; exact ⟨rfl, l⟩
  refine ⟨hend, ?_⟩
  rw [List.pairwise_map]
  have hpw : bundles.Pairwise (fun x y => up512 (endOf x) ≤ startOf y) := by
    have : ∀ (bs : List (List Order)) (w w' : Nat), (∀ l ∈ bs, l ≠ []) → ChainTo w bs.flatten w' →
        bs.Pairwise (fun x y => up512 (endOf x) ≤ startOf y) ∧ ∀ l ∈ bs, w ≤ startOf l := by
      intro bs
      induction bs with
      | nil => intro w w' _ _; simp
      | cons x bs ih =>
        intro w w' hne hch
        rw [List.flatten_cons, chainTo_append] at hch
        obtain ⟨m, h1, h2⟩ := hch
        have hx := hne x (by simp)
        have hs := chainTo_start h1 hx
        have he := chainTo_end h1 hx
        have hle := chainTo_le h1
        obtain ⟨i1, i2⟩ := ih m w' (fun l hl => hne l (by simp [hl])) h2
        refine ⟨List.pairwise_cons.2 ⟨fun y hy => by rw [← he]; exact i2 y hy, i1⟩, ?_⟩
        intro l hl
        rcases List.mem_cons.1 hl with rfl | hl
        · omega
        · have := i2 l hl; omega
    exact (this bundles 0 E h.nonempty h.chain).1
  rw [← hxs.1, List.pairwise_map] at hpw
  refine List.Pairwise.imp_of_mem ?_ hpw
  intro x y hx hy hxy
  have h1 := hend x hx
  have h2 := hend y hy
  unfold Apart
  left
  omega

/-- All bundles, whatever was in the workers' buffers, in any order of the writes. -/
theorem run_all {env : Env} {fs : FS} {base : Bytes} {b E : Nat} {bundles : List (List Order)}
    (h : Runnable env fs base b bundles E) (xs : List (Task))
    (hxs : Carried env fs base b bundles xs) (ws : List WriteReq) (hperm : ws.Perm (xs.map Task.write)) :
    (writeAll ws).length = E ∧
    (∀ o ∈ bundles.flatten, Holds (writeAll ws) o.pos (loadOf env fs base (asReceived o))) ∧
    (∀ l ∈ bundles, ∀ i, endOf l ≤ i → i < up512 (endOf l) → (writeAll ws)[i]? = some 0) ∧
    (∀ x ∈ xs, ∀ i, startOf x.bundle ≤ i → i < endOf x.bundle →
      (∀ o ∈ x.bundle, i < o.pos ∨ o.pos + (loadOf env fs base (asReceived o)).length ≤ i) →
      (writeAll ws)[i]? = x.memory[i - startOf x.bundle]?) := by
  have hmemb : ∀ x ∈ xs, x.bundle ∈ bundles := by
    intro x hx; rw [← hxs.1]; exact List.mem_map.2 ⟨x, hx, rfl⟩
  have hdata : ∀ x ∈ xs, ∃ data : Bytes, x.write = (startOf x.bundle, data) ∧
      startOf x.bundle + data.length = up512 (endOf x.bundle) ∧
      (∀ o ∈ x.bundle, Holds data (o.pos - startOf x.bundle) (loadOf env fs base (asReceived o))) ∧
      (∀ i, endOf x.bundle ≤ i → i < up512 (endOf x.bundle) → data[i - startOf x.bundle]? = some 0) ∧
      (∀ i, startOf x.bundle ≤ i → i < endOf x.bundle →
        (∀ o ∈ x.bundle, i < o.pos ∨ o.pos + (loadOf env fs base (asReceived o)).length ≤ i) →
        data[i - startOf x.bundle]? = x.memory[i - startOf x.bundle]?) := by
    intro x hx
    obtain ⟨hm, hw⟩ := hxs.2 x hx
    obtain ⟨d, hd⟩ := run_bundle h x.bundle (hmemb x hx) x.memory hm
    refine ⟨d, ?_, hd.2⟩
    have := hd.1
    rw [hw] at this
    exact Except.ok.inj this
  obtain ⟨k1, k2, _⟩ := chainTo_bundles bundles 0 E h.nonempty (by omega) h.chain
  have hend : ∀ x ∈ xs, x.write.1 = startOf x.bundle ∧
      x.write.1 + x.write.2.length = up512 (endOf x.bundle) := by
    intro x hx
    obtain ⟨d, e, l, _⟩ := hdata x hx
    rw [e]; exact ⟨rfl, l⟩
  have hap := (carried_apart h xs hxs).2
  have hap' : ws.Pairwise (fun a b : WriteReq => Apart a.1 a.2.length b.1 b.2.length) :=
    (hperm.pairwise_iff (by intro a b hab; exact hab.symm)).2 hap
  obtain ⟨hh, _⟩ := foldl_writeAt_holds ws [] hap'
  have hwhere : ∀ x ∈ xs, Holds (writeAll ws) x.write.1 x.write.2 := by
    intro x hx
    exact hh x.write (hperm.mem_iff.2 (List.mem_map.2 ⟨x, hx, rfl⟩))
  have hback : ∀ l ∈ bundles, ∃ x ∈ xs, x.bundle = l := by
    intro l hl; rw [← hxs.1] at hl
    obtain ⟨x, hx, e⟩ := List.mem_map.1 hl
    exact ⟨x, hx, e⟩
  have hse : ∀ l ∈ bundles, startOf l ≤ endOf l := by
    intro l hl
    have hne := h.nonempty l hl
    obtain ⟨last, hlast⟩ : ∃ o, l.getLast? = some o := by
      cases hg : l.getLast? with
      | none => exact absurd (List.getLast?_eq_none_iff.1 hg) hne
      | some o => exact ⟨o, rfl⟩
    have := (chainTo_pairwise (k1 l hl).1).2 last (List.mem_of_getLast? hlast)
    rw [endOf_getLast hlast]; omega
  refine ⟨?_, ?_, ?_, ?_⟩
  · obtain ⟨h1, _, h3⟩ := foldl_writeAt_length ws [] E (by simp) (by
      intro w hw
      obtain ⟨x, hx, rfl⟩ := List.mem_map.1 (hperm.mem_iff.1 hw)
      have := hend x hx
      have := (k1 x.bundle (hmemb x hx)).2.2
      omega)
    obtain ⟨l, hl, he⟩ := k2 h.ne
    obtain ⟨x, hx, rfl⟩ := hback l hl
    have := h3 x.write (hperm.mem_iff.2 (List.mem_map.2 ⟨x, hx, rfl⟩))
    have h5 := hend x hx
    have h6 : x.write.1 + x.write.2.length ≤ (writeAll ws).length := this
    have h7 : (writeAll ws).length ≤ E := h1
    omega
  · intro o ho
    obtain ⟨l, hl, hol⟩ := List.mem_flatten.1 ho
    obtain ⟨x, hx, rfl⟩ := hback l hl
    obtain ⟨d, e, _, hd, _⟩ := hdata x hx
    have hw := hwhere x hx
    rw [e] at hw
    have := holds_trans hw (hd o hol)
    have hle := (chainTo_pairwise (k1 x.bundle hl).1).2 o hol
    rw [show (startOf x.bundle) + (o.pos - startOf x.bundle) = o.pos by omega] at this
    exact this
  · intro l hl i h1 h2
    have hs := hse l hl
    obtain ⟨x, hx, rfl⟩ := hback l hl
    obtain ⟨d, e, hl', _, hd, _⟩ := hdata x hx
    have hw := hwhere x hx
    rw [e] at hw
    have := (holds_iff _ _ _).1 hw (i - startOf x.bundle) (by simp only; omega)
    rw [show startOf x.bundle + (i - startOf x.bundle) = i by omega] at this
    rw [this]; exact hd i h1 h2
  · intro x hx i h1 h2 h3
    obtain ⟨d, e, hl', _, _, hd⟩ := hdata x hx
    have hup := le_up512 (endOf x.bundle)
    have hw := hwhere x hx
    rw [e] at hw
    have := (holds_iff _ _ _).1 hw (i - startOf x.bundle) (by simp only; omega)
    rw [show startOf x.bundle + (i - startOf x.bundle) = i by omega] at this
    rw [this]; exact hd i h1 h2 h3

end Parfu
