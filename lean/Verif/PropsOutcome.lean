/-
Property theorem C27, exactly: which starts of parfu 0.6 end in all processes.
-/
import Verif.PropsExit
set_option autoImplicit false

namespace Parfu.Props
open Parfu MainSpec MoveSpec TarSpec ScanSpec PlanSpec ProtocolSpec

/-! ### texts without NUL -/

/-- Every order is for an entry of the collection. -/
theorem smallStep_mem {idx : Int} {b mx ext : Nat} {st : PState} {p : Placed} {o : Order}
    (h : o ∈ (smallStep idx b mx ext st p).done.flatten ++ (smallStep idx b mx ext st p).cur) :
    o ∈ st.done.flatten ++ st.cur ∨ (o.rel = p.ref.ent.rel ∧ o.target = p.ref.ent.target) := by
  unfold smallStep at h
  simp only at h
  split at h
  · simp only [List.flatten_append, List.flatten_cons, List.flatten_nil, List.append_nil, List.mem_append,
      List.mem_singleton] at h
    rcases h with h | h
    · exact Or.inl (List.mem_append.2 h)
    · right; subst h; exact ⟨rfl, rfl⟩
  · simp only [List.mem_append, List.mem_singleton] at h
    rcases h with h | h | h
    · exact Or.inl (List.mem_append.2 (Or.inl h))
    · exact Or.inl (List.mem_append.2 (Or.inr h))
    · right; subst h; exact ⟨rfl, rfl⟩

theorem bigLoop_mem {idx : Int} {b : Nat} {e : Ent} (rem off : Nat) (st : PState) {o : Order}
    (h : o ∈ (bigLoop idx b e rem off st).done.flatten ++ (bigLoop idx b e rem off st).cur) :
    o ∈ st.done.flatten ++ st.cur ∨ (o.rel = e.rel ∧ o.target = e.target) := by
  fun_induction bigLoop idx b e rem off st with
  | case1 rem off st _ ih =>
    rcases ih h with h | h
    · simp only [List.flatten_append, List.flatten_cons, List.flatten_nil, List.append_nil, List.mem_append,
        List.mem_singleton] at h
      rcases h with h | h
      · exact Or.inl (List.mem_append.2 h)
      · right; subst h; exact ⟨rfl, rfl⟩
    · exact Or.inr h
  | case2 rem off st _ _ =>
    simp only [List.flatten_append, List.flatten_cons, List.flatten_nil, List.append_nil, List.mem_append,
      List.mem_singleton] at h
    rcases h with h | h
    · exact Or.inl (List.mem_append.2 h)
    · right; subst h; exact ⟨rfl, rfl⟩
  | case3 => exact Or.inl h

theorem bigStep_mem {idx : Int} {b : Nat} {st : PState} {p : Placed} {o : Order}
    (h : o ∈ (bigStep idx b st p).done.flatten ++ (bigStep idx b st p).cur) :
    o ∈ st.done.flatten ++ st.cur ∨ (o.rel = p.ref.ent.rel ∧ o.target = p.ref.ent.target) := by
  unfold bigStep at h
  simp only at h
  rcases bigLoop_mem _ _ _ h with h | h
  · split at h
    · simp only [List.nil_append, List.flatten_append, List.flatten_cons, List.flatten_nil, List.append_nil,
        List.mem_append, List.mem_singleton] at h
      rcases h with h | h
      · exact Or.inl (List.mem_append.2 h)
      · right; subst h; exact ⟨rfl, rfl⟩
    · simp only [List.mem_append, List.mem_singleton] at h
      rcases h with h | h | h
      · exact Or.inl (List.mem_append.2 (Or.inl h))
      · exact Or.inl (List.mem_append.2 (Or.inr h))
      · right; subst h; exact ⟨rfl, rfl⟩
  · exact Or.inr h

theorem fold_mem {f : PState → Placed → PState}
    (hf : ∀ st p (o : Order), o ∈ (f st p).done.flatten ++ (f st p).cur →
      o ∈ st.done.flatten ++ st.cur ∨ (o.rel = p.ref.ent.rel ∧ o.target = p.ref.ent.target))
    (l : List Placed) (st : PState) (o : Order)
    (h : o ∈ (l.foldl f st).done.flatten ++ (l.foldl f st).cur) :
    o ∈ st.done.flatten ++ st.cur ∨ ∃ p ∈ l, o.rel = p.ref.ent.rel ∧ o.target = p.ref.ent.target := by
  induction l generalizing st with
  | nil => exact Or.inl h
  | cons p l ih =>
    rcases ih _ h with h | ⟨q, hq, h⟩
    · rcases hf _ _ _ h with h | h
      · exact Or.inl h
      · exact Or.inr ⟨p, List.mem_cons_self, h⟩
    · exact Or.inr ⟨q, List.mem_cons_of_mem _ hq, h⟩

theorem createOrders_mem {idx : Int} {b mx : Nat} {c : PColl} {bundles : List (List Order)}
    (h : createOrders idx b mx c = some bundles) {o : Order} (ho : o ∈ bundles.flatten) :
    ∃ p ∈ c.dirs ++ c.files, o.rel = p.ref.ent.rel ∧ o.target = p.ref.ent.target := by
  unfold createOrders at h
  split at h
  · cases h
  split at h
  · cases h
  simp only [Option.some.injEq] at h
  subst h
  rw [List.flatten_append, List.flatten_cons, List.flatten_nil, List.append_nil] at ho
  have hF : ∀ st p (o : Order), o ∈ (fileStep idx b mx st p).done.flatten ++ (fileStep idx b mx st p).cur →
      o ∈ st.done.flatten ++ st.cur ∨ (o.rel = p.ref.ent.rel ∧ o.target = p.ref.ent.target) := by
    intro st p o ho
    unfold fileStep at ho
    split at ho
    · exact smallStep_mem ho
    · exact bigStep_mem ho
  have hD : ∀ st p (o : Order), o ∈ (dirStep idx b mx st p).done.flatten ++ (dirStep idx b mx st p).cur →
      o ∈ st.done.flatten ++ st.cur ∨ (o.rel = p.ref.ent.rel ∧ o.target = p.ref.ent.target) := by
    intro st p o ho
    unfold dirStep at ho
    split at ho
    · exact smallStep_mem ho
    · exact Or.inl ho
  rcases fold_mem hF _ _ _ ho with h | ⟨p, hp, h⟩
  · rcases fold_mem hD _ _ _ h with h | ⟨p, hp, h⟩
    · simp [planInit] at h
    · exact ⟨p, List.mem_append.2 (Or.inl hp), h⟩
  · exact ⟨p, List.mem_append.2 (Or.inr hp), h⟩

mutual
/-- A scan that succeeds finds the same whatever the stray bytes. -/
theorem spiderDir_stray {g : Bytes → UInt8} : ∀ (n : FNode) (rel : Bytes) (d : PDir),
    spiderDir g rel n = .ok d → spiderDir (fun _ => 0) rel n = .ok d
  | .dir m o kids, rel, d, h => by
    simp only [spiderDir] at h ⊢
    split at h
    · rename_i ho
      split at h
      · cases h
      · rename_i ds fs hk
        rw [if_pos ho, spiderKids_stray kids rel _ hk]
        exact h
    · rename_i ho
      rw [if_neg ho]; exact h
  | .reg _ _, _, _, h => by simpa only [spiderDir] using h
  | .lnk _ _, _, _, h => by simpa only [spiderDir] using h
  | .other _, _, _, h => by simpa only [spiderDir] using h
theorem spiderKids_stray {g : Bytes → UInt8} : ∀ (k : Kids) (rel : Bytes) (r : List PDir × List Ent),
    spiderKids g rel k = .ok r → spiderKids (fun _ => 0) rel k = .ok r
  | .nil, _, _, h => by simpa only [spiderKids] using h
  | .cons name node rest, rel, r, h => by
    simp only [spiderKids] at h ⊢
    split at h
    · rename_i hd
      rw [if_pos hd]; exact spiderKids_stray rest rel _ h
    · rename_i hd
      rw [if_neg hd]
      unfold addKid at h ⊢
      split at h
      · cases h
      · rename_i ds fs hk
        rw [spiderKids_stray rest rel _ hk]
        simp only
        split at h
        · exact h
        · simp only [readTarget, if_true]
          split at h
          · cases h
          · rename_i t ht
            unfold readTarget at ht
            split at ht
            · simp only [Except.ok.injEq] at ht; subst ht; exact h
            · cases ht
        · rename_i m o kids
          split at h
          · cases h
          · rename_i d hs
            rw [spiderDir_stray (.dir m o kids) _ _ hs]; exact h
        · exact h
end

/-- A legal tree whose link targets are C strings (that names are is part of `TreeOk`). -/
structure TextTree (root : FNode) : Prop where
  ok : TreeOk root
  links : ∀ p m t, Seen root p (.lnk m t) → (0 : UInt8) ∉ t

theorem TextTree.text {root : FNode} (h : TextTree root) (p : List Bytes) (n : FNode) (e : Ent)
    (hs : Seen root p n) (hd : describe p n = some e) : (0 : UInt8) ∉ e.rel ∧ (0 : UInt8) ∉ e.target := by
  have hp := pathText_chars (at_nameOk (seen_at hs) h.ok)
  cases n with
  | reg m b => simp only [describe, Option.some.injEq] at hd; subst hd; exact ⟨hp, by simp⟩
  | dir m o k => simp only [describe, Option.some.injEq] at hd; subst hd; exact ⟨hp, by simp⟩
  | lnk m t => simp only [describe, Option.some.injEq] at hd; subst hd; exact ⟨hp, h.links p m t hs⟩
  | other m => simp [describe] at hd

theorem scan_text {g : Bytes → UInt8} {base : Bytes} {root : FNode} (ht : TextTree root)
    {coll : Coll} (h : scan g base root = .ok coll) :
    ∀ r ∈ coll.dirs ++ coll.files, (0 : UInt8) ∉ r.ent.rel ∧ (0 : UInt8) ∉ r.ent.target := by
  have h0 : scan (fun _ => 0) base root = .ok coll := by
    unfold scan at h ⊢
    split at h
    · cases h
    · rename_i d hd
      rw [spiderDir_stray root [] d hd]; exact h
  clear h
  intro r hr
  by_cases hd : IsDir root
  · obtain ⟨c', h', hex, _⟩ := C07_scan_exact (fun _ => 0) base root hd ht.ok (fun _ => rfl)
    rw [h0] at h'
    have := Except.ok.inj h'
    subst this
    obtain ⟨p, n, h1, h2⟩ := (hex r.ent).1 (List.mem_map.2 ⟨r, hr, rfl⟩)
    exact ht.text p n _ h1 h2
  · have hsp : spiderDir (fun _ => 0) [] root = .ok (.mk ⟨[], .dir, [], 0⟩ [] []) := by
      cases root <;> simp [spiderDir]
      simp [IsDir] at hd
    unfold scan at h0
    rw [hsp] at h0
    obtain ⟨h1, h2, _⟩ := collect_spec h0
    have hb : bfsLoop [PDir.mk ⟨[], .dir, [], 0⟩ [] []] 0 = [PDir.mk ⟨[], .dir, [], 0⟩ [] []] := by
      rw [bfsLoop, dif_pos (by simp), bfsLoop, dif_neg (by simp [PDir.subs])]
      simp [PDir.subs]
    rw [hb] at h1 h2
    have : r.ent ∈ (coll.dirs ++ coll.files).map Ref.ent := List.mem_map.2 ⟨r, hr, rfl⟩
    rw [List.map_append, h1, h2] at this
    simp only [List.map_cons, List.map_nil, PDir.ent, List.flatMap_cons, List.flatMap_nil, PDir.files,
      List.append_nil, List.mem_singleton] at this
    rw [this]
    simp

theorem placeFrom_mem_ref {w : Nat} {rs : List Ref} {p : Placed} (h : p ∈ (placeFrom w rs).1) : p.ref ∈ rs := by
  have := List.mem_map_of_mem (f := Placed.ref) h
  rwa [placeFrom_refs] at this

theorem plan_text {S : StdSort Ref} {g : Bytes → UInt8} {base : Bytes} {root : FNode} (ht : TextTree root)
    {coll : Coll} (h : scan g base root = .ok coll) {idx : Int} {b mx : Nat} {bundles : List (List Order)}
    (hp : createOrders idx b mx (setOffsets (orderFiles S coll)) = some bundles) :
    ∀ t ∈ bundles.map printBundle, (0 : UInt8) ∉ t := by
  intro t htm
  obtain ⟨l, hl, rfl⟩ := List.mem_map.1 htm
  refine print_no_nul l (fun o ho => ?_)
  obtain ⟨p, hp, h1, h2⟩ := createOrders_mem hp (List.mem_flatten.2 ⟨l, hl, ho⟩)
  have hmem : p.ref ∈ coll.dirs ++ coll.files := by
    unfold setOffsets orderFiles at hp
    rcases List.mem_append.1 hp with hp | hp
    · exact List.mem_append.2 (Or.inl (placeFrom_mem_ref hp))
    · refine List.mem_append.2 (Or.inr ?_)
      exact (S.perm _ _ sortBySize_strictWeak).mem_iff.1 (placeFrom_mem_ref hp)
  have := scan_text ht h p.ref hmem
  exact ⟨by rw [h1]; exact this.1, by rw [h2]; exact this.2⟩

/-- The bytes after the targets of the links below the root happen to be zero. -/
def LuckyLinks (g : Bytes → UInt8) (root : FNode) : Prop :=
  ∀ p m t, p ≠ [] → Seen root p (.lnk m t) → g (pathText p) = 0

mutual
theorem spiderDir_lucky {g : Bytes → UInt8} : ∀ (n : FNode) (p : List Bytes), TreeOk n → (∀ x ∈ p, x ≠ []) →
    (∀ q m t, q ≠ [] → Seen n q (.lnk m t) → g (pathText (p ++ q)) = 0) →
    ∃ d, spiderDir g (pathText p) n = .ok d
  | .dir m o kids, p, hok, hp, hl => by
    simp only [TreeOk] at hok
    simp only [spiderDir]
    split
    · rename_i ho
      subst ho
      obtain ⟨r, hr⟩ := spiderKids_lucky kids p hok.2 hp
        (fun name c q m' t hc hs => hl (name :: q) m' t (by simp) (.step hc hs))
      rw [hr]; exact ⟨_, rfl⟩
    · exact ⟨_, rfl⟩
  | .reg _ _, _, _, _, _ => by simp only [spiderDir]; exact ⟨_, rfl⟩
  | .lnk _ _, _, _, _, _ => by simp only [spiderDir]; exact ⟨_, rfl⟩
  | .other _, _, _, _, _ => by simp only [spiderDir]; exact ⟨_, rfl⟩
theorem spiderKids_lucky {g : Bytes → UInt8} : ∀ (k : Kids) (p : List Bytes), KidsOk k → (∀ x ∈ p, x ≠ []) →
    (∀ name c q m t, Child k name c → Seen c q (.lnk m t) → g (pathText (p ++ name :: q)) = 0) →
    ∃ r, spiderKids g (pathText p) k = .ok r
  | .nil, _, _, _, _ => by simp only [spiderKids]; exact ⟨_, rfl⟩
  | .cons name node rest, p, hok, hp, hl => by
    simp only [KidsOk] at hok
    obtain ⟨r, hr⟩ := spiderKids_lucky rest p hok.2 hp
      (fun nm c q m t hc hs => hl nm c q m t (.there hc) hs)
    simp only [spiderKids]
    split
    · exact ⟨_, hr⟩
    · rename_i hd
      have hnd := (not_isDots_iff name).1 (by simpa using hd)
      obtain ⟨hn, hk⟩ := hok.1 hnd
      have hc : Child (.cons name node rest) name node := .here hnd.1 hnd.2
      rw [joinRel_pathText p name hp]
      obtain ⟨d, hd'⟩ := spiderDir_lucky node (p ++ [name]) hk
        (by
          intro x hx
          rcases List.mem_append.1 hx with hx | hx
          · exact hp x hx
          · rw [List.mem_singleton.1 hx]; exact hn.1)
        (by
          intro q m t _ hs
          have := hl name node q m t hc hs
          simpa using this)
      rw [hr, hd']
      obtain ⟨ds, fs⟩ := r
      cases node with
      | lnk m t =>
        have := hl name _ [] m t hc (.self _)
        simp only [addKid, readTarget, this, if_true]; exact ⟨_, rfl⟩
      | _ => exact ⟨_, rfl⟩
end

/-- The scan succeeds exactly if the links are lucky. -/
theorem scan_ok_iff {g : Bytes → UInt8} {base : Bytes} {root : FNode} (hok : TreeOk root) :
    (∃ coll, scan g base root = .ok coll) ↔ (IsDir root → LuckyLinks g root) := by
  constructor
  · rintro ⟨coll, h⟩ hd p m t hp hs
    refine Classical.byContradiction fun hc => ?_
    rw [(C07_link_reading_is_luck g base root hd hok).1 p m t hs hc] at h
    cases h
  · intro hl
    have : ∃ d, spiderDir g [] root = .ok d := by
      by_cases hd : IsDir root
      · exact spiderDir_lucky root [] hok (by simp) (by
          intro q m t hq hs; exact hl hd q m t hq hs)
      · cases root <;> simp [spiderDir]
        simp [IsDir] at hd
    obtain ⟨d, hd⟩ := this
    obtain ⟨c, hc⟩ := collect_ok base d
    exact ⟨c, by unfold scan; rw [hd]; exact hc⟩

/-! ### arguments without NUL -/

theorem parse_text (args : List Bytes) (ha : ∀ a ∈ args, (0 : UInt8) ∉ a) : ∀ (ts : List Bytes) (o : Opts)
    (_ : ∀ t ∈ ts, (0 : UInt8) ∉ t) (_ : (0 : UInt8) ∉ o.archive) (ts' : List Bytes) (o' : Opts),
    parseArgs ts o args = .ok (some (ts', o')) → (∀ t ∈ ts', (0 : UInt8) ∉ t) ∧ (0 : UInt8) ∉ o'.archive := by
  induction args with
  | nil =>
    intro ts o h1 h2 ts' o' h
    simp only [parseArgs, Except.ok.injEq, Option.some.injEq, Prod.mk.injEq] at h
    obtain ⟨rfl, rfl⟩ := h
    exact ⟨h1, h2⟩
  | cons a rest ih =>
    intro ts o h1 h2 ts' o' h
    have ih := ih (fun x hx => ha x (List.mem_cons_of_mem _ hx))
    have ha := ha a List.mem_cons_self
    rw [parseArgs] at h
    split at h
    · refine ih _ _ ?_ h2 _ _ h
      intro t ht
      rcases List.mem_append.1 ht with ht | ht
      · exact h1 t ht
      · rw [List.mem_singleton.1 ht]; exact ha
    · split at h
      · cases h
      · cases h
      · rename_i o1 hset
        refine ih _ _ h1 ?_ _ _ h
        unfold setFlag at hset
        split at hset
        · split at hset
          · cases hset
          · simp only [Except.ok.injEq, Option.some.injEq] at hset; subst hset; exact h2
        · split at hset
          · split at hset
            · cases hset
            · simp only [Except.ok.injEq, Option.some.injEq] at hset; subst hset; exact h2
          · split at hset
            · simp only [Except.ok.injEq, Option.some.injEq] at hset; subst hset
              exact fun hm => ha (List.mem_of_mem_drop hm)
            · cases hset

/-! ### bucket sizes of 2 GiB and more -/

section
variable {c : Cfg} {eager : Bool} {b : Nat} {archive base : Bytes} {orders : List Bytes}
  {file0 : Option Bytes} {tr : List Ev} {s : Sys}

/-- A worker after `k` broadcasts of a bucket size that is no `int`. -/
def DyingW (b : Nat) (archive : Bytes) (k : Nat) (w : WSt) (bq : List Bytes) : Prop :=
  (w = WSt.init ∧ bq = [sendMsg [85] (digits 10 b), sendMsg [65] archive].take k) ∨
  (1 ≤ k ∧ w = { WSt.init with stat := .dead .thrown } ∧ bq = [sendMsg [65] archive].take (k - 1))

structure Dying (c : Cfg) (b : Nat) (archive : Bytes) (file0 : Option Bytes) (k : Nat) (s : Sys) : Prop where
  le : k ≤ 2
  w : ∀ r, c.worker r → DyingW b archive k (s.w r) (s.bq r)
  pq : ∀ r, s.pq r = []
  acks : s.acks = []
  file : s.file = file0

/-- Rank 0's program after `k` broadcasts. -/
def afterB (ranks b : Nat) (archive base : Bytes) (orders : List Bytes) : Nat → Boss
  | 0 => bossRun ranks b archive base orders
  | 1 => match bossRun ranks b archive base orders with
    | .bcast _ k => k
    | x => x
  | _ => match bossRun ranks b archive base orders with
    | .bcast _ (.bcast _ k) => k
    | x => x

theorem onBcast_U_big (w : WSt) (b : Nat) (hb : ¬ b < 2 ^ 31) :
    onBcast w (sendMsg [85] (digits 10 b)) = { w with stat := .dead .thrown } := by
  unfold onBcast
  have := recvMsg_send 85 (digits 10 b) (by decide) (by exact digits_no 0 (by decide) b)
  rw [this]
  simp only [show ((85 : UInt8) = 65) = False by decide, if_false, if_true]
  rw [stoi_digits, if_neg hb]

theorem dying_inv (hb : ¬ b < 2 ^ 31) (hr2 : 2 ≤ c.ranks)
    (h : CreateRun c eager b archive base orders file0 tr s) :
    ∃ k, Dying c b archive file0 k s ∧ s.boss = afterB c.ranks b archive base orders k := by
  induction h with
  | nil => exact ⟨0, ⟨by omega, fun r _ => Or.inl ⟨rfl, rfl⟩, fun _ => rfl, rfl, rfl⟩, rfl⟩
  | @snoc tr s s' e h st ih =>
    obtain ⟨k, D, hbo⟩ := ih
    have hk : k = 0 ∨ k = 1 ∨ k = 2 := by have := D.le; omega
    cases st with
    | bcast m k' hp hb' =>
      rw [hb'] at hbo
      rcases hk with rfl | rfl | rfl
      · simp only [afterB, bossRun, Boss.bcast.injEq] at hbo
        obtain ⟨rfl, rfl⟩ := hbo
        refine ⟨1, ⟨by omega, ?_, D.pq, D.acks, D.file⟩, rfl⟩
        intro r hr
        rcases D.w r hr with ⟨h1, h2⟩ | ⟨h1, _⟩
        · left; exact ⟨h1, by simp only [h2]; rfl⟩
        · omega
      · simp only [afterB, bossRun, Boss.bcast.injEq] at hbo
        obtain ⟨rfl, rfl⟩ := hbo
        refine ⟨2, ⟨by omega, ?_, D.pq, D.acks, D.file⟩, rfl⟩
        intro r hr
        rcases D.w r hr with ⟨h1, h2⟩ | ⟨h1, h2, h3⟩
        · left; exact ⟨h1, by simp only [h2]; rfl⟩
        · right; exact ⟨by omega, h2, by simp only [h3]; rfl⟩
      · simp [afterB, bossRun] at hbo
    | bcastDone hp hq => exact ⟨k, ⟨D.le, D.w, D.pq, D.acks, D.file⟩, hbo⟩
    | send r m k' hp hb' hr =>
      rw [hb'] at hbo
      rcases hk with rfl | rfl | rfl <;> simp [afterB, bossRun] at hbo
    | sendBad r m k' hp hb' hr =>
      rw [hb'] at hbo
      rcases hk with rfl | rfl | rfl <;> simp [afterB, bossRun] at hbo
    | sendDone r hp hq => exact ⟨k, ⟨D.le, D.w, D.pq, D.acks, D.file⟩, hbo⟩
    | recv k' l1 l2 r a hp hb' ha => rw [D.acks] at ha; simp at ha
    | openFile name k' hp hb' hw =>
      exfalso
      have w1 : c.worker 1 := ⟨Nat.le_refl _, hr2⟩
      have := hw 1 w1
      rcases D.w 1 w1 with ⟨h1, _⟩ | ⟨_, h1, _⟩ <;> rw [h1] at this <;> cases this
    | getBcast r m rest hr hs hm hq =>
      refine ⟨k, ⟨D.le, ?_, D.pq, D.acks, D.file⟩, hbo⟩
      intro q hqw
      by_cases hqr : q = r
      · subst hqr
        simp only [Function.update_self]
        rcases D.w q hqw with ⟨h1, h2⟩ | ⟨_, h1, _⟩
        · rw [hq] at h2
          right
          rcases hk with rfl | rfl | rfl
          · simp at h2
          · simp only [List.take_succ_cons, List.take_zero, List.cons.injEq] at h2
            obtain ⟨rfl, rfl⟩ := h2
            exact ⟨by omega, by rw [h1, onBcast_U_big _ _ hb], rfl⟩
          · simp only [List.take_succ_cons, List.take_zero, List.cons.injEq] at h2
            obtain ⟨rfl, rfl⟩ := h2
            exact ⟨by omega, by rw [h1, onBcast_U_big _ _ hb], rfl⟩
        · rw [h1] at hs; cases hs
      · simp only [Function.update_of_ne hqr]
        exact D.w q hqw
    | getSend r m rest hr hs hm hq => rw [D.pq r] at hq; cases hq
    | work r text name memory old write hr hs hf hm ho hd =>
      rcases D.w r hr with ⟨h1, _⟩ | ⟨_, h1, _⟩ <;> rw [h1] at hs <;> cases hs
    | workFails r text memory e hr hs hm hd =>
      rcases D.w r hr with ⟨h1, _⟩ | ⟨_, h1, _⟩ <;> rw [h1] at hs <;> cases hs
    | ackDone r hr hs hq =>
      rcases D.w r hr with ⟨h1, _⟩ | ⟨_, h1, _⟩ <;> rw [h1] at hs <;> cases hs

/-- With a bucket size of 2^31 and more, in a run that cannot go on every worker has failed at the first
message; rank 0 waits in the collective open; the archive is not made, and an existing one is as it was. -/
theorem big_bucket_stops (hb : ¬ b < 2 ^ 31) (hr2 : 2 ≤ c.ranks)
    (h : CreateRun c eager b archive base orders file0 tr s) :
    s.file = file0 ∧ (∀ n, s.boss ≠ .exit n) ∧
    (Stuck c s → (∀ r, c.worker r → (s.w r).stat = .dead .thrown) ∧ ∃ k, s.boss = .openFile archive k) := by
  obtain ⟨k, D, hbo⟩ := dying_inv hb hr2 h
  have hk : k = 0 ∨ k = 1 ∨ k = 2 := by have := D.le; omega
  refine ⟨D.file, ?_, ?_⟩
  · intro n hn
    rw [hn] at hbo
    rcases hk with rfl | rfl | rfl <;> simp [afterB, bossRun] at hbo
  · intro hs
    have hpend : s.pend = none := by
      cases hp : s.pend with
      | none => rfl
      | some x =>
        exfalso
        cases x with
        | one r => exact hs _ _ (.sendDone s r hp (Or.inl rfl))
        | all => exact hs _ _ (.bcastDone s hp (Or.inl rfl))
    rcases hk with rfl | rfl | rfl
    · exact absurd (Step.bcast s _ _ hpend hbo) (hs _ _)
    · exact absurd (Step.bcast s _ _ hpend hbo) (hs _ _)
    · refine ⟨?_, ⟨_, hbo⟩⟩
      intro r hr
      rcases D.w r hr with ⟨h1, h2⟩ | ⟨_, h1, _⟩
      · exact absurd (Step.getBcast s r _ _ hr (by rw [h1]; rfl) (by rw [h1]; rfl) h2) (hs _ _)
      · rw [h1]

end

/-! ### C27 -/

section
variable {c : Cfg} {eager : Bool} {tr : List Ev} {s : Sys} {S : StdSort Ref} {g : Bytes → UInt8}
  {look : Bytes → FNode} {mx0 : Nat} {args : List Bytes} {file0 : Option Bytes}

/-- All processes have ended, with whatever status. -/
def AllEnded (c : Cfg) (s : Sys) : Prop :=
  (∃ n, s.boss = .exit n) ∧ ∀ r, c.worker r → ∃ n, (s.w r).stat = .ended n

/-- **C27, violated** A bucket size of 2 GiB and more (or a negative one) is accepted on the command line
but is no `int`: every worker fails at the first message, and rank 0 waits for ever in the collective
open.  No archive is made. -/
theorem C27_big_bucket_hangs (t : Bytes) (o : Opts) (hr2 : 2 ≤ c.ranks)
    (hp : parseArgs [] (defaultOpts mx0) args = .ok (some ([t], o))) (ha : o.archive ≠ [])
    (hg : ∀ r, g r = 0) (hb : 2 ^ 31 ≤ o.bucket)
    (h : MainRun S g look mx0 args c eager file0 tr s) :
    s.file = file0 ∧ ¬ AllEnded c s ∧
    (Stuck c s → (∀ r, c.worker r → (s.w r).stat = .dead .thrown) ∧ ∃ k, s.boss = .openFile o.archive k) := by
  have hne : args ≠ [] := by rintro rfl; simp [parseArgs] at hp
  obtain ⟨d, hsp⟩ := spiderDir_ok g hg (look t) []
  obtain ⟨coll, hc⟩ := collect_ok t d
  have hsc : scan g t (look t) = .ok coll := by simp only [scan, hsp, hc]
  cases hpl : createOrders 0 o.bucket o.mx (setOffsets (orderFiles S coll)) with
  | none =>
    exfalso
    rcases (C16_refused_iff 0 o.bucket o.mx _).1 hpl with h | ⟨h, _⟩
    · omega
    · obtain ⟨h1, _⟩ := collect_spec hc
      obtain ⟨l, hl⟩ := bfsLoop_prefix [d] 0
      rw [show coll.dirs = [] from h, hl] at h1
      simp at h1
  | some bundles =>
    unfold MainRun at h
    rw [mainStart_job hne hp ha hsc hpl] at h
    obtain ⟨h1, h2, h3⟩ := big_bucket_stops (by omega) hr2 h
    exact ⟨h1, fun hA => hA.1.elim h2, h3⟩

/-- **C27, exactly** Let there be at least one worker, arguments without NUL and trees whose names and
link targets have no NUL.  A run that cannot go on has ended in all processes if and only if

* there were no arguments, or one was an unknown option, or
* one target and an archive name were given, the bucket size is at least 100000 and below 2^31, the
  uninitialised bytes after the link targets were zero, and no worker has failed.

In all other cases some process waits for ever or has failed. -/
theorem C27_ends_iff (hr2 : 2 ≤ c.ranks) (hrI : c.ranks < 2 ^ 31) (hargs : ∀ a ∈ args, (0 : UInt8) ∉ a)
    (hT : ∀ t, TextTree (look t)) (h : MainRun S g look mx0 args c eager file0 tr s) (hs : Stuck c s) :
    AllEnded c s ↔
      args = [] ∨ parseArgs [] (defaultOpts mx0) args = .ok none ∨
      ∃ t o, parseArgs [] (defaultOpts mx0) args = .ok (some ([t], o)) ∧ o.archive ≠ [] ∧
        100000 ≤ o.bucket ∧ o.bucket < 2 ^ 31 ∧ (IsDir (look t) → LuckyLinks g (look t)) ∧
        ∀ r, c.worker r → ∀ e, (s.w r).stat ≠ .dead e := by
  have w1 : c.worker 1 := ⟨Nat.le_refl _, hr2⟩
  have hwait : LeftWaiting c s → ¬ AllEnded c s := by
    intro hl hA
    obtain ⟨n, hn⟩ := hA.2 1 w1
    rw [hl.2 1 w1] at hn; cases hn
  by_cases hne : args = []
  · subst hne
    obtain ⟨_, h1, h2⟩ := C27_no_arguments h
    exact ⟨fun _ => Or.inl rfl, fun _ => ⟨⟨_, h1⟩, fun r _ => ⟨_, h2 r⟩⟩⟩
  cases hp : parseArgs [] (defaultOpts mx0) args with
  | error e =>
    refine ⟨fun hA => absurd hA (hwait (C27_bad_number_throws e hne hp h).2), ?_⟩
    rintro (h1 | h1 | ⟨t, o, h1, _⟩)
    · exact absurd h1 hne
    · cases h1
    · cases h1
  | ok res =>
    cases res with
    | none =>
      refine ⟨fun _ => Or.inr (Or.inl rfl), fun _ => ?_⟩
      have hf := (C27_bad_option_releases (by omega) hp h).2.2.1 hs
      exact ⟨⟨_, hf.1⟩, fun r hr => ⟨_, hf.2 r hr⟩⟩
    | some x =>
      obtain ⟨ts, o⟩ := x
      by_cases hbad : o.archive = [] ∨ ts.length ≠ 1
      · refine ⟨fun hA => absurd hA (hwait (C27_workers_left_waiting ts o hne hp hbad h).2), ?_⟩
        rintro (h1 | h1 | ⟨t, o', h1, h2, _⟩)
        · exact absurd h1 hne
        · cases h1
        · simp only [Except.ok.injEq, Option.some.injEq, Prod.mk.injEq] at h1
          obtain ⟨rfl, rfl⟩ := h1
          rcases hbad with h | h
          · exact absurd h h2
          · simp at h
      · have ha : o.archive ≠ [] := fun h => hbad (Or.inl h)
        have hl1 : ts.length = 1 := Classical.byContradiction fun h => hbad (Or.inr h)
        obtain ⟨t, rfl⟩ := List.length_eq_one_iff.1 hl1
        obtain ⟨htx, hax⟩ := parse_text args hargs [] (defaultOpts mx0) (by simp) (by simp [defaultOpts]) _ _ hp
        have ht0 := htx t (by simp)
        cases hsc : scan g t (look t) with
        | error e =>
          have hst : mainStart S g look mx0 c.ranks args file0 = Sys.start (.fail e) file0 := by
            unfold mainStart bossMain
            rw [if_neg hne, hp]
            have : ¬ (o.archive.length < 1) := by
              intro h; apply ha; exact List.length_eq_zero_iff.1 (by omega)
            simp only [if_neg this, hsc]
          unfold MainRun at h
          rw [hst] at h
          refine ⟨fun hA => absurd hA (hwait (idle_leftWaiting (Or.inr ⟨_, rfl⟩) h).2), ?_⟩
          rintro (h1 | h1 | ⟨t', o', h1, _, _, _, h5, _⟩)
          · exact absurd h1 hne
          · cases h1
          · simp only [Except.ok.injEq, Option.some.injEq, Prod.mk.injEq, List.cons.injEq, and_true] at h1
            obtain ⟨rfl, rfl⟩ := h1
            obtain ⟨coll, hc⟩ := (scan_ok_iff (base := t) (hT t).ok).2 h5
            rw [hc] at hsc; cases hsc
        | ok coll =>
          have hlucky := (scan_ok_iff (hT t).ok).1 ⟨coll, hsc⟩
          have hdirs : coll.dirs ≠ [] := by
            unfold scan at hsc
            split at hsc
            · cases hsc
            · rename_i d _
              obtain ⟨h1, _⟩ := collect_spec hsc
              obtain ⟨l, hl⟩ := bfsLoop_prefix [d] 0
              rw [hl] at h1
              intro h; rw [h] at h1; simp at h1
          cases hpl : createOrders 0 o.bucket o.mx (setOffsets (orderFiles S coll)) with
          | none =>
            have hsm : o.bucket < 100000 := by
              rcases (C16_refused_iff 0 o.bucket o.mx _).1 hpl with h | ⟨h, _⟩
              · exact h
              · exact absurd h hdirs
            have hst : mainStart S g look mx0 c.ranks args file0 = Sys.start (.fail .ub) file0 := by
              unfold mainStart bossMain
              rw [if_neg hne, hp]
              have : ¬ (o.archive.length < 1) := by
                intro h; apply ha; exact List.length_eq_zero_iff.1 (by omega)
              simp only [if_neg this, hsc, hpl]
            unfold MainRun at h
            rw [hst] at h
            refine ⟨fun hA => absurd hA (hwait (idle_leftWaiting (Or.inr ⟨_, rfl⟩) h).2), ?_⟩
            rintro (h1 | h1 | ⟨t', o', h1, _, h3, _⟩)
            · exact absurd h1 hne
            · cases h1
            · simp only [Except.ok.injEq, Option.some.injEq, Prod.mk.injEq] at h1
              obtain ⟨_, rfl⟩ := h1
              omega
          | some bundles =>
            have hb1 : 100000 ≤ o.bucket := by
              refine Classical.byContradiction fun hc => ?_
              rw [(C16_refused_iff 0 o.bucket o.mx _).2 (Or.inl (by omega))] at hpl
              cases hpl
            unfold MainRun at h
            rw [mainStart_job hne hp ha hsc hpl] at h
            by_cases hb2 : o.bucket < 2 ^ 31
            · have hL : Launch c o.bucket o.archive t (bundles.map printBundle) :=
                ⟨by omega, hrI, by omega, hb2, hax, ht0, plan_text (hT t) hsc hpl⟩
              constructor
              · intro hA
                refine Or.inr (Or.inr ⟨t, o, rfl, ha, hb1, hb2, hlucky, ?_⟩)
                intro r hr e hd
                obtain ⟨n, hn⟩ := hA.2 r hr
                rw [hd] at hn; cases hn
              · rintro (h1 | h1 | ⟨t', o', h1, _, _, _, _, hD⟩)
                · exact absurd h1 hne
                · cases h1
                · rcases C25_only_failure_stops hL hr2 h hD with hf | hf | ⟨e, s', hst⟩
                  · exact ⟨⟨_, hf.1⟩, fun r hr => ⟨_, hf.2 r hr⟩⟩
                  · exact ⟨⟨_, hf.1⟩, fun r hr => ⟨_, hf.2 r hr⟩⟩
                  · exact absurd hst.eager (hs e s')
            · obtain ⟨_, h2, _⟩ := big_bucket_stops hb2 hr2 h
              refine ⟨fun hA => absurd hA.1 (fun ⟨n, hn⟩ => h2 n hn), ?_⟩
              rintro (h1 | h1 | ⟨t', o', h1, _, _, h4, _⟩)
              · exact absurd h1 hne
              · cases h1
              · simp only [Except.ok.injEq, Option.some.injEq, Prod.mk.injEq] at h1
                obtain ⟨_, rfl⟩ := h1
                omega

end

/-! ### concrete cases -/

/-- `bucketsize=2147483647` is rounded up to 2^31; `bucketsize=-1` wraps. -/
example : parseArgs [] (defaultOpts 7) [bucketsize ++ [61, 50, 49, 52, 55, 52, 56, 51, 54, 52, 55],
      archivefile ++ [61, 97], [47, 116]] = .ok (some ([[47, 116]], ⟨2 ^ 31, 7, [97]⟩)) ∧
    parseArgs [] (defaultOpts 7) [bucketsize ++ [61, 45, 49, 48, 50, 52], archivefile ++ [61, 97], [47, 116]] =
      .ok (some ([[47, 116]], ⟨2 ^ 64 - 1024, 7, [97]⟩)) := by
  constructor <;> decide +kernel

theorem demo_text : TextTree demoTree :=
  ⟨demo_shortTree.treeOk, fun p m t h => (demo_shortTree.links p m t h).2.1⟩

/-- `parfu archivefile=a /t` on the concrete tree comes to a standstill with all processes ended;
`parfu bucketsize=1000 archivefile=a /t` with the workers waiting; `parfu bucketsize=2147483647
archivefile=a /t` with the workers dead. -/
example :
    (∃ tr s, MainRun demoSort2 (fun _ => 0) (fun _ => demoTree) 7 [archivefile ++ [61, 97], [47, 116]]
      demoCfg true none tr s ∧ Stuck demoCfg s ∧ AllEnded demoCfg s) ∧
    (∃ tr s, MainRun demoSort2 (fun _ => 0) (fun _ => demoTree) 7
      [bucketsize ++ [61, 49, 48, 48, 48], archivefile ++ [61, 97], [47, 116]]
      demoCfg true none tr s ∧ Stuck demoCfg s ∧ ¬ AllEnded demoCfg s) ∧
    (∀ tr s, MainRun demoSort2 (fun _ => 0) (fun _ => demoTree) 7
      [bucketsize ++ [61, 50, 49, 52, 55, 52, 56, 51, 54, 52, 55], archivefile ++ [61, 97], [47, 116]]
      demoCfg true none tr s → ¬ AllEnded demoCfg s) := by
  refine ⟨?_, ?_, ?_⟩
  · obtain ⟨coll, bundles, j⟩ := C19_short_paths demoSort2 (fun _ => 0) 4992000 7 demo_shortTree (fun _ => rfl)
      (by decide) (by decide) demo_total
    have hst := mainStart_job (c := demoCfg) (file0 := none) (look := fun _ => demoTree) (mx0 := 7)
      (args := [archivefile ++ [61, 97], [47, 116]]) (o := ⟨4992000, 7, [97]⟩)
      (by decide) (by decide +kernel) (by decide) j.scanned j.planned
    have hL : Launch demoCfg 4992000 [97] [47, 116] (bundles.map printBundle) :=
      ⟨by decide, by decide, by decide, by decide, by decide, by decide,
        plan_text demo_text j.scanned j.planned⟩
    obtain ⟨more, s, h1, h2⟩ := reaches_stuck hL (file0 := none) Run.nil
    have h1' : MainRun demoSort2 (fun _ => 0) (fun _ => demoTree) 7 [archivefile ++ [61, 97], [47, 116]]
        demoCfg true none ([] ++ more) s := by
      unfold MainRun; rw [hst]; exact h1
    refine ⟨_, s, h1', h2, ?_⟩
    have h3 := ((C19_whole_program (S := demoSort2) (g := fun _ => 0) (look := fun _ => demoTree) (mx0 := 7)
      (args := [archivefile ++ [61, 97], [47, 116]]) (c := demoCfg) (t := [47, 116]) (o := ⟨4992000, 7, [97]⟩)
      (by unfold ShortArgs; decide) (by decide +kernel) (by decide) (by decide) (by decide) (by decide)
      demo_shortTree (fun _ => rfl) demo_total (by decide) (by decide) rfl h1').2.2 h2).1
    exact ⟨⟨_, h3.1⟩, fun r hr => ⟨_, h3.2 r hr⟩⟩
  · have h0 : MainRun demoSort2 (fun _ => 0) (fun _ => demoTree) 7
        [bucketsize ++ [61, 49, 48, 48, 48], archivefile ++ [61, 97], [47, 116]] demoCfg true none []
        _ := Run.nil
    have h1 := (C27_small_bucket_crashes [47, 116] ⟨1024, 7, [97]⟩ (by decide) (by decide +kernel) (by decide)
      (fun _ => rfl) (by decide) h0).2
    refine ⟨_, _, h0, h1.1, ?_⟩
    intro hA
    obtain ⟨n, hn⟩ := hA.2 1 ⟨by decide, by decide⟩
    rw [h1.2 1 ⟨by decide, by decide⟩] at hn; cases hn
  · intro tr s h
    exact (C27_big_bucket_hangs [47, 116] ⟨2 ^ 31, 7, [97]⟩ (by decide) (by decide +kernel) (by decide)
      (fun _ => rfl) (by decide) h).2.1

end Parfu.Props
