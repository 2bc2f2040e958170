/-
Lemmas for C82: several runs that create the same archive.
-/
import Verif.ManyRuns
import Verif.PropsProtocol
set_option autoImplicit false

namespace Parfu
open ProtocolSpec Props

/-- A program that does not open the archive. -/
def NoOpen : Boss → Prop
  | .bcast _ k => NoOpen k
  | .send _ _ k => NoOpen k
  | .recv k => ∀ a, NoOpen (k a)
  | .openFile _ _ => False
  | .exit _ => True
  | .fail _ => True

/-- A program that, if it fails to open the archive, does not try again. -/
def OneOpen : Boss → Prop
  | .bcast _ k => OneOpen k
  | .send _ _ k => OneOpen k
  | .recv k => ∀ a, OneOpen (k a)
  | .openFile _ k => NoOpen (k false)
  | .exit _ => True
  | .fail _ => True

theorem oneOpen_start (ranks b : Nat) (archive base : Bytes) (orders : List Bytes) :
    OneOpen (bossRun ranks b archive base orders) := by
  simp [bossRun, OneOpen, NoOpen]

/-- Steps other than opening and writing do not use the file. -/
theorem step_blind {c : Cfg} {eager : Bool} {s s' : Sys} {e : Ev} (h : Step c eager s e s') (hno : ∀ ok, e ≠ .opened ok)
    (hnw : ∀ r t b a m w, e ≠ .wrote r t b a m w) (f : Option Bytes) :
    s'.file = s.file ∧ Step c eager { s with file := f } e { s' with file := f } := by
  cases h with
  | bcast m k hp hb => exact ⟨rfl, .bcast { s with file := f } m k hp hb⟩
  | bcastDone hp hq => exact ⟨rfl, .bcastDone { s with file := f } hp hq⟩
  | send r m k hp hb hr => exact ⟨rfl, .send { s with file := f } r m k hp hb hr⟩
  | sendBad r m k hp hb hr => exact ⟨rfl, .sendBad { s with file := f } r m k hp hb hr⟩
  | sendDone r hp hq => exact ⟨rfl, .sendDone { s with file := f } r hp hq⟩
  | recv k l1 l2 r a hp hb ha => exact ⟨rfl, .recv { s with file := f } k l1 l2 r a hp hb ha⟩
  | openFile name k hp hb hw => exact (hno _ rfl).elim
  | getBcast r m rest hr hs hm hq => exact ⟨rfl, .getBcast { s with file := f } r m rest hr hs hm hq⟩
  | getSend r m rest hr hs hm hq => exact ⟨rfl, .getSend { s with file := f } r m rest hr hs hm hq⟩
  | work r text name memory old write hr hs hf hm ho hd => exact (hnw _ _ _ _ _ _ rfl).elim
  | workFails r text memory e hr hs hm hd => exact ⟨rfl, .workFails { s with file := f } r text memory e hr hs hm hd⟩
  | ackDone r hr hs hq => exact ⟨rfl, .ackDone { s with file := f } r hr hs hq⟩

theorem noOpen_step {c : Cfg} {eager : Bool} {s s' : Sys} {e : Ev} (h : Step c eager s e s') (hn : NoOpen s.boss) :
    NoOpen s'.boss ∧ ∀ ok, e ≠ .opened ok := by
  cases h with
  | bcast m k hp hb => rw [hb] at hn; exact ⟨hn, by simp⟩
  | send r m k hp hb hr => rw [hb] at hn; exact ⟨hn, by simp⟩
  | sendBad r m k hp hb hr => exact ⟨trivial, by simp⟩
  | recv k l1 l2 r a hp hb ha =>
    rw [hb] at hn
    refine ⟨?_, by simp⟩
    simp only []
    split
    · exact hn a
    · trivial
  | openFile name k hp hb hw => rw [hb] at hn; exact hn.elim
  | _ => exact ⟨hn, by simp⟩

theorem oneOpen_step {c : Cfg} {eager : Bool} {s s' : Sys} {e : Ev} (h : Step c eager s e s') (hn : OneOpen s.boss)
    (hno : ∀ ok, e ≠ .opened ok) : OneOpen s'.boss := by
  cases h with
  | bcast m k hp hb => rw [hb] at hn; exact hn
  | send r m k hp hb hr => rw [hb] at hn; exact hn
  | sendBad r m k hp hb hr => trivial
  | recv k l1 l2 r a hp hb ha =>
    rw [hb] at hn
    simp only []
    split
    · exact hn a
    · trivial
  | openFile name k hp hb hw => exact (hno _ rfl).elim
  | _ => exact hn

/-- No step removes the file. -/
theorem step_file_stays {c : Cfg} {eager : Bool} {s s' : Sys} {e : Ev} (h : Step c eager s e s') (hf : s.file ≠ none) :
    s'.file ≠ none := by
  cases h with
  | openFile name k hp hb hw =>
    simp only []
    split
    · rename_i hs
      rw [← Option.isSome_iff_ne_none]
      exact hs
    · exact hf
  | work r text name memory old write hr hs hf hm ho hd => simp
  | _ => exact hf

/-- A step that writes could be made with any file that is there. -/
theorem step_write {c : Cfg} {eager : Bool} {s s' : Sys} {r : Nat} {t b a m : Bytes} {w : WriteReq}
    (h : Step c eager s (.wrote r t b a m w) s') : ∃ s2, Step c eager { s with file := some [] } (.wrote r t b a m w) s2 := by
  cases h with
  | work _ _ _ _ old write hr hs hf hm ho hd => exact ⟨_, .work { s with file := some [] } r t a m [] w hr hs hf hm rfl hd⟩

/-- What the open does. -/
theorem step_open {c : Cfg} {eager : Bool} {s s' : Sys} {ok : Bool} (h : Step c eager s (.opened ok) s') (hn : OneOpen s.boss) :
    (openResult c s.file = none → ok = false ∧ s'.file = s.file ∧ NoOpen s'.boss ∧
      Step c eager { s with file := some [] } (.opened false) { s' with file := some [] }) ∧
    (openResult c s.file ≠ none → s.file = none ∧ s'.file = some [] ∧ c.creatable = true) := by
  cases h with
  | openFile name k hp hb hw =>
    rw [hb] at hn
    constructor
    · intro e
      refine ⟨by rw [e]; rfl, by rw [e]; rfl, by rw [e]; exact hn, ?_⟩
      have := Step.openFile (c := c) (eager := eager) { s with file := some [] } name k hp hb hw
      have e2 : openResult c (some []) = none := rfl
      simpa only [e, e2, Option.isSome_none, Bool.false_eq_true, if_false] using this
    · intro e
      have : s.file = none ∧ c.creatable = true := by
        unfold openResult at e
        split at e
        · exact (e rfl).elim
        · rename_i hf
          split at e
          · rename_i hc; exact ⟨hf, hc⟩
          · exact (e rfl).elim
      refine ⟨this.1, ?_, this.2⟩
      simp [openResult, this.1, this.2]

section
variable {ι : Type} [DecidableEq ι]

theorem eventsOf_snoc (i j : ι) (tr : List (ι × Ev)) (e : Ev) :
    eventsOf j (tr ++ [(i, e)]) = eventsOf j tr ++ if i = j then [e] else [] := by
  unfold eventsOf
  rw [List.filterMap_append]
  by_cases h : i = j <;> simp [h]

/-- The state when all runs have been started. -/
def Many.start (c : ι → Cfg) (b : ι → Nat) (archive : Bytes) (base : ι → Bytes) (orders : ι → List Bytes)
    (file0 : Option Bytes) : Many ι :=
  ⟨fun i => Sys.start (bossRun (c i).ranks (b i) archive (base i) (orders i)) file0, file0⟩

/-- Has not tried to open the archive. -/
def Waiting (c : Cfg) (eager : Bool) (b : Nat) (archive base : Bytes) (orders : List Bytes) (tr : List Ev) (s : Sys) : Prop :=
  (∀ f, CreateRun c eager b archive base orders f tr { s with file := f }) ∧ OneOpen s.boss

/-- Has not been able to open the archive. -/
def Refused (c : Cfg) (eager : Bool) (b : Nat) (archive base : Bytes) (orders : List Bytes) (tr : List Ev) (s : Sys) : Prop :=
  CreateRun c eager b archive base orders (some []) tr { s with file := some [] } ∧ NoOpen s.boss

/-- The runs, none of which but `w` has opened the archive. -/
structure ManyInv (c : ι → Cfg) (eager : ι → Bool) (b : ι → Nat) (archive : Bytes) (base : ι → Bytes) (orders : ι → List Bytes)
    (file0 : Option Bytes) (tr : List (ι × Ev)) (x : Many ι) (w : Option ι) : Prop where
  nobody : w = none → x.file = file0
  winner : ∀ i, w = some i → file0 = none ∧ x.file ≠ none ∧
    CreateRun (c i) (eager i) (b i) archive (base i) (orders i) none (eventsOf i tr) { x.run i with file := x.file }
  others : ∀ j, w ≠ some j → Waiting (c j) (eager j) (b j) archive (base j) (orders j) (eventsOf j tr) (x.run j) ∨
    (Refused (c j) (eager j) (b j) archive (base j) (orders j) (eventsOf j tr) (x.run j) ∧
      (x.file = none → (c j).creatable = false))

variable {c : ι → Cfg} {eager : ι → Bool} {b : ι → Nat} {archive : Bytes} {base : ι → Bytes} {orders : ι → List Bytes}
  {file0 : Option Bytes} {tr : List (ι × Ev)} {x : Many ι}

theorem many_inv (hL : ∀ i, Launch (c i) (b i) archive (base i) (orders i))
    (h : ManyRun c eager (Many.start c b archive base orders file0) tr x) :
    ∃ w, ManyInv c eager b archive base orders file0 tr x w := by
  induction h with
  | nil =>
    refine ⟨none, fun _ => rfl, fun i h => (by cases h), fun j _ => Or.inl ⟨fun f => .nil, oneOpen_start _ _ _ _ _⟩⟩
  | @snoc tr x x' i e _ st ih =>
    obtain ⟨w, hw⟩ := ih
    cases st with
    | one s' st =>
      by_cases hwi : w = some i
      · -- the run that has the archive
        obtain ⟨h1, h2, h3⟩ := hw.winner i hwi
        refine ⟨w, fun h => (by rw [h] at hwi; cases hwi), ?_, ?_⟩
        · intro j hj
          have hji : j = i := by rw [hwi] at hj; exact (Option.some.inj hj).symm
          subst hji
          rw [eventsOf_snoc, if_pos rfl]
          simp only [Function.update_self]
          exact ⟨h1, step_file_stays st h2, .snoc h3 st⟩
        · intro j hj
          have hji : i ≠ j := by rintro rfl; exact hj hwi
          rw [eventsOf_snoc, if_neg hji, List.append_nil]
          simp only [Function.update_of_ne (Ne.symm hji)]
          rcases hw.others j hj with h | ⟨h, _⟩
          · exact Or.inl h
          · exact Or.inr ⟨h, fun hn => absurd hn (step_file_stays st h2)⟩
      · have hsolo := hw.others i hwi
        -- it cannot write
        have hnw : ∀ r t b a m v, e ≠ .wrote r t b a m v := by
          rintro r t b' a m v rfl
          obtain ⟨s2, st2⟩ := step_write st
          have hrun : CreateRun (c i) (eager i) (b i) archive (base i) (orders i) (some []) (eventsOf i tr ++ [.wrote r t b' a m v]) s2 := by
            rcases hsolo with h | ⟨h, _⟩
            · exact .snoc (h.1 _) st2
            · exact .snoc h.1 st2
          have := (C28_existing_archive_untouched (hL i) [] hrun).2.1
          simp [executed] at this
        by_cases hop : ∃ ok, e = .opened ok
        · obtain ⟨ok, rfl⟩ := hop
          rcases hsolo with h | ⟨h, _⟩
          · obtain ⟨ho1, ho2⟩ := step_open st h.2
            by_cases hr : openResult (c i) x.file = none
            · obtain ⟨rfl, hf, hno, hst⟩ := ho1 hr
              refine ⟨w, ?_, ?_, ?_⟩
              · intro h; simpa only [hf] using hw.nobody h
              · intro j hj
                have hji : i ≠ j := by rintro rfl; exact hwi hj
                rw [eventsOf_snoc, if_neg hji, List.append_nil]
                simp only [Function.update_of_ne (Ne.symm hji), hf]
                exact hw.winner j hj
              · intro j hj
                by_cases hji : i = j
                · subst hji
                  rw [eventsOf_snoc, if_pos rfl]
                  simp only [Function.update_self]
                  refine Or.inr ⟨⟨.snoc (h.1 _) hst, hno⟩, ?_⟩
                  intro hn
                  rw [hf] at hn
                  simp only [] at hn
                  rw [hn] at hr
                  unfold openResult at hr
                  simpa using hr
                · rw [eventsOf_snoc, if_neg hji, List.append_nil]
                  simp only [Function.update_of_ne (Ne.symm hji), hf]
                  exact hw.others j hj
            · obtain ⟨hfn, hf, hc⟩ := ho2 hr
              simp only [] at hfn
              have hwn : w = none := by
                cases hw' : w with
                | none => rfl
                | some k => exact absurd hfn (hw.winner k hw').2.1
              have hf0 : file0 = none := by rw [← hw.nobody hwn]; exact hfn
              refine ⟨some i, fun h => (by cases h), ?_, ?_⟩
              · intro j hj
                have := Option.some.inj hj
                subst this
                rw [eventsOf_snoc, if_pos rfl]
                simp only [Function.update_self]
                refine ⟨hf0, by rw [hf]; simp, .snoc (h.1 none) ?_⟩
                rw [hfn] at st
                exact st
              · intro j hj
                have hji : i ≠ j := by rintro rfl; exact hj rfl
                rw [eventsOf_snoc, if_neg hji, List.append_nil]
                simp only [Function.update_of_ne (Ne.symm hji)]
                rcases hw.others j (by rw [hwn]; simp) with h | ⟨h, _⟩
                · exact Or.inl h
                · exact Or.inr ⟨h, fun hn => by rw [hf] at hn; cases hn⟩
          · exact absurd rfl ((noOpen_step st h.2).2 ok)
        · have hno : ∀ ok, e ≠ .opened ok := fun ok h => hop ⟨ok, h⟩
          have hf := (step_blind st hno hnw none).1
          simp only [] at hf
          refine ⟨w, ?_, ?_, ?_⟩
          · intro h; simpa only [hf] using hw.nobody h
          · intro j hj
            have hji : i ≠ j := by rintro rfl; exact hwi hj
            rw [eventsOf_snoc, if_neg hji, List.append_nil]
            simp only [Function.update_of_ne (Ne.symm hji), hf]
            exact hw.winner j hj
          · intro j hj
            by_cases hji : i = j
            · subst hji
              rw [eventsOf_snoc, if_pos rfl]
              simp only [Function.update_self, hf]
              rcases hsolo with h | ⟨h, h'⟩
              · exact Or.inl ⟨fun f => .snoc (h.1 f) (step_blind st hno hnw f).2, oneOpen_step st h.2 hno⟩
              · exact Or.inr ⟨⟨.snoc h.1 (step_blind st hno hnw (some [])).2, (noOpen_step st h.2).1⟩, h'⟩
            · rw [eventsOf_snoc, if_neg hji, List.append_nil]
              simp only [Function.update_of_ne (Ne.symm hji), hf]
              exact hw.others j hj

end
end Parfu
