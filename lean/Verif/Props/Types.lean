import Verif.Props.Tokio
import Verif.Props.Process

/-! # Types of exposed families (C52) -/

namespace Measured
open Measured.Spec

def EncCall.isType : EncCall → Bool
  | .type _ _ => true
  | _ => false

def Spec.Line.isType : Line → Bool
  | .type _ _ => true
  | _ => false

theorem lines_untyped {rf : Bytes → Option F64} {text : Name → Bytes} {prev : Bool} {cs : List EncCall} {ls : List Line}
    (h : CallsLines rf text prev cs ls) (hc : ∀ c ∈ cs, c.isType = false) : ∀ l ∈ ls, l.isType = false := by
  induction h with
  | nil => intro l hl; cases hl
  | cons h1 _ ih =>
    rename_i prev c cs l ls _
    intro x hx
    simp only [List.mem_append] at hx
    rcases hx with (hx | hx) | hx
    · split at hx
      · rw [List.mem_singleton.1 hx]; rfl
      · cases hx
    · cases h1 with
      | help n t => rw [List.mem_singleton.1 hx]; rfl
      | type k n => have := hc _ List.mem_cons_self; simp [EncCall.isType] at this
      | sample h =>
        obtain ⟨s, _, rfl⟩ := List.mem_map.1 hx
        rfl
    · exact ih (fun c hc' => hc c (List.mem_cons_of_mem _ hc')) x hx

theorem consume_untyped (ls : List Line) (h : ∀ l ∈ ls, l.isType = false) (acc : List Family)
    (ha : ∀ f ∈ acc, f.type = none) : ∀ f ∈ ls.foldl consume acc, f.type = none := by
  induction ls generalizing acc with
  | nil => exact ha
  | cons l ls ih =>
    rw [List.foldl_cons]
    refine ih (fun x hx => h x (by simp [hx])) _ ?_
    have hl := h l (by simp)
    cases l with
    | blank => exact ha
    | help n t =>
      intro f hf
      rcases List.mem_cons.1 hf with rfl | hf
      · rfl
      · exact ha f hf
    | type n t => cases hl
    | sample s =>
      intro f hf
      cases acc with
      | nil =>
        simp only [consume, List.mem_singleton] at hf
        subst hf; rfl
      | cons g gs =>
        simp only [consume] at hf
        split at hf
        · rcases List.mem_cons.1 hf with rfl | hf
          · exact ha g (by simp)
          · exact ha f (by simp [hf])
        · rcases List.mem_cons.1 hf with rfl | hf
          · rfl
          · exact ha f hf

/-- What is missing: hand written collectors. Families written by metrics, vectors and derived groups (HELP if any,
TYPE, samples) are read with their type. -/
theorem C52_typed_partial {ryu : F64 → Bytes} {rf : Bytes → Option F64} (F : FloatText ryu rf) (m : Mode)
    (fs : List FamilyIn) (h : ∀ f ∈ fs, FamilyOk f) :
    ∃ e gs, (textEncoder m ryu).runAll (fs.flatMap FamilyIn.calls) (TextEnc.new []) = (.ok (), e) ∧
      readFamilies rf e.writer = some gs ∧
      List.Forall₂ (fun f g => g.name = f.name.text ∧ g.type = some (kindWord f.kind)) fs gs := by
  obtain ⟨st, out, gs, _, h1, h2, h3, _⟩ := C33_exposition_partial F m fs h
  refine ⟨⟨st, out⟩, gs, h1, h2, ?_⟩
  exact h3.imp fun f g hfg => ⟨hfg.name, hfg.type⟩

/-- The runtime collector writes no TYPE line at all: every family it shows is untyped, and so the buckets of the
poll time histogram are not recognised as a histogram. -/
theorem C52_tokio_refuted {ryu : F64 → Bytes} {rf : Bytes → Option F64} (F : FloatText ryu rf) (m : Mode) (net : Bool)
    (rts : List RtCollector) (h : ∀ c ∈ rts, RtOk c.runtime) :
    ∃ e fs, collectRuntimes m net rts (textEncoder m ryu) (TextEnc.new []) = (.ok (), e) ∧
      readFamilies rf e.writer = some fs ∧ fs ≠ [] ∧ ∀ f ∈ fs, f.type = none := by
  obtain ⟨e, ls, h1, h2, h3⟩ := C48_text F m net rts h
  refine ⟨e, (ls.foldl consume []).reverse, h1, by rw [readFamilies, h2]; rfl, ?_, ?_⟩
  · have : ∃ ls', ls = .help b!"threads" b!"number of threads used by the runtime" :: ls' := by
      unfold rtCalls rtFamilies taskFamilies at h3
      simp only [List.cons_append, List.flatMap_cons, RtFamily.calls] at h3
      cases h3 with
      | cons h1 h2 =>
        cases h1
        exact ⟨_, rfl⟩
    obtain ⟨ls', rfl⟩ := this
    rw [List.foldl_cons]
    have hne : ∀ (ls : List Line) (acc : List Family), acc ≠ [] → ls.foldl consume acc ≠ [] := by
      intro ls
      induction ls with
      | nil => intro acc h; exact h
      | cons l ls ih =>
        intro acc h
        apply ih
        obtain ⟨g, gs, rfl⟩ := List.exists_cons_of_ne_nil h
        cases l with
        | blank => exact h
        | help n t => exact List.cons_ne_nil _ _
        | type n t => simp only [consume]; split <;> exact List.cons_ne_nil _ _
        | sample s => simp only [consume]; split <;> exact List.cons_ne_nil _ _
    intro hc
    exact hne ls' _ (by simp [consume]) (List.reverse_eq_nil_iff.1 hc)
  · intro f hf
    refine consume_untyped ls (lines_untyped h3 ?_) [] (by simp) f (List.mem_reverse.1 hf)
    intro c hc
    obtain ⟨f, _, rfl | ⟨_, _, s, _, rfl⟩⟩ := rtCalls_mem hc <;> rfl

/-- The process collector neither: whatever it shows is untyped. -/
theorem C52_process_refuted {ryu : F64 → Bytes} {rf : Bytes → Option F64} (F : FloatText ryu rf) (m : Mode) (os : Os)
    (c : ProcessCollector) (p : ProcInfo) (hp : os.procs c.pid = some p) (ho : OsOk os) (hok : ProcOk os p) :
    ∃ e fs, c.collect m os (textEncoder m ryu) (TextEnc.new []) = (.ok (), e) ∧
      readFamilies rf e.writer = some fs ∧ ∀ f ∈ fs, f.type = none := by
  obtain ⟨e, h1, h2⟩ := C46_usage_partial F m os c p hp ho hok
  refine ⟨e, _, h1, h2, ?_⟩
  intro f hf
  obtain ⟨x, _, rfl⟩ := List.mem_map.1 hf
  rfl

example : ∀ c ∈ [(RtCollector.new exRt).withName b!"a", (RtCollector.new exRt).withName b!"b"], RtOk c.runtime := by
  intro c hc
  simp only [List.mem_cons, List.not_mem_nil, or_false] at hc
  rcases hc with rfl | rfl <;> exact exRt_ok

end Measured
