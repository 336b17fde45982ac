import Verif.Proof.TextLoss
import Verif.Proof.TextFail
import Verif.Proof.ProtoSink
import Verif.Spec.Flush

/-! A writer with a buffer of its own accepts what a writer without one would accept. -/

namespace Measured
open Spec

/-- `y` does on images what `x` does. -/
def Hom {σ τ α : Type} (φ : σ → τ) (x : RS σ α) (y : RS τ α) : Prop := ∀ s, y (φ s) = ((x s).1, φ (x s).2)

variable {σ τ : Type} {φ : σ → τ}

theorem Hom.bind {α β : Type} {x : RS σ α} {y : RS τ α} {f : α → RS σ β} {g : α → RS τ β} (h : Hom φ x y)
    (hf : ∀ a, Hom φ (f a) (g a)) : Hom φ (x >>= f) (y >>= g) := by
  intro s
  rw [RS.bind_run, RS.bind_run, h s]
  rcases x s with ⟨o, s'⟩
  cases o with
  | ok a => exact hf a s'
  | err => rfl
  | panic => rfl

theorem hom_pure {α : Type} (a : α) : Hom φ (pure a) (pure a) := fun _ => rfl
theorem hom_lift {α : Type} (o : Out α) : Hom φ (RS.lift o) (RS.lift o) := fun _ => rfl
theorem hom_panic {α : Type} : Hom φ (RS.panic (α := α)) RS.panic := fun _ => rfl

/-- The writer without a buffer. -/
def Buffering.sink (s : Buffering) : Sink := ⟨s.sent ++ s.held, s.calls, s.fail⟩

theorem hom_writeAll (b : Bytes) : Hom Buffering.sink (writeAll b) (writeAll b) := by
  intro s
  simp only [writeAll, Buffering.sink]
  cases h : s.fail s.calls with
  | none => simp [Buffering.after]
  | some k => simp [Buffering.after]

/-! ## The text encoder -/

theorem hom_name (n : Name) : Hom Buffering.sink n.encodeUtf8 n.encodeUtf8 := by
  induction n with
  | str s => exact hom_writeAll s
  | ns p inner ih => exact (hom_writeAll _).bind fun _ => (hom_writeAll _).bind fun _ => ih
  | suffix inner s ih => exact ih.bind fun _ => hom_writeAll _

theorem hom_labelStr (s : Bytes) : ∀ (js : List Nat) (i : Nat), Hom Buffering.sink (labelStrLoop s i js) (labelStrLoop s i js) := by
  intro js
  induction js with
  | nil => intro i; exact hom_writeAll _
  | cons j js ih =>
    intro i
    refine (hom_writeAll _).bind fun _ => Hom.bind ?_ fun _ => ih _
    unfold writeEscape
    split
    · exact hom_writeAll _
    · split
      · exact hom_writeAll _
      · split
        · exact hom_writeAll _
        · exact hom_panic

theorem hom_visit (ryu : F64 → Bytes) (x : LVal) : Hom Buffering.sink (visitLabel ryu x) (visitLabel ryu x) := by
  have h : ∀ s, Hom Buffering.sink (visitorStr s) (visitorStr s) := fun s =>
    (hom_writeAll _).bind fun _ => (hom_labelStr s _ _).bind fun _ => hom_writeAll _
  cases x <;> exact h _

theorem hom_groupValue (ryu : F64 → Bytes) (first : Bool) (n : Bytes) (x : LVal) :
    Hom Buffering.sink (groupValue ryu first n x) (groupValue ryu first n x) := by
  refine Hom.bind ?_ fun _ => (hom_writeAll _).bind fun _ => hom_visit ryu x
  unfold openOrComma
  split <;> exact hom_writeAll _

theorem hom_visitLabels (ryu : F64 → Bytes) : ∀ (ls : Labels) (first : Bool),
    Hom Buffering.sink (visitLabels ryu first ls) (visitLabels ryu first ls) := by
  intro ls
  induction ls with
  | nil => intro first; exact hom_pure _
  | cons l ls ih =>
    intro first s
    obtain ⟨n, x⟩ := l
    have h := hom_groupValue ryu first n x s
    simp only [visitLabels, h]
    rcases groupValue ryu first n x s with ⟨o, s'⟩
    cases o with
    | panic => rfl
    | ok u => exact ih false s'
    | err => exact ih false s'

/-- The text encoder without a buffer in its writer. -/
def unT (e : TextEnc Buffering) : TextEnc Sink := ⟨e.state, e.writer.sink⟩

theorem hom_onWriter {α : Type} {x : RS Buffering α} {y : RS Sink α} (h : Hom Buffering.sink x y) :
    Hom unT (onWriter x) (onWriter y) := by
  intro e
  simp only [onWriter, unT, h e.writer]

theorem hom_write (b : Bytes) : Hom unT (onWriter (writeAll b)) (onWriter (writeAll b)) := hom_onWriter (hom_writeAll b)

theorem hom_setState (st : TState) : Hom unT (setState st) (setState st) := fun _ => rfl

theorem hom_sep : Hom unT textSep textSep := by
  intro e
  obtain ⟨st, w⟩ := e
  cases st with
  | info => rfl
  | metrics => exact hom_write b!"\n" ⟨.metrics, w⟩

theorem hom_value (ryu : F64 → Bytes) (n : Name) (ls : Labels) (v : MValue) :
    Hom unT (textValue ryu n ls v) (textValue ryu n ls v) := by
  refine (hom_setState _).bind fun _ => (hom_onWriter (hom_name n)).bind fun _ =>
    (hom_onWriter (hom_visitLabels ryu ls true)).bind fun first => Hom.bind ?_ fun _ => (hom_write _).bind fun _ =>
      Hom.bind ?_ fun _ => hom_write _
  · unfold textClose
    split
    · exact hom_pure _
    · exact hom_write _
  · cases v <;> exact hom_write _

theorem hom_buckets (m : Mode) (ryu : F64 → Bytes) (n : Name) (ls : Labels) : ∀ (les : List F64) (bs : List Nat) (val : Nat),
    Hom unT (textBuckets m ryu n ls les bs val) (textBuckets m ryu n ls les bs val) := by
  intro les
  induction les with
  | nil => intro bs val; cases bs <;> exact hom_pure _
  | cons le les ih =>
    intro bs val
    cases bs with
    | nil => exact hom_pure _
    | cons b bs => exact (hom_lift _).bind fun _ => (hom_value _ _ _ _).bind fun _ => ih _ _

theorem hom_run (m : Mode) (ryu : F64 → Bytes) (c : EncCall) : Hom unT ((textEncoder m ryu).run c) ((textEncoder m ryu).run c) := by
  cases c with
  | help n t =>
    exact hom_sep.bind fun _ => (hom_setState _).bind fun _ => (hom_write _).bind fun _ => (hom_onWriter (hom_name n)).bind fun _ =>
      (hom_write _).bind fun _ => (hom_write _).bind fun _ => hom_write _
  | type k n =>
    exact hom_sep.bind fun _ => (hom_setState _).bind fun _ => (hom_write _).bind fun _ => (hom_onWriter (hom_name n)).bind fun _ =>
      hom_write _
  | sample x ls n =>
    cases x with
    | histogram le h =>
      exact (hom_buckets m ryu n ls le h.buckets 0).bind fun _ => (hom_lift _).bind fun _ => (hom_value _ _ _ _).bind fun _ =>
        (hom_value _ _ _ _).bind fun _ => hom_value _ _ _ _
    | _ => exact hom_value _ _ _ _

theorem hom_runAll (m : Mode) (ryu : F64 → Bytes) (cs : List EncCall) :
    Hom unT ((textEncoder m ryu).runAll cs) ((textEncoder m ryu).runAll cs) := by
  induction cs with
  | nil => exact hom_pure _
  | cons c cs ih => exact (hom_run m ryu c).bind fun _ => ih

namespace Proto

/-- The protobuf encoder without a buffer in its writer. -/
def unP (e : ProtoEnc Buffering) : ProtoEnc Sink := ⟨e.state, e.writer.sink, e.buf⟩

theorem hom_protoWrite (b : Bytes) : Hom unP (onProtoWriter (writeAll b)) (onProtoWriter (writeAll b)) := by
  intro e
  have h := hom_writeAll b e.writer
  simp only [onProtoWriter, unP, h]

theorem hom_setPState (s : PState) : Hom unP (setPState s) (setPState s) := fun _ => rfl
theorem hom_setBuf (b : Bytes) : Hom unP (setBuf b) (setBuf b) := fun _ => rfl
theorem hom_getBuf : Hom unP getBuf getBuf := fun _ => rfl
theorem hom_getPState : Hom unP getPState getPState := fun _ => rfl
theorem hom_append (b : Bytes) : Hom unP (Proto.append b) (Proto.append b) := fun _ => rfl

theorem hom_flushBuf (m : Mode) : Hom unP (flushBuf m) (flushBuf m) := by
  refine hom_getPState.bind fun s => Hom.bind ?_ fun _ => hom_getBuf.bind fun b => hom_lift _
  unfold flushBranch
  split
  · exact (hom_setPState _).bind fun _ => hom_getBuf.bind fun b => (hom_lift _).bind fun r =>
      (hom_setBuf _).bind fun _ => (hom_protoWrite _).bind fun _ => hom_setBuf _
  · refine hom_getBuf.bind fun b => ?_
    split
    · exact hom_setBuf _
    · exact hom_pure _

theorem hom_protoRun (m : Mode) (ryu : F64 → Bytes) (c : EncCall) :
    Hom unP ((protoEncoder m ryu).run c) ((protoEncoder m ryu).run c) := by
  have hv : ∀ t x ls, Hom unP (protoValue m ryu t x ls) (protoValue m ryu t x ls) := fun t x ls =>
    (hom_setPState _).bind fun _ => (hom_lift _).bind fun _ => hom_append _
  have ht : ∀ k n, Hom unP (protoTypeCode m k n) (protoTypeCode m k n) := by
    intro k n
    refine (hom_flushBuf m).bind fun _ => hom_getPState.bind fun s => Hom.bind ?_ fun _ => hom_append _
    unfold nameIfInit
    split
    · exact (hom_lift _).bind fun _ => hom_append _
    · exact hom_pure _
  cases c with
  | help n t =>
    exact (hom_flushBuf m).bind fun _ => (hom_lift _).bind fun _ => (hom_append _).bind fun _ => (hom_append _).bind fun _ =>
      hom_setPState _
  | type k n =>
    cases k with
    | histogram => exact hom_panic
    | _ => exact ht _ n
  | sample x ls n =>
    cases x with
    | histogram => exact hom_panic
    | _ => exact hv _ _ ls

theorem hom_protoRunAll (m : Mode) (ryu : F64 → Bytes) (cs : List EncCall) :
    Hom unP ((protoEncoder m ryu).runAll cs) ((protoEncoder m ryu).runAll cs) := by
  induction cs with
  | nil => exact hom_pure _
  | cons c cs ih => exact (hom_protoRun m ryu c).bind fun _ => ih

end Proto

/-- What `flush` of the writer does. -/
theorem flushW_ok {s s' : Buffering} (h : flushW s = (.ok (), s')) :
    s'.held = [] ∧ s'.sent = s.sent ++ s.held ∧ s'.calls = s.calls + 1 ∧ s.fail s.calls = none := by
  simp only [flushW] at h
  split at h
  · rename_i hn
    simp only [Prod.mk.injEq, true_and] at h
    subst h
    exact ⟨rfl, rfl, rfl, hn⟩
  · simp at h

theorem flushW_err {s s' : Buffering} (h : flushW s = (.err, s')) :
    s'.sink.out = s.sink.out ∧ s.fail s.calls ≠ none ∧ s'.calls = s.calls + 1 := by
  simp only [flushW] at h
  split at h
  · simp at h
  · rename_i k hn
    simp only [Prod.mk.injEq, true_and] at h
    subst h
    exact ⟨by simp [Buffering.sink, Buffering.after], by rw [hn]; simp, rfl⟩

theorem flushW_no_panic (s : Buffering) : (flushW s).1 ≠ .panic := by
  simp only [flushW]
  split <;> simp

end Measured
