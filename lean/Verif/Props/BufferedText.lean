import Verif.Spec.BufferedText
import Verif.Proof.TextFail
import Verif.Props.Text

/-! # The buffered text encoder (C96) -/

namespace Measured
open Measured.Spec

theorem unreachableErr_eq {σ α : Type} {x : RS σ α} {s : σ} (h : (x s).1 ≠ .err) : unreachableErr x s = x s := by
  unfold unreachableErr
  rcases hx : x s with ⟨o, s'⟩
  rw [hx] at h
  cases o <;> first | rfl | exact absurd rfl h

theorem run_bytes_no_err (m : Mode) (ryu : F64 → Bytes) (c : EncCall) (e : TextEnc Bytes) :
    ((textEncoder m ryu).run c e).1 ≠ .err := by
  obtain ⟨h1, h2⟩ := run_bytes_result m ryu c e
  by_cases h : m = .debug ∧ Overflows c
  · rw [h1 h]; simp
  · rw [h2 h]; simp

/-- One call. The `unreachable!` is not reached: result, state and text are those of the text encoder inside. -/
theorem bufferedEncoder_run (m : Mode) (ryu : F64 → Bytes) (c : EncCall) (e : TextEnc Bytes) :
    (bufferedEncoder m ryu).run c ⟨e⟩ = (((textEncoder m ryu).run c e).1, ⟨((textEncoder m ryu).run c e).2⟩) := by
  have h := unreachableErr_eq (run_bytes_no_err m ryu c e)
  cases c with
  | help n t => exact congrArg (fun p : Out Unit × TextEnc Bytes => (p.1, (⟨p.2⟩ : BufText Bytes))) h
  | type k n => exact congrArg (fun p : Out Unit × TextEnc Bytes => (p.1, (⟨p.2⟩ : BufText Bytes))) h
  | sample x ls n => exact congrArg (fun p : Out Unit × TextEnc Bytes => (p.1, (⟨p.2⟩ : BufText Bytes))) h

theorem bufFinish_run (e : TextEnc Bytes) : BufText.finish ⟨e⟩ = (.ok e.writer, BufText.new) := rfl

/-- C96, one collection. A collection into the buffered encoder, stopped by the first panic, is a collection into a text encoder
over a buffer. -/
theorem C96_collection (m : Mode) (ryu : F64 → Bytes) (cs : List EncCall) (e : TextEnc Bytes) :
    (bufferedEncoder m ryu).runAll cs ⟨e⟩ =
      (((textEncoder m ryu).runAll cs e).1, ⟨((textEncoder m ryu).runAll cs e).2⟩) := by
  induction cs generalizing e with
  | nil => rfl
  | cons c cs ih =>
    simp only [Encoder.runAll, RS.bind_run, bufferedEncoder_run]
    rcases hr : (textEncoder m ryu).run c e with ⟨o, e'⟩
    cases o with
    | ok a => exact ih e'
    | err => rfl
    | panic => rfl

theorem bufSession_returns (m : Mode) (ryu : F64 → Bytes) (ops : List BufOp) (cs : List EncCall) :
    BufReturns m ryu cs ops (bufSession m ryu ops
      ⟨cs.foldl (fun e c => ((textEncoder m ryu).run c e).2) (TextEnc.new ([] : Bytes))⟩) := by
  induction ops generalizing cs with
  | nil => exact .nil _
  | cons op ops ih =>
    cases op with
    | finish =>
      simp only [bufSession, bufFinish_run]
      exact .finish (ih [])
    | call c =>
      have h := ih (cs ++ [c])
      rw [List.foldl_append, List.foldl_cons, List.foldl_nil] at h
      simp only [bufSession, bufferedEncoder_run]
      obtain ⟨h1, h2⟩ := run_bytes_result m ryu c
        (cs.foldl (fun e c => ((textEncoder m ryu).run c e).2) (TextEnc.new ([] : Bytes)))
      by_cases ho : m = .debug ∧ Overflows c
      · rw [h1 ho]
        exact .overflow ho.1 ho.2 h
      · rw [h2 ho]
        exact .ok ho h

/-- C96. In every session each call returns Ok, or panics if it writes a histogram whose counts overflow in a debug build, and
each `finish` returns the text of a `TextEncoder` over a `Vec` for the calls since the last one. -/
theorem C96_session (m : Mode) (ryu : F64 → Bytes) (ops : List BufOp) :
    BufReturns m ryu [] ops (bufSession m ryu ops BufText.new) :=
  bufSession_returns m ryu ops []

/-- C96, the results alone: `finish` always returns, and in a release build nothing panics. -/
theorem C96_results (m : Mode) (ryu : F64 → Bytes) (ops : List BufOp) :
    ∀ r ∈ bufSession m ryu ops BufText.new,
      (∃ text, r = .finished (.ok text)) ∨ r = .called (.ok ()) ∨ (m = .debug ∧ r = .called .panic) := by
  have h : ∀ cs ops rs, BufReturns m ryu cs ops rs → ∀ r ∈ rs,
      (∃ text, r = .finished (.ok text)) ∨ r = .called (.ok ()) ∨ (m = .debug ∧ r = .called .panic) := by
    intro cs ops rs h
    induction h with
    | nil => simp
    | ok _ _ ih =>
      intro r hr
      rcases List.mem_cons.1 hr with rfl | hr
      · exact .inr (.inl rfl)
      · exact ih r hr
    | overflow hm _ _ ih =>
      intro r hr
      rcases List.mem_cons.1 hr with rfl | hr
      · exact .inr (.inr ⟨hm, rfl⟩)
      · exact ih r hr
    | finish _ ih =>
      intro r hr
      rcases List.mem_cons.1 hr with rfl | hr
      · exact .inl ⟨_, rfl⟩
      · exact ih r hr
  exact h _ _ _ (C96_session m ryu ops)

/-- C96, read back. After any session that ended with a `finish`, collecting families and finishing gives a text that reads back as
these families (for the families of C33). -/
theorem C96_reads_back {ryu : F64 → Bytes} {rf : Bytes → Option F64} (F : FloatText ryu rf) (m : Mode) (before : List BufOp)
    (fs : List FamilyIn) (h : ∀ f ∈ fs, FamilyOk f) :
    ∃ text gs, bufSession m ryu (before ++ .finish :: (fs.flatMap FamilyIn.calls).map .call ++ [.finish]) BufText.new =
        bufSession m ryu (before ++ [.finish]) BufText.new ++ (fs.flatMap FamilyIn.calls).map (fun _ => .called (.ok ())) ++
          [.finished (.ok text)] ∧
      readFamilies rf text = some gs ∧ List.Forall₂ (fun f g => FamilyReads rf f.name.text f g) fs gs := by
  obtain ⟨st, out, gs, _, h1, h2, h3, _⟩ := C33_exposition_partial F m fs h
  refine ⟨out, gs, ?_, h2, h3⟩
  have hcalls : ∀ (cs : List EncCall) (e e' : TextEnc Bytes), (textEncoder m ryu).runAll cs e = (.ok (), e') →
      bufSession m ryu (cs.map .call ++ [.finish]) ⟨e⟩ = cs.map (fun _ => .called (.ok ())) ++ [.finished (.ok e'.writer)] := by
    intro cs
    induction cs with
    | nil =>
      intro e e' he
      simp only [Encoder.runAll, RS.pure_run, Prod.mk.injEq, true_and] at he
      subst he
      rfl
    | cons c cs ih =>
      intro e e' he
      simp only [Encoder.runAll, RS.bind_run] at he
      rcases hr : (textEncoder m ryu).run c e with ⟨o, e1⟩
      rw [hr] at he
      cases o with
      | ok u =>
        simp only [List.map_cons, List.cons_append, bufSession, bufferedEncoder_run, hr]
        rw [ih e1 e' he]
      | err => simp at he
      | panic => simp at he
  have happ : ∀ (xs ys : List BufOp) (b : BufText Bytes),
      bufSession m ryu (xs ++ .finish :: ys) b = bufSession m ryu (xs ++ [.finish]) b ++ bufSession m ryu ys BufText.new := by
    intro xs ys
    induction xs with
    | nil => intro b; rfl
    | cons op xs ih =>
      intro b
      cases op with
      | call c => exact congrArg (_ :: ·) (ih _)
      | finish => exact congrArg (_ :: ·) (ih _)
  rw [List.append_assoc, List.cons_append, happ, List.append_assoc]
  exact congrArg _ (hcalls _ _ _ h1)

/-! Two collections with a histogram that overflows in between. -/

def exBufHist : Metric := .histogram [F64.one] ⟨[2 ^ 64 - 1], 1, F64.one⟩

def exBufOps : List BufOp :=
  [.call (.type .counter (.str b!"a")), .call (.sample (.counter 3) [] (.str b!"a")), .finish,
   .call (.sample exBufHist [] (.str b!"h")), .finish, .finish,
   .call (.sample (.counter 4) [] (.str b!"a")), .finish]

example : bufSession .debug (fun _ => b!"1") exBufOps BufText.new =
    [.called (.ok ()), .called (.ok ()), .finished (.ok b!"# TYPE a counter\na 3\n"),
     .called .panic, .finished (.ok b!"h_bucket{le=\"1\"} -1\n"), .finished (.ok []),
     .called (.ok ()), .finished (.ok b!"a 4\n")] := by decide +kernel

/-- Over a writer that fails the `unreachable!` would be reached. -/
example : ((bufferedEncoder .debug (fun _ => b!"1")).run (.sample (.counter 3) [] (.str b!"a"))
    (⟨TextEnc.new ⟨[], [], 0, fun _ => some 0, fun _ _ => 0⟩⟩ : BufText Buffering)).1 = .panic := by decide +kernel

end Measured
