import Verif.Proof.TextCalls
import Verif.Proof.RunAll
import Verif.Proof.Snake
import Verif.Props.Text

/-! # Any sequence of encoder calls in the text format (C50) -/

namespace Measured
open Measured.Spec

/-- Whatever the order of HELP, TYPE and sample calls, they read back as the lines of these calls, and exactly the
HELP and TYPE calls directly after a sample are preceded by a blank line. -/
theorem C50_lines {ryu : F64 → Bytes} {rf : Bytes → Option F64} (F : FloatText ryu rf) (m : Mode)
    (cs : List EncCall) (h : ∀ c ∈ cs, CallOk c) :
    ∃ e ls, (textEncoder m ryu).runAll cs (TextEnc.new []) = (.ok (), e) ∧
      readLines rf e.writer = some ls ∧ CallsLines rf Name.text false cs ls := by
  obtain ⟨st, out, ls, h1, h2, h3⟩ := calls_read F m cs h
  refine ⟨_, ls, h1, h2, ?_⟩
  rw [show Name.text = Name.render from funext Name.text_eq]
  exact h3

/-- In the middle of a session too: what is already written stays, and the new lines are read after it. -/
theorem C50_resume {ryu : F64 → Bytes} {rf : Bytes → Option F64} (F : FloatText ryu rf) (m : Mode)
    (cs ds : List EncCall) (h : ∀ c ∈ cs ++ ds, CallOk c) :
    ∃ e e' ls ls', (textEncoder m ryu).runAll cs (TextEnc.new []) = (.ok (), e) ∧
      (textEncoder m ryu).runAll ds e = (.ok (), e') ∧ readLines rf e.writer = some ls ∧
      readLines rf e'.writer = some (ls ++ ls') ∧ CallsLines rf Name.text false cs ls ∧
      CallsLines rf Name.text (cs.getLast?.any EncCall.isSample) ds ls' := by
  have hr : Name.text = Name.render := funext Name.text_eq
  obtain ⟨p, hp⟩ := runCalls_bytes m ryu cs (fun c hc => h c (by simp [hc])) false []
  have hlast : ∀ (cs : List EncCall) (prev : Bool), (callsLines ryu prev (cs ++ ds)) =
      callsLines ryu prev cs ++ callsLines ryu (cs.getLast?.elim prev EncCall.isSample) ds := by
    intro cs
    induction cs with
    | nil => intro prev; simp [callsLines]
    | cons c cs ih =>
      intro prev
      simp only [List.cons_append, callsLines, ih, List.append_assoc]
      congr 4
      cases cs with
      | nil => rfl
      | cons c' cs => rw [List.getLast?_cons_cons]; rw [List.getLast?_eq_some_getLast (by simp)]; rfl
  have hA := runCalls_bytes m ryu (cs ++ ds) h false []
  obtain ⟨q, hq⟩ := hA
  rw [Encoder.runAll_add, RS.bind_ok hp] at hq
  refine ⟨_, _, (callsLines ryu false cs).map Prod.snd,
    (callsLines ryu (cs.getLast?.any EncCall.isSample) ds).map Prod.snd, hp, hq, ?_, ?_, ?_, ?_⟩
  · exact readLines_unlines _ (fun p hp => (callsLines_read F cs (fun c hc => h c (by simp [hc])) false p hp).1)
      (fun p hp => (callsLines_read F cs (fun c hc => h c (by simp [hc])) false p hp).2)
  · have := readLines_unlines (rf := rf) _ (fun p hp => (callsLines_read F (cs ++ ds) h false p hp).1)
      (fun p hp => (callsLines_read F (cs ++ ds) h false p hp).2)
    rw [List.nil_append, this, hlast cs false, List.map_append]
    congr 5
    cases cs.getLast? <;> rfl
  · rw [hr]; exact callsLines_lines F cs (fun c hc => h c (by simp [hc])) false
  · rw [hr]; exact callsLines_lines F ds (fun c hc => h c (by simp [hc])) _

/-- A sample first, then HELP twice and a TYPE of another name. -/
def exCalls : List EncCall :=
  [.sample (.gauge (-1)) [(b!"k", .str b!"v")] (.str b!"a"), .help (.ns b!"n" (.str b!"b")) b!"text", .type .gauge (.str b!"c"),
   .sample (.counter 7) [] (.str b!"c"), .type .counter (.str b!"d")]

example : ∀ c ∈ exCalls, CallOk c := by
  intro c hc
  simp only [exCalls, List.mem_cons, List.not_mem_nil, or_false] at hc
  rcases hc with rfl | rfl | rfl | rfl | rfl
  · refine ⟨snake_metric (by decide), ?_, trivial⟩
    intro l hl
    simp only [List.mem_singleton] at hl
    subst hl
    exact snake_label (by decide)
  · exact ⟨snake_metric (by decide), plain_help (by decide)⟩
  · exact snake_metric (by decide)
  · exact ⟨snake_metric (by decide), by simp [LabelsOk], by show 7 < 2 ^ 63; decide⟩
  · exact snake_metric (by decide)

example : ((textEncoder .debug exRyu).runAll exCalls (TextEnc.new [])).2.writer =
    b!"a{k=\"v\"} -1\n\n# HELP n_b text\n# TYPE c gauge\nc 7\n\n# TYPE d counter\n" := by decide +kernel

end Measured
