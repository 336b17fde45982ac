import Verif.Proof.TextLoss
import Verif.Props.Text

/-! # What is lost when a writer fails and the text encoder returns `Ok` (C37) -/

namespace Measured
open Spec

/-- C37, exactly what may be missing, for all writers and all calls: if the result is `Ok`, the writer accepted what a buffer
would have received, except for bytes between the braces of samples. If no call of the writer failed, nothing is missing.
In particular names, numbers, line ends, help and type lines are complete. -/
theorem C37_only_labels (m : Mode) (ryu : F64 → Bytes) (cs : List EncCall) (st : TState) (s : Sink)
    (hl : ∀ c ∈ cs, ∀ x ls n, c = .sample x ls n → ∀ l ∈ ls, LabelNameRe l.1) (e : TextEnc Sink)
    (hok : (textEncoder m ryu).runAll cs ⟨st, s⟩ = (.ok (), e)) :
    ∃ out out', (textEncoder m ryu).runAll cs ⟨st, []⟩ = (.ok (), ⟨e.state, out⟩) ∧ e.writer.out = s.out ++ out' ∧
      LabelBytesLost out out' ∧
      ((∀ i, s.calls ≤ i → i < e.writer.calls → s.fail i = none) → out' = out) := by
  obtain ⟨out, out', h1, h2, _, h4, h5⟩ := lossT_runAll m ryu cs hl st s () e hok
  refine ⟨out, out', by simpa using h1 [], h2, h4, fun hn => h5 ?_⟩
  rintro ⟨i, a, b, c⟩
  exact c (hn i a b)

/-- What `LabelBytesLost` leaves: the same number of line ends, and every byte there is in its order. -/
theorem C37_lost_meaning {out out' : Bytes} (h : LabelBytesLost out out') :
    out'.Sublist out ∧ out'.count 0x0a = out.count 0x0a := by
  induction h with
  | nil => exact ⟨List.Sublist.refl _, rfl⟩
  | same t _ ih => exact ⟨ih.1.append (List.Sublist.refl t), by simp [ih.2]⟩
  | @labels a a' l l' _ hl hn ih =>
    refine ⟨ih.1.append (hl.append (List.Sublist.refl _)), ?_⟩
    have h1 : l.count 0x0a = 0 := List.count_eq_zero.2 hn
    have h2 : l'.count 0x0a = 0 := by
      refine List.count_eq_zero.2 fun h => ?_
      have := hl.subset h
      simp only [List.mem_append, List.mem_singleton] at this
      rcases this with h | h
      · exact absurd h (by decide)
      · exact hn h
    simp [List.count_append, ih.2, h1, h2]

/-- Two labels, and a writer that fails once in the first one. -/
example : ((textEncoder .debug exRyu).runAll [.sample (.counter 1) [(b!"a", .str b!"b"), (b!"c", .int 2)] (.str b!"x")]
    (TextEnc.new ⟨[], 0, fun i => if i = 4 then some 0 else none⟩ : TextEnc Sink)).2.writer.out =
    b!"x{a=\",c=\"2\"} 1\n" := by decide +kernel

end Measured
