import Verif.Proof.ProtoScrape

/-! Arbitrary call sequences, and arbitrary writers. -/

namespace Measured.Proto
open Measured.Spec

/-- What a call does to the abstract state. -/
def Abs.call (ryu : F64 → Bytes) (a : Abs) : EncCall → Abs
  | .help n t => a.help n t
  | .type k n => a.type k n
  | .sample x ls _ => ⟨.metrics, a.fs ++ [sampleF ryu (ls, x)], a.w⟩

/-- The metric type of a call. -/
def NoHistCall : EncCall → Prop
  | .help _ _ => True
  | .type k _ => k ≠ .histogram
  | .sample x _ _ => x.kind ≠ .histogram

/-- An upper bound for the bytes a call adds. -/
def callSize (text : LVal → Bytes) : EncCall → Nat
  | .help n t => 64 + n.render.length + t.length
  | .type _ n => 64 + n.render.length
  | .sample x ls _ => sampleSize text (ls, x)

theorem call_le (ryu : F64 → Bytes) (a : Abs) (c : EncCall) :
    (encFields (a.call ryu c).fs).length ≤ (encFields a.fs).length + callSize (labelText ryu) c := by
  have hf := flush_le a
  cases c with
  | help n t =>
    have h2 := bytesField_le 1 n.render
    have h3 := bytesField_le 2 t
    have e1 : encField (nameF n) = encField (1, .bytes n.render) := rfl
    simp only [Abs.call, Abs.help, encFields_append, encFields_cons, encFields_nil, List.length_append, List.append_nil,
      e1, callSize]
    omega
  | type k n =>
    have h2 := bytesField_le 1 n.render
    have h3 := varintField_le 3 (kindCode k)
    have e1 : encField (nameF n) = encField (1, .bytes n.render) := rfl
    simp only [Abs.call, Abs.type, encFields_append, encFields_cons, encFields_nil, List.length_append, List.append_nil,
      callSize]
    split
    · simp only [encFields_cons, encFields_nil, List.append_nil, e1]; omega
    · simp only [encFields_nil, List.length_nil]; omega
  | sample x ls n =>
    have h := sampleF_le ryu (ls, x)
    simp only [Abs.call, encFields_append, encFields_cons, encFields_nil, List.length_append, List.append_nil, callSize]
    omega

theorem call_ok (m : Mode) (ryu : F64 → Bytes) (c : EncCall) (hc : NoHistCall c) {e : ProtoEnc Bytes} {a : Abs}
    (h : Holds e a) (hr : Reserved e a ∨ ∀ x ls n, c ≠ .sample x ls n)
    (hs : (encFields a.fs).length + callSize (labelText ryu) c < 2 ^ 64) :
    ∃ e', (protoEncoder m ryu).run c e = (.ok (), e') ∧ Reserved e' (a.call ryu c) := by
  cases c with
  | help n t => exact protoHelp_ok m n t h (by omega)
  | type k n => exact protoType_ok m k hc n h (by omega)
  | sample x ls n =>
    rcases hr with hr | hr
    · have hfit : SampleFits ryu (ls, x) := sample_fits hc (by
        have : callSize (labelText ryu) (.sample x ls n) = sampleSize (labelText ryu) (ls, x) := rfl
        omega)
      exact protoSample_ok m ryu (ls, x) n hr hfit
    · exact absurd rfl (hr x ls n)

/-- The output is a sequence of well-formed messages; so are the pending fields. -/
structure Stream (w0 : Bytes) (a : Abs) (ms : List PFields) : Prop where
  w : a.w = w0 ++ ms.flatMap fun m => frame (encFields m)
  ok : ∀ m ∈ ms, (∀ g ∈ m, FieldOk g) ∧ (encFields m).length < 2 ^ 64
  fs : ∀ g ∈ a.fs, FieldOk g

theorem Stream.flush {w0 : Bytes} {a : Abs} {ms : List PFields} (h : Stream w0 a ms)
    (hl : (encFields a.fs).length < 2 ^ 64) : ∃ ms', Stream w0 a.flush ms' := by
  unfold Abs.flush
  split
  · refine ⟨ms ++ [a.fs], ⟨?_, ?_, by simp⟩⟩
    · simp [h.w]
    · intro m hm
      rcases List.mem_append.1 hm with hm | hm
      · exact h.ok m hm
      · rw [List.mem_singleton] at hm
        subst hm
        exact ⟨h.fs, hl⟩
  · exact ⟨ms, h⟩

theorem Stream.append {w0 : Bytes} {a : Abs} {ms : List PFields} (h : Stream w0 a ms) (st : PState) (fs : PFields)
    (hf : ∀ g ∈ fs, FieldOk g) : Stream w0 ⟨st, a.fs ++ fs, a.w⟩ ms :=
  ⟨h.w, h.ok, fun g hg => (List.mem_append.1 hg).elim (h.fs g) (hf g)⟩

theorem Stream.call {ryu : F64 → Bytes} {w0 : Bytes} {a : Abs} {ms : List PFields} (h : Stream w0 a ms) (c : EncCall)
    (hs : (encFields a.fs).length + callSize (labelText ryu) c < 2 ^ 64) : ∃ ms', Stream w0 (a.call ryu c) ms' := by
  cases c with
  | help n t =>
    obtain ⟨ms', h'⟩ := h.flush (by omega)
    refine ⟨ms', h'.append .help _ ?_⟩
    simp only [callSize] at hs
    intro g hg
    simp only [List.mem_cons, List.not_mem_nil, or_false] at hg
    rcases hg with rfl | rfl
    · exact bytes_fieldOk (by decide) (by omega)
    · exact bytes_fieldOk (by decide) (by omega)
  | type k n =>
    obtain ⟨ms', h'⟩ := h.flush (by omega)
    refine ⟨ms', h'.append _ _ ?_⟩
    simp only [callSize] at hs
    intro g hg
    rcases List.mem_append.1 hg with hg | hg
    · split at hg
      · rw [List.mem_singleton] at hg
        subst hg
        exact bytes_fieldOk (by decide) (by omega)
      · simp at hg
    · rw [List.mem_singleton] at hg
      subst hg
      exact ⟨show 3 < 2 ^ 29 by decide, kindCode_lt k, by simp⟩
  | sample x ls n =>
    refine ⟨ms, h.append _ _ ?_⟩
    intro g hg
    rw [List.mem_singleton] at hg
    subst hg
    have h1 := sampleF_le ryu (ls, x)
    have h2 := payload_le 4 (encFields (metricFields ryu (sampleTag x) (sampleDouble x) ls))
    have h3 : (encField (sampleF ryu (ls, x))).length =
      (encField (4, .bytes (encFields (metricFields ryu (sampleTag x) (sampleDouble x) ls)))).length := rfl
    simp only [callSize] at hs
    exact bytes_fieldOk (b := encFields (metricFields ryu (sampleTag x) (sampleDouble x) ls)) (by decide) (by omega)

theorem calls_ok (m : Mode) (ryu : F64 → Bytes) (w0 : Bytes) : ∀ (cs : List EncCall) {e : ProtoEnc Bytes} {a : Abs}
    {ms : List PFields}, Holds e a → (Reserved e a ∨ ∀ c ∈ cs.head?, ∀ x ls n, c ≠ .sample x ls n) → Stream w0 a ms →
    (∀ c ∈ cs, NoHistCall c) → (encFields a.fs).length + (cs.map (callSize (labelText ryu))).sum < 2 ^ 64 →
    ∃ e' a' ms', (protoEncoder m ryu).runAll cs e = (.ok (), e') ∧ Holds e' a' ∧ Stream w0 a' ms' ∧
      (encFields a'.fs).length < 2 ^ 64 := by
  intro cs
  induction cs with
  | nil => intro e a ms h _ hst _ hs; exact ⟨e, a, ms, rfl, h, hst, by simpa using hs⟩
  | cons c cs ih =>
    intro e a ms h hr hst hh hs
    rw [List.map_cons, List.sum_cons] at hs
    obtain ⟨e1, h1, r1⟩ := call_ok m ryu c (hh c (by simp)) h (hr.imp id fun h => h c (by simp)) (by omega)
    obtain ⟨ms1, s1⟩ := hst.call (ryu := ryu) c (by omega)
    have hle := call_le ryu a c
    obtain ⟨e2, a2, ms2, h2, r2, s2, l2⟩ := ih r1.holds (.inl r1) s1 (fun c hc => hh c (by simp [hc])) (by omega)
    refine ⟨e2, a2, ms2, ?_, r2, s2, l2⟩
    simp only [Encoder.runAll, RS.bind_run, h1, h2]

theorem Stream.messages {w0 : Bytes} {a : Abs} {ms : List PFields} (h : Stream w0 a ms) :
    ∃ out, a.w = w0 ++ out ∧ readDelimited out = some (ms.map encFields) ∧
      ∀ b ∈ ms.map encFields, ∃ fs, readFields b = some fs := by
  refine ⟨(ms.map encFields).flatMap frame, ?_, ?_, ?_⟩
  · rw [h.w, List.flatMap_map]
  · apply readDelimited_frames
    intro b hb
    obtain ⟨m, hm, rfl⟩ := List.mem_map.1 hb
    exact (h.ok m hm).2
  · intro b hb
    obtain ⟨m, hm, rfl⟩ := List.mem_map.1 hb
    exact ⟨m, readFields_enc (h.ok m hm).1⟩

/-- Any writer. -/
theorem flushBuf_writer {W : Type} [Write W] (m : Mode) (w : W) (pre body : Bytes) (hp : pre.length = 10)
    (hb : body.length < 2 ^ 64) :
    ∃ r : Bytes, r.length = 10 ∧ ∃ r' : Bytes,
      flushBuf m (⟨.metrics, w, pre ++ body⟩ : ProtoEnc W) =
        match writeAll (encodeVarint body.length ++ body) w with
        | (.ok (), w') => (.ok (), ⟨.init, w', r⟩)
        | (.err, w') => (.err, ⟨.init, w', r'⟩)
        | (.panic, w') => (.panic, ⟨.init, w', r'⟩) := by
  have hbd := encodedLenVarint_bounds body.length hb
  have hl := encodeVarint_length body.length hb
  set r := pre.take (10 - encodedLenVarint body.length) ++ frame body with hr
  have hr10 : (resize r 10).length = 10 := by
    have : 10 ≤ r.length := by
      rw [hr]; simp [frame]; omega
    simp [resize]; omega
  refine ⟨resize r 10, hr10, r, ?_⟩
  have hd : r.drop (10 - encodedLenVarint body.length) = encodeVarint body.length ++ body := by
    rw [hr, List.drop_append_of_le_length (by simp; omega), List.drop_of_length_le (by simp)]
    rfl
  rcases hw : (writeAll (encodeVarint body.length ++ body) : RS W Unit) w with ⟨o, w'⟩
  have hf : flushMetrics m (⟨.metrics, w, pre ++ body⟩ : ProtoEnc W) =
      match o with
      | .ok () => (.ok (), ⟨.init, w', resize r 10⟩)
      | .err => (.err, ⟨.init, w', r⟩)
      | .panic => (.panic, ⟨.init, w', r⟩) := by
    simp only [flushMetrics, RS.bind_run, setPState, getBuf, RS.lift_run, framedBuf_eq m pre body hp hb, setBuf,
      onProtoWriter, ← hr, hd, hw]
    cases o <;> rfl
  cases o with
  | ok u =>
    simp only [flushBuf, RS.bind_run, getPState, flushBranch, if_true, hf, getBuf, RS.lift_run, hr10]
    cases m <;> simp [debugAssert]
  | err => simp only [flushBuf, RS.bind_run, getPState, flushBranch, if_true, hf]
  | panic => simp only [flushBuf, RS.bind_run, getPState, flushBranch, if_true, hf]

end Measured.Proto
