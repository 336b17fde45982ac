import Verif.Props.Proto

/-!
# What the protobuf encoder writes if a sample is the first call (C43)
-/

set_option exponentiation.threshold 3000

namespace Measured
open Measured.Spec Measured.Proto F64

/-- Samples append their fields. -/
theorem samples_run (m : Mode) (ryu : F64 → Bytes) (w : Bytes) : ∀ (ss : List ((Labels × Metric) × Name)) (buf : Bytes)
    (st : PState), (∀ s ∈ ss, SampleFits ryu s.1) →
    (protoEncoder m ryu).runAll (ss.map fun s => .sample s.1.2 s.1.1 s.2) (⟨st, w, buf⟩ : ProtoEnc Bytes) =
      (.ok (), ⟨if ss = [] then st else .metrics, w, buf ++ encFields (ss.map fun s => sampleF ryu s.1)⟩) := by
  intro ss
  induction ss with
  | nil => intro buf st _; simp [Encoder.runAll, encFields]
  | cons s ss ih =>
    intro buf st h
    have hfit := h s (by simp)
    have ht : sampleTag s.1.2 = 2 ∨ sampleTag s.1.2 = 3 := by cases s.1.2 <;> simp [sampleTag]
    have hv : (protoSample m ryu s.1.2 s.1.1 s.2 : RS (ProtoEnc Bytes) Unit) =
        protoValue m ryu (sampleTag s.1.2) (sampleDouble s.1.2) s.1.1 := by
      obtain ⟨⟨ls, x⟩, n⟩ := s
      cases x with
      | histogram _ _ => exact absurd rfl hfit.2
      | _ => rfl
    have h1 : (protoEncoder m ryu).run (.sample s.1.2 s.1.1 s.2) (⟨st, w, buf⟩ : ProtoEnc Bytes) =
        (.ok (), ⟨.metrics, w, buf ++ encField (sampleF ryu s.1)⟩) := by
      show (protoSample m ryu s.1.2 s.1.1 s.2 : RS (ProtoEnc Bytes) Unit) _ = _
      rw [hv]
      simp only [protoValue, RS.bind_run, setPState, RS.lift_run, metricBytes_eq m ryu _ ht _ _ hfit.1, Proto.append]
      rfl
    rw [List.map_cons, Encoder.runAll, RS.bind_run, h1]
    simp only
    rw [ih _ _ fun s hs => h s (by simp [hs])]
    simp [encFields_cons]

/-- `write_help` and `write_type` begin with a flush. -/
theorem run_flushed (m : Mode) (ryu : F64 → Bytes) (c : EncCall) (hc : ∀ x ls n, c ≠ .sample x ls n) (hh : NoHistCall c)
    {e e1 : ProtoEnc Bytes} (h1 : flushBuf m e = (.ok (), e1)) (h2 : flushBuf m e1 = (.ok (), e1)) :
    (protoEncoder m ryu).run c e = (protoEncoder m ryu).run c e1 := by
  cases c with
  | help n t =>
    show (protoHelp m n t : RS (ProtoEnc Bytes) Unit) e = (protoHelp m n t : RS (ProtoEnc Bytes) Unit) e1
    simp only [protoHelp, RS.bind_run, h1, h2]
  | type k n =>
    show (protoType m k n : RS (ProtoEnc Bytes) Unit) e = (protoType m k n : RS (ProtoEnc Bytes) Unit) e1
    cases k with
    | histogram => exact absurd rfl hh
    | _ => simp only [protoType, protoTypeCode, RS.bind_run, h1, h2]
  | sample x ls n => exact absurd rfl (hc x ls n)

theorem runAll_flushed (m : Mode) (ryu : F64 → Bytes) (c : EncCall) (cs : List EncCall) (hc : ∀ x ls n, c ≠ .sample x ls n)
    (hh : NoHistCall c) {e e1 : ProtoEnc Bytes} (h1 : flushBuf m e = (.ok (), e1)) (h2 : flushBuf m e1 = (.ok (), e1)) :
    (protoEncoder m ryu).runAll (c :: cs) e = (protoEncoder m ryu).runAll (c :: cs) e1 := by
  simp only [Encoder.runAll, RS.bind_run, run_flushed m ryu c hc hh h1 h2]

theorem encodeVarint_pos (n : Nat) : 1 ≤ (encodeVarint n).length := by
  unfold encodeVarint encodeVarintLoop
  split <;> simp

theorem bytesField_ge (t : Nat) (b : Bytes) : b.length + 2 ≤ (encField (t, .bytes b)).length := by
  have h1 := encodeVarint_pos b.length
  have h2 : 1 ≤ (encodeKey t .lengthDelimited).length := encodeVarint_pos _
  simp only [encField, List.length_append]
  omega

/-- A sample is a field of at least 13 bytes. -/
theorem sampleF_ge (ryu : F64 → Bytes) (s : Labels × Metric) : 13 ≤ (encField (sampleF ryu s)).length := by
  have h1 := bytesField_ge 4 (encFields (metricFields ryu (sampleTag s.2) (sampleDouble s.2) s.1))
  have h2 : (encField (sampleF ryu s)).length =
    (encField (4, .bytes (encFields (metricFields ryu (sampleTag s.2) (sampleDouble s.2) s.1)))).length := rfl
  have h3 := bytesField_ge (sampleTag s.2) (encFields (valueFields (sampleDouble s.2)))
  have h4 := valueFields_length (sampleDouble s.2)
  have h5 : doubleLen 1 = 9 := by decide
  have h6 := field_le (f := (sampleTag s.2, .bytes (encFields (valueFields (sampleDouble s.2)))))
    (fs := metricFields ryu (sampleTag s.2) (sampleDouble s.2) s.1) (by simp [metricFields])
  omega

theorem sampleF_ok {ryu : F64 → Bytes} {s : Labels × Metric} (h : SampleFits ryu s) : FieldOk (sampleF ryu s) :=
  bytes_fieldOk (b := encFields (metricFields ryu (sampleTag s.2) (sampleDouble s.2) s.1)) (by decide) h.1

/-- C43, what happens if samples are the first calls on a new encoder, for which the claim is false: the first message
loses its first ten bytes, nothing else. The message has one field for each sample; what is left of it is announced with
the right length, and so are the messages after it. -/
theorem C43_exact (m : Mode) (ryu : F64 → Bytes) (ss : List ((Labels × Metric) × Name)) (hne : ss ≠ [])
    (cs : List EncCall) (w : Bytes) (hh : ∀ s ∈ ss, s.1.2.kind ≠ .histogram) (hc : ∀ c ∈ cs, NoHistCall c)
    (hfirst : ∀ c ∈ cs.head?, ∀ x ls n, c ≠ .sample x ls n)
    (hs : (ss.map fun s => sampleSize (labelText ryu) s.1).sum < 2 ^ 64) (hcs : (cs.map (callSize (labelText ryu))).sum < 2 ^ 64) :
    ∃ e e' out message fields messages,
      (protoEncoder m ryu).runAll ((ss.map fun s => .sample s.1.2 s.1.1 s.2) ++ cs) (ProtoEnc.new w) = (.ok (), e) ∧
      flush m e = (.ok (), e') ∧ e'.writer = w ++ out ∧
      readFields message = some fields ∧ fields.length = ss.length ∧ 13 ≤ message.length ∧
      readDelimited out = some (message.drop 10 :: messages) ∧ ∀ b ∈ messages, ∃ fs, readFields b = some fs := by
  have hfit : ∀ s ∈ ss, SampleFits ryu s.1 := by
    intro s hsm
    refine sample_fits (hh s hsm) (Nat.lt_of_le_of_lt ?_ hs)
    clear hs hh hne
    induction ss with
    | nil => cases hsm
    | cons t ss ih =>
      rw [List.map_cons, List.sum_cons]
      rcases List.mem_cons.1 hsm with rfl | hsm
      · omega
      · have := ih hsm; omega
  have hrun := samples_run m ryu w ss [] .init hfit
  rw [if_neg hne, List.nil_append] at hrun
  have hlen : ∀ ss : List ((Labels × Metric) × Name), (encFields (ss.map fun s => sampleF ryu s.1)).length ≤
      (ss.map fun s => sampleSize (labelText ryu) s.1).sum := by
    intro ss
    induction ss with
    | nil => simp [encFields]
    | cons s ss ih =>
      have := sampleF_le ryu s.1
      simp only [List.map_cons, encFields_cons, List.length_append, List.sum_cons]
      omega
  have hL := hlen ss
  have h13 : 13 ≤ (encFields (ss.map fun s => sampleF ryu s.1)).length := by
    cases ss with
    | nil => exact absurd rfl hne
    | cons s ss =>
      have := sampleF_ge ryu s.1
      simp only [List.map_cons, encFields_cons, List.length_append]
      omega
  have hread : readFields (encFields (ss.map fun s => sampleF ryu s.1)) = some (ss.map fun s => sampleF ryu s.1) := by
    apply readFields_enc
    intro f hf
    obtain ⟨s, hs, rfl⟩ := List.mem_map.1 hf
    exact sampleF_ok (hfit s hs)
  have hfl : ((ss.map fun s => sampleF ryu s.1)).length = ss.length := by simp
  generalize encFields (ss.map fun s => sampleF ryu s.1) = B at *
  generalize (ss.map fun s => sampleF ryu s.1) = fields at *
  obtain ⟨r, hr, hf⟩ := flushBuf_metrics m w (B.take 10) (B.drop 10) (by simp; omega) (by simp; omega)
  rw [List.take_append_drop] at hf
  have hidle := flushBuf_idle m .init (by decide) (w ++ frame (B.drop 10)) r (by omega)
  have h0 : (ProtoEnc.new w : ProtoEnc Bytes) = ⟨.init, w, []⟩ := rfl
  rw [h0]
  cases cs with
  | nil =>
    refine ⟨⟨.metrics, w, B⟩, _, frame (B.drop 10), B, fields, [], ?_, hf, rfl, hread, hfl, h13, ?_, by simp⟩
    · rw [List.append_nil]; exact hrun
    · have := readDelimited_frames (bs := [B.drop 10]) (by simp; omega)
      simpa using this
  | cons c cs =>
    have hR : Holds (⟨.init, w ++ frame (B.drop 10), r⟩ : ProtoEnc Bytes) ⟨.init, [], w ++ frame (B.drop 10)⟩ :=
      ⟨rfl, rfl, .inr ⟨r, hr, by simp [encFields]⟩⟩
    have s0 : Stream (w ++ frame (B.drop 10)) ⟨.init, [], w ++ frame (B.drop 10)⟩ [] := ⟨by simp, by simp, by simp⟩
    obtain ⟨e, a, ms, h1, r1, s1, l1⟩ := calls_ok m ryu _ (c :: cs) hR (.inr hfirst) s0 hc (by simpa [encFields_nil] using hcs)
    obtain ⟨e', h2, r2⟩ := r1.flush m l1
    obtain ⟨ms', s2⟩ := s1.flush l1
    refine ⟨e, e', frame (B.drop 10) ++ ms'.flatMap fun m => frame (encFields m), B, fields, ms'.map encFields, ?_, h2, ?_,
      hread, hfl, h13, ?_, ?_⟩
    · rw [runAll_append _ _ _ _ _ hrun, runAll_flushed m ryu c cs (hfirst c (by simp)) (hc c (by simp)) hf hidle]
      exact h1
    · rw [r2.2.1, s2.w, List.append_assoc]
    · have := readDelimited_frames (bs := B.drop 10 :: ms'.map encFields) (by
        intro b hb
        rcases List.mem_cons.1 hb with rfl | hb
        · simp; omega
        · obtain ⟨m, hm, rfl⟩ := List.mem_map.1 hb
          exact (s2.ok m hm).2)
      rw [List.flatMap_cons, List.flatMap_map] at this
      exact this
    · intro b hb
      obtain ⟨m, hm, rfl⟩ := List.mem_map.1 hb
      exact ⟨m, readFields_enc (s2.ok m hm).1⟩

/-- The hypotheses hold for a counter of value 1 followed by a family with help. -/
example : (readDelimited (flush .debug ((protoEncoder .debug exRyu).runAll ([.sample (.counter 1) [] (.str b!"c")] ++
      [.help (.str b!"d") b!"x", .type .counter (.str b!"d"), .sample (.counter 2) [] (.str b!"d")])
      (ProtoEnc.new ([] : Bytes))).2).2.writer).map List.head? = some (some [0, 0xf0, 0x3f]) := by decide +kernel

end Measured
