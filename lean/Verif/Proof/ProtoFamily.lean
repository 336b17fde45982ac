import Verif.Proof.Proto

/-! From encoder calls to decoded families. -/

namespace Measured.Proto
open Measured.Spec

abbrev PFields := List (Nat × WireVal)

/-- A message with its length. -/
def frame (b : Bytes) : Bytes := encodeVarint b.length ++ b

/-! ## Flushing -/

theorem framedBuf_eq (m : Mode) (pre body : Bytes) (hp : pre.length = 10) (hb : body.length < 2 ^ 64) :
    framedBuf m (pre ++ body) = .ok (pre.take (10 - encodedLenVarint body.length) ++ frame body,
      10 - encodedLenVarint body.length) := by
  have hl := encodeVarint_length body.length hb
  have hbd := encodedLenVarint_bounds body.length hb
  unfold framedBuf
  have h1 : subU m (pre ++ body).length 10 = .ok body.length := by
    unfold subU; rw [if_pos (by simp; omega)]; simp [hp]
  rw [h1, Out.ok_bind]
  have h2 : subU m 10 (encodedLenVarint body.length) = .ok (10 - encodedLenVarint body.length) := by
    unfold subU; rw [if_pos (by omega)]
  rw [h2, Out.ok_bind]
  have h3 : putAt (pre ++ body) (10 - encodedLenVarint body.length) (encodeVarint body.length) =
      .ok (pre.take (10 - encodedLenVarint body.length) ++ frame body) := by
    unfold putAt
    rw [hl, if_pos (by simp; omega), show 10 - encodedLenVarint body.length + encodedLenVarint body.length = 10 by omega,
      List.take_append_of_le_length (by omega), List.drop_append_of_le_length (by omega),
      List.drop_of_length_le (by omega)]
    simp [frame]
  rw [h3, Out.ok_bind]

theorem flushBuf_metrics (m : Mode) (w pre body : Bytes) (hp : pre.length = 10) (hb : body.length < 2 ^ 64) :
    ∃ r : Bytes, r.length = 10 ∧
      flushBuf m (⟨.metrics, w, pre ++ body⟩ : ProtoEnc Bytes) = (.ok (), ⟨.init, w ++ frame body, r⟩) := by
  have hbd := encodedLenVarint_bounds body.length hb
  have hl := encodeVarint_length body.length hb
  set r := pre.take (10 - encodedLenVarint body.length) ++ frame body with hr
  refine ⟨resize r 10, ?_, ?_⟩
  · have : 10 ≤ r.length := by
      rw [hr]; simp [frame]; omega
    simp [resize]; omega
  · have hr10 : (resize r 10).length = 10 := by
      have : 10 ≤ r.length := by
        rw [hr]; simp [frame]; omega
      simp [resize]; omega
    have hd : r.drop (10 - encodedLenVarint body.length) = frame body := by
      rw [hr, List.drop_append_of_le_length (by simp; omega), List.drop_of_length_le (by simp)]
      rfl
    have hf : flushMetrics m (⟨.metrics, w, pre ++ body⟩ : ProtoEnc Bytes) =
        (.ok (), ⟨.init, w ++ frame body, resize r 10⟩) := by
      simp only [flushMetrics, RS.bind_run, setPState, getBuf, RS.lift_run, framedBuf_eq m pre body hp hb, setBuf,
        onProtoWriter, ← hr, hd, writeAll_bytes]
    simp only [flushBuf, RS.bind_run, getPState, flushBranch, if_true, hf, getBuf, RS.lift_run, hr10]
    cases m <;> simp [debugAssert]

theorem flushBuf_reserve (m : Mode) (st : PState) (hst : st ≠ .metrics) (w : Bytes) :
    flushBuf m (⟨st, w, []⟩ : ProtoEnc Bytes) = (.ok (), ⟨st, w, List.replicate 10 0⟩) := by
  have h : reserve (⟨st, w, []⟩ : ProtoEnc Bytes) = (.ok (), ⟨st, w, List.replicate 10 0⟩) := rfl
  simp only [flushBuf, RS.bind_run, getPState, flushBranch, if_neg hst, h, getBuf, RS.lift_run]
  cases m <;> rfl

theorem flushBuf_idle (m : Mode) (st : PState) (hst : st ≠ .metrics) (w b : Bytes) (hb : 10 ≤ b.length) :
    flushBuf m (⟨st, w, b⟩ : ProtoEnc Bytes) = (.ok (), ⟨st, w, b⟩) := by
  have h : reserve (⟨st, w, b⟩ : ProtoEnc Bytes) = (.ok (), ⟨st, w, b⟩) := by
    cases b with
    | nil => simp at hb
    | cons c b => rfl
  simp only [flushBuf, RS.bind_run, getPState, flushBranch, if_neg hst, h, getBuf, RS.lift_run, hb]
  cases m <;> rfl

/-! ## Abstract states -/

/-- State, fields in the buffer, written bytes. -/
structure Abs where
  st : PState
  fs : PFields
  w : Bytes

def Abs.flush (a : Abs) : Abs := if a.st = .metrics then ⟨.init, [], a.w ++ frame (encFields a.fs)⟩ else a

structure Holds (e : ProtoEnc Bytes) (a : Abs) : Prop where
  state : e.state = a.st
  writer : e.writer = a.w
  buf : (e.buf = [] ∧ a.fs = [] ∧ a.st = .init) ∨ ∃ pre : Bytes, pre.length = 10 ∧ e.buf = pre ++ encFields a.fs

/-- The ten bytes are reserved. -/
def Reserved (e : ProtoEnc Bytes) (a : Abs) : Prop :=
  e.state = a.st ∧ e.writer = a.w ∧ ∃ pre : Bytes, pre.length = 10 ∧ e.buf = pre ++ encFields a.fs

theorem Reserved.holds {e : ProtoEnc Bytes} {a : Abs} (h : Reserved e a) : Holds e a := ⟨h.1, h.2.1, .inr h.2.2⟩

theorem Holds.flush (m : Mode) {e : ProtoEnc Bytes} {a : Abs} (h : Holds e a) (hs : (encFields a.fs).length < 2 ^ 64) :
    ∃ e', flushBuf m e = (.ok (), e') ∧ Reserved e' a.flush := by
  obtain ⟨st, w, b⟩ := e
  obtain ⟨ast, afs, aw⟩ := a
  obtain ⟨h1, h2, h3⟩ := h
  simp only at h1 h2 h3 hs
  subst h1 h2
  by_cases hm : st = .metrics
  · subst hm
    rcases h3 with ⟨_, _, h⟩ | ⟨pre, hp, rfl⟩
    · cases h
    · obtain ⟨r, hr, hf⟩ := flushBuf_metrics m w pre (encFields afs) hp hs
      refine ⟨_, hf, ?_⟩
      simp only [Abs.flush, if_true]
      exact ⟨rfl, rfl, r, hr, by simp [encFields]⟩
  · simp only [Abs.flush, if_neg hm]
    rcases h3 with ⟨rfl, rfl, _⟩ | ⟨pre, hp, rfl⟩
    · exact ⟨_, flushBuf_reserve m st hm w, rfl, rfl, List.replicate 10 0, rfl, by simp [encFields]⟩
    · exact ⟨_, flushBuf_idle m st hm w _ (by simp; omega), rfl, rfl, pre, hp, rfl⟩

theorem Reserved.append {e : ProtoEnc Bytes} {a : Abs} (h : Reserved e a) (fs : PFields) (b : Bytes)
    (hb : b = encFields fs) : Reserved { e with buf := e.buf ++ b } { a with fs := a.fs ++ fs } := by
  obtain ⟨h1, h2, pre, hp, h3⟩ := h
  refine ⟨h1, h2, pre, hp, ?_⟩
  rw [hb, h3, encFields_append, List.append_assoc]

def nameF (n : Name) : Nat × WireVal := (1, .bytes n.render)

theorem nameField_eq (n : Name) : nameField n = .ok (encFields [nameF n]) := by
  unfold nameField
  rw [Name.encodeUtf8_bytes, Name.encodeLen_eq]
  simp [nameF, encFields, encField]

def Abs.help (a : Abs) (n : Name) (t : Bytes) : Abs :=
  ⟨.help, a.flush.fs ++ [nameF n, (2, .bytes t)], a.flush.w⟩

def Abs.type (a : Abs) (k : Kind) (n : Name) : Abs :=
  ⟨a.flush.st, a.flush.fs ++ ((if a.flush.st = .init then [nameF n] else []) ++ [(3, .varint (kindCode k))]), a.flush.w⟩

/-- The field and the double of a sample. -/
def sampleTag : Metric → Nat
  | .counter _ => 3
  | _ => 2

def sampleDouble : Metric → F64
  | .counter c => F64.ofNat c
  | .gauge c => F64.ofInt c
  | .floatGauge x => x
  | .histogram _ h => h.sum

def sampleF (ryu : F64 → Bytes) (s : Labels × Metric) : Nat × WireVal :=
  (4, .bytes (encFields (metricFields ryu (sampleTag s.2) (sampleDouble s.2) s.1)))

def SampleFits (ryu : F64 → Bytes) (s : Labels × Metric) : Prop :=
  (encFields (metricFields ryu (sampleTag s.2) (sampleDouble s.2) s.1)).length < 2 ^ 64 ∧ s.2.kind ≠ .histogram

theorem protoHelp_ok (m : Mode) (n : Name) (t : Bytes) {e : ProtoEnc Bytes} {a : Abs} (h : Holds e a)
    (hs : (encFields a.fs).length < 2 ^ 64) :
    ∃ e', protoHelp m n t e = (.ok (), e') ∧ Reserved e' (a.help n t) := by
  obtain ⟨e1, h1, r1⟩ := h.flush m hs
  have r2 := (r1.append [nameF n] _ rfl).append [(2, .bytes t)] (encodeString 2 t) (by simp [encFields, encodeString_eq])
  refine ⟨{ state := .help, writer := e1.writer, buf := e1.buf ++ encFields [nameF n] ++ encodeString 2 t }, ?_, ?_⟩
  · simp only [protoHelp, RS.bind_run, h1, nameField_eq, RS.lift_run, Proto.append, setPState]
  · refine ⟨rfl, r2.2.1, ?_⟩
    have := r2.2.2
    simpa [Abs.help] using this

theorem kind_code (m : Mode) (k : Kind) (hk : k ≠ .histogram) (n : Name) :
    (protoType m k n : RS (ProtoEnc Bytes) Unit) = protoTypeCode m (kindCode k) n := by
  cases k with
  | histogram => exact absurd rfl hk
  | _ => rfl

theorem encodeInt32_kind (k : Kind) : encodeInt32 3 (kindCode k) = encFields [(3, .varint (kindCode k))] := by
  cases k <;> decide

theorem protoType_ok (m : Mode) (k : Kind) (hk : k ≠ .histogram) (n : Name) {e : ProtoEnc Bytes} {a : Abs}
    (h : Holds e a) (hs : (encFields a.fs).length < 2 ^ 64) :
    ∃ e', protoType m k n e = (.ok (), e') ∧ Reserved e' (a.type k n) := by
  obtain ⟨e1, h1, r1⟩ := h.flush m hs
  rw [kind_code m k hk]
  by_cases hi : a.flush.st = .init
  · have r2 := (r1.append [nameF n] _ rfl).append [(3, .varint (kindCode k))] _ (encodeInt32_kind k)
    refine ⟨_, ?_, ⟨r2.1, r2.2.1, ?_⟩⟩
    · simp only [protoTypeCode, RS.bind_run, h1, getPState, r1.1, hi, nameIfInit, if_true, nameField_eq, RS.lift_run,
        Proto.append]
    · have := r2.2.2
      simpa [Abs.type, hi] using this
  · have r2 := r1.append [(3, .varint (kindCode k))] _ (encodeInt32_kind k)
    refine ⟨_, ?_, ⟨r2.1, r2.2.1, ?_⟩⟩
    · simp only [protoTypeCode, RS.bind_run, h1, getPState, r1.1, nameIfInit, if_neg hi, RS.pure_run, Proto.append]
    · have := r2.2.2
      simpa [Abs.type, hi] using this

theorem protoSample_ok (m : Mode) (ryu : F64 → Bytes) (s : Labels × Metric) (n : Name) {e : ProtoEnc Bytes} {a : Abs}
    (h : Reserved e a) (hs : SampleFits ryu s) :
    ∃ e', protoSample m ryu s.2 s.1 n e = (.ok (), e') ∧ Reserved e' ⟨.metrics, a.fs ++ [sampleF ryu s], a.w⟩ := by
  have hv : (protoSample m ryu s.2 s.1 n : RS (ProtoEnc Bytes) Unit) =
      protoValue m ryu (sampleTag s.2) (sampleDouble s.2) s.1 := by
    obtain ⟨ls, x⟩ := s
    cases x with
    | histogram _ _ => exact absurd rfl hs.2
    | _ => rfl
  have ht : sampleTag s.2 = 2 ∨ sampleTag s.2 = 3 := by
    obtain ⟨ls, x⟩ := s
    cases x <;> simp [sampleTag]
  rw [hv]
  have r := h.append [sampleF ryu s] (encField (sampleF ryu s)) (by simp [encFields])
  refine ⟨{ state := .metrics, writer := e.writer, buf := e.buf ++ encField (sampleF ryu s) }, ?_,
    ⟨rfl, r.2.1, r.2.2⟩⟩
  simp only [protoValue, RS.bind_run, setPState, RS.lift_run, metricBytes_eq m ryu _ ht _ _ hs.1, Proto.append]
  rfl

/-! ## Families -/

/-- What precedes the samples of a family. -/
def headF (st : PState) (f : FamilyIn) : PFields :=
  (match f.help with
    | some t => [nameF f.name, (2, .bytes t)]
    | none => if st = .init then [nameF f.name] else []) ++ [(3, .varint (kindCode f.kind))]

def famF (ryu : F64 → Bytes) (st : PState) (f : FamilyIn) : PFields := headF st f ++ f.samples.map (sampleF ryu)

def Abs.family (ryu : F64 → Bytes) (a : Abs) (f : FamilyIn) : Abs :=
  ⟨if f.samples = [] then (if f.help = none then a.flush.st else .help) else .metrics,
    a.flush.fs ++ famF ryu a.flush.st f, a.flush.w⟩

theorem Abs.flush_st (a : Abs) : a.flush.st ≠ .metrics := by
  unfold Abs.flush
  split
  · simp
  · assumption

theorem Abs.flush_flush (a : Abs) : a.flush.flush = a.flush := by
  rw [Abs.flush, if_neg a.flush_st]

theorem Abs.family_flush (ryu : F64 → Bytes) (a : Abs) (f : FamilyIn) : a.flush.family ryu f = a.family ryu f := by
  simp only [Abs.family, Abs.flush_flush]

theorem samples_ok (m : Mode) (ryu : F64 → Bytes) (n : Name) : ∀ (ss : List (Labels × Metric)) {e : ProtoEnc Bytes}
    {a : Abs}, Reserved e a → (∀ s ∈ ss, SampleFits ryu s) →
    ∃ e', (protoEncoder m ryu).runAll (ss.map fun s => .sample s.2 s.1 n) e = (.ok (), e') ∧
      Reserved e' ⟨if ss = [] then a.st else .metrics, a.fs ++ ss.map (sampleF ryu), a.w⟩ := by
  intro ss
  induction ss with
  | nil =>
    intro e a h _
    exact ⟨e, rfl, by simpa using h⟩
  | cons s ss ih =>
    intro e a h hs
    obtain ⟨e1, h1, r1⟩ := protoSample_ok m ryu s n h (hs s (by simp))
    obtain ⟨e2, h2, r2⟩ := ih r1 fun s hs' => hs s (by simp [hs'])
    refine ⟨e2, ?_, ?_⟩
    · have hrun : (protoEncoder m ryu).run (.sample s.2 s.1 n) e = (.ok (), e1) := h1
      simp only [List.map_cons, Encoder.runAll, RS.bind_run, hrun, h2]
    · refine ⟨?_, r2.2.1, ?_⟩
      · rw [r2.1]; simp
      · have := r2.2.2
        simpa using this

theorem family_ok (m : Mode) (ryu : F64 → Bytes) (f : FamilyIn) {e : ProtoEnc Bytes} {a : Abs} (h : Holds e a)
    (hs : (encFields a.fs).length < 2 ^ 64) (hs' : (encFields (a.help f.name (f.help.getD [])).fs).length < 2 ^ 64)
    (hk : f.kind ≠ .histogram) (hss : ∀ s ∈ f.samples, SampleFits ryu s) :
    ∃ e', (protoEncoder m ryu).runAll f.calls e = (.ok (), e') ∧ Reserved e' (a.family ryu f) := by
  cases hh : f.help with
  | none =>
    obtain ⟨e1, h1, r1⟩ := protoType_ok m f.kind hk f.name h hs
    obtain ⟨e2, h2, r2⟩ := samples_ok m ryu f.name f.samples r1 hss
    refine ⟨e2, ?_, ?_⟩
    · have hrun : (protoEncoder m ryu).run (.type f.kind f.name) e = (.ok (), e1) := h1
      simp only [FamilyIn.calls, hh, List.nil_append, Encoder.runAll, RS.bind_run, hrun, h2]
    · refine ⟨?_, r2.2.1, ?_⟩
      · rw [r2.1]; simp [Abs.family, hh, Abs.type]
      · have := r2.2.2
        simpa [Abs.family, famF, headF, hh, Abs.type] using this
  | some t =>
    rw [hh] at hs'
    obtain ⟨e0, h0, r0⟩ := protoHelp_ok m f.name t h hs
    obtain ⟨e1, h1, r1⟩ := protoType_ok m f.kind hk f.name r0.holds hs'
    obtain ⟨e2, h2, r2⟩ := samples_ok m ryu f.name f.samples r1 hss
    refine ⟨e2, ?_, ?_⟩
    · have hrun0 : (protoEncoder m ryu).run (.help f.name t) e = (.ok (), e0) := h0
      have hrun : (protoEncoder m ryu).run (.type f.kind f.name) e0 = (.ok (), e1) := h1
      simp only [FamilyIn.calls, hh, List.cons_append, List.nil_append, Encoder.runAll, RS.bind_run, hrun0, hrun, h2]
    · have hfl : (a.help f.name t).flush = a.help f.name t := by
        rw [Abs.flush, if_neg]; simp [Abs.help]
      refine ⟨?_, ?_, ?_⟩
      · rw [r2.1]; simp only [Abs.family, hh, Abs.type, hfl]; simp [Abs.help]
      · rw [r2.2.1]; simp only [Abs.family, Abs.type, hfl]; simp [Abs.help]
      · have := r2.2.2
        simp only [Abs.type, hfl] at this
        simpa [Abs.family, famF, headF, hh, Abs.help] using this

end Measured.Proto
