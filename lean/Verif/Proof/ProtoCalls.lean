import Verif.Proof.ProtoStream
import Verif.Spec.ProtoCalls

/-! What the protobuf encoder writes for arbitrary call sequences. -/

namespace Measured.Proto
open Measured.Spec

theorem calls_run (m : Mode) (ryu : F64 → Bytes) : ∀ (cs : List EncCall) {e : ProtoEnc Bytes} {a : Abs}, Holds e a →
    (Reserved e a ∨ ∀ c ∈ cs.head?, IsHead c) → (∀ c ∈ cs, NoHistCall c) →
    (encFields a.fs).length + (cs.map (callSize (labelText ryu))).sum < 2 ^ 64 →
    ∃ e', (protoEncoder m ryu).runAll cs e = (.ok (), e') ∧ Holds e' (cs.foldl (Abs.call ryu) a) ∧
      (encFields (cs.foldl (Abs.call ryu) a).fs).length ≤
        (encFields a.fs).length + (cs.map (callSize (labelText ryu))).sum := by
  intro cs
  induction cs with
  | nil => intro e a h _ _ _; exact ⟨e, rfl, h, by simp⟩
  | cons c cs ih =>
    intro e a h hr hh hs
    rw [List.map_cons, List.sum_cons] at hs ⊢
    have hr' : Reserved e a ∨ ∀ x ls n, c ≠ .sample x ls n :=
      hr.imp id fun h => by
        intro x ls n hc
        have := h c (by simp)
        rw [hc] at this
        exact this
    obtain ⟨e1, h1, r1⟩ := call_ok m ryu c (hh c (by simp)) h hr' (by omega)
    have hle := call_le ryu a c
    obtain ⟨e2, h2, r2, l2⟩ := ih r1.holds (.inl r1) (fun c hc => hh c (by simp [hc])) (by omega)
    refine ⟨e2, ?_, r2, by rw [List.foldl_cons]; omega⟩
    simp only [Encoder.runAll, RS.bind_run, h1, h2]

theorem decodeFamily_iff (fs : PFields) (p : PFamily) : decodeFamily fs = some p ↔
    ∃ x1 x2 x3, readAll asBytes (fieldsOf 1 fs) = some x1 ∧ readAll asBytes (fieldsOf 2 fs) = some x2 ∧
      readAll asVarint (fieldsOf 3 fs) = some x3 ∧ readAll (asMessage decodeMetric) (fieldsOf 4 fs) = some p.metrics ∧
      p.name = x1.getLast? ∧ p.help = x2.getLast? ∧ p.type = x3.getLast? := by
  unfold decodeFamily optionalField repeatedField
  constructor
  · intro h
    split at h
    · rename_i n hp t ms h1 h2 h3 h4
      obtain ⟨x1, e1, rfl⟩ := Option.map_eq_some_iff.1 h1
      obtain ⟨x2, e2, rfl⟩ := Option.map_eq_some_iff.1 h2
      obtain ⟨x3, e3, rfl⟩ := Option.map_eq_some_iff.1 h3
      simp only [Option.some.injEq] at h
      subst h
      exact ⟨x1, x2, x3, e1, e2, e3, h4, rfl, rfl, rfl⟩
    · simp at h
  · rintro ⟨x1, x2, x3, e1, e2, e3, e4, h1, h2, h3⟩
    rw [e1, e2, e3, e4]
    obtain ⟨n, hp, t, ms⟩ := p
    simp_all

theorem decode_name {fs : PFields} {p : PFamily} (h : decodeFamily fs = some p) (b : Bytes) :
    decodeFamily (fs ++ [(1, .bytes b)]) = some { p with name := some b } := by
  rw [decodeFamily_iff] at h ⊢
  obtain ⟨x1, x2, x3, e1, e2, e3, e4, h1, h2, h3⟩ := h
  refine ⟨x1 ++ [b], x2, x3, ?_, ?_, ?_, ?_, by simp, h2, h3⟩ <;> rw [fieldsOf_append]
  · exact readAll_append _ _ _ e1 rfl
  · simpa [fieldsOf] using e2
  · simpa [fieldsOf] using e3
  · simpa [fieldsOf] using e4

theorem decode_help {fs : PFields} {p : PFamily} (h : decodeFamily fs = some p) (b : Bytes) :
    decodeFamily (fs ++ [(2, .bytes b)]) = some { p with help := some b } := by
  rw [decodeFamily_iff] at h ⊢
  obtain ⟨x1, x2, x3, e1, e2, e3, e4, h1, h2, h3⟩ := h
  refine ⟨x1, x2 ++ [b], x3, ?_, ?_, ?_, ?_, h1, by simp, h3⟩ <;> rw [fieldsOf_append]
  · simpa [fieldsOf] using e1
  · exact readAll_append _ _ _ e2 rfl
  · simpa [fieldsOf] using e3
  · simpa [fieldsOf] using e4

theorem decode_type {fs : PFields} {p : PFamily} (h : decodeFamily fs = some p) (v : Nat) :
    decodeFamily (fs ++ [(3, .varint v)]) = some { p with type := some v } := by
  rw [decodeFamily_iff] at h ⊢
  obtain ⟨x1, x2, x3, e1, e2, e3, e4, h1, h2, h3⟩ := h
  refine ⟨x1, x2, x3 ++ [v], ?_, ?_, ?_, ?_, h1, h2, by simp⟩ <;> rw [fieldsOf_append]
  · simpa [fieldsOf] using e1
  · simpa [fieldsOf] using e2
  · exact readAll_append _ _ _ e3 rfl
  · simpa [fieldsOf] using e4

theorem decode_metrics {fs : PFields} {p : PFamily} (h : decodeFamily fs = some p) (b : WireVal) {x : PMetric}
    (hb : asMessage decodeMetric b = some x) :
    decodeFamily (fs ++ [(4, b)]) = some { p with metrics := p.metrics ++ [x] } := by
  rw [decodeFamily_iff] at h ⊢
  obtain ⟨x1, x2, x3, e1, e2, e3, e4, h1, h2, h3⟩ := h
  refine ⟨x1, x2, x3, ?_, ?_, ?_, ?_, h1, h2, h3⟩ <;> rw [fieldsOf_append]
  · simpa [fieldsOf] using e1
  · simpa [fieldsOf] using e2
  · simpa [fieldsOf] using e3
  · refine readAll_append _ _ _ e4 ?_
    simp [fieldsOf, readAll, hb]

/-- The message of some heads. -/
def pheads (cs : List EncCall) : PFamily :=
  ⟨(headName cs).map Name.render, (lastHelp cs).map Prod.snd, (lastType cs).map fun t => kindCode t.1, []⟩

theorem lastHelp_help (cs : List EncCall) (n : Name) (t : Bytes) : lastHelp (cs ++ [.help n t]) = some (n, t) := by
  simp [lastHelp, helpOf]
theorem lastHelp_type (cs : List EncCall) (k : Kind) (n : Name) : lastHelp (cs ++ [.type k n]) = lastHelp cs := by
  simp [lastHelp, helpOf]
theorem lastType_help (cs : List EncCall) (n : Name) (t : Bytes) : lastType (cs ++ [.help n t]) = lastType cs := by
  simp [lastType, typeOf]
theorem lastType_type (cs : List EncCall) (k : Kind) (n : Name) : lastType (cs ++ [.type k n]) = some (k, n) := by
  simp [lastType, typeOf]

/-- Heads, from an encoder with nothing pending. -/
theorem heads_fold (ryu : F64 → Bytes) (w : Bytes) (cs : List EncCall) (hc : ∀ c ∈ cs, IsHead c) :
    (cs.foldl (Abs.call ryu) ⟨.init, [], w⟩).w = w ∧
      (cs.foldl (Abs.call ryu) ⟨.init, [], w⟩).st = (if lastHelp cs = none then .init else .help) ∧
      decodeFamily (cs.foldl (Abs.call ryu) ⟨.init, [], w⟩).fs = some (pheads cs) := by
  induction cs using List.reverseRecOn with
  | nil => exact ⟨rfl, rfl, rfl⟩
  | append_singleton cs c ih =>
    obtain ⟨h1, h2, h3⟩ := ih fun c h => hc c (by simp [h])
    have hcc := hc c (by simp)
    rw [List.foldl_append, List.foldl_cons, List.foldl_nil]
    generalize cs.foldl (Abs.call ryu) ⟨.init, [], w⟩ = a at h1 h2 h3
    have hfl : a.flush = a := by
      rw [Abs.flush, if_neg]
      rw [h2]; split <;> simp
    cases c with
    | sample x ls n => exact hcc.elim
    | help n t =>
      refine ⟨?_, ?_, ?_⟩
      · simp [Abs.call, Abs.help, hfl, h1]
      · simp [Abs.call, Abs.help, lastHelp_help]
      · have := decode_help (decode_name h3 n.render) t
        simp only [Abs.call, Abs.help, hfl]
        rw [show a.fs ++ [nameF n, (2, .bytes t)] = a.fs ++ [(1, .bytes n.render)] ++ [(2, .bytes t)] by simp [nameF], this]
        simp [pheads, headName, lastHelp_help, lastType_help]
    | type k n =>
      refine ⟨?_, ?_, ?_⟩
      · simp [Abs.call, Abs.type, hfl, h1]
      · simp [Abs.call, Abs.type, hfl, h2, lastHelp_type]
      · simp only [Abs.call, Abs.type, hfl]
        cases hl : lastHelp cs with
        | none =>
          have hi : a.st = .init := by rw [h2, hl]; rfl
          have := decode_type (decode_name h3 n.render) (kindCode k)
          rw [if_pos hi, show a.fs ++ ([nameF n] ++ [(3, .varint (kindCode k))]) =
            a.fs ++ [(1, .bytes n.render)] ++ [(3, .varint (kindCode k))] by simp [nameF], this]
          simp [pheads, headName, lastHelp_type, lastType_type, hl]
        | some q =>
          have hi : a.st ≠ .init := by rw [h2, hl]; simp
          have := decode_type h3 (kindCode k)
          rw [if_neg hi, List.nil_append, this]
          simp [pheads, headName, lastHelp_type, lastType_type, hl]

theorem samples_fold (ryu : F64 → Bytes) : ∀ (ss : List ((Labels × Metric) × Name)) (a : Abs), ss ≠ [] →
    (ss.map fun s => EncCall.sample s.1.2 s.1.1 s.2).foldl (Abs.call ryu) a =
      ⟨.metrics, a.fs ++ (ss.map fun s => sampleF ryu s.1), a.w⟩ := by
  intro ss
  induction ss with
  | nil => intro a h; exact absurd rfl h
  | cons s ss ih =>
    intro a _
    rw [List.map_cons, List.foldl_cons]
    by_cases he : ss = []
    · subst he; simp [Abs.call]
    · rw [ih _ he]; simp [Abs.call]

theorem decode_samples {ryu : F64 → Bytes} : ∀ (ss : List ((Labels × Metric) × Name)) {fs : PFields} {p : PFamily},
    decodeFamily fs = some p → (∀ s ∈ ss, SampleFits ryu s.1) →
    decodeFamily (fs ++ ss.map fun s => sampleF ryu s.1) =
      some { p with metrics := p.metrics ++ ss.map fun s => pmetric ryu (sampleTag s.1.2) (sampleDouble s.1.2) s.1.1 } := by
  intro ss
  induction ss with
  | nil => intro fs p h _; simpa using h
  | cons s ss ih =>
    intro fs p h hs
    have h1 := decode_metrics h (sampleF ryu s.1).2 (decode_sample (hs s (by simp)))
    have h2 := ih h1 fun s h => hs s (by simp [h])
    rw [List.map_cons, List.append_cons]
    have : [(4, (sampleF ryu s.1).2)] = [sampleF ryu s.1] := rfl
    rw [← this, h2]
    simp

/-- The message of a block. -/
def pblock (ryu : F64 → Bytes) (b : Block) : PFamily :=
  { pheads b.heads with metrics := b.samples.map fun s => pmetric ryu (sampleTag s.1.2) (sampleDouble s.1.2) s.1.1 }

/-- A head flushes. -/
theorem call_flush (ryu : F64 → Bytes) (a : Abs) {c : EncCall} (hc : IsHead c) : a.flush.call ryu c = a.call ryu c := by
  cases c with
  | sample => exact hc.elim
  | help n t => simp only [Abs.call, Abs.help, a.flush_flush]
  | type k n => simp only [Abs.call, Abs.type, a.flush_flush]

theorem fold_calls_flush (ryu : F64 → Bytes) (a : Abs) {cs : List EncCall} (hc : ∀ c ∈ cs.head?, IsHead c) :
    (cs.foldl (Abs.call ryu) a.flush).flush = (cs.foldl (Abs.call ryu) a).flush := by
  cases cs with
  | nil => exact a.flush_flush
  | cons c cs => rw [List.foldl_cons, List.foldl_cons, call_flush ryu a (hc c (by simp))]

theorem block_fold (ryu : F64 → Bytes) (w : Bytes) {b : Block} (hb : b.Wf) (hf : ∀ s ∈ b.samples, SampleFits ryu s.1) :
    ∃ fs, b.calls.foldl (Abs.call ryu) ⟨.init, [], w⟩ = ⟨.metrics, fs, w⟩ ∧ decodeFamily fs = some (pblock ryu b) := by
  obtain ⟨h1, _, h3⟩ := heads_fold ryu w b.heads hb.heads
  refine ⟨_, ?_, decode_samples b.samples h3 hf⟩
  rw [Block.calls, List.foldl_append, samples_fold _ _ _ hb.sampled, h1]

theorem sum_calls_append (ryu : F64 → Bytes) (cs ds : List EncCall) :
    ((cs ++ ds).map (callSize (labelText ryu))).sum =
      (cs.map (callSize (labelText ryu))).sum + (ds.map (callSize (labelText ryu))).sum := by simp

theorem block_fits {ryu : F64 → Bytes} {b : Block} (hh : ∀ c ∈ b.calls, NoHistCall c)
    (hs : (b.calls.map (callSize (labelText ryu))).sum < 2 ^ 64) : ∀ s ∈ b.samples, SampleFits ryu s.1 := by
  intro s h
  have hm : EncCall.sample s.1.2 s.1.1 s.2 ∈ b.calls := List.mem_append.2 (.inr (List.mem_map.2 ⟨s, h, rfl⟩))
  have hle := le_sum_of_mem (callSize (labelText ryu)) hm
  have : callSize (labelText ryu) (.sample s.1.2 s.1.1 s.2) = sampleSize (labelText ryu) s.1 := rfl
  exact sample_fits (hh _ hm) (by omega)

theorem stream_fold {ryu : F64 → Bytes} (w0 : Bytes) : ∀ (cs : List EncCall) {a : Abs} {ms : List PFields},
    Stream w0 a ms → (encFields a.fs).length + (cs.map (callSize (labelText ryu))).sum < 2 ^ 64 →
    ∃ ms', Stream w0 (cs.foldl (Abs.call ryu) a) ms' := by
  intro cs
  induction cs with
  | nil => intro a ms h _; exact ⟨ms, h⟩
  | cons c cs ih =>
    intro a ms h hs
    rw [List.map_cons, List.sum_cons] at hs
    obtain ⟨ms1, s1⟩ := h.call (ryu := ryu) c (by omega)
    have hle := call_le ryu a c
    exact ih s1 (by omega)

theorem fold_le (ryu : F64 → Bytes) : ∀ (cs : List EncCall) (a : Abs),
    (encFields (cs.foldl (Abs.call ryu) a).fs).length ≤
      (encFields a.fs).length + (cs.map (callSize (labelText ryu))).sum := by
  intro cs
  induction cs with
  | nil => intro a; simp
  | cons c cs ih =>
    intro a
    rw [List.map_cons, List.sum_cons, List.foldl_cons]
    have := ih (a.call ryu c)
    have := call_le ryu a c
    omega

/-- Blocks and then heads. -/
theorem blocks_fold (ryu : F64 → Bytes) (w0 : Bytes) (tail : List EncCall) (ht : ∀ c ∈ tail, IsHead c) :
    ∀ (bs : List Block) (w : Bytes), (∀ b ∈ bs, b.Wf) → (∀ c ∈ bs.flatMap Block.calls, NoHistCall c) →
    ((bs.flatMap Block.calls).map (callSize (labelText ryu))).sum < 2 ^ 64 →
    ∃ ms : List PFields, ((bs.flatMap Block.calls ++ tail).foldl (Abs.call ryu) ⟨.init, [], w⟩).flush.w =
        w ++ ms.flatMap (fun m => frame (encFields m)) ∧
      (∀ m ∈ ms, (∀ g ∈ m, FieldOk g) ∧ (encFields m).length < 2 ^ 64) ∧
      readAll decodeFamily ms = some (bs.map (pblock ryu)) := by
  intro bs
  induction bs with
  | nil =>
    intro w _ _ _
    obtain ⟨h1, h2, _⟩ := heads_fold ryu w tail ht
    refine ⟨[], ?_, by simp, rfl⟩
    simp only [List.flatMap_nil, List.nil_append, List.append_nil]
    rw [Abs.flush, if_neg (by rw [h2]; split <;> simp), h1]
  | cons b bs ih =>
    intro w hw hh hs
    rw [List.flatMap_cons, sum_calls_append] at hs
    have hhb : ∀ c ∈ b.calls, NoHistCall c := fun c hc => hh c (by
      rw [List.flatMap_cons]; exact List.mem_append.2 (.inl hc))
    have hhs : ∀ c ∈ bs.flatMap Block.calls, NoHistCall c := fun c hc => hh c (by
      rw [List.flatMap_cons]; exact List.mem_append.2 (.inr hc))
    obtain ⟨fs, hf, hd⟩ := block_fold ryu w (hw b (by simp)) (block_fits hhb (by omega))
    have hle := fold_le ryu b.calls ⟨.init, [], w⟩
    rw [hf] at hle
    simp only [encFields_nil, List.length_nil, Nat.zero_add] at hle
    have s0 : Stream w ⟨.init, [], w⟩ [] := ⟨by simp, by simp, by simp⟩
    obtain ⟨_, s1⟩ := stream_fold (ryu := ryu) w b.calls s0 (by simp only [encFields_nil, List.length_nil]; omega)
    rw [hf] at s1
    obtain ⟨ms, e1, e2, e3⟩ := ih (w ++ frame (encFields fs)) (fun b hb => hw b (by simp [hb])) hhs (by omega)
    refine ⟨fs :: ms, ?_, ?_, ?_⟩
    · rw [List.flatMap_cons, List.append_assoc, List.foldl_append, hf]
      have hhead : ∀ c ∈ (bs.flatMap Block.calls ++ tail).head?, IsHead c := by
        intro c hc
        cases bs with
        | nil =>
          simp only [List.flatMap_nil, List.nil_append] at hc
          exact ht c (List.mem_of_mem_head? hc)
        | cons b' bs =>
          have hb' := hw b' (by simp)
          obtain ⟨h, hs', he⟩ := List.exists_cons_of_ne_nil hb'.headed
          rw [List.flatMap_cons, Block.calls, he] at hc
          simp only [List.cons_append, List.head?_cons, Option.mem_def, Option.some.injEq] at hc
          subst hc
          exact hb'.heads _ (by rw [he]; simp)
      rw [← fold_calls_flush ryu _ hhead]
      have : (⟨.metrics, fs, w⟩ : Abs).flush = ⟨.init, [], w ++ frame (encFields fs)⟩ := by rw [Abs.flush, if_pos rfl]
      rw [this, e1]
      simp
    · intro m hm
      rcases List.mem_cons.1 hm with rfl | hm
      · exact ⟨s1.fs, by omega⟩
      · exact e2 m hm
    · simp only [readAll, hd, e3, List.map_cons]

theorem messages_decode {ms : List PFields} {gs : List PFamily}
    (h1 : ∀ m ∈ ms, (∀ g ∈ m, FieldOk g) ∧ (encFields m).length < 2 ^ 64) (h2 : readAll decodeFamily ms = some gs) :
    decodeScrape (ms.flatMap fun m => frame (encFields m)) = some gs := by
  have he : (ms.flatMap fun m => frame (encFields m)) = (ms.map encFields).flatMap frame := by
    rw [List.flatMap_map]
  have hl : ∀ b ∈ ms.map encFields, b.length < 2 ^ 64 := by
    intro b hb
    obtain ⟨m, hm, rfl⟩ := List.mem_map.1 hb
    exact (h1 m hm).2
  simp only [decodeScrape, he, readDelimited_frames hl]
  exact readAll_messages ms (fun m hm => (h1 m hm).1) h2

theorem block_reads {ryu : F64 → Bytes} {rf : Bytes → Option F64} (F : FloatText ryu rf) {b : Block}
    (h : ∀ c ∈ b.calls, NoHistCall c) : BlockReads rf Name.render b (pblock ryu b) := by
  refine ⟨rfl, rfl, rfl, ?_⟩
  show List.Forall₂ _ (b.samples.map Prod.fst) (b.samples.map _)
  have : ∀ s ∈ b.samples, s.1.2.kind ≠ .histogram := fun s hs =>
    h (.sample s.1.2 s.1.1 s.2) (List.mem_append.2 (.inr (List.mem_map.2 ⟨s, hs, rfl⟩)))
  generalize b.samples = ss at this
  induction ss with
  | nil => exact .nil
  | cons s ss ih => exact .cons (sample_reads F (this s (by simp))) (ih fun s hs => this s (by simp [hs]))

/-- Every sequence of calls that does not start with a sample consists of blocks and then heads. -/
theorem blocks_exist (cs : List EncCall) (h : ∀ c ∈ cs.head?, IsHead c) :
    ∃ (bs : List Block) (tail : List EncCall), cs = bs.flatMap Block.calls ++ tail ∧ (∀ b ∈ bs, b.Wf) ∧ ∀ c ∈ tail, IsHead c := by
  induction cs using List.reverseRecOn with
  | nil => exact ⟨[], [], rfl, by simp, by simp⟩
  | append_singleton cs c ih =>
    have hcs : ∀ c ∈ cs.head?, IsHead c := by
      cases cs with
      | nil => simp
      | cons d cs => exact h
    obtain ⟨bs, tail, rfl, hw, ht⟩ := ih hcs
    cases c with
    | help n t =>
      exact ⟨bs, tail ++ [.help n t], by simp, hw, fun c hc => by
        rcases List.mem_append.1 hc with hc | hc
        · exact ht c hc
        · rw [List.mem_singleton] at hc; subst hc; trivial⟩
    | type k n =>
      exact ⟨bs, tail ++ [.type k n], by simp, hw, fun c hc => by
        rcases List.mem_append.1 hc with hc | hc
        · exact ht c hc
        · rw [List.mem_singleton] at hc; subst hc; trivial⟩
    | sample x ls n =>
      by_cases he : tail = []
      · subst he
        rcases List.eq_nil_or_concat bs with rfl | ⟨bs', b, rfl⟩
        · exact (h (.sample x ls n) (by simp)).elim
        · refine ⟨bs' ++ [⟨b.heads, b.samples ++ [((ls, x), n)]⟩], [], ?_, ?_, by simp⟩
          · simp [Block.calls, List.concat_eq_append]
          · intro b' hb'
            rcases List.mem_append.1 hb' with hb' | hb'
            · exact hw b' (by simp [List.concat_eq_append, hb'])
            · rw [List.mem_singleton] at hb'
              subst hb'
              have := hw b (by simp [List.concat_eq_append])
              exact ⟨this.heads, this.headed, by simp⟩
      · refine ⟨bs ++ [⟨tail, [((ls, x), n)]⟩], [], ?_, ?_, by simp⟩
        · simp [Block.calls]
        · intro b' hb'
          rcases List.mem_append.1 hb' with hb' | hb'
          · exact hw b' hb'
          · rw [List.mem_singleton] at hb'
            subst hb'
            exact ⟨ht, he, by simp⟩

theorem head_flatten {α : Type} {P : α → Prop} : ∀ {css : List (List α)}, (∀ cs ∈ css, ∀ c ∈ cs.head?, P c) →
    ∀ c ∈ css.flatten.head?, P c := by
  intro css
  induction css with
  | nil => simp
  | cons d css ih =>
    intro h c hc
    cases d with
    | nil => exact ih (fun cs hcs => h cs (by simp [hcs])) c (by simpa using hc)
    | cons x d => exact h (x :: d) (by simp) c (by simpa using hc)

/-- Scrapes, each followed by a flush. -/
theorem scrapes_run (m : Mode) (ryu : F64 → Bytes) : ∀ (css : List (List EncCall)) {e : ProtoEnc Bytes} {a : Abs},
    Holds e a → a.flush = a → (∀ cs ∈ css, ∀ c ∈ cs.head?, IsHead c) → (∀ cs ∈ css, ∀ c ∈ cs, NoHistCall c) →
    (encFields a.fs).length + (css.flatten.map (callSize (labelText ryu))).sum < 2 ^ 64 →
    ∃ e', runScrapes m ryu css e = (.ok (), e') ∧ e'.writer = (css.flatten.foldl (Abs.call ryu) a).flush.w := by
  intro css
  induction css with
  | nil => intro e a h ha _ _ _; exact ⟨e, rfl, by simp [h.writer, ha]⟩
  | cons cs css ih =>
    intro e a h _ hr hh hs
    rw [List.flatten_cons, sum_calls_append] at hs
    obtain ⟨e1, h1, r1, l1⟩ := calls_run m ryu cs h (.inr (hr cs (by simp))) (hh cs (by simp)) (by omega)
    obtain ⟨e2, h2, r2⟩ := r1.flush m (by omega)
    have h2' : flush m e1 = (.ok (), e2) := h2
    have hfl := flush_le (cs.foldl (Abs.call ryu) a)
    obtain ⟨e3, h3, r3⟩ := ih r2.holds (Abs.flush_flush _) (fun c hc => hr c (by simp [hc]))
      (fun c hc => hh c (by simp [hc])) (by omega)
    refine ⟨e3, ?_, ?_⟩
    · simp only [runScrapes, RS.bind_run, h1, h2', h3]
    · rw [r3, List.flatten_cons, List.foldl_append, fold_calls_flush]
      exact head_flatten fun cs hcs => hr cs (by simp [hcs])

end Measured.Proto
