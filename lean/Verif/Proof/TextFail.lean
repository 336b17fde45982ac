import Verif.Proof.TextLoss
import Verif.Spec.TextFail

/-! The text encoder over a writer that fails: what it has written when it returns an error. -/

namespace Measured
open Spec

/-- No call but the last one failed. -/
def Spared (s s' : Sink) : Prop := ∀ i, s.calls ≤ i → i + 1 < s'.calls → s.fail i = none

theorem Spared.clean {s s' s'' : Sink} (h : Spared s s'') (d : Dirty s' s'') : ¬ Dirty s s' := by
  rintro ⟨i, h1, h2, h3⟩
  obtain ⟨j, k1, k2, _⟩ := d
  exact h3 (h i h1 (by omega))

theorem Spared.rest {s s' s'' : Sink} (h : Spared s s'') (ha : After s s') : Spared s' s'' := fun i h1 h2 => by
  rw [ha.1]
  exact h i (Nat.le_trans ha.2 h1) h2

/-- On a buffer: the same for all buffers. On a sink: the same but for some bytes of labels, or an error after a failed call of
the writer, and what was accepted is an initial part of what it would have been. -/
def FailT {α : Type} (x : RS (TextEnc Sink) α) (y : RS (TextEnc Bytes) α) : Prop :=
  ∀ st s, ∃ o st' out, (∀ b, y ⟨st, b⟩ = (o, ⟨st', b ++ out⟩)) ∧
    ((∃ s' out', x ⟨st, s⟩ = (o, ⟨st', s'⟩) ∧ s'.out = s.out ++ out' ∧ After s s' ∧ LabelBytesLost out out' ∧
        (¬ Dirty s s' → out' = out)) ∨
     ∃ st₁ s₁ p t, x ⟨st, s⟩ = (.err, ⟨st₁, s₁⟩) ∧ s₁.out = s.out ++ p ∧ LabelBytesLost out t ∧ p <+: t ∧ After s s₁ ∧
        Dirty s s₁ ∧ (Spared s s₁ → t = out))

theorem failT_bind {α β : Type} {x : RS (TextEnc Sink) α} {y : RS (TextEnc Bytes) α} {f : α → RS (TextEnc Sink) β}
    {g : α → RS (TextEnc Bytes) β} (h : FailT x y) (hf : ∀ a, FailT (f a) (g a)) : FailT (x >>= f) (y >>= g) := by
  intro st s
  obtain ⟨o, st', out, e1, ⟨s', out', h1, h2, h3, h4, h5⟩ | ⟨st₁, s₁, p, t, h1, h2, h3, h4, h5, h6, h7⟩⟩ := h st s
  · cases o with
    | ok a =>
      obtain ⟨o2, st2, out2, e2, ⟨s2, out2', k1, k2, k3, k4, k5⟩ | ⟨st₁, s₁, p, t, k1, k2, k3, k4, k5, k6, k7⟩⟩ := hf a st' s'
      · refine ⟨o2, st2, out ++ out2, fun b => by rw [RS.bind_ok (e1 b), e2, List.append_assoc],
          .inl ⟨s2, out' ++ out2', by rw [RS.bind_ok h1, k1], by rw [k2, h2, List.append_assoc], h3.trans k3,
            lost_append h4 k4, fun hd => ?_⟩⟩
        rw [h5 fun h => hd (h.left k3), k5 fun h => hd (h.right h3)]
      · exact ⟨o2, st2, out ++ out2, fun b => by rw [RS.bind_ok (e1 b), e2, List.append_assoc],
          .inr ⟨st₁, s₁, out' ++ p, out' ++ t, by rw [RS.bind_ok h1, k1], by rw [k2, h2, List.append_assoc],
            lost_append h4 k3, (List.prefix_append_right_inj out').2 k4, h3.trans k5, k6.right h3,
            fun hs => by rw [h5 (hs.clean k6), k7 (hs.rest h3)]⟩⟩
    | err =>
      exact ⟨.err, st', out, fun b => by rw [RS.bind_run, e1], .inl ⟨s', out', by rw [RS.bind_run, h1], h2, h3, h4, h5⟩⟩
    | panic =>
      exact ⟨.panic, st', out, fun b => by rw [RS.bind_run, e1], .inl ⟨s', out', by rw [RS.bind_run, h1], h2, h3, h4, h5⟩⟩
  · cases o with
    | ok a =>
      obtain ⟨o2, st2, out2, e2, _⟩ := hf a st' s
      exact ⟨o2, st2, out ++ out2, fun b => by rw [RS.bind_ok (e1 b), e2, List.append_assoc],
        .inr ⟨st₁, s₁, p, t ++ out2, by rw [RS.bind_run, h1], h2, h3.same out2, h4.trans (List.prefix_append _ _), h5, h6,
          fun hs => by rw [h7 hs]⟩⟩
    | err =>
      exact ⟨.err, st', out, fun b => by rw [RS.bind_run, e1], .inr ⟨st₁, s₁, p, t, by rw [RS.bind_run, h1], h2, h3, h4, h5, h6, h7⟩⟩
    | panic =>
      exact ⟨.panic, st', out, fun b => by rw [RS.bind_run, e1], .inr ⟨st₁, s₁, p, t, by rw [RS.bind_run, h1], h2, h3, h4, h5, h6, h7⟩⟩

theorem failT_lift {x : RS Sink Unit} {y : RS Bytes Unit} (h : PartW x y) : FailT (onWriter x) (onWriter y) := by
  intro st s
  obtain ⟨out, e, ⟨s', h1, ha, ho⟩ | ⟨s', out', h1, ha, d, ho, hp⟩⟩ := h s
  · exact ⟨.ok (), st, out, fun b => by simp only [onWriter, e],
      .inl ⟨s', out, by simp only [onWriter, h1], ho, ha, lost_refl _, fun _ => rfl⟩⟩
  · exact ⟨.ok (), st, out, fun b => by simp only [onWriter, e],
      .inr ⟨st, s', out', out, by simp only [onWriter, h1], ho, lost_refl _, hp, ha, d, fun _ => rfl⟩⟩

theorem failT_write (t : Bytes) : FailT (onWriter (writeAll t)) (onWriter (writeAll t)) := failT_lift (partW_writeAll t)

theorem partW_name (n : Name) : PartW n.encodeUtf8 n.encodeUtf8 := by
  induction n with
  | str s => exact partW_writeAll s
  | ns p inner ih => exact (partW_writeAll _).then ((partW_writeAll _).then ih)
  | suffix inner s ih => exact ih.then (partW_writeAll _)

theorem failT_out {α : Type} (o : Out α) : FailT (RS.lift o) (RS.lift o) := fun st s =>
  ⟨o, st, [], fun b => by simp [RS.lift], .inl ⟨s, [], rfl, by simp, .refl s, .nil, fun _ => rfl⟩⟩

theorem failT_pure {α : Type} (a : α) : FailT (pure a) (pure a) := failT_out (.ok a)

theorem failT_setState (st : TState) : FailT (setState st) (setState st) := fun _ s =>
  ⟨.ok (), st, [], fun b => by simp [setState], .inl ⟨s, [], rfl, by simp, .refl s, .nil, fun _ => rfl⟩⟩

theorem failT_sep : FailT textSep textSep := by
  intro st s
  cases st with
  | info => exact failT_pure () .info s
  | metrics => exact failT_write b!"\n" .metrics s

theorem failT_number (ryu : F64 → Bytes) (v : MValue) : FailT (textNumber ryu v) (textNumber ryu v) := by
  cases v <;> exact failT_write _

/-- The labels and the closing brace. -/
theorem failT_labels (ryu : F64 → Bytes) (ls : Labels) (hl : LabelsOk ls) :
    FailT (onWriter (visitLabels ryu true ls) >>= textClose) (onWriter (visitLabels ryu true ls) >>= textClose) := by
  cases ls with
  | nil => exact fun st s => failT_pure () st s
  | cons l ls =>
    intro st s
    obtain ⟨r, out, s1, out', f1, f2, f3, f4, f5, f6⟩ := part_visitLabels ryu (l :: ls) true s
    have hv := f1 []
    rw [visitLabels_bytes] at hv
    simp only [Prod.mk.injEq, Out.ok.injEq, List.nil_append] at hv
    obtain ⟨rfl, rfl⟩ := hv
    have hx : onWriter (visitLabels ryu true (l :: ls)) (⟨st, s⟩ : TextEnc Sink) = (.ok false, ⟨st, s1⟩) := by
      simp only [onWriter, f2]
    have hnl : (0x0a : Byte) ∉ renderLabel ryu l ++ renderMore ryu ls := by
      intro hmem
      refine renderLabels_noNewline (ryu := ryu) hl 0x0a ?_ rfl
      simp only [renderLabels, List.mem_append] at hmem ⊢
      rcases hmem with h | h
      · exact .inl (.inl (.inr h))
      · exact .inl (.inr h)
    have hlost : LabelBytesLost (b!"{" ++ (renderLabel ryu l ++ renderMore ryu ls) ++ b!"}") (out' ++ b!"}") := by
      have := LabelBytesLost.nil.labels (l := renderLabel ryu l ++ renderMore ryu ls) (l' := out')
        (by simpa using f5) hnl
      simpa using this
    obtain ⟨c, e, ⟨s2, h1, ha, ho⟩ | ⟨s2, c', h1, ha, d, ho, hp⟩⟩ := partW_writeAll b!"}" s1
    all_goals
      have hc : c = b!"}" := by
        have := e []
        simpa using this.symm
      subst hc
    · refine ⟨.ok (), st, _, fun b => ?_, .inl ⟨s2, out' ++ b!"}", ?_, ?_, f3.trans ha, hlost, fun hd => ?_⟩⟩
      · rw [RS.bind_ok (onWriter_bytes (visitLabels_bytes _ _ _ _)), show textClose false = onWriter (writeAll b!"}") from rfl]
        simp [onWriter]
      · rw [RS.bind_ok hx, show textClose false = onWriter (writeAll b!"}") from rfl]
        simp only [onWriter, h1]
      · rw [ho, f4, List.append_assoc]
      · rw [f6 fun h => hd (h.left ha)]
        simp
    · refine ⟨.ok (), st, _, fun b => ?_, .inr ⟨st, s2, out' ++ c', out' ++ b!"}", ?_, ?_, hlost, ?_, f3.trans ha, d.right f3, fun hs => ?_⟩⟩
      · rw [RS.bind_ok (onWriter_bytes (visitLabels_bytes _ _ _ _)), show textClose false = onWriter (writeAll b!"}") from rfl]
        simp [onWriter]
      · rw [RS.bind_ok hx, show textClose false = onWriter (writeAll b!"}") from rfl]
        simp only [onWriter, h1]
      · rw [ho, f4, List.append_assoc]
      · exact (List.prefix_append_right_inj out').2 hp
      · rw [f6 (hs.clean d)]
        simp

theorem failT_value (ryu : F64 → Bytes) (n : Name) (ls : Labels) (v : MValue) (hl : LabelsOk ls) :
    FailT (textValue ryu n ls v) (textValue ryu n ls v) := by
  have e : ∀ (W : Type) [Write W], (textValue ryu n ls v : RS (TextEnc W) Unit) = (do
      setState .metrics
      onWriter n.encodeUtf8
      (onWriter (visitLabels ryu true ls) >>= textClose)
      onWriter (writeAll b!" ")
      textNumber ryu v
      onWriter (writeAll b!"\n")) := by
    intro W _
    unfold textValue
    rw [rs_assoc]
  rw [e, e]
  exact failT_bind (failT_setState _) fun _ => failT_bind (failT_lift (partW_name n)) fun _ =>
    failT_bind (failT_labels ryu ls hl) fun _ => failT_bind (failT_write _) fun _ => failT_bind (failT_number _ _) fun _ =>
      failT_write _

theorem failT_buckets (m : Mode) (ryu : F64 → Bytes) (n : Name) (ls : Labels) (hl : LabelsOk ls) :
    ∀ (les : List F64) (bs : List Nat) (val : Nat),
      FailT (textBuckets m ryu n ls les bs val) (textBuckets m ryu n ls les bs val) := by
  intro les
  induction les with
  | nil => intro bs val; cases bs <;> exact failT_pure _
  | cons le les ih =>
    intro bs val
    cases bs with
    | nil => exact failT_pure _
    | cons b bs => exact failT_bind (failT_out _) fun _ => failT_bind (failT_value _ _ _ _ (labelNames_le hl le)) fun _ => ih _ _

theorem failT_run (m : Mode) (ryu : F64 → Bytes) (c : EncCall) (hl : ∀ x ls n, c = .sample x ls n → LabelsOk ls) :
    FailT ((textEncoder m ryu).run c) ((textEncoder m ryu).run c) := by
  cases c with
  | help n t =>
    exact failT_bind failT_sep fun _ => failT_bind (failT_setState _) fun _ => failT_bind (failT_write _) fun _ =>
      failT_bind (failT_lift (partW_name n)) fun _ => failT_bind (failT_write _) fun _ => failT_bind (failT_write _) fun _ =>
        failT_write _
  | type k n =>
    exact failT_bind failT_sep fun _ => failT_bind (failT_setState _) fun _ => failT_bind (failT_write _) fun _ =>
      failT_bind (failT_lift (partW_name n)) fun _ => failT_write _
  | sample x ls n =>
    replace hl := hl x ls n rfl
    cases x with
    | histogram le h =>
      exact failT_bind (failT_buckets m ryu n ls hl le h.buckets 0) fun _ =>
        failT_bind (failT_out _) fun _ => failT_bind (failT_value _ _ _ _ (labelNames_le hl _)) fun _ =>
          failT_bind (failT_value _ _ _ _ hl) fun _ => failT_value _ _ _ _ hl
    | _ => exact failT_value _ _ _ _ hl

theorem failT_runAll (m : Mode) (ryu : F64 → Bytes) (cs : List EncCall)
    (hl : ∀ c ∈ cs, ∀ x ls n, c = .sample x ls n → LabelsOk ls) :
    FailT ((textEncoder m ryu).runAll cs) ((textEncoder m ryu).runAll cs) := by
  induction cs with
  | nil => exact failT_pure ()
  | cons c cs ih => exact failT_bind (failT_run m ryu c (hl c (by simp))) fun _ => ih fun x hx => hl x (by simp [hx])

/-! ## When the encoder panics -/

theorem addU_overflow_debug {a b : Nat} (h : W64 ≤ a + b) : addU .debug a b = .panic := by
  unfold addU
  rw [if_neg (by omega)]

theorem addU_wraps (a b : Nat) : ∃ v, addU .release a b = .ok v := by
  unfold addU
  split
  · exact ⟨_, rfl⟩
  · exact ⟨_, rfl⟩

theorem textBuckets_debug (ryu : F64 → Bytes) (n : Name) (ls : Labels) :
    ∀ (les : List F64) (bs : List Nat) (val : Nat) (e : TextEnc Bytes), val < W64 →
      (val + (bs.take les.length).sum < W64 →
        (textBuckets .debug ryu n ls les bs val e).1 = .ok (val + (bs.take les.length).sum)) ∧
      (W64 ≤ val + (bs.take les.length).sum → (textBuckets .debug ryu n ls les bs val e).1 = .panic) := by
  intro les
  induction les with
  | nil => intro bs val e hv; exact ⟨fun _ => by simp [textBuckets], fun h => by simp at h; omega⟩
  | cons le les ih =>
    intro bs val e hv
    cases bs with
    | nil => exact ⟨fun _ => by simp [textBuckets], fun h => by simp at h; omega⟩
    | cons b bs =>
      simp only [List.length_cons, List.take_succ_cons, List.sum_cons, textBuckets]
      by_cases hb : val + b < W64
      · have h1 : RS.lift (addU .debug val b) e = (.ok (val + b), e) := by rw [addU_ok hb]; rfl
        rw [RS.bind_ok h1, RS.bind_ok (textValue_bytes _ _ _ _ _)]
        rw [← Nat.add_assoc]
        exact ih bs (val + b) _ hb
      · refine ⟨fun h => by omega, fun _ => ?_⟩
        rw [RS.bind_run, show RS.lift (addU .debug val b) e = (.panic, e) by rw [addU_overflow_debug (by omega)]; rfl]

theorem textBuckets_release (ryu : F64 → Bytes) (n : Name) (ls : Labels) :
    ∀ (les : List F64) (bs : List Nat) (val : Nat) (e : TextEnc Bytes),
      ∃ v, (textBuckets .release ryu n ls les bs val e).1 = .ok v := by
  intro les
  induction les with
  | nil => intro bs val e; exact ⟨val, by simp [textBuckets]⟩
  | cons le les ih =>
    intro bs val e
    cases bs with
    | nil => exact ⟨val, by simp [textBuckets]⟩
    | cons b bs =>
      obtain ⟨v, hv⟩ := addU_wraps val b
      simp only [textBuckets]
      rw [RS.bind_ok (show RS.lift (addU .release val b) e = (.ok v, e) by rw [hv]; rfl), RS.bind_ok (textValue_bytes _ _ _ _ _)]
      exact ih bs v _

theorem run_bytes_result (m : Mode) (ryu : F64 → Bytes) (c : EncCall) (e : TextEnc Bytes) :
    ((m = .debug ∧ Overflows c) → ((textEncoder m ryu).run c e).1 = .panic) ∧
      (¬ (m = .debug ∧ Overflows c) → ((textEncoder m ryu).run c e).1 = .ok ()) := by
  have hsep : ∀ e : TextEnc Bytes, ∃ e', textSep e = (.ok (), e') := by
    intro e
    obtain ⟨st, b⟩ := e
    cases st
    · exact ⟨_, rfl⟩
    · exact ⟨_, rfl⟩
  have hname : ∀ (n : Name) (e : TextEnc Bytes), onWriter n.encodeUtf8 e = (.ok (), ⟨e.state, e.writer ++ n.render⟩) :=
    fun n e => onWriter_bytes (Name.encodeUtf8_bytes n e.writer)
  have hw : ∀ (t : Bytes) (e : TextEnc Bytes), onWriter (writeAll t) e = (.ok (), ⟨e.state, e.writer ++ t⟩) :=
    fun t e => onWriter_bytes (writeAll_bytes t e.writer)
  cases c with
  | help n t =>
    refine ⟨fun h => h.2.elim, fun _ => ?_⟩
    obtain ⟨e1, h1⟩ := hsep e
    show (textHelp n t e).1 = _
    unfold textHelp
    simp only [RS.bind_run, h1, setState, hw, hname]
  | type k n =>
    refine ⟨fun h => h.2.elim, fun _ => ?_⟩
    obtain ⟨e1, h1⟩ := hsep e
    show (textType n (textKind k) e).1 = _
    unfold textType
    simp only [RS.bind_run, h1, setState, hw, hname]
  | sample x ls n =>
    cases x with
    | counter c => exact ⟨fun h => h.2.elim, fun _ => congrArg Prod.fst (textValue_bytes ryu n ls (.int (asI64 c)) e)⟩
    | gauge c => exact ⟨fun h => h.2.elim, fun _ => congrArg Prod.fst (textValue_bytes ryu n ls (.int c) e)⟩
    | floatGauge c => exact ⟨fun h => h.2.elim, fun _ => congrArg Prod.fst (textValue_bytes ryu n ls (.float c) e)⟩
    | histogram le h =>
      show (_ → (textHistogram m ryu le h ls n e).1 = _) ∧ (_ → (textHistogram m ryu le h ls n e).1 = _)
      have hov : Overflows (.sample (.histogram le h) ls n) ↔ W64 ≤ (h.buckets.take le.length).sum + h.inf := by
        rw [W64_eq]; exact Iff.rfl
      rw [hov]
      unfold textHistogram
      simp only [HistInner.sample]
      cases m with
      | release =>
        refine ⟨fun h => by simp at h, fun _ => ?_⟩
        obtain ⟨v, hv⟩ := textBuckets_release ryu n ls le h.buckets 0 e
        obtain ⟨u, hu⟩ := addU_wraps v h.inf
        rcases hb : textBuckets .release ryu n ls le h.buckets 0 e with ⟨o, e1⟩
        rw [hb] at hv
        simp only at hv
        subst hv
        rw [RS.bind_ok hb, RS.bind_ok (show RS.lift (addU .release v h.inf) e1 = (.ok u, e1) by rw [hu]; rfl),
          RS.bind_ok (textValue_bytes _ _ _ _ _), RS.bind_ok (textValue_bytes _ _ _ _ _), textValue_bytes]
      | debug =>
        obtain ⟨g1, g2⟩ := textBuckets_debug ryu n ls le h.buckets 0 e (by decide)
        rw [Nat.zero_add] at g1 g2
        rcases hb : textBuckets .debug ryu n ls le h.buckets 0 e with ⟨o, e1⟩
        rw [hb] at g1 g2
        simp only at g1 g2
        simp only [true_and, Nat.not_le]
        by_cases hs : (h.buckets.take le.length).sum < W64
        · have := g1 hs
          subst this
          rw [RS.bind_ok hb]
          constructor
          · intro h'
            rw [RS.bind_run, show RS.lift (addU .debug _ h.inf) e1 = (.panic, e1) by rw [addU_overflow_debug h']; rfl]
          · intro h'
            rw [RS.bind_ok (show RS.lift (addU .debug _ h.inf) e1 = (.ok _, e1) by rw [addU_ok h']; rfl),
              RS.bind_ok (textValue_bytes _ _ _ _ _), RS.bind_ok (textValue_bytes _ _ _ _ _), textValue_bytes]
        · have := g2 (by omega)
          subst this
          exact ⟨fun _ => by rw [RS.bind_run, hb], fun h' => by omega⟩

theorem runAll_bytes_result (m : Mode) (ryu : F64 → Bytes) : ∀ (cs : List EncCall) (e : TextEnc Bytes),
    ((m = .debug ∧ ∃ c ∈ cs, Overflows c) → ((textEncoder m ryu).runAll cs e).1 = .panic) ∧
      (¬ (m = .debug ∧ ∃ c ∈ cs, Overflows c) → ((textEncoder m ryu).runAll cs e).1 = .ok ()) := by
  intro cs
  induction cs with
  | nil => intro e; exact ⟨fun ⟨_, _, h, _⟩ => by simp at h, fun _ => rfl⟩
  | cons c cs ih =>
    intro e
    obtain ⟨h1, h2⟩ := run_bytes_result m ryu c e
    rcases hr : (textEncoder m ryu).run c e with ⟨o, e1⟩
    rw [hr] at h1 h2
    simp only [Encoder.runAll, RS.bind_run, hr]
    by_cases ho : m = .debug ∧ Overflows c
    · have := h1 ho
      simp only at this
      subst this
      exact ⟨fun _ => rfl, fun h => absurd ⟨ho.1, c, by simp, ho.2⟩ h⟩
    · have := h2 ho
      simp only at this
      subst this
      refine ⟨fun ⟨hm, d, hd, hov⟩ => (ih e1).1 ⟨hm, d, ?_, hov⟩, fun h => (ih e1).2 fun ⟨hm, d, hd, hov⟩ => h ⟨hm, d, by simp [hd], hov⟩⟩
      rcases List.mem_cons.1 hd with rfl | hd
      · exact absurd ⟨hm, hov⟩ ho
      · exact hd

end Measured
