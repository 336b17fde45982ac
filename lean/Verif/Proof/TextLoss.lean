import Verif.Spec.TextLoss
import Verif.Proof.TextSink
import Verif.Proof.TextRead

/-! The text encoder over a writer that fails now and then: what is lost although the result is `Ok`. -/

namespace Measured
open Spec

theorem lost_append {a a' c c' : Bytes} (h : LabelBytesLost a a') (h' : LabelBytesLost c c') :
    LabelBytesLost (a ++ c) (a' ++ c') := by
  induction h' with
  | nil => simpa using h
  | same t _ ih => rw [← List.append_assoc, ← List.append_assoc]; exact ih.same t
  | labels _ hl hn ih =>
    have := ih.labels hl hn
    simpa only [List.append_assoc] using this

theorem lost_refl (t : Bytes) : LabelBytesLost t t := by simpa using LabelBytesLost.nil.same t

/-! ## Writer level -/

/-- On a buffer: always `Ok`. On a sink: the same, or an error after part of the bytes. -/
def PartW (x : RS Sink Unit) (y : RS Bytes Unit) : Prop :=
  ∀ s, ∃ out, (∀ b, y b = (.ok (), b ++ out)) ∧
    ((∃ s', x s = (.ok (), s') ∧ After s s' ∧ s'.out = s.out ++ out) ∨
     (∃ s' out', x s = (.err, s') ∧ After s s' ∧ Dirty s s' ∧ s'.out = s.out ++ out' ∧ out' <+: out))

theorem partW_writeAll (t : Bytes) : PartW (writeAll t) (writeAll t) := by
  intro s
  refine ⟨t, fun _ => rfl, ?_⟩
  simp only [writeAll]
  cases h : s.fail s.calls with
  | none => exact .inl ⟨_, rfl, ⟨rfl, Nat.le_succ _⟩, rfl⟩
  | some k => exact .inr ⟨_, t.take k, rfl, ⟨rfl, Nat.le_succ _⟩, ⟨s.calls, Nat.le_refl _, Nat.lt_succ_self _, by rw [h]; simp⟩, rfl,
      List.take_prefix _ _⟩

theorem partW_bind {x : RS Sink Unit} {y : RS Bytes Unit} {f : Unit → RS Sink Unit} {g : Unit → RS Bytes Unit}
    (h : PartW x y) (hf : ∀ a, PartW (f a) (g a)) (hy : ∃ out, ∀ b, (g ()) b = (.ok (), b ++ out)) :
    PartW (x >>= f) (y >>= g) := by
  intro s
  obtain ⟨out, e, ⟨s1, h1, ha, ho⟩ | ⟨s1, out', h1, ha, d, ho, hp⟩⟩ := h s
  · obtain ⟨out2, e2, ⟨s2, h2, hb, ho2⟩ | ⟨s2, out2', h2, hb, d, ho2, hp⟩⟩ := hf () s1
    · refine ⟨out ++ out2, fun b => by rw [RS.bind_ok (e b), e2, List.append_assoc], .inl ⟨s2, ?_, ha.trans hb, ?_⟩⟩
      · rw [RS.bind_ok h1, h2]
      · rw [ho2, ho, List.append_assoc]
    · refine ⟨out ++ out2, fun b => by rw [RS.bind_ok (e b), e2, List.append_assoc],
        .inr ⟨s2, out ++ out2', ?_, ha.trans hb, .right ha d, ?_, ?_⟩⟩
      · rw [RS.bind_ok h1, h2]
      · rw [ho2, ho, List.append_assoc]
      · exact (List.prefix_append_right_inj out).2 hp
  · obtain ⟨out2, e2⟩ := hy
    refine ⟨out ++ out2, fun b => by rw [RS.bind_ok (e b), e2, List.append_assoc],
      .inr ⟨s1, out', by rw [RS.bind_run, h1], ha, d, ho, hp.trans (List.prefix_append _ _)⟩⟩

theorem PartW.always {x : RS Sink Unit} {y : RS Bytes Unit} (h : PartW x y) : ∃ out, ∀ b, y b = (.ok (), b ++ out) := by
  obtain ⟨out, e, _⟩ := h ⟨[], 0, fun _ => none⟩
  exact ⟨out, e⟩

theorem PartW.then {x : RS Sink Unit} {y : RS Bytes Unit} {f : Unit → RS Sink Unit} {g : Unit → RS Bytes Unit}
    (h : PartW x y) (hf : PartW (f ()) (g ())) : PartW (x >>= f) (y >>= g) :=
  partW_bind h (fun _ => hf) hf.always

theorem partW_labelStrLoop (s : Bytes) (i : Nat) (js : List Nat)
    (h : ∀ j ∈ js, s[j]? = some 0x5c ∨ s[j]? = some 0x22 ∨ s[j]? = some 0x0a) :
    PartW (labelStrLoop s i js) (labelStrLoop s i js) := by
  induction js generalizing i with
  | nil => exact partW_writeAll _
  | cons j js ih =>
    refine (partW_writeAll _).then (PartW.then ?_ (ih _ fun x hx => h x (by simp [hx])))
    rcases h j (by simp) with h | h | h <;> rw [h]
    · exact partW_writeAll b!"\\\\"
    · exact partW_writeAll b!"\\\""
    · exact partW_writeAll b!"\\n"

theorem partW_visitorStr (s : Bytes) : PartW (visitorStr s) (visitorStr s) := by
  refine (partW_writeAll _).then (PartW.then ?_ (partW_writeAll _))
  refine partW_labelStrLoop s 0 _ fun j hj => ?_
  simpa [specialPositions, or_assoc] using (List.mem_filter.1 hj).2

theorem partW_groupValue (ryu : F64 → Bytes) (first : Bool) (n : Bytes) (x : LVal) :
    PartW (groupValue ryu first n x) (groupValue ryu first n x) := by
  refine PartW.then ?_ ((partW_writeAll _).then ?_)
  · cases first <;> exact partW_writeAll _
  · cases x <;> exact partW_visitorStr _

/-- Labels on a sink: always `Ok`, with the `first` a buffer gives, and with part of the bytes. -/
theorem part_visitLabels (ryu : F64 → Bytes) (ls : Labels) : ∀ (first : Bool) (s : Sink), ∃ r out s' out',
    (∀ b : Bytes, visitLabels ryu first ls b = (.ok r, b ++ out)) ∧ visitLabels ryu first ls s = (.ok r, s') ∧ After s s' ∧
      s'.out = s.out ++ out' ∧ out'.Sublist out ∧ (¬ Dirty s s' → out' = out) := by
  induction ls with
  | nil =>
    intro first s
    exact ⟨first, [], s, [], fun b => by simp [visitLabels], rfl, .refl s, by simp, List.Sublist.refl _, fun _ => rfl⟩
  | cons l ls ih =>
    intro first s
    obtain ⟨n, x⟩ := l
    obtain ⟨out, e, ⟨s1, h1, ha, ho⟩ | ⟨s1, out', h1, ha, d, ho, hp⟩⟩ := partW_groupValue ryu first n x s
    · obtain ⟨r, out2, s2, out2', f1, f2, hb, f3, f4, f5⟩ := ih false s1
      refine ⟨r, out ++ out2, s2, out ++ out2', fun b => ?_, ?_, ha.trans hb, ?_, ?_, fun hd => ?_⟩
      · simp only [visitLabels, e]; rw [f1, List.append_assoc]
      · simp only [visitLabels, h1]; exact f2
      · rw [f3, ho, List.append_assoc]
      · exact List.Sublist.append_left f4 _
      · rw [f5 fun h => hd (h.right ha)]
    · obtain ⟨r, out2, s2, out2', f1, f2, hb, f3, f4, f5⟩ := ih false s1
      refine ⟨r, out ++ out2, s2, out' ++ out2', fun b => ?_, ?_, ha.trans hb, ?_, ?_, fun hd => absurd (d.left hb) hd⟩
      · simp only [visitLabels, e]; rw [f1, List.append_assoc]
      · simp only [visitLabels, h1]; exact f2
      · rw [f3, ho, List.append_assoc]
      · exact hp.sublist.append f4

/-! ## Encoder level -/

/-- If the sink gives `Ok`, the buffer gives the same, and the sink took all bytes but some of the labels. -/
def LossT {α : Type} (x : RS (TextEnc Sink) α) (y : RS (TextEnc Bytes) α) : Prop :=
  ∀ st s a e, x ⟨st, s⟩ = (.ok a, e) → ∃ out out', (∀ b, y ⟨st, b⟩ = (.ok a, ⟨e.state, b ++ out⟩)) ∧
    e.writer.out = s.out ++ out' ∧ After s e.writer ∧ LabelBytesLost out out' ∧ (¬ Dirty s e.writer → out' = out)

theorem lossT_lift {α : Type} {x : RS Sink α} {y : RS Bytes α} (h : SimW x y) : LossT (onWriter x) (onWriter y) := by
  intro st s a e he
  have key : ∀ b, ∃ out, onWriter y ⟨st, b⟩ = (.ok a, ⟨e.state, b ++ out⟩) ∧ e.writer.out = s.out ++ out ∧ After s e.writer := by
    intro b
    obtain ⟨s1, ha, h1 | ⟨h1, _⟩ | ⟨h1, _⟩⟩ := h s b
    · obtain ⟨a', out, e1, e2, e3⟩ := h1
      simp only [onWriter, e1, Prod.mk.injEq, Out.ok.injEq] at he
      obtain ⟨rfl, rfl⟩ := he
      exact ⟨out, by simp only [onWriter, e2], e3, ha⟩
    · simp only [onWriter, h1] at he; cases he
    · simp only [onWriter, h1] at he; cases he
  obtain ⟨out, _, ho, ha⟩ := key []
  refine ⟨out, out, fun b => ?_, ho, ha, lost_refl _, fun _ => rfl⟩
  obtain ⟨out2, h2, ho2, _⟩ := key b
  rw [ho] at ho2
  rw [h2, List.append_cancel_left ho2]

theorem lossT_write (t : Bytes) : LossT (onWriter (writeAll t)) (onWriter (writeAll t)) := lossT_lift (simW_writeAll t)

theorem lossT_out {α : Type} (o : Out α) : LossT (RS.lift o) (RS.lift o) := by
  intro st s a e he
  simp only [RS.lift, Prod.mk.injEq] at he
  obtain ⟨rfl, rfl⟩ := he
  exact ⟨[], [], fun b => by simp [RS.lift], by simp, .refl s, .nil, fun _ => rfl⟩

theorem lossT_pure {α : Type} (a : α) : LossT (pure a) (pure a) := lossT_out (.ok a)

theorem lossT_setState (st : TState) : LossT (setState st) (setState st) := by
  intro st' s a e he
  simp only [setState, Prod.mk.injEq] at he
  obtain ⟨_, rfl⟩ := he
  exact ⟨[], [], fun b => by simp [setState], by simp, .refl s, .nil, fun _ => rfl⟩

theorem lossT_bind {α β : Type} {x : RS (TextEnc Sink) α} {y : RS (TextEnc Bytes) α} {f : α → RS (TextEnc Sink) β}
    {g : α → RS (TextEnc Bytes) β} (h : LossT x y) (hf : ∀ a, LossT (f a) (g a)) : LossT (x >>= f) (y >>= g) := by
  intro st s a e he
  rw [RS.bind_run] at he
  cases hx : x ⟨st, s⟩ with
  | mk o e1 =>
    rw [hx] at he
    cases o with
    | err => cases he
    | panic => cases he
    | ok c =>
      obtain ⟨out, out', h1, h2, h3, h4, h5⟩ := h st s c e1 hx
      obtain ⟨out2, out2', f1, f2, f3, f4, f5⟩ := hf c e1.state e1.writer a e he
      refine ⟨out ++ out2, out' ++ out2', fun b => ?_, ?_, h3.trans f3, lost_append h4 f4, fun hd => ?_⟩
      · rw [RS.bind_ok (h1 b), f1, List.append_assoc]
      · rw [f2, h2, List.append_assoc]
      · rw [h5 fun h => hd (h.left f3), f5 fun h => hd (h.right h3)]

theorem lossT_sep : LossT textSep textSep := by
  intro st s a e he
  cases st with
  | info => exact lossT_pure () .info s a e he
  | metrics => exact lossT_write b!"\n" .metrics s a e he

theorem lossT_number (ryu : F64 → Bytes) (v : MValue) : LossT (textNumber ryu v) (textNumber ryu v) := by
  cases v <;> exact lossT_write _

theorem lossT_end (ryu : F64 → Bytes) (v : MValue) :
    LossT (do onWriter (writeAll b!" "); textNumber ryu v; onWriter (writeAll b!"\n"))
      (do onWriter (writeAll b!" "); textNumber ryu v; onWriter (writeAll b!"\n")) :=
  lossT_bind (lossT_write _) fun _ => lossT_bind (lossT_number _ _) fun _ => lossT_write _

/-- The labels and the closing brace. -/
theorem lossT_labels (ryu : F64 → Bytes) (ls : Labels) (hl : LabelsOk ls) :
    LossT (onWriter (visitLabels ryu true ls) >>= textClose) (onWriter (visitLabels ryu true ls) >>= textClose) := by
  cases ls with
  | nil => exact fun st s a e he => lossT_pure () st s a e he
  | cons l ls =>
    intro st s a e he
    obtain ⟨r, out, s1, out', f1, f2, f3, f4, f5, f6⟩ := part_visitLabels ryu (l :: ls) true s
    have hv := f1 []
    rw [visitLabels_bytes] at hv
    simp only [Prod.mk.injEq, Out.ok.injEq, List.nil_append] at hv
    obtain ⟨rfl, rfl⟩ := hv
    have hx : onWriter (visitLabels ryu true (l :: ls)) (⟨st, s⟩ : TextEnc Sink) = (.ok false, ⟨st, s1⟩) := by
      simp only [onWriter, f2]
    rw [RS.bind_ok hx] at he
    obtain ⟨c, c', g1, g2, g3, _, g5⟩ := lossT_write b!"}" st s1 a e he
    have gc := g1 []
    simp only [onWriter, writeAll_bytes, Prod.mk.injEq, List.nil_append, TextEnc.mk.injEq] at gc
    obtain ⟨_, _, rfl⟩ := gc
    have hc' : c' = b!"}" := by
      obtain ⟨s2, _, h1 | ⟨h1, _⟩ | ⟨h1, _⟩⟩ := simW_writeAll b!"}" s1 []
      · obtain ⟨_, o2, e1, e2, e3⟩ := h1
        simp only [writeAll_bytes, Prod.mk.injEq, List.nil_append] at e2
        obtain ⟨_, rfl⟩ := e2
        change onWriter (writeAll b!"}") (⟨st, s1⟩ : TextEnc Sink) = _ at he
        simp only [onWriter, e1, Prod.mk.injEq] at he
        obtain ⟨_, rfl⟩ := he
        rw [e3] at g2
        exact (List.append_cancel_left g2).symm
      · change onWriter (writeAll b!"}") (⟨st, s1⟩ : TextEnc Sink) = _ at he
        simp only [onWriter, h1] at he; cases he
      · change onWriter (writeAll b!"}") (⟨st, s1⟩ : TextEnc Sink) = _ at he
        simp only [onWriter, h1] at he; cases he
    subst hc'
    have hnl : (0x0a : Byte) ∉ renderLabel ryu l ++ renderMore ryu ls := by
      intro hmem
      refine renderLabels_noNewline (ryu := ryu) hl 0x0a ?_ rfl
      simp only [renderLabels, List.mem_append] at hmem ⊢
      rcases hmem with h | h
      · exact .inl (.inl (.inr h))
      · exact .inl (.inr h)
    refine ⟨b!"{" ++ (renderLabel ryu l ++ renderMore ryu ls) ++ b!"}", out' ++ b!"}", fun b => ?_, ?_, f3.trans g3, ?_,
      fun hd => ?_⟩
    · rw [RS.bind_ok (onWriter_bytes (visitLabels_bytes _ _ _ _)), show textClose false = onWriter (writeAll b!"}") from rfl, g1]
      simp
    · rw [g2, f4, List.append_assoc]
    · have := LabelBytesLost.nil.labels (l := renderLabel ryu l ++ renderMore ryu ls) (l' := out')
        (by simpa using f5) hnl
      simpa using this
    · rw [f6 fun h => hd (h.left g3)]
      simp

theorem rs_assoc {σ α β γ : Type} (x : RS σ α) (f : α → RS σ β) (g : β → RS σ γ) :
    (x >>= f) >>= g = x >>= fun a => f a >>= g := by
  funext s
  simp only [RS.bind_run]
  cases x s with
  | mk o s' => cases o <;> rfl

theorem lossT_value (ryu : F64 → Bytes) (n : Name) (ls : Labels) (v : MValue) (hl : LabelsOk ls) :
    LossT (textValue ryu n ls v) (textValue ryu n ls v) := by
  have e : ∀ (W : Type) [Write W], (textValue ryu n ls v : RS (TextEnc W) Unit) = (do
      setState .metrics
      onWriter n.encodeUtf8
      (onWriter (visitLabels ryu true ls) >>= textClose)
      onWriter (writeAll b!" ")
      textNumber ryu v
      onWriter (writeAll b!"\n")) := by
    intro W _
    unfold textValue
    rw [rs_assoc]
  rw [e, e]
  exact lossT_bind (lossT_setState _) fun _ => lossT_bind (lossT_lift (simW_name n)) fun _ =>
    lossT_bind (lossT_labels ryu ls hl) fun _ => lossT_end ryu v

theorem labelNames_le {ls : Labels} (h : LabelsOk ls) (b : F64) : LabelsOk (ls ++ [(b!"le", .float b)]) := by
  intro l hl
  rcases List.mem_append.1 hl with hl | hl
  · exact h l hl
  · simp only [List.mem_singleton] at hl
    subst hl
    refine ⟨0x6c, b!"e", rfl, ⟨(0x61, 0x7a), by decide, by decide, by decide⟩, ?_⟩
    intro x hx
    refine ⟨(0x61, 0x7a), by decide, ?_⟩
    revert x
    decide

theorem lossT_buckets (m : Mode) (ryu : F64 → Bytes) (n : Name) (ls : Labels) (hl : LabelsOk ls) :
    ∀ (les : List F64) (bs : List Nat) (val : Nat),
      LossT (textBuckets m ryu n ls les bs val) (textBuckets m ryu n ls les bs val) := by
  intro les
  induction les with
  | nil => intro bs val; cases bs <;> exact lossT_pure _
  | cons le les ih =>
    intro bs val
    cases bs with
    | nil => exact lossT_pure _
    | cons b bs => exact lossT_bind (lossT_out _) fun _ => lossT_bind (lossT_value _ _ _ _ (labelNames_le hl le)) fun _ => ih _ _

theorem lossT_run (m : Mode) (ryu : F64 → Bytes) (c : EncCall) (hl : ∀ x ls n, c = .sample x ls n → LabelsOk ls) :
    LossT ((textEncoder m ryu).run c) ((textEncoder m ryu).run c) := by
  cases c with
  | help n t =>
    exact lossT_bind lossT_sep fun _ => lossT_bind (lossT_setState _) fun _ => lossT_bind (lossT_write _) fun _ =>
      lossT_bind (lossT_lift (simW_name n)) fun _ => lossT_bind (lossT_write _) fun _ => lossT_bind (lossT_write _) fun _ =>
        lossT_write _
  | type k n =>
    exact lossT_bind lossT_sep fun _ => lossT_bind (lossT_setState _) fun _ => lossT_bind (lossT_write _) fun _ =>
      lossT_bind (lossT_lift (simW_name n)) fun _ => lossT_write _
  | sample x ls n =>
    replace hl := hl x ls n rfl
    cases x with
    | histogram le h =>
      exact lossT_bind (lossT_buckets m ryu n ls hl le h.buckets 0) fun _ =>
        lossT_bind (lossT_out _) fun _ => lossT_bind (lossT_value _ _ _ _ (labelNames_le hl _)) fun _ =>
          lossT_bind (lossT_value _ _ _ _ hl) fun _ => lossT_value _ _ _ _ hl
    | _ => exact lossT_value _ _ _ _ hl

theorem lossT_runAll (m : Mode) (ryu : F64 → Bytes) (cs : List EncCall)
    (hl : ∀ c ∈ cs, ∀ x ls n, c = .sample x ls n → LabelsOk ls) :
    LossT ((textEncoder m ryu).runAll cs) ((textEncoder m ryu).runAll cs) := by
  induction cs with
  | nil => exact lossT_pure ()
  | cons c cs ih => exact lossT_bind (lossT_run m ryu c (hl c (by simp))) fun _ => ih fun x hx => hl x (by simp [hx])

end Measured
