import Verif.Proof.ProtoCalls
import Verif.Proof.TextSink

/-! The protobuf encoder over a writer that may fail, compared with the protobuf encoder over a buffer. -/

namespace Measured.Proto
open Measured.Spec

/-- Both do the same, or the fallible one stops with an error after a call of its writer that failed; then it has accepted a
part of what the other one gets. -/
def SimP {α : Type} (x : RS (ProtoEnc Sink) α) (y : RS (ProtoEnc Bytes) α) : Prop :=
  ∀ st s w buf, ∃ o out st' buf', y ⟨st, w, buf⟩ = (o, ⟨st', w ++ out, buf'⟩) ∧
    ((∃ s', x ⟨st, s, buf⟩ = (o, ⟨st', s', buf'⟩) ∧ s'.out = s.out ++ out ∧ After s s') ∨
     ∃ st₁ s₁ buf₁ p, x ⟨st, s, buf⟩ = (.err, ⟨st₁, s₁, buf₁⟩) ∧ s₁.out = s.out ++ p ∧ p <+: out ∧ After s s₁ ∧ Dirty s s₁)

theorem simP_pure {α : Type} {x : RS (ProtoEnc Sink) α} {y : RS (ProtoEnc Bytes) α}
    (h : ∀ st s w buf, ∃ o st' buf', y ⟨st, w, buf⟩ = (o, ⟨st', w, buf'⟩) ∧ x ⟨st, s, buf⟩ = (o, ⟨st', s, buf'⟩)) :
    SimP x y := by
  intro st s w buf
  obtain ⟨o, st', buf', h1, h2⟩ := h st s w buf
  exact ⟨o, [], st', buf', by rw [h1, List.append_nil], .inl ⟨s, h2, by simp, .refl s⟩⟩

theorem simP_bind {α β : Type} {x : RS (ProtoEnc Sink) α} {y : RS (ProtoEnc Bytes) α} {f : α → RS (ProtoEnc Sink) β}
    {g : α → RS (ProtoEnc Bytes) β} (h : SimP x y) (hf : ∀ a, SimP (f a) (g a)) : SimP (x >>= f) (y >>= g) := by
  intro st s w buf
  obtain ⟨o, out, st', buf', e1, h1 | ⟨st₁, s₁, buf₁, p, h1, h2, h3, h4, h5⟩⟩ := h st s w buf
  · obtain ⟨s', h1, h2, h3⟩ := h1
    cases o with
    | ok a =>
      obtain ⟨o', out', st2, buf2, e2, h4 | ⟨st₁, s₁, buf₁, p, h4, h5, h6, h7, h8⟩⟩ := hf a st' s' (w ++ out) buf'
      · obtain ⟨s2, h4, h5, h6⟩ := h4
        refine ⟨o', out ++ out', st2, buf2, ?_, .inl ⟨s2, ?_, ?_, h3.trans h6⟩⟩
        · rw [RS.bind_ok e1, e2, List.append_assoc]
        · rw [RS.bind_ok h1, h4]
        · rw [h5, h2, List.append_assoc]
      · refine ⟨o', out ++ out', st2, buf2, ?_, .inr ⟨st₁, s₁, buf₁, out ++ p, ?_, ?_, ?_, h3.trans h7, .right h3 h8⟩⟩
        · rw [RS.bind_ok e1, e2, List.append_assoc]
        · rw [RS.bind_ok h1, h4]
        · rw [h5, h2, List.append_assoc]
        · exact (List.prefix_append_right_inj out).2 h6
    | err =>
      exact ⟨.err, out, st', buf', by rw [RS.bind_run, e1], .inl ⟨s', by rw [RS.bind_run, h1], h2, h3⟩⟩
    | panic =>
      exact ⟨.panic, out, st', buf', by rw [RS.bind_run, e1], .inl ⟨s', by rw [RS.bind_run, h1], h2, h3⟩⟩
  · cases o with
    | ok a =>
      obtain ⟨o', out', st2, buf2, e2, _⟩ := hf a st' s (w ++ out) buf'
      refine ⟨o', out ++ out', st2, buf2, ?_, .inr ⟨st₁, s₁, buf₁, p, by rw [RS.bind_run, h1], h2,
        h3.trans (List.prefix_append _ _), h4, h5⟩⟩
      rw [RS.bind_ok e1, e2, List.append_assoc]
    | err => exact ⟨.err, out, st', buf', by rw [RS.bind_run, e1], .inr ⟨st₁, s₁, buf₁, p, by rw [RS.bind_run, h1], h2, h3, h4, h5⟩⟩
    | panic =>
      exact ⟨.panic, out, st', buf', by rw [RS.bind_run, e1], .inr ⟨st₁, s₁, buf₁, p, by rw [RS.bind_run, h1], h2, h3, h4, h5⟩⟩

theorem simP_write (t : Bytes) : SimP (onProtoWriter (writeAll t)) (onProtoWriter (writeAll t)) := by
  intro st s w buf
  refine ⟨.ok (), t, st, buf, rfl, ?_⟩
  cases h : s.fail s.calls with
  | none =>
    refine .inl ⟨⟨s.out ++ t, s.calls + 1, s.fail⟩, ?_, rfl, rfl, Nat.le_succ _⟩
    simp [onProtoWriter, writeAll, h]
  | some k =>
    refine .inr ⟨st, ⟨s.out ++ t.take k, s.calls + 1, s.fail⟩, buf, t.take k, ?_, rfl, List.take_prefix _ _,
      ⟨rfl, Nat.le_succ _⟩, s.calls, Nat.le_refl _, Nat.lt_succ_self _, by rw [h]; simp⟩
    simp [onProtoWriter, writeAll, h]

theorem simP_setPState (p : PState) : SimP (setPState p) (setPState p) :=
  simP_pure fun _ _ _ buf => ⟨.ok (), p, buf, rfl, rfl⟩

theorem simP_setBuf (b : Bytes) : SimP (setBuf b) (setBuf b) := simP_pure fun st _ _ _ => ⟨.ok (), st, b, rfl, rfl⟩

theorem simP_getBuf : SimP getBuf getBuf := simP_pure fun st _ _ buf => ⟨.ok buf, st, buf, rfl, rfl⟩

theorem simP_getPState : SimP getPState getPState := simP_pure fun st _ _ buf => ⟨.ok st, st, buf, rfl, rfl⟩

theorem simP_append (b : Bytes) : SimP (Proto.append b) (Proto.append b) :=
  simP_pure fun st _ _ buf => ⟨.ok (), st, buf ++ b, rfl, rfl⟩

theorem simP_lift {α : Type} (o : Out α) : SimP (RS.lift o) (RS.lift o) := simP_pure fun st _ _ buf => ⟨o, st, buf, rfl, rfl⟩

theorem simP_ok : SimP (pure ()) (pure ()) := simP_pure fun st _ _ buf => ⟨.ok (), st, buf, rfl, rfl⟩

theorem simP_panic {α : Type} : SimP (α := α) RS.panic RS.panic := simP_pure fun st _ _ buf => ⟨.panic, st, buf, rfl, rfl⟩

theorem simP_flushBuf (m : Mode) : SimP (flushBuf m) (flushBuf m) := by
  refine simP_bind simP_getPState fun s => simP_bind ?_ fun _ => simP_bind simP_getBuf fun b => simP_lift _
  unfold flushBranch
  split
  · exact simP_bind (simP_setPState _) fun _ => simP_bind simP_getBuf fun b => simP_bind (simP_lift _) fun r =>
      simP_bind (simP_setBuf _) fun _ => simP_bind (simP_write _) fun _ => simP_setBuf _
  · refine simP_bind simP_getBuf fun b => ?_
    split
    · exact simP_setBuf _
    · exact simP_ok

theorem simP_run (m : Mode) (ryu : F64 → Bytes) (c : EncCall) : SimP ((protoEncoder m ryu).run c) ((protoEncoder m ryu).run c) := by
  have hv : ∀ t x ls, SimP (protoValue m ryu t x ls) (protoValue m ryu t x ls) := fun t x ls =>
    simP_bind (simP_setPState _) fun _ => simP_bind (simP_lift _) fun _ => simP_append _
  have ht : ∀ k n, SimP (protoTypeCode m k n) (protoTypeCode m k n) := by
    intro k n
    refine simP_bind (simP_flushBuf m) fun _ => simP_bind simP_getPState fun s => simP_bind ?_ fun _ => simP_append _
    unfold nameIfInit
    split
    · exact simP_bind (simP_lift _) fun _ => simP_append _
    · exact simP_ok
  cases c with
  | help n t =>
    exact simP_bind (simP_flushBuf m) fun _ => simP_bind (simP_lift _) fun _ => simP_bind (simP_append _) fun _ =>
      simP_bind (simP_append _) fun _ => simP_setPState _
  | type k n =>
    cases k with
    | histogram => exact simP_panic
    | _ => exact ht _ n
  | sample x ls n =>
    cases x with
    | histogram => exact simP_panic
    | _ => exact hv _ _ ls

theorem simP_runAll (m : Mode) (ryu : F64 → Bytes) (cs : List EncCall) :
    SimP ((protoEncoder m ryu).runAll cs) ((protoEncoder m ryu).runAll cs) := by
  induction cs with
  | nil => exact simP_ok
  | cons c cs ih => exact simP_bind (simP_run m ryu c) fun _ => ih

/-- What is pending before and after a write that fails. -/
theorem flush_fails (m : Mode) (s : Sink) (pre body : Bytes) (hp : pre.length = 10) (hb : body.length < 2 ^ 64)
    {e : ProtoEnc Sink} (h : flushBuf m ⟨.metrics, s, pre ++ body⟩ = (.err, e)) :
    e.state = .init ∧ ∃ pre' : Bytes, pre'.length = 10 ∧ e.buf = pre' ++ body := by
  have hbd := encodedLenVarint_bounds body.length hb
  have hl := encodeVarint_length body.length hb
  set r := pre.take (10 - encodedLenVarint body.length) ++ frame body with hr
  have hd : r.drop (10 - encodedLenVarint body.length) = encodeVarint body.length ++ body := by
    rw [hr, List.drop_append_of_le_length (by simp; omega), List.drop_of_length_le (by simp)]
    rfl
  have hr10 : (resize r 10).length = 10 := by
    have : 10 ≤ r.length := by
      rw [hr]; simp [frame]; omega
    simp [resize]; omega
  have he : r = (pre.take (10 - encodedLenVarint body.length) ++ encodeVarint body.length) ++ body := by
    rw [hr, frame, List.append_assoc]
  rcases hw : (writeAll (encodeVarint body.length ++ body) : RS Sink Unit) s with ⟨o, s'⟩
  simp only [flushBuf, RS.bind_run, getPState, flushBranch, if_true, flushMetrics, setPState, getBuf, RS.lift_run,
    framedBuf_eq m pre body hp hb, setBuf, onProtoWriter, ← hr, hd, hw] at h
  cases o with
  | ok u =>
    simp only [hr10] at h
    cases m <;> simp [debugAssert] at h
  | err =>
    simp only [Prod.mk.injEq, true_and] at h
    subst h
    exact ⟨rfl, _, by simp [hp]; omega, he⟩
  | panic => simp at h

end Measured.Proto
