import Verif.Proof.Text

/-! The text encoder over a writer that may fail, compared with the text encoder over a buffer. -/

namespace Measured

/-! ## Writer level -/

/-- A call between the two sinks failed. -/
def Dirty (s s' : Sink) : Prop := ∃ i, s.calls ≤ i ∧ i < s'.calls ∧ s.fail i ≠ none

/-- The sink after some calls. -/
def After (s s' : Sink) : Prop := s'.fail = s.fail ∧ s.calls ≤ s'.calls

theorem After.refl (s : Sink) : After s s := ⟨rfl, Nat.le_refl _⟩

theorem After.trans {s s' s'' : Sink} (h : After s s') (h' : After s' s'') : After s s'' :=
  ⟨h'.1.trans h.1, Nat.le_trans h.2 h'.2⟩

theorem Dirty.left {s s' s'' : Sink} (h : Dirty s s') (h' : After s' s'') : Dirty s s'' := by
  obtain ⟨i, h1, h2, h3⟩ := h
  exact ⟨i, h1, Nat.lt_of_lt_of_le h2 h'.2, h3⟩

theorem Dirty.right {s s' s'' : Sink} (h : After s s') (h' : Dirty s' s'') : Dirty s s'' := by
  obtain ⟨i, h1, h2, h3⟩ := h'
  exact ⟨i, Nat.le_trans h.2 h1, h2, by rw [← h.1]; exact h3⟩

/-- Either both do the same, or the fallible one stops with an error after a failed call, or both panic. -/
def SimW {α : Type} (x : RS Sink α) (y : RS Bytes α) : Prop :=
  ∀ s b, ∃ s', After s s' ∧
    ((∃ a out, x s = (.ok a, s') ∧ y b = (.ok a, b ++ out) ∧ s'.out = s.out ++ out) ∨
     (x s = (.err, s') ∧ Dirty s s') ∨
     (x s = (.panic, s') ∧ (y b).1 = .panic))

theorem simW_writeAll (t : Bytes) : SimW (writeAll t) (writeAll t) := by
  intro s b
  simp only [writeAll]
  cases h : s.fail s.calls with
  | none =>
    refine ⟨⟨s.out ++ t, s.calls + 1, s.fail⟩, ⟨rfl, Nat.le_succ _⟩, .inl ⟨(), t, ?_, rfl, rfl⟩⟩
    simp
  | some k =>
    refine ⟨⟨s.out ++ t.take k, s.calls + 1, s.fail⟩, ⟨rfl, Nat.le_succ _⟩, .inr (.inl ⟨?_, s.calls, ?_⟩)⟩
    · simp
    · exact ⟨Nat.le_refl _, Nat.lt_succ_self _, by rw [h]; simp⟩

theorem simW_panic {α : Type} : SimW (α := α) RS.panic RS.panic :=
  fun s _ => ⟨s, .refl s, .inr (.inr ⟨rfl, rfl⟩)⟩

theorem simW_bind {α β : Type} {x : RS Sink α} {y : RS Bytes α} {f : α → RS Sink β} {g : α → RS Bytes β}
    (h : SimW x y) (hf : ∀ a, SimW (f a) (g a)) : SimW (x >>= f) (y >>= g) := by
  intro s b
  obtain ⟨s1, ha, h1 | ⟨h1, d⟩ | ⟨h1, h2⟩⟩ := h s b
  · obtain ⟨a, out, e1, e2, e3⟩ := h1
    obtain ⟨s2, hb, h2 | ⟨h2, d⟩ | ⟨h2, h3⟩⟩ := hf a s1 (b ++ out)
    · obtain ⟨c, out', f1, f2, f3⟩ := h2
      refine ⟨s2, ha.trans hb, .inl ⟨c, out ++ out', ?_, ?_, ?_⟩⟩
      · rw [RS.bind_ok e1]; exact f1
      · rw [RS.bind_ok e2, f2, List.append_assoc]
      · rw [f3, e3, List.append_assoc]
    · exact ⟨s2, ha.trans hb, .inr (.inl ⟨by rw [RS.bind_ok e1]; exact h2, .right ha d⟩)⟩
    · refine ⟨s2, ha.trans hb, .inr (.inr ⟨by rw [RS.bind_ok e1]; exact h2, ?_⟩)⟩
      rw [RS.bind_ok e2]; exact h3
  · exact ⟨s1, ha, .inr (.inl ⟨by rw [RS.bind_run, h1], d⟩)⟩
  · refine ⟨s1, ha, .inr (.inr ⟨by rw [RS.bind_run, h1], ?_⟩)⟩
    rw [RS.bind_run]
    cases hy : y b with
    | mk o w =>
      rw [hy] at h2
      simp only at h2
      subst h2
      rfl

theorem simW_name (n : Name) : SimW n.encodeUtf8 n.encodeUtf8 := by
  induction n with
  | str s => exact simW_writeAll s
  | ns p inner ih => exact simW_bind (simW_writeAll _) fun _ => simW_bind (simW_writeAll _) fun _ => ih
  | suffix inner s ih => exact simW_bind ih fun _ => simW_writeAll _

theorem simW_writeEscape (b : Option Byte) : SimW (writeEscape b) (writeEscape b) := by
  unfold writeEscape
  by_cases h1 : b = some 0x5c
  · rw [if_pos h1, if_pos h1]; exact simW_writeAll _
  · by_cases h2 : b = some 0x22
    · rw [if_neg h1, if_neg h1, if_pos h2, if_pos h2]; exact simW_writeAll _
    · by_cases h3 : b = some 0x0a
      · rw [if_neg h1, if_neg h1, if_neg h2, if_neg h2, if_pos h3, if_pos h3]; exact simW_writeAll _
      · rw [if_neg h1, if_neg h1, if_neg h2, if_neg h2, if_neg h3, if_neg h3]; exact simW_panic

theorem simW_labelStrLoop (s : Bytes) (i : Nat) (js : List Nat) : SimW (labelStrLoop s i js) (labelStrLoop s i js) := by
  induction js generalizing i with
  | nil => exact simW_writeAll _
  | cons j js ih =>
    exact simW_bind (simW_writeAll _) fun _ => simW_bind (simW_writeEscape _) fun _ => ih _

theorem simW_visitorStr (s : Bytes) : SimW (visitorStr s) (visitorStr s) :=
  simW_bind (simW_writeAll _) fun _ => simW_bind (simW_labelStrLoop s 0 _) fun _ => simW_writeAll _

theorem simW_visitLabel (ryu : F64 → Bytes) (x : LVal) : SimW (visitLabel ryu x) (visitLabel ryu x) := by
  cases x <;> exact simW_visitorStr _

theorem simW_groupValue (ryu : F64 → Bytes) (first : Bool) (n : Bytes) (x : LVal) :
    SimW (groupValue ryu first n x) (groupValue ryu first n x) := by
  refine simW_bind ?_ fun _ => simW_bind (simW_writeAll _) fun _ => simW_visitLabel ryu x
  cases first <;> exact simW_writeAll _

/-- Labels: errors are dropped, so after a failed call the result is `Ok` all the same. -/
theorem sim_visitLabels (ryu : F64 → Bytes) (ls : Labels) : ∀ (first : Bool) (s : Sink) (b : Bytes), ∃ s', After s s' ∧
    ((∃ r out, visitLabels ryu first ls s = (.ok r, s') ∧ visitLabels ryu first ls b = (.ok r, b ++ out) ∧
        s'.out = s.out ++ out) ∨
     (∃ o, visitLabels ryu first ls s = (o, s') ∧ Dirty s s') ∨
     (visitLabels ryu first ls s = (.panic, s') ∧ (visitLabels ryu first ls b).1 = .panic)) := by
  induction ls with
  | nil => intro first s b; exact ⟨s, .refl s, .inl ⟨first, [], rfl, by simp [visitLabels], by simp⟩⟩
  | cons l ls ih =>
    intro first s b
    obtain ⟨n, x⟩ := l
    obtain ⟨s1, ha, h1 | ⟨h1, d⟩ | ⟨h1, h2⟩⟩ := simW_groupValue ryu first n x s b
    · obtain ⟨a, out, e1, e2, e3⟩ := h1
      obtain ⟨s2, hb, h2 | ⟨o, h2, d⟩ | ⟨h2, h3⟩⟩ := ih false s1 (b ++ out)
      · obtain ⟨r, out', f1, f2, f3⟩ := h2
        refine ⟨s2, ha.trans hb, .inl ⟨r, out ++ out', ?_, ?_, ?_⟩⟩
        · simp only [visitLabels, e1]; exact f1
        · simp only [visitLabels, e2]; rw [f2, List.append_assoc]
        · rw [f3, e3, List.append_assoc]
      · refine ⟨s2, ha.trans hb, .inr (.inl ⟨o, ?_, .right ha d⟩)⟩
        simp only [visitLabels, e1]; exact h2
      · refine ⟨s2, ha.trans hb, .inr (.inr ⟨?_, ?_⟩)⟩
        · simp only [visitLabels, e1]; exact h2
        · simp only [visitLabels, e2]; exact h3
    · obtain ⟨s2, hb, h2 | ⟨o, h2, _⟩ | ⟨h2, h3⟩⟩ := ih false s1 b
      · obtain ⟨r, out', f1, f2, f3⟩ := h2
        refine ⟨s2, ha.trans hb, .inr (.inl ⟨.ok r, ?_, d.left hb⟩)⟩
        simp only [visitLabels, h1]; exact f1
      · refine ⟨s2, ha.trans hb, .inr (.inl ⟨o, ?_, d.left hb⟩)⟩
        simp only [visitLabels, h1]; exact h2
      · refine ⟨s2, ha.trans hb, .inr (.inl ⟨.panic, ?_, d.left hb⟩)⟩
        simp only [visitLabels, h1]; exact h2
    · refine ⟨s1, ha, .inr (.inr ⟨by simp only [visitLabels, h1], ?_⟩)⟩
      simp only [visitLabels]
      cases hy : groupValue ryu first n x b with
      | mk o w =>
        rw [hy] at h2
        simp only at h2
        subst h2
        rfl

/-! ## Encoder level -/

/-- As `SimW`, but an error after a failed call is certain only for writers with property `P`. -/
def SimT {α : Type} (P : (Nat → Option Nat) → Prop) (x : RS (TextEnc Sink) α) (y : RS (TextEnc Bytes) α) : Prop :=
  ∀ st s b, ∃ s', After s s' ∧
    ((∃ a st' out, x ⟨st, s⟩ = (.ok a, ⟨st', s'⟩) ∧ y ⟨st, b⟩ = (.ok a, ⟨st', b ++ out⟩) ∧ s'.out = s.out ++ out) ∨
     (∃ o st', x ⟨st, s⟩ = (o, ⟨st', s'⟩) ∧ Dirty s s' ∧ (P s.fail → o = .err)) ∨
     (∃ st', x ⟨st, s⟩ = (.panic, ⟨st', s'⟩) ∧ (y ⟨st, b⟩).1 = .panic))

section
variable {P : (Nat → Option Nat) → Prop}

theorem simT_lift {α : Type} {x : RS Sink α} {y : RS Bytes α} (h : SimW x y) : SimT P (onWriter x) (onWriter y) := by
  intro st s b
  obtain ⟨s1, ha, h1 | ⟨h1, d⟩ | ⟨h1, h2⟩⟩ := h s b
  · obtain ⟨a, out, e1, e2, e3⟩ := h1
    exact ⟨s1, ha, .inl ⟨a, st, out, by simp only [onWriter, e1], by simp only [onWriter, e2], e3⟩⟩
  · exact ⟨s1, ha, .inr (.inl ⟨.err, st, by simp only [onWriter, h1], d, fun _ => rfl⟩)⟩
  · exact ⟨s1, ha, .inr (.inr ⟨st, by simp only [onWriter, h1], h2⟩)⟩

theorem simT_write (t : Bytes) : SimT P (onWriter (writeAll t)) (onWriter (writeAll t)) := simT_lift (simW_writeAll t)

theorem simT_pure {α : Type} (a : α) : SimT P (pure a) (pure a) :=
  fun st s b => ⟨s, .refl s, .inl ⟨a, st, [], rfl, by simp, by simp⟩⟩

theorem simT_out {α : Type} (o : Out α) (ho : o ≠ .err) : SimT P (RS.lift o) (RS.lift o) := by
  intro st s b
  refine ⟨s, .refl s, ?_⟩
  cases o with
  | ok a => exact .inl ⟨a, st, [], rfl, by simp, by simp⟩
  | err => exact absurd rfl ho
  | panic => exact .inr (.inr ⟨st, rfl, rfl⟩)

theorem simT_setState (st : TState) : SimT P (setState st) (setState st) :=
  fun _ s b => ⟨s, .refl s, .inl ⟨(), st, [], rfl, by simp [setState], by simp⟩⟩

theorem simT_bind {α β : Type} {x : RS (TextEnc Sink) α} {y : RS (TextEnc Bytes) α} {f : α → RS (TextEnc Sink) β}
    {g : α → RS (TextEnc Bytes) β} (h : SimT P x y) (hf : ∀ a, SimT P (f a) (g a)) : SimT P (x >>= f) (y >>= g) := by
  intro st s b
  obtain ⟨s1, ha, h1 | ⟨o, st1, h1, d, hp⟩ | ⟨st1, h1, h2⟩⟩ := h st s b
  · obtain ⟨a, st1, out, e1, e2, e3⟩ := h1
    obtain ⟨s2, hb, h2 | ⟨o, st2, h2, d, hp⟩ | ⟨st2, h2, h3⟩⟩ := hf a st1 s1 (b ++ out)
    · obtain ⟨c, st2, out', f1, f2, f3⟩ := h2
      refine ⟨s2, ha.trans hb, .inl ⟨c, st2, out ++ out', ?_, ?_, ?_⟩⟩
      · rw [RS.bind_ok e1]; exact f1
      · rw [RS.bind_ok e2, f2, List.append_assoc]
      · rw [f3, e3, List.append_assoc]
    · refine ⟨s2, ha.trans hb, .inr (.inl ⟨o, st2, by rw [RS.bind_ok e1]; exact h2, .right ha d, ?_⟩)⟩
      rw [← ha.1]; exact hp
    · refine ⟨s2, ha.trans hb, .inr (.inr ⟨st2, by rw [RS.bind_ok e1]; exact h2, ?_⟩)⟩
      rw [RS.bind_ok e2]; exact h3
  · cases o with
    | err => exact ⟨s1, ha, .inr (.inl ⟨.err, st1, by rw [RS.bind_run, h1], d, fun _ => rfl⟩)⟩
    | panic => exact ⟨s1, ha, .inr (.inl ⟨.panic, st1, by rw [RS.bind_run, h1], d, fun h => nomatch hp h⟩)⟩
    | ok a =>
      obtain ⟨s2, hb, h2⟩ := hf a st1 s1 b
      obtain ⟨o2, st2, e⟩ : ∃ o2 st2, f a ⟨st1, s1⟩ = (o2, ⟨st2, s2⟩) := by
        rcases h2 with ⟨c, st2, _, f1, _⟩ | ⟨o, st2, f1, _⟩ | ⟨st2, f1, _⟩
        · exact ⟨_, _, f1⟩
        · exact ⟨_, _, f1⟩
        · exact ⟨_, _, f1⟩
      refine ⟨s2, ha.trans hb, .inr (.inl ⟨o2, st2, by rw [RS.bind_ok h1]; exact e, d.left hb, fun h => nomatch hp h⟩)⟩
  · refine ⟨s1, ha, .inr (.inr ⟨st1, by rw [RS.bind_run, h1], ?_⟩)⟩
    rw [RS.bind_run]
    cases hy : y ⟨st, b⟩ with
    | mk o w =>
      rw [hy] at h2
      simp only at h2
      subst h2
      rfl

theorem simT_sep : SimT P textSep textSep := by
  intro st s b
  cases st with
  | info => exact simT_pure () .info s b
  | metrics => exact simT_write b!"\n" .metrics s b

theorem simT_help (n : Name) (t : Bytes) : SimT P (textHelp n t) (textHelp n t) :=
  simT_bind simT_sep fun _ => simT_bind (simT_setState _) fun _ => simT_bind (simT_write _) fun _ =>
    simT_bind (simT_lift (simW_name n)) fun _ => simT_bind (simT_write _) fun _ => simT_bind (simT_write _) fun _ =>
      simT_write _

theorem simT_type (n : Name) (t : MetricType) : SimT P (textType n t) (textType n t) :=
  simT_bind simT_sep fun _ => simT_bind (simT_setState _) fun _ => simT_bind (simT_write _) fun _ =>
    simT_bind (simT_lift (simW_name n)) fun _ => simT_write _

theorem simT_number (ryu : F64 → Bytes) (v : MValue) : SimT P (textNumber ryu v) (textNumber ryu v) := by
  cases v <;> exact simT_write _

theorem simT_close (first : Bool) : SimT P (textClose first) (textClose first) := by
  cases first
  · exact simT_write _
  · exact simT_pure ()

end

/-- What follows the labels of a sample. -/
def afterLabels {W : Type} [Write W] (ryu : F64 → Bytes) (v : MValue) (first : Bool) : RS (TextEnc W) Unit := do
  textClose first
  onWriter (writeAll b!" ")
  textNumber ryu v
  onWriter (writeAll b!"\n")

theorem textValue_eq {W : Type} [Write W] (ryu : F64 → Bytes) (n : Name) (ls : Labels) (v : MValue) :
    (textValue ryu n ls v : RS (TextEnc W) Unit) = (do
      setState .metrics
      onWriter n.encodeUtf8
      onWriter (visitLabels ryu true ls) >>= afterLabels ryu v) := rfl

/-- Once a call has failed, all later calls fail. -/
def Sticky (fail : Nat → Option Nat) : Prop := ∀ i j, i ≤ j → fail i ≠ none → fail j ≠ none

theorem write_dead (t : Bytes) (st : TState) (s : Sink) (h : s.fail s.calls ≠ none) :
    ∃ s', onWriter (writeAll t) ⟨st, s⟩ = (.err, ⟨st, s'⟩) ∧ After s s' := by
  obtain ⟨k, hk⟩ := Option.ne_none_iff_exists'.1 h
  refine ⟨⟨s.out ++ t.take k, s.calls + 1, s.fail⟩, ?_, rfl, Nat.le_succ _⟩
  simp [onWriter, writeAll, hk]

theorem afterLabels_dead (ryu : F64 → Bytes) (v : MValue) (first : Bool) (st : TState) (s : Sink)
    (h : s.fail s.calls ≠ none) : ∃ s', afterLabels ryu v first ⟨st, s⟩ = (.err, ⟨st, s'⟩) ∧ After s s' := by
  unfold afterLabels
  cases first with
  | true =>
    obtain ⟨s1, h1, ha⟩ := write_dead b!" " st s h
    refine ⟨s1, ?_, ha⟩
    rw [RS.bind_ok (show textClose true _ = (.ok (), _) from rfl), RS.bind_run, h1]
  | false =>
    obtain ⟨s1, h1, ha⟩ := write_dead b!"}" st s h
    refine ⟨s1, ?_, ha⟩
    rw [RS.bind_run, show textClose false ⟨st, s⟩ = _ from h1]

theorem simT_afterLabels {P : (Nat → Option Nat) → Prop} (ryu : F64 → Bytes) (v : MValue) (first : Bool) :
    SimT P (afterLabels ryu v first) (afterLabels ryu v first) :=
  simT_bind (simT_close _) fun _ => simT_bind (simT_write _) fun _ => simT_bind (simT_number _ _) fun _ => simT_write _

theorem sticky_dead {s s' : Sink} (hs : Sticky s.fail) (h : Dirty s s') (ha : After s s') :
    s'.fail s'.calls ≠ none := by
  obtain ⟨i, _, h2, h3⟩ := h
  rw [ha.1]
  exact hs i _ (by omega) h3

/-- Labels and what follows them. -/
theorem simT_labels_sticky (ryu : F64 → Bytes) (ls : Labels) (v : MValue) :
    SimT Sticky (onWriter (visitLabels ryu true ls) >>= afterLabels ryu v)
      (onWriter (visitLabels ryu true ls) >>= afterLabels ryu v) := by
  intro st s b
  obtain ⟨s1, ha, h1 | ⟨o, h1, d⟩ | ⟨h1, h2⟩⟩ := sim_visitLabels ryu ls true s b
  · obtain ⟨r, out, e1, e2, e3⟩ := h1
    have e1' : onWriter (visitLabels ryu true ls) (⟨st, s⟩ : TextEnc Sink) = (.ok r, ⟨st, s1⟩) := by
      simp only [onWriter, e1]
    have e2' : onWriter (visitLabels ryu true ls) (⟨st, b⟩ : TextEnc Bytes) = (.ok r, ⟨st, b ++ out⟩) := by
      simp only [onWriter, e2]
    obtain ⟨s2, hb, h2 | ⟨o, st2, h2, d, hp⟩ | ⟨st2, h2, h3⟩⟩ :=
      simT_afterLabels (P := Sticky) ryu v r st s1 (b ++ out)
    · obtain ⟨c, st2, out', f1, f2, f3⟩ := h2
      refine ⟨s2, ha.trans hb, .inl ⟨c, st2, out ++ out', ?_, ?_, ?_⟩⟩
      · rw [RS.bind_ok e1']; exact f1
      · rw [RS.bind_ok e2', f2, List.append_assoc]
      · rw [f3, e3, List.append_assoc]
    · refine ⟨s2, ha.trans hb, .inr (.inl ⟨o, st2, by rw [RS.bind_ok e1']; exact h2, .right ha d, ?_⟩)⟩
      rw [← ha.1]; exact hp
    · refine ⟨s2, ha.trans hb, .inr (.inr ⟨st2, by rw [RS.bind_ok e1']; exact h2, ?_⟩)⟩
      rw [RS.bind_ok e2']; exact h3
  · have e1' : onWriter (visitLabels ryu true ls) (⟨st, s⟩ : TextEnc Sink) = (o, ⟨st, s1⟩) := by
      simp only [onWriter, h1]
    cases o with
    | err => exact ⟨s1, ha, .inr (.inl ⟨.err, st, by rw [RS.bind_run, e1'], d, fun _ => rfl⟩)⟩
    | panic =>
      -- labels never panic on a buffer, and the sink follows the buffer up to errors
      have hnp : ∀ (ls : Labels) (first : Bool) (s s' : Sink), visitLabels ryu first ls s ≠ (.panic, s') := by
        intro ls
        induction ls with
        | nil => intro first s s' h; simp [visitLabels] at h
        | cons l ls ih =>
          intro first s s' h
          obtain ⟨n, x⟩ := l
          simp only [visitLabels] at h
          split at h
          · rename_i w hg
            obtain ⟨w', _, h1 | ⟨h1, _⟩ | ⟨_, h2⟩⟩ := simW_groupValue ryu first n x s []
            · obtain ⟨a, out, e1, _⟩ := h1
              rw [hg] at e1; cases e1
            · rw [hg] at h1; cases h1
            · rw [groupValue_bytes] at h2; cases h2
          · exact ih _ _ _ h
      exact absurd h1 (hnp _ _ _ _)
    | ok r =>
      obtain ⟨s2, hb, h2⟩ := simT_afterLabels (P := Sticky) ryu v r st s1 b
      obtain ⟨o2, st2, e⟩ : ∃ o2 st2, afterLabels ryu v r ⟨st, s1⟩ = (o2, ⟨st2, s2⟩) := by
        rcases h2 with ⟨c, st2, _, f1, _⟩ | ⟨o, st2, f1, _⟩ | ⟨st2, f1, _⟩
        · exact ⟨_, _, f1⟩
        · exact ⟨_, _, f1⟩
        · exact ⟨_, _, f1⟩
      refine ⟨s2, ha.trans hb, .inr (.inl ⟨o2, st2, by rw [RS.bind_ok e1']; exact e, d.left hb, ?_⟩)⟩
      intro hs
      obtain ⟨s3, h3, _⟩ := afterLabels_dead ryu v r st s1 (sticky_dead hs d ha)
      rw [h3] at e
      exact (Prod.mk.inj e).1.symm
  · refine ⟨s1, ha, .inr (.inr ⟨st, ?_, ?_⟩)⟩
    · rw [RS.bind_run]; simp only [onWriter, h1]
    · rw [RS.bind_run]
      simp only [onWriter]
      cases hy : visitLabels ryu true ls b with
      | mk o w =>
        rw [hy] at h2
        simp only at h2
        subst h2
        rfl

theorem simT_value_sticky (ryu : F64 → Bytes) (n : Name) (ls : Labels) (v : MValue) :
    SimT Sticky (textValue ryu n ls v) (textValue ryu n ls v) :=
  simT_bind (simT_setState _) fun _ => simT_bind (simT_lift (simW_name n)) fun _ => simT_labels_sticky ryu ls v

theorem simT_value_unlabelled {P : (Nat → Option Nat) → Prop} (ryu : F64 → Bytes) (n : Name) (v : MValue) :
    SimT P (textValue ryu n [] v) (textValue ryu n [] v) :=
  simT_bind (simT_setState _) fun _ => simT_bind (simT_lift (simW_name n)) fun _ =>
    simT_bind (simT_lift (x := visitLabels ryu true []) (y := visitLabels ryu true [])
      fun s b => ⟨s, .refl s, .inl ⟨true, [], rfl, by simp [visitLabels], by simp⟩⟩) fun r => simT_afterLabels ryu v r

theorem addU_ne_err (m : Mode) (a b : Nat) : addU m a b ≠ .err := by
  unfold addU
  split
  · simp
  · cases m <;> simp

theorem simT_buckets (m : Mode) (ryu : F64 → Bytes) (n : Name) (ls : Labels) :
    ∀ (les : List F64) (bs : List Nat) (val : Nat),
      SimT Sticky (textBuckets m ryu n ls les bs val) (textBuckets m ryu n ls les bs val) := by
  intro les
  induction les with
  | nil => intro bs val; cases bs <;> exact simT_pure _
  | cons le les ih =>
    intro bs val
    cases bs with
    | nil => exact simT_pure _
    | cons b bs =>
      exact simT_bind (simT_out _ (addU_ne_err _ _ _)) fun _ => simT_bind (simT_value_sticky _ _ _ _) fun _ => ih _ _

theorem simT_sample (m : Mode) (ryu : F64 → Bytes) (x : Metric) (ls : Labels) (n : Name) :
    SimT Sticky (textSample m ryu x ls n) (textSample m ryu x ls n) := by
  cases x with
  | histogram le h =>
    exact simT_bind (simT_buckets m ryu n ls le h.buckets 0) fun _ =>
      simT_bind (simT_out _ (addU_ne_err _ _ _)) fun _ => simT_bind (simT_value_sticky _ _ _ _) fun _ =>
        simT_bind (simT_value_sticky _ _ _ _) fun _ => simT_value_sticky _ _ _ _
  | _ => exact simT_value_sticky _ _ _ _

/-- Calls that write no label: everything but labelled samples and histograms (with their `le`). -/
def Unlabelled : EncCall → Prop
  | .help _ _ => True
  | .type _ _ => True
  | .sample (.histogram _ _) _ _ => False
  | .sample _ ls _ => ls = []

theorem simT_run_sticky (m : Mode) (ryu : F64 → Bytes) (c : EncCall) :
    SimT Sticky ((textEncoder m ryu).run c) ((textEncoder m ryu).run c) := by
  cases c with
  | help n t => exact simT_help n t
  | type k n => exact simT_type n _
  | sample x ls n => exact simT_sample m ryu x ls n

theorem simT_run_unlabelled {P : (Nat → Option Nat) → Prop} (m : Mode) (ryu : F64 → Bytes) (c : EncCall)
    (h : Unlabelled c) : SimT P ((textEncoder m ryu).run c) ((textEncoder m ryu).run c) := by
  cases c with
  | help n t => exact simT_help n t
  | type k n => exact simT_type n _
  | sample x ls n =>
    cases x with
    | histogram le st => cases h
    | _ =>
      have h : ls = [] := h
      subst h
      exact simT_value_unlabelled ryu n _

theorem simT_runAll {P : (Nat → Option Nat) → Prop} (m : Mode) (ryu : F64 → Bytes) (cs : List EncCall)
    (h : ∀ c ∈ cs, SimT P ((textEncoder m ryu).run c) ((textEncoder m ryu).run c)) :
    SimT P ((textEncoder m ryu).runAll cs) ((textEncoder m ryu).runAll cs) := by
  induction cs with
  | nil => exact simT_pure ()
  | cons c cs ih => exact simT_bind (h c (by simp)) fun _ => ih fun x hx => h x (by simp [hx])

/-- The conclusion: `Ok` means the sink took exactly the bytes a buffer takes. -/
theorem simT_ok {P : (Nat → Option Nat) → Prop} {α : Type} {x : RS (TextEnc Sink) α} {y : RS (TextEnc Bytes) α}
    (h : SimT P x y) {st : TState} {s : Sink} (hp : P s.fail) {a : α} {e : TextEnc Sink}
    (hx : x ⟨st, s⟩ = (.ok a, e)) (b : Bytes) :
    ∃ out, y ⟨st, b⟩ = (.ok a, ⟨e.state, b ++ out⟩) ∧ e.writer.out = s.out ++ out := by
  obtain ⟨s1, _, h1 | ⟨o, st1, h1, _, hq⟩ | ⟨st1, h1, _⟩⟩ := h st s b
  · obtain ⟨a', st', out, e1, e2, e3⟩ := h1
    rw [hx] at e1
    simp only [Prod.mk.injEq, Out.ok.injEq] at e1
    obtain ⟨rfl, rfl⟩ := e1
    exact ⟨out, e2, e3⟩
  · rw [hx] at h1
    have := hq hp
    subst this
    cases h1
  · rw [hx] at h1; cases h1

end Measured
