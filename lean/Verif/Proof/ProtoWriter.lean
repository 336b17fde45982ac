import Verif.Proof.ProtoSink
import Verif.Spec.ProtoWriter

/-! The protobuf encoder after a write that failed. -/

namespace Measured.Proto
open Measured.Spec

theorem simP_scrape (m : Mode) (ryu : F64 → Bytes) (cs : List EncCall) : SimP (scrapeOn m ryu cs) (scrapeOn m ryu cs) :=
  simP_bind (simP_runAll m ryu cs) fun _ => simP_flushBuf m

theorem simP_scrapes (m : Mode) (ryu : F64 → Bytes) (css : List (List EncCall)) :
    SimP (scrapesOn m ryu css) (scrapesOn m ryu css) := by
  induction css with
  | nil => exact simP_ok
  | cons cs css ih => exact simP_bind (simP_scrape m ryu cs) fun _ => ih

theorem scrapesOn_bytes (m : Mode) (ryu : F64 → Bytes) : ∀ css : List (List EncCall), ∀ e,
    scrapesOn m ryu css e = runScrapes m ryu css e := by
  intro css
  induction css with
  | nil => intro e; rfl
  | cons cs css ih =>
    intro e
    simp only [scrapesOn, runScrapes, scrapeOn, RS.bind_run]
    rcases (protoEncoder m ryu).runAll cs e with ⟨o, e1⟩
    cases o with
    | ok u =>
      rcases h2 : flush m e1 with ⟨o, e2⟩
      simp only [h2]
      cases o with
      | ok u => exact ih e2
      | err => rfl
      | panic => rfl
    | err => rfl
    | panic => rfl

/-- A flush fails only in the middle of a family. -/
theorem flush_err_state {m : Mode} {e e1 : ProtoEnc Sink} (h : flushBuf m e = (.err, e1)) : e.state = .metrics := by
  by_contra hst
  obtain ⟨st, s, b⟩ := e
  have hr : ∃ b', reserve (⟨st, s, b⟩ : ProtoEnc Sink) = (.ok (), ⟨st, s, b'⟩) := by
    cases b with
    | nil => exact ⟨_, rfl⟩
    | cons c b => exact ⟨_, rfl⟩
  obtain ⟨b', hr⟩ := hr
  simp only [flushBuf, RS.bind_run, getPState, flushBranch, if_neg hst, hr, getBuf, RS.lift_run] at h
  cases m <;> simp [debugAssert] at h
  split at h <;> simp at h

/-- A call fails only by its flush. -/
theorem run_err {m : Mode} {ryu : F64 → Bytes} {c : EncCall} (hc : NoHistCall c)
    (hs : callSize (labelText ryu) c < 2 ^ 64) {e e1 : ProtoEnc Sink}
    (h : (protoEncoder m ryu).run c e = (.err, e1)) : IsHead c ∧ flushBuf m e = (.err, e1) := by
  cases c with
  | help n t =>
    refine ⟨trivial, ?_⟩
    have h' : protoHelp m n t e = (.err, e1) := h
    rcases hf : flushBuf m e with ⟨o, e2⟩
    simp only [protoHelp, RS.bind_run, hf, nameField_eq, RS.lift_run, Proto.append, setPState] at h'
    cases o with
    | ok u => simp at h'
    | err => simpa using h'
    | panic => simp at h'
  | type k n =>
    refine ⟨trivial, ?_⟩
    have h' : protoTypeCode m (kindCode k) n e = (.err, e1) := by
      cases k with
      | histogram => exact absurd rfl hc
      | _ => exact h
    rcases hf : flushBuf m e with ⟨o, e2⟩
    simp only [protoTypeCode, RS.bind_run, hf, getPState] at h'
    cases o with
    | ok u =>
      by_cases hi : e2.state = .init
      · simp [nameIfInit, if_pos hi, RS.bind_run, nameField_eq, RS.lift_run, Proto.append] at h'
      · simp [nameIfInit, if_neg hi, Proto.append] at h'
    | err => simpa using h'
    | panic => simp at h'
  | sample x ls n =>
    exfalso
    have hfit : SampleFits ryu (ls, x) := sample_fits hc hs
    have ht : sampleTag x = 2 ∨ sampleTag x = 3 := by cases x <;> simp [sampleTag]
    have h' : protoValue m ryu (sampleTag x) (sampleDouble x) ls e = (.err, e1) := by
      cases x with
      | histogram _ _ => exact absurd rfl hc
      | _ => exact h
    simp [protoValue, RS.bind_run, setPState, RS.lift_run, metricBytes_eq m ryu _ ht _ _ hfit.1, Proto.append] at h'

/-- Where calls fail. -/
theorem runAll_err {m : Mode} {ryu : F64 → Bytes} : ∀ {cs : List EncCall} {e e1 : ProtoEnc Sink},
    (∀ c ∈ cs, NoHistCall c) → (cs.map (callSize (labelText ryu))).sum < 2 ^ 64 →
    (protoEncoder m ryu).runAll cs e = (.err, e1) →
    ∃ cs1 cs2 e0, cs = cs1 ++ cs2 ∧ (∀ c ∈ cs2.head?, IsHead c) ∧ (protoEncoder m ryu).runAll cs1 e = (.ok (), e0) ∧
      flushBuf m e0 = (.err, e1) := by
  intro cs
  induction cs with
  | nil => intro e e1 _ _ h; simp [Encoder.runAll] at h
  | cons c cs ih =>
    intro e e1 hh hs h
    rw [List.map_cons, List.sum_cons] at hs
    rcases hr : (protoEncoder m ryu).run c e with ⟨o, e2⟩
    simp only [Encoder.runAll, RS.bind_run, hr] at h
    cases o with
    | ok u =>
      obtain ⟨cs1, cs2, e0, h1, h2, h3, h4⟩ := ih (fun c hc => hh c (by simp [hc])) (by omega) h
      refine ⟨c :: cs1, cs2, e0, by simp [h1], h2, ?_, h4⟩
      simp only [Encoder.runAll, RS.bind_run, hr, h3]
    | err =>
      simp only [Prod.mk.injEq, true_and] at h
      subst h
      obtain ⟨h1, h2⟩ := run_err (hh c (by simp)) (by omega) hr
      exact ⟨[], c :: cs, e, rfl, by simpa using h1, rfl, h2⟩
    | panic => simp at h

theorem scrape_err {m : Mode} {ryu : F64 → Bytes} {cs : List EncCall} {e e1 : ProtoEnc Sink}
    (hh : ∀ c ∈ cs, NoHistCall c) (hs : (cs.map (callSize (labelText ryu))).sum < 2 ^ 64)
    (h : scrapeOn m ryu cs e = (.err, e1)) :
    ∃ cs1 cs2 e0, cs = cs1 ++ cs2 ∧ (∀ c ∈ cs2.head?, IsHead c) ∧ (protoEncoder m ryu).runAll cs1 e = (.ok (), e0) ∧
      flushBuf m e0 = (.err, e1) := by
  rcases hr : (protoEncoder m ryu).runAll cs e with ⟨o, e2⟩
  simp only [scrapeOn, RS.bind_run, hr] at h
  cases o with
  | ok u => exact ⟨cs, [], e2, by simp, by simp, hr, h⟩
  | err =>
    simp only [Prod.mk.injEq, true_and] at h
    subst h
    exact runAll_err hh hs hr
  | panic => simp at h

/-- The encoder with another writer. -/
def withW {W V : Type} (e : ProtoEnc W) (w : V) : ProtoEnc V := ⟨e.state, w, e.buf⟩

/-- What a successful run over a writer that may fail does. -/
theorem SimP.ok_run {α : Type} {x : RS (ProtoEnc Sink) α} {y : RS (ProtoEnc Bytes) α} (h : SimP x y) {e e' : ProtoEnc Sink}
    {a : α} (hx : x e = (.ok a, e')) (w : Bytes) :
    ∃ out, y (withW e w) = (.ok a, withW e' (w ++ out)) ∧ e'.writer.out = e.writer.out ++ out := by
  obtain ⟨st, s, buf⟩ := e
  obtain ⟨o, out, st', buf', e1, h1 | ⟨_, _, _, _, h1, _⟩⟩ := h st s w buf
  · obtain ⟨s', h1, h2, _⟩ := h1
    rw [hx] at h1
    simp only [Prod.mk.injEq] at h1
    obtain ⟨rfl, rfl⟩ := h1
    exact ⟨out, e1, h2⟩
  · rw [hx] at h1
    simp at h1

/-- A failing flush leaves everything pending. -/
theorem holds_flush_err {m : Mode} {e e1 : ProtoEnc Sink} {a : Abs} {w : Bytes} (h : Holds (withW e w) a)
    (hs : (encFields a.fs).length < 2 ^ 64) (hf : flushBuf m e = (.err, e1)) (v : Bytes) :
    a.st = .metrics ∧ Reserved (withW e1 v) ⟨.init, a.fs, v⟩ := by
  have hst := flush_err_state hf
  obtain ⟨st, s, b⟩ := e
  obtain ⟨h1, h2, h3⟩ := h
  simp only [withW] at h1 h2 h3 hst
  subst hst
  refine ⟨h1.symm, ?_⟩
  rcases h3 with ⟨_, _, h⟩ | ⟨pre, hp, rfl⟩
  · rw [← h1] at h; cases h
  · obtain ⟨g1, pre', g2, g3⟩ := flush_fails m s pre (encFields a.fs) hp hs hf
    exact ⟨g1, rfl, pre', g2, g3⟩

/-- A scrape by an encoder in any consistent state does not panic, and leaves a consistent state. -/
theorem scrape_consistent {m : Mode} {ryu : F64 → Bytes} {cs : List EncCall} {e : ProtoEnc Sink} {a : Abs} {w : Bytes}
    (h : Holds (withW e w) a) (hr : ∀ c ∈ cs.head?, IsHead c) (hh : ∀ c ∈ cs, NoHistCall c)
    (hs : (encFields a.fs).length + (cs.map (callSize (labelText ryu))).sum < 2 ^ 64) :
    ∃ o e', scrapeOn m ryu cs e = (o, e') ∧ o ≠ .panic ∧ ∃ a' w', Holds (withW e' w') a' ∧
      (encFields a'.fs).length ≤ (encFields a.fs).length + (cs.map (callSize (labelText ryu))).sum := by
  obtain ⟨b1, h1, r1, l1⟩ := calls_run m ryu cs h (.inr hr) hh hs
  obtain ⟨b2, h2, r2⟩ := r1.flush m (by omega)
  have hy : scrapeOn m ryu cs (withW e w) = (.ok (), b2) := by
    have h2' : flush m b1 = (.ok (), b2) := h2
    simp only [scrapeOn, RS.bind_run, h1, h2']
  have hsim := simP_scrape m ryu cs e.state e.writer w e.buf
  obtain ⟨o, out, st', buf', e1, h3 | ⟨st₁, s₁, buf₁, p, h3, _⟩⟩ := hsim
  · obtain ⟨s', h3, _, _⟩ := h3
    have e1' : scrapeOn m ryu cs (withW e w) = (o, ⟨st', w ++ out, buf'⟩) := e1
    rw [hy] at e1'
    simp only [Prod.mk.injEq] at e1'
    obtain ⟨rfl, rfl⟩ := e1'
    have hfl := flush_le (cs.foldl (Abs.call ryu) a)
    exact ⟨.ok (), _, h3, by simp, _, w ++ out, r2.holds, by omega⟩
  · refine ⟨.err, _, h3, by simp, ?_⟩
    obtain ⟨cs1, cs2, e0, rfl, k2, k3, k4⟩ := scrape_err hh (by omega) h3
    obtain ⟨out0, k5, _⟩ := (simP_runAll m ryu cs1).ok_run k3 w
    rw [sum_calls_append] at hs
    have hr1 : ∀ c ∈ cs1.head?, IsHead c := by
      intro c hc
      refine hr c ?_
      cases cs1 with
      | nil => simp at hc
      | cons d cs1 => simpa using hc
    obtain ⟨b0, k6, k7, k8⟩ := calls_run m ryu cs1 h (.inr hr1) (fun c hc => hh c (by simp [hc])) (by omega)
    rw [k5] at k6
    simp only [Prod.mk.injEq, true_and] at k6
    subst k6
    obtain ⟨_, k9⟩ := holds_flush_err k7 (by omega) k4 []
    refine ⟨_, [], k9.holds, ?_⟩
    rw [sum_calls_append]
    simp only
    omega

theorem attempts_consistent {m : Mode} {ryu : F64 → Bytes} : ∀ {css : List (List EncCall)} {e : ProtoEnc Sink} {a : Abs}
    {w : Bytes}, Holds (withW e w) a → (∀ cs ∈ css, ∀ c ∈ cs.head?, IsHead c) → (∀ cs ∈ css, ∀ c ∈ cs, NoHistCall c) →
    (encFields a.fs).length + (css.flatten.map (callSize (labelText ryu))).sum < 2 ^ 64 →
    ∀ o ∈ (attempts m ryu css e).1, o ≠ .panic := by
  intro css
  induction css with
  | nil => intro e a w _ _ _ _ o ho; simp [attempts] at ho
  | cons cs css ih =>
    intro e a w h hr hh hs o ho
    rw [List.flatten_cons, sum_calls_append] at hs
    obtain ⟨o1, e1, h1, h2, a1, w1, h3, h4⟩ := scrape_consistent (m := m) (ryu := ryu) h (hr cs (by simp)) (hh cs (by simp)) (by omega)
    simp only [attempts, h1, List.mem_cons] at ho
    rcases ho with rfl | ho
    · exact h2
    · exact ih h3 (fun c hc => hr c (by simp [hc])) (fun c hc => hh c (by simp [hc])) (by omega) o ho

/-! ## Which block is lost, and where it turns up -/

theorem head_st (ryu : F64 → Bytes) (a : Abs) {c : EncCall} (hc : IsHead c) : (a.call ryu c).st ≠ .metrics := by
  cases c with
  | sample => exact hc.elim
  | help n t => simp [Abs.call, Abs.help]
  | type k n => exact a.flush_st

theorem block_head {b : Block} (hb : b.Wf) (rest : List EncCall) : ∀ c ∈ (b.calls ++ rest).head?, IsHead c := by
  obtain ⟨h, hs', he⟩ := List.exists_cons_of_ne_nil hb.headed
  intro c hc
  rw [Block.calls, he] at hc
  simp only [List.cons_append, List.head?_cons, Option.mem_def, Option.some.injEq] at hc
  subst hc
  exact hb.heads _ (by rw [he]; simp)

theorem blocks_st (ryu : F64 → Bytes) (w : Bytes) (bs : List Block) (hb : ∀ b ∈ bs, b.Wf) :
    ∃ w', ((bs.flatMap Block.calls).foldl (Abs.call ryu) ⟨.init, [], w⟩).flush = ⟨.init, [], w'⟩ := by
  rcases List.eq_nil_or_concat bs with rfl | ⟨bs', b, rfl⟩
  · exact ⟨w, by simp [Abs.flush]⟩
  · have hbw := hb b (by simp [List.concat_eq_append])
    rw [List.concat_eq_append, List.flatMap_append, List.foldl_append]
    simp only [List.flatMap_cons, List.flatMap_nil, List.append_nil]
    rw [Block.calls, List.foldl_append, samples_fold _ _ _ hbw.sampled, Abs.flush, if_pos rfl]
    exact ⟨_, rfl⟩

/-- Calls that end in the middle of a family. -/
theorem pending_block {ryu : F64 → Bytes} {w : Bytes} {cs : List EncCall} (hc : ∀ c ∈ cs.head?, IsHead c)
    (hn : ∀ c ∈ cs, NoHistCall c) (hs : (cs.map (callSize (labelText ryu))).sum < 2 ^ 64)
    (hst : (cs.foldl (Abs.call ryu) ⟨.init, [], w⟩).st = .metrics) :
    ∃ (bs : List Block) (b : Block) (fs : PFields) (ms : List PFields), cs = bs.flatMap Block.calls ++ b.calls ∧ (∀ b ∈ bs, b.Wf) ∧ b.Wf ∧
      cs.foldl (Abs.call ryu) ⟨.init, [], w⟩ = ⟨.metrics, fs, w ++ ms.flatMap (fun m => frame (encFields m))⟩ ∧
      (∀ m ∈ ms, (∀ g ∈ m, FieldOk g) ∧ (encFields m).length < 2 ^ 64) ∧
      readAll decodeFamily ms = some (bs.map (pblock ryu)) ∧ decodeFamily fs = some (pblock ryu b) ∧
      (∀ g ∈ fs, FieldOk g) ∧ (encFields fs).length ≤ (b.calls.map (callSize (labelText ryu))).sum := by
  obtain ⟨bs', tail, rfl, hw, ht⟩ := blocks_exist cs hc
  rcases List.eq_nil_or_concat tail with rfl | ⟨t, c, rfl⟩
  · rcases List.eq_nil_or_concat bs' with rfl | ⟨bs, b, rfl⟩
    · simp at hst
    · rw [List.append_nil] at *
      rw [List.concat_eq_append] at *
      simp only [List.flatMap_append, List.flatMap_cons, List.flatMap_nil, List.append_nil] at *
      have hb := hw b (by simp)
      have hbs : ∀ b ∈ bs, b.Wf := fun b h => hw b (by simp [h])
      rw [sum_calls_append] at hs
      obtain ⟨w', hw'⟩ := blocks_st ryu w bs hbs
      obtain ⟨ms, e1, e2, e3⟩ := blocks_fold ryu w [] (by simp) bs w hbs (fun c h => hn c (by simp at h ⊢; exact .inl h))
        (by omega)
      rw [List.append_nil, hw'] at e1
      simp only at e1
      obtain ⟨fs, hf, hd⟩ := block_fold ryu w' hb
        (block_fits (fun c h => hn c (List.mem_append.2 (.inr h))) (by omega))
      have hle := fold_le ryu b.calls ⟨.init, [], w'⟩
      have s0 : Stream w' ⟨.init, [], w'⟩ [] := ⟨by simp, by simp, by simp⟩
      obtain ⟨_, s1⟩ := stream_fold (ryu := ryu) w' b.calls s0 (by simp only [encFields_nil, List.length_nil]; omega)
      rw [hf] at s1 hle
      refine ⟨bs, b, fs, ms, rfl, hbs, hb, ?_, e2, e3, hd, s1.fs, by simpa [encFields_nil] using hle⟩
      rw [List.foldl_append]
      obtain ⟨c, cs, hcs⟩ : ∃ c cs, b.calls = c :: cs := by
        obtain ⟨h, hs', he⟩ := List.exists_cons_of_ne_nil hb.headed
        exact ⟨h, _, by rw [Block.calls, he]; rfl⟩
      have hh : IsHead c := block_head hb [] c (by simp [hcs])
      rw [hcs, List.foldl_cons] at hf ⊢
      rw [← call_flush ryu _ hh, hw', hf, e1]
  · exfalso
    rw [List.concat_eq_append, ← List.append_assoc, List.foldl_append] at hst
    exact head_st ryu _ (ht c (by simp [List.concat_eq_append])) hst

/-- Heads and samples go to the end of what is pending. -/
theorem lost_fold (ryu : F64 → Bytes) (w : Bytes) (lost : PFields) {b : Block} (hb : b.Wf) {fs : PFields}
    (h : b.calls.foldl (Abs.call ryu) ⟨.init, [], w⟩ = ⟨.metrics, fs, w⟩) :
    b.calls.foldl (Abs.call ryu) ⟨.init, lost, w⟩ = ⟨.metrics, lost ++ fs, w⟩ := by
  have hheads : ∀ (cs : List EncCall) (st : PState) (gs : PFields), st ≠ .metrics → (∀ c ∈ cs, IsHead c) →
      ∃ st' gs', cs.foldl (Abs.call ryu) ⟨st, gs, w⟩ = ⟨st', gs', w⟩ ∧
        cs.foldl (Abs.call ryu) ⟨st, lost ++ gs, w⟩ = ⟨st', lost ++ gs', w⟩ := by
    intro cs
    induction cs with
    | nil => intro st gs _ _; exact ⟨st, gs, rfl, rfl⟩
    | cons c cs ih =>
      intro st gs hst hc
      have f1 : ∀ gs, (⟨st, gs, w⟩ : Abs).flush = ⟨st, gs, w⟩ := fun gs => by rw [Abs.flush, if_neg hst]
      cases c with
      | sample x ls n => exact (hc (.sample x ls n) (by simp)).elim
      | help n t =>
        obtain ⟨st', gs', h1, h2⟩ := ih .help (gs ++ [nameF n, (2, .bytes t)]) (by simp) fun c h => hc c (by simp [h])
        refine ⟨st', gs', ?_, ?_⟩
        · simpa only [List.foldl_cons, Abs.call, Abs.help, f1] using h1
        · simpa only [List.foldl_cons, Abs.call, Abs.help, f1, List.append_assoc] using h2
      | type k n =>
        obtain ⟨st', gs', h1, h2⟩ := ih st
          (gs ++ ((if st = .init then [nameF n] else []) ++ [(3, .varint (kindCode k))])) hst fun c h => hc c (by simp [h])
        refine ⟨st', gs', ?_, ?_⟩
        · simpa only [List.foldl_cons, Abs.call, Abs.type, f1] using h1
        · simpa only [List.foldl_cons, Abs.call, Abs.type, f1, List.append_assoc] using h2
  obtain ⟨st', gs', h1, h2⟩ := hheads b.heads .init [] (by simp) hb.heads
  rw [List.append_nil] at h2
  rw [Block.calls, List.foldl_append, h1, samples_fold _ _ _ hb.sampled] at h
  rw [Block.calls, List.foldl_append, h2, samples_fold _ _ _ hb.sampled]
  simp only [Abs.mk.injEq, true_and, and_true] at h ⊢
  rw [List.append_assoc, h]

theorem decode_append {fs gs : PFields} {p q : PFamily} (h : decodeFamily fs = some p) (h' : decodeFamily gs = some q) :
    decodeFamily (fs ++ gs) = some ⟨q.name.or p.name, q.help.or p.help, q.type.or p.type, p.metrics ++ q.metrics⟩ := by
  rw [decodeFamily_iff] at h h' ⊢
  obtain ⟨x1, x2, x3, e1, e2, e3, e4, h1, h2, h3⟩ := h
  obtain ⟨y1, y2, y3, f1, f2, f3, f4, g1, g2, g3⟩ := h'
  refine ⟨x1 ++ y1, x2 ++ y2, x3 ++ y3, ?_, ?_, ?_, ?_, ?_, ?_, ?_⟩
  · rw [fieldsOf_append]; exact readAll_append _ _ _ e1 f1
  · rw [fieldsOf_append]; exact readAll_append _ _ _ e2 f2
  · rw [fieldsOf_append]; exact readAll_append _ _ _ e3 f3
  · rw [fieldsOf_append]; exact readAll_append _ _ _ e4 f4
  · simp [List.getLast?_append, g1, h1]
  · simp [List.getLast?_append, g2, h2]
  · simp [List.getLast?_append, g3, h3]

/-- The message of a block with an earlier one in front. -/
def pmixed (ryu : F64 → Bytes) (b b₁ : Block) : PFamily :=
  ⟨(pblock ryu b₁).name.or (pblock ryu b).name, (pblock ryu b₁).help.or (pblock ryu b).help,
    (pblock ryu b₁).type.or (pblock ryu b).type, (pblock ryu b).metrics ++ (pblock ryu b₁).metrics⟩

theorem headName_some {cs : List EncCall} (hc : ∀ c ∈ cs, IsHead c) (hne : cs ≠ []) : ∃ n, headName cs = some n := by
  rcases List.eq_nil_or_concat cs with rfl | ⟨cs', c, rfl⟩
  · exact absurd rfl hne
  · rw [List.concat_eq_append] at *
    cases c with
    | sample x ls n => exact (hc (.sample x ls n) (by simp)).elim
    | help n t => exact ⟨n, by simp [headName, lastHelp_help]⟩
    | type k n =>
      cases h : lastHelp (cs' ++ [.type k n]) with
      | none => exact ⟨n, by simp [headName, h, lastType_type]⟩
      | some q => exact ⟨q.1, by simp [headName, h]⟩

theorem option_or_map {α β : Type} (f : α → β) (x y : Option α) : (x.map f).or (y.map f) = (x.or y).map f := by
  cases x <;> rfl

theorem mixed_reads {ryu : F64 → Bytes} {rf : Bytes → Option F64} (F : FloatText ryu rf) {b b₁ : Block}
    (h : ∀ c ∈ b.calls, NoHistCall c) (h₁ : ∀ c ∈ b₁.calls, NoHistCall c) (hw : b₁.Wf) :
    MixedReads rf Name.render b b₁ (pmixed ryu b b₁) := by
  refine ⟨?_, option_or_map _ _ _, option_or_map _ _ _, ?_⟩
  · obtain ⟨n, hn⟩ := headName_some hw.heads hw.headed
    simp [pmixed, pblock, pheads, hn]
  · have a := (block_reads F h).metrics
    have c := (block_reads F h₁).metrics
    exact List.rel_append a c

/-- Scrapes after a block was lost. -/
theorem lost_scrapes {ryu : F64 → Bytes} (m : Mode) {css : List (List EncCall)} {b b₁ : Block} {bs : List Block}
    {tail : List EncCall} {lost : PFields} {e : ProtoEnc Bytes} {w : Bytes} (h : Holds e ⟨.init, lost, w⟩)
    (hd : decodeFamily lost = some (pblock ryu b)) (hlf : ∀ g ∈ lost, FieldOk g)
    (hb : css.flatten = (b₁ :: bs).flatMap Block.calls ++ tail) (hw₁ : b₁.Wf) (hw : ∀ b ∈ bs, b.Wf) (ht : ∀ c ∈ tail, IsHead c)
    (hfirst : ∀ cs ∈ css, ∀ c ∈ cs.head?, IsHead c) (hc : ∀ c ∈ css.flatten, NoHistCall c)
    (hs : (encFields lost).length + (css.flatten.map (callSize (labelText ryu))).sum < 2 ^ 64) :
    ∃ e' out, runScrapes m ryu css e = (.ok (), e') ∧ e'.writer = w ++ out ∧
      decodeScrape out = some (pmixed ryu b b₁ :: bs.map (pblock ryu)) := by
  obtain ⟨e', h1, h2⟩ := scrapes_run m ryu css h (by rw [Abs.flush, if_neg (by simp)]) hfirst
    (fun cs hcs c h => hc c (List.mem_flatten.2 ⟨cs, hcs, h⟩)) hs
  rw [hb, List.flatMap_cons, List.append_assoc] at hc hs h2
  have hc1 : ∀ c ∈ b₁.calls, NoHistCall c := fun c h => hc c (List.mem_append.2 (.inl h))
  have hc' : ∀ c ∈ bs.flatMap Block.calls, NoHistCall c := fun c h => hc c (List.mem_append.2 (.inr (List.mem_append.2 (.inl h))))
  rw [sum_calls_append, sum_calls_append] at hs
  obtain ⟨fs, hf, hd1⟩ := block_fold ryu w hw₁ (block_fits hc1 (by omega))
  have hle := fold_le ryu b₁.calls ⟨.init, [], w⟩
  rw [hf] at hle
  simp only [encFields_nil, List.length_nil, Nat.zero_add] at hle
  have s0 : Stream w ⟨.init, [], w⟩ [] := ⟨by simp, by simp, by simp⟩
  obtain ⟨_, s1⟩ := stream_fold (ryu := ryu) w b₁.calls s0 (by simp only [encFields_nil, List.length_nil]; omega)
  rw [hf] at s1
  obtain ⟨ms, e1, e2, e3⟩ := blocks_fold ryu w tail ht bs (w ++ frame (encFields (lost ++ fs))) hw hc' (by omega)
  have hhead : ∀ c ∈ (bs.flatMap Block.calls ++ tail).head?, IsHead c := by
    intro c hc
    cases bs with
    | nil =>
      simp only [List.flatMap_nil, List.nil_append] at hc
      exact ht c (List.mem_of_mem_head? hc)
    | cons b' bs =>
      rw [List.flatMap_cons, List.append_assoc] at hc
      exact block_head (hw b' (by simp)) _ c hc
  refine ⟨e', ((lost ++ fs) :: ms).flatMap (fun m => frame (encFields m)), h1, ?_, messages_decode (ms := (lost ++ fs) :: ms) ?_ ?_⟩
  · rw [h2, List.foldl_append, lost_fold ryu w lost hw₁ hf, ← fold_calls_flush ryu _ hhead,
      show (⟨.metrics, lost ++ fs, w⟩ : Abs).flush = ⟨.init, [], w ++ frame (encFields (lost ++ fs))⟩ by
        rw [Abs.flush, if_pos rfl], e1]
    simp
  · intro m hm
    rcases List.mem_cons.1 hm with rfl | hm
    · refine ⟨fun g hg => (List.mem_append.1 hg).elim (hlf g) (s1.fs g), ?_⟩
      rw [encFields_append, List.length_append]
      omega
    · exact e2 m hm
  · simp only [readAll, decode_append hd hd1, e3]
    rfl

/-! ## A buffer gives no errors -/

theorem out_bind_ne_err {α β : Type} {x : Out α} {f : α → Out β} (h : x ≠ .err) (hf : ∀ a, f a ≠ .err) : (x >>= f) ≠ .err := by
  cases x with
  | ok a => exact hf a
  | err => exact absurd rfl h
  | panic => exact fun h => by cases h

theorem debugAssert_ne_err (m : Mode) (p : Prop) [Decidable p] : debugAssert m p ≠ .err := by
  unfold debugAssert
  cases m <;> simp
  split <;> simp

theorem encodeMessage_ne_err (m : Mode) (tag len : Nat) {b : Out Bytes} (h : b ≠ .err) : encodeMessage m tag len b ≠ .err :=
  out_bind_ne_err h fun _ => out_bind_ne_err (debugAssert_ne_err m _) fun _ => by simp

theorem groupBytes_ne_err (m : Mode) (ryu : F64 → Bytes) (ls : Labels) : groupBytes m ryu ls ≠ .err := by
  induction ls with
  | nil => simp [groupBytes]
  | cons l ls ih =>
    exact out_bind_ne_err (encodeMessage_ne_err m _ _ (by simp)) fun _ => out_bind_ne_err ih fun _ => by simp

theorem metricBytes_ne_err (m : Mode) (ryu : F64 → Bytes) (tag : Nat) (x : F64) (ls : Labels) :
    metricBytes m ryu tag x ls ≠ .err :=
  encodeMessage_ne_err m _ _ (out_bind_ne_err (groupBytes_ne_err m ryu ls) fun _ =>
    out_bind_ne_err (encodeMessage_ne_err m _ _ (by simp)) fun _ => by simp)

theorem framedBuf_ne_err (m : Mode) (b : Bytes) : framedBuf m b ≠ .err := by
  have hs : ∀ a b, subU m a b ≠ .err := by
    intro a b
    unfold subU
    split
    · simp
    · cases m <;> simp
  refine out_bind_ne_err (hs _ _) fun _ => out_bind_ne_err (hs _ _) fun _ => out_bind_ne_err ?_ fun _ => by simp
  unfold putAt
  split <;> simp

/-- No errors. -/
def NoErr {σ α : Type} (x : RS σ α) : Prop := ∀ s, (x s).1 ≠ .err

theorem NoErr.bind {σ α β : Type} {x : RS σ α} {f : α → RS σ β} (h : NoErr x) (hf : ∀ a, NoErr (f a)) : NoErr (x >>= f) := by
  intro s
  have hs := h s
  rw [RS.bind_run]
  rcases hx : x s with ⟨o, s'⟩
  rw [hx] at hs
  cases o with
  | ok a => exact hf a s'
  | err => exact absurd rfl hs
  | panic => exact fun h => by cases h

theorem noErr_lift {σ α : Type} {o : Out α} (h : o ≠ .err) : NoErr (RS.lift o : RS σ α) := fun _ => h

theorem noErr_flushBuf (m : Mode) : NoErr (flushBuf m : RS (ProtoEnc Bytes) Unit) := by
  have hset : ∀ b, NoErr (setBuf b : RS (ProtoEnc Bytes) Unit) := fun b e => by simp [setBuf]
  have hget : NoErr (getBuf : RS (ProtoEnc Bytes) Bytes) := fun e => by simp [getBuf]
  refine NoErr.bind (fun e => by simp [getPState]) fun s => NoErr.bind ?_ fun _ => NoErr.bind hget fun b =>
    noErr_lift (debugAssert_ne_err m _)
  unfold flushBranch
  split
  · exact NoErr.bind (fun e => by simp [setPState]) fun _ => hget.bind fun b =>
      NoErr.bind (noErr_lift (framedBuf_ne_err m b)) fun r => (hset _).bind fun _ =>
        NoErr.bind (fun e => by simp [onProtoWriter, writeAll_bytes]) fun _ => hset _
  · refine hget.bind fun b => ?_
    split
    · exact hset _
    · exact fun e => by simp

theorem noErr_run (m : Mode) (ryu : F64 → Bytes) (c : EncCall) : NoErr ((protoEncoder m ryu).run c : RS (ProtoEnc Bytes) Unit) := by
  have happ : ∀ b, NoErr (Proto.append b : RS (ProtoEnc Bytes) Unit) := fun b e => by simp [Proto.append]
  have hst : ∀ s, NoErr (setPState s : RS (ProtoEnc Bytes) Unit) := fun s e => by simp [setPState]
  have hn : ∀ n, nameField n ≠ .err := fun n => by rw [nameField_eq]; simp
  have hp : NoErr (RS.panic : RS (ProtoEnc Bytes) Unit) := fun e h => by cases h
  have hv : ∀ t x ls, NoErr (protoValue m ryu t x ls : RS (ProtoEnc Bytes) Unit) := fun t x ls =>
    (hst _).bind fun _ => NoErr.bind (noErr_lift (metricBytes_ne_err m ryu t x ls)) fun _ => happ _
  have ht : ∀ k n, NoErr (protoTypeCode m k n : RS (ProtoEnc Bytes) Unit) := by
    intro k n
    refine (noErr_flushBuf m).bind fun _ => NoErr.bind (fun e => by simp [getPState]) fun s => NoErr.bind ?_ fun _ => happ _
    unfold nameIfInit
    split
    · exact NoErr.bind (noErr_lift (hn n)) fun _ => happ _
    · exact fun e => by simp
  cases c with
  | help n t =>
    exact (noErr_flushBuf m).bind fun _ => NoErr.bind (noErr_lift (hn n)) fun _ => (happ _).bind fun _ => (happ _).bind fun _ => hst _
  | type k n =>
    cases k with
    | histogram => exact hp
    | _ => exact ht _ n
  | sample x ls n =>
    cases x with
    | histogram => exact hp
    | _ => exact hv _ _ ls

theorem noErr_scrapes (m : Mode) (ryu : F64 → Bytes) (css : List (List EncCall)) :
    NoErr (scrapesOn m ryu css : RS (ProtoEnc Bytes) Unit) := by
  have hall : ∀ cs, NoErr ((protoEncoder m ryu).runAll cs : RS (ProtoEnc Bytes) Unit) := by
    intro cs
    induction cs with
    | nil => exact fun e => by simp [Encoder.runAll]
    | cons c cs ih => exact (noErr_run m ryu c).bind fun _ => ih
  induction css with
  | nil => exact fun e => by simp [scrapesOn]
  | cons cs css ih => exact NoErr.bind ((hall cs).bind fun _ => noErr_flushBuf m) fun _ => ih

end Measured.Proto
