import Verif.Proof.ProtoWriter

/-! The protobuf encoder in scrapes of which any may fail. -/

namespace Measured.Proto
open Measured.Spec

/-- The message of several blocks. -/
def pmerged (ryu : F64 → Bytes) (bs : List Block) : PFamily :=
  ⟨(bs.getLast?.bind fun b => headName b.heads).map Name.render, (lastHelp (bs.flatMap Block.heads)).map Prod.snd,
    (lastType (bs.flatMap Block.heads)).map fun t => kindCode t.1, bs.flatMap fun b => (pblock ryu b).metrics⟩

theorem pmerged_one (ryu : F64 → Bytes) (b : Block) : pmerged ryu [b] = pblock ryu b := by
  simp [pmerged, pblock, pheads]

theorem decode_merged {ryu : F64 → Bytes} {lost : List Block} {b : Block} {fs gs : PFields} (hb : b.Wf)
    (h : decodeFamily fs = some (pmerged ryu lost)) (h' : decodeFamily gs = some (pblock ryu b)) :
    decodeFamily (fs ++ gs) = some (pmerged ryu (lost ++ [b])) := by
  rw [decode_append h h']
  obtain ⟨n, hn⟩ := headName_some hb.heads hb.headed
  have h1 : lastHelp ((lost ++ [b]).flatMap Block.heads) = (lastHelp b.heads).or (lastHelp (lost.flatMap Block.heads)) := by
    simp [lastHelp, List.getLast?_append]
  have h2 : lastType ((lost ++ [b]).flatMap Block.heads) = (lastType b.heads).or (lastType (lost.flatMap Block.heads)) := by
    simp [lastType, List.getLast?_append]
  simp only [pmerged, h1, h2]
  simp [pblock, pheads, hn, option_or_map]

theorem merged_reads {ryu : F64 → Bytes} {rf : Bytes → Option F64} (F : FloatText ryu rf) : ∀ {bs : List Block},
    (∀ b ∈ bs, ∀ c ∈ b.calls, NoHistCall c) → MergedReads rf Name.render bs (pmerged ryu bs) := by
  intro bs h
  refine ⟨rfl, rfl, rfl, ?_⟩
  show List.Forall₂ _ _ (bs.flatMap fun b => (pblock ryu b).metrics)
  induction bs with
  | nil => exact .nil
  | cons b bs ih =>
    rw [List.flatMap_cons, List.flatMap_cons]
    exact List.rel_append (block_reads F (h b (by simp))).metrics (ih fun b hb => h b (by simp [hb]))

theorem messagesOf_snoc (lost bs : List Block) (b : Block) (hb : bs ≠ []) :
    messagesOf lost (bs ++ [b]) = messagesOf lost bs ++ [[b]] := by
  cases bs with
  | nil => exact absurd rfl hb
  | cons c bs => simp [messagesOf]

theorem messagesOf_mem {lost bs l : List Block} (h : l ∈ messagesOf lost bs) : ∀ b ∈ l, b ∈ lost ∨ b ∈ bs := by
  intro b hb
  cases bs with
  | nil => simp [messagesOf] at h
  | cons c bs =>
    rcases List.mem_cons.1 h with rfl | h
    · rcases List.mem_append.1 hb with hb | hb
      · exact .inl hb
      · exact .inr (by simp at hb; simp [hb])
    · obtain ⟨d, hd, rfl⟩ := List.mem_map.1 h
      exact .inr (by simp at hb; simp [hb, hd])

/-- What is in the buffer after some blocks, and what was written before. -/
theorem segment_fold (ryu : F64 → Bytes) (w : Bytes) {lost : List Block} {lf : PFields}
    (hd : decodeFamily lf = some (pmerged ryu lost)) (hlf : ∀ g ∈ lf, FieldOk g) (bs : List Block) : bs ≠ [] →
    (∀ b ∈ bs, b.Wf) → (∀ c ∈ bs.flatMap Block.calls, NoHistCall c) →
    (encFields lf).length + ((bs.flatMap Block.calls).map (callSize (labelText ryu))).sum < 2 ^ 64 →
    ∃ (ms : List PFields) (fs : PFields) (before : List (List Block)) (last : List Block),
      (bs.flatMap Block.calls).foldl (Abs.call ryu) ⟨.init, lf, w⟩ =
        ⟨.metrics, fs, w ++ ms.flatMap fun m => frame (encFields m)⟩ ∧
      messagesOf lost bs = before ++ [last] ∧
      readAll decodeFamily ms = some (before.map (pmerged ryu)) ∧ decodeFamily fs = some (pmerged ryu last) ∧
      (∀ m ∈ ms, (∀ g ∈ m, FieldOk g) ∧ (encFields m).length < 2 ^ 64) ∧ (∀ g ∈ fs, FieldOk g) ∧
      (encFields fs).length ≤ (encFields lf).length + ((bs.flatMap Block.calls).map (callSize (labelText ryu))).sum := by
  induction bs using List.reverseRecOn with
  | nil => intro h; exact absurd rfl h
  | append_singleton bs b ih =>
    intro _ hw hc hs
    have hb := hw b (by simp)
    simp only [List.flatMap_append, List.flatMap_cons, List.flatMap_nil, List.append_nil] at hc hs ⊢
    rw [sum_calls_append] at hs ⊢
    have hcb : ∀ c ∈ b.calls, NoHistCall c := fun c h => hc c (List.mem_append.2 (.inr h))
    have hone : ∀ w, ∃ fs, b.calls.foldl (Abs.call ryu) ⟨.init, [], w⟩ = ⟨.metrics, fs, w⟩ ∧
        decodeFamily fs = some (pblock ryu b) ∧ (∀ g ∈ fs, FieldOk g) ∧
        (encFields fs).length ≤ (b.calls.map (callSize (labelText ryu))).sum := by
      intro w
      obtain ⟨fs, hf, hd1⟩ := block_fold ryu w hb (block_fits hcb (by omega))
      have hle := fold_le ryu b.calls ⟨.init, [], w⟩
      have s0 : Stream w ⟨.init, [], w⟩ [] := ⟨by simp, by simp, by simp⟩
      obtain ⟨_, s1⟩ := stream_fold (ryu := ryu) w b.calls s0 (by simp only [encFields_nil, List.length_nil]; omega)
      rw [hf] at s1 hle
      exact ⟨fs, hf, hd1, s1.fs, by simpa [encFields_nil] using hle⟩
    rcases bs with _ | ⟨b', bs'⟩
    · obtain ⟨fs, h1, h2, h3, h4⟩ := hone w
      refine ⟨[], lf ++ fs, [], lost ++ [b], ?_, rfl, rfl, decode_merged hb hd h2, by simp, ?_, ?_⟩
      · simpa using lost_fold ryu w lf hb h1
      · exact fun g hg => (List.mem_append.1 hg).elim (hlf g) (h3 g)
      · rw [encFields_append, List.length_append]
        simp only [List.flatMap_nil, List.map_nil, List.sum_nil]
        omega
    · generalize hbs : b' :: bs' = bs at *
      have hne : bs ≠ [] := by rw [← hbs]; simp
      obtain ⟨ms, fs, before, last, h1, h2, h3, h4, h5, h6, h7⟩ := ih hne (fun b h => hw b (by simp [h]))
        (fun c h => hc c (List.mem_append.2 (.inl h))) (by omega)
      obtain ⟨fs', g1, g2, g3, g4⟩ := hone (w ++ (ms ++ [fs]).flatMap fun m => frame (encFields m))
      refine ⟨ms ++ [fs], fs', before ++ [last], [b], ?_, ?_, ?_, ?_, ?_, g3, by omega⟩
      · rw [List.foldl_append, h1]
        obtain ⟨c, cs, hcs⟩ : ∃ c cs, b.calls = c :: cs := by
          obtain ⟨h, hs', he⟩ := List.exists_cons_of_ne_nil hb.headed
          exact ⟨h, _, by rw [Block.calls, he]; rfl⟩
        have hh : IsHead c := block_head hb [] c (by simp [hcs])
        rw [hcs, List.foldl_cons] at g1 ⊢
        rw [← call_flush ryu _ hh, Abs.flush, if_pos rfl, ← g1]
        simp
      · rw [messagesOf_snoc _ _ _ hne, h2]
      · rw [List.map_append]
        exact readAll_append _ _ _ h3 (by simp [readAll, h4])
      · rw [g2, pmerged_one]
      · intro m hm
        rcases List.mem_append.1 hm with hm | hm
        · exact h5 m hm
        · rw [List.mem_singleton] at hm
          subst hm
          exact ⟨h6, by omega⟩

/-- Help texts and types at the end write what is pending and nothing else. -/
theorem tail_fold (ryu : F64 → Bytes) : ∀ (tail : List EncCall) (a : Abs), (∀ c ∈ tail, IsHead c) →
    (tail.foldl (Abs.call ryu) a).flush.w = a.flush.w := by
  intro tail
  induction tail with
  | nil => intro a _; rfl
  | cons c tail ih =>
    intro a h
    rw [List.foldl_cons, ih _ fun c hc => h c (by simp [hc])]
    have hst := head_st ryu a (h c (by simp))
    rw [Abs.flush, if_neg hst]
    cases c with
    | sample x ls n => exact (h (.sample x ls n) (by simp)).elim
    | help n t => rfl
    | type k n => rfl

/-- The encoder since its last error: what the calls of the answered scrapes `acc` did, with `lf` in the buffer at first. -/
structure Since (ryu : F64 → Bytes) (e : ProtoEnc Sink) (acc : List EncCall) (lf : PFields) (w out : Bytes) : Prop where
  holds : Holds (withW e out) (acc.foldl (Abs.call ryu) ⟨.init, lf, []⟩).flush
  writer : e.writer.out = w ++ out
  first : ∀ c ∈ acc.head?, IsHead c

theorem head_append {acc cs : List EncCall} (h : ∀ c ∈ acc.head?, IsHead c) (h' : ∀ c ∈ cs.head?, IsHead c) :
    ∀ c ∈ (acc ++ cs).head?, IsHead c := by
  cases acc with
  | nil => exact h'
  | cons d acc => exact h

theorem flush_fs_le (ryu : F64 → Bytes) (acc : List EncCall) (lf : PFields) :
    (encFields (acc.foldl (Abs.call ryu) ⟨.init, lf, []⟩).flush.fs).length ≤
      (encFields lf).length + (acc.map (callSize (labelText ryu))).sum := by
  have h1 := flush_le (acc.foldl (Abs.call ryu) ⟨.init, lf, []⟩)
  have h2 := fold_le ryu acc ⟨.init, lf, []⟩
  simp only at h2
  omega

theorem attempts_gets {ryu : F64 → Bytes} {rf : Bytes → Option F64} (F : FloatText ryu rf) (m : Mode) :
    ∀ (css : List (List EncCall)) {e : ProtoEnc Sink} {acc : List EncCall} {lost : List Block} {lf : PFields} {w out : Bytes},
    Since ryu e acc lf w out → decodeFamily lf = some (pmerged ryu lost) → (∀ g ∈ lf, FieldOk g) →
    (∀ b ∈ lost, ∀ c ∈ b.calls, NoHistCall c) → (∀ c ∈ acc, NoHistCall c) →
    (∀ cs ∈ css, ∀ c ∈ cs.head?, IsHead c) → (∀ c ∈ css.flatten, NoHistCall c) →
    (encFields lf).length + (acc.map (callSize (labelText ryu))).sum +
      (css.flatten.map (callSize (labelText ryu))).sum < 2 ^ 64 →
    ∃ out', (attempts m ryu css e).2.writer.out = w ++ out' ∧
      Gets rf Name.render acc lost css (attempts m ryu css e).1 out' := by
  intro css
  induction css with
  | nil =>
    intro e acc lost lf w out h hd hlf hl ha _ _ hs
    simp only [List.flatten_nil, List.map_nil, List.sum_nil, Nat.add_zero] at hs
    refine ⟨out, h.writer, ?_⟩
    obtain ⟨bs, tail, rfl, hw, ht⟩ := blocks_exist acc h.first
    have hout : out = ((bs.flatMap Block.calls).foldl (Abs.call ryu) ⟨.init, lf, []⟩).flush.w := by
      have := h.holds.writer
      rw [List.foldl_append, tail_fold ryu tail _ ht] at this
      exact this
    rw [sum_calls_append] at hs
    by_cases hne : bs = []
    · subst hne
      have : out = [] := by simpa [Abs.flush] using hout
      subst this
      exact .done rfl hw ht (gs := []) (by rfl) .nil
    · have hcb : ∀ c ∈ bs.flatMap Block.calls, NoHistCall c := fun c h => ha c (List.mem_append.2 (.inl h))
      obtain ⟨ms, fs, before, last, h1, h2, h3, h4, h5, h6, h7⟩ := segment_fold ryu [] hd hlf bs hne hw hcb (by omega)
      rw [h1, Abs.flush, if_pos rfl] at hout
      refine .done rfl hw ht (gs := (messagesOf lost bs).map (pmerged ryu)) ?_ ?_
      · rw [hout, show [] ++ (ms.flatMap fun m => frame (encFields m)) ++ frame (encFields fs) =
          (ms ++ [fs]).flatMap fun m => frame (encFields m) by simp]
        refine messages_decode ?_ ?_
        · intro m hm
          rcases List.mem_append.1 hm with hm | hm
          · exact h5 m hm
          · rw [List.mem_singleton] at hm
            subst hm
            exact ⟨h6, by omega⟩
        · rw [h2, List.map_append]
          exact readAll_append _ _ _ h3 (by simp [readAll, h4])
      · rw [List.forall₂_map_right_iff, List.forall₂_same]
        intro l hm
        refine merged_reads F fun b hb => ?_
        rcases messagesOf_mem hm b hb with hb | hb
        · exact hl b hb
        · exact fun c hc => hcb c (List.mem_flatMap.2 ⟨b, hb, hc⟩)
  | cons cs css ih =>
    intro e acc lost lf w out h hd hlf hl ha hr hc hs
    rw [List.flatten_cons, sum_calls_append] at hs
    have hcs : ∀ c ∈ cs, NoHistCall c := fun c h => hc c (by rw [List.flatten_cons]; exact List.mem_append.2 (.inl h))
    have hcs' : ∀ c ∈ css.flatten, NoHistCall c := fun c h => hc c (by rw [List.flatten_cons]; exact List.mem_append.2 (.inr h))
    have hle := flush_fs_le ryu acc lf
    obtain ⟨o1, e1, s1, s2, -⟩ := scrape_consistent (m := m) (ryu := ryu) h.holds (hr cs (by simp)) hcs (by omega)
    simp only [attempts, s1]
    cases o1 with
    | panic => exact absurd rfl s2
    | ok u =>
      obtain ⟨out1, j1, j2⟩ := (simP_scrape m ryu cs).ok_run s1 out
      obtain ⟨b1, h1, r1, l1⟩ := calls_run m ryu cs h.holds (.inr (hr cs (by simp))) hcs (by omega)
      obtain ⟨b2, h2, r2⟩ := r1.flush m (by omega)
      have hy : scrapeOn m ryu cs (withW e out) = (.ok (), b2) := by
        have h2' : flush m b1 = (.ok (), b2) := h2
        simp only [scrapeOn, RS.bind_run, h1, h2']
      rw [j1] at hy
      simp only [Prod.mk.injEq, true_and] at hy
      rw [← hy, fold_calls_flush ryu _ (hr cs (by simp)), ← List.foldl_append] at r2
      obtain ⟨out', k1, k2⟩ := ih (acc := acc ++ cs) (lost := lost) (w := w) (out := out ++ out1)
        ⟨r2.holds, by rw [j2, h.writer, List.append_assoc], head_append h.first (hr cs (by simp))⟩ hd hlf hl
        (fun c hc => (List.mem_append.1 hc).elim (ha c) (hcs c)) (fun c hc => hr c (by simp [hc])) hcs'
        (by rw [sum_calls_append]; omega)
      exact ⟨out', k1, .ok k2⟩
    | err =>
      obtain ⟨cs1, rest, e0, rfl, k2, k3, k4⟩ := scrape_err hcs (by omega) s1
      rw [sum_calls_append] at hs
      obtain ⟨out0, k5, k5'⟩ := (simP_runAll m ryu cs1).ok_run k3 out
      have hr1 : ∀ c ∈ cs1.head?, IsHead c := by
        intro c h
        refine hr _ List.mem_cons_self c ?_
        cases cs1 with
        | nil => simp at h
        | cons d cs1 => simpa using h
      obtain ⟨b0, k6, k7, k8⟩ := calls_run m ryu cs1 h.holds (.inr hr1) (fun c h => hcs c (by simp [h])) (by omega)
      rw [k5] at k6
      simp only [Prod.mk.injEq, true_and] at k6
      subst k6
      have k9 := fun v => holds_flush_err k7 (by omega) k4 v
      -- the pending block
      have hfold : cs1.foldl (Abs.call ryu) (acc.foldl (Abs.call ryu) ⟨.init, lf, []⟩).flush =
          (acc ++ cs1).foldl (Abs.call ryu) ⟨.init, lf, []⟩ := by
        have hst := (k9 []).1
        cases cs1 with
        | nil =>
          simp only [List.foldl_nil] at hst
          exact absurd hst (Abs.flush_st _)
        | cons c cs1 =>
          rw [List.foldl_append, List.foldl_cons, List.foldl_cons, call_flush ryu _ (hr1 c (by simp))]
      rw [hfold] at k7 k8 k9
      obtain ⟨bs, tail, hbt, hw, ht⟩ := blocks_exist (acc ++ cs1) (head_append h.first hr1)
      have htail : tail = [] := by
        rcases List.eq_nil_or_concat tail with rfl | ⟨t, c, rfl⟩
        · rfl
        · exfalso
          have hst := (k9 []).1
          rw [hbt, List.concat_eq_append, ← List.append_assoc, List.foldl_append] at hst
          exact head_st ryu _ (ht c (by simp [List.concat_eq_append])) hst
      subst htail
      rw [List.append_nil] at hbt
      have hne : bs ≠ [] := by
        rintro rfl
        have hst := (k9 []).1
        rw [hbt] at hst
        simp at hst
      have hca : ∀ c ∈ bs.flatMap Block.calls, NoHistCall c := by
        intro c hc
        rw [← hbt] at hc
        rcases List.mem_append.1 hc with hc | hc
        · exact ha c hc
        · exact hcs c (by simp [hc])
      have hsum : ((bs.flatMap Block.calls).map (callSize (labelText ryu))).sum =
          (acc.map (callSize (labelText ryu))).sum + (cs1.map (callSize (labelText ryu))).sum := by
        rw [← hbt, sum_calls_append]
      obtain ⟨ms, fs, before, last, g1, g2, g3, g4, g5, g6, g7⟩ := segment_fold ryu [] hd hlf bs hne hw hca (by omega)
      rw [hbt, g1] at k7 k9
      have hreads : ∀ l ∈ messagesOf lost bs, MergedReads rf Name.render l (pmerged ryu l) := by
        intro l hm
        refine merged_reads F fun b hb => ?_
        rcases messagesOf_mem hm b hb with hb | hb
        · exact hl b hb
        · exact fun c hc => hca c (List.mem_flatMap.2 ⟨b, hb, hc⟩)
      have hmw : out ++ out0 = ms.flatMap fun m => frame (encFields m) := k7.writer
      obtain ⟨b2, h2, r2⟩ := k7.flush m (by simp only; omega)
      obtain ⟨o, outf, st', buf', f1, f2 | ⟨st₁, s₁, buf₁, p, f2, f3, f4, _, _⟩⟩ :=
        simP_flushBuf m e0.state e0.writer (out ++ out0) e0.buf
      · exfalso
        obtain ⟨s', f2, _, _⟩ := f2
        have f1' : flushBuf m (withW e0 (out ++ out0)) = (o, _) := f1
        have f2' : flushBuf m e0 = (o, _) := f2
        rw [h2] at f1'
        rw [k4] at f2'
        simp only [Prod.mk.injEq] at f1' f2'
        rw [← f1'.1] at f2'
        exact absurd f2'.1 (by simp)
      · have f1' : flushBuf m (withW e0 (out ++ out0)) = (o, _) := f1
        have f2' : flushBuf m e0 = (.err, _) := f2
        rw [h2] at f1'
        rw [k4] at f2'
        simp only [Prod.mk.injEq, true_and] at f1' f2'
        have hout : outf = frame (encFields fs) := by
          have h1 := r2.2.1
          rw [f1'.2, Abs.flush, if_pos rfl] at h1
          simp only [List.nil_append] at h1
          rw [← hmw] at h1
          exact List.append_cancel_left h1
        have hw1 : e1.writer.out = w ++ (out ++ out0) ++ p := by
          rw [f2']; simp only; rw [f3, k5', h.writer, List.append_assoc w]
        obtain ⟨out', q1, q2⟩ := ih (e := e1) (acc := []) (lost := last) (lf := fs) (w := w ++ (out ++ out0) ++ p) (out := [])
          ⟨by simpa [Abs.flush] using (k9 []).2.holds, by rw [hw1, List.append_nil], by simp⟩ g4 g6
          (fun b hb => by
            rcases messagesOf_mem (lost := lost) (bs := bs) (l := last) (by rw [g2]; simp) b hb with hb | hb
            · exact hl b hb
            · exact fun c hc => hca c (List.mem_flatMap.2 ⟨b, hb, hc⟩)) (by simp) (fun c hc => hr c (by simp [hc])) hcs'
          (by simp only [List.map_nil, List.sum_nil]; omega)
        refine ⟨out ++ out0 ++ p ++ out', by rw [q1]; simp, ?_⟩
        refine .err k2 hbt hw g2 (gs := before.map (pmerged ryu)) (full := [fs].flatMap fun m => frame (encFields m))
          (g := pmerged ryu last) ?_ ?_ ?_ (hreads last (by rw [g2]; simp)) (by simpa [hout] using f4) q2
        · rw [hmw]
          exact messages_decode g5 g3
        · rw [List.forall₂_map_right_iff, List.forall₂_same]
          exact fun l hm => hreads l (by rw [g2]; simp [hm])
        · refine messages_decode ?_ (by simp [readAll, g4])
          intro m hm
          rw [List.mem_singleton] at hm
          subst hm
          exact ⟨g6, by omega⟩

end Measured.Proto
