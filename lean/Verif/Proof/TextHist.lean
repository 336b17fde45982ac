import Verif.Proof.TextFamily
import Verif.Spec.Histogram

/-! Histogram expositions in general, and after a sequence of observations. -/

namespace Measured
open Spec F64

/-- The bucket lines for any state: the counts shown, whatever overflow does. -/
theorem textBuckets_gen (m : Mode) (ryu : F64 → Bytes) (n : Name) (ls : Labels) :
    ∀ (les : List F64) (bs : List Nat) (val : Nat) (e : TextEnc Bytes), les.length = bs.length →
      (m = .release → ∃ v, (textBuckets m ryu n ls les bs val e).1 = .ok v) ∧
      ∀ v, (textBuckets m ryu n ls les bs val e).1 = .ok v → ∃ counts st, counts.length = les.length ∧
        (counts ≠ [] → counts.getLast? = some v) ∧ (counts = [] → v = val) ∧
        (textBuckets m ryu n ls les bs val e).2 = ⟨st, e.writer ++ bucketLines ryu n ls les counts⟩ := by
  intro les
  induction les with
  | nil =>
    intro bs val e hl
    cases bs with
    | nil =>
      refine ⟨fun _ => ⟨val, rfl⟩, fun v hv => ⟨[], e.state, rfl, by simp, ?_, by simp [textBuckets, bucketLines]⟩⟩
      intro _
      simp [textBuckets] at hv
      exact hv.symm
    | cons b bs => simp at hl
  | cons le les ih =>
    intro bs val e hl
    cases bs with
    | nil => simp at hl
    | cons b bs =>
      have hl' : les.length = bs.length := by simpa using hl
      simp only [textBuckets]
      cases ha : addU m val b with
      | err => exact absurd ha (by unfold addU; split <;> (try cases m) <;> simp)
      | panic =>
        constructor
        · intro hm
          subst hm
          unfold addU at ha
          split at ha <;> simp at ha
        · intro v hv
          rw [RS.bind_run] at hv
          cases hv
      | ok v1 =>
        have e1 : (RS.lift (Out.ok v1) : RS (TextEnc Bytes) Nat) e = (.ok v1, e) := rfl
        rw [RS.bind_ok e1, RS.bind_ok (textValue_bytes _ _ _ _ _)]
        obtain ⟨h1, h2⟩ := ih bs v1 ⟨.metrics, e.writer ++ sampleLine ryu (.suffix n .bucket)
          (ls ++ [(b!"le", .float le)]) (.int (asI64 v1))⟩ hl'
        refine ⟨h1, fun v hv => ?_⟩
        obtain ⟨counts, st, c1, c2, c3, c4⟩ := h2 v hv
        refine ⟨v1 :: counts, st, by simp [c1], fun _ => ?_, by simp, ?_⟩
        · cases counts with
          | nil => simp [c3 rfl]
          | cons c cs => rw [List.getLast?_cons_cons]; exact c2 (by simp)
        · rw [c4]; simp [bucketLines]

def bucketWritten (n : Name) (ls : Labels) (les : List F64) (counts : List Nat) : List Written :=
  List.zipWith (fun b c => ⟨.suffix n .bucket, ls ++ [(b!"le", .float b)], .int (asI64 c)⟩) les counts

theorem bucketLines_zip (ryu : F64 → Bytes) (n : Name) (ls : Labels) (les : List F64) (counts : List Nat) :
    bucketLines ryu n ls les counts = unlines ((bucketWritten n ls les counts).map (Written.text ryu)) := by
  induction les generalizing counts with
  | nil => rfl
  | cons le les ih =>
    cases counts with
    | nil => rfl
    | cons c cs =>
      simp only [bucketLines, ih, bucketWritten, List.zipWith_cons_cons, List.map_cons]
      simp [unlines, Written.text, sampleLine]

theorem bucketWritten_valid {n : Name} {ls : Labels} (hn : MetricNameRe n.render) (hl : LabelsOk ls) (les : List F64)
    (counts : List Nat) : ∀ s ∈ bucketWritten n ls les counts, s.valid := by
  induction les generalizing counts with
  | nil => intro s hs; cases hs
  | cons le les ih =>
    cases counts with
    | nil => intro s hs; cases hs
    | cons c cs =>
      intro s hs
      simp only [bucketWritten, List.zipWith_cons_cons, List.mem_cons] at hs
      rcases hs with rfl | hs
      · exact ⟨suffix_valid hn _, labelsOk_le hl _⟩
      · exact ih cs s hs

theorem bucketWritten_reads {ryu : F64 → Bytes} {rf : Bytes → Option F64} (F : FloatText ryu rf) (n : Name)
    (ls : Labels) (les : List F64) (counts : List Nat) :
    List.Forall₂ (SampleReads rf)
      (List.zipWith (fun b c => ⟨n.render ++ b!"_bucket", ls ++ [(b!"le", .float b)], .int c⟩) les (counts.map asI64))
      ((bucketWritten n ls les counts).map (Written.sample ryu)) := by
  induction les generalizing counts with
  | nil => exact .nil
  | cons le les ih =>
    cases counts with
    | nil => exact .nil
    | cons c cs => exact .cons ⟨rfl, labelsRead_texts F _, rfl⟩ (ih cs)

/-- Written samples read back line by line. -/
theorem readLines_written {ryu : F64 → Bytes} {rf : Bytes → Option F64} (F : FloatText ryu rf) (ws : List Written)
    (h : ∀ s ∈ ws, s.valid) :
    readLines rf (unlines (ws.map (Written.text ryu))) = some ((ws.map (Written.sample ryu)).map .sample) := by
  have := readLines_unlines (rf := rf) (ws.map fun s => (s.text ryu, Line.sample (s.sample ryu)))
    (by
      intro p hp
      obtain ⟨s, hs, rfl⟩ := List.mem_map.1 hp
      exact Written.noNewline F (h s hs))
    (by
      intro p hp
      obtain ⟨s, hs, rfl⟩ := List.mem_map.1 hp
      exact Written.readLine F (h s hs))
  simpa [Function.comp_def] using this

theorem histogram_gen (m : Mode) (ryu : F64 → Bytes) (n : Name) (ls : Labels) (le : List F64) (h : HistInner)
    (e : TextEnc Bytes) (hl : le.length = h.buckets.length) :
    (m = .release → (textHistogram m ryu le h ls n e).1 = .ok ()) ∧
    ((textHistogram m ryu le h ls n e).1 = .ok () → ∃ (counts : List Nat) (total : Nat),
      counts.length = le.length + 1 ∧ counts.getLast? = some total ∧
      (textHistogram m ryu le h ls n e).2 = ⟨.metrics, e.writer ++
        unlines ((bucketWritten n ls (le ++ [F64.infinity]) counts ++
          ([⟨.suffix n .sum, ls, .float h.sum⟩, ⟨.suffix n .count, ls, .int (asI64 total)⟩] : List Written)).map
          (Written.text ryu))⟩) := by
  obtain ⟨h1, h2⟩ := textBuckets_gen m ryu n ls le h.buckets 0 e hl
  have tail : ∀ (total : Nat) (e : TextEnc Bytes),
      (do textValue ryu (.suffix n .bucket) (ls ++ [(b!"le", .float F64.infinity)]) (.int (asI64 total))
          textValue ryu (.suffix n .sum) ls (.float h.sum)
          textValue ryu (.suffix n .count) ls (.int (asI64 total)) : RS (TextEnc Bytes) Unit) e =
      (.ok (), ⟨.metrics, e.writer ++
        unlines (([⟨.suffix n .bucket, ls ++ [(b!"le", .float F64.infinity)], .int (asI64 total)⟩,
          ⟨.suffix n .sum, ls, .float h.sum⟩, ⟨.suffix n .count, ls, .int (asI64 total)⟩] : List Written).map
            (Written.text ryu))⟩) := by
    intro total e
    rw [RS.bind_ok (textValue_bytes _ _ _ _ _), RS.bind_ok (textValue_bytes _ _ _ _ _), textValue_bytes]
    simp [unlines, Written.text, sampleLine]
  unfold textHistogram
  simp only [HistInner.sample]
  cases hb : textBuckets m ryu n ls le h.buckets 0 e with
  | mk o e1 =>
    rw [hb] at h1 h2
    simp only at h1 h2
    cases o with
    | err =>
      constructor
      · intro hm; obtain ⟨v, hv⟩ := h1 hm; cases hv
      · intro hok; rw [RS.bind_run, hb] at hok; cases hok
    | panic =>
      constructor
      · intro hm; obtain ⟨v, hv⟩ := h1 hm; cases hv
      · intro hok; rw [RS.bind_run, hb] at hok; cases hok
    | ok v =>
      rw [RS.bind_ok hb]
      obtain ⟨counts, st, c1, c2, c3, c4⟩ := h2 v rfl
      cases ha : addU m v h.inf with
      | err => exact absurd ha (by unfold addU; split <;> (try cases m) <;> simp)
      | panic =>
        constructor
        · intro hm; subst hm
          unfold addU at ha
          split at ha <;> simp at ha
        · intro hok
          rw [RS.bind_run] at hok
          cases hok
      | ok total =>
        have e2 : (RS.lift (Out.ok total) : RS (TextEnc Bytes) Nat) e1 = (.ok total, e1) := rfl
        rw [RS.bind_ok e2]
        have ht := tail total e1
        refine ⟨fun _ => by rw [ht], fun _ => ⟨counts ++ [total], total, by simp [c1], by simp, ?_⟩⟩
        rw [ht, c4, bucketLines_zip]
        simp only [bucketWritten, List.zipWith_append c1.symm, List.map_append, unlines_append]
        simp [unlines]

/-! ## After a sequence of observations -/

theorem take_range {i n : Nat} (h : i ≤ n) : (List.range n).take i = List.range i := by
  rw [List.take_range, Nat.min_eq_left h]

/-- The observations that are not above the bound. -/
def notAbove (b : F64) (xs : List F64) : Nat := xs.countP fun x => !flt b x

theorem histAfter_counts {le xs : List F64} {h : HistInner} (hle : le.Pairwise fun a b => fle a b = true)
    (ha : HistAfter le xs h) (hx : xs.length < W64) :
    (∀ i b, le[i]? = some b → (h.buckets.take (i + 1)).sum = notAbove b xs) ∧
      h.buckets.sum + h.inf = xs.length := by
  have hmod : ∀ j, hits le xs j % W64 = hits le xs j := fun j =>
    Nat.mod_eq_of_lt (Nat.lt_of_le_of_lt (hits_le le xs j) hx)
  have hb : h.buckets = (List.range le.length).map fun j => hits le xs j := by
    rw [ha.buckets]; exact List.map_congr_left fun j _ => hmod j
  constructor
  · intro i b hi
    obtain ⟨hlt, _⟩ := List.getElem?_eq_some_iff.1 hi
    rw [hb, ← List.map_take, take_range (by omega), sum_hits]
    unfold notAbove
    apply List.countP_congr
    intro x _
    have := bucketOf_le_iff hle x hi
    simp only [decide_eq_true_eq, Bool.not_eq_true']
    rw [← this]; omega
  · have hs := sum_hits le xs (le.length + 1)
    rw [List.range_succ, List.map_append, List.sum_append] at hs
    simp only [List.map_cons, List.map_nil, List.sum_cons, List.sum_nil, Nat.add_zero] at hs
    rw [hb, ha.inf, hmod, hs]
    rw [List.countP_eq_length]
    intro x _
    have := bucketOf_le le x
    simp; omega

end Measured
