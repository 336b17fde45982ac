import Verif.Props.Agree
import Verif.Props.TextExact
import Verif.Props.ProtoCalls
import Verif.Proof.RunAll

/-!
# Exactly when text and protobuf expositions agree (C63)
-/

set_option exponentiation.threshold 3000

namespace Measured
open Measured.Spec Measured.Proto F64

/-- HELP and TYPE of a family. -/
def famHeads (f : FamilyIn) : List EncCall :=
  (match f.help with
    | some t => [.help f.name t]
    | none => []) ++ [.type f.kind f.name]

/-- The blocks of a list of families, after the calls `pre`. -/
def famBlocks : List EncCall → List FamilyIn → List (FamilyIn × Block)
  | _, [] => []
  | pre, f :: fs =>
    if f.samples = [] then famBlocks (pre ++ famHeads f) fs
    else (f, ⟨pre ++ famHeads f, f.samples.map fun s => (s, f.name)⟩) :: famBlocks [] fs

theorem famHeads_head (f : FamilyIn) : ∀ c ∈ famHeads f, IsHead c := by
  intro c hc
  unfold famHeads at hc
  cases hh : f.help with
  | none => rw [hh] at hc; simp only [List.nil_append, List.mem_singleton] at hc; subst hc; trivial
  | some t =>
    rw [hh] at hc
    simp only [List.cons_append, List.nil_append, List.mem_cons, List.not_mem_nil, or_false] at hc
    rcases hc with rfl | rfl <;> trivial

theorem famHeads_calls (f : FamilyIn) : f.calls = famHeads f ++ f.samples.map fun s => .sample s.2 s.1 f.name := by
  unfold famHeads FamilyIn.calls
  cases f.help <;> simp

theorem famBlocks_calls : ∀ (fs : List FamilyIn) (pre : List EncCall), (∀ c ∈ pre, IsHead c) →
    ∃ tail, pre ++ fs.flatMap FamilyIn.calls = ((famBlocks pre fs).map Prod.snd).flatMap Block.calls ++ tail ∧
      (∀ b ∈ (famBlocks pre fs).map Prod.snd, b.Wf) ∧ ∀ c ∈ tail, IsHead c := by
  intro fs
  induction fs with
  | nil => intro pre hp; exact ⟨pre, by simp [famBlocks], by simp [famBlocks], hp⟩
  | cons f fs ih =>
    intro pre hp
    have hp' : ∀ c ∈ pre ++ famHeads f, IsHead c := fun c hc => (List.mem_append.1 hc).elim (hp c) (famHeads_head f c)
    unfold famBlocks
    by_cases hs : f.samples = []
    · rw [if_pos hs]
      obtain ⟨tail, h1, h2, h3⟩ := ih (pre ++ famHeads f) hp'
      refine ⟨tail, ?_, h2, h3⟩
      rw [← h1, List.flatMap_cons, famHeads_calls, hs]
      simp
    · rw [if_neg hs]
      obtain ⟨tail, h1, h2, h3⟩ := ih [] (by simp)
      rw [List.nil_append] at h1
      refine ⟨tail, ?_, ?_, h3⟩
      · rw [List.flatMap_cons, famHeads_calls, h1]
        simp [Block.calls, Function.comp_def]
      · intro b hb
        rw [List.map_cons] at hb
        rcases List.mem_cons.1 hb with rfl | hb
        · refine ⟨hp', ?_, by simpa using hs⟩
          simp [famHeads]
        · exact h2 b hb

theorem famBlocks_fst : ∀ (fs : List FamilyIn) (pre : List EncCall),
    (famBlocks pre fs).map Prod.fst = fs.filter fun f => f.samples ≠ [] := by
  intro fs
  induction fs with
  | nil => intro pre; rfl
  | cons f fs ih =>
    intro pre
    unfold famBlocks
    by_cases hs : f.samples = []
    · rw [if_pos hs, ih, List.filter_cons_of_neg (by simpa using hs)]
    · rw [if_neg hs, List.map_cons, ih, List.filter_cons_of_pos (by simpa using hs)]

theorem lastHelp_heads (pre : List EncCall) (f : FamilyIn) :
    lastHelp (pre ++ famHeads f) = match f.help with | some t => some (f.name, t) | none => lastHelp pre := by
  unfold lastHelp famHeads
  cases f.help with
  | none => simp [List.filterMap_append, helpOf]
  | some t =>
    simp only [List.filterMap_append, List.cons_append, List.nil_append]
    show (pre.filterMap helpOf ++ [(f.name, t)]).getLast? = _
    rw [List.getLast?_concat]

theorem famBlocks_pending : ∀ (fs : List FamilyIn) (pre : List EncCall),
    (∀ p ∈ famBlocks pre fs, p.1.help = none → lastHelp p.2.heads = none) → NoPendingHelp (lastHelp pre ≠ none) fs := by
  intro fs
  induction fs with
  | nil => intro pre _; trivial
  | cons f fs ih =>
    intro pre h
    unfold famBlocks at h
    by_cases hs : f.samples = []
    · rw [if_pos hs] at h
      refine ⟨fun _ _ => hs, ?_⟩
      have := ih _ h
      rw [lastHelp_heads] at this
      convert this using 1
      simp only [hs, and_true]
      cases f.help <;> simp
    · rw [if_neg hs] at h
      refine ⟨fun hp hh => ?_, ?_⟩
      · have := h _ (List.mem_cons_self ..) hh
        simp only [lastHelp_heads, hh] at this
        exact absurd this hp
      · have := ih [] fun p hp => h p (by simp [hp])
        convert this using 1
        simp [hs, lastHelp]

theorem famBlocks_shape : ∀ (fs : List FamilyIn) (pre : List EncCall), ∀ p ∈ famBlocks pre fs,
    (∃ q, p.2.heads = q ++ famHeads p.1) ∧ p.2.samples.map Prod.fst = p.1.samples := by
  intro fs
  induction fs with
  | nil => intro pre p hp; cases hp
  | cons f fs ih =>
    intro pre p hp
    unfold famBlocks at hp
    split at hp
    · exact ih _ p hp
    · rcases List.mem_cons.1 hp with rfl | hp
      · exact ⟨⟨pre, rfl⟩, by simp [Function.comp_def]⟩
      · exact ih _ p hp

theorem forall₂_both {α β γ δ : Type} {R : β → δ → Prop} {S : γ → δ → Prop} {f : α → β} {g : α → γ} :
    ∀ {l : List α} {ds : List δ}, List.Forall₂ R (l.map f) ds → List.Forall₂ S (l.map g) ds →
      ∀ a ∈ l, ∃ d, R (f a) d ∧ S (g a) d := by
  intro l
  induction l with
  | nil => intro _ _ _ a ha; cases ha
  | cons b l ih =>
    intro ds h1 h2 a ha
    rw [List.map_cons] at h1 h2
    cases h1 with
    | cons h1 h1' =>
      cases h2 with
      | cons h2 h2' =>
        rcases List.mem_cons.1 ha with rfl | ha
        · exact ⟨_, h1, h2⟩
        · exact ih h1' h2' a ha

/-- What is written for a counter or a gauge. -/
def oneWritten (n : Name) (s : Labels × Metric) : Written :=
  match writtenOf n s.1 s.2 with
  | w :: _ => w
  | [] => ⟨n, [], .int 0⟩

theorem writtenOf_one (n : Name) (s : Labels × Metric) (h : s.2.kind ≠ .histogram) : writtenOf n s.1 s.2 = [oneWritten n s] := by
  obtain ⟨ls, x⟩ := s
  cases x with
  | histogram => exact absurd rfl h
  | _ => rfl

/-- A count of 2^63 or more is negative in text. -/
theorem counter_agrees {c : Nat} (hc : c < 2 ^ 64) (h : canon (F64.ofNat c) = F64.ofInt (asI64 c)) : c < 2 ^ 63 := by
  by_contra hge
  have hneg : asI64 c < 0 := by
    unfold asI64
    rw [if_neg (by omega)]
    omega
  have h1 : (F64.ofNat c).isNaN = false := round_not_nan _ _ _
  rw [canon, h1] at h
  have h2 := congrArg F64.sign h
  simp only [Bool.false_eq_true, if_false, F64.ofNat, F64.ofInt, round_sign, hneg, decide_true] at h2

/-- C63, exactly, for all lists of families without histograms whose help texts have no line feed: text and protobuf tell
the same if and only if the text can be read at all, the families with samples have help texts that are shown as they
are and counts below 2^63, and no help text is pending when a family without help comes. -/
theorem C63_iff {ryu : F64 → Bytes} {rf : Bytes → Option F64} (F : FloatText ryu rf) (m : Mode)
    (fs : List FamilyIn) (hn : ∀ f ∈ fs, MetricNameRe f.name.text) (ht : ∀ f ∈ fs, ∀ t, f.help = some t → (0x0a : Byte) ∉ t)
    (hk : ∀ f ∈ fs, ∀ s ∈ f.samples, s.2.kind = f.kind) (hl : ∀ f ∈ fs, ∀ s ∈ f.samples, ∀ l ∈ s.1, LabelNameRe l.1)
    (hc : ∀ f ∈ fs, ∀ s ∈ f.samples, Counts64 s.2) (hh : ∀ f ∈ fs, f.kind ≠ .histogram)
    (hs : ((fs.flatMap FamilyIn.calls).map (callSize (labelText ryu))).sum < 2 ^ 64) :
    ∃ t e e' ps, (textEncoder m ryu).runAll (fs.flatMap FamilyIn.calls) (TextEnc.new []) = (.ok (), t) ∧
      (protoEncoder m ryu).runAll (fs.flatMap FamilyIn.calls) (ProtoEnc.new ([] : Bytes)) = (.ok (), e) ∧
      flush m e = (.ok (), e') ∧ decodeScrape e'.writer = some ps ∧
      ((∃ gs, readFamilies rf t.writer = some gs ∧ ScrapesAgree gs ps) ↔
        (∀ f ∈ fs, ∀ t, f.help = some t → helpSeen t ≠ none) ∧
        (∀ f ∈ fs, f.samples ≠ [] → (∀ t, f.help = some t → helpSeen t = some t) ∧
          ∀ s ∈ f.samples, ∀ c, s.2 = .counter c → c < 2 ^ 63) ∧
        NoPendingHelp False fs) := by
  have hk' : ∀ f ∈ fs, f.kind ≠ .histogram ∧ ∀ s ∈ f.samples, s.2.kind ≠ .histogram :=
    fun f hf => ⟨hh f hf, fun s hs => by rw [hk f hf s hs]; exact hh f hf⟩
  obtain ⟨st, out, t1, t2, t3, _⟩ := text_seen F m fs hn ht hk hl hc
  obtain ⟨tail, b1, b2, b3⟩ := famBlocks_calls fs [] (by simp)
  rw [List.nil_append] at b1
  obtain ⟨e', out', ps, p1, p2, p3, p4⟩ := C44_exact F m [fs.flatMap FamilyIn.calls] _ tail (ProtoEnc.new ([] : Bytes))
    ⟨rfl, .inl rfl⟩ (by simpa using b1) b2 b3
    (by
      intro cs hcs c hc
      rw [List.mem_singleton.1 hcs] at hc
      cases fs with
      | nil => simp at hc
      | cons f fs =>
        rw [List.flatMap_cons, famHeads_calls] at hc
        have : ∃ d ds, famHeads f = d :: ds := by unfold famHeads; cases f.help <;> simp
        obtain ⟨d, ds, hd⟩ := this
        rw [hd] at hc
        simp only [List.cons_append, List.head?_cons, Option.mem_def, Option.some.injEq] at hc
        rw [← hc]
        exact famHeads_head f d (by rw [hd]; simp))
    (by
      intro c hc
      rw [List.flatten_singleton] at hc
      obtain ⟨f, hf, hc⟩ := List.mem_flatMap.1 hc
      unfold FamilyIn.calls at hc
      rcases List.mem_append.1 hc with hc | hc
      · cases hf : f.help with
        | none => rw [hf] at hc; cases hc
        | some t => rw [hf] at hc; rw [List.mem_singleton.1 hc]; trivial
      · rcases List.mem_cons.1 hc with rfl | hc
        · exact hh f hf
        · obtain ⟨s, hs, rfl⟩ := List.mem_map.1 hc
          exact (hk' f hf).2 s hs)
    (by simpa using hs)
  have hrs : runScrapes m ryu [fs.flatMap FamilyIn.calls] =
      ((protoEncoder m ryu).runAll (fs.flatMap FamilyIn.calls) >>= fun _ => flush m) := by
    show ((protoEncoder m ryu).runAll (fs.flatMap FamilyIn.calls) >>= fun _ => (flush m >>= fun _ => runScrapes m ryu [])) = _
    congr 1
    funext _
    exact RS.bind_unit _
  rw [hrs, RS.bind_run] at p1
  cases hr : (protoEncoder m ryu).runAll (fs.flatMap FamilyIn.calls) (ProtoEnc.new ([] : Bytes)) with
  | mk o e1 =>
  rw [hr] at p1
  cases o with
  | err => simp at p1
  | panic => simp at p1
  | ok u =>
  simp only at p1
  cases hf : flush m e1 with
  | mk o e2 =>
  rw [hf] at p1
  cases o with
  | err => simp at p1
  | panic => simp at p1
  | ok u =>
  simp only [Prod.mk.injEq, true_and] at p1
  subst p1
  have hw : e2.writer = out' := by rw [p2]; rfl
  refine ⟨⟨st, out⟩, e1, e2, ps, t1, rfl, hf, by rw [hw]; exact p3, ?_⟩
  have hfilter : ((fs.map seen).map (famRead ryu)).filter (fun g => g.samples ≠ []) =
      (famBlocks [] fs).map fun p => famRead ryu (seen p.1) := by
    rw [show ((famBlocks [] fs).map fun p => famRead ryu (seen p.1)) =
      ((famBlocks [] fs).map Prod.fst).map fun f => famRead ryu (seen f) by rw [List.map_map]; rfl, famBlocks_fst, List.map_map,
      List.filter_map]
    congr 1
    apply List.filter_congr
    intro f hf
    have : (famRead ryu (seen f)).samples = [] ↔ f.samples = [] := by
      show (famWritten f).map (Written.sample ryu) = [] ↔ _
      rw [List.map_eq_nil_iff]
      refine ⟨fun h => ?_, fun h => by rw [famWritten, h]; rfl⟩
      by_contra hne
      exact famWritten_ne hne h
    simp [Function.comp_apply, this]
  have hin : ∀ p ∈ famBlocks [] fs, p.1 ∈ fs ∧ p.1.samples ≠ [] := by
    intro p hp
    have := List.mem_map_of_mem (f := Prod.fst) hp
    rw [famBlocks_fst] at this
    simpa using this
  have hout : ∀ f ∈ fs, f.samples ≠ [] → ∃ p ∈ famBlocks [] fs, p.1 = f := by
    intro f hf hne
    have : f ∈ (famBlocks [] fs).map Prod.fst := by rw [famBlocks_fst]; simpa using ⟨hf, hne⟩
    obtain ⟨p, hp, e⟩ := List.mem_map.1 this
    exact ⟨p, hp, e⟩
  constructor
  · rintro ⟨gs, hgs, ha⟩
    have hread : ∀ f ∈ fs, ∀ t, f.help = some t → helpSeen t ≠ none := by
      intro f hf t hft hbad
      have := t2 ⟨f, hf, t, hft, hbad⟩
      simp only at hgs
      rw [this] at hgs; cases hgs
    have hg := t3 hread
    simp only at hgs
    rw [hg] at hgs
    cases hgs
    unfold ScrapesAgree at ha
    rw [hfilter] at ha
    have hboth := forall₂_both ha p4
    refine ⟨hread, fun f hf hne => ?_, ?_⟩
    · obtain ⟨p, hp, rfl⟩ := hout f hf hne
      obtain ⟨q, a1, a2⟩ := hboth p hp
      obtain ⟨⟨pre, e1⟩, e2⟩ := famBlocks_shape fs [] p hp
      constructor
      · intro t hft
        have h1 : q.help = p.1.help.bind helpSeen := a1.help
        rw [a2.help, e1, lastHelp_heads, hft] at h1
        exact h1.symm
      · intro s hs c hsc
        have h1 : List.Forall₂ (SampleAgrees (some (kindWord p.1.kind))) (p.1.samples.map fun s => (oneWritten p.1.name s).sample ryu)
            q.metrics := by
          have := a1.samples
          have e : (famRead ryu (seen p.1)).samples = p.1.samples.map fun s => (oneWritten p.1.name s).sample ryu := by
            show (p.1.samples.flatMap fun s => writtenOf p.1.name s.1 s.2).map (Written.sample ryu) = _
            have := (hk' p.1 hf).2
            generalize p.1.samples = ss at this
            induction ss with
            | nil => rfl
            | cons s ss ih =>
              rw [List.flatMap_cons, writtenOf_one _ _ (this s (by simp)), List.map_append, ih fun s hs => this s (by simp [hs])]
              rfl
          rw [e] at this
          exact this
        have h2 : List.Forall₂ (ProtoSampleReads rf) (p.1.samples.map id) q.metrics := by
          rw [List.map_id, ← e2]; exact a2.metrics
        obtain ⟨d, d1, d2⟩ := forall₂_both h1 h2 s hs
        obtain ⟨x, x1, x2, _⟩ := d1.value
        have hkw : kindWord p.1.kind = .counter := by
          rw [← hk p.1 hf s hs, hsc]; rfl
        rw [hkw, if_pos rfl] at x2
        have v := d2.value
        obtain ⟨ls, y⟩ := s
        simp only at hsc
        subst hsc
        have v1 : d.counter = some (some (F64.ofNat c)) := v.1
        rw [v1] at x2
        cases x2
        exact counter_agrees (hc p.1 hf _ hs) x1
    · have := famBlocks_pending fs [] (fun p hp hnone => by
        obtain ⟨q, a1, a2⟩ := hboth p hp
        have h1 : q.help = p.1.help.bind helpSeen := a1.help
        rw [a2.help, hnone] at h1
        simpa using h1)
      simpa [lastHelp] using this
  · rintro ⟨hread, hok, hpend⟩
    refine ⟨_, t3 hread, ?_⟩
    have hsz : (fs.map fun f => familySize (labelText ryu) f.name.text f).sum < 2 ^ 64 := by
      refine Nat.lt_of_le_of_lt ?_ hs
      clear * -
      induction fs with
      | nil => simp
      | cons f fs ih =>
        rw [List.flatMap_cons, sum_calls_append, List.map_cons, List.sum_cons]
        have : familySize (labelText ryu) f.name.text f ≤ (f.calls.map (callSize (labelText ryu))).sum := by
          unfold familySize FamilyIn.calls
          rw [Name.text_eq]
          have e : ((f.samples.map fun s => EncCall.sample s.2 s.1 f.name).map (callSize (labelText ryu))) =
              f.samples.map (sampleSize (labelText ryu)) := by
            rw [List.map_map]; rfl
          cases f.help with
          | none => simp only [List.nil_append, List.map_cons, List.sum_cons, e, callSize, Option.getD_none, List.length_nil]; omega
          | some t =>
            simp only [List.cons_append, List.nil_append, List.map_cons, List.sum_cons, e, callSize, Option.getD_some]; omega
        omega
    obtain ⟨f1, f2, q1, q2, q3⟩ := proto_families (ryu := ryu) m fs hk' hsz hpend
    rw [hr] at q1
    cases q1
    rw [hf] at q2
    cases q2
    rw [hw, p3] at q3
    cases q3
    unfold ScrapesAgree
    rw [hfilter, ← famBlocks_fst fs [], List.map_map, List.forall₂_map_left_iff, List.forall₂_map_right_iff]
    refine List.forall₂_same.2 fun p hp => ?_
    obtain ⟨h1, h2⟩ := hin p hp
    obtain ⟨h3, h4⟩ := hok p.1 h1 h2
    have hsn : seen p.1 = p.1 := by
      obtain ⟨⟨n, h, k, ss⟩, b⟩ := p
      cases h with
      | none => rfl
      | some t => simp only [seen, Option.bind_some]; rw [h3 t rfl]
    rw [hsn]
    refine family_agrees ⟨?_, ?_, hk p.1 h1, hl p.1 h1, ?_⟩ (hk' p.1 h1).2
    · rw [← Name.text_eq]; exact hn p.1 h1
    · intro t hft
      exact ⟨ht p.1 h1 t hft, (C33_help_iff t).1 (h3 t hft)⟩
    · intro s hs
      have hns := (hk' p.1 h1).2 s hs
      have h4' := h4 s hs
      obtain ⟨ls, x⟩ := s
      cases x with
      | histogram => exact absurd rfl hns
      | counter c => exact h4' c rfl
      | gauge => trivial
      | floatGauge => trivial

/-- The hypotheses hold for a count of 2^63, which breaks one condition, and the last condition can fail. -/
example : Counts64 (.counter (2 ^ 63)) ∧ exBig.kind ≠ .histogram ∧ ∀ s ∈ exBig.samples, s.2.kind = exBig.kind :=
  ⟨by show 2 ^ 63 < 18446744073709551616; decide, by decide, by simp [exBig, Metric.kind]⟩
example : ((exBoth.flatMap FamilyIn.calls).map (callSize (labelText exRyu))).sum < 2 ^ 64 := by decide +kernel
example : ¬ NoPendingHelp False [⟨.str b!"a", some b!"help", .counter, []⟩, ⟨.str b!"b", none, .counter, [([], .counter 1)]⟩] := by
  simp [NoPendingHelp]

end Measured
