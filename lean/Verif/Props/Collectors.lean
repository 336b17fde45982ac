import Verif.Spec.Collectors
import Verif.Props.Process
import Verif.Props.Tokio
import Verif.Props.ProtoCalls

/-! # Properties of the process and runtime collectors: protobuf scrapes (C73) -/

namespace Measured
open Measured.Spec Proto

/-- A HELP call and samples. -/
structure Helped where
  name : Name
  help : Bytes
  samples : List ((Labels × Metric) × Name)

def Helped.calls (f : Helped) : List EncCall := .help f.name f.help :: f.samples.map fun s => .sample s.1.2 s.1.1 s.2

theorem helped_blocks : ∀ (fs : List Helped) (pre : List EncCall), (∀ c ∈ pre, IsHead c) → pre.filterMap typeOf = [] →
    ∃ bs tail, pre ++ fs.flatMap Helped.calls = bs.flatMap Block.calls ++ tail ∧ (∀ b ∈ bs, b.Wf) ∧
      (∀ c ∈ tail, IsHead c) ∧
      List.Forall₂ (fun f b => ∃ p, b = (⟨p ++ [.help f.name f.help], f.samples⟩ : Block) ∧ p.filterMap typeOf = [])
        (fs.filter fun f => !f.samples.isEmpty) bs := by
  intro fs
  induction fs with
  | nil => intro pre hp _; exact ⟨[], pre, by simp, by simp, hp, .nil⟩
  | cons f fs ih =>
    intro pre hp ht
    have hp' : ∀ c ∈ pre ++ [.help f.name f.help], IsHead c := by
      intro c hc
      rcases List.mem_append.1 hc with hc | hc
      · exact hp c hc
      · rw [List.mem_singleton.1 hc]; trivial
    cases hs : f.samples with
    | nil =>
      obtain ⟨bs, tail, e, h1, h2, h3⟩ := ih (pre ++ [.help f.name f.help]) hp' (by
        rw [List.filterMap_append, ht]; rfl)
      refine ⟨bs, tail, ?_, h1, h2, ?_⟩
      · rw [← e]; simp [Helped.calls, hs]
      · rw [List.filter_cons_of_neg (by simp [hs])]; exact h3
    | cons s ss =>
      obtain ⟨bs, tail, e, h1, h2, h3⟩ := ih [] (by simp) rfl
      rw [List.nil_append] at e
      refine ⟨⟨pre ++ [.help f.name f.help], f.samples⟩ :: bs, tail, ?_, ?_, h2, ?_⟩
      · rw [List.flatMap_cons, List.flatMap_cons, e]
        simp [Helped.calls, Block.calls]
      · intro b hb
        rcases List.mem_cons.1 hb with rfl | hb
        · exact ⟨hp', by simp, by simp [hs]⟩
        · exact h1 b hb
      · rw [List.filter_cons_of_pos (by simp [hs])]
        exact .cons ⟨pre, rfl, ht⟩ h3

/-- A scrape of HELP calls each followed by samples. -/
theorem helped_scrape {ryu : F64 → Bytes} {rf : Bytes → Option F64} (F : FloatText ryu rf) (m : Mode) (fs : List Helped)
    (e : ProtoEnc Bytes) (he : Spec.Clean e) (hh : ∀ f ∈ fs, ∀ s ∈ f.samples, s.1.2.kind ≠ .histogram)
    (hs : ((fs.flatMap Helped.calls).map (callSize (labelText ryu))).sum < 2 ^ 64) :
    ∃ e' out gs, (do (protoEncoder m ryu).runAll (fs.flatMap Helped.calls); flush m : RS (ProtoEnc Bytes) Unit) e = (.ok (), e') ∧
      e'.writer = e.writer ++ out ∧ decodeScrape out = some gs ∧
      List.Forall₂ (fun (f : Helped) g => g.name = some f.name.text ∧ g.help = some f.help ∧ g.type = none ∧
        List.Forall₂ (ProtoSampleReads rf) (f.samples.map Prod.fst) g.metrics) (fs.filter fun f => !f.samples.isEmpty) gs := by
  obtain ⟨bs, tail, h0, h1, h2, h3⟩ := helped_blocks fs [] (by simp) rfl
  rw [List.nil_append] at h0
  obtain ⟨e', out, gs, h4, h5, h6, h7⟩ := C44_exact F m [fs.flatMap Helped.calls] bs tail e he (by simpa using h0) h1 h2
    (by
      intro cs hcs c hc
      rw [List.mem_singleton.1 hcs] at hc
      cases fs with
      | nil => simp at hc
      | cons f fs =>
        simp only [List.flatMap_cons, Helped.calls, List.cons_append, List.head?_cons, Option.mem_def, Option.some.injEq] at hc
        rw [← hc]; trivial)
    (by
      intro c hc
      rw [List.flatten_singleton] at hc
      obtain ⟨f, hf, hc⟩ := List.mem_flatMap.1 hc
      rcases List.mem_cons.1 hc with rfl | hc
      · trivial
      · obtain ⟨s, hs, rfl⟩ := List.mem_map.1 hc
        exact hh f hf s hs)
    (by simpa using hs)
  refine ⟨e', out, gs, ?_, h5, h6, ?_⟩
  · rw [← h4]
    have : (fun _ : Unit => flush m) = fun _ => (do flush m; runScrapes m ryu []) := by
      funext _
      exact (RS.bind_unit _).symm
    show ((protoEncoder m ryu).runAll (fs.flatMap Helped.calls) >>= fun _ => flush m) e = _
    rw [this]
    rfl
  · clear h4 h6 h0 h1
    generalize fs.filter (fun f => !f.samples.isEmpty) = fs' at h3 ⊢
    induction h3 generalizing gs with
    | nil => cases h7; exact .nil
    | @cons f _ _ _ hb _ ih =>
      cases h7 with
      | cons h7 h8 =>
        refine .cons ?_ (ih _ h8)
        obtain ⟨p, rfl, hp⟩ := hb
        have e1 : lastHelp (p ++ [EncCall.help f.name f.help]) = some (f.name, f.help) := by
          unfold lastHelp; rw [List.filterMap_append]; exact List.getLast?_concat
        have e2 : lastType (p ++ [EncCall.help f.name f.help]) = none := by
          unfold lastType; rw [List.filterMap_append, hp]; rfl
        refine ⟨?_, ?_, ?_, h7.metrics⟩
        · rw [h7.name]; unfold headName; rw [e1]; rfl
        · rw [h7.help, e1]; rfl
        · rw [h7.type, e2]; rfl

/-! ## The process collector -/

def Fact.helped (f : Fact) : Helped := ⟨.str f.name, f.help, [(([], .gauge f.value), .str f.name)]⟩

theorem facts_helped (fs : List Fact) : fs.flatMap Fact.calls = (fs.map Fact.helped).flatMap Helped.calls := by
  rw [List.flatMap_map]; rfl

theorem facts_size (ryu : F64 → Bytes) (os : Os) (p : ProcInfo) (t : Option Int) :
    (((usageFacts os p ++ startFacts t).flatMap Fact.calls).map (callSize (labelText ryu))).sum < 2 ^ 64 := by
  obtain ⟨a, b, c⟩ := p
  rcases a with _ | a <;> rcases b with _ | _ | b <;> rcases c with _ | c <;> rcases t with _ | t <;>
    simp [usageFacts, startFacts, Fact.calls, callSize, sampleSize, Name.render]

/-- What is missing: the types. A protobuf scrape by the process collector decodes to exactly one family for each fact,
with its name, help text and value; see `C73_type_refuted`. -/
theorem C73_process_partial {ryu : F64 → Bytes} {rf : Bytes → Option F64} (F : FloatText ryu rf) (m : Mode) (os : Os)
    (c : ProcessCollector) (p : ProcInfo) (hp : os.procs c.pid = some p) (ho : OsOk os) (hok : ProcOk os p) :
    ∃ e, (do c.collect m os (protoEncoder m ryu); flush m : RS (ProtoEnc Bytes) Unit) (ProtoEnc.new []) = (.ok (), e) ∧
      decodeScrape e.writer = some ((usageFacts os p ++ startFacts c.startTime).map Fact.proto) := by
  obtain ⟨e, out, gs, h1, h2, h3, h4⟩ := helped_scrape F m ((usageFacts os p ++ startFacts c.startTime).map Fact.helped)
    (ProtoEnc.new []) ⟨rfl, .inl rfl⟩ (by
      intro f hf s hs
      obtain ⟨x, _, rfl⟩ := List.mem_map.1 hf
      rw [List.mem_singleton.1 hs]
      exact nofun) (by rw [← facts_helped]; exact facts_size ryu os p c.startTime)
  refine ⟨e, ?_, ?_⟩
  · rw [← h1, ← facts_helped]
    have : c.collect m os (protoEncoder (W := Bytes) m ryu) = (protoEncoder m ryu).runAll
        ((usageFacts os p ++ startFacts c.startTime).flatMap Fact.calls) := by
      unfold ProcessCollector.collect
      rw [hp]
      exact collectProc_ok m _ os ho c p hok
    rw [this]
  · rw [h2]
    show decodeScrape out = _
    rw [h3]
    congr 1
    generalize usageFacts os p ++ startFacts c.startTime = fs at h4
    rw [List.filter_eq_self.2 (by
      intro f hf
      obtain ⟨x, _, rfl⟩ := List.mem_map.1 hf
      rfl)] at h4
    clear h1 h2 h3
    induction fs generalizing gs with
    | nil => cases h4; rfl
    | cons f fs ih =>
      cases h4 with
      | @cons _ g _ gs h hs =>
        rw [List.map_cons, ← ih _ hs]
        congr 1
        obtain ⟨a, b, c, d⟩ := h
        obtain ⟨gn, gh, gt, gm⟩ := g
        cases d with
        | @cons _ x _ _ d1 d2 =>
          cases d2
          obtain ⟨ts, l1, l2⟩ := d1.labels
          cases l1
          obtain ⟨v1, v2⟩ := d1.value
          obtain ⟨xl, xg, xc⟩ := x
          simp only at a b c l2 v1 v2
          subst a b c l2 v1 v2
          simp only [Fact.proto, Fact.helped, Name.text_eq]
          rfl

/-- No family of a protobuf scrape by the process collector has a type, so that all of them read as counters; and no
sample has the value of a counter. -/
theorem C73_type_refuted {ryu : F64 → Bytes} {rf : Bytes → Option F64} (F : FloatText ryu rf) (m : Mode) (os : Os)
    (c : ProcessCollector) (p : ProcInfo) (hp : os.procs c.pid = some p) (ho : OsOk os) (hok : ProcOk os p) :
    ∃ e gs, (do c.collect m os (protoEncoder m ryu); flush m : RS (ProtoEnc Bytes) Unit) (ProtoEnc.new []) = (.ok (), e) ∧
      decodeScrape e.writer = some gs ∧
      ∀ g ∈ gs, PFamily.typeRead g = kindCode .counter ∧ ∀ x ∈ g.metrics, PMetric.valueOf (PFamily.typeRead g) x = none := by
  obtain ⟨e, h1, h2⟩ := C73_process_partial F m os c p hp ho hok
  refine ⟨e, _, h1, h2, ?_⟩
  intro g hg
  obtain ⟨f, _, rfl⟩ := List.mem_map.1 hg
  refine ⟨rfl, ?_⟩
  intro x hx
  rw [List.mem_singleton.1 hx]
  rfl

/-- With the machine of C46. -/
example : (decodeScrape ((do ProcessCollector.collect .debug exOs ⟨2, some 1005⟩ (protoEncoder .debug exRyu); flush .debug :
      RS (ProtoEnc Bytes) Unit) (ProtoEnc.new [])).2.writer).map (fun gs => (gs.length, gs[2]?)) = some (7, some (Fact.proto
      ⟨b!"virtual_memory_bytes", b!"Virtual memory size in bytes.", 8192⟩)) := by decide +kernel

/-! ## The runtime collectors -/

def RtFamily.helped (rts : List RtCollector) (f : RtFamily) : Helped :=
  ⟨.str f.name, f.help, rts.flatMap fun c => (f.samples c.runtime).map fun s => ((runtimeLabel c.name ++ s.labels, s.value), s.name)⟩

theorem helped_calls (rts : List RtCollector) (f : RtFamily) : (RtFamily.helped rts f).calls = f.calls rts := by
  simp only [Helped.calls, RtFamily.helped, RtFamily.calls, List.map_flatMap, List.map_map]
  rfl

theorem helped_shown (rts : List RtCollector) (f : RtFamily) : (RtFamily.helped rts f).samples.map Prod.fst = f.shown rts := by
  simp only [RtFamily.helped, RtFamily.shown, List.map_flatMap, List.map_map]
  rfl

theorem perWorker_all {P : RtSample → Prop} {f : Nat → List RtSample} {rt : RtMetrics} (h : ∀ w, ∀ s ∈ f w, P s) :
    ∀ s ∈ perWorker f rt, P s := by
  intro s hs
  obtain ⟨w, _, hs⟩ := List.mem_flatMap.1 hs
  exact h w s hs

theorem single_all {P : RtSample → Prop} {x : RtSample} (h : P x) : ∀ s ∈ [x], P s := by
  intro s hs; rw [List.mem_singleton.1 hs]; exact h

theorem cons_all {P : RtSample → Prop} {x : RtSample} {xs : List RtSample} (h : P x) (hs : ∀ s ∈ xs, P s) :
    ∀ s ∈ x :: xs, P s := List.forall_mem_cons.2 ⟨h, hs⟩

theorem append_all {P : RtSample → Prop} {xs ys : List RtSample} (h : ∀ s ∈ xs, P s) (hs : ∀ s ∈ ys, P s) :
    ∀ s ∈ xs ++ ys, P s := List.forall_mem_append.2 ⟨h, hs⟩

theorem rtFamilies_kind (net : Bool) (secs : Nat → F64) : ∀ f ∈ rtFamilies secs net, ∀ rt, ∀ s ∈ f.samples rt,
    s.value.kind ≠ .histogram := by
  intro f hf rt
  simp only [rtFamilies, taskFamilies, workerFamilies, netFamilies, List.mem_append, List.mem_cons, List.not_mem_nil,
    or_false] at hf
  rcases hf with ((rfl | rfl | rfl | rfl | rfl) | (rfl | rfl | rfl | rfl | rfl | rfl)) | hf
  · exact cons_all nofun (cons_all nofun (single_all nofun))
  · exact single_all nofun
  · exact append_all (cons_all nofun (single_all nofun)) (perWorker_all fun w => single_all nofun)
  · exact append_all (perWorker_all fun w => cons_all nofun (single_all nofun)) (single_all nofun)
  · exact single_all nofun
  · exact perWorker_all fun w => single_all nofun
  · exact perWorker_all fun w => single_all nofun
  · exact perWorker_all fun w => single_all nofun
  · exact perWorker_all fun w => single_all nofun
  · exact perWorker_all fun w => single_all nofun
  · refine perWorker_all fun w => append_all ?_ (cons_all nofun (single_all nofun))
    intro s hs
    unfold pollBucketSamples at hs
    split at hs
    · obtain ⟨b, _, rfl⟩ := List.mem_map.1 hs; exact nofun
    · cases hs
  · split at hf
    · simp only [List.mem_cons, List.not_mem_nil, or_false] at hf
      rcases hf with rfl | rfl | rfl <;> exact single_all nofun
    · cases hf

/-- What is missing: the types, and the names of samples. A protobuf scrape by the runtime collectors decodes to one
family for each family of the table that has samples, with its name and help text and the samples of all runtimes, in
order. The names of the samples are not shown; see `C73_names_refuted`. -/
theorem C73_tokio_partial {ryu : F64 → Bytes} {rf : Bytes → Option F64} (F : FloatText ryu rf) (m : Mode) (net : Bool)
    (rts : List RtCollector) (h : ∀ c ∈ rts, RtOk c.runtime)
    (hs : ((rtCalls asSecsF64 net rts).map (callSize (labelText ryu))).sum < 2 ^ 64) :
    ∃ e gs, (do collectRuntimes m net rts (protoEncoder m ryu); flush m : RS (ProtoEnc Bytes) Unit) (ProtoEnc.new []) =
        (.ok (), e) ∧ decodeScrape e.writer = some gs ∧
      List.Forall₂ (RtFamilyReads rf rts) (rtFamiliesShown asSecsF64 net rts) gs := by
  have hcalls : rtCalls asSecsF64 net rts = ((rtFamilies asSecsF64 net).map (RtFamily.helped rts)).flatMap Helped.calls := by
    rw [List.flatMap_map]
    unfold rtCalls
    congr 1
    funext f
    exact (helped_calls rts f).symm
  obtain ⟨e, out, gs, h1, h2, h3, h4⟩ := helped_scrape F m ((rtFamilies asSecsF64 net).map (RtFamily.helped rts))
    (ProtoEnc.new []) ⟨rfl, .inl rfl⟩ (by
      intro f hf s hs
      obtain ⟨f, hf', rfl⟩ := List.mem_map.1 hf
      obtain ⟨c, hc, hs⟩ := List.mem_flatMap.1 hs
      obtain ⟨s, hs', rfl⟩ := List.mem_map.1 hs
      exact rtFamilies_kind net asSecsF64 f hf' _ s hs') (by rw [← hcalls]; exact hs)
  refine ⟨e, gs, ?_, ?_, ?_⟩
  · rw [← h1, ← hcalls, RS.bind_run, RS.bind_run, C48_calls m net rts _ h]
  · rw [h2]; exact h3
  · rw [List.filter_map] at h4
    have : (rtFamilies asSecsF64 net).filter ((fun f => !f.samples.isEmpty) ∘ RtFamily.helped rts) =
        rtFamiliesShown asSecsF64 net rts := by
      unfold rtFamiliesShown
      congr 1
      funext f
      rw [← helped_shown]
      simp
    rw [this, List.forall₂_map_left_iff] at h4
    refine h4.imp fun f g hg => ⟨?_, hg.2.1, hg.2.2.1, ?_⟩
    · rw [hg.1, Name.text_eq]; rfl
    · rw [← helped_shown]; exact hg.2.2.2

theorem infix_flatMap {α β : Type} {l : List α} {f : α → List β} {x : α} (h : x ∈ l) : f x <:+: l.flatMap f := by
  obtain ⟨a, b, rfl⟩ := List.append_of_mem h
  exact ⟨a.flatMap f, b.flatMap f, by simp⟩

theorem forall₂_get {α β : Type} {R : α → β → Prop} {as : List α} {bs : List β} (h : List.Forall₂ R as bs) :
    ∀ {i : Nat} {x : α}, as[i]? = some x → ∃ y, bs[i]? = some y ∧ R x y := by
  induction h with
  | nil => intro i x hx; simp at hx
  | @cons a b as bs h _ ih =>
    intro i x hx
    cases i with
    | zero => exact ⟨b, rfl, by simp at hx; exact hx ▸ h⟩
    | succ i => exact ih (by simpa using hx)

/-- The protobuf encoder ignores the names of samples. So the count and the sum of the poll times of a worker, which
are different series in the text format, become two metrics of one family with the same labels. -/
theorem C73_names_refuted {ryu : F64 → Bytes} {rf : Bytes → Option F64} (F : FloatText ryu rf) (m : Mode) (net : Bool)
    (rts : List RtCollector) (h : ∀ c ∈ rts, RtOk c.runtime)
    (hs : ((rtCalls asSecsF64 net rts).map (callSize (labelText ryu))).sum < 2 ^ 64)
    (c : RtCollector) (hc : c ∈ rts) (w : Nat) (hw : w < c.runtime.numWorkers) :
    ∃ e gs g, (do collectRuntimes m net rts (protoEncoder m ryu); flush m : RS (ProtoEnc Bytes) Unit) (ProtoEnc.new []) =
        (.ok (), e) ∧ decodeScrape e.writer = some gs ∧ g ∈ gs ∧ g.name = some b!"worker_poll_time_seconds" ∧
      ∃ i p q, g.metrics[i]? = some p ∧ g.metrics[i + 1]? = some q ∧
        ProtoSampleReads rf (runtimeLabel c.name ++ workerLabel w, .counter (c.runtime.workerPollCount w)) p ∧
        ProtoSampleReads rf (runtimeLabel c.name ++ workerLabel w, .floatGauge (asSecsF64 (c.runtime.workerBusy w))) q := by
  obtain ⟨e, gs, h1, h2, h3⟩ := C73_tokio_partial F m net rts h hs
  obtain ⟨f, hf, hn, a, b, hsplit⟩ : ∃ f ∈ rtFamilies asSecsF64 net, f.name = b!"worker_poll_time_seconds" ∧
      [((runtimeLabel c.name ++ workerLabel w, .counter (c.runtime.workerPollCount w)) : Labels × Metric),
        (runtimeLabel c.name ++ workerLabel w, .floatGauge (asSecsF64 (c.runtime.workerBusy w)))] <:+: f.shown rts := by
    refine ⟨_, List.mem_append.2 (.inl (List.mem_append.2 (.inr (List.mem_of_getElem? (i := 5) rfl)))), rfl, ?_⟩
    refine List.IsInfix.trans ?_ (infix_flatMap hc)
    simp only [perWorker, List.map_flatMap]
    refine List.IsInfix.trans ?_ (infix_flatMap (List.mem_range.2 hw))
    rw [List.map_append]
    exact (List.suffix_append _ _).isInfix
  have hshown : f ∈ rtFamiliesShown asSecsF64 net rts := by
    refine List.mem_filter.2 ⟨hf, ?_⟩
    rw [← hsplit]
    simp
  obtain ⟨k, hk⟩ := List.mem_iff_getElem?.1 hshown
  obtain ⟨g, hg, hr⟩ := forall₂_get h3 hk
  refine ⟨e, gs, g, h1, h2, List.mem_of_getElem? hg, by rw [hr.name, hn], a.length, ?_⟩
  have hm := hr.metrics
  rw [← hsplit] at hm
  obtain ⟨p, hp, hp'⟩ := forall₂_get hm (i := a.length) (x := _) (by simp; rfl)
  obtain ⟨q, hq, hq'⟩ := forall₂_get hm (i := a.length + 1) (x := _) (by simp; rfl)
  exact ⟨p, q, hp, hq, hp', hq'⟩

/-- With the runtime of C48. -/
example : (decodeScrape ((do collectRuntimes .debug true [RtCollector.new exRt] (protoEncoder .debug exRyu); flush .debug :
      RS (ProtoEnc Bytes) Unit) (ProtoEnc.new [])).2.writer).map (fun gs =>
        gs.map fun g => decide (g.metrics.map PMetric.labels).Nodup) =
    some [true, true, true, true, true, true, true, true, true, true, false, true, true, true] := by decide +kernel

example : ((rtCalls asSecsF64 true [RtCollector.new exRt]).map (callSize (labelText exRyu))).sum < 2 ^ 64 := by
  decide +kernel

end Measured
