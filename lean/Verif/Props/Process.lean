import Verif.Proof.Process
import Verif.Proof.Snake
import Verif.Props.Text

/-! # Properties of the process collector (C46) -/

namespace Measured
open Measured.Spec

theorem facts_named (os : Os) (p : ProcInfo) (t : Option Int) :
    ∀ f ∈ usageFacts os p ++ startFacts t, isSnake f.name = true ∧ isPlainHelp f.help = true := by
  intro f hf
  simp only [usageFacts, startFacts, List.mem_append, List.mem_map, List.mem_flatMap, List.mem_cons, List.not_mem_nil,
    or_false] at hf
  rcases hf with ((⟨_, _, rfl⟩ | ⟨_, _, rfl⟩) | ⟨_, _, rfl | rfl | rfl | rfl⟩) | ⟨_, _, rfl⟩ <;>
    exact ⟨rfl, rfl⟩

theorem facts_ok (os : Os) (p : ProcInfo) (t : Option Int) :
    ∀ c ∈ (usageFacts os p ++ startFacts t).flatMap Fact.calls, CallOk c := by
  intro c hc
  obtain ⟨f, hf, hc⟩ := List.mem_flatMap.1 hc
  have h := facts_named os p t f hf
  simp only [Fact.calls, List.mem_cons, List.not_mem_nil, or_false] at hc
  rcases hc with rfl | rfl
  · exact ⟨snake_metric h.1, plain_help h.2⟩
  · exact ⟨snake_metric h.1, by simp [LabelsOk], trivial⟩

/-- What is missing: the start time. A scrape shows descriptors, memory, cpu and threads of the process given to the
collector, whatever its pid; the start time shown is whatever `new` stored. -/
theorem C46_usage_partial {ryu : F64 → Bytes} {rf : Bytes → Option F64} (F : FloatText ryu rf) (m : Mode) (os : Os)
    (c : ProcessCollector) (p : ProcInfo) (hp : os.procs c.pid = some p) (ho : OsOk os) (hok : ProcOk os p) :
    ∃ e, c.collect m os (textEncoder m ryu) (TextEnc.new []) = (.ok (), e) ∧
      readFamilies rf e.writer = some ((usageFacts os p ++ startFacts c.startTime).map Fact.family) := by
  obtain ⟨st, out, ls, h1, h2, h3⟩ := calls_read F m _ (facts_ok os p c.startTime)
  refine ⟨⟨st, out⟩, ?_, ?_⟩
  · unfold ProcessCollector.collect
    rw [hp]
    simp only
    rw [collectProc_ok m _ os ho c p hok]
    exact h1
  · rw [readFamilies, h2, factsLines_eq _ _ _ h3]
    simp [consume_facts]

/-- What is missing: other pids. A collector made by `for_self` shows everything about the calling process, including
its start time. (`q` is the process at creation, `p` at the scrape; a process does not change its start time.) -/
theorem C46_self_partial {ryu : F64 → Bytes} {rf : Bytes → Option F64} (F : FloatText ryu rf) (m : Mode) (os₀ os : Os)
    (q p : ProcInfo) (hq : os₀.procs os₀.self = some q) (hp : os.procs os₀.self = some p)
    (hsame : startOf os₀ q = startOf os p)
    (ho₀ : OsOk os₀) (hq' : ProcOk os₀ q) (ho : OsOk os) (hok : ProcOk os p) :
    ∃ c e, ProcessCollector.forSelf m os₀ = .ok c ∧
      c.collect m os (textEncoder m ryu) (TextEnc.new []) = (.ok (), e) ∧
      readFamilies rf e.writer = some ((processFacts os p).map Fact.family) := by
  refine ⟨⟨os₀.self, startOf os₀ q⟩, ?_⟩
  obtain ⟨e, h1, h2⟩ := C46_usage_partial F m os ⟨os₀.self, startOf os₀ q⟩ p hp ho hok
  refine ⟨e, new_ok m os₀ ho₀ _ q hq hq', h1, ?_⟩
  rw [h2]
  simp only [hsame, processFacts]

/-- A process that is gone is not an error and writes nothing, for any encoder. -/
theorem C46_gone {E : Type} (m : Mode) (os : Os) (c : ProcessCollector) (enc : Encoder E) (s : E)
    (h : os.procs c.pid = none) : c.collect m os enc s = (.ok (), s) := by
  unfold ProcessCollector.collect
  rw [h]
  rfl

/-! ## A machine with two processes -/

def exSelf : ProcInfo := ⟨some 3, some none, some ⟨500, 4096, 2, 150, 60, 4⟩⟩
def exOther : ProcInfo := ⟨some 9, some (some 1024), some ⟨90000, 8192, 3, 1000, 1999, 1⟩⟩
def exOs : Os where
  bootTime := some 1000
  self := 1
  procs pid := if pid = 1 then some exSelf else if pid = 2 then some exOther else none
  clkTck := 100
  pageSize := 4096

theorem exOs_ok : OsOk exOs := ⟨by decide, by decide⟩

theorem exSelf_ok : ProcOk exOs exSelf where
  fds n h := by cases h; decide
  limit n h := by cases h
  start s h := by cases h; decide
  vsize s h := by cases h; decide
  rss s h := by cases h; decide
  cpu s h := by cases h; decide
  boot b s h h' := by cases h; cases h'; decide

theorem exOther_ok : ProcOk exOs exOther where
  fds n h := by cases h; decide
  limit n h := by cases h; decide
  start s h := by cases h; decide
  vsize s h := by cases h; decide
  rss s h := by cases h; decide
  cpu s h := by cases h; decide
  boot b s h h' := by cases h; cases h'; decide

/-- The start time shown for another process is that of the calling process: `new` asks `Process::myself()`. -/
theorem C46_start_refuted {ryu : F64 → Bytes} {rf : Bytes → Option F64} (F : FloatText ryu rf) (m : Mode) :
    ∃ (os : Os) (pid : Int) (p : ProcInfo) (c : ProcessCollector) (e : TextEnc Bytes) (fs : List Family),
      OsOk os ∧ ProcOk os p ∧ os.procs pid = some p ∧ ProcessCollector.new m os pid = .ok c ∧
      c.collect m os (textEncoder m ryu) (TextEnc.new []) = (.ok (), e) ∧ readFamilies rf e.writer = some fs ∧
      startOf os p = some 1900 ∧
      ∃ f ∈ fs, f.name = b!"start_time_seconds" ∧ f.samples = [⟨b!"start_time_seconds", [], .int 1005⟩] := by
  have hn := new_ok m exOs exOs_ok 2 exSelf rfl exSelf_ok
  obtain ⟨e, h1, h2⟩ := C46_usage_partial F m exOs ⟨2, startOf exOs exSelf⟩ exOther rfl exOs_ok exOther_ok
  refine ⟨exOs, 2, exOther, _, e, _, exOs_ok, exOther_ok, rfl, hn, h1, h2, rfl, ?_⟩
  refine ⟨Fact.family ⟨b!"start_time_seconds", b!"Start time of the process since unix epoch in seconds.", 1005⟩, ?_, rfl, rfl⟩
  exact List.mem_map.2 ⟨_, List.mem_append.2 (.inr (List.mem_singleton.2 rfl)), rfl⟩

example : ProcessCollector.new .debug exOs 2 = .ok ⟨2, some 1005⟩ := by decide +kernel
example : ((ProcessCollector.mk 2 (some 1005)).collect .debug exOs (textEncoder .debug exRyu) (TextEnc.new [])).2.writer =
    b!"# HELP open_fds Number of open file descriptors.\nopen_fds 9\n\n# HELP max_fds Maximum number of open file descriptors.\nmax_fds 1024\n\n# HELP virtual_memory_bytes Virtual memory size in bytes.\nvirtual_memory_bytes 8192\n\n# HELP resident_memory_bytes Resident memory size in bytes.\nresident_memory_bytes 12288\n\n# HELP cpu_seconds_total Total user and system CPU time spent in seconds.\ncpu_seconds_total 29\n\n# HELP threads Number of OS threads in the process.\nthreads 1\n\n# HELP start_time_seconds Start time of the process since unix epoch in seconds.\nstart_time_seconds 1005\n" := by
  decide +kernel

end Measured
