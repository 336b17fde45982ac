import Verif.Model.Process
import Verif.Spec.Text

/-!
# Specification: what process metrics should say

Plain numbers about one process, in the order and with the names and help texts of the Prometheus client libraries'
process collector. No machine integers: the spec uses unbounded arithmetic.
-/

namespace Measured.Spec

/-- A gauge without labels. -/
structure Fact where
  name : Bytes
  help : Bytes
  value : Int
  deriving DecidableEq

/-- Seconds since the epoch at which a process started. -/
def startedAt (os : Os) (boot : Nat) (s : ProcStat) : Int := boot + (s.starttime : Int) / os.clkTck

/-- When the process that answers `p` started, as far as it can be known. -/
def startOf (os : Os) (p : ProcInfo) : Option Int :=
  os.bootTime.bind fun b => p.stat.map fun s => startedAt os b s

/-- The facts about a process except for its start time. -/
def usageFacts (os : Os) (p : ProcInfo) : List Fact :=
  (p.fdCount.toList.map fun (n : Nat) => ⟨b!"open_fds", b!"Number of open file descriptors.", n⟩) ++
  (p.maxFds.join.toList.map fun (n : Nat) => ⟨b!"max_fds", b!"Maximum number of open file descriptors.", n⟩) ++
  p.stat.toList.flatMap fun s => [
    ⟨b!"virtual_memory_bytes", b!"Virtual memory size in bytes.", s.vsize⟩,
    ⟨b!"resident_memory_bytes", b!"Resident memory size in bytes.", s.rss * os.pageSize⟩,
    ⟨b!"cpu_seconds_total", b!"Total user and system CPU time spent in seconds.", ((s.utime + s.stime : Nat) : Int) / os.clkTck⟩,
    ⟨b!"threads", b!"Number of OS threads in the process.", s.numThreads⟩]

def startFacts (t : Option Int) : List Fact :=
  t.toList.map fun v => ⟨b!"start_time_seconds", b!"Start time of the process since unix epoch in seconds.", v⟩

/-- Everything there is to say about the process that answers `p`. -/
def processFacts (os : Os) (p : ProcInfo) : List Fact := usageFacts os p ++ startFacts (startOf os p)

/-- A fact as a family of the text format: HELP, no TYPE, one sample without labels. -/
def Fact.family (f : Fact) : Family := ⟨f.name, some f.help, none, [⟨f.name, [], .int f.value⟩]⟩

/-- Values that a real machine has. -/
structure OsOk (os : Os) : Prop where
  tck : 0 < os.clkTck ∧ os.clkTck < 2 ^ 63
  page : 0 < os.pageSize ∧ os.pageSize < 2 ^ 63

/-- No quantity about the process exceeds an `i64`. -/
structure ProcOk (os : Os) (p : ProcInfo) : Prop where
  fds : ∀ n, p.fdCount = some n → n < 2 ^ 63
  limit : ∀ n, p.maxFds = some (some n) → n < 2 ^ 63
  start : ∀ s, p.stat = some s → s.starttime < 2 ^ 63
  vsize : ∀ s, p.stat = some s → s.vsize < 2 ^ 63
  rss : ∀ s, p.stat = some s → s.rss * os.pageSize < 2 ^ 63
  cpu : ∀ s, p.stat = some s → s.utime + s.stime < 2 ^ 63
  boot : ∀ b s, os.bootTime = some b → p.stat = some s → b < 2 ^ 63 ∧ startedAt os b s < 2 ^ 63

end Measured.Spec
