import Verif.Model.Text

/-!
# The process collector (process/src/lib.rs)

What procfs and sysconf answer is the input of the model. Every value is read at most once per pass, so a record of
optional values covers processes that change or vanish during a pass (a failed read is `none`).
-/

namespace Measured

/-- The fields of `/proc/<pid>/stat` that are used. All but `num_threads` are unsigned. -/
structure ProcStat where
  starttime : Nat
  vsize : Nat
  rss : Nat
  utime : Nat
  stime : Nat
  numThreads : Int
  deriving DecidableEq

/-- What `/proc/<pid>` answers. -/
structure ProcInfo where
  /-- `fd_count()` -/
  fdCount : Option Nat
  /-- `limits()?.max_open_files.soft_limit`; `some none` is `LimitValue::Unlimited` -/
  maxFds : Option (Option Nat)
  /-- `stat()` -/
  stat : Option ProcStat
  deriving DecidableEq

/-- The operating system at one moment. -/
structure Os where
  /-- `procfs::boot_time_secs()` -/
  bootTime : Option Nat
  /-- `libc::getpid()`, the process that `/proc/self` is -/
  self : Int
  /-- `Process::new(pid)` -/
  procs : Int → Option ProcInfo
  /-- `sysconf(_SC_CLK_TCK)`, process/src/lib.rs:142-145 -/
  clkTck : Int
  /-- `sysconf(_SC_PAGESIZE)`, process/src/lib.rs:147-150 -/
  pageSize : Int

/-- The value of an `i64` after wrapping. -/
def wrapI64 (x : Int) : Int := (x + 2 ^ 63) % 2 ^ 64 - 2 ^ 63

/-- Does `x` fit an `i64`? -/
def inI64 (x : Int) : Bool := decide (-2 ^ 63 ≤ x ∧ x < 2 ^ 63)

/-- An arithmetic result with the overflow behaviour of the build mode. -/
def checkI64 (m : Mode) (x : Int) : Out Int :=
  if inI64 x then .ok x
  else match m with
    | .debug => .panic
    | .release => .ok (wrapI64 x)

/-- `a / b` on `i64`: truncates; panics for `0` and on overflow in every mode. -/
def divI64 (a b : Int) : Out Int :=
  if b = 0 then .panic
  else if inI64 (a.tdiv b) then .ok (a.tdiv b) else .panic

/-- process/src/lib.rs:48-51 -/
structure ProcessCollector where
  pid : Int
  startTime : Option Int
  deriving DecidableEq

/-- `stat.starttime as i64 / clk_tck() + boot_time as i64`, process/src/lib.rs:61 -/
def startSeconds (m : Mode) (clkTck : Int) (bootTime : Nat) (s : ProcStat) : Out Int := do
  let t ← divI64 (asI64 s.starttime) clkTck
  checkI64 m (t + asI64 bootTime)

/-- `ProcessCollector::new`. process/src/lib.rs:55-67. Note `Process::myself()` in line 60. -/
def ProcessCollector.new (m : Mode) (os : Os) (pid : Int) : Out ProcessCollector :=
  match os.bootTime with
  | none => .ok ⟨pid, none⟩
  | some boot =>
    match (os.procs os.self).bind ProcInfo.stat with
    | none => .ok ⟨pid, none⟩
    | some stat => do
      let t ← startSeconds m os.clkTck boot stat
      .ok ⟨pid, some t⟩

/-- `ProcessCollector::for_self`. process/src/lib.rs:70-73 -/
def ProcessCollector.forSelf (m : Mode) (os : Os) : Out ProcessCollector := ProcessCollector.new m os os.self

/-- `enc.write_help(name, help)?; write_gauge(enc, name, NoLabels, value)?` with the value computed in between.
`write_gauge` is core/src/metric/gauge.rs:149-163. -/
def helpAndGauge {E : Type} (enc : Encoder E) (name help : Bytes) (value : Out Int) : RS E Unit := do
  enc.help (.str name) help
  let v ← RS.lift value
  enc.sample (.gauge v) [] (.str name)

/-- process/src/lib.rs:89-93 -/
def collectFds {E : Type} (enc : Encoder E) : Option Nat → RS E Unit
  | some n => helpAndGauge enc b!"open_fds" b!"Number of open file descriptors." (.ok (asI64 n))
  | none => pure ()

/-- process/src/lib.rs:94-100 -/
def collectLimits {E : Type} (enc : Encoder E) : Option (Option Nat) → RS E Unit
  | some (some n) => helpAndGauge enc b!"max_fds" b!"Maximum number of open file descriptors." (.ok (asI64 n))
  | some none => pure ()
  | none => pure ()

/-- `(stat.utime + stat.stime) as i64 / clk_tck()`, process/src/lib.rs:119 -/
def cpuSeconds (m : Mode) (clkTck : Int) (s : ProcStat) : Out Int := do
  let t ← addU m s.utime s.stime
  divI64 (asI64 t) clkTck

/-- process/src/lib.rs:102-126 -/
def collectStat {E : Type} (m : Mode) (os : Os) (enc : Encoder E) : Option ProcStat → RS E Unit
  | none => pure ()
  | some s => do
    helpAndGauge enc b!"virtual_memory_bytes" b!"Virtual memory size in bytes." (.ok (asI64 s.vsize))
    helpAndGauge enc b!"resident_memory_bytes" b!"Resident memory size in bytes."
      (checkI64 m (asI64 s.rss * os.pageSize))
    helpAndGauge enc b!"cpu_seconds_total" b!"Total user and system CPU time spent in seconds."
      (cpuSeconds m os.clkTck s)
    helpAndGauge enc b!"threads" b!"Number of OS threads in the process." (.ok s.numThreads)

/-- process/src/lib.rs:128-135 -/
def collectStart {E : Type} (enc : Encoder E) : Option Int → RS E Unit
  | some t =>
    helpAndGauge enc b!"start_time_seconds" b!"Start time of the process since unix epoch in seconds." (.ok t)
  | none => pure ()

/-- process/src/lib.rs:88-135 -/
def collectProc {E : Type} (m : Mode) (os : Os) (c : ProcessCollector) (enc : Encoder E) (p : ProcInfo) :
    RS E Unit := do
  collectFds enc p.fdCount
  collectLimits enc p.maxFds
  collectStat m os enc p.stat
  collectStart enc c.startTime

/-- `ProcessCollector::collect_group_into`. process/src/lib.rs:80-139 -/
def ProcessCollector.collect {E : Type} (m : Mode) (os : Os) (c : ProcessCollector) (enc : Encoder E) : RS E Unit :=
  match os.procs c.pid with
  | none => pure ()
  | some p => collectProc m os c enc p

end Measured
