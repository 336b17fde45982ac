import Verif.Spec.Process

/-!
# Specification: process metrics of any size

What becomes of quantities that exceed an `i64`. Integers modulo `2^64`, nothing of the model's arithmetic.
-/

namespace Measured.Spec

/-- `v` is the 64 bit two's complement of `x`. -/
def IsWrap (v x : Int) : Prop := (-2 ^ 63 ≤ v ∧ v < 2 ^ 63) ∧ (2 ^ 64 : Int) ∣ v - x

/-- Does a quantity fit a gauge? -/
def FitsGauge (x : Int) : Prop := -2 ^ 63 ≤ x ∧ x < 2 ^ 63

instance (x : Int) : Decidable (FitsGauge x) := inferInstanceAs (Decidable (_ ∧ _))

/-- `usageFacts` with quantities cut to 64 bits by `w`. The cpu time is cut before it is divided, and division is towards
zero. -/
def cutFacts (w : Int → Int) (os : Os) (p : ProcInfo) : List Fact :=
  (p.fdCount.toList.map fun (n : Nat) => ⟨b!"open_fds", b!"Number of open file descriptors.", w n⟩) ++
  (p.maxFds.join.toList.map fun (n : Nat) => ⟨b!"max_fds", b!"Maximum number of open file descriptors.", w n⟩) ++
  p.stat.toList.flatMap fun s => [
    ⟨b!"virtual_memory_bytes", b!"Virtual memory size in bytes.", w s.vsize⟩,
    ⟨b!"resident_memory_bytes", b!"Resident memory size in bytes.", w (s.rss * os.pageSize)⟩,
    ⟨b!"cpu_seconds_total", b!"Total user and system CPU time spent in seconds.",
      (w ((s.utime + s.stime : Nat) : Int)).tdiv os.clkTck⟩,
    ⟨b!"threads", b!"Number of OS threads in the process.", s.numThreads⟩]

/-- The numbers of `/proc` are of 64 bits. -/
structure ProcU64 (p : ProcInfo) : Prop where
  fds : ∀ n, p.fdCount = some n → n < 2 ^ 64
  limit : ∀ n, p.maxFds = some (some n) → n < 2 ^ 64
  stat : ∀ s, p.stat = some s → s.starttime < 2 ^ 64 ∧ s.vsize < 2 ^ 64 ∧ s.rss < 2 ^ 64 ∧ s.utime < 2 ^ 64 ∧ s.stime < 2 ^ 64

/-- `a / b` has no result of 64 bits. -/
def BadQuotient (a b : Int) : Prop := b = 0 ∨ (a = -2 ^ 63 ∧ b = -1)

instance (a b : Int) : Decidable (BadQuotient a b) := inferInstanceAs (Decidable (_ ∨ _))

/-- A scrape cannot compute a number: in a debug build when the product for the resident memory or the sum for the cpu
time overflows, and in any build when there is no quotient, as on a machine with zero clock ticks per second. -/
def ScrapeOverflows (w : Int → Int) (m : Mode) (os : Os) (p : ProcInfo) : Prop :=
  ∃ s, p.stat = some s ∧ (m = .debug ∧ ¬ FitsGauge (w s.rss * os.pageSize) ∨ m = .debug ∧ 2 ^ 64 ≤ s.utime + s.stime ∨
    BadQuotient (w ((s.utime + s.stime : Nat) : Int)) os.clkTck)

end Measured.Spec
