import Verif.Model.HistConc

/-! Runs in which no new operation starts and operations in progress go on. -/

namespace Measured.Spec
open Measured.Conc

/-- A step in which no thread starts an operation; on a lock that refuses readers while a writer waits, with loads that
return the current value and compare-exchanges that fail only if the value has changed. -/
structure HistGoes (s s' : HistSys) : Prop where
  noStart : ∀ t, s.pc t = .idle → s'.pc t = .idle
  polite : ∀ t b x, s.pc t = .wantRead b x → s'.pc t = .bump b x → ∀ u, s.pc u ≠ .wantWrite
  fresh : ∀ t x cur, s.pc t = .adding x → s'.pc t = .loaded x cur → cur = s.inner.sum
  strong : ∀ t x cur, s.pc t = .loaded x cur → s'.pc t = .adding x → s.inner.sum ≠ cur

/-- The same for a float gauge. -/
structure FloatGoes (s s' : FloatSys) : Prop where
  moves : s'.pc ≠ s.pc
  noStart : ∀ t, s.pc t = .idle → s'.pc t = .idle
  fresh : ∀ t x cur, s.pc t = .loop x → s'.pc t = .loaded x cur → cur = s.mem.valAt s.mem.mods.length
  strong : ∀ t x cur, s.pc t = .loaded x cur → s'.pc t = .loop x → s.mem.valAt s.mem.mods.length ≠ cur

end Measured.Spec
