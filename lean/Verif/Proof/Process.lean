import Verif.Proof.RunAll
import Verif.Proof.TextCalls
import Verif.Spec.Process

/-! The process collector makes the calls of the facts. -/

namespace Measured
open Spec

def Spec.Fact.calls (f : Fact) : List EncCall := [.help (.str f.name) f.help, .sample (.gauge f.value) [] (.str f.name)]

theorem helpAndGauge_ok {E : Type} (enc : Encoder E) (n h : Bytes) (v : Int) :
    helpAndGauge enc n h (.ok v) = enc.runAll (Fact.calls ⟨n, h, v⟩) := by
  unfold helpAndGauge Fact.calls
  simp only [Encoder.runAll]
  rw [RS.bind_unit]
  rfl

theorem collectFds_ok {E : Type} (enc : Encoder E) (x : Option Nat) (h : ∀ n, x = some n → n < 2 ^ 63) :
    collectFds enc x = enc.runAll ((x.toList.map fun (n : Nat) =>
      (⟨b!"open_fds", b!"Number of open file descriptors.", n⟩ : Fact)).flatMap Fact.calls) := by
  cases x with
  | none => rfl
  | some n =>
    simp only [collectFds, asI64_small (h n rfl), helpAndGauge_ok]
    simp

theorem collectLimits_ok {E : Type} (enc : Encoder E) (x : Option (Option Nat)) (h : ∀ n, x = some (some n) → n < 2 ^ 63) :
    collectLimits enc x = enc.runAll ((x.join.toList.map fun (n : Nat) =>
      (⟨b!"max_fds", b!"Maximum number of open file descriptors.", n⟩ : Fact)).flatMap Fact.calls) := by
  cases x with
  | none => rfl
  | some x =>
    cases x with
    | none => rfl
    | some n =>
      simp only [collectLimits, asI64_small (h n rfl), helpAndGauge_ok]
      simp

theorem tdiv_ediv {a : Nat} {b : Int} (_h : 0 < b) : (a : Int).tdiv b = (a : Int) / b :=
  Int.tdiv_eq_ediv_of_nonneg (Int.natCast_nonneg a)

theorem divI64_ok {a : Nat} {b : Int} (ha : a < 2 ^ 63) (h : 0 < b) : divI64 (asI64 a) b = .ok ((a : Int) / b) := by
  unfold divI64
  rw [asI64_small ha, if_neg (by omega), tdiv_ediv h]
  have h1 : (a : Int) / b ≤ a := Int.ediv_le_self _ (Int.natCast_nonneg a)
  have h0 : 0 ≤ (a : Int) / b := Int.ediv_nonneg (Int.natCast_nonneg a) (by omega)
  rw [if_pos]
  simp only [inI64, decide_eq_true_eq]
  omega

theorem checkI64_ok {m : Mode} {x : Int} (h : 0 ≤ x ∧ x < 2 ^ 63) : checkI64 m x = .ok x := by
  unfold checkI64
  rw [if_pos]
  simp only [inI64, decide_eq_true_eq]
  omega

theorem collectStat_ok {E : Type} (m : Mode) (enc : Encoder E) (os : Os) (ho : OsOk os) (p : ProcInfo) (hp : ProcOk os p) :
    collectStat m os enc p.stat = enc.runAll ((p.stat.toList.flatMap fun s => ([
    ⟨b!"virtual_memory_bytes", b!"Virtual memory size in bytes.", s.vsize⟩,
    ⟨b!"resident_memory_bytes", b!"Resident memory size in bytes.", s.rss * os.pageSize⟩,
    ⟨b!"cpu_seconds_total", b!"Total user and system CPU time spent in seconds.", ((s.utime + s.stime : Nat) : Int) / os.clkTck⟩,
    ⟨b!"threads", b!"Number of OS threads in the process.", s.numThreads⟩] : List Fact)).flatMap Fact.calls) := by
  cases hs : p.stat with
  | none => rfl
  | some s =>
    have hv := hp.vsize s hs
    have hr := hp.rss s hs
    have hc := hp.cpu s hs
    have hpage := ho.page
    have hrss : s.rss < 2 ^ 63 := by
      have : (s.rss : Int) * 1 ≤ s.rss * os.pageSize := Int.mul_le_mul_of_nonneg_left (by omega) (by omega)
      omega
    have hcpu : cpuSeconds m os.clkTck s = .ok (((s.utime + s.stime : Nat) : Int) / os.clkTck) := by
      unfold cpuSeconds
      have : addU m s.utime s.stime = .ok (s.utime + s.stime) := by
        unfold addU
        rw [if_pos (by rw [W64_eq]; omega)]
      rw [this, Out.ok_bind, divI64_ok hc ho.tck.1]
    have hrs : checkI64 m (asI64 s.rss * os.pageSize) = .ok (s.rss * os.pageSize) := by
      rw [asI64_small hrss]
      exact checkI64_ok ⟨Int.mul_nonneg (by omega) (by omega), hr⟩
    simp only [collectStat, asI64_small hv, hcpu, hrs, helpAndGauge_ok, ← Encoder.runAll_add]
    simp

theorem collectStart_ok {E : Type} (enc : Encoder E) (t : Option Int) :
    collectStart enc t = enc.runAll ((startFacts t).flatMap Fact.calls) := by
  cases t with
  | none => rfl
  | some v =>
    simp only [collectStart, helpAndGauge_ok, startFacts]
    simp

theorem collectProc_ok {E : Type} (m : Mode) (enc : Encoder E) (os : Os) (ho : OsOk os) (c : ProcessCollector) (p : ProcInfo)
    (hp : ProcOk os p) :
    collectProc m os c enc p = enc.runAll ((usageFacts os p ++ startFacts c.startTime).flatMap Fact.calls) := by
  unfold collectProc usageFacts
  rw [collectFds_ok enc _ hp.fds, collectLimits_ok enc _ hp.limit, collectStat_ok m enc os ho p hp, collectStart_ok]
  simp only [← Encoder.runAll_add, List.flatMap_append, List.append_assoc]

theorem new_ok (m : Mode) (os : Os) (ho : OsOk os) (pid : Int) (q : ProcInfo) (hq : os.procs os.self = some q)
    (hqo : ProcOk os q) : ProcessCollector.new m os pid = .ok ⟨pid, startOf os q⟩ := by
  unfold ProcessCollector.new startOf
  rw [hq, Option.bind_some]
  cases hb : os.bootTime with
  | none => rfl
  | some b =>
    cases hs : q.stat with
    | none => rfl
    | some s =>
      have hbs := hqo.boot b s hb hs
      have h0 : 0 ≤ (s.starttime : Int) / os.clkTck := Int.ediv_nonneg (by omega) (by have := ho.tck; omega)
      have : startSeconds m os.clkTck b s = .ok (startedAt os b s) := by
        unfold startSeconds
        rw [divI64_ok (hqo.start s hs) ho.tck.1, Out.ok_bind, asI64_small hbs.1]
        have he : (s.starttime : Int) / os.clkTck + b = startedAt os b s := by
          unfold startedAt; omega
        rw [he]
        exact checkI64_ok ⟨by rw [← he]; omega, hbs.2⟩
      simp only [this, Out.ok_bind]
      rfl

/-! ## Reading facts back -/

/-- The lines of facts. -/
def factsLines : Bool → List Fact → List Line
  | _, [] => []
  | prev, f :: fs => (if prev then [.blank] else []) ++
      [.help f.name f.help, .sample ⟨f.name, [], .int f.value⟩] ++ factsLines true fs

theorem factsLines_eq {rf : Bytes → Option F64} (fs : List Fact) (prev : Bool) (ls : List Line)
    (h : CallsLines rf Name.render prev (fs.flatMap Fact.calls) ls) : ls = factsLines prev fs := by
  induction fs generalizing prev ls with
  | nil => cases h; rfl
  | cons f fs ih =>
    simp only [List.flatMap_cons, Fact.calls, List.cons_append, List.nil_append] at h
    cases h with
    | cons h1 h2 =>
      cases h1
      cases h2 with
      | cons h3 h4 =>
        cases h3 with
        | sample h3 =>
          cases h3 with
          | cons h5 h6 =>
            cases h6
            rename_i s
            obtain ⟨a, b, c⟩ := s
            obtain ⟨e1, e2, e3⟩ := h5
            simp only at e1 e2 e3
            cases e2
            subst e1 e3
            rw [ih _ _ h4]
            simp [factsLines, EncCall.isSample, Name.render]

theorem consume_facts (fs : List Fact) (prev : Bool) (acc : List Family) :
    (factsLines prev fs).foldl consume acc = (fs.map Fact.family).reverse ++ acc := by
  induction fs generalizing prev acc with
  | nil => rfl
  | cons f fs ih =>
    have : (if prev = true then [Line.blank] else []).foldl consume acc = acc := by split <;> rfl
    simp only [factsLines, List.foldl_append, this, List.foldl_cons, List.foldl_nil, ih]
    simp [consume, Family.owns, Fact.family]

end Measured
