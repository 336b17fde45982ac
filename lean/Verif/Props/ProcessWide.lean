import Verif.Props.Process
import Verif.Spec.ProcessWide

/-! # The process collector for quantities of any size (C46) -/

namespace Measured
open Measured.Spec

theorem isWrap_unique {v v' x : Int} (h : IsWrap v x) (h' : IsWrap v' x) : v = v' := by
  obtain ⟨h1, h2⟩ := h
  obtain ⟨h1', h2'⟩ := h'
  omega

theorem isWrap_congr {v x y : Int} (h : IsWrap v x) (hd : (2 ^ 64 : Int) ∣ x - y) : IsWrap v y := by
  obtain ⟨h1, h2⟩ := h
  exact ⟨h1, by omega⟩

theorem isWrap_self {x : Int} (h : FitsGauge x) : IsWrap x x := ⟨h, by simp⟩

theorem wrapI64_isWrap (x : Int) : IsWrap (wrapI64 x) x := by
  unfold IsWrap wrapI64
  omega

theorem asI64_isWrap {n : Nat} (h : n < 2 ^ 64) : IsWrap (asI64 n) n := by
  unfold IsWrap asI64
  split <;> omega

theorem inI64_iff (x : Int) : inI64 x = true ↔ FitsGauge x := by
  unfold inI64 FitsGauge
  simp

theorem checkI64_release (x : Int) : ∃ v, checkI64 .release x = .ok v ∧ IsWrap v x := by
  unfold checkI64
  split
  · rename_i h
    exact ⟨x, rfl, isWrap_self ((inI64_iff x).1 h)⟩
  · exact ⟨_, rfl, wrapI64_isWrap x⟩

theorem checkI64_debug (x : Int) :
    (FitsGauge x → checkI64 .debug x = .ok x) ∧ (¬ FitsGauge x → checkI64 .debug x = .panic) := by
  unfold checkI64
  rw [← inI64_iff]
  constructor
  · intro h; rw [if_pos h]
  · intro h; rw [if_neg h]

theorem tdiv_fits {a b : Int} (ha : FitsGauge a) (hb : ¬ BadQuotient a b) : FitsGauge (a.tdiv b) := by
  have h : (a.tdiv b).natAbs = a.natAbs / b.natAbs := Int.natAbs_tdiv a b
  have hle := Nat.div_le_self a.natAbs b.natAbs
  obtain ⟨h1, h2⟩ := ha
  unfold BadQuotient at hb
  unfold FitsGauge
  by_cases hmin : a = -2 ^ 63
  · by_cases hpos : 0 < b
    · have h3 := Int.tdiv_nonneg (a := -a) (by omega) (by omega : 0 ≤ b)
      rw [Int.neg_tdiv] at h3
      omega
    · have : a.natAbs / b.natAbs ≤ a.natAbs / 2 := Nat.div_le_div_left (by omega) (by omega)
      omega
  · omega

theorem divI64_fits {a b : Int} (ha : FitsGauge a) (hb : ¬ BadQuotient a b) : divI64 a b = .ok (a.tdiv b) := by
  unfold divI64
  rw [if_neg (fun h => hb (.inl h)), if_pos ((inI64_iff _).2 (tdiv_fits ha hb))]

theorem divI64_bad {a b : Int} (hb : BadQuotient a b) : divI64 a b = .panic := by
  unfold divI64
  rcases hb with rfl | ⟨rfl, rfl⟩
  · rw [if_pos (Eq.refl 0)]
  · rw [if_neg (by omega), if_neg]
    rw [inI64_iff]
    unfold FitsGauge
    decide +kernel

variable {w : Int → Int} (hw : ∀ x, IsWrap (w x) x)

include hw in
theorem asI64_w {n : Nat} (h : n < 2 ^ 64) : asI64 n = w n := isWrap_unique (asI64_isWrap h) (hw n)

include hw in
theorem rss_w {r : Nat} {page : Int} : w (w r * page) = w (r * page) := by
  refine isWrap_unique (isWrap_congr (hw _) ?_) (hw _)
  have h := (hw r).2
  rw [← Int.sub_mul]
  exact Dvd.dvd.mul_right h _

include hw in
theorem w_fits {x : Int} (h : FitsGauge x) : w x = x := isWrap_unique (hw x) (isWrap_self h)

include hw in
/-- The sum of the cpu times as the code computes it. -/
theorem sum_w (m : Mode) {s : ProcStat} (hs : m = .debug → s.utime + s.stime < 2 ^ 64) (b : Int) :
    cpuSeconds m b s = divI64 (w ((s.utime + s.stime : Nat) : Int)) b := by
  unfold cpuSeconds addU
  by_cases hlt : s.utime + s.stime < 2 ^ 64
  · rw [if_pos (by rw [W64_eq]; omega), Out.ok_bind, asI64_w hw hlt]
  · cases m with
    | debug => exact absurd (hs rfl) hlt
    | release =>
      rw [if_neg (by rw [W64_eq]; omega)]
      simp only [Out.ok_bind, W64_eq]
      have hb : (s.utime + s.stime) % 2 ^ 64 < 2 ^ 64 := Nat.mod_lt _ (by decide)
      have hx : asI64 ((s.utime + s.stime) % 2 ^ 64) = w ((s.utime + s.stime : Nat) : Int) := by
        refine isWrap_unique (isWrap_congr (asI64_isWrap hb) ?_) (hw _)
        omega
      rw [hx]

include hw in
theorem cpu_w (m : Mode) {os : Os} {s : ProcStat} (ht : ¬ BadQuotient (w ((s.utime + s.stime : Nat) : Int)) os.clkTck)
    (hs : m = .debug → s.utime + s.stime < 2 ^ 64) :
    cpuSeconds m os.clkTck s = .ok ((w ((s.utime + s.stime : Nat) : Int)).tdiv os.clkTck) := by
  rw [sum_w hw m hs, divI64_fits (hw _).1 ht]

include hw in
theorem cpu_bad (m : Mode) {os : Os} {s : ProcStat} (ht : BadQuotient (w ((s.utime + s.stime : Nat) : Int)) os.clkTck)
    (hs : m = .debug → s.utime + s.stime < 2 ^ 64) : cpuSeconds m os.clkTck s = .panic := by
  rw [sum_w hw m hs, divI64_bad ht]

include hw in
theorem check_rss (m : Mode) {os : Os} {r : Nat} (hr : r < 2 ^ 64) (h : m = .debug → FitsGauge (w r * os.pageSize)) :
    checkI64 m (asI64 r * os.pageSize) = .ok (w (r * os.pageSize)) := by
  rw [asI64_w hw hr]
  cases m with
  | debug => rw [(checkI64_debug _).1 (h rfl), ← rss_w hw, w_fits hw (h rfl)]
  | release =>
    obtain ⟨v, h1, h2⟩ := checkI64_release (w r * os.pageSize)
    rw [h1, ← rss_w hw]
    exact congrArg _ (isWrap_unique h2 (hw _))

theorem cut_named (os : Os) (p : ProcInfo) (t : Option Int) :
    ∀ c ∈ (cutFacts w os p ++ startFacts t).flatMap Fact.calls, CallOk c := by
  intro c hc
  obtain ⟨f, hf, hc⟩ := List.mem_flatMap.1 hc
  have h : isSnake f.name = true ∧ isPlainHelp f.help = true := by
    simp only [cutFacts, startFacts, List.mem_append, List.mem_map, List.mem_flatMap, List.mem_cons, List.not_mem_nil,
      or_false] at hf
    rcases hf with ((⟨_, _, rfl⟩ | ⟨_, _, rfl⟩) | ⟨_, _, rfl | rfl | rfl | rfl⟩) | ⟨_, _, rfl⟩ <;>
      exact ⟨rfl, rfl⟩
  simp only [Fact.calls, List.mem_cons, List.not_mem_nil, or_false] at hc
  rcases hc with rfl | rfl
  · exact ⟨snake_metric h.1, plain_help h.2⟩
  · exact ⟨snake_metric h.1, by simp [LabelsOk], trivial⟩

include hw in
theorem collectProc_cut {E : Type} (m : Mode) (enc : Encoder E) (os : Os) (c : ProcessCollector)
    (p : ProcInfo) (hp : ProcU64 p) (hno : ¬ ScrapeOverflows w m os p) :
    collectProc m os c enc p = enc.runAll ((cutFacts w os p ++ startFacts c.startTime).flatMap Fact.calls) := by
  have h1 : collectFds enc p.fdCount = enc.runAll ((p.fdCount.toList.map fun (n : Nat) =>
      (⟨b!"open_fds", b!"Number of open file descriptors.", w n⟩ : Fact)).flatMap Fact.calls) := by
    cases hx : p.fdCount with
    | none => rfl
    | some n =>
      simp only [collectFds, asI64_w hw (hp.fds n hx), helpAndGauge_ok]
      simp
  have h2 : collectLimits enc p.maxFds = enc.runAll ((p.maxFds.join.toList.map fun (n : Nat) =>
      (⟨b!"max_fds", b!"Maximum number of open file descriptors.", w n⟩ : Fact)).flatMap Fact.calls) := by
    rcases hx : p.maxFds with _ | _ | n
    · rfl
    · rfl
    · simp only [collectLimits, asI64_w hw (hp.limit n hx), helpAndGauge_ok]
      simp
  unfold collectProc
  rw [h1, h2, collectStart_ok]
  unfold cutFacts
  cases hs : p.stat with
  | none =>
    have h0 : collectStat m os enc none = enc.runAll [] := rfl
    rw [h0]
    simp only [← Encoder.runAll_add, List.flatMap_append, List.append_assoc]
    simp
  | some s =>
    obtain ⟨_, g2, g3, _, _⟩ := hp.stat s hs
    have hr : m = .debug → FitsGauge (w s.rss * os.pageSize) := by
      intro hm
      by_contra hc
      exact hno ⟨s, hs, .inl ⟨hm, hc⟩⟩
    have hc : m = .debug → s.utime + s.stime < 2 ^ 64 := by
      intro hm
      by_contra hc
      exact hno ⟨s, hs, .inr (.inl ⟨hm, by omega⟩)⟩
    have ht : ¬ BadQuotient (w ((s.utime + s.stime : Nat) : Int)) os.clkTck := fun h => hno ⟨s, hs, .inr (.inr h)⟩
    simp only [collectStat, asI64_w hw g2, cpu_w hw m ht hc, check_rss hw m g3 hr, helpAndGauge_ok,
      ← Encoder.runAll_add]
    simp

/-- C46 for quantities of any size (what is missing: the start time, which is whatever `new` stored). A scrape shows
every quantity as its 64 bit two's complement, unless it cannot compute one. -/
theorem C46_wide_partial (hw : ∀ x, IsWrap (w x) x) {ryu : F64 → Bytes} {rf : Bytes → Option F64} (F : FloatText ryu rf)
    (m : Mode) (os : Os) (c : ProcessCollector) (p : ProcInfo) (hp : os.procs c.pid = some p)
    (hu : ProcU64 p) (hno : ¬ ScrapeOverflows w m os p) :
    ∃ e, c.collect m os (textEncoder m ryu) (TextEnc.new []) = (.ok (), e) ∧
      readFamilies rf e.writer = some ((cutFacts w os p ++ startFacts c.startTime).map Fact.family) := by
  obtain ⟨st, out, ls, h1, h2, h3⟩ := calls_read F m _ (cut_named (w := w) os p c.startTime)
  refine ⟨⟨st, out⟩, ?_, ?_⟩
  · unfold ProcessCollector.collect
    rw [hp]
    simp only
    rw [collectProc_cut hw m _ os c p hu hno]
    exact h1
  · rw [readFamilies, h2, factsLines_eq _ _ _ h3]
    simp [consume_facts]

theorem RS.panic_bind {σ α β : Type} (f : α → RS σ β) : ((RS.panic : RS σ α) >>= f) = RS.panic := rfl

theorem helpAndGauge_panic {E : Type} (enc : Encoder E) (n h : Bytes) :
    helpAndGauge enc n h .panic = (enc.runAll [.help (.str n) h] >>= fun _ => RS.panic) := by
  rw [Encoder.runAll_one]
  rfl

/-- The calls made before a scrape panics. -/
theorem panics_after {ryu : F64 → Bytes} (F : ∃ rf, FloatText ryu rf) (m : Mode) (os : Os) (p : ProcInfo) (cs rest : List EncCall)
    (h : (cutFacts w os p).flatMap Fact.calls = cs ++ rest) (x : RS (TextEnc Bytes) Unit)
    (hx : x = ((textEncoder m ryu).runAll cs >>= fun _ => RS.panic)) : (x (TextEnc.new [])).1 = .panic := by
  obtain ⟨rf, F⟩ := F
  obtain ⟨st, out, ls, h1, _, _⟩ := calls_read F m cs (fun c hc => cut_named (w := w) os p none c (by
    simp only [List.flatMap_append, h, List.mem_append]
    exact .inl (.inl hc)))
  rw [hx, RS.bind_ok (s := TextEnc.new []) h1]
  rfl

/-- C46: otherwise it panics. -/
theorem C46_wide_panics (hw : ∀ x, IsWrap (w x) x) {ryu : F64 → Bytes} {rf : Bytes → Option F64} (F : FloatText ryu rf)
    (m : Mode) (os : Os) (c : ProcessCollector) (p : ProcInfo) (hp : os.procs c.pid = some p)
    (hu : ProcU64 p) (hov : ScrapeOverflows w m os p) :
    (c.collect m os (textEncoder m ryu) (TextEnc.new ([] : Bytes))).1 = .panic := by
  obtain ⟨s, hs, hov⟩ := hov
  obtain ⟨_, g2, g3, _, _⟩ := hu.stat s hs
  let enc : Encoder (TextEnc Bytes) := textEncoder m ryu
  have h1 : collectFds enc p.fdCount = enc.runAll ((p.fdCount.toList.map fun (n : Nat) =>
      (⟨b!"open_fds", b!"Number of open file descriptors.", w n⟩ : Fact)).flatMap Fact.calls) := by
    cases hx : p.fdCount with
    | none => rfl
    | some n =>
      simp only [collectFds, asI64_w hw (hu.fds n hx), helpAndGauge_ok]
      simp
  have h2 : collectLimits enc p.maxFds = enc.runAll ((p.maxFds.join.toList.map fun (n : Nat) =>
      (⟨b!"max_fds", b!"Maximum number of open file descriptors.", w n⟩ : Fact)).flatMap Fact.calls) := by
    rcases hx : p.maxFds with _ | _ | n
    · rfl
    · rfl
    · simp only [collectLimits, asI64_w hw (hu.limit n hx), helpAndGauge_ok]
      simp
  have hc : c.collect m os enc = collectProc m os c enc p := by
    unfold ProcessCollector.collect
    rw [hp]
  change (c.collect m os enc (TextEnc.new ([] : Bytes))).1 = .panic
  rw [hc]
  by_cases hr : m = .debug → FitsGauge (w s.rss * os.pageSize)
  · have hcpu : cpuSeconds m os.clkTck s = .panic := by
      by_cases hd : m = .debug ∧ 2 ^ 64 ≤ s.utime + s.stime
      · obtain ⟨rfl, h64⟩ := hd
        unfold cpuSeconds addU
        rw [if_neg (by rw [W64_eq]; omega)]
        rfl
      · rcases hov with h | h | h
        · exact absurd (hr h.1) h.2
        · exact absurd h hd
        · exact cpu_bad hw m h (by
            intro hm
            by_contra hc
            exact hd ⟨hm, by omega⟩)
    refine panics_after (w := w) ⟨rf, F⟩ m os p (((p.fdCount.toList.map fun (n : Nat) =>
      (⟨b!"open_fds", b!"Number of open file descriptors.", w n⟩ : Fact)).flatMap Fact.calls) ++
      ((p.maxFds.join.toList.map fun (n : Nat) =>
        (⟨b!"max_fds", b!"Maximum number of open file descriptors.", w n⟩ : Fact)).flatMap Fact.calls ++
      (Fact.calls ⟨b!"virtual_memory_bytes", b!"Virtual memory size in bytes.", w s.vsize⟩ ++
      (Fact.calls ⟨b!"resident_memory_bytes", b!"Resident memory size in bytes.", w (s.rss * os.pageSize)⟩ ++
      [.help (.str b!"cpu_seconds_total") b!"Total user and system CPU time spent in seconds."]))))
      (.sample (.gauge ((w ((s.utime + s.stime : Nat) : Int)).tdiv os.clkTck)) [] (.str b!"cpu_seconds_total") ::
        Fact.calls ⟨b!"threads", b!"Number of OS threads in the process.", s.numThreads⟩) ?_ _ ?_
    · unfold cutFacts
      simp only [hs, Option.toList, List.flatMap_append, List.flatMap_cons, List.flatMap_nil, List.append_nil, List.append_assoc]
      simp only [Fact.calls, List.cons_append, List.nil_append]
    · unfold collectProc
      rw [h1, h2, hs]
      simp only [collectStat, asI64_w hw g2, check_rss hw m g3 hr, hcpu, helpAndGauge_ok, helpAndGauge_panic,
        Encoder.runAll_add, RS.bind_assoc', RS.panic_bind]
      rfl
  · obtain ⟨hm, hr'⟩ : m = .debug ∧ ¬ FitsGauge (w s.rss * os.pageSize) := by simpa using hr
    have hrss : checkI64 m (asI64 s.rss * os.pageSize) = .panic := by
      rw [asI64_w hw g3, hm]
      exact (checkI64_debug _).2 hr'
    refine panics_after (w := w) ⟨rf, F⟩ m os p (((p.fdCount.toList.map fun (n : Nat) =>
      (⟨b!"open_fds", b!"Number of open file descriptors.", w n⟩ : Fact)).flatMap Fact.calls) ++
      ((p.maxFds.join.toList.map fun (n : Nat) =>
        (⟨b!"max_fds", b!"Maximum number of open file descriptors.", w n⟩ : Fact)).flatMap Fact.calls ++
      (Fact.calls ⟨b!"virtual_memory_bytes", b!"Virtual memory size in bytes.", w s.vsize⟩ ++
      [.help (.str b!"resident_memory_bytes") b!"Resident memory size in bytes."])))
      (.sample (.gauge (w (s.rss * os.pageSize))) [] (.str b!"resident_memory_bytes") ::
        (Fact.calls ⟨b!"cpu_seconds_total", b!"Total user and system CPU time spent in seconds.",
        (w ((s.utime + s.stime : Nat) : Int)).tdiv os.clkTck⟩ ++
        Fact.calls ⟨b!"threads", b!"Number of OS threads in the process.", s.numThreads⟩)) ?_ _ ?_
    · unfold cutFacts
      simp only [hs, Option.toList, List.flatMap_append, List.flatMap_cons, List.flatMap_nil, List.append_nil, List.append_assoc]
      simp only [Fact.calls, List.cons_append, List.nil_append]
    · unfold collectProc
      rw [h1, h2, hs]
      simp only [collectStat, asI64_w hw g2, hrss, helpAndGauge_ok, helpAndGauge_panic,
        Encoder.runAll_add, RS.bind_assoc', RS.panic_bind]
      rfl

/-- C46: the start time that `new` stores, for times of any size: it is cut to 64 bits in release builds, and `new` panics
when it cannot be computed. The time of day at which the machine booted comes as a `u64`. -/
theorem C46_wide_start (hw : ∀ x, IsWrap (w x) x) (m : Mode) (os : Os) (pid : Int) (q : ProcInfo)
    (hq : os.procs os.self = some q) (hu : ProcU64 q) (b : Nat) (hb : os.bootTime = some b) (hb64 : b < 2 ^ 64) (s : ProcStat)
    (hs : q.stat = some s) :
    ProcessCollector.new m os pid =
      if BadQuotient (w s.starttime) os.clkTck ∨ m = .debug ∧ ¬ FitsGauge ((w s.starttime).tdiv os.clkTck + w b) then .panic
      else .ok ⟨pid, some (w ((w s.starttime).tdiv os.clkTck + b))⟩ := by
  obtain ⟨g1, _⟩ := hu.stat s hs
  have hcong : w ((w s.starttime).tdiv os.clkTck + w b) = w ((w s.starttime).tdiv os.clkTck + b) := by
    refine isWrap_unique (isWrap_congr (hw _) ?_) (hw _)
    have h := (hw b).2
    omega
  unfold ProcessCollector.new startSeconds
  simp only [hb, hq, Option.bind_some, hs, asI64_w hw g1, asI64_w hw hb64]
  by_cases ht : BadQuotient (w s.starttime) os.clkTck
  · rw [divI64_bad ht, if_pos (.inl ht)]
    rfl
  simp only [divI64_fits (hw _).1 ht, Out.ok_bind]
  cases m with
  | debug =>
    by_cases hf : FitsGauge ((w s.starttime).tdiv os.clkTck + w b)
    · rw [(checkI64_debug _).1 hf, if_neg (by simp [hf, ht]), ← hcong, w_fits hw hf]
      rfl
    · rw [(checkI64_debug _).2 hf, if_pos (.inr ⟨rfl, hf⟩)]
      rfl
  | release =>
    obtain ⟨v, h1, h2⟩ := checkI64_release ((w s.starttime).tdiv os.clkTck + w b)
    rw [h1, if_neg (by simp [ht]), ← hcong, isWrap_unique h2 (hw _)]
    rfl

/-- For quantities that fit, `cutFacts` are the facts. -/
theorem cutFacts_fits (hw : ∀ x, IsWrap (w x) x) (os : Os) (ho : OsOk os) (p : ProcInfo) (hok : ProcOk os p) :
    cutFacts w os p = usageFacts os p := by
  have hn : ∀ n : Nat, n < 2 ^ 63 → w n = n := fun n hn => w_fits hw ⟨by omega, by omega⟩
  unfold cutFacts usageFacts
  congr 1
  · congr 1
    · cases hx : p.fdCount with
      | none => rfl
      | some n => simp [hn n (hok.fds n hx)]
    · rcases hx : p.maxFds with _ | _ | n
      · rfl
      · rfl
      · simp [hn n (hok.limit n hx)]
  · cases hs : p.stat with
    | none => rfl
    | some s =>
      have hpage := ho.page
      have h1 := hn _ (hok.vsize s hs)
      have h2 : w (s.rss * os.pageSize) = s.rss * os.pageSize :=
        w_fits hw ⟨by have := Int.mul_nonneg (Int.natCast_nonneg s.rss) (by omega : 0 ≤ os.pageSize); omega, hok.rss s hs⟩
      have h3 := hn _ (hok.cpu s hs)
      simp only [Option.toList, List.flatMap_cons, List.flatMap_nil, h1, h2, h3, tdiv_ediv ho.tck.1]

/-! ## A process with more than an `i64` holds -/

/-- Unlimited descriptors shown as a number, four exbipages resident. -/
def exWide : ProcInfo := ⟨some 3, some (some (2 ^ 64 - 1)), some ⟨500, 4096, 2 ^ 52, 150, 60, 4⟩⟩
def exWideOs : Os := ⟨some 1000, 1, fun _ => some exWide, 100, 4096⟩

theorem exWide_u64 : ProcU64 exWide where
  fds n h := by cases h; decide
  limit n h := by cases h; decide
  stat s h := by cases h; decide

theorem exWide_overflows : ScrapeOverflows wrapI64 .debug exWideOs exWide :=
  ⟨_, rfl, .inl ⟨rfl, by decide +kernel⟩⟩

theorem exWide_fits : ¬ ScrapeOverflows wrapI64 .release exWideOs exWide := by
  rintro ⟨s, hs, h⟩
  cases hs
  revert h
  decide +kernel

example : (∀ x, IsWrap (wrapI64 x) x) ∧ ProcU64 exWide := ⟨wrapI64_isWrap, exWide_u64⟩
example : (cutFacts wrapI64 exWideOs exWide).map Fact.value = [3, -1, 4096, 0, 2, 4] := by decide +kernel
example : ((ProcessCollector.mk 1 (some 5)).collect .release exWideOs (textEncoder .release exRyu) (TextEnc.new ([] : Bytes))).1 = .ok () := by
  decide +kernel
example : ((ProcessCollector.mk 1 (some 5)).collect .debug exWideOs (textEncoder .debug exRyu) (TextEnc.new ([] : Bytes))).1 = .panic := by
  decide +kernel
example : ((ProcessCollector.mk 1 (some 5)).collect .release { exWideOs with clkTck := 0 } (textEncoder .release exRyu)
    (TextEnc.new ([] : Bytes))).1 = .panic := by
  decide +kernel

end Measured
