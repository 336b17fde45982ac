import Verif.Model.TokioConc
import Verif.Proof.Atomic
import Verif.Proof.RunAll

/-!
# Invariants of a `NamedRuntimesCollector` used by many threads
-/

namespace Measured.Conc

/-- The thread of an event. -/
def RtEvent.tid {R E : Type} : RtEvent R E → Tid
  | .startAdd t .. | .pushed t .. | .addDone t | .noRuntime t | .startScrape t .. | .scraped t .. | .lockPanic t
  | .silent t => t

/-- The runtimes pushed so far. -/
def rtPushes {R E : Type} (tr : List (RtEvent R E)) : List (R × Bytes) :=
  tr.filterMap fun e => match e with
    | .pushed _ r n => some (r, n)
    | _ => none

/-- `e` is the last event of thread `t` apart from silent ones. -/
def RtSince {R E : Type} (t : Tid) (e : RtEvent R E) (tr : List (RtEvent R E)) : Prop :=
  ∃ tr₁ tr₂, tr = tr₁ ++ e :: tr₂ ∧ ∀ x ∈ tr₂, x.tid = t → x = .silent t

theorem rtSince_new {R E : Type} (t : Tid) (e : RtEvent R E) (tr : List (RtEvent R E)) : RtSince t e (tr ++ [e]) :=
  ⟨tr, [], by simp, by simp⟩

theorem rtSince_snoc {R E : Type} {t : Tid} {e : RtEvent R E} {tr : List (RtEvent R E)} (h : RtSince t e tr)
    (x : RtEvent R E) (hx : x.tid = t → x = .silent t) : RtSince t e (tr ++ [x]) := by
  obtain ⟨a, b, rfl, hb⟩ := h
  refine ⟨a, b ++ [x], by simp, ?_⟩
  intro y hy
  rcases List.mem_append.1 hy with hy | hy
  · exact hb y hy
  · rw [List.mem_singleton.1 hy]; exact hx

/-- Families one after the other. -/
def runFamilies {E : Type} (rts : List RtCollector) : List (List RtCollector → RS E Unit) → RS E Unit
  | [] => pure ()
  | f :: fs => do
    f rts
    runFamilies rts fs

theorem runFamilies_all {E : Type} (m : Mode) (net : Bool) (enc : Encoder E) (rts : List RtCollector) :
    runFamilies rts (familySteps m net enc) = collectRuntimes m net rts enc := by
  unfold familySteps collectRuntimes
  simp only [runFamilies]
  rw [RS.bind_unit]

theorem runFamilies_append {E : Type} (rts : List RtCollector) (fs gs : List (List RtCollector → RS E Unit)) (e : E) :
    runFamilies rts (fs ++ gs) e =
      match runFamilies rts fs e with
      | (.ok (), e') => runFamilies rts gs e'
      | (r, e') => (r, e') := by
  induction fs generalizing e with
  | nil => simp [runFamilies]
  | cons f fs ih =>
    simp only [List.cons_append, runFamilies, RS.bind_run]
    rcases h : f rts e with ⟨_ | _ | _, e'⟩
    · simp [ih]
    · simp
    · simp

theorem runFamilies_take {E : Type} {rts : List RtCollector} {fs : List (List RtCollector → RS E Unit)} {i : Nat}
    {f : List RtCollector → RS E Unit} (hf : fs[i]? = some f) {e₀ e : E}
    (h : runFamilies rts (fs.take i) e₀ = (.ok (), e)) : runFamilies rts (fs.take (i + 1)) e₀ = f rts e := by
  have ht : fs.take (i + 1) = fs.take i ++ [f] := by rw [List.take_add_one, hf]; rfl
  rw [ht, runFamilies_append, h]
  simp only [runFamilies, RS.bind_run]
  rcases f rts e with ⟨_ | _ | _, e'⟩ <;> simp

theorem runFamilies_stop {E : Type} {rts : List RtCollector} {fs : List (List RtCollector → RS E Unit)} {i : Nat}
    {e₀ e : E} {r : Out Unit} (h : runFamilies rts (fs.take i) e₀ = (r, e)) (hr : r ≠ .ok ()) :
    runFamilies rts fs e₀ = (r, e) := by
  conv_lhs => rw [← List.take_append_drop i fs]
  rw [runFamilies_append, h]
  cases r with
  | ok u => exact absurd rfl hr
  | err => rfl
  | panic => rfl

variable {R E : Type} {m : Mode} {net : Bool} {encoder : Encoder E}

/-- What is known of a thread that is at `p`. -/
def RtPcOk (m : Mode) (net : Bool) (encoder : Encoder E) (rts : List (R × Bytes)) (t : Tid) (tr : List (RtEvent R E)) :
    RtPc R E → Prop
  | .idle => True
  | .wantWrite rt n => RtSince t (.startAdd t rt n) tr
  | .adding rt n => RtSince t (.startAdd t rt n) tr
  | .added => ∃ r n tr₁ tr₂, tr = tr₁ ++ .pushed t r n :: tr₂ ∧ (∀ x ∈ tr₂, x.tid = t → x = .silent t) ∧
      RtSince t (.startAdd t (some r) n) tr₁
  | .wantRead ans e => RtSince t (.startScrape t ans e) tr
  | .collecting ans i e => ∃ e₀, RtSince t (.startScrape t ans e₀) tr ∧
      runFamilies (collectors ans rts) ((familySteps m net encoder).take i) e₀ = (.ok (), e)
  | .collected r e => ∃ ans e₀, RtSince t (.startScrape t ans e₀) tr ∧
      collectRuntimes m net (collectors ans rts) encoder e₀ = (r, e)

theorem rtPcOk_other {rts : List (R × Bytes)} {t : Tid} {tr : List (RtEvent R E)} {p : RtPc R E}
    (h : RtPcOk m net encoder rts t tr p) (x : RtEvent R E) (hx : x.tid ≠ t) :
    RtPcOk m net encoder rts t (tr ++ [x]) p := by
  have hs : x.tid = t → x = .silent t := fun h => absurd h hx
  cases p with
  | idle => trivial
  | wantWrite rt n => exact rtSince_snoc h x hs
  | adding rt n => exact rtSince_snoc h x hs
  | added =>
    obtain ⟨r, n, a, b, rfl, hb, hsi⟩ := h
    refine ⟨r, n, a, b ++ [x], by simp, ?_, hsi⟩
    intro y hy
    rcases List.mem_append.1 hy with hy | hy
    · exact hb y hy
    · rw [List.mem_singleton.1 hy]; exact hs
  | wantRead ans e => exact rtSince_snoc h x hs
  | collecting ans i e =>
    obtain ⟨e₀, h1, h2⟩ := h
    exact ⟨e₀, rtSince_snoc h1 x hs, h2⟩
  | collected r e =>
    obtain ⟨ans, e₀, h1, h2⟩ := h
    exact ⟨ans, e₀, rtSince_snoc h1 x hs, h2⟩

/-- A thread without a read guard does not depend on the list. -/
theorem rtPcOk_list {rts rts' : List (R × Bytes)} {t : Tid} {tr : List (RtEvent R E)} {p : RtPc R E}
    (h : RtPcOk m net encoder rts t tr p) (hp : p.holdsRead = false) : RtPcOk m net encoder rts' t tr p := by
  cases p <;> first | exact h | simp [RtPc.holdsRead] at hp

structure RtInv (m : Mode) (net : Bool) (encoder : Encoder E) (tr : List (RtEvent R E)) (s : RtSys R E) : Prop where
  list : s.runtimes = rtPushes tr
  poison : s.poisoned = true ↔ ∃ t, .noRuntime t ∈ tr
  excl : ∀ t u, (s.pc t).holdsWrite = true → t ≠ u → (s.pc u).holdsWrite = false ∧ (s.pc u).holdsRead = false
  held : ∀ t, (s.pc t).holdsWrite = true ∨ (s.pc t).holdsRead = true → s.poisoned = false
  ok : ∀ t, RtPcOk m net encoder s.runtimes t tr (s.pc t)

theorem rtPushes_snoc (tr : List (RtEvent R E)) (x : RtEvent R E) (hx : ∀ t r n, x ≠ .pushed t r n) :
    rtPushes (tr ++ [x]) = rtPushes tr := by
  unfold rtPushes
  rw [List.filterMap_append]
  cases x <;> simp_all

theorem rtPoison_snoc {tr : List (RtEvent R E)} {b : Bool} (h : b = true ↔ ∃ t, .noRuntime t ∈ tr) (x : RtEvent R E)
    (hx : ∀ t, x ≠ .noRuntime t) : b = true ↔ ∃ t, .noRuntime t ∈ tr ++ [x] := by
  rw [h]
  constructor
  · rintro ⟨t, ht⟩; exact ⟨t, by simp [ht]⟩
  · rintro ⟨t, ht⟩
    rcases List.mem_append.1 ht with ht | ht
    · exact ⟨t, ht⟩
    · exact absurd (List.mem_singleton.1 ht).symm (hx t)

/-- A step that only moves one thread. -/
theorem rtInv_goto {tr : List (RtEvent R E)} {s : RtSys R E} (hi : RtInv m net encoder tr s) (t : Tid) (p : RtPc R E)
    (x : RtEvent R E) (hx : x.tid = t) (h1 : ∀ t r n, x ≠ .pushed t r n) (h2 : ∀ t, x ≠ .noRuntime t)
    (hw : p.holdsWrite = true → ∀ u, u ≠ t → (s.pc u).holdsWrite = false ∧ (s.pc u).holdsRead = false)
    (hr : p.holdsRead = true → ∀ u, u ≠ t → (s.pc u).holdsWrite = false)
    (hp : p.holdsWrite = true ∨ p.holdsRead = true → s.poisoned = false)
    (hok : RtPcOk m net encoder s.runtimes t (tr ++ [x]) p) : RtInv m net encoder (tr ++ [x]) (s.goto t p) := by
  refine ⟨?_, ?_, ?_, ?_, ?_⟩
  · rw [rtPushes_snoc _ _ h1]; exact hi.list
  · exact rtPoison_snoc hi.poison x h2
  · intro a b ha hab
    simp only [RtSys.goto] at ha ⊢
    by_cases hat : a = t
    · subst hat
      rw [Function.update_self] at ha
      rw [Function.update_of_ne (Ne.symm hab)]
      exact hw ha b (Ne.symm hab)
    · rw [Function.update_of_ne hat] at ha
      by_cases hbt : b = t
      · subst hbt
        rw [Function.update_self]
        refine ⟨?_, ?_⟩
        · by_contra hc
          have := (hw (by simpa using hc) a hat).1
          rw [ha] at this; exact absurd this (by simp)
        · by_contra hc
          have := hr (by simpa using hc) a hat
          rw [ha] at this; exact absurd this (by simp)
      · rw [Function.update_of_ne hbt]; exact hi.excl a b ha hab
  · intro a ha
    simp only [RtSys.goto] at ha ⊢
    by_cases hat : a = t
    · subst hat; rw [Function.update_self] at ha; exact hp ha
    · rw [Function.update_of_ne hat] at ha; exact hi.held a ha
  · intro a
    simp only [RtSys.goto]
    by_cases hat : a = t
    · subst hat; rw [Function.update_self]; exact hok
    · rw [Function.update_of_ne hat]
      exact rtPcOk_other (hi.ok a) x (by rw [hx]; exact Ne.symm hat)

theorem rtInv_step {tr : List (RtEvent R E)} {s s' : RtSys R E} {x : RtEvent R E} (hi : RtInv m net encoder tr s)
    (h : RtStep m net encoder s x s') : RtInv m net encoder (tr ++ [x]) s' := by
  cases h with
  | startAdd t rt n h =>
    exact rtInv_goto hi t _ _ rfl (by simp) (by simp) (by simp [RtPc.holdsWrite]) (by simp [RtPc.holdsRead])
      (by simp [RtPc.holdsWrite, RtPc.holdsRead]) (rtSince_new _ _ _)
  | lockWrite t rt n h hl hp =>
    refine rtInv_goto hi t _ _ rfl (by simp) (by simp) (fun _ u _ => hl u) (by simp [RtPc.holdsRead])
      (fun _ => hp) ?_
    have := hi.ok t; rw [h] at this
    exact rtSince_snoc this _ (fun _ => rfl)
  | lockWritePanic t rt n h hl hp =>
    exact rtInv_goto hi t _ _ rfl (by simp) (by simp) (by simp [RtPc.holdsWrite]) (by simp [RtPc.holdsRead])
      (by simp [RtPc.holdsWrite, RtPc.holdsRead]) trivial
  | noRuntime t n h =>
    have hex := hi.excl t
    rw [h] at hex
    refine ⟨?_, ?_, ?_, ?_, ?_⟩
    · rw [rtPushes_snoc _ _ (by simp)]; exact hi.list
    · simp only [true_iff]; exact ⟨t, by simp⟩
    · intro a b ha hab
      simp only [RtSys.goto] at ha
      by_cases hat : a = t
      · subst hat; rw [Function.update_self] at ha; simp [RtPc.holdsWrite] at ha
      · rw [Function.update_of_ne hat] at ha
        rw [(hex a rfl (Ne.symm hat)).1] at ha; exact absurd ha (by simp)
    · intro a ha
      simp only [RtSys.goto] at ha
      by_cases hat : a = t
      · subst hat; rw [Function.update_self] at ha; simp [RtPc.holdsWrite, RtPc.holdsRead] at ha
      · rw [Function.update_of_ne hat] at ha
        rw [(hex a rfl (Ne.symm hat)).1, (hex a rfl (Ne.symm hat)).2] at ha; exact absurd ha (by simp)
    · intro a
      simp only [RtSys.goto]
      by_cases hat : a = t
      · subst hat; rw [Function.update_self]; trivial
      · rw [Function.update_of_ne hat]
        exact rtPcOk_other (hi.ok a) _ (Ne.symm hat)
  | push t r n h =>
    have hex := hi.excl t
    rw [h] at hex
    have hok := hi.ok t
    rw [h] at hok
    refine ⟨?_, ?_, ?_, ?_, ?_⟩
    · simp only [RtSys.goto]
      rw [hi.list]; simp [rtPushes]
    · exact rtPoison_snoc hi.poison _ (by simp)
    · intro a b ha hab
      simp only [RtSys.goto] at ha ⊢
      by_cases hat : a = t
      · subst hat
        rw [Function.update_of_ne (Ne.symm hab)]; exact hex b rfl hab
      · rw [Function.update_of_ne hat] at ha
        rw [(hex a rfl (Ne.symm hat)).1] at ha; exact absurd ha (by simp)
    · intro a ha
      exact hi.held t (by rw [h]; exact .inl rfl)
    · intro a
      simp only [RtSys.goto]
      by_cases hat : a = t
      · subst hat; rw [Function.update_self]
        exact ⟨r, n, tr, [], by simp, by simp, hok⟩
      · rw [Function.update_of_ne hat]
        exact rtPcOk_list (rtPcOk_other (hi.ok a) _ (Ne.symm hat)) (hex a rfl (Ne.symm hat)).2
  | unlockWrite t h =>
    exact rtInv_goto hi t _ _ rfl (by simp) (by simp) (by simp [RtPc.holdsWrite]) (by simp [RtPc.holdsRead])
      (by simp [RtPc.holdsWrite, RtPc.holdsRead]) trivial
  | startScrape t ans e h =>
    exact rtInv_goto hi t _ _ rfl (by simp) (by simp) (by simp [RtPc.holdsWrite]) (by simp [RtPc.holdsRead])
      (by simp [RtPc.holdsWrite, RtPc.holdsRead]) (rtSince_new _ _ _)
  | lockRead t ans e h hl hp =>
    refine rtInv_goto hi t _ _ rfl (by simp) (by simp) (by simp [RtPc.holdsWrite]) (fun _ u _ => hl u)
      (fun _ => hp) ?_
    have := hi.ok t; rw [h] at this
    exact ⟨e, rtSince_snoc this _ (fun _ => rfl), rfl⟩
  | lockReadPanic t ans e h hl hp =>
    exact rtInv_goto hi t _ _ rfl (by simp) (by simp) (by simp [RtPc.holdsWrite]) (by simp [RtPc.holdsRead])
      (by simp [RtPc.holdsWrite, RtPc.holdsRead]) trivial
  | family t ans i e f h hf e' hr =>
    have hok := hi.ok t
    rw [h] at hok
    obtain ⟨e₀, h1, h2⟩ := hok
    refine rtInv_goto hi t _ _ rfl (by simp) (by simp) (by simp [RtPc.holdsWrite]) ?_ ?_ ?_
    · intro _ u hu
      by_contra hc
      have := (hi.excl u t (by simpa using hc) hu).2
      rw [h] at this; simp [RtPc.holdsRead] at this
    · intro _; exact hi.held t (by rw [h]; exact .inr rfl)
    · refine ⟨e₀, rtSince_snoc h1 _ (fun _ => rfl), ?_⟩
      rw [runFamilies_take hf h2, hr]
  | familyFails t ans i e f h hf r e' hr hne =>
    have hok := hi.ok t
    rw [h] at hok
    obtain ⟨e₀, h1, h2⟩ := hok
    refine rtInv_goto hi t _ _ rfl (by simp) (by simp) (by simp [RtPc.holdsWrite]) ?_ ?_ ?_
    · intro _ u hu
      by_contra hc
      have := (hi.excl u t (by simpa using hc) hu).2
      rw [h] at this; simp [RtPc.holdsRead] at this
    · intro _; exact hi.held t (by rw [h]; exact .inr rfl)
    · refine ⟨ans, e₀, rtSince_snoc h1 _ (fun _ => rfl), ?_⟩
      rw [← runFamilies_all]
      exact runFamilies_stop (i := i + 1) (by rw [runFamilies_take hf h2, hr]) hne
  | lastFamily t ans i e h hf =>
    have hok := hi.ok t
    rw [h] at hok
    obtain ⟨e₀, h1, h2⟩ := hok
    refine rtInv_goto hi t _ _ rfl (by simp) (by simp) (by simp [RtPc.holdsWrite]) ?_ ?_ ?_
    · intro _ u hu
      by_contra hc
      have := (hi.excl u t (by simpa using hc) hu).2
      rw [h] at this; simp [RtPc.holdsRead] at this
    · intro _; exact hi.held t (by rw [h]; exact .inr rfl)
    · refine ⟨ans, e₀, rtSince_snoc h1 _ (fun _ => rfl), ?_⟩
      rw [← runFamilies_all]
      rwa [List.take_of_length_le (List.getElem?_eq_none_iff.1 hf)] at h2
  | unlockRead t r e h =>
    exact rtInv_goto hi t _ _ rfl (by simp) (by simp) (by simp [RtPc.holdsWrite]) (by simp [RtPc.holdsRead])
      (by simp [RtPc.holdsWrite, RtPc.holdsRead]) trivial

theorem rtInv {tr : List (RtEvent R E)} {s : RtSys R E} (h : Exec (RtStep m net encoder) RtSys.new tr s) :
    RtInv m net encoder tr s := by
  induction h with
  | nil => exact ⟨rfl, by simp [RtSys.new], by simp [RtSys.new, RtPc.holdsWrite],
      by simp [RtSys.new], fun _ => trivial⟩
  | snoc _ hs ih => exact rtInv_step ih hs

/-- Somebody can go on. -/
theorem rt_progress {tr : List (RtEvent R E)} {s : RtSys R E} (_h : Exec (RtStep m net encoder) RtSys.new tr s)
    {t : Tid} (ht : s.pc t ≠ .idle) :
    ∃ e s', RtStep m net encoder s e s' ∧ (∀ u rt n, e ≠ .startAdd u rt n) ∧ ∀ u a e', e ≠ .startScrape u a e' := by
  -- a thread with a guard can always go on
  have hheld : ∀ u, (s.pc u).holdsWrite = true ∨ (s.pc u).holdsRead = true →
      ∃ e s', RtStep m net encoder s e s' ∧ (∀ u rt n, e ≠ .startAdd u rt n) ∧ ∀ u a e', e ≠ .startScrape u a e' := by
    intro u hu
    rcases hp : s.pc u with _ | ⟨rt, n⟩ | ⟨rt, n⟩ | _ | ⟨ans, e⟩ | ⟨ans, i, e⟩ | ⟨r, e⟩
    · rw [hp] at hu; simp [RtPc.holdsWrite, RtPc.holdsRead] at hu
    · rw [hp] at hu; simp [RtPc.holdsWrite, RtPc.holdsRead] at hu
    · cases rt with
      | none => exact ⟨_, _, .noRuntime s u n hp, by simp, by simp⟩
      | some r => exact ⟨_, _, .push s u r n hp, by simp, by simp⟩
    · exact ⟨_, _, .unlockWrite s u hp, by simp, by simp⟩
    · rw [hp] at hu; simp [RtPc.holdsWrite, RtPc.holdsRead] at hu
    · rcases hf : (familySteps m net encoder)[i]? with _ | f
      · exact ⟨_, _, .lastFamily s u ans i e hp hf, by simp, by simp⟩
      · rcases hr : f (collectors ans s.runtimes) e with ⟨r, e'⟩
        by_cases hok : r = .ok ()
        · subst hok
          exact ⟨_, _, .family s u ans i e f hp hf e' hr, by simp, by simp⟩
        · exact ⟨_, _, .familyFails s u ans i e f hp hf r e' hr hok, by simp, by simp⟩
    · exact ⟨_, _, .unlockRead s u r e hp, by simp, by simp⟩
  by_cases hany : ∃ u, (s.pc u).holdsWrite = true ∨ (s.pc u).holdsRead = true
  · obtain ⟨u, hu⟩ := hany; exact hheld u hu
  · have hfree : ∀ u, (s.pc u).holdsWrite = false ∧ (s.pc u).holdsRead = false := by
      intro u
      have := fun hc => hany ⟨u, hc⟩
      simpa [not_or] using this
    rcases hp : s.pc t with _ | ⟨rt, n⟩ | ⟨rt, n⟩ | _ | ⟨ans, e⟩ | ⟨ans, i, e⟩ | ⟨r, e⟩
    · exact absurd hp ht
    · cases hpo : s.poisoned with
      | true => exact ⟨_, _, .lockWritePanic s t rt n hp hfree hpo, by simp, by simp⟩
      | false => exact ⟨_, _, .lockWrite s t rt n hp hfree hpo, by simp, by simp⟩
    · have := (hfree t).1; rw [hp] at this; simp [RtPc.holdsWrite] at this
    · have := (hfree t).1; rw [hp] at this; simp [RtPc.holdsWrite] at this
    · cases hpo : s.poisoned with
      | true => exact ⟨_, _, .lockReadPanic s t ans e hp (fun u => (hfree u).1) hpo, by simp, by simp⟩
      | false => exact ⟨_, _, .lockRead s t ans e hp (fun u => (hfree u).1) hpo, by simp, by simp⟩
    · have := (hfree t).2; rw [hp] at this; simp [RtPc.holdsRead] at this
    · have := (hfree t).2; rw [hp] at this; simp [RtPc.holdsRead] at this

end Measured.Conc
