import Verif.Proof.TokioConc
import Verif.Props.Tokio

/-!
# C79: runtimes are added to a `NamedRuntimesCollector` while it is scraped
-/

namespace Measured
open Conc Spec

variable {R E : Type} {m : Mode} {net : Bool} {enc : Encoder E}

/-- The runtimes whose addition has taken effect, in order. -/
def Spec.addedRuntimes (tr : List (RtEvent R E)) : List (R × Bytes) :=
  tr.filterMap fun e => match e with
    | .pushed _ r n => some (r, n)
    | _ => none

/-- Nothing but silent steps of thread `t`. -/
def Spec.QuietFor (t : Tid) (tr : List (RtEvent R E)) : Prop := ∀ x ∈ tr, x.tid = t → x = .silent t

/-- A scrape that ends is, whatever the other threads do, a single pass over exactly the runtimes whose addition has
taken effect before its end, in the order of the additions and under the names given to them: the same list for all
families. -/
theorem C79_scrape {tr tr' : List (RtEvent R E)} {t : Tid} {r : Out Unit} {e : E} {s : RtSys R E}
    (h : Exec (RtStep m net enc) RtSys.new (tr ++ .scraped t r e :: tr') s) :
    ∃ tr₁ tr₂ answers e₀, tr = tr₁ ++ .startScrape t answers e₀ :: tr₂ ∧ QuietFor t tr₂ ∧
      (r, e) = collectRuntimes m net
        ((addedRuntimes tr).map fun a => (⟨answers a.1, some a.2⟩ : RtCollector)) enc e₀ := by
  obtain ⟨s₁, h1, h2⟩ := exec_split tr _ h
  obtain ⟨s₂, hs, _⟩ := exec_cons_inv h2
  have hi := rtInv h1
  cases hs with
  | unlockRead t r e hp =>
    have hok := hi.ok t
    rw [hp, hi.list] at hok
    obtain ⟨ans, e₀, ⟨a, b, ht, hb⟩, hc⟩ := hok
    exact ⟨a, b, ans, e₀, ht, hb, hc.symm⟩

/-- An `add` that returns has put its own runtime into the list, once, between its start and its end. -/
theorem C79_add {tr tr' : List (RtEvent R E)} {t : Tid} {s : RtSys R E}
    (h : Exec (RtStep m net enc) RtSys.new (tr ++ .addDone t :: tr') s) :
    ∃ tr₁ tr₂ tr₃ r n, tr = tr₁ ++ .startAdd t (some r) n :: tr₂ ++ .pushed t r n :: tr₃ ∧
      QuietFor t tr₂ ∧ QuietFor t tr₃ := by
  obtain ⟨s₁, h1, h2⟩ := exec_split tr _ h
  obtain ⟨s₂, hs, _⟩ := exec_cons_inv h2
  have hi := rtInv h1
  cases hs with
  | unlockWrite t hp =>
    have hok := hi.ok t
    rw [hp] at hok
    obtain ⟨r, n, a, b, ht, hb, ⟨c, d, hc, hd⟩⟩ := hok
    subst hc
    exact ⟨c, d, b, r, n, ht, hd, hb⟩

/-- Nothing else gets into the list: what is pushed was given to an `add` that is in progress. -/
theorem C79_added {tr tr' : List (RtEvent R E)} {t : Tid} {r : R} {n : Bytes} {s : RtSys R E}
    (h : Exec (RtStep m net enc) RtSys.new (tr ++ .pushed t r n :: tr') s) :
    ∃ tr₁ tr₂, tr = tr₁ ++ .startAdd t (some r) n :: tr₂ ∧ QuietFor t tr₂ := by
  obtain ⟨s₁, h1, h2⟩ := exec_split tr _ h
  obtain ⟨s₂, hs, _⟩ := exec_cons_inv h2
  have hi := rtInv h1
  cases hs with
  | push t r n hp =>
    have hok := hi.ok t
    rw [hp] at hok
    exact hok

/-- Nobody waits for ever: as long as a call is in progress, some call can go on. -/
theorem C79_progress {tr : List (RtEvent R E)} {s : RtSys R E} (h : Exec (RtStep m net enc) RtSys.new tr s)
    (hact : ∃ t, s.pc t ≠ .idle) :
    ∃ e s', RtStep m net enc s e s' ∧ (∀ u rt n, e ≠ .startAdd u rt n) ∧ ∀ u a e', e ≠ .startScrape u a e' := by
  obtain ⟨t, ht⟩ := hact
  exact rt_progress h ht

/-- The claim that a failed `add_current` leaves the collector as it was: later calls get the lock. -/
def Spec.FailedAddHarmless (R E : Type) (m : Mode) (net : Bool) (enc : Encoder E) : Prop :=
  ∀ (tr tr' : List (RtEvent R E)) (t u : Tid) (s : RtSys R E),
    Exec (RtStep m net enc) RtSys.new (tr ++ .noRuntime u :: tr') s → .lockPanic t ∉ tr'

/-- This is false: when `add_current` panics outside a runtime, it holds the write guard, the lock is poisoned, and the
next scrape panics. -/
theorem C79_failed_add_refuted (R : Type) (answers : R → RtMetrics) (e : E) (m : Mode) (net : Bool) (enc : Encoder E) :
    ¬ FailedAddHarmless R E m net enc := by
  intro hf
  have hidle : ∀ u : Tid, (Function.update (fun _ => RtPc.idle : Tid → RtPc R E) 0 .idle u) = .idle := by
    intro u; by_cases hu : u = 0
    · subst hu; rw [Function.update_self]
    · rw [Function.update_of_ne hu]
  have h1 := Exec.snoc (tr := []) .nil (RtStep.startAdd (m := m) (net := net) (encoder := enc)
    (RtSys.new : RtSys R E) 0 none b!"main" rfl)
  have h2 := h1.snoc (RtStep.lockWrite _ 0 none b!"main" (by simp [RtSys.goto])
    (by
      intro u
      by_cases hu : u = 0
      · subst hu; simp [RtSys.goto, RtPc.holdsWrite, RtPc.holdsRead]
      · simp [RtSys.goto, RtSys.new, Function.update_of_ne hu, RtPc.holdsWrite, RtPc.holdsRead]) rfl)
  have h3 := h2.snoc (RtStep.noRuntime _ 0 b!"main" (by simp [RtSys.goto]))
  have h4 := h3.snoc (RtStep.startScrape _ 0 answers e (by simp [RtSys.goto]))
  have h5 := h4.snoc (RtStep.lockReadPanic _ 0 answers e (by simp [RtSys.goto])
    (by
      intro u
      by_cases hu : u = 0
      · subst hu; simp [RtSys.goto, RtPc.holdsWrite]
      · simp [RtSys.goto, RtSys.new, Function.update_of_ne hu, RtPc.holdsWrite]) rfl)
  exact hf [.startAdd 0 none b!"main", .silent 0] [.startScrape 0 answers e, .lockPanic 0] 0 0 _ h5 (by simp)

/-- What is true instead: a call panics at the lock if and only if some `add_current` has panicked before; after that,
no scrape shows anything and nothing can be added any more. -/
theorem C79_exact {tr tr' : List (RtEvent R E)} {x : RtEvent R E} {s : RtSys R E}
    (h : Exec (RtStep m net enc) RtSys.new (tr ++ x :: tr') s) :
    ((∃ t, x = .lockPanic t) → ∃ u, .noRuntime u ∈ tr) ∧
    ((∃ u, .noRuntime u ∈ tr) → (∀ t r e, x ≠ .scraped t r e) ∧ (∀ t r n, x ≠ .pushed t r n) ∧
      (∀ t, x ≠ .addDone t) ∧ ∀ t, x ≠ .noRuntime t) := by
  obtain ⟨s₁, h1, h2⟩ := exec_split tr _ h
  obtain ⟨s₂, hs, _⟩ := exec_cons_inv h2
  have hi := rtInv h1
  refine ⟨?_, ?_⟩
  · rintro ⟨t, rfl⟩
    cases hs with
    | lockWritePanic t rt n hp hl hpo => exact hi.poison.1 hpo
    | lockReadPanic t a e hp hl hpo => exact hi.poison.1 hpo
  · intro hu
    have hpo := hi.poison.2 hu
    have hno : ∀ t, ¬ ((s₁.pc t).holdsWrite = true ∨ (s₁.pc t).holdsRead = true) := by
      intro t hc
      rw [hi.held t hc] at hpo; exact absurd hpo (by simp)
    refine ⟨?_, ?_, ?_, ?_⟩
    · rintro t r e rfl
      cases hs with
      | unlockRead t r e hp => exact hno t (by rw [hp]; exact .inr rfl)
    · rintro t r n rfl
      cases hs with
      | push t r n hp => exact hno t (by rw [hp]; exact .inl rfl)
    · rintro t rfl
      cases hs with
      | unlockWrite t hp => exact hno t (by rw [hp]; exact .inl rfl)
    · rintro t rfl
      cases hs with
      | noRuntime t n hp => exact hno t (by rw [hp]; exact .inl rfl)

/-- C79 without failed `add_current` (missing: after one of them all calls panic, see above): no call panics at the
lock. -/
theorem C79_no_lock_panic_partial {tr : List (RtEvent R E)} {s : RtSys R E}
    (h : Exec (RtStep m net enc) RtSys.new tr s) (hadd : ∀ u, .noRuntime u ∉ tr) (t : Tid) : .lockPanic t ∉ tr := by
  intro hc
  obtain ⟨a, b, rfl⟩ := List.append_of_mem hc
  obtain ⟨u, hu⟩ := (C79_exact h).1 ⟨t, rfl⟩
  exact hadd u (by simp [hu])

/-- Through the text encoder: a scrape of runtimes whose numbers fit, into an empty encoder, does not fail and reads
back as the table of the runtimes added before its end. -/
theorem C79_text {ryu : F64 → Bytes} {rf : Bytes → Option F64} (F : FloatText ryu rf)
    {tr tr' : List (RtEvent R (TextEnc Bytes))} {t : Tid} {r : Out Unit} {e : TextEnc Bytes} {s : RtSys R (TextEnc Bytes)}
    (h : Exec (RtStep m net (textEncoder m ryu)) RtSys.new (tr ++ .scraped t r e :: tr') s)
    (hok : ∀ answers e₀, .startScrape t answers e₀ ∈ tr → e₀ = TextEnc.new [] ∧ ∀ x, RtOk (answers x)) :
    ∃ (answers : R → RtMetrics) (ls : List Line), r = .ok () ∧ readLines rf e.writer = some ls ∧ CallsLines rf Name.text false
      (rtCalls asSecsF64 net ((addedRuntimes tr).map fun a => (⟨answers a.1, some a.2⟩ : RtCollector))) ls := by
  obtain ⟨tr₁, tr₂, ans, e₀, ht, _, hr⟩ := C79_scrape h
  obtain ⟨rfl, hrt⟩ := hok ans e₀ (by rw [ht]; simp)
  obtain ⟨e', ls, g1, g2, g3⟩ := C48_text F m net
    ((addedRuntimes tr).map fun a => (⟨ans a.1, some a.2⟩ : RtCollector))
    (by
      intro c hc
      obtain ⟨a, _, rfl⟩ := List.mem_map.1 hc
      exact hrt a.1)
  rw [g1] at hr
  obtain ⟨rfl, rfl⟩ := Prod.mk.inj hr
  exact ⟨ans, ls, rfl, g2, g3⟩

/-! A case: one thread starts a scrape, another adds a runtime meanwhile, and the scrape shows it. -/

/-- An encoder that counts calls. -/
def exCounting : Encoder Nat where
  help _ _ := fun n => (.ok (), n + 1)
  type _ _ := fun n => (.ok (), n + 1)
  sample _ _ _ := fun n => (.ok (), n + 1)

theorem exec_scrape (answers : R → RtMetrics) (e e' : E) {tr : List (RtEvent R E)} {s : RtSys R E} {t : Tid}
    (h : Exec (RtStep m net enc) RtSys.new tr s) (hp : s.pc t = .wantRead answers e)
    (hf : ∀ u, (s.pc u).holdsWrite = false) (hpo : s.poisoned = false)
    (hr : collectRuntimes m net (collectors answers s.runtimes) enc e = (.ok (), e')) :
    ∃ tr' s', Exec (RtStep m net enc) RtSys.new (tr ++ tr' ++ [.scraped t (.ok ()) e']) s' := by
  have h1 := h.snoc (RtStep.lockRead s t answers e hp hf hpo)
  have key : ∀ k i (tr : List (RtEvent R E)) s e, Exec (RtStep m net enc) RtSys.new tr s →
      s.pc t = .collecting answers i e → (familySteps m net enc).length = i + k →
      runFamilies (collectors answers s.runtimes) ((familySteps m net enc).drop i) e = (.ok (), e') →
      ∃ tr' s', Exec (RtStep m net enc) RtSys.new (tr ++ tr' ++ [.scraped t (.ok ()) e']) s' := by
    intro k
    induction k with
    | zero =>
      intro i tr s e h hp hl hr
      have hd : (familySteps m net enc).drop i = [] := List.drop_eq_nil_of_le (by omega)
      rw [hd] at hr
      obtain ⟨_, rfl⟩ := Prod.mk.inj hr
      have h2 := h.snoc (RtStep.lastFamily s t answers i e hp (List.getElem?_eq_none (by omega)))
      have h3 := h2.snoc (RtStep.unlockRead _ t (.ok ()) e (by simp [RtSys.goto]))
      exact ⟨[.silent t], _, h3⟩
    | succ k ih =>
      intro i tr s e h hp hl hr
      have hi : i < (familySteps m net enc).length := by omega
      rw [List.drop_eq_getElem_cons hi] at hr
      simp only [runFamilies, RS.bind_run] at hr
      rcases hf : (familySteps m net enc)[i] (collectors answers s.runtimes) e with ⟨_ | _ | _, e₁⟩
      · rw [hf] at hr
        have h2 := h.snoc (RtStep.family s t answers i e _ hp (List.getElem?_eq_getElem hi) e₁ hf)
        obtain ⟨tr', s', h3⟩ := ih (i + 1) _ _ e₁ h2 (by simp [RtSys.goto]) (by omega) hr
        exact ⟨.silent t :: tr', s', by simpa using h3⟩
      · rw [hf] at hr; simp at hr
      · rw [hf] at hr; simp at hr
  obtain ⟨tr', s', h2⟩ := key _ 0 _ _ e h1 (by simp [RtSys.goto]) (by rw [Nat.zero_add])
    (by rw [List.drop_zero, runFamilies_all]; exact hr)
  exact ⟨.silent t :: tr', s', by simpa using h2⟩

example (answers : Nat → RtMetrics) (e' : E) (e : E)
    (hr : collectRuntimes m net [⟨answers 7, some b!"main"⟩] enc e = (.ok (), e')) :
    ∃ (tr : List (RtEvent Nat E)) (s : RtSys Nat E), Exec (RtStep m net enc) RtSys.new
        ([.startScrape 1 answers e, .startAdd 0 (some 7) b!"main", .silent 0, .pushed 0 7 b!"main", .addDone 0] ++
          tr ++ [.scraped 1 (.ok ()) e']) s := by
  have h1 := Exec.snoc (tr := []) .nil (RtStep.startScrape (m := m) (net := net) (encoder := enc)
    (RtSys.new : RtSys Nat E) 1 answers e rfl)
  have h2 := h1.snoc (RtStep.startAdd _ 0 (some 7) b!"main" (by simp [RtSys.goto, RtSys.new]))
  have h3 := h2.snoc (RtStep.lockWrite _ 0 (some 7) b!"main" (by simp [RtSys.goto])
    (by
      intro u
      by_cases hu : u = 0
      · subst hu; simp [RtSys.goto, RtPc.holdsWrite, RtPc.holdsRead]
      · by_cases hv : u = 1
        · subst hv; simp [RtSys.goto, RtPc.holdsWrite, RtPc.holdsRead]
        · simp [RtSys.goto, RtSys.new, Function.update_of_ne hu, Function.update_of_ne hv, RtPc.holdsWrite,
            RtPc.holdsRead]) rfl)
  have h4 := h3.snoc (RtStep.push _ 0 7 b!"main" (by simp [RtSys.goto]))
  have h5 := h4.snoc (RtStep.unlockWrite _ 0 (by simp [RtSys.goto]))
  obtain ⟨tr, s, h6⟩ := exec_scrape (t := 1) answers e e' h5 (by simp [RtSys.goto])
    (by
      intro u
      by_cases hu : u = 0
      · subst hu; simp [RtSys.goto, RtPc.holdsWrite]
      · by_cases hv : u = 1
        · subst hv; simp [RtSys.goto, RtPc.holdsWrite]
        · simp [RtSys.goto, RtSys.new, Function.update_of_ne hu, Function.update_of_ne hv, RtPc.holdsWrite]) rfl hr
  exact ⟨tr, s, h6⟩

/-- The premise of the case can be met: here for the encoder that only counts its calls and a runtime without workers. -/
example (rt : RtMetrics) (h0 : rt.numWorkers = 0) :
    collectRuntimes .release false [⟨rt, some b!"main"⟩] exCounting 0 = (.ok (), 19) := by
  have hw : ∀ f : Nat → RS Nat Unit, forWorkers ⟨rt, some b!"main"⟩ f = pure () := by
    intro f; unfold forWorkers; rw [h0]; rfl
  unfold collectRuntimes
  simp only [rtMetric, forEach, hw, collectQueued, collectScheduled]
  rfl

end Measured
