import Verif.Proof.SparseWeak
import Verif.Proof.Atomic

/-!
# C99: a sparse vector in relaxed memory
-/

namespace Measured.Conc
open Measured.Spec

variable {K U : Type} [DecidableEq K] {strong : Bool}

/-- C99. In every run every event is right: metrics are made once and updated while they are there, removal returns exactly all
updates, a collection reads some first of the updates of a metric, among them all that happen before, and nothing
panics. -/
theorem C99_events {tr tr' : List (SWEvent K U)} {e : SWEvent K U} {w : SWSys K U}
    (h : Exec (SWStep strong) SWSys.new (tr ++ e :: tr') w) : WOk (wghost strong tr) e := by
  obtain ⟨m, h1, h2⟩ := exec_split tr _ h
  obtain ⟨m', hs, _⟩ := exec_cons_inv h2
  exact (sw_step (sw_inv h1) hs).2

theorem wUpdates_append (k : K) (a b : List (SWEvent K U)) : wUpdates k (a ++ b) = wUpdates k a ++ wUpdates k b := by
  induction a with
  | nil => rfl
  | cons e a ih =>
    cases e <;> simp only [List.cons_append, wUpdates, ih]
    split <;> rfl

theorem wRemoved_append (k : K) (a b : List (SWEvent K U)) : wRemoved k (a ++ b) = wRemoved k a ++ wRemoved k b := by
  induction a with
  | nil => rfl
  | cons e a ih =>
    cases e with
    | remove t k' r =>
      cases r with
      | none => simp only [List.cons_append, wRemoved, ih]
      | some us => simp only [List.cons_append, wRemoved, ih]; split <;> rfl
    | _ => simp only [List.cons_append, wRemoved, ih]

/-- C99. No update is lost or doubled, neither to stale values nor when tables grow or metrics are removed: those made to `k`
are, in order, the ones that `remove_metric` returned, followed by those in the present metric. -/
theorem C99_updates {tr : List (SWEvent K U)} {w : SWSys K U} (h : Exec (SWStep strong) SWSys.new tr w) (k : K) :
    wUpdates k tr = (wRemoved k tr).flatten ++ (((w.table k).map fun c => (w.mods c).getLastD []).getD []) := by
  rw [← (sw_inv h).abs k]
  induction h with
  | nil => rfl
  | @snoc tr s e s' hex hs ih =>
    have hok := (sw_step (sw_inv hex) hs).2
    rw [wUpdates_append, wRemoved_append, ih]
    have hg : wghost strong (tr ++ [e]) = (wghost strong tr).after strong e := by simp [wghost, List.foldl_append]
    rw [hg]
    generalize wghost strong tr = g at hok
    cases e with
    | insert t k' =>
      have hok : g.map k' = none := hok
      by_cases hk : k = k'
      · subst hk; simp [WGhost.after, wUpdates, wRemoved, hok]
      · simp [WGhost.after, wUpdates, wRemoved, hk]
    | add t k' u =>
      have hok : g.map k' ≠ none := hok
      by_cases hk : k = k'
      · subst hk
        obtain ⟨us, hus⟩ := Option.ne_none_iff_exists'.1 hok
        simp [WGhost.after, wUpdates, wRemoved, hus]
      · simp [WGhost.after, wUpdates, wRemoved, hk, Ne.symm hk]
    | remove t k' r =>
      have hok : r = g.map k' := hok
      by_cases hk : k = k'
      · subst hk
        cases r with
        | none => simp [WGhost.after, wUpdates, wRemoved, ← hok]
        | some us => simp [WGhost.after, wUpdates, wRemoved, ← hok]
      · cases r with
        | none => simp [WGhost.after, wUpdates, wRemoved, hk]
        | some us => simp [WGhost.after, wUpdates, wRemoved, hk, Ne.symm hk]
    | lockR t => cases strong <;> simp [WGhost.after, WGhost.join, wUpdates, wRemoved]
    | _ => simp [WGhost.after, WGhost.join, wUpdates, wRemoved]

/-- C99. `expect` in `get_metric` never fails. -/
theorem C99_no_panic {tr : List (SWEvent K U)} {w : SWSys K U} (h : Exec (SWStep strong) SWSys.new tr w) (t : Tid) :
    .panic t ∉ tr := by
  intro hm
  obtain ⟨a, b, rfl⟩ := List.append_of_mem hm
  exact C99_events h

/-- C99. No data race: who has the lock knows that the metrics in the table are initialised, and who has it for writing, which
is who moves and removes metrics with plain reads, knows all their modifications. -/
theorem C99_no_race {tr : List (SWEvent K U)} {w : SWSys K U} (h : Exec (SWStep strong) SWSys.new tr w) (t : Tid) (k : K)
    (c : Nat) (hc : w.table k = some c) :
    ((w.pc t).holdsRead = true → 1 ≤ w.view (.thr t) c) ∧
    ((w.pc t).holdsWrite = true → 1 ≤ w.view (.thr t) c ∧ w.view (.thr t) c = (w.mods c).length ∧
      ∀ u, u ≠ t → (w.pc u).holdsRead = false ∧ (w.pc u).holdsWrite = false) := by
  have I := sw_inv h
  refine ⟨fun ht => I.initR t ht k c hc, fun ht => ?_⟩
  have h1 := I.writer t ht c
  have h2 := I.bound (.thr t) c
  have h3 := List.length_pos_of_ne_nil (I.there k c hc).2
  refine ⟨by omega, by omega, fun u hu => ⟨(I.excl t ht u).1, ?_⟩⟩
  have : ¬ (w.pc u).holdsWrite = true := fun h' => hu ((I.excl t ht u).2 h')
  simpa using this

/-! ## Happens-before, spelt out -/

theorem join_mono (g : WGhost K U) (a b x : Agent) (k : K) : g.known x k ≤ (g.join a b).known x k := by
  simp only [WGhost.join]
  by_cases h : x = a
  · subst h; rw [Function.update_self]; exact Nat.le_max_left _ _
  · rw [Function.update_of_ne h]

theorem join_gets (g : WGhost K U) (a b : Agent) (k : K) : g.known b k ≤ (g.join a b).known a k := by
  simp only [WGhost.join, Function.update_self]
  exact Nat.le_max_right _ _

theorem after_mono (g : WGhost K U) (e : SWEvent K U) (k : K) (h : ¬ e.replaces k) :
    (∀ a, g.known a k ≤ (g.after strong e).known a k) ∧
    ∀ xs, g.map k = some xs → ∃ ys, (g.after strong e).map k = some ys ∧ xs <+: ys := by
  have upd : ∀ (t : Tid) (k' : K) (n : Nat) (a : Agent), g.known a k ≤
      Function.update g.known (.thr t) (Function.update (g.known (.thr t)) k' (max (g.known (.thr t) k') n)) a k := by
    intro t k' n a
    by_cases ha : a = .thr t
    · subst ha
      rw [Function.update_self]
      by_cases hk : k = k'
      · subst hk; rw [Function.update_self]; exact Nat.le_max_left _ _
      · rw [Function.update_of_ne hk]
    · rw [Function.update_of_ne ha]
  have same : ∀ g' : WGhost K U, g'.map = g.map → ∀ xs, g.map k = some xs → ∃ ys, g'.map k = some ys ∧ xs <+: ys :=
    fun g' hg xs hx => ⟨xs, by rw [hg]; exact hx, List.prefix_refl _⟩
  cases e with
  | lockR t =>
    cases strong
    · exact ⟨fun a => join_mono _ _ _ _ _, same _ rfl⟩
    · exact ⟨fun a => Nat.le_trans (join_mono g _ _ _ _) (join_mono _ _ _ _ _), same _ rfl⟩
  | lockW t => exact ⟨fun a => Nat.le_trans (join_mono g _ _ _ _) (join_mono _ _ _ _ _), same _ rfl⟩
  | unlockR t => exact ⟨fun a => join_mono _ _ _ _ _, same _ rfl⟩
  | unlockW t => exact ⟨fun a => join_mono _ _ _ _ _, same _ rfl⟩
  | sync t s => exact ⟨fun a => join_mono _ _ _ _ _, same _ rfl⟩
  | insert t k' =>
    have hk : k ≠ k' := fun hk => h hk.symm
    refine ⟨fun a => ?_, fun xs hx => ⟨xs, ?_, List.prefix_refl _⟩⟩
    · simp only [WGhost.after]; rw [Function.update_of_ne hk]
    · simp only [WGhost.after]; rw [Function.update_of_ne hk]; exact hx
  | remove t k' r =>
    have hk : k ≠ k' := fun hk => h hk.symm
    refine ⟨fun a => ?_, fun xs hx => ⟨xs, ?_, List.prefix_refl _⟩⟩
    · simp only [WGhost.after]; rw [Function.update_of_ne hk]
    · simp only [WGhost.after]; rw [Function.update_of_ne hk]; exact hx
  | add t k' u =>
    refine ⟨upd t k' _, fun xs hx => ?_⟩
    simp only [WGhost.after]
    by_cases hk : k = k'
    · subst hk
      rw [Function.update_self, hx]
      exact ⟨_, rfl, List.prefix_append _ _⟩
    · rw [Function.update_of_ne hk]; exact ⟨xs, hx, List.prefix_refl _⟩
  | see t k' us => exact ⟨upd t k' _, same _ rfl⟩
  | panic t => exact ⟨fun a => Nat.le_refl _, same _ rfl⟩
  | silent t => exact ⟨fun a => Nat.le_refl _, same _ rfl⟩

theorem wghost_mono (tr tr' : List (SWEvent K U)) (k : K) (h : ∀ e ∈ tr', ¬ e.replaces k) :
    (∀ a, (wghost strong tr).known a k ≤ (wghost strong (tr ++ tr')).known a k) ∧
    ∀ xs, (wghost strong tr).map k = some xs → ∃ ys, (wghost strong (tr ++ tr')).map k = some ys ∧ xs <+: ys := by
  induction tr' using List.reverseRecOn with
  | nil =>
    rw [List.append_nil]
    exact ⟨fun a => Nat.le_refl _, fun xs hx => ⟨xs, hx, List.prefix_refl _⟩⟩
  | append_singleton tr' e ih =>
    obtain ⟨i1, i2⟩ := ih (fun e he => h e (by simp [he]))
    have hg : wghost strong (tr ++ (tr' ++ [e])) = (wghost strong (tr ++ tr')).after strong e := by
      simp [wghost, List.foldl_append]
    rw [hg]
    obtain ⟨m1, m2⟩ := after_mono (strong := strong) (wghost strong (tr ++ tr')) e k (h e (by simp))
    refine ⟨fun a => Nat.le_trans (i1 a) (m1 a), fun xs hx => ?_⟩
    obtain ⟨ys, h1, h2⟩ := i2 xs hx
    obtain ⟨zs, h3, h4⟩ := m2 ys h1
    exact ⟨zs, h3, h2.trans h4⟩

theorem wghost_snoc (tr : List (SWEvent K U)) (e : SWEvent K U) :
    wghost strong (tr ++ [e]) = (wghost strong tr).after strong e := by simp [wghost, List.foldl_append]

/-- What is known by an update. -/
theorem known_add {tr : List (SWEvent K U)} {t : Tid} {k : K} {u : U} (hok : (wghost strong tr).map k ≠ none) :
    ∃ ys, (wghost strong (tr ++ [.add t k u])).map k = some ys ∧ u ∈ ys.getLast? ∧
      ys.length ≤ (wghost strong (tr ++ [.add t k u])).known (.thr t) k := by
  obtain ⟨xs, hx⟩ := Option.ne_none_iff_exists'.1 hok
  rw [wghost_snoc]
  refine ⟨xs ++ [u], by simp [WGhost.after, hx], by simp, ?_⟩
  simp only [WGhost.after, Function.update_self, hx, Option.getD_some, List.length_append, List.length_singleton]
  exact Nat.le_max_right _ _

/-- Who knows all of `ys` sees all of `ys`. -/
theorem sees {tr : List (SWEvent K U)} {s : Tid} {k : K} {us ys : List U} (hok : WOk (wghost strong tr) (.see s k us))
    (hm : ∃ zs, (wghost strong tr).map k = some zs ∧ ys <+: zs) (hn : ys.length ≤ (wghost strong tr).known (.thr s) k) :
    ys <+: us := by
  obtain ⟨xs, h1, h2, h3⟩ := hok
  obtain ⟨zs, h4, h5⟩ := hm
  rw [h1] at h4; cases h4
  exact List.prefix_of_prefix_length_le h5 h2 (Nat.le_trans hn h3)

/-- C99. With a lock like that of `parking_lot`: a collection shows every update (and all before it) whose guard was dropped
before the collection locked the shard, unless the metric was removed in between. -/
theorem C99_released {tr₁ tr₂ tr₃ tr₄ : List (SWEvent K U)} {t s : Tid} {k : K} {u : U} {us : List U} {w : SWSys K U}
    (h : Exec (SWStep true) SWSys.new
      (((tr₁ ++ [.add t k u] ++ tr₂) ++ [.unlockR t] ++ tr₃) ++ [.lockR s] ++ tr₄ ++ [.see s k us]) w)
    (hno : ∀ e, e ∈ tr₂ ∨ e ∈ tr₃ ∨ e ∈ tr₄ → ¬ e.replaces k) :
    ∃ ys, (wghost true (tr₁ ++ [.add t k u])).map k = some ys ∧ u ∈ ys.getLast? ∧ ys <+: us := by
  have hsee := C99_events (tr' := []) h
  have hadd : (wghost true tr₁).map k ≠ none :=
    C99_events (e := .add t k u) (tr' := tr₂ ++ [.unlockR t] ++ tr₃ ++ [.lockR s] ++ tr₄ ++ [.see s k us]) (by simpa using h)
  obtain ⟨ys, hy, hl, hn⟩ := known_add (strong := true) (t := t) (u := u) hadd
  refine ⟨ys, hy, hl, ?_⟩
  obtain ⟨a1, a2⟩ := wghost_mono (strong := true) (tr₁ ++ [.add t k u]) tr₂ k (fun e he => hno e (by simp [he]))
  obtain ⟨y1, b1, c1⟩ := a2 ys hy
  have n1 := Nat.le_trans hn (a1 (.thr t))
  have n2 := Nat.le_trans n1 (join_gets (wghost true (tr₁ ++ [.add t k u] ++ tr₂)) .readers (.thr t) k)
  have e2 : wghost true (tr₁ ++ [.add t k u] ++ tr₂ ++ [.unlockR t]) =
      (wghost true (tr₁ ++ [.add t k u] ++ tr₂)).join .readers (.thr t) := wghost_snoc _ _
  rw [← e2] at n2
  have b2 : (wghost true (tr₁ ++ [.add t k u] ++ tr₂ ++ [.unlockR t])).map k = some y1 := by rw [e2]; exact b1
  obtain ⟨a3, a4⟩ := wghost_mono (strong := true) (tr₁ ++ [.add t k u] ++ tr₂ ++ [.unlockR t]) tr₃ k
    (fun e he => hno e (by simp [he]))
  obtain ⟨y3, b3, c3⟩ := a4 y1 b2
  have n3 := Nat.le_trans n2 (a3 .readers)
  generalize hT : tr₁ ++ [.add t k u] ++ tr₂ ++ [.unlockR t] ++ tr₃ = T at *
  have e4 : wghost true (T ++ [.lockR s]) = ((wghost true T).join (.thr s) .writers).join (.thr s) .readers :=
    wghost_snoc _ _
  have n4 := Nat.le_trans n3 (Nat.le_trans (join_mono (wghost true T) (.thr s) .writers .readers k)
    (join_gets ((wghost true T).join (.thr s) .writers) (.thr s) .readers k))
  rw [← e4] at n4
  have b4 : (wghost true (T ++ [.lockR s])).map k = some y3 := by rw [e4]; exact b3
  obtain ⟨a5, a6⟩ := wghost_mono (strong := true) (T ++ [.lockR s]) tr₄ k (fun e he => hno e (by simp [he]))
  obtain ⟨y5, b5, c5⟩ := a6 y3 b4
  exact sees hsee ⟨y5, b5, (c1.trans c3).trans c5⟩ (Nat.le_trans n4 (a5 (.thr s)))

/-- C99. Whatever the lock guarantees: a thread sees its own updates, and those of threads it is synchronised with. -/
theorem C99_synced {tr₁ tr₂ tr₃ : List (SWEvent K U)} {t s : Tid} {k : K} {u : U} {us : List U} {w : SWSys K U}
    (h : Exec (SWStep strong) SWSys.new ((tr₁ ++ [.add t k u] ++ tr₂) ++ [.sync s t] ++ tr₃ ++ [.see s k us]) w)
    (hno : ∀ e, e ∈ tr₂ ∨ e ∈ tr₃ → ¬ e.replaces k) :
    ∃ ys, (wghost strong (tr₁ ++ [.add t k u])).map k = some ys ∧ u ∈ ys.getLast? ∧ ys <+: us := by
  have hsee := C99_events (tr' := []) h
  have hadd : (wghost strong tr₁).map k ≠ none :=
    C99_events (e := .add t k u) (tr' := tr₂ ++ [.sync s t] ++ tr₃ ++ [.see s k us]) (by simpa using h)
  obtain ⟨ys, hy, hl, hn⟩ := known_add (strong := strong) (t := t) (u := u) hadd
  refine ⟨ys, hy, hl, ?_⟩
  obtain ⟨a1, a2⟩ := wghost_mono (strong := strong) (tr₁ ++ [.add t k u]) tr₂ k (fun e he => hno e (by simp [he]))
  obtain ⟨y1, b1, c1⟩ := a2 ys hy
  generalize hT : tr₁ ++ [.add t k u] ++ tr₂ = T at *
  have n2 := Nat.le_trans (Nat.le_trans hn (a1 (.thr t))) (join_gets (wghost strong T) (.thr s) (.thr t) k)
  have e2 : wghost strong (T ++ [.sync s t]) = (wghost strong T).join (.thr s) (.thr t) := wghost_snoc _ _
  rw [← e2] at n2
  have b2 : (wghost strong (T ++ [.sync s t])).map k = some y1 := by rw [e2]; exact b1
  obtain ⟨a3, a4⟩ := wghost_mono (strong := strong) (T ++ [.sync s t]) tr₃ k (fun e he => hno e (by simp [he]))
  obtain ⟨y3, b3, c3⟩ := a4 y1 b2
  exact sees hsee ⟨y3, b3, c1.trans c3⟩ (Nat.le_trans n2 (a3 (.thr s)))

theorem C99_own {tr₁ tr₂ : List (SWEvent K U)} {s : Tid} {k : K} {u : U} {us : List U} {w : SWSys K U}
    (h : Exec (SWStep strong) SWSys.new (tr₁ ++ [.add s k u] ++ tr₂ ++ [.see s k us]) w)
    (hno : ∀ e ∈ tr₂, ¬ e.replaces k) :
    ∃ ys, (wghost strong (tr₁ ++ [.add s k u])).map k = some ys ∧ u ∈ ys.getLast? ∧ ys <+: us := by
  have hsee := C99_events (tr' := []) h
  have hadd : (wghost strong tr₁).map k ≠ none :=
    C99_events (e := .add s k u) (tr' := tr₂ ++ [.see s k us]) (by simpa using h)
  obtain ⟨ys, hy, hl, hn⟩ := known_add (strong := strong) (t := s) (u := u) hadd
  refine ⟨ys, hy, hl, ?_⟩
  obtain ⟨a1, a2⟩ := wghost_mono (strong := strong) (tr₁ ++ [.add s k u]) tr₂ k hno
  obtain ⟨y1, b1, c1⟩ := a2 ys hy
  exact sees hsee ⟨y1, b1, c1⟩ (Nat.le_trans hn (a1 (.thr s)))

/-- C99. What one thread sees of a metric never goes back. -/
theorem C99_again {tr₁ tr₂ : List (SWEvent K U)} {s : Tid} {k : K} {us us' : List U} {w : SWSys K U}
    (h : Exec (SWStep strong) SWSys.new (tr₁ ++ [.see s k us] ++ tr₂ ++ [.see s k us']) w)
    (hno : ∀ e ∈ tr₂, ¬ e.replaces k) : us <+: us' := by
  have hsee := C99_events (tr' := []) h
  have h1 : WOk (wghost strong tr₁) (.see s k us) := C99_events (tr' := tr₂ ++ [.see s k us']) (by simpa using h)
  obtain ⟨xs, hx, hp, _⟩ := h1
  have hk : us.length ≤ (wghost strong (tr₁ ++ [.see s k us])).known (.thr s) k := by
    rw [wghost_snoc]
    simp only [WGhost.after, Function.update_self]
    exact Nat.le_max_right _ _
  have hy : (wghost strong (tr₁ ++ [.see s k us])).map k = some xs := by rw [wghost_snoc]; exact hx
  obtain ⟨a1, a2⟩ := wghost_mono (strong := strong) (tr₁ ++ [.see s k us]) tr₂ k hno
  obtain ⟨y1, b1, c1⟩ := a2 xs hy
  exact sees hsee ⟨y1, b1, hp.trans c1⟩ (Nat.le_trans hk (a1 (.thr s)))

/-- C99. Nor does what a thread sees that is synchronised with it in between. -/
theorem C99_forward {tr₁ tr₂ tr₃ : List (SWEvent K U)} {t s : Tid} {k : K} {us us' : List U} {w : SWSys K U}
    (h : Exec (SWStep strong) SWSys.new ((tr₁ ++ [.see t k us] ++ tr₂) ++ [.sync s t] ++ tr₃ ++ [.see s k us']) w)
    (hno : ∀ e, e ∈ tr₂ ∨ e ∈ tr₃ → ¬ e.replaces k) : us <+: us' := by
  have hsee := C99_events (tr' := []) h
  have h1 : WOk (wghost strong tr₁) (.see t k us) :=
    C99_events (tr' := tr₂ ++ [.sync s t] ++ tr₃ ++ [.see s k us']) (by simpa using h)
  obtain ⟨xs, hx, hp, _⟩ := h1
  have hk : us.length ≤ (wghost strong (tr₁ ++ [.see t k us])).known (.thr t) k := by
    rw [wghost_snoc]
    simp only [WGhost.after, Function.update_self]
    exact Nat.le_max_right _ _
  have hy : (wghost strong (tr₁ ++ [.see t k us])).map k = some xs := by rw [wghost_snoc]; exact hx
  obtain ⟨a1, a2⟩ := wghost_mono (strong := strong) (tr₁ ++ [.see t k us]) tr₂ k (fun e he => hno e (by simp [he]))
  obtain ⟨y1, b1, c1⟩ := a2 xs hy
  generalize hT : tr₁ ++ [.see t k us] ++ tr₂ = T at *
  have n2 := Nat.le_trans (Nat.le_trans hk (a1 (.thr t))) (join_gets (wghost strong T) (.thr s) (.thr t) k)
  have e2 : wghost strong (T ++ [.sync s t]) = (wghost strong T).join (.thr s) (.thr t) := wghost_snoc _ _
  rw [← e2] at n2
  have b2 : (wghost strong (T ++ [.sync s t])).map k = some y1 := by rw [e2]; exact b1
  obtain ⟨a3, a4⟩ := wghost_mono (strong := strong) (T ++ [.sync s t]) tr₃ k (fun e he => hno e (by simp [he]))
  obtain ⟨y3, b3, c3⟩ := a4 y1 b2
  exact sees hsee ⟨y3, b3, (hp.trans c1).trans c3⟩ (Nat.le_trans n2 (a3 (.thr s)))

/-! ## Runs -/

/-- Thread 1 makes the metric of 7, updates it and drops its guard; then thread 2 collects. -/
def exShard : List (SWEvent Nat Nat) :=
  [.silent 1, .lockR 1, .unlockR 1, .lockW 1, .insert 1 7, .unlockW 1, .silent 1, .add 1 7 5, .unlockR 1, .silent 2, .lockR 2]

theorem exShard_run (strong : Bool) (j : Nat) (us : List Nat) (hj : ([[], [5]] : List (List Nat))[j]? = some us)
    (hs : strong = true → j = 1) : ∃ w, Exec (SWStep strong) SWSys.new (exShard ++ [.see 2 7 us]) w := by
  let w0 : SWSys Nat Nat := SWSys.new
  let w1 := w0.goto 1 (.wantRead 7)
  let w2 := (w1.learnRead strong 1).goto 1 (.probe 7)
  let w3 := (w2.learn .readers (.thr 1)).goto 1 (.wantWrite 7)
  let w4 := (w3.learnWrite 1).goto 1 (.insert 7)
  let w5 := { (((w4.setMods w4.next [[]]).setTable 7 (some w4.next)).saw 1 w4.next 1) with next := w4.next + 1 }.goto 1
    (.inserted 7)
  let w6 := (w5.learn .writers (.thr 1)).goto 1 (.refind 7)
  let w7 := w6.goto 1 (.guard 7 0)
  let w8 := (w7.setMods 0 (w7.mods 0 ++ [(w7.mods 0).getLastD [] ++ [5]])).saw 1 0 ((w7.mods 0).length + 1)
  let w9 := (w8.learn .readers (.thr 1)).goto 1 .idle
  let w10 := w9.goto 2 .wantScan
  let w11 := (w10.learnRead strong 2).goto 2 .scan
  have p1 : w1.NoWriter := by
    intro u
    by_cases h : u = 1
    · subst h; rfl
    · simp [w1, w0, SWSys.goto, SWSys.new, h, SWPc.holdsWrite]
  have p3 : w3.Free := by
    intro u
    by_cases h : u = 1
    · subst h; exact ⟨rfl, rfl⟩
    · have : w3.pc u = .idle := by
        cases strong <;> simp [w3, w2, w1, w0, SWSys.goto, SWSys.learn, SWSys.learnRead, SWSys.new, h]
      rw [this]; exact ⟨rfl, rfl⟩
  have p10 : w10.NoWriter := by
    intro u
    by_cases h : u = 2
    · subst h; rfl
    by_cases h : u = 1
    · subst h; rfl
    · have : w10.pc u = .idle := by
        cases strong <;> simp [w10, w9, w8, w7, w6, w5, w4, w3, w2, w1, w0, SWSys.goto, SWSys.learn, SWSys.learnRead,
          SWSys.learnWrite, SWSys.setMods, SWSys.setTable, SWSys.saw, SWSys.new, *]
      rw [this]; rfl
  refine ⟨w11.saw 2 0 (j + 1), ?_⟩
  refine exec_cons (m := w1) (.startGet w0 1 7 rfl) ?_
  refine exec_cons (m := w2) (.lockRead w1 1 7 rfl p1) ?_
  refine exec_cons (m := w3) (.miss w2 1 7 rfl (by cases strong <;> rfl)) ?_
  refine exec_cons (m := w4) (.lockWrite w3 1 7 rfl p3) ?_
  refine exec_cons (m := w5) (.insert w4 1 7 rfl (by cases strong <;> rfl)) ?_
  refine exec_cons (m := w6) (.downgrade w5 1 7 rfl) ?_
  refine exec_cons (m := w7) (.refind w6 1 7 0 rfl (by cases strong <;> rfl)) ?_
  refine exec_cons (m := w8) (.add w7 1 7 0 5 rfl) ?_
  refine exec_cons (m := w9) (.drop w8 1 7 0 rfl) ?_
  refine exec_cons (m := w10) (.startScan w9 2 (by cases strong <;> rfl)) ?_
  refine exec_cons (m := w11) (.lockScan w10 2 rfl p10) ?_
  refine Exec.snoc (tr := []) .nil (.see w11 2 7 0 j us rfl (by cases strong <;> rfl) ⟨?_, ?_⟩)
  · cases strong
    · have : w11.view (.thr 2) 0 = 1 := by decide
      omega
    · have : w11.view (.thr 2) 0 = 2 := by decide
      have := hs rfl
      omega
  · have : w11.mods 0 = [[], [5]] := by cases strong <;> rfl
    rw [this]; exact hj

/-- C99_released on this run. -/
example : [5] <+: ([5] : List Nat) := by
  obtain ⟨w, h⟩ := exShard_run true 1 [5] rfl (fun _ => rfl)
  have := C99_released (tr₁ := [.silent 1, .lockR 1, .unlockR 1, .lockW 1, .insert 1 7, .unlockW 1, .silent 1]) (tr₂ := [])
    (tr₃ := [.silent 2]) (tr₄ := []) (t := 1) (s := 2) (k := 7) (u := 5) (us := [5]) h (by
      intro e he
      simp only [List.not_mem_nil, List.mem_singleton, false_or, or_false] at he
      subst he
      exact id)
  obtain ⟨ys, h1, h2, h3⟩ := this
  cases h1
  exact h3

/-- With no more than what read-write locks promise in general, the collection may miss the update: nobody wrote in between. -/
theorem C99_weak_lock_stale : ∃ w, Exec (SWStep false) SWSys.new (exShard ++ [.see 2 7 []]) w :=
  exShard_run false 0 [] rfl (by simp)

example : wUpdates 7 (exShard ++ [.see 2 7 []]) = [5] := by decide

end Measured.Conc
