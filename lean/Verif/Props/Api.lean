import Verif.Proof.Api
import Verif.Props.Tokio

/-! # Properties of the calls users make (C53, C54) -/

namespace Measured
open Measured.Spec F64

/-! ## C53: exclusive and shared references -/

theorem asI64Wrap_eq {x : Int} (h : InI64 x) : asI64Wrap x = x := by
  unfold InI64 at h; unfold asI64Wrap; omega

theorem asI64Wrap_in (x : Int) : InI64 (asI64Wrap x) := by
  unfold InI64 asI64Wrap; omega

theorem asI64Wrap_cong (x : Int) : ∃ k, asI64Wrap x = x + k * 2 ^ 64 := by
  refine ⟨-((x + 9223372036854775808) / 18446744073709551616), ?_⟩
  unfold asI64Wrap; omega

theorem asI64Wrap_add (x y : Int) : asI64Wrap (asI64Wrap x + y) = asI64Wrap (x + y) := by
  unfold asI64Wrap; omega

theorem asI64Wrap_sub (x y : Int) : asI64Wrap (asI64Wrap x - y) = asI64Wrap (x - y) := by
  unfold asI64Wrap; omega

theorem arithI64_wrap (m : Mode) (x : Int) :
    arithI64 m x = .ok (asI64Wrap x) ∨ (arithI64 m x = .panic ∧ m = .debug ∧ ¬ InI64 x) := by
  unfold arithI64
  split
  · rename_i h
    exact .inl (by rw [asI64Wrap_eq (x := x) (by unfold InI64; omega)])
  · rename_i h
    cases m
    · exact .inr ⟨rfl, rfl, by unfold InI64; omega⟩
    · exact .inl rfl

theorem addU_mod (m : Mode) (a b : Nat) :
    addU m a b = .ok ((a + b) % 2 ^ 64) ∨ (addU m a b = .panic ∧ m = .debug ∧ 2 ^ 64 ≤ a + b) := by
  have hW : W64 = 2 ^ 64 := by decide
  unfold addU
  rw [hW]
  split
  · rename_i h; exact .inl (by rw [Nat.mod_eq_of_lt h])
  · cases m
    · exact .inr ⟨rfl, rfl, by omega⟩
    · exact .inl rfl

theorem counter_follows (m : Mode) :
    Follows (counterOps m) CounterCall.Ok (fun v : Nat => v % 2 ^ 64) 0 CounterCall.apply where
  zero := rfl
  shared := by
    intro c a _
    have hW : W64 = 2 ^ 64 := by decide
    cases c <;> simp [counterOps, CounterCall.shared, CounterCall.apply, CounterCall.amount, hW]
  exclusive := by
    intro c a _
    cases c with
    | inc =>
      rcases addU_mod m (a % 2 ^ 64) 1 with h | h
      · exact .inl (by simp only [counterOps, CounterCall.exclusive, h, CounterCall.apply, CounterCall.amount]; simp)
      · exact .inr h.1
    | incBy x =>
      rcases addU_mod m (a % 2 ^ 64) x with h | h
      · exact .inl (by simp only [counterOps, CounterCall.exclusive, h, CounterCall.apply, CounterCall.amount]; simp)
      · exact .inr h.1

theorem counter_exclusive_panic {m : Mode} {c : CounterCall} {a : Nat} (h : (counterOps m).exclusive c a = .panic) :
    m = .debug ∧ 2 ^ 64 ≤ a + CounterCall.amount c := by
  cases c with
  | inc =>
    rcases addU_mod m a 1 with h' | h'
    · exact absurd (h'.symm.trans h) (by simp)
    · exact h'.2
  | incBy x =>
    rcases addU_mod m a x with h' | h'
    · exact absurd (h'.symm.trans h) (by simp)
    · exact h'.2

theorem gauge_exclusive_panic {m : Mode} {c : GaugeCall} {a : Int} (h : (gaugeOps m).exclusive c a = .panic) :
    m = .debug ∧ ¬ InI64 (GaugeCall.apply c a) := by
  have key : ∀ x, arithI64 m x = .panic → m = .debug ∧ ¬ InI64 x := by
    intro x hx
    rcases arithI64_wrap m x with h' | h'
    · exact absurd (h'.symm.trans hx) (by simp)
    · exact h'.2
  cases c with
  | set x => cases h
  | inc => exact key _ h
  | incBy x => exact key _ h
  | dec => exact key _ h
  | decBy x => exact key _ h

theorem gauge_follows (m : Mode) : Follows (gaugeOps m) GaugeCall.Ok asI64Wrap 0 GaugeCall.apply where
  zero := rfl
  shared := by
    intro c a hc
    cases c with
    | set x => simp only [gaugeOps, GaugeCall.shared, GaugeCall.apply]; rw [asI64Wrap_eq hc]
    | _ => simp only [gaugeOps, GaugeCall.shared, GaugeCall.apply, asI64Wrap_add, asI64Wrap_sub]
  exclusive := by
    intro c a hc
    cases c with
    | set x => left; simp only [gaugeOps, GaugeCall.exclusive, GaugeCall.apply]; rw [asI64Wrap_eq hc]
    | inc =>
      rcases arithI64_wrap m (asI64Wrap a + 1) with h | h
      · left; simp only [gaugeOps, GaugeCall.exclusive, GaugeCall.apply, h, asI64Wrap_add]
      · exact .inr h.1
    | incBy x =>
      rcases arithI64_wrap m (asI64Wrap a + x) with h | h
      · left; simp only [gaugeOps, GaugeCall.exclusive, GaugeCall.apply, h, asI64Wrap_add]
      · exact .inr h.1
    | dec =>
      rcases arithI64_wrap m (asI64Wrap a - 1) with h | h
      · left; simp only [gaugeOps, GaugeCall.exclusive, GaugeCall.apply, h, asI64Wrap_sub]
      · exact .inr h.1
    | decBy x =>
      rcases arithI64_wrap m (asI64Wrap a - x) with h | h
      · left; simp only [gaugeOps, GaugeCall.exclusive, GaugeCall.apply, h, asI64Wrap_sub]
      · exact .inr h.1

theorem float_follows : Follows floatOps (fun _ => True) id F64.pzero FloatCall.apply where
  zero := rfl
  shared := by intro c a _; cases c <;> rfl
  exclusive := by intro c a _; left; cases c <;> rfl

/-- The state of a histogram after observations. -/
def histConc (le : List F64) (xs : List F64) : HistInner :=
  match histObserveAll le (HistInner.default le.length) xs with
  | .ok h => h
  | _ => HistInner.default le.length

theorem histObserveAll_append (le : List F64) (h : HistInner) (xs ys : List F64) :
    histObserveAll le h (xs ++ ys) = histObserveAll le h xs >>= fun h => histObserveAll le h ys := by
  induction xs generalizing h with
  | nil => rfl
  | cons x xs ih =>
    simp only [List.cons_append, histObserveAll]
    cases histObserve le h x with
    | ok h' => exact ih h'
    | err => rfl
    | panic => rfl

theorem histObserveAll_ok (le : List F64) (xs : List F64) : ∀ h : HistInner, h.buckets.length = le.length →
    ∃ h', histObserveAll le h xs = .ok h' ∧ h'.buckets.length = le.length := by
  induction xs with
  | nil => intro h hl; exact ⟨h, rfl, hl⟩
  | cons x xs ih =>
    intro h hl
    obtain ⟨h', _, e, _, _, hl', _⟩ := C30_one_observation le h hl x
    obtain ⟨h'', e', hl''⟩ := ih h' hl'
    exact ⟨h'', by simp only [histObserveAll, e]; exact e', hl''⟩

theorem histConc_ok (le xs : List F64) :
    histObserveAll le (HistInner.default le.length) xs = .ok (histConc le xs) ∧
      (histConc le xs).buckets.length = le.length := by
  obtain ⟨h, e, hl⟩ := histObserveAll_ok le xs (HistInner.default le.length) (by simp [HistInner.default])
  simp only [histConc, e]
  exact ⟨trivial, hl⟩

theorem hist_run_conc (le xs : List F64) (c : HistCall) :
    HistCall.run le c (histConc le xs) = .ok (histConc le (HistCall.apply c xs)) := by
  have h1 := (histConc_ok le xs).1
  have h2 := (histConc_ok le (HistCall.apply c xs)).1
  rw [HistCall.apply, histObserveAll_append, h1] at h2
  rw [HistCall.apply, ← h2]
  cases c with
  | observe x =>
    show histObserve le _ x = histObserveAll le _ [x]
    simp only [histObserveAll]
    cases histObserve le (histConc le xs) x <;> rfl
  | observeDuration d =>
    show histObserve le _ (asSecsF64 d) = histObserveAll le _ [asSecsF64 d]
    simp only [histObserveAll]
    cases histObserve le (histConc le xs) (asSecsF64 d) <;> rfl

theorem hist_follows (le : List F64) : Follows (histOps le) (fun _ => True) (histConc le) [] HistCall.apply where
  zero := rfl
  shared := fun c xs _ => hist_run_conc le xs c
  exclusive := fun c xs _ => .inl (hist_run_conc le xs c)

section
variable {C M A : Type}

/-- Calls one after the other, if none of them panics. -/
theorem uses_follow {o : MetricOps C M} {okC : C → Prop} {conc : A → M} {zero : A} {apply : C → A → A}
    (hf : Follows o okC conc zero apply) (us : List (Use C)) (hc : ∀ u ∈ us, okC (Use.call u)) (a : A) :
    o.uses (conc a) us = .ok (conc (total apply a us)) ∨
      (o.uses (conc a) us = .panic ∧ ∃ pre c post, us = pre ++ .exclusive c :: post ∧
        o.exclusive c (conc (total apply a pre)) = .panic) := by
  induction us generalizing a with
  | nil => exact .inl rfl
  | cons u us ih =>
    have hu := hc u (by simp)
    have step : o.use u (conc a) = .ok (conc (apply (Use.call u) a)) →
        o.uses (conc a) (u :: us) = .ok (conc (total apply a (u :: us))) ∨
        (o.uses (conc a) (u :: us) = .panic ∧ ∃ pre c post, u :: us = pre ++ .exclusive c :: post ∧
          o.exclusive c (conc (total apply a pre)) = .panic) := by
      intro h
      simp only [MetricOps.uses, h]
      rcases ih (fun u h' => hc u (by simp [h'])) (apply (Use.call u) a) with h' | ⟨h', pre, c, post, e, hp⟩
      · exact .inl h'
      · exact .inr ⟨h', u :: pre, c, post, by rw [e]; rfl, hp⟩
    cases u with
    | shared c => exact step (hf.shared c a hu)
    | exclusive c =>
      rcases hf.exclusive c a hu with h | h
      · exact step h
      · exact .inr ⟨by simp only [MetricOps.uses, MetricOps.use, h]; rfl, [], c, us, rfl, h⟩

theorem uses_panic {o : MetricOps C M} {okC : C → Prop} {conc : A → M} {zero : A} {apply : C → A → A}
    (hf : Follows o okC conc zero apply) (us : List (Use C)) (hc : ∀ u ∈ us, okC (Use.call u)) (a : A)
    {pre : List (Use C)} {c : C} {post : List (Use C)} (e : us = pre ++ .exclusive c :: post)
    (hp : o.exclusive c (conc (total apply a pre)) = .panic) : o.uses (conc a) us = .panic := by
  induction pre generalizing a us with
  | nil => subst e; simp only [List.nil_append, MetricOps.uses, MetricOps.use]; rw [show total apply a [] = a from rfl] at hp; rw [hp]; rfl
  | cons u pre ih =>
    subst e
    have hu := hc u (by simp)
    have step : o.use u (conc a) = .ok (conc (apply (Use.call u) a)) → o.uses (conc a) (u :: pre ++ .exclusive c :: post) = .panic := by
      intro h
      simp only [List.cons_append, MetricOps.uses, h]
      exact ih _ (fun u h' => hc u (by simp at h' ⊢; exact .inr h')) (apply (Use.call u) a) rfl hp
    cases u with
    | shared c' => exact step (hf.shared c' a hu)
    | exclusive c' =>
      rcases hf.exclusive c' a hu with h | h
      · exact step h
      · simp only [List.cons_append, MetricOps.uses, MetricOps.use, h]; rfl
end

theorem counter_total (v : Nat) (us : List (Use CounterCall)) :
    total CounterCall.apply v us = v + (us.map fun u => CounterCall.amount (Use.call u)).sum := by
  unfold total
  induction us generalizing v with
  | nil => simp
  | cons u us ih => rw [List.foldl_cons, ih]; simp [CounterCall.apply, Nat.add_assoc]

/-- C53, counters in release builds: whatever the kinds of references, the value is the exact total modulo 2^64. -/
theorem C53_counter_release (v : Nat) (hv : v < 2 ^ 64) (us : List (Use CounterCall)) (hu : ∀ u ∈ us, CounterCall.Ok (Use.call u)) :
    (counterOps .release).uses v us =
      .ok ((v + (us.map fun u => CounterCall.amount (Use.call u)).sum) % 2 ^ 64) := by
  have := uses_follow (counter_follows .release) us hu v
  rw [Nat.mod_eq_of_lt hv, counter_total] at this
  rcases this with h | ⟨_, pre, c, post, _, h⟩
  · exact h
  · cases (counter_exclusive_panic h).1

/-- C53, counters in debug builds: the same total, unless a call through an exclusive reference crosses 2^64: then, and
only then, it panics. Calls through shared references may cross it before that. -/
theorem C53_counter_debug (v : Nat) (hv : v < 2 ^ 64) (us : List (Use CounterCall)) (hu : ∀ u ∈ us, CounterCall.Ok (Use.call u)) :
    ((∃ pre c post, us = pre ++ .exclusive c :: post ∧
        2 ^ 64 ≤ (v + (pre.map fun u => CounterCall.amount (Use.call u)).sum) % 2 ^ 64 + CounterCall.amount c) ∧
      (counterOps .debug).uses v us = .panic) ∨
    ((¬ ∃ pre c post, us = pre ++ .exclusive c :: post ∧
        2 ^ 64 ≤ (v + (pre.map fun u => CounterCall.amount (Use.call u)).sum) % 2 ^ 64 + CounterCall.amount c) ∧
      (counterOps .debug).uses v us =
        .ok ((v + (us.map fun u => CounterCall.amount (Use.call u)).sum) % 2 ^ 64)) := by
  have hW : W64 = 2 ^ 64 := by decide
  have hex : ∀ (c : CounterCall) (a : Nat), (counterOps .debug).exclusive c (a % 2 ^ 64) = .panic ↔
      2 ^ 64 ≤ a % 2 ^ 64 + CounterCall.amount c := by
    intro c a
    cases c with
    | inc =>
      simp only [counterOps, CounterCall.exclusive, addU, CounterCall.amount, hW]
      split <;> simp <;> omega
    | incBy x =>
      simp only [counterOps, CounterCall.exclusive, addU, CounterCall.amount, hW]
      split <;> simp <;> omega
  have := uses_follow (counter_follows .debug) us hu v
  rw [Nat.mod_eq_of_lt hv, counter_total] at this
  rcases this with h | ⟨h, pre, c, post, e, hp⟩
  · right
    refine ⟨?_, h⟩
    rintro ⟨pre, c, post, e, hp⟩
    have := uses_panic (counter_follows .debug) us hu v e (by rw [hex, counter_total]; exact hp)
    rw [Nat.mod_eq_of_lt hv, h] at this
    cases this
  · left
    exact ⟨⟨pre, c, post, e, by rw [hex, counter_total] at hp; exact hp⟩, h⟩

theorem mem_le_sum {x : Nat} : ∀ {l : List Nat}, x ∈ l → x ≤ l.sum
  | [], h => by cases h
  | y :: l, h => by
    rw [List.sum_cons]
    rcases List.mem_cons.1 h with rfl | h
    · omega
    · have := mem_le_sum h; omega

/-- C53, totals that fit: exact in every build. -/
theorem C53_counter_exact (m : Mode) (v : Nat) (us : List (Use CounterCall))
    (h : v + (us.map fun u => CounterCall.amount (Use.call u)).sum < 2 ^ 64) :
    (counterOps m).uses v us = .ok (v + (us.map fun u => CounterCall.amount (Use.call u)).sum) := by
  have hu : ∀ u ∈ us, CounterCall.Ok (Use.call u) := by
    intro u hu
    have := mem_le_sum (List.mem_map.2 ⟨u, hu, rfl⟩ :
      CounterCall.amount (Use.call u) ∈ us.map fun u => CounterCall.amount (Use.call u))
    unfold CounterCall.Ok; omega
  cases m with
  | release => rw [C53_counter_release v (by omega) us hu, Nat.mod_eq_of_lt h]
  | debug =>
    rcases C53_counter_debug v (by omega) us hu with ⟨⟨pre, c, post, e, hp⟩, _⟩ | ⟨_, h'⟩
    · exfalso
      subst e
      rw [List.map_append, List.sum_append, List.map_cons, List.sum_cons,
        show Use.call (Use.exclusive c) = c from rfl] at h
      rw [Nat.mod_eq_of_lt (by omega)] at hp
      omega
    · rw [h', Nat.mod_eq_of_lt h]

/-- C53, gauges in release builds: the exact result in two's complement. -/
theorem C53_gauge_release (v : Int) (hv : InI64 v) (us : List (Use GaugeCall)) (hu : ∀ u ∈ us, GaugeCall.Ok (Use.call u)) :
    ∃ k : Int, (gaugeOps .release).uses v us = .ok (total GaugeCall.apply v us + k * 2 ^ 64) ∧
      InI64 (total GaugeCall.apply v us + k * 2 ^ 64) := by
  obtain ⟨k, hk⟩ := asI64Wrap_cong (total GaugeCall.apply v us)
  refine ⟨k, ?_, hk ▸ asI64Wrap_in _⟩
  have := uses_follow (gauge_follows .release) us hu v
  rw [asI64Wrap_eq hv] at this
  rcases this with h | ⟨_, pre, c, post, _, h⟩
  · rw [h, hk]
  · cases (gauge_exclusive_panic h).1

/-- C53, gauges in debug builds: if all intermediate results are in range the result is exact; a call through an
exclusive reference with exact result out of range panics. -/
theorem C53_gauge_debug (m : Mode) (v : Int) (us : List (Use GaugeCall)) (hu : ∀ u ∈ us, GaugeCall.Ok (Use.call u)) :
    ((∀ pre post, us = pre ++ post → InI64 (total GaugeCall.apply v pre)) →
      (gaugeOps m).uses v us = .ok (total GaugeCall.apply v us)) ∧
    (∀ pre c post, us = pre ++ .exclusive c :: post → (∀ p q, pre = p ++ q → InI64 (total GaugeCall.apply v p)) →
      ¬ InI64 (total GaugeCall.apply v (pre ++ [.exclusive c])) → (gaugeOps .debug).uses v us = .panic) := by
  have htot : ∀ pre u, total GaugeCall.apply v (pre ++ [u]) = GaugeCall.apply (Use.call u) (total GaugeCall.apply v pre) := by
    intro pre u; simp [total, List.foldl_append]
  constructor
  · intro hr
    have := uses_follow (gauge_follows m) us hu v
    have hv := hr [] us rfl
    rw [show total GaugeCall.apply v [] = v from rfl] at hv
    rw [asI64Wrap_eq hv] at this
    rcases this with h | ⟨_, pre, c, post, e, h⟩
    · rw [h, asI64Wrap_eq (hr us [] (by simp))]
    · exfalso
      have hpre := hr pre _ e
      rw [asI64Wrap_eq hpre] at h
      have hc : GaugeCall.Ok c := hu (.exclusive c) (by rw [e]; simp)
      apply (gauge_exclusive_panic h).2
      have := hr (pre ++ [.exclusive c]) post (by rw [e]; simp)
      rw [htot] at this
      exact this
  · intro pre c post e hr hn
    have hv := hr [] pre rfl
    rw [show total GaugeCall.apply v [] = v from rfl] at hv
    have hpre := hr pre [] (by simp)
    have hc : GaugeCall.Ok c := hu (.exclusive c) (by rw [e]; simp)
    rw [htot] at hn
    have := uses_panic (gauge_follows .debug) us hu v e (by
      rw [asI64Wrap_eq hpre]
      cases c with
      | set x => exact absurd hc hn
      | _ =>
        simp only [gaugeOps, GaugeCall.exclusive, arithI64]
        rw [if_neg]
        intro hi
        apply hn
        simp only [Use.call, GaugeCall.apply, InI64]
        omega)
    rwa [asI64Wrap_eq hv] at this

/-- C53, gauges in debug builds, all cases: the exact result in two's complement, unless a call through an exclusive
reference leaves the range of `i64`, coming from the value that the gauge had: then, and only then, it panics. Calls
through shared references may wrap around before that. -/
theorem C53_gauge_wrapped (v : Int) (hv : InI64 v) (us : List (Use GaugeCall)) (hu : ∀ u ∈ us, GaugeCall.Ok (Use.call u)) :
    ((∃ pre c post, ∃ k : Int, us = pre ++ .exclusive c :: post ∧ InI64 (total GaugeCall.apply v pre + k * 2 ^ 64) ∧
        ¬ InI64 (GaugeCall.apply c (total GaugeCall.apply v pre + k * 2 ^ 64))) ∧
      (gaugeOps .debug).uses v us = .panic) ∨
    ((¬ ∃ pre c post, ∃ k : Int, us = pre ++ .exclusive c :: post ∧ InI64 (total GaugeCall.apply v pre + k * 2 ^ 64) ∧
        ¬ InI64 (GaugeCall.apply c (total GaugeCall.apply v pre + k * 2 ^ 64))) ∧
      ∃ k : Int, (gaugeOps .debug).uses v us = .ok (total GaugeCall.apply v us + k * 2 ^ 64) ∧
        InI64 (total GaugeCall.apply v us + k * 2 ^ 64)) := by
  have hwrap : ∀ x k : Int, InI64 (x + k * 2 ^ 64) → asI64Wrap x = x + k * 2 ^ 64 := by
    intro x k h
    unfold InI64 at h
    unfold asI64Wrap
    omega
  have hex : ∀ (c : GaugeCall) (a : Int), GaugeCall.Ok c →
      ((gaugeOps .debug).exclusive c a = .panic ↔ ¬ InI64 (GaugeCall.apply c a)) := by
    intro c a hc
    cases c with
    | set x =>
      have hx : InI64 x := hc
      simp [gaugeOps, GaugeCall.exclusive, GaugeCall.apply, hx]
    | _ =>
      simp only [gaugeOps, GaugeCall.exclusive, arithI64, GaugeCall.apply, InI64]
      split <;> simp <;> omega
  have := uses_follow (gauge_follows .debug) us hu v
  rw [asI64Wrap_eq hv] at this
  rcases this with h | ⟨h, pre, c, post, e, hp⟩
  · right
    refine ⟨?_, ?_⟩
    · rintro ⟨pre, c, post, k, e, hk, hn⟩
      have hc : GaugeCall.Ok c := hu (.exclusive c) (by rw [e]; simp)
      have := uses_panic (gauge_follows .debug) us hu v e (by rw [hwrap _ k hk, hex c _ hc]; exact hn)
      rw [asI64Wrap_eq hv, h] at this
      cases this
    · obtain ⟨k, hk⟩ := asI64Wrap_cong (total GaugeCall.apply v us)
      exact ⟨k, by rw [h, hk], hk ▸ asI64Wrap_in _⟩
  · left
    have hc : GaugeCall.Ok c := hu (.exclusive c) (by rw [e]; simp)
    obtain ⟨k, hk⟩ := asI64Wrap_cong (total GaugeCall.apply v pre)
    rw [hk, hex c _ hc] at hp
    exact ⟨⟨pre, c, post, k, e, hk ▸ asI64Wrap_in _, hp⟩, h⟩

/-- A shared increment wraps around, the exclusive decrement after it panics in a debug build. -/
example : (gaugeOps .debug).uses (2 ^ 63 - 1) [.shared .inc, .exclusive .dec] = .panic := by decide +kernel

example : (gaugeOps .debug).uses (2 ^ 63 - 1) [.shared .inc, .exclusive .inc] = .ok (-2 ^ 63 + 1) := by decide +kernel

/-- C53, float gauges: the kind of reference does not matter, and nothing panics. -/
theorem C53_float (v : F64) (us : List (Use FloatCall)) :
    floatOps.uses v us = .ok (total FloatCall.apply v us) := by
  rcases uses_follow float_follows us (fun _ _ => trivial) v with h | ⟨_, pre, c, post, _, h⟩
  · exact h
  · cases c <;> cases h

/-- C53, histograms: the calls of both kinds record the observations in order, and nothing panics. -/
theorem C53_histogram (le : List F64) (us : List (Use HistCall)) :
    ∃ h, (histOps le).uses (histOps le).dflt us = .ok h ∧
      histObserveAll le (HistInner.default le.length) (us.map fun u => HistCall.value (Use.call u)) = .ok h := by
  have ht : total HistCall.apply [] us = us.map fun u => HistCall.value (Use.call u) := by
    have : ∀ xs, total HistCall.apply xs us = xs ++ us.map fun u => HistCall.value (Use.call u) := by
      unfold total
      induction us with
      | nil => intro xs; simp
      | cons u us ih => intro xs; rw [List.foldl_cons, ih]; simp [HistCall.apply]
    rw [this]; rfl
  rcases uses_follow (hist_follows le) us (fun _ _ => trivial) [] with h | ⟨_, pre, c, post, _, h⟩
  · exact ⟨_, h, by rw [ht]; exact (histConc_ok le _).1⟩
  · exfalso
    have := hist_run_conc le (total HistCall.apply [] pre) c
    rw [show HistCall.run le c _ = _ from h] at this
    cases this

theorem addU_one (m : Mode) (c : Nat) :
    addU m c 1 = if m = .debug ∧ 2 ^ 64 ≤ c + 1 then .panic else .ok (incU64 c) := by
  unfold addU incU64
  by_cases h : c + 1 < W64
  · rw [if_pos h, if_neg (by simp only [W64] at h; omega), Nat.mod_eq_of_lt h]
  · rw [if_neg h]
    cases m with
    | debug => rw [if_pos ⟨rfl, by simp only [W64] at h; omega⟩]
    | release => rw [if_neg (by simp)]

/-- C53, histograms: the exclusive `observe_mut` of a histogram state has the effect of the shared `observe`; only in a debug
build it panics instead, exactly when the count to be raised is `2^64 - 1`. -/
theorem C53_observe_mut (m : Mode) (h : HistInner) (bucket : Nat) (x : F64) :
    h.observeMut m bucket x =
      if m = .debug ∧ 2 ^ 64 ≤ (h.buckets ++ [h.inf])[bucket]?.getD 0 + 1 then .panic else h.observe bucket x := by
  unfold HistInner.observeMut HistInner.observe
  by_cases h1 : bucket ≤ h.buckets.length
  · by_cases h2 : bucket < h.buckets.length
    · have hs : h.buckets.set bucket (incU64 h.buckets[bucket]) = h.buckets.modify bucket incU64 := by
        rw [List.modify_eq_set_getElem?, List.getElem?_eq_getElem h2]; rfl
      have hg : h.buckets[bucket]? = some h.buckets[bucket] := List.getElem?_eq_getElem h2
      rw [if_pos h1, if_pos h1, if_pos h2, if_pos h2, List.getElem?_append_left h2, hg]
      simp only [Option.getD_some, addU_one, ← hs]
      have hx : expect (some h.buckets[bucket]) = .ok h.buckets[bucket] := rfl
      rw [hx]
      change (Bind.bind (if m = Mode.debug ∧ 2 ^ 64 ≤ h.buckets[bucket] + 1 then Out.panic else Out.ok (incU64 h.buckets[bucket])) _ : Out HistInner) = _
      split <;> rfl
    · have he : bucket = h.buckets.length := by omega
      rw [if_pos h1, if_pos h1, if_neg h2, if_neg h2, List.getElem?_append_right (by omega), he, Nat.sub_self, addU_one]
      simp only [List.getElem?_cons_zero, Option.getD_some]
      split <;> rfl
  · rw [if_neg h1, if_neg h1]
    split <;> rfl

example : (⟨[3, 2 ^ 64 - 1], 0, F64.pzero⟩ : HistInner).observeMut .debug 0 F64.pzero =
      .ok ⟨[4, 2 ^ 64 - 1], 0, F64.pzero⟩ ∧
    (⟨[3, 2 ^ 64 - 1], 0, F64.pzero⟩ : HistInner).observeMut .debug 1 F64.pzero = .panic := by
  decide +kernel

example : (counterOps .debug).uses 5 [.shared (.incBy (2 ^ 64 - 5)), .exclusive (.incBy 7), .shared .inc] = .ok 8 := by
  decide +kernel
example : (counterOps .debug).uses 5 [.exclusive (.incBy (2 ^ 64 - 5)), .exclusive (.incBy 7)] = .panic := by
  decide +kernel
example : (counterOps .release).uses 5 [.exclusive (.incBy (2 ^ 64 - 5)), .exclusive (.incBy 7)] = .ok 7 := by
  decide +kernel
example : (gaugeOps .debug).uses 0 [.shared (.set (2 ^ 63 - 1)), .shared .inc, .exclusive .inc] = .ok (-2 ^ 63 + 1) := by
  decide +kernel
example : (gaugeOps .debug).uses 0 [.exclusive (.set (-2 ^ 63)), .exclusive (.decBy 3)] = .panic := by
  decide +kernel

/-- A histogram after observations shows, for each bound, how many of them were at or below it. -/
theorem histConc_shown {les : List F64} (hle : NonDecreasing les) (hnan : ∀ b ∈ les, b.isNaN = false) {xs : List F64}
    (hnx : ∀ x ∈ xs, x.isNaN = false) (h2 : xs.length < 2 ^ 63) (n : Bytes) (ls : Labels) :
    Fits (.histogram les (histConc les xs)) ∧
      expected n ls (.histogram les (histConc les xs)) = shownHistogram les n ls xs := by
  have hW : (2 : Nat) ^ 63 < W64 := by decide
  rw [Spec.NonDecreasing.iff_pairwise] at hle
  obtain ⟨h', he, ha⟩ := histAfter_all hle xs [] _ (histAfter_default les)
  rw [List.nil_append] at ha
  have heq : histConc les xs = h' := by
    have := (histConc_ok les xs).1; rw [he] at this; exact (Out.ok.inj this).symm
  obtain ⟨hcnt, htot⟩ := histAfter_counts hle ha (by omega)
  have hlen : les.length = h'.buckets.length := by rw [ha.buckets]; simp
  rw [heq]
  refine ⟨⟨hlen, by omega⟩, ?_⟩
  simp only [expected, shownHistogram, htot, ha.sum]
  congr 1
  apply List.ext_getElem?
  intro i
  rw [List.getElem?_mapIdx, List.getElem?_map]
  cases hi : les[i]? with
  | none => rfl
  | some b =>
    have hb := hnan b (List.mem_of_getElem? hi)
    have : notAbove b xs = atMost b xs := by
      unfold notAbove atMost
      rw [List.countP_eq_length_filter]
      congr 1
      apply List.filter_congr
      intro x hx
      have := not_flt hb (hnx x hx)
      rw [Bool.eq_iff_iff]
      simpa using this
    simp only [Option.map_some, hcnt i b hi, this]

/-! ## C54: from calls to scrapes -/

section
variable {S G U M C A : Type} [DecidableEq U] [DecidableEq G]
variable {m : Mode} {p : Nat} (h0 : 0 < p) (hp : p ≤ 2 ^ 55)
variable {hasher : U → Nat} {t : GroupSet S G U} {inv : S → Prop} {le : S → S → Prop} {valid : S → U → Prop}
variable (L : GroupSetLaws t inv le valid) {s : S} (hs : inv s) {dense : Bool} {v : MetricVec S U M}
variable (hv : Created m p t s dense v)
include h0 hp L hs hv

theorem scrape_tally {o : MetricOps C M} {okC : C → Prop} {conc : A → M} {zero : A} {apply : C → A → A}
    (hf : Follows o okC conc zero apply) (cs : List (VecCall G C)) (hc : ∀ c ∈ cs, ∀ x, VecCall.call? c = some x → okC x)
    {ryu : F64 → Bytes} {rf : Bytes → Option F64} (F : FloatText ryu rf) (m' : Mode) (n : Name) (hn : MetricNameRe n.text)
    (visit : G → Labels) (kind : Kind) (view : M → Metric) (shown : Bytes → Labels → A → List Expected)
    {rs : List CallRes} {v' : MetricVec S U M} (hrun : vecCalls o m hasher t v cs = (rs, v'))
    (hk : ∀ x, (view x).kind = kind)
    (hl : ∀ g a, tally dense zero apply (cs.zip rs) g = some a → LabelsOk (visit g) ∧ Fits (view (conc a)) ∧
      expected n.text (visit g) (view (conc a)) = shown n.text (visit g) a) :
    ∃ st out, (Fam.vec t visit kind view v').collect (textEncoder m' ryu) n (TextEnc.new []) = (.ok (), ⟨st, out⟩) ∧
      ScrapeShows rf n.text kind visit shown (tally dense zero apply (cs.zip rs)) out := by
  have hsim := sim_created (valid := valid) (hasher := hasher) (M := M) h0 hp hs hv
  obtain ⟨ops, a1, a2⟩ := vecCalls_ops L m hf cs hsim (fun _ => none) (fun _ => rfl) hc
  rw [hrun] at a1 a2
  simp only at a1 a2
  set live := tally dense zero apply (cs.zip rs) with hlive
  have a2' : ∀ g, (mapped dense o.dflt t s ops).live g = (live g).map conc := a2
  have hcol := C15_collect_exactly_once m p h0 hp hasher o.dflt t inv le valid L s hs dense v hv ops
  rw [show (ran m hasher o.dflt t v ops).vec = v' from a1] at hcol
  obtain ⟨hc1, hnd, hmem⟩ := hcol
  set l' := samplesOf t v' with hl'
  -- the same list, with tallies for states
  have hpick : ∀ q ∈ l', ∃ a, live q.1 = some a ∧ conc a = q.2 := by
    rintro ⟨g, x⟩ hq
    have := (hmem g x).1 hq
    rw [a2'] at this
    cases hg : live g with
    | none => rw [hg] at this; cases this
    | some a => rw [hg] at this; exact ⟨a, rfl, by simpa using this⟩
  let l : List (G × A) := l'.map fun q => (q.1, (live q.1).getD zero)
  have hback : l' = l.map fun q => (q.1, conc q.2) := by
    simp only [l, List.map_map]
    conv_lhs => rw [← List.map_id l']
    apply List.map_congr_left
    intro q hq
    obtain ⟨a, e1, e2⟩ := hpick q hq
    simp [e1, e2]
  have henum : Enumerates l live := by
    refine ⟨?_, fun g a => ?_⟩
    · have : l.map Prod.fst = l'.map Prod.fst := by simp only [l, List.map_map]; rfl
      rw [this]; exact hnd
    · constructor
      · intro h
        obtain ⟨q, hq, e⟩ := List.mem_map.1 h
        obtain ⟨b, e1, _⟩ := hpick q hq
        cases e
        simp [e1]
      · intro h
        have := (hmem g (conc a)).2 (by rw [a2', h]; rfl)
        exact List.mem_map.2 ⟨_, this, by simp [h]⟩
  let fam : FamilyIn := ⟨n, none, kind, l.map fun q => (visit q.1, view (conc q.2))⟩
  have hfok : FamilyOk fam := by
    refine ⟨by rw [← n.text_eq]; exact hn, by simp [fam], ?_, ?_, ?_⟩
    · rintro ⟨ls, x⟩ hx
      obtain ⟨q, _, e⟩ := List.mem_map.1 hx
      cases e; exact hk _
    · rintro ⟨ls, x⟩ hx
      obtain ⟨q, hq, e⟩ := List.mem_map.1 hx
      cases e; exact (hl q.1 q.2 ((henum.2 q.1 q.2).1 hq)).1
    · rintro ⟨ls, x⟩ hx
      obtain ⟨q, hq, e⟩ := List.mem_map.1 hx
      cases e; exact (hl q.1 q.2 ((henum.2 q.1 q.2).1 hq)).2.1
  obtain ⟨st, out, gs, _, e1, e2, e3, _⟩ := C33_exposition_partial F m' [fam] (by simpa using hfok)
  refine ⟨st, out, ?_, ?_⟩
  · simp only [Fam.collect]
    rw [hc1, runAll_samples, hback]
    rw [List.flatMap_cons, List.flatMap_nil, List.append_nil] at e1
    rw [← e1]
    simp only [FamilyIn.calls, fam, List.nil_append, List.map_map]
    rfl
  · cases e3 with
    | @cons _ g _ gs' hfam htl =>
      cases htl
      obtain ⟨gn, gh, gt, gss⟩ := g
      obtain ⟨r1, r2, r3, r4⟩ := hfam
      simp only [fam] at r1 r2 r3 r4
      subst r1 r2 r3
      refine ⟨l, gss, henum, e2, ?_⟩
      have : (l.flatMap fun q => shown n.text (visit q.1) q.2) =
          (l.map fun q => (visit q.1, view (conc q.2))).flatMap fun s => expected n.text s.1 s.2 := by
        rw [List.flatMap_map (f := fun q : G × A => (visit q.1, view (conc q.2)))]
        apply List.flatMap_congr
        intro q hq
        exact ((hl q.1 q.2 ((henum.2 q.1 q.2).1 hq)).2.2).symm
      rw [this]
      exact r4

end

section
variable {S G U : Type} [DecidableEq U] [DecidableEq G]
variable (m : Mode) (p : Nat) (h0 : 0 < p) (hp : p ≤ 2 ^ 55)
variable (hasher : U → Nat) (t : GroupSet S G U) (inv : S → Prop) (sle : S → S → Prop) (valid : S → U → Prop)
variable (L : GroupSetLaws t inv sle valid) (s : S) (hs : inv s) (dense : Bool)
variable {ryu : F64 → Bytes} {rf : Bytes → Option F64} (F : FloatText ryu rf) (m' : Mode)
variable (n : Name) (hn : MetricNameRe n.text) (visit : G → Labels)
include h0 hp L hs F hn

/-- C54, counters. Make a vector by any constructor and make any calls `cs` on it, shared and exclusive ones, with any
label groups, including removals. Then a scrape reads back as one counter family with exactly one sample per label group
in the tally, that shows the exact total (if it is below 2^63, see C35). Calls with groups known to the label set succeed,
unless they go through exclusive references, in debug builds, and overflow. -/
theorem C54_counter (v : MetricVec S U Nat) (hv : Created m p t s dense v) (cs : List (VecCall G CounterCall))
    (hc : ∀ c ∈ cs, ∀ x, VecCall.call? c = some x → CounterCall.Ok x) (rs : List CallRes) (v' : MetricVec S U Nat)
    (hrun : vecCalls (counterOps m) m hasher t v cs = (rs, v'))
    (hfit : ∀ g a, tally dense 0 CounterCall.apply (cs.zip rs) g = some a →
      (∀ l ∈ visit g, LabelNameRe l.1) ∧ a < 2 ^ 63) :
    rs.length = cs.length ∧ ((m = .release ∨ ∀ c ∈ cs, VecCall.isShared c = true) → .panicked ∉ rs) ∧
    ((∀ c ∈ cs, ∀ s', inv s' → Encodable t s' c.group) → .unknownLabel ∉ rs) ∧
    ∃ st out, (Fam.vec t visit .counter .counter v').collect (textEncoder m' ryu) n (TextEnc.new []) =
        (.ok (), ⟨st, out⟩) ∧
      ScrapeShows rf n.text .counter visit shownCounter (tally dense 0 CounterCall.apply (cs.zip rs)) out := by
  obtain ⟨r1, r2, r3⟩ := vecCalls_results L m (counter_follows m) cs (sim_created (valid := valid) (hasher := hasher) h0 hp hs hv)
    (fun _ => none) (fun _ => rfl) hc
  rw [hrun] at r1 r2 r3
  refine ⟨r1, fun hm => r2 fun c hcs x a _ hsh _ hpan => ?_, r3,
    scrape_tally h0 hp L hs hv (counter_follows m) cs hc F m' n hn visit .counter .counter shownCounter hrun
    (fun _ => rfl) fun g a h => ?_⟩
  · rcases hm with rfl | hm
    · cases (counter_exclusive_panic hpan).1
    · rw [hm c hcs] at hsh; cases hsh
  · obtain ⟨h1, h2⟩ := hfit g a h
    have : a % 2 ^ 64 = a := Nat.mod_eq_of_lt (by omega)
    exact ⟨h1, by simp only [this]; exact h2, by simp only [this]; rfl⟩

/-- C54, gauges: the same with the exact integer, if it is an `i64`. -/
theorem C54_gauge (v : MetricVec S U Int) (hv : Created m p t s dense v) (cs : List (VecCall G GaugeCall))
    (hc : ∀ c ∈ cs, ∀ x, VecCall.call? c = some x → GaugeCall.Ok x) (rs : List CallRes) (v' : MetricVec S U Int)
    (hrun : vecCalls (gaugeOps m) m hasher t v cs = (rs, v'))
    (hfit : ∀ g a, tally dense 0 GaugeCall.apply (cs.zip rs) g = some a →
      (∀ l ∈ visit g, LabelNameRe l.1) ∧ InI64 a) :
    rs.length = cs.length ∧ ((m = .release ∨ ∀ c ∈ cs, VecCall.isShared c = true) → .panicked ∉ rs) ∧
    ((∀ c ∈ cs, ∀ s', inv s' → Encodable t s' c.group) → .unknownLabel ∉ rs) ∧
    ∃ st out, (Fam.vec t visit .gauge .gauge v').collect (textEncoder m' ryu) n (TextEnc.new []) =
        (.ok (), ⟨st, out⟩) ∧
      ScrapeShows rf n.text .gauge visit shownGauge (tally dense 0 GaugeCall.apply (cs.zip rs)) out := by
  obtain ⟨r1, r2, r3⟩ := vecCalls_results L m (gauge_follows m) cs (sim_created (valid := valid) (hasher := hasher) h0 hp hs hv)
    (fun _ => none) (fun _ => rfl) hc
  rw [hrun] at r1 r2 r3
  refine ⟨r1, fun hm => r2 fun c hcs x a _ hsh _ hpan => ?_, r3,
    scrape_tally h0 hp L hs hv (gauge_follows m) cs hc F m' n hn visit .gauge .gauge shownGauge hrun
    (fun _ => rfl) fun g a h => ?_⟩
  · rcases hm with rfl | hm
    · cases (gauge_exclusive_panic hpan).1
    · rw [hm c hcs] at hsh; cases hsh
  · obtain ⟨h1, h2⟩ := hfit g a h
    exact ⟨h1, trivial, by rw [asI64Wrap_eq h2]; rfl⟩

/-- C54, float gauges: the same with the `f64` result of the calls in their order. -/
theorem C54_float (v : MetricVec S U F64) (hv : Created m p t s dense v) (cs : List (VecCall G FloatCall))
    (rs : List CallRes) (v' : MetricVec S U F64) (hrun : vecCalls floatOps m hasher t v cs = (rs, v'))
    (hfit : ∀ g a, tally dense F64.pzero FloatCall.apply (cs.zip rs) g = some a → ∀ l ∈ visit g, LabelNameRe l.1) :
    rs.length = cs.length ∧ .panicked ∉ rs ∧
    ((∀ c ∈ cs, ∀ s', inv s' → Encodable t s' c.group) → .unknownLabel ∉ rs) ∧
    ∃ st out, (Fam.vec t visit .floatGauge .floatGauge v').collect (textEncoder m' ryu) n (TextEnc.new []) =
        (.ok (), ⟨st, out⟩) ∧
      ScrapeShows rf n.text .floatGauge visit shownFloat (tally dense F64.pzero FloatCall.apply (cs.zip rs)) out := by
  obtain ⟨r1, r2, r3⟩ := vecCalls_results L m float_follows cs (sim_created (valid := valid) (hasher := hasher) h0 hp hs hv)
    (fun _ => none) (fun _ => rfl) (fun _ _ _ _ => trivial)
  rw [hrun] at r1 r2 r3
  refine ⟨r1, r2 fun c hcs x a _ hsh _ hpan => ?_, r3,
    scrape_tally h0 hp L hs hv float_follows cs (fun _ _ _ _ => trivial) F m' n hn visit .floatGauge .floatGauge
    shownFloat hrun (fun _ => rfl) fun g a h => ⟨hfit g a h, trivial, rfl⟩⟩
  cases x <;> cases hpan

/-- C54, histograms with ascending bounds: every label group shows, for each bound, how many of its observations were at
or below it, and the number and sum of all (NaN observations and bounds aside, see C26). -/
theorem C54_histogram (les : List F64) (hle : NonDecreasing les) (hnan : ∀ b ∈ les, b.isNaN = false)
    (v : MetricVec S U HistInner) (hv : Created m p t s dense v) (cs : List (VecCall G HistCall))
    (hc : ∀ c ∈ cs, ∀ x, VecCall.call? c = some x → (HistCall.value x).isNaN = false)
    (rs : List CallRes) (v' : MetricVec S U HistInner) (hrun : vecCalls (histOps les) m hasher t v cs = (rs, v'))
    (hfit : ∀ g a, tally dense [] HistCall.apply (cs.zip rs) g = some a →
      (∀ l ∈ visit g, LabelNameRe l.1) ∧ a.length < 2 ^ 63) :
    rs.length = cs.length ∧ .panicked ∉ rs ∧
    ((∀ c ∈ cs, ∀ s', inv s' → Encodable t s' c.group) → .unknownLabel ∉ rs) ∧
    ∃ st out, (Fam.vec t visit .histogram (.histogram les) v').collect (textEncoder m' ryu) n (TextEnc.new []) =
        (.ok (), ⟨st, out⟩) ∧
      ScrapeShows rf n.text .histogram visit (shownHistogram les) (tally dense [] HistCall.apply (cs.zip rs)) out := by
  obtain ⟨r1, r2, r3⟩ := vecCalls_results L m (hist_follows les) cs (sim_created (valid := valid) (hasher := hasher) h0 hp hs hv)
    (fun _ => none) (fun _ => rfl) (fun _ _ _ _ => trivial)
  rw [hrun] at r1 r2 r3
  have hW : (2 : Nat) ^ 63 < W64 := by decide
  -- no NaN gets into a tally
  have hxs : ∀ g a, tally dense [] HistCall.apply (cs.zip rs) g = some a → ∀ x ∈ a, x.isNaN = false := by
    have key : ∀ (l : List (VecCall G HistCall × CallRes)) (live : G → Option (List F64)),
        (∀ c ∈ l, ∀ x, VecCall.call? c.1 = some x → (HistCall.value x).isNaN = false) →
        (∀ g a, live g = some a → ∀ x ∈ a, x.isNaN = false) →
        ∀ g a, l.foldl (tallyStep dense [] HistCall.apply) live g = some a → ∀ x ∈ a, x.isNaN = false := by
      intro l
      induction l with
      | nil => intro live _ h; exact h
      | cons q l ih =>
        intro live h1 h2
        refine ih _ (fun c hc => h1 c (by simp [hc])) ?_
        have hq := h1 q (by simp)
        have hd : ∀ g, ∀ x ∈ (live g).getD [], x.isNaN = false := by
          intro g x hx
          cases hg : live g with
          | none => rw [hg] at hx; cases hx
          | some a => rw [hg] at hx; exact h2 g a hg x hx
        have happ : ∀ (g : G) (c : HistCall), (HistCall.value c).isNaN = false → ∀ g' a,
            Function.update live g (some (HistCall.apply c ((live g).getD []))) g' = some a → ∀ x ∈ a, x.isNaN = false := by
          intro g c hc g' a h x hx
          rw [Function.update_apply] at h
          split at h
          · cases h
            rcases List.mem_append.1 hx with hx | hx
            · exact hd g x hx
            · rw [List.mem_singleton.1 hx]; exact hc
          · exact h2 g' a h x hx
        have hsame : ∀ (g : G) g' a,
            Function.update live g (some ((live g).getD [])) g' = some a → ∀ x ∈ a, x.isNaN = false := by
          intro g g' a h x hx
          rw [Function.update_apply] at h
          split at h
          · cases h; exact hd g x hx
          · exact h2 g' a h x hx
        obtain ⟨c, r⟩ := q
        cases c with
        | shared g c =>
          cases r with
          | done => exact happ g c (hq c rfl)
          | unknownLabel => exact h2
          | panicked => exact hsame g
        | exclusive g c =>
          cases r with
          | done => exact happ g c (hq c rfl)
          | unknownLabel => exact h2
          | panicked => exact hsame g
        | remove g =>
          cases r with
          | done =>
            simp only [tallyStep]
            intro g' a h
            split at h
            · exact h2 g' a h
            · rw [Function.update_apply] at h
              split at h
              · cases h
              · exact h2 g' a h
          | unknownLabel => exact h2
          | panicked => exact h2
    exact key _ _ (fun c hc' x hx => hc c.1 (List.of_mem_zip hc').1 x hx) (by simp)
  refine ⟨r1, r2 fun c hcs x a _ hsh _ hpan => ?_, r3,
    scrape_tally h0 hp L hs hv (hist_follows les) cs (fun _ _ _ _ => trivial) F m' n hn visit .histogram
    (.histogram les) (shownHistogram les) hrun (fun _ => rfl) fun g xs h => ?_⟩
  · rw [show (histOps les).exclusive x _ = _ from hist_run_conc les a x] at hpan
    cases hpan
  · obtain ⟨h1, h2⟩ := hfit g xs h
    have hnx := hxs g xs h
    exact ⟨h1, histConc_shown hle hnan hnx h2 n.text (visit g)⟩

end

/-- The tally in closed form, for programs without removals in which every call succeeds: a group has a sample if it was
ever used, with the sum over its calls. -/
theorem tally_counter_sum {G : Type} [DecidableEq G] (dense : Bool) (l : List (VecCall G CounterCall × CallRes))
    (h : ∀ q ∈ l, q.2 = .done ∧ (VecCall.call? q.1).isSome) (g : G) :
    tally dense 0 CounterCall.apply l g =
      if l.any (fun q => q.1.group = g) then
        some ((l.filter fun q => q.1.group = g).map fun q => ((VecCall.call? q.1).map CounterCall.amount).getD 0).sum
      else none := by
  have key : ∀ (l : List (VecCall G CounterCall × CallRes)) (live : G → Option Nat),
      (∀ q ∈ l, q.2 = .done ∧ (VecCall.call? q.1).isSome) → l.foldl (tallyStep dense 0 CounterCall.apply) live g =
      if l.any (fun q => q.1.group = g) then
        some ((live g).getD 0 +
          ((l.filter fun q => q.1.group = g).map fun q => ((VecCall.call? q.1).map CounterCall.amount).getD 0).sum)
      else live g := by
    intro l
    induction l with
    | nil => intro live _; simp
    | cons q l ih =>
      intro live h
      rw [List.foldl_cons, ih _ fun q hq => h q (by simp [hq])]
      obtain ⟨c, r⟩ := q
      have hq := h (c, r) (by simp)
      obtain ⟨rfl, hsome⟩ : r = .done ∧ _ := hq
      have hupd : ∀ (g' : G) (c' : CounterCall), (VecCall.call? c = some c') → c.group = g' →
          tallyStep dense 0 CounterCall.apply live (c, .done) g =
            if g' = g then some ((live g).getD 0 + CounterCall.amount c') else live g := by
        intro g' c' h1 h2
        cases c with
        | shared g0 c0 =>
          cases h1; cases h2
          simp only [tallyStep, Function.update_apply, CounterCall.apply]
          by_cases e : g = g0
          · subst e; simp [VecCall.group]
          · simp [e, Ne.symm e, VecCall.group]
        | exclusive g0 c0 =>
          cases h1; cases h2
          simp only [tallyStep, Function.update_apply, CounterCall.apply]
          by_cases e : g = g0
          · subst e; simp [VecCall.group]
          · simp [e, Ne.symm e, VecCall.group]
        | remove g0 => cases h1
      obtain ⟨c', hc'⟩ := Option.isSome_iff_exists.1 hsome
      rw [hupd c.group c' hc' rfl]
      by_cases e : c.group = g
      · simp [e, hc', Nat.add_assoc]
        intro hno
        have : (l.filter fun q => decide (q.1.group = g)) = [] := by
          rw [List.filter_eq_nil_iff]; intro q hq; simpa using hno q.1 q.2 hq
        rw [this]; rfl
      · have e' : decide (c.group = g) = false := by simpa using e
        simp only [if_neg e, List.any_cons, e', Bool.false_or, List.filter_cons, Bool.false_eq_true, if_false]
  have := key l (fun _ => none) h
  simpa [tally] using this

section examples

/-- Two calls on one label and one on the other; both labels collide in hash and shard. -/
def exUses : List (VecCall String CounterCall) :=
  [.shared "Get" .inc, .shared "Post" (.incBy 7), .exclusive "Get" (.incBy 2), .shared "Put" .inc]

def exUsed : List CallRes × MetricVec Unit Nat Nat :=
  vecCalls (counterOps .debug) .debug (fun _ => 77) (staticGroupSet ["Get", "Post"]) exV exUses

example : exUsed.1 = [.done, .done, .done, .unknownLabel] := by decide
example : (tally false 0 CounterCall.apply (exUses.zip exUsed.1) "Get", tally false 0 CounterCall.apply (exUses.zip exUsed.1) "Post",
    tally false 0 CounterCall.apply (exUses.zip exUsed.1) "Put") = (some 3, some 7, none) := by decide
example : ((Fam.vec (staticGroupSet ["Get", "Post"]) (fun g => [(b!"method", .str g.toUTF8.toList)]) .counter .counter
    exUsed.2).collect (textEncoder .debug exRyu) (.str b!"hits") (TextEnc.new [])).2.writer =
    b!"# TYPE hits counter\nhits{method=\"Post\"} 7\nhits{method=\"Get\"} 3\n" := by decide +kernel

end examples

end Measured
