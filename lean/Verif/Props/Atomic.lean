import Verif.Proof.Atomic

/-!
# C20, C21: counters and gauges used by many threads
-/

namespace Measured
open Conc Spec

/-! ## C20 -/

/-- Whatever the threads do, as long as nobody calls `set`, the counter ends with the initial value plus all increments
minus all decrements, modulo `2^64`. -/
theorem C20_final {v0 : Nat} (hv : v0 < 2 ^ 64) {tr : List IntEvent} {m : Mem IntOp Nat}
    (h : Exec IntStep (Mem.new v0) tr m) (hn : NoSet (intUpdates tr)) :
    ((m.valAt m.mods.length : Nat) : Int) = (v0 + netChange (intUpdates tr)) % 2 ^ 64 := by
  have hi := int_inv h
  rw [hi.valAt, List.take_of_length_le (by simp [Mem.order]), hi.exact hn, net_fold hn _ (by omega)]

/-- A thread that has synchronised with every thread that made updates, after the updates, reads that value. -/
theorem C20_after_join {v0 : Nat} (hv : v0 < 2 ^ 64) {tr₁ tr₂ : List IntEvent} {t : Tid} {v : Nat}
    {m : Mem IntOp Nat} (h : Exec IntStep (Mem.new v0) (tr₁ ++ tr₂ ++ [.read t v]) m)
    (hn : NoSet (intUpdates tr₁)) (hq : intUpdates tr₂ = [])
    (hj : ∀ u ∈ intUpdates tr₁, u.1 ≠ t → IntEvent.sync t u.1 ∈ tr₂) :
    (v : Int) = (v0 + netChange (intUpdates tr₁)) % 2 ^ 64 := by
  obtain ⟨m₂, h2, hs⟩ := exec_snoc_inv h
  obtain ⟨m₁, h1, hex⟩ := exec_split tr₁ tr₂ h2
  obtain ⟨hmods, hmono, hsync⟩ := int_quiet hex hq
  have hi1 := int_inv h1
  have hi2 := int_inv h2
  have hall : m₂.view t = m₂.mods.length := by
    have hle := hi2.good.view t
    by_cases hz : m₂.mods.length = 0
    · omega
    · obtain ⟨x, hx⟩ : ∃ x, m₂.mods[m₂.mods.length - 1]? = some x := ⟨m₂.mods[m₂.mods.length - 1], by simp⟩
      have hx1 := hx
      rw [hmods] at hx1
      have ho := hi1.good.own _ x hx1
      have hmem : actOf x ∈ intUpdates tr₁ := by
        rw [← hi1.exact hn]
        exact List.mem_map_of_mem (List.mem_of_getElem? hx1)
      have : m₁.view x.tid ≤ m₂.view t := by
        by_cases hxt : x.tid = t
        · rw [hxt]; exact hmono t
        · exact hsync t x.tid (hj _ hmem hxt)
      rw [← hmods] at ho
      omega
  have hu : intUpdates (tr₁ ++ tr₂) = intUpdates tr₁ := by rw [intUpdates_append, hq, List.append_nil]
  have hfin := C20_final hv h2 (by rw [hu]; exact hn)
  cases hs with
  | read t i hl =>
    have : i = m₂.mods.length := by have := hl.1; have := hl.2; omega
    rw [this, hfin, hu]

/-- Without `set`, every read returns the value after some prefix of the updates so far, and that prefix contains all
updates the reading thread has made itself. -/
theorem C20_read {v0 : Nat} (hv : v0 < 2 ^ 64) {tr tr' : List IntEvent} {t : Tid} {v : Nat} {m : Mem IntOp Nat}
    (h : Exec IntStep (Mem.new v0) (tr ++ .read t v :: tr') m) (hn : NoSet (intUpdates tr)) :
    ∃ k ≤ (intUpdates tr).length,
      (v : Int) = (v0 + netChange ((intUpdates tr).take k)) % 2 ^ 64 ∧
        ∀ u ∈ (intUpdates tr).drop k, u.1 ≠ t := by
  obtain ⟨m₁, h1, h2⟩ := exec_split tr _ h
  obtain ⟨m₂, hs, _⟩ := exec_cons_inv h2
  have hi := int_inv h1
  have ho := hi.exact hn
  cases hs with
  | read t i hl =>
    refine ⟨i, ?_, ?_, ?_⟩
    · have := hl.2
      rw [← ho]; simpa [Mem.order] using this
    · rw [hi.valAt, ho, net_fold (fun u hu => hn u (List.mem_of_mem_take hu)) _ (by omega)]
    · have hd := own_drop hi.good hl.1
      rw [ho, List.filter_eq_nil_iff] at hd
      intro u hu hut
      exact hd u hu (decide_eq_true hut)

/-- Two reads of the same thread: the second sees at least the updates the first has seen. -/
theorem C20_reads_ordered {v0 : Nat} (hv : v0 < 2 ^ 64) {tr₁ tr₂ tr₃ : List IntEvent} {t : Tid} {v w : Nat}
    {m : Mem IntOp Nat} (h : Exec IntStep (Mem.new v0) (tr₁ ++ .read t v :: tr₂ ++ .read t w :: tr₃) m)
    (hn : NoSet (intUpdates (tr₁ ++ tr₂))) :
    ∃ j k, j ≤ k ∧ k ≤ (intUpdates (tr₁ ++ tr₂)).length ∧ j ≤ (intUpdates tr₁).length ∧
      (v : Int) = (v0 + netChange ((intUpdates (tr₁ ++ tr₂)).take j)) % 2 ^ 64 ∧
        (w : Int) = (v0 + netChange ((intUpdates (tr₁ ++ tr₂)).take k)) % 2 ^ 64 := by
  rw [intUpdates_append] at hn ⊢
  obtain ⟨m₃, h3, h4⟩ := exec_split (tr₁ ++ .read t v :: tr₂) _ h
  obtain ⟨m₄, hs₂, _⟩ := exec_cons_inv h4
  obtain ⟨m₁, h1, h2⟩ := exec_split tr₁ _ h3
  obtain ⟨m₂, hs₁, h2'⟩ := exec_cons_inv h2
  have hi1 := int_inv h1
  have hi3 := int_inv h3
  have hu : intUpdates (tr₁ ++ .read t v :: tr₂) = intUpdates tr₁ ++ intUpdates tr₂ := by
    rw [intUpdates_append]; rfl
  have hn1 : NoSet (intUpdates tr₁) := fun u hu => hn u (by simp [hu])
  have ho1 := hi1.exact hn1
  have ho3 := hi3.exact (by rw [hu]; exact hn)
  rw [hu] at ho3
  cases hs₁ with
  | read t i hl =>
    cases hs₂ with
    | read t k hl' =>
      have hlen1 : m₁.mods.length = (intUpdates tr₁).length := by rw [← ho1]; simp [Mem.order]
      have hlen3 : m₃.mods.length = (intUpdates tr₁ ++ intUpdates tr₂).length := by rw [← ho3]; simp [Mem.order]
      have hi' : i ≤ (intUpdates tr₁).length := by rw [← hlen1]; exact hl.2
      refine ⟨i, k, ?_, by rw [← hlen3]; exact hl'.2, hi', ?_, ?_⟩
      · have := int_view_mono h2' t
        have h5 : (m₁.load t i).view t = i := Function.update_self _ _ _
        rw [h5] at this
        exact this.trans hl'.1
      · rw [hi1.valAt, ho1, net_fold (fun u hu => hn1 u (List.mem_of_mem_take hu)) _ (by omega),
          List.take_append_of_le_length hi']
      · rw [hi3.valAt, ho3, net_fold (fun u hu => hn u (List.mem_of_mem_take hu)) _ (by omega)]

/-- Gauges, with `set`: the value is that of all updates done one after the other in some order that agrees with the
order of each thread. -/
theorem C20_linear {v0 : Nat} {tr : List IntEvent} {m : Mem IntOp Nat} (h : Exec IntStep (Mem.new v0) tr m) :
    ∃ order, Linearises (intUpdates tr) order ∧
      ((m.valAt m.mods.length : Nat) : Int) = order.foldl (fun v u => IntOp.on v u.2) (v0 : Int) := by
  have hi := int_inv h
  exact ⟨m.order, hi.lin, by rw [hi.valAt, List.take_of_length_le (by simp [Mem.order])]⟩

/-- Reads in the presence of `set`: the value after a prefix of such an order; the rest is not from the reader. -/
theorem C20_linear_read {v0 : Nat} {tr tr' : List IntEvent} {t : Tid} {v : Nat} {m : Mem IntOp Nat}
    (h : Exec IntStep (Mem.new v0) (tr ++ .read t v :: tr') m) :
    ∃ seen rest, Linearises (intUpdates tr) (seen ++ rest) ∧ (∀ u ∈ rest, u.1 ≠ t) ∧
      (v : Int) = seen.foldl (fun v u => IntOp.on v u.2) (v0 : Int) := by
  obtain ⟨m₁, h1, h2⟩ := exec_split tr _ h
  obtain ⟨m₂, hs, _⟩ := exec_cons_inv h2
  have hi := int_inv h1
  cases hs with
  | read t i hl =>
    refine ⟨m₁.order.take i, m₁.order.drop i, by rw [List.take_append_drop]; exact hi.lin, ?_, hi.valAt i⟩
    have hd := own_drop hi.good hl.1
    rw [List.filter_eq_nil_iff] at hd
    intro u hu hut
    exact hd u hu (decide_eq_true hut)

/-- Two threads increment, the second joins the first and reads. A stale read comes before. -/
theorem exInt : ∃ m, Exec IntStep (Mem.new 5) ([.update 1 (.add 10), .read 2 5, .update 2 (.sub 20)] ++
    [.sync 2 1] ++ [.read 2 (2 ^ 64 - 5)]) m := by
  let m0 : Mem IntOp Nat := Mem.new 5
  let m1 := m0.modify 1 (.add 10) 0 ((IntOp.add 10).eff.apply (m0.valAt 0))
  let m2 := m1.load 2 0
  let m3 := m2.modify 2 (.sub 20) 1 ((IntOp.sub 20).eff.apply (m2.valAt 1))
  let m4 := m3.sync 2 1
  refine ⟨m4.load 2 2, ?_⟩
  have hval : m4.valAt 2 = 2 ^ 64 - 5 := by decide +kernel
  rw [← hval]
  refine exec_cons (m := m1) (.update m0 1 (.add 10) 0 ⟨by decide, by decide, by simp [m0, Mem.new]⟩) ?_
  refine exec_cons (m := m2) (IntStep.read m1 2 0 ⟨by decide, by decide⟩) ?_
  refine exec_cons (m := m3) (.update m2 2 (.sub 20) 1 ⟨by decide, by decide, ?_⟩) ?_
  · intro x hx
    simp [m2, m1, m0, Mem.load, Mem.modify, Mem.new] at hx
  refine exec_cons (m := m4) (.sync m3 2 1) ?_
  exact Exec.snoc (tr := []) .nil (IntStep.read m4 2 2 ⟨by decide, by decide⟩)

example : (2 ^ 64 - 5 : Int) = (5 + netChange (intUpdates
    [.update 1 (.add 10), .read 2 5, .update 2 (.sub 20)])) % 2 ^ 64 := by
  obtain ⟨m, h⟩ := exInt
  have := C20_after_join (v0 := 5) (by decide) h (by simp [NoSet, intUpdates]) rfl (by
    intro u hu hne
    simp [intUpdates] at hu
    rcases hu with rfl | rfl
    · simp
    · exact absurd rfl hne)
  simpa using this

/-! ## C21 -/

/-- Whatever the threads do, and however often compare-exchange fails: the events of each thread are complete calls with
exactly one effect each, between start and return, and at most one unfinished call at the end. -/
theorem C21_exactly_once {v0 : F64} {tr : List FloatEvent} {s : FloatSys}
    (h : Exec FloatStep (FloatSys.new v0) tr s) (t : Tid) :
    ∃ done : List FloatOp, ∃ last ∈ [[], [FloatEvent.start t], [FloatEvent.start t, FloatEvent.effect t]], ∃ op,
      floatThread t tr = done.flatMap (floatCall t) ++ last.map (· op) ∧ (s.pc t = .idle ↔ last = []) := by
  obtain ⟨ops, hc⟩ := (float_inv h).calls t
  refine ⟨ops, ?_⟩
  rw [hc]
  cases hp : s.pc t with
  | idle => exact ⟨[], by simp, .set F64.one, by simp [openCall], by simp⟩
  | loop x => exact ⟨[FloatEvent.start t], by simp, .incBy x, by simp [openCall], by simp⟩
  | loaded x c => exact ⟨[FloatEvent.start t], by simp, .incBy x, by simp [openCall], by simp⟩
  | storing x => exact ⟨[FloatEvent.start t], by simp, .set x, by simp [openCall], by simp⟩
  | ret op => exact ⟨[FloatEvent.start t, FloatEvent.effect t], by simp, op, by simp [openCall], by simp⟩

/-- The value is that of the effects, one after the other in some order that agrees with each thread's order. -/
theorem C21_value {v0 : F64} {tr : List FloatEvent} {s : FloatSys} (h : Exec FloatStep (FloatSys.new v0) tr s) :
    ∃ order, Linearises (floatEffects tr) order ∧
      s.mem.valAt s.mem.mods.length = order.foldl (fun v u => FloatOp.on v u.2) v0 := by
  have hi := float_inv h
  exact ⟨s.mem.order, hi.lin, by rw [hi.valAt, List.take_of_length_le (by simp [Mem.order])]⟩

theorem filter_effects (t : Tid) (tr : List FloatEvent) :
    floatEffects (floatThread t tr) = (floatEffects tr).filter fun a => a.1 = t := by
  induction tr with
  | nil => rfl
  | cons e tr ih =>
    cases e with
    | effect s op =>
      by_cases hs : s = t
      · subst hs; simp [floatThread, floatEffects, ih]
      · simp [floatThread, floatEffects, ih, hs]
    | start s op => simp only [floatThread, floatEffects]; split <;> simpa [floatEffects] using ih
    | ret s op => simp only [floatThread, floatEffects]; split <;> simpa [floatEffects] using ih
    | _ => simpa [floatThread, floatEffects] using ih

theorem filter_returns (t : Tid) (tr : List FloatEvent) :
    floatReturns (floatThread t tr) = (floatReturns tr).filter fun a => a.1 = t := by
  induction tr with
  | nil => rfl
  | cons e tr ih =>
    cases e with
    | ret s op =>
      by_cases hs : s = t
      · subst hs; simp [floatThread, floatReturns, ih]
      · simp [floatThread, floatReturns, ih, hs]
    | start s op => simp only [floatThread, floatReturns]; split <;> simpa [floatReturns] using ih
    | effect s op => simp only [floatThread, floatReturns]; split <;> simpa [floatReturns] using ih
    | _ => simpa [floatThread, floatReturns] using ih

/-- When no call is in progress, the value is that of the calls that returned, in an order that agrees with the
threads' order: every call counts once, none is lost. -/
theorem C21_quiescent {v0 : F64} {tr : List FloatEvent} {s : FloatSys} (h : Exec FloatStep (FloatSys.new v0) tr s)
    (hidle : ∀ t, s.pc t = .idle) :
    ∃ order, Linearises (floatReturns tr) order ∧
      s.mem.valAt s.mem.mods.length = order.foldl (fun v u => FloatOp.on v u.2) v0 := by
  obtain ⟨order, hl, hv⟩ := C21_value h
  have hth : ∀ t, (floatReturns tr).filter (fun a => a.1 = t) = (floatEffects tr).filter fun a => a.1 = t := by
    intro t
    obtain ⟨ops, hc⟩ := (float_inv h).calls t
    rw [hidle t, openCall, List.append_nil] at hc
    rw [← filter_effects, ← filter_returns, hc]
    clear hc
    induction ops with
    | nil => rfl
    | cons op ops ih =>
      simp only [List.flatMap_cons, floatReturns_append, floatEffects_append, ih]
      rfl
  refine ⟨order, ⟨?_, fun t => by rw [hl.threads t, hth t]⟩, hv⟩
  refine hl.perm.trans (List.perm_iff_count.2 fun a => ?_)
  have h1 := congrArg (List.count a) (hth a.1)
  rw [List.count_filter (by simp), List.count_filter (by simp)] at h1
  exact h1.symm

/-- A read returns the value after some of the effects so far, in such an order; the others are not from the reader. -/
theorem C21_read {v0 v : F64} {tr tr' : List FloatEvent} {t : Tid} {s : FloatSys}
    (h : Exec FloatStep (FloatSys.new v0) (tr ++ .read t v :: tr') s) :
    ∃ seen rest, Linearises (floatEffects tr) (seen ++ rest) ∧ (∀ u ∈ rest, u.1 ≠ t) ∧
      v = seen.foldl (fun v u => FloatOp.on v u.2) v0 := by
  obtain ⟨s₁, h1, h2⟩ := exec_split tr _ h
  obtain ⟨s₂, hs, _⟩ := exec_cons_inv h2
  have hi := float_inv h1
  cases hs with
  | read t i hp hl =>
    refine ⟨s₁.mem.order.take i, s₁.mem.order.drop i, by rw [List.take_append_drop]; exact hi.lin, ?_, hi.valAt i⟩
    have hd := own_drop hi.good hl.1
    rw [List.filter_eq_nil_iff] at hd
    intro u hu hut
    exact hd u hu (decide_eq_true hut)

/-- Two threads increment; the first one's compare-exchange fails because of the second and it tries again. -/
theorem exFloatRun : ∃ s, Exec FloatStep (FloatSys.new (F64.zero false))
    [.start 1 (.incBy F64.one), .silent 1, .start 2 (.set F64.one), .effect 2 (.set F64.one), .silent 1, .silent 1,
      .effect 1 (.incBy F64.one), .ret 2 (.set F64.one), .ret 1 (.incBy F64.one)] s ∧ (∀ t, s.pc t = .idle) ∧
    s.mem.valAt s.mem.mods.length = F64.ofNat 2 := by
  let x := F64.one
  let s0 := FloatSys.new (F64.zero false)
  let s1 := s0.goto 1 (.loop x) s0.mem
  let s2 := s1.goto 1 (.loaded x (s1.mem.valAt 0)) (s1.mem.load 1 0)
  let s3 := s2.goto 2 (.storing x) s2.mem
  let s4 := s3.goto 2 (.ret (.set x)) (s3.mem.modify 2 (.set x) 0 x)
  let s5 := s4.goto 1 (.loop x) (s4.mem.load 1 1)
  let s6 := s5.goto 1 (.loaded x (s5.mem.valAt 1)) (s5.mem.load 1 1)
  let s7 := s6.goto 1 (.ret (.incBy x)) (s6.mem.modify 1 (.incBy x) 1 (F64.add (s5.mem.valAt 1) x))
  let s8 := s7.goto 2 .idle s7.mem
  refine ⟨s8.goto 1 .idle s8.mem, ?_, ?_, by set_option exponentiation.threshold 3000 in decide +kernel⟩
  · refine exec_cons (m := s1) (.startInc s0 1 x rfl) ?_
    refine exec_cons (m := s2) (.load s1 1 x 0 rfl ⟨by decide, by decide⟩) ?_
    refine exec_cons (m := s3) (.startSet s2 2 x rfl) ?_
    refine exec_cons (m := s4) (.store s3 2 x 0 rfl ⟨by decide, by decide, ?_⟩) ?_
    · intro y hy
      simp [s3, s2, s1, s0, FloatSys.goto, FloatSys.new, Mem.load, Mem.new] at hy
    refine exec_cons (m := s5) (.casFail s4 1 x (s1.mem.valAt 0) 1 rfl ⟨by decide, by decide⟩) ?_
    refine exec_cons (m := s6) (.load s5 1 x 1 rfl ⟨by decide, by decide⟩) ?_
    refine exec_cons (m := s7) (.casOk s6 1 x (s5.mem.valAt 1) 1 rfl ⟨by decide, by decide, ?_⟩ rfl) ?_
    · intro y hy
      simp [s6, s5, s4, s3, s2, s1, s0, FloatSys.goto, FloatSys.new, Mem.load, Mem.new, Mem.modify] at hy
    refine exec_cons (m := s8) (.ret s7 2 (.set x) rfl) ?_
    exact Exec.snoc (tr := []) .nil (.ret s8 1 (.incBy x) rfl)
  · intro t
    by_cases h1 : t = 1
    · subst h1; rfl
    · by_cases h2 : t = 2
      · subst h2; rfl
      · simp [s8, s7, s6, s5, s4, s3, s2, s1, s0, FloatSys.goto, FloatSys.new, Function.update_of_ne h1,
          Function.update_of_ne h2]

example : ∃ order, Linearises [(2, FloatOp.set F64.one), (1, .incBy F64.one)] order ∧
    F64.ofNat 2 = order.foldl (fun v u => FloatOp.on v u.2) (F64.zero false) := by
  obtain ⟨s, h, hi, hv⟩ := exFloatRun
  have := C21_quiescent h hi
  rw [hv] at this
  exact this

end Measured
