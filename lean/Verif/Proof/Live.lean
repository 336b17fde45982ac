import Verif.Proof.HistConc
import Verif.Proof.SparseLive
import Verif.Spec.Live

/-! Progress on histograms and float gauges. -/

namespace Measured.Conc
open Measured.Spec

/-! ## Histograms -/

theorem hist_other {le : List F64} {s s' : HistSys} {e : HistEvent} (h : HistStep le s e s') {u : Tid}
    (hu : u ≠ e.tid) : s'.pc u = s.pc u := by
  cases h <;> exact Function.update_of_ne hu _ _

/-- Steps that an operation needs if nobody interferes; `w` for what an update may cost the others. -/
def histWork (n w : Nat) (sum : F64) : HistPc → Nat
  | .idle | .panicked => 0
  | .wantRead _ _ => 5 + w
  | .bump _ _ => 4 + w
  | .adding _ => 3 + w
  | .loaded _ cur => (if cur = sum then 2 else 4) + w
  | .added _ => 1
  | .wantWrite => n + 4
  | .sampling out => n - out.length + 3
  | .sampledInf _ _ => 2
  | .sampled _ _ _ => 1

def histTotal (n : Nat) (T : List Tid) (s : HistSys) : Nat :=
  (T.map fun t => histWork n (2 * T.length) s.inner.sum (s.pc t)).sum

theorem histWork_sum (n w : Nat) (a b : F64) (p : HistPc) : histWork n w a p ≤ histWork n w b p + 2 := by
  cases p with
  | loaded x cur => simp only [histWork]; split <;> split <;> omega
  | _ => simp only [histWork]; omega

theorem hist_move {n : Nat} {T : List Tid} (hn : T.Nodup) {s : HistSys} {t : Tid} (ht : t ∈ T) {p p' : HistPc}
    {h' : HistInner} (hh : h'.sum = s.inner.sum) (hp : s.pc t = p)
    (hw : histWork n (2 * T.length) s.inner.sum p' + 1 ≤ histWork n (2 * T.length) s.inner.sum p) :
    histTotal n T ⟨h', Function.update s.pc t p'⟩ + 1 ≤ histTotal n T s := by
  refine sum_decrease hn ht 0 ?_ ?_
  · intro u hu
    show histWork _ _ h'.sum (Function.update s.pc t p' u) ≤ _
    rw [Function.update_of_ne hu, hh]; omega
  · show histWork _ _ h'.sum (Function.update s.pc t p' t) + 1 + _ ≤ _
    rw [Function.update_self, hp, hh]; omega

theorem hist_decreases {le : List F64} {T : List Tid} (hn : T.Nodup) {tr : List HistEvent} {s s' : HistSys}
    {e : HistEvent} (hi : HistInv le tr s) (hT : ∀ t, t ∉ T → s.pc t = .idle) (hs : HistStep le s e s')
    (hg : HistGoes s s') :
    histTotal le.length T s' + 1 ≤ histTotal le.length T s ∧ ∀ t, t ∉ T → s'.pc t = .idle := by
  refine ⟨?_, fun t ht => hg.noStart t (hT t ht)⟩
  have hlen := hi.counted.length
  have hmem : ∀ t, s.pc t ≠ .idle → t ∈ T := fun t h => by
    by_contra hc; exact h (hT t hc)
  have hgo : ∀ (t : Tid) (p : HistPc), (s.goto t p).pc t = p := fun t p => Function.update_self _ _ _
  cases hs with
  | start t x b hp hb => have := hg.noStart t hp; rw [hgo] at this; cases this
  | startPanic t x hp hb => have := hg.noStart t hp; rw [hgo] at this; cases this
  | startSample t hp => have := hg.noStart t hp; rw [hgo] at this; cases this
  | lockRead t b x hp hl =>
    exact hist_move hn (hmem t (by rw [hp]; simp)) rfl hp (by simp only [histWork]; omega)
  | bump t b x hp hb =>
    exact hist_move hn (hmem t (by rw [hp]; simp)) (bumpBucket_sum _ _) hp (by simp only [histWork]; omega)
  | bumpPanic t b x hp hb =>
    exact hist_move hn (hmem t (by rw [hp]; simp)) rfl hp (by simp only [histWork]; omega)
  | load t x cur hp =>
    have hf := hg.fresh t x cur hp (hgo _ _)
    exact hist_move hn (hmem t (by rw [hp]; simp)) rfl hp (by simp only [histWork, if_pos hf]; omega)
  | casOk t x cur hp hc =>
    refine sum_decrease hn (hmem t (by rw [hp]; simp)) 2 ?_ ?_
    · intro u hu
      show histWork _ _ (F64.add cur x) (Function.update s.pc t _ u) ≤ _
      rw [Function.update_of_ne hu]
      exact histWork_sum _ _ _ _ _
    · show histWork _ _ _ (Function.update s.pc t _ t) + 1 + _ ≤ histWork _ _ _ (s.pc t)
      rw [Function.update_self, hp]
      simp only [histWork, if_pos hc.symm]
      omega
  | casFail t x cur hp =>
    have hf := hg.strong t x cur hp (hgo _ _)
    exact hist_move hn (hmem t (by rw [hp]; simp)) rfl hp (by simp only [histWork, if_neg (Ne.symm hf)]; omega)
  | unlockRead t x hp =>
    exact hist_move hn (hmem t (by rw [hp]; simp)) rfl hp (by simp only [histWork]; omega)
  | lockWrite t hp hl =>
    exact hist_move hn (hmem t (by rw [hp]; simp)) rfl hp (by simp only [histWork, List.length_nil]; omega)
  | readBucket t out c hp hc =>
    have : out.length < s.inner.buckets.length := by
      by_contra h
      rw [List.getElem?_eq_none (by omega)] at hc
      cases hc
    exact hist_move hn (hmem t (by rw [hp]; simp)) rfl hp (by
      simp only [histWork, List.length_append, List.length_singleton]; omega)
  | readInf t out hp hc =>
    exact hist_move hn (hmem t (by rw [hp]; simp)) rfl hp (by simp only [histWork]; omega)
  | readSum t out inf hp =>
    exact hist_move hn (hmem t (by rw [hp]; simp)) rfl hp (by simp only [histWork]; omega)
  | unlockWrite t out inf sum hp =>
    exact hist_move hn (hmem t (by rw [hp]; simp)) rfl hp (by simp only [histWork]; omega)

theorem hist_support {le : List F64} {tr : List HistEvent} {s : HistSys}
    (h : Exec (HistStep le) (HistSys.new le.length) tr s) : ∃ T : List Tid, T.Nodup ∧ ∀ t, t ∉ T → s.pc t = .idle := by
  induction h with
  | nil => exact ⟨[], List.nodup_nil, fun _ _ => rfl⟩
  | @snoc tr s e s' _ hs ih =>
    obtain ⟨T, hn, hT⟩ := ih
    by_cases he : e.tid ∈ T
    · refine ⟨T, hn, fun t ht => ?_⟩
      rw [hist_other hs (u := t) (fun h => ht (h ▸ he))]
      exact hT t ht
    · refine ⟨e.tid :: T, List.nodup_cons.2 ⟨he, hn⟩, fun t ht => ?_⟩
      rw [List.mem_cons, not_or] at ht
      rw [hist_other hs ht.1]
      exact hT t ht.2

theorem exec_weaken {S E : Type} {P Q : S → E → S → Prop} (hPQ : ∀ s e s', P s e s' → Q s e s') {s s' : S} {tr : List E}
    (h : Exec P s tr s') : Exec Q s tr s' := by
  induction h with
  | nil => exact .nil
  | snoc _ hs ih => exact ih.snoc (hPQ _ _ _ hs)

theorem exec_trans {S E : Type} {P : S → E → S → Prop} {s s' s'' : S} {tr tr' : List E}
    (h : Exec P s tr s') (h' : Exec P s' tr' s'') : Exec P s (tr ++ tr') s'' := by
  induction h' with
  | nil => simpa using h
  | @snoc tr' _ _ _ _ hs ih => rw [← List.append_assoc]; exact ih.snoc hs

theorem hist_bounded {le : List F64} {T : List Tid} (hn : T.Nodup) {tr tr' : List HistEvent} {s s' : HistSys}
    (h : Exec (HistStep le) (HistSys.new le.length) tr s) (hT : ∀ t, t ∉ T → s.pc t = .idle)
    (h' : Exec (fun s e s' => HistStep le s e s' ∧ HistGoes s s') s tr' s') :
    tr'.length + histTotal le.length T s' ≤ histTotal le.length T s ∧ ∀ t, t ∉ T → s'.pc t = .idle := by
  induction h' with
  | nil => exact ⟨by simp, hT⟩
  | @snoc tr' s1 e s2 hex hs ih =>
    have hinv := (hist_inv (exec_trans h (exec_weaken (fun _ _ _ h => h.1) hex))).1
    obtain ⟨h1, h2⟩ := hist_decreases hn hinv ih.2 hs.1 hs.2
    refine ⟨?_, h2⟩
    have := ih.1
    simp only [List.length_append, List.length_singleton]
    omega

/-- A step of thread `t` alone goes on if it does so for `t`. -/
theorem goes_goto {s : HistSys} {t : Tid} {p : HistPc} {h' : HistInner} (hi : s.pc t ≠ .idle)
    (h1 : ∀ b x, s.pc t = .wantRead b x → p = .bump b x → ∀ u, s.pc u ≠ .wantWrite)
    (h2 : ∀ x cur, s.pc t = .adding x → p = .loaded x cur → cur = s.inner.sum)
    (h3 : ∀ x cur, s.pc t = .loaded x cur → p = .adding x → s.inner.sum ≠ cur) :
    HistGoes s ⟨h', Function.update s.pc t p⟩ := by
  have key : ∀ u, (u = t ∧ Function.update s.pc t p u = p) ∨ Function.update s.pc t p u = s.pc u := by
    intro u
    by_cases hu : u = t
    · subst hu; exact .inl ⟨rfl, Function.update_self _ _ _⟩
    · exact .inr (Function.update_of_ne hu _ _)
  refine ⟨?_, ?_, ?_, ?_⟩
  · intro u hu
    rcases key u with ⟨rfl, _⟩ | he
    · exact absurd hu hi
    · exact he.trans hu
  · intro u b x ha hb
    change Function.update s.pc t p u = _ at hb
    rcases key u with ⟨rfl, he⟩ | he
    · exact h1 b x ha (he.symm.trans hb)
    · rw [he, ha] at hb; cases hb
  · intro u x cur ha hb
    change Function.update s.pc t p u = _ at hb
    rcases key u with ⟨rfl, he⟩ | he
    · exact h2 x cur ha (he.symm.trans hb)
    · rw [he, ha] at hb; cases hb
  · intro u x cur ha hb
    change Function.update s.pc t p u = _ at hb
    rcases key u with ⟨rfl, he⟩ | he
    · exact h3 x cur ha (he.symm.trans hb)
    · rw [he, ha] at hb; cases hb

theorem hist_progress {le : List F64} {tr : List HistEvent} {s : HistSys} (hi : HistInv le tr s)
    (hact : ∃ t, s.pc t ≠ .idle) : ∃ e s', HistStep le s e s' ∧ HistGoes s s' := by
  have hlen := hi.counted.length
  by_cases hw : ∃ t, (s.pc t).holdsWrite = true
  · obtain ⟨t, hw⟩ := hw
    have hok := hi.ok t
    cases hp : s.pc t with
    | sampling out =>
      rw [hp] at hok
      have hok : out = s.inner.buckets.take out.length := hok
      by_cases hl : out.length < s.inner.buckets.length
      · exact ⟨_, _, .readBucket s t out _ hp (List.getElem?_eq_getElem hl),
          goes_goto (by rw [hp]; simp) (by rw [hp]; simp) (by rw [hp]; simp) (by rw [hp]; simp)⟩
      · have : out.length ≤ s.inner.buckets.length := by
          have := congrArg List.length hok
          rw [List.length_take] at this; omega
        exact ⟨_, _, .readInf s t out hp (by omega),
          goes_goto (by rw [hp]; simp) (by rw [hp]; simp) (by rw [hp]; simp) (by rw [hp]; simp)⟩
    | sampledInf out inf =>
      exact ⟨_, _, .readSum s t out inf hp,
        goes_goto (by rw [hp]; simp) (by rw [hp]; simp) (by rw [hp]; simp) (by rw [hp]; simp)⟩
    | sampled out inf sum =>
      exact ⟨_, _, .unlockWrite s t out inf sum hp,
        goes_goto (by rw [hp]; simp) (by rw [hp]; simp) (by rw [hp]; simp) (by rw [hp]; simp)⟩
    | _ => rw [hp] at hw; cases hw
  · have hw' : ∀ u, (s.pc u).holdsWrite = false := fun u => by
      by_contra hc; exact hw ⟨u, by simpa using hc⟩
    by_cases hr : ∃ t, (s.pc t).holdsRead = true
    · obtain ⟨t, hr⟩ := hr
      have hok := hi.ok t
      cases hp : s.pc t with
      | bump b x =>
        rw [hp] at hok
        have hok : b = bktOf le x := hok
        exact ⟨_, _, .bump s t b x hp (by rw [hlen, hok]; exact (bktOf_spec le x).2),
          goes_goto (by rw [hp]; simp) (by rw [hp]; simp) (by rw [hp]; simp) (by rw [hp]; simp)⟩
      | adding x =>
        exact ⟨_, _, .load s t x s.inner.sum hp,
          goes_goto (by rw [hp]; simp) (by rw [hp]; simp) (by simp) (by rw [hp]; simp)⟩
      | loaded x cur =>
        by_cases hc : s.inner.sum = cur
        · exact ⟨_, _, .casOk s t x cur hp hc,
            goes_goto (by rw [hp]; simp) (by rw [hp]; simp) (by rw [hp]; simp) (by simp)⟩
        · exact ⟨_, _, .casFail s t x cur hp,
            goes_goto (by rw [hp]; simp) (by rw [hp]; simp) (by rw [hp]; simp) (by
              rw [hp]; intro x' c' he _; cases he; exact hc)⟩
      | added x =>
        exact ⟨_, _, .unlockRead s t x hp,
          goes_goto (by rw [hp]; simp) (by rw [hp]; simp) (by rw [hp]; simp) (by rw [hp]; simp)⟩
      | _ => rw [hp] at hr; cases hr
    · have hr' : ∀ u, (s.pc u).holdsRead = false := fun u => by
        by_contra hc; exact hr ⟨u, by simpa using hc⟩
      by_cases hww : ∃ t, s.pc t = .wantWrite
      · obtain ⟨t, hp⟩ := hww
        exact ⟨_, _, .lockWrite s t hp fun u => ⟨hw' u, hr' u⟩,
          goes_goto (by rw [hp]; simp) (by rw [hp]; simp) (by rw [hp]; simp) (by rw [hp]; simp)⟩
      · obtain ⟨t, ht⟩ := hact
        have hok := hi.ok t
        have h1 := hw' t
        have h2 := hr' t
        cases hp : s.pc t with
        | wantRead b x =>
          exact ⟨_, _, .lockRead s t b x hp hw', goes_goto (by rw [hp]; simp)
            (fun _ _ _ _ u hu => hww ⟨u, hu⟩) (by rw [hp]; simp) (by rw [hp]; simp)⟩
        | idle => exact absurd hp ht
        | wantWrite => exact absurd ⟨t, hp⟩ hww
        | panicked => rw [hp] at hok; exact hok.elim
        | _ => rw [hp] at h1 h2; simp [HistPc.holdsRead, HistPc.holdsWrite] at h1 h2

/-! ## Float gauges -/

def FloatEvent.tid : FloatEvent → Tid
  | .start t _ | .effect t _ | .ret t _ | .read t _ | .silent t | .sync t _ => t

theorem float_other {s s' : FloatSys} {e : FloatEvent} (h : FloatStep s e s') {u : Tid} (hu : u ≠ e.tid) :
    s'.pc u = s.pc u := by
  cases h <;> first | rfl | exact Function.update_of_ne hu _ _

/-- The current value. -/
def FloatSys.now (s : FloatSys) : F64 := s.mem.valAt s.mem.mods.length

def floatWork (w : Nat) (now : F64) : FloatPc → Nat
  | .idle => 0
  | .loop _ => 3 + w
  | .loaded _ cur => (if cur = now then 2 else 4) + w
  | .storing _ => 2 + w
  | .ret _ => 1

def floatTotal (T : List Tid) (s : FloatSys) : Nat :=
  (T.map fun t => floatWork (2 * T.length) s.now (s.pc t)).sum

theorem floatWork_now (w : Nat) (a b : F64) (p : FloatPc) : floatWork w a p ≤ floatWork w b p + 2 := by
  cases p with
  | loaded x cur => simp only [floatWork]; split <;> split <;> omega
  | _ => simp only [floatWork]; omega

theorem float_move {T : List Tid} (hn : T.Nodup) {s : FloatSys} {t : Tid} (ht : t ∈ T) {p p' : FloatPc}
    {m : Mem FloatOp F64} (hm : m.valAt m.mods.length = s.now) (hp : s.pc t = p)
    (hw : floatWork (2 * T.length) s.now p' + 1 ≤ floatWork (2 * T.length) s.now p) :
    floatTotal T (s.goto t p' m) + 1 ≤ floatTotal T s := by
  refine sum_decrease hn ht 0 ?_ ?_
  · intro u hu
    show floatWork _ (m.valAt m.mods.length) (Function.update s.pc t p' u) ≤ _
    rw [Function.update_of_ne hu, hm]; omega
  · show floatWork _ (m.valAt m.mods.length) (Function.update s.pc t p' t) + 1 + _ ≤ _
    rw [Function.update_self, hp, hm]; omega

/-- An update of thread `t` costs each other thread at most two more steps. -/
theorem float_effect {T : List Tid} (hn : T.Nodup) {s : FloatSys} {t : Tid} (ht : t ∈ T) {p : FloatPc} {op : FloatOp}
    {m : Mem FloatOp F64} (hp : s.pc t = p) (hw : 2 + 2 * T.length ≤ floatWork (2 * T.length) s.now p) :
    floatTotal T (s.goto t (.ret op) m) + 1 ≤ floatTotal T s := by
  refine sum_decrease hn ht 2 ?_ ?_
  · intro u hu
    show floatWork _ (m.valAt m.mods.length) (Function.update s.pc t _ u) ≤ _
    rw [Function.update_of_ne hu]
    exact floatWork_now _ _ _ _
  · show floatWork _ (m.valAt m.mods.length) (Function.update s.pc t _ t) + 1 + _ ≤ _
    rw [Function.update_self, hp]
    have : floatWork (2 * T.length) (m.valAt m.mods.length) (.ret op) = 1 := rfl
    omega

theorem float_decreases {T : List Tid} (hn : T.Nodup) {s s' : FloatSys} {e : FloatEvent}
    (hT : ∀ t, t ∉ T → s.pc t = .idle) (hs : FloatStep s e s') (hg : FloatGoes s s') :
    floatTotal T s' + 1 ≤ floatTotal T s ∧ ∀ t, t ∉ T → s'.pc t = .idle := by
  refine ⟨?_, fun t ht => hg.noStart t (hT t ht)⟩
  have hmem : ∀ t, s.pc t ≠ .idle → t ∈ T := fun t h => by
    by_contra hc; exact h (hT t hc)
  have hgo : ∀ (t : Tid) (p : FloatPc) m, (s.goto t p m).pc t = p := fun t p m => Function.update_self _ _ _
  cases hs with
  | startInc t x hp => have := hg.noStart t hp; rw [hgo] at this; cases this
  | startSet t x hp => have := hg.noStart t hp; rw [hgo] at this; cases this
  | load t x i hp hl =>
    have hf : s.mem.valAt i = s.now := hg.fresh t x _ hp (hgo _ _ _)
    exact float_move hn (hmem t (by rw [hp]; simp)) rfl hp (by
      simp only [floatWork, if_pos hf]; omega)
  | casOk t x cur i hp hm hc =>
    exact float_effect hn (hmem t (by rw [hp]; simp)) hp (by simp only [floatWork]; split <;> omega)
  | casFail t x cur i hp hl =>
    have hf : s.now ≠ cur := hg.strong t x cur hp (hgo _ _ _)
    exact float_move hn (hmem t (by rw [hp]; simp)) rfl hp (by
      simp only [floatWork, if_neg (Ne.symm hf)]; omega)
  | store t x i hp hm =>
    exact float_effect hn (hmem t (by rw [hp]; simp)) hp (by simp only [floatWork]; omega)
  | ret t op hp =>
    exact float_move hn (hmem t (by rw [hp]; simp)) rfl hp (by simp only [floatWork]; omega)
  | read t i hp hl => exact absurd rfl hg.moves
  | sync t u => exact absurd rfl hg.moves

theorem float_support {v0 : F64} {tr : List FloatEvent} {s : FloatSys}
    (h : Exec FloatStep (FloatSys.new v0) tr s) : ∃ T : List Tid, T.Nodup ∧ ∀ t, t ∉ T → s.pc t = .idle := by
  induction h with
  | nil => exact ⟨[], List.nodup_nil, fun _ _ => rfl⟩
  | @snoc tr s e s' _ hs ih =>
    obtain ⟨T, hn, hT⟩ := ih
    by_cases he : e.tid ∈ T
    · refine ⟨T, hn, fun t ht => ?_⟩
      rw [float_other hs (u := t) (fun h => ht (h ▸ he))]
      exact hT t ht
    · refine ⟨e.tid :: T, List.nodup_cons.2 ⟨he, hn⟩, fun t ht => ?_⟩
      rw [List.mem_cons, not_or] at ht
      rw [float_other hs ht.1]
      exact hT t ht.2

theorem float_bounded {T : List Tid} (hn : T.Nodup) {tr' : List FloatEvent} {s s' : FloatSys}
    (hT : ∀ t, t ∉ T → s.pc t = .idle)
    (h' : Exec (fun s e s' => FloatStep s e s' ∧ FloatGoes s s') s tr' s') :
    tr'.length + floatTotal T s' ≤ floatTotal T s ∧ ∀ t, t ∉ T → s'.pc t = .idle := by
  induction h' with
  | nil => exact ⟨by simp, hT⟩
  | @snoc tr' s1 e s2 hex hs ih =>
    obtain ⟨h1, h2⟩ := float_decreases hn ih.2 hs.1 hs.2
    refine ⟨?_, h2⟩
    have := ih.1
    simp only [List.length_append, List.length_singleton]
    omega

theorem float_goes {s : FloatSys} {t : Tid} {p : FloatPc} {m : Mem FloatOp F64} (hi : s.pc t ≠ .idle)
    (hne : p ≠ s.pc t) (h2 : ∀ x cur, s.pc t = .loop x → p = .loaded x cur → cur = s.now)
    (h3 : ∀ x cur, s.pc t = .loaded x cur → p = .loop x → s.now ≠ cur) : FloatGoes s (s.goto t p m) := by
  have key : ∀ u, (u = t ∧ (s.goto t p m).pc u = p) ∨ (s.goto t p m).pc u = s.pc u := by
    intro u
    by_cases hu : u = t
    · subst hu; exact .inl ⟨rfl, Function.update_self _ _ _⟩
    · exact .inr (Function.update_of_ne hu _ _)
  refine ⟨?_, ?_, ?_, ?_⟩
  · intro h
    have h1 : (s.goto t p m).pc t = p := Function.update_self _ _ _
    exact hne (h1.symm.trans (congrFun h t))
  · intro u hu
    rcases key u with ⟨rfl, _⟩ | he
    · exact absurd hu hi
    · exact he.trans hu
  · intro u x cur ha hb
    rcases key u with ⟨rfl, he⟩ | he
    · exact h2 x cur ha (he.symm.trans hb)
    · rw [he, ha] at hb; cases hb
  · intro u x cur ha hb
    rcases key u with ⟨rfl, he⟩ | he
    · exact h3 x cur ha (he.symm.trans hb)
    · rw [he, ha] at hb; cases hb

theorem float_progress {v0 : F64} {tr : List FloatEvent} {s : FloatSys} (hi : FloatInv v0 tr s)
    (hact : ∃ t, s.pc t ≠ .idle) : ∃ e s', FloatStep s e s' ∧ FloatGoes s s' := by
  obtain ⟨t, ht⟩ := hact
  have hl : s.mem.CanLoad t s.mem.mods.length := ⟨hi.good.view t, Nat.le_refl _⟩
  have hm : s.mem.CanModify FloatOp.eff t s.mem.mods.length := ⟨hi.good.view t, Nat.le_refl _, by simp⟩
  cases hp : s.pc t with
  | idle => exact absurd hp ht
  | loop x =>
    exact ⟨_, _, .load s t x _ hp hl, float_goes ht (by rw [hp]; simp)
      (by intro _ _ _ he; cases he; rfl) (by rw [hp]; simp)⟩
  | loaded x cur =>
    by_cases hc : s.now = cur
    · exact ⟨_, _, .casOk s t x cur _ hp hm hc, float_goes ht (by rw [hp]; simp) (by simp) (by simp)⟩
    · exact ⟨_, _, .casFail s t x cur _ hp hl, float_goes ht (by rw [hp]; simp) (by simp)
        (by rw [hp]; intro _ _ he _; cases he; exact hc)⟩
  | storing x => exact ⟨_, _, .store s t x _ hp hm, float_goes ht (by rw [hp]; simp) (by simp) (by simp)⟩
  | ret op => exact ⟨_, _, .ret s t op hp, float_goes ht (by rw [hp]; simp) (by simp) (by simp)⟩

end Measured.Conc
