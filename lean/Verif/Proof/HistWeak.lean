import Verif.Model.HistWeak
import Mathlib.Data.List.Basic

/-! The histogram with relaxed memory does what the one with a single value for each cell does. -/

namespace Measured.Conc

/-- The number of values in the modification order of a cell. -/
def HWSys.len (w : HWSys) : HCell → Nat
  | .count i => (w.counts i).length
  | .sum => w.sum.length

/-- The last value of every cell. -/
def HWSys.last (n : Nat) (w : HWSys) : HistSys :=
  ⟨⟨(List.range n).map fun i => (w.counts i).getLastD 0, (w.counts n).getLastD 0, w.sum.getLastD F64.pzero⟩, w.pc⟩

structure HWInv (w : HWSys) : Prop where
  excl : ∀ t, (w.pc t).holdsWrite = true → ∀ u, (w.pc u).holdsRead = false ∧ ((w.pc u).holdsWrite = true → u = t)
  known : ∀ c, w.len c ≤ w.byWriters c + 1 ∨ w.len c ≤ w.byReaders c + 1 ∨
    ∃ u, (w.pc u).holdsRead = true ∧ w.len c ≤ w.view u c + 1
  writer : ∀ t, (w.pc t).holdsWrite = true → ∀ c, w.len c ≤ w.view t c + 1

theorem HWInv.new : HWInv HWSys.new where
  excl t h := by simp [HWSys.new, HistPc.holdsWrite] at h
  known c := .inl (by cases c <;> simp [HWSys.new, HWSys.len])
  writer t h := by simp [HWSys.new, HistPc.holdsWrite] at h

/-- What changes for the invariant when thread `t` goes from `w` to `w'`. -/
theorem HWInv.move {w w' : HWSys} (I : HWInv w) (t : Tid) {p : HistPc} (hpc : w'.pc = Function.update w.pc t p)
    (hview : ∀ u, u ≠ t → w'.view u = w.view u) (hlen : ∀ c, w'.len c = w.len c) (hmono : ∀ c, w.view t c ≤ w'.view t c)
    (hr : (w.pc t).holdsRead = true → p.holdsRead = true ∨ ∀ c, w.view t c ≤ w'.byReaders c)
    (hw : p.holdsWrite = true → (w.pc t).holdsWrite = true ∨
      (∀ u, (w.pc u).holdsWrite = false ∧ (w.pc u).holdsRead = false) ∧
        ∀ c, w.byWriters c ≤ w'.view t c ∧ w.byReaders c ≤ w'.view t c)
    (hwr : p.holdsRead = true → (∀ u, (w.pc u).holdsWrite = false) ∨ (w.pc t).holdsRead = true)
    (hp : p.holdsWrite = true → p.holdsRead = false)
    (hbr : ∀ c, w.byReaders c ≤ w'.byReaders c) (hbw : ∀ c, w.byWriters c ≤ w'.byWriters c) : HWInv w' where
  excl a ha u := by
    rw [hpc] at ha ⊢
    by_cases hat : a = t
    · subst hat
      rw [Function.update_self] at ha
      by_cases hua : u = a
      · subst hua
        rw [Function.update_self]
        exact ⟨hp ha, fun _ => rfl⟩
      · rw [Function.update_of_ne hua]
        rcases hw ha with h | ⟨h, _⟩
        · exact I.excl a h u
        · exact ⟨(h u).2, fun h' => by rw [(h u).1] at h'; simp at h'⟩
    · rw [Function.update_of_ne hat] at ha
      by_cases hut : u = t
      · subst hut
        rw [Function.update_self]
        obtain ⟨e1, e2⟩ := I.excl a ha u
        constructor
        · by_contra hc
          rw [Bool.not_eq_false] at hc
          rcases hwr hc with h | h
          · rw [h a] at ha; simp at ha
          · rw [e1] at h; simp at h
        · intro h
          rcases hw h with h | ⟨h, _⟩
          · exact e2 h
          · rw [(h a).1] at ha; simp at ha
      · rw [Function.update_of_ne hut]
        exact I.excl a ha u
  known c := by
    rw [hlen]
    rcases I.known c with h | h | ⟨u, hu, h⟩
    · exact .inl (Nat.le_trans h (Nat.succ_le_succ (hbw c)))
    · exact .inr (.inl (Nat.le_trans h (Nat.succ_le_succ (hbr c))))
    · by_cases hut : u = t
      · subst hut
        rcases hr hu with h' | h'
        · refine .inr (.inr ⟨u, ?_, Nat.le_trans h (Nat.succ_le_succ (hmono c))⟩)
          rw [hpc, Function.update_self]; exact h'
        · exact .inr (.inl (Nat.le_trans h (Nat.succ_le_succ (h' c))))
      · refine .inr (.inr ⟨u, ?_, by rw [hview u hut]; exact h⟩)
        rw [hpc, Function.update_of_ne hut]; exact hu
  writer a ha c := by
    rw [hlen]
    rw [hpc] at ha
    by_cases hat : a = t
    · subst hat
      rw [Function.update_self] at ha
      rcases hw ha with h | ⟨h, h'⟩
      · exact Nat.le_trans (I.writer a h c) (Nat.succ_le_succ (hmono c))
      · rcases I.known c with k | k | ⟨u, hu, _⟩
        · exact Nat.le_trans k (Nat.succ_le_succ (h' c).1)
        · exact Nat.le_trans k (Nat.succ_le_succ (h' c).2)
        · rw [(h u).2] at hu; simp at hu
    · rw [Function.update_of_ne hat] at ha
      rw [hview a hat]
      exact I.writer a ha c

/-- A modification under the read lock. -/
theorem HWInv.modify {w w' : HWSys} (I : HWInv w) (t : Tid) (c₀ : HCell) {p : HistPc}
    (hpc : w'.pc = Function.update w.pc t p) (hread : (w.pc t).holdsRead = true) (hp : p.holdsRead = true)
    (hpw : p.holdsWrite = false)
    (hview : ∀ u c, w'.view u c = if u = t ∧ c = c₀ then w.len c₀ else w.view u c)
    (hlen : ∀ c, w'.len c = if c = c₀ then w.len c₀ + 1 else w.len c)
    (hbr : w'.byReaders = w.byReaders) (hbw : w'.byWriters = w.byWriters) : HWInv w' := by
  have nowriter : ∀ a, (w'.pc a).holdsWrite = false := by
    intro a
    rw [hpc]
    by_cases hat : a = t
    · subst hat; rw [Function.update_self]; exact hpw
    · rw [Function.update_of_ne hat]
      by_contra h
      rw [Bool.not_eq_false] at h
      rw [(I.excl a h t).1] at hread
      simp at hread
  refine ⟨fun a ha => ?_, fun c => ?_, fun a ha => ?_⟩
  · rw [nowriter a] at ha; simp at ha
  · rw [hlen, hbr, hbw]
    split
    · rename_i hc
      subst hc
      refine .inr (.inr ⟨t, by rw [hpc, Function.update_self]; exact hp, ?_⟩)
      rw [hview, if_pos ⟨rfl, rfl⟩]
      exact Nat.le_refl _
    · rename_i hc
      rcases I.known c with h | h | ⟨u, hu, h⟩
      · exact .inl h
      · exact .inr (.inl h)
      · refine .inr (.inr ⟨u, ?_, by rw [hview, if_neg (fun h => hc h.2)]; exact h⟩)
        rw [hpc]
        by_cases hut : u = t
        · subst hut; rw [Function.update_self]; exact hp
        · rw [Function.update_of_ne hut]; exact hu
  · rw [nowriter a] at ha; simp at ha

theorem join_left (a b : HView) (c : HCell) : a c ≤ a.join b c := Nat.le_max_left _ _
theorem join_right (a b : HView) (c : HCell) : b c ≤ a.join b c := Nat.le_max_right _ _

theorem HWSys.saw_view (w : HWSys) (t : Tid) (c₀ : HCell) (j : Nat) (u : Tid) (c : HCell) :
    (w.saw t c₀ j).view u c = if u = t ∧ c = c₀ then j else w.view u c := by
  simp only [HWSys.saw]
  by_cases hu : u = t
  · subst hu
    rw [Function.update_self]
    by_cases hc : c = c₀
    · subst hc; simp
    · rw [Function.update_of_ne hc]; simp [hc]
  · rw [Function.update_of_ne hu]; simp [hu]

theorem HWInv.step {le : List F64} {w w' : HWSys} {e : HistEvent} (I : HWInv w) (h : HWStep le w e w') : HWInv w' := by
  have hlen : ∀ (w : HWSys) t c j d, (w.saw t c j).len d = w.len d := by intro w t c j d; cases d <;> rfl
  have sawMono : ∀ {t c j}, w.view t c ≤ j → ∀ d, w.view t d ≤ (w.saw t c j).view t d := by
    intro t c j hj d
    rw [HWSys.saw_view]
    split
    · rename_i hd; rw [hd.2]; exact hj
    · exact Nat.le_refl _
  have sawOther : ∀ {t c j} (u : Tid), u ≠ t → (w.saw t c j).view u = w.view u := by
    intro t c j u hu
    exact Function.update_of_ne hu _ _
  cases h with
  | start t x b h hb =>
    refine I.move t (p := .wantRead b x) rfl (fun _ _ => rfl) (fun c => by cases c <;> rfl) (fun _ => Nat.le_refl _) ?_ ?_ ?_ ?_
      (fun _ => Nat.le_refl _) (fun _ => Nat.le_refl _) <;> simp [h, HistPc.holdsRead, HistPc.holdsWrite]
  | startPanic t x h hb =>
    refine I.move t (p := .panicked) rfl (fun _ _ => rfl) (fun c => by cases c <;> rfl) (fun _ => Nat.le_refl _) ?_ ?_ ?_ ?_
      (fun _ => Nat.le_refl _) (fun _ => Nat.le_refl _) <;> simp [h, HistPc.holdsRead, HistPc.holdsWrite]
  | lockRead t b x h hl =>
    refine I.move t (p := .bump b x) rfl (fun u hu => Function.update_of_ne hu _ _) (fun c => by cases c <;> rfl) ?_ ?_ ?_ ?_ ?_
      (fun _ => Nat.le_refl _) (fun _ => Nat.le_refl _)
    · intro c
      show _ ≤ Function.update w.view t _ t c
      rw [Function.update_self]; exact join_left _ _ c
    · simp [h, HistPc.holdsRead]
    · simp [HistPc.holdsWrite]
    · exact fun _ => .inl hl
    · simp [HistPc.holdsWrite]
  | bump t b x h hb =>
    refine I.modify t (.count b) (p := .adding x) rfl (by rw [h]; rfl) rfl rfl (fun u c => ?_) (fun c => ?_) rfl rfl
    · exact HWSys.saw_view _ t (.count b) (w.counts b).length u c
    · cases c with
      | sum => rfl
      | count i =>
        show (Function.update w.counts b _ i).length = _
        by_cases hi : i = b
        · subst hi; simp [HWSys.len]
        · rw [Function.update_of_ne hi, if_neg (by simpa using hi)]; rfl
  | bumpPanic t b x h hb =>
    refine I.move t (p := .panicked) rfl (fun _ _ => rfl) (fun c => by cases c <;> rfl) (fun _ => Nat.le_refl _) ?_ ?_ ?_ ?_
      (join_left _ _) (fun _ => Nat.le_refl _)
    · exact fun _ => .inr (join_right _ _)
    all_goals simp [HistPc.holdsRead, HistPc.holdsWrite]
  | load t x cur j h hj hc =>
    refine I.move t (p := .loaded x cur) rfl sawOther (hlen w t .sum j) (sawMono hj) ?_ ?_ ?_ ?_
      (fun _ => Nat.le_refl _) (fun _ => Nat.le_refl _) <;> simp [h, HistPc.holdsRead, HistPc.holdsWrite]
  | casOk t x cur h hc =>
    refine I.modify t .sum (p := .added x) rfl (by rw [h]; rfl) rfl rfl (fun u c => ?_) (fun c => ?_) rfl rfl
    · exact HWSys.saw_view _ t .sum w.sum.length u c
    · cases c with
      | sum => simp [HWSys.len, HWSys.saw, HWSys.goto]
      | count i => rfl
  | casFail t x cur h =>
    refine I.move t (p := .adding x) rfl (fun _ _ => rfl) (fun c => by cases c <;> rfl) (fun _ => Nat.le_refl _) ?_ ?_ ?_ ?_
      (fun _ => Nat.le_refl _) (fun _ => Nat.le_refl _) <;> simp [h, HistPc.holdsRead, HistPc.holdsWrite]
  | unlockRead t x h =>
    refine I.move t (p := .idle) rfl (fun _ _ => rfl) (fun c => by cases c <;> rfl) (fun _ => Nat.le_refl _) ?_ ?_ ?_ ?_
      (join_left _ _) (fun _ => Nat.le_refl _)
    · exact fun _ => .inr (join_right _ _)
    all_goals simp [HistPc.holdsRead, HistPc.holdsWrite]
  | startSample t h =>
    refine I.move t (p := .wantWrite) rfl (fun _ _ => rfl) (fun c => by cases c <;> rfl) (fun _ => Nat.le_refl _) ?_ ?_ ?_ ?_
      (fun _ => Nat.le_refl _) (fun _ => Nat.le_refl _) <;> simp [h, HistPc.holdsRead, HistPc.holdsWrite]
  | lockWrite t h hl =>
    refine I.move t (p := .sampling []) rfl (fun u hu => Function.update_of_ne hu _ _) (fun c => by cases c <;> rfl) ?_ ?_ ?_ ?_ ?_
      (fun _ => Nat.le_refl _) (fun _ => Nat.le_refl _)
    · intro c
      show _ ≤ Function.update w.view t _ t c
      rw [Function.update_self]; exact join_left _ _ c
    · simp [h, HistPc.holdsRead]
    · refine fun _ => .inr ⟨hl, fun c => ?_⟩
      show _ ≤ Function.update w.view t _ t c ∧ _ ≤ Function.update w.view t _ t c
      rw [Function.update_self]
      exact ⟨Nat.le_trans (join_left _ _ c) (join_right _ _ c), Nat.le_trans (join_right _ _ c) (join_right _ _ c)⟩
    · simp [HistPc.holdsRead]
    · simp [HistPc.holdsRead]
  | readBucket t out c j h hn hj hc =>
    refine I.move t (p := .sampling (out ++ [c])) rfl sawOther (hlen w t (.count out.length) j) (sawMono hj) ?_ ?_ ?_ ?_
      (fun _ => Nat.le_refl _) (fun _ => Nat.le_refl _) <;> simp [h, HistPc.holdsRead, HistPc.holdsWrite]
  | readInf t out c j h hn hj hc =>
    refine I.move t (p := .sampledInf out c) rfl sawOther (hlen w t (.count le.length) j) (sawMono hj) ?_ ?_ ?_ ?_
      (fun _ => Nat.le_refl _) (fun _ => Nat.le_refl _) <;> simp [h, HistPc.holdsRead, HistPc.holdsWrite]
  | readSum t out inf x j h hj hc =>
    refine I.move t (p := .sampled out inf x) rfl sawOther (hlen w t .sum j) (sawMono hj) ?_ ?_ ?_ ?_
      (fun _ => Nat.le_refl _) (fun _ => Nat.le_refl _) <;> simp [h, HistPc.holdsRead, HistPc.holdsWrite]
  | unlockWrite t out inf sum h =>
    refine I.move t (p := .idle) rfl (fun _ _ => rfl) (fun c => by cases c <;> rfl) (fun _ => Nat.le_refl _) ?_ ?_ ?_ ?_
      (fun _ => Nat.le_refl _) (join_left _ _) <;> simp [h, HistPc.holdsRead, HistPc.holdsWrite]

theorem hwInv {le : List F64} {tr : List HistEvent} {w : HWSys} (h : Exec (HWStep le) HWSys.new tr w) : HWInv w := by
  induction h with
  | nil => exact HWInv.new
  | snoc _ hs ih => exact ih.step hs

/-- Who knows all modifications reads the last value. -/
theorem last_of_known {α : Type} {l : List α} {d a : α} {v j : Nat} (hk : l.length ≤ v + 1) (hj : v ≤ j) (ha : l[j]? = some a) :
    l.getLastD d = a := by
  have hlt : j < l.length := by
    by_contra hc
    rw [List.getElem?_eq_none (by omega)] at ha
    simp at ha
  have : j = l.length - 1 := by omega
  rw [List.getLastD_eq_getLast?, List.getLast?_eq_getElem?, ← this, ha]
  rfl

theorem last_bump (n b : Nat) (hb : b ≤ n) (w : HWSys) (v : List Nat) (hv : v.getLastD 0 = incU64 ((w.counts b).getLastD 0)) :
    (HWSys.last n { w with counts := Function.update w.counts b v }).inner = bumpBucket (HWSys.last n w).inner b := by
  unfold bumpBucket HWSys.last
  simp only [List.length_map, List.length_range]
  split
  · rename_i hlt
    rw [HistInner.mk.injEq]
    refine ⟨?_, by rw [Function.update_of_ne (by omega)], rfl⟩
    apply List.ext_getElem?
    intro i
    rw [List.getElem?_modify, List.getElem?_map, List.getElem?_map]
    by_cases hi : i < n
    · rw [List.getElem?_range hi]
      by_cases hib : i = b
      · subst hib; rw [Option.map_some, Function.update_self, hv]; simp
      · rw [Option.map_some, Function.update_of_ne hib]; simp [Ne.symm hib]
    · rw [List.getElem?_eq_none (by simpa using hi)]; simp
  · rename_i hlt
    have : b = n := by omega
    subst this
    rw [HistInner.mk.injEq]
    refine ⟨List.map_congr_left fun i hi => ?_, by rw [Function.update_self, hv], rfl⟩
    rw [Function.update_of_ne (by have := List.mem_range.1 hi; omega)]

/-- One step of the refinement. -/
theorem hw_step {le : List F64} {w w' : HWSys} {e : HistEvent} (I : HWInv w) (h : HWStep le w e w') :
    HistStep le (w.last le.length) e (w'.last le.length) := by
  cases h with
  | start t x b h hb => exact HistStep.start (w.last le.length) t x b h hb
  | startPanic t x h hb => exact HistStep.startPanic (w.last le.length) t x h hb
  | lockRead t b x h hl => exact HistStep.lockRead (w.last le.length) t b x h hl
  | bump t b x h hb =>
    have := HistStep.bump (le := le) (w.last le.length) t b x h (by simpa [HWSys.last] using hb)
    rwa [← last_bump le.length b hb w (w.counts b ++ [incU64 ((w.counts b).getLastD 0)]) (by simp)] at this
  | bumpPanic t b x h hb =>
    exact HistStep.bumpPanic (w.last le.length) t b x h (by simpa [HWSys.last] using hb)
  | load t x cur j h hj hc => exact HistStep.load (w.last le.length) t x cur h
  | casOk t x cur h hc =>
    have := HistStep.casOk (le := le) (w.last le.length) t x cur h hc
    convert this using 1
    simp [HWSys.last, HWSys.saw, HWSys.goto]
  | casFail t x cur h => exact HistStep.casFail (w.last le.length) t x cur h
  | unlockRead t x h => exact HistStep.unlockRead (w.last le.length) t x h
  | startSample t h => exact HistStep.startSample (w.last le.length) t h
  | lockWrite t h hl => exact HistStep.lockWrite (w.last le.length) t h hl
  | readBucket t out c j h hn hj hc =>
    refine HistStep.readBucket (w.last le.length) t out c h ?_
    have := last_of_known (d := 0) (I.writer t (by rw [h]; rfl) (.count out.length)) hj hc
    simp only [HWSys.last, List.getElem?_map, List.getElem?_range hn, Option.map_some, this]
  | readInf t out c j h hn hj hc =>
    have := HistStep.readInf (le := le) (w.last le.length) t out h (by simpa [HWSys.last] using hn)
    have hk := last_of_known (d := 0) (I.writer t (by rw [h]; rfl) (.count le.length)) hj hc
    rwa [show (w.last le.length).inner.inf = c from hk] at this
  | readSum t out inf x j h hj hc =>
    have := HistStep.readSum (le := le) (w.last le.length) t out inf h
    have hk := last_of_known (d := F64.pzero) (I.writer t (by rw [h]; rfl) .sum) hj hc
    rwa [show (w.last le.length).inner.sum = x from hk] at this
  | unlockWrite t out inf sum h => exact HistStep.unlockWrite (w.last le.length) t out inf sum h

theorem last_new (n : Nat) : HWSys.new.last n = HistSys.new n := by
  simp [HWSys.last, HWSys.new, HistSys.new, HistInner.default]

end Measured.Conc
