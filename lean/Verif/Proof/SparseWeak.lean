import Verif.Spec.SparseWeak
import Mathlib.Data.List.Infix

/-! A shard in relaxed memory: the invariant. -/

namespace Measured.Conc
open Measured.Spec

variable {K U : Type} [DecidableEq K]
set_option linter.unusedSectionVars false

/-- What the place of a thread says about the table. -/
def SWPc.Ok (table : K → Option Nat) : SWPc K → Prop
  | .guard k c => table k = some c
  | .refind k | .inserted k => table k ≠ none
  | _ => True

theorem SWPc.Ok.free (table : K → Option Nat) {p : SWPc K} (h1 : p.holdsWrite = false) (h2 : p.holdsRead = false) :
    p.Ok table := by
  cases p <;> first | trivial | (simp [SWPc.holdsRead] at h2) | (simp [SWPc.holdsWrite] at h1)

structure SWInv (g : WGhost K U) (w : SWSys K U) : Prop where
  excl : ∀ t, (w.pc t).holdsWrite = true → ∀ u, (w.pc u).holdsRead = false ∧ ((w.pc u).holdsWrite = true → u = t)
  bound : ∀ a c, w.view a c ≤ (w.mods c).length
  fresh : ∀ c, w.next ≤ c → w.mods c = []
  there : ∀ k c, w.table k = some c → c < w.next ∧ w.mods c ≠ []
  inj : ∀ k k' c, w.table k = some c → w.table k' = some c → k = k'
  abs : ∀ k, g.map k = (w.table k).map fun c => (w.mods c).getLastD []
  pre : ∀ c, (w.mods c).Pairwise (· <+: ·)
  known : w.NoWriter → ∀ c, (w.mods c).length ≤ w.view .writers c ∨ (w.mods c).length ≤ w.view .readers c ∨
    ∃ u, (w.pc u).holdsRead = true ∧ (w.mods c).length ≤ w.view (.thr u) c
  writer : ∀ t, (w.pc t).holdsWrite = true → ∀ c, (w.mods c).length ≤ w.view (.thr t) c
  initW : w.NoWriter → ∀ k c, w.table k = some c → 1 ≤ w.view .writers c
  initR : ∀ t, (w.pc t).holdsRead = true → ∀ k c, w.table k = some c → 1 ≤ w.view (.thr t) c
  place : ∀ t, (w.pc t).Ok w.table
  low : ∀ a k c j us, w.table k = some c → w.view a c ≤ j + 1 → (w.mods c)[j]? = some us → g.known a k ≤ us.length

theorem SWInv.new : SWInv (wghost strong []) (SWSys.new : SWSys K U) where
  excl t h := by simp [SWSys.new, SWPc.holdsWrite] at h
  bound a c := Nat.zero_le _
  fresh c h := rfl
  there k c h := by cases h
  inj k k' c h := by cases h
  abs k := rfl
  pre c := List.Pairwise.nil
  known _ c := .inl (Nat.le_refl _)
  writer t h := by simp [SWSys.new, SWPc.holdsWrite] at h
  initW _ k c h := by cases h
  initR t h := by simp [SWSys.new, SWPc.holdsRead] at h
  place t := trivial
  low a k c j us h := by cases h

theorem SWSys.view_learn (w : SWSys K U) (a b x : Agent) (c : Nat) : w.view x c ≤ (w.learn a b).view x c := by
  simp only [SWSys.learn]
  by_cases h : x = a
  · subst h; rw [Function.update_self]; exact Nat.le_max_left _ _
  · rw [Function.update_of_ne h]

theorem SWSys.view_learnt (w : SWSys K U) (a b : Agent) (c : Nat) : w.view b c ≤ (w.learn a b).view a c := by
  simp only [SWSys.learn, Function.update_self]
  exact Nat.le_max_right _ _

theorem SWInv.learn {g : WGhost K U} {w : SWSys K U} (I : SWInv g w) (a b : Agent) : SWInv (g.join a b) (w.learn a b) where
  excl := I.excl
  bound x c := by
    simp only [SWSys.learn]
    by_cases h : x = a
    · subst h; rw [Function.update_self]; exact Nat.max_le.2 ⟨I.bound _ c, I.bound _ c⟩
    · rw [Function.update_of_ne h]; exact I.bound x c
  fresh := I.fresh
  there := I.there
  inj := I.inj
  abs := I.abs
  pre := I.pre
  known hn c := by
    rcases I.known hn c with h | h | ⟨u, hu, h⟩
    · exact .inl (Nat.le_trans h (w.view_learn _ _ _ _))
    · exact .inr (.inl (Nat.le_trans h (w.view_learn _ _ _ _)))
    · exact .inr (.inr ⟨u, hu, Nat.le_trans h (w.view_learn _ _ _ _)⟩)
  writer t ht c := Nat.le_trans (I.writer t ht c) (w.view_learn _ _ _ _)
  initW hn k c hc := Nat.le_trans (I.initW hn k c hc) (w.view_learn _ _ _ _)
  initR t ht k c hc := Nat.le_trans (I.initR t ht k c hc) (w.view_learn _ _ _ _)
  place := I.place
  low x k c j us hc hv hj := by
    simp only [WGhost.join]
    by_cases h : x = a
    · subst h
      rw [Function.update_self]
      have h1 := Nat.le_trans (w.view_learn x b x c) hv
      have h2 := Nat.le_trans (w.view_learnt x b c) hv
      exact Nat.max_le.2 ⟨I.low _ k c j us hc h1 hj, I.low _ k c j us hc h2 hj⟩
    · rw [Function.update_of_ne h]
      exact I.low x k c j us hc (Nat.le_trans (w.view_learn a b x c) hv) hj

theorem SWInv.goto {g : WGhost K U} {w : SWSys K U} (I : SWInv g w) (t : Tid) (p : SWPc K)
    (hr : (w.pc t).holdsRead = true → p.holdsRead = true ∨ ∀ c, w.view (.thr t) c ≤ w.view .readers c)
    (hw : p.holdsWrite = true → (w.pc t).holdsWrite = true ∨
      (w.Free ∧ ∀ c, w.view .writers c ≤ w.view (.thr t) c ∧ w.view .readers c ≤ w.view (.thr t) c))
    (hrd : p.holdsRead = true → (w.pc t).holdsRead = true ∨
      (w.NoWriter ∧ ∀ c, w.view .writers c ≤ w.view (.thr t) c) ∨ (w.pc t).holdsWrite = true)
    (hww : (w.pc t).holdsWrite = true → p.holdsWrite = true ∨ ∀ c, w.view (.thr t) c ≤ w.view .writers c)
    (hx : p.holdsWrite = true → p.holdsRead = false) (hp : p.Ok w.table) : SWInv g (w.goto t p) where
  excl a ha u := by
    simp only [SWSys.goto] at ha ⊢
    by_cases hat : a = t
    · subst hat
      rw [Function.update_self] at ha
      by_cases hua : u = a
      · subst hua
        rw [Function.update_self]
        exact ⟨hx ha, fun _ => rfl⟩
      · rw [Function.update_of_ne hua]
        rcases hw ha with h | ⟨h, _⟩
        · exact I.excl a h u
        · exact ⟨(h u).2, fun h' => by rw [(h u).1] at h'; simp at h'⟩
    · rw [Function.update_of_ne hat] at ha
      by_cases hut : u = t
      · subst hut
        rw [Function.update_self]
        obtain ⟨e1, e2⟩ := I.excl a ha u
        constructor
        · by_contra hc
          rw [Bool.not_eq_false] at hc
          rcases hrd hc with h | ⟨h, _⟩ | h
          · rw [e1] at h; simp at h
          · rw [h a] at ha; simp at ha
          · exact hat (e2 h).symm
        · intro h
          rcases hw h with h | ⟨h, _⟩
          · exact e2 h
          · rw [(h a).1] at ha; simp at ha
      · rw [Function.update_of_ne hut]
        exact I.excl a ha u
  bound := I.bound
  fresh := I.fresh
  there := I.there
  inj := I.inj
  abs := I.abs
  pre := I.pre
  known hn c := by
    have hpn : p.holdsWrite = false := by have := hn t; simpa [SWSys.goto] using this
    by_cases hwt : (w.pc t).holdsWrite = true
    · rcases hww hwt with h | h
      · rw [hpn] at h; simp at h
      · exact .inl (Nat.le_trans (I.writer t hwt c) (h c))
    · have hn' : w.NoWriter := by
        intro u
        by_cases hut : u = t
        · subst hut; simpa using hwt
        · have := hn u
          simpa [SWSys.goto, Function.update_of_ne hut] using this
      rcases I.known hn' c with h | h | ⟨u, hu, h⟩
      · exact .inl h
      · exact .inr (.inl h)
      · by_cases hut : u = t
        · subst hut
          rcases hr hu with h' | h'
          · exact .inr (.inr ⟨u, by simpa [SWSys.goto] using h', h⟩)
          · exact .inr (.inl (Nat.le_trans h (h' c)))
        · exact .inr (.inr ⟨u, by simpa [SWSys.goto, Function.update_of_ne hut] using hu, h⟩)
  writer a ha c := by
    simp only [SWSys.goto] at ha ⊢
    by_cases hat : a = t
    · subst hat
      rw [Function.update_self] at ha
      rcases hw ha with h | ⟨hf, hl⟩
      · exact I.writer a h c
      · rcases I.known (fun u => (hf u).1) c with h | h | ⟨u, hu, _⟩
        · exact Nat.le_trans h (hl c).1
        · exact Nat.le_trans h (hl c).2
        · rw [(hf u).2] at hu; simp at hu
    · rw [Function.update_of_ne hat] at ha
      exact I.writer a ha c
  initW hn k c hc := by
    have hpn : p.holdsWrite = false := by have := hn t; simpa [SWSys.goto] using this
    by_cases hwt : (w.pc t).holdsWrite = true
    · rcases hww hwt with h | h
      · rw [hpn] at h; simp at h
      · have h1 := List.length_pos_of_ne_nil (I.there k c hc).2
        have h2 := I.writer t hwt c
        have h3 := h c
        simp only [SWSys.goto]
        omega
    · refine I.initW ?_ k c hc
      intro u
      by_cases hut : u = t
      · subst hut; simpa using hwt
      · have := hn u
        simpa [SWSys.goto, Function.update_of_ne hut] using this
  initR a ha k c hc := by
    simp only [SWSys.goto] at ha hc ⊢
    by_cases hat : a = t
    · subst hat
      rw [Function.update_self] at ha
      rcases hrd ha with h | ⟨h, hl⟩ | h
      · exact I.initR a h k c hc
      · exact Nat.le_trans (I.initW h k c hc) (hl c)
      · have h1 := List.length_pos_of_ne_nil (I.there k c hc).2
        have h2 := I.writer a h c
        omega
    · rw [Function.update_of_ne hat] at ha
      exact I.initR a ha k c hc
  place u := by
    simp only [SWSys.goto]
    by_cases hut : u = t
    · subst hut; rw [Function.update_self]; exact hp
    · rw [Function.update_of_ne hut]; exact I.place u
  low := I.low

theorem SWInv.learnRead {g : WGhost K U} {w : SWSys K U} (I : SWInv g w) (strong : Bool) (t : Tid) :
    SWInv (g.after strong (.lockR t)) (w.learnRead strong t) := by
  cases strong
  · exact I.learn _ _
  · exact (I.learn _ _).learn _ _

theorem SWSys.learnRead_pc (w : SWSys K U) (strong : Bool) (t : Tid) : (w.learnRead strong t).pc = w.pc := by
  cases strong <;> rfl

theorem SWSys.learnRead_writers (w : SWSys K U) (strong : Bool) (t : Tid) (c : Nat) :
    (w.learnRead strong t).view .writers c ≤ (w.learnRead strong t).view (.thr t) c := by
  cases strong
  · have := w.view_learnt (.thr t) .writers c
    simpa [SWSys.learnRead, SWSys.learn] using this
  · simp [SWSys.learnRead, SWSys.learn]; omega

theorem SWSys.learnWrite_all (w : SWSys K U) (t : Tid) (c : Nat) :
    (w.learnWrite t).view .writers c ≤ (w.learnWrite t).view (.thr t) c ∧
    (w.learnWrite t).view .readers c ≤ (w.learnWrite t).view (.thr t) c := by
  simp [SWSys.learnWrite, SWSys.learn]; omega

/-- What a writer reads is the last value. -/
theorem SWInv.exact {g : WGhost K U} {w : SWSys K U} (I : SWInv g w) {t : Tid} (ht : (w.pc t).holdsWrite = true)
    {c j : Nat} {us : List U} (hr : w.MayRead t c j us) : j + 1 = (w.mods c).length ∧ us = (w.mods c).getLastD [] := by
  have h1 := I.writer t ht c
  have h2 := (List.getElem?_eq_some_iff.1 hr.2)
  obtain ⟨h3, h4⟩ := h2
  have h5 := hr.1
  have hj : j + 1 = (w.mods c).length := by omega
  refine ⟨hj, ?_⟩
  rw [← h4, List.getLastD_eq_getLast?, List.getLast?_eq_getElem?, ← hj]
  simp [List.getElem?_eq_getElem h3]

theorem SWInv.prefix_last {g : WGhost K U} {w : SWSys K U} (I : SWInv g w) {c : Nat} {us : List U}
    (h : us ∈ w.mods c) : us <+: (w.mods c).getLastD [] := by
  have hp := I.pre c
  revert hp h
  generalize w.mods c = l
  intro h hp
  obtain ⟨i, hi, rfl⟩ := List.getElem_of_mem h
  have hne : l ≠ [] := List.ne_nil_of_mem h
  rw [List.getLastD_eq_getLast?, List.getLast?_eq_getElem?, List.getElem?_eq_getElem (by omega)]
  simp only [Option.getD_some]
  by_cases h' : i = l.length - 1
  · subst h'; exact List.prefix_refl _
  · exact List.pairwise_iff_getElem.1 hp i (l.length - 1) hi (by omega) (by omega)

theorem SWInv.last_mem {g : WGhost K U} {w : SWSys K U} (I : SWInv g w) {k : K} {c : Nat} (h : w.table k = some c) :
    (w.mods c)[(w.mods c).length - 1]? = some ((w.mods c).getLastD []) := by
  have hne := (I.there k c h).2
  rw [List.getLastD_eq_getLast?, List.getLast?_eq_getElem?]
  have := List.length_pos_of_ne_nil hne
  rw [List.getElem?_eq_getElem (by omega)]
  rfl

/-- Nobody knows more than there is. -/
theorem SWInv.known_le {g : WGhost K U} {w : SWSys K U} (I : SWInv g w) {k : K} {c : Nat} (h : w.table k = some c)
    (a : Agent) : g.known a k ≤ ((w.mods c).getLastD []).length := by
  have := List.length_pos_of_ne_nil (I.there k c h).2
  exact I.low a k c _ _ h (by have := I.bound a c; omega) (I.last_mem h)

theorem SWInv.see {g : WGhost K U} {w : SWSys K U} (I : SWInv g w) (strong : Bool) {t : Tid} {k : K} {c j : Nat} {us : List U}
    (hc : w.table k = some c) (hr : w.MayRead t c j us) : SWInv (g.after strong (.see t k us)) (w.saw t c (j + 1)) := by
  have hmono : ∀ a c', w.view a c' ≤ (w.saw t c (j + 1)).view a c' := by
    intro a c'
    simp only [SWSys.saw]
    by_cases ha : a = .thr t
    · subst ha
      rw [Function.update_self]
      by_cases hcc : c' = c
      · subst hcc; rw [Function.update_self]; exact hr.1
      · rw [Function.update_of_ne hcc]
    · rw [Function.update_of_ne ha]
  have hlt := (List.getElem?_eq_some_iff.1 hr.2).1
  refine ⟨I.excl, ?_, I.fresh, I.there, I.inj, I.abs, I.pre, ?_, fun u hu c' => Nat.le_trans (I.writer u hu c') (hmono _ _),
    fun hn k' c' h => Nat.le_trans (I.initW hn k' c' h) (hmono _ _),
    fun u hu k' c' h => Nat.le_trans (I.initR u hu k' c' h) (hmono _ _), I.place, ?_⟩
  · intro a c'
    simp only [SWSys.saw]
    by_cases ha : a = .thr t
    · subst ha
      rw [Function.update_self]
      by_cases hcc : c' = c
      · subst hcc; rw [Function.update_self]; exact hlt
      · rw [Function.update_of_ne hcc]; exact I.bound _ _
    · rw [Function.update_of_ne ha]; exact I.bound _ _
  · intro hn c'
    rcases I.known hn c' with h | h | ⟨u, hu, h⟩
    · exact .inl (Nat.le_trans h (hmono _ _))
    · exact .inr (.inl (Nat.le_trans h (hmono _ _)))
    · exact .inr (.inr ⟨u, hu, Nat.le_trans h (hmono _ _)⟩)
  · intro a k' c' j' us' h' hv hj
    have hold := I.low a k' c' j' us' h' (Nat.le_trans (hmono a c') hv) hj
    simp only [WGhost.after]
    by_cases ha : a = .thr t
    · subst ha
      rw [Function.update_self]
      by_cases hk : k' = k
      · subst hk
        have h'' : w.table k' = some c' := h'
        rw [hc] at h''; cases h''
        rw [Function.update_self]
        refine Nat.max_le.2 ⟨hold, ?_⟩
        simp only [SWSys.saw, Function.update_self] at hv
        have hj' : (w.mods c)[j']? = some us' := hj
        obtain ⟨l1, e1⟩ := List.getElem?_eq_some_iff.1 hj'
        obtain ⟨l2, e2⟩ := List.getElem?_eq_some_iff.1 hr.2
        rw [← e1, ← e2]
        by_cases hjj : j = j'
        · subst hjj; exact Nat.le_refl _
        · exact (List.pairwise_iff_getElem.1 (I.pre c) j j' l2 l1 (by omega)).length_le
      · rw [Function.update_of_ne hk]; exact hold
    · rw [Function.update_of_ne ha]; exact hold

theorem SWInv.remove {g : WGhost K U} {w : SWSys K U} (I : SWInv g w) (strong : Bool) {t : Tid} {k : K}
    (ht : (w.pc t).holdsWrite = true) (hp : ∀ tb, (w.pc t).Ok tb) (r : Option (List U)) :
    SWInv (g.after strong (.remove t k r)) (w.setTable k none) := by
  have htab : ∀ k' c, (w.setTable k none).table k' = some c → k' ≠ k ∧ w.table k' = some c := by
    intro k' c h
    simp only [SWSys.setTable] at h
    by_cases hk : k' = k
    · subst hk; rw [Function.update_self] at h; cases h
    · rw [Function.update_of_ne hk] at h; exact ⟨hk, h⟩
  refine ⟨I.excl, I.bound, I.fresh, fun k' c h => I.there k' c (htab k' c h).2,
    fun k1 k2 c h1 h2 => I.inj k1 k2 c (htab _ _ h1).2 (htab _ _ h2).2, ?_, I.pre, I.known, I.writer,
    fun hn k' c h => I.initW hn k' c (htab _ _ h).2, fun u hu k' c h => I.initR u hu k' c (htab _ _ h).2, ?_, ?_⟩
  · intro k'
    simp only [WGhost.after, SWSys.setTable]
    by_cases hk : k' = k
    · subst hk; simp
    · rw [Function.update_of_ne hk, Function.update_of_ne hk]; exact I.abs k'
  · intro u
    by_cases hut : u = t
    · subst hut; exact hp _
    · have h := I.excl t ht u
      refine SWPc.Ok.free _ ?_ h.1
      have : ¬ (w.pc u).holdsWrite = true := fun h' => hut (h.2 h')
      show (w.pc u).holdsWrite = false
      simpa using this
  · intro a k' c j us h hv hj
    obtain ⟨hk, h⟩ := htab _ _ h
    simp only [WGhost.after]
    rw [Function.update_of_ne hk]
    exact I.low a k' c j us h hv hj

theorem SWInv.insert {g : WGhost K U} {w : SWSys K U} (I : SWInv g w) (strong : Bool) {t : Tid} {k : K}
    (ht : (w.pc t).holdsWrite = true) (hc : w.table k = none) :
    SWInv (g.after strong (.insert t k))
      { (((w.setMods w.next [[]]).setTable k (some w.next)).saw t w.next 1) with next := w.next + 1 } := by
  have hmods : ∀ c, c ≠ w.next → Function.update w.mods w.next [[]] c = w.mods c := fun c h => Function.update_of_ne h _ _
  have htab : ∀ k' c, Function.update w.table k (some w.next) k' = some c →
      (k' = k ∧ c = w.next) ∨ (k' ≠ k ∧ c ≠ w.next ∧ w.table k' = some c) := by
    intro k' c h
    by_cases hk : k' = k
    · subst hk; rw [Function.update_self] at h; cases h; exact .inl ⟨rfl, rfl⟩
    · rw [Function.update_of_ne hk] at h
      have := (I.there k' c h).1
      exact .inr ⟨hk, by omega, h⟩
  have hview : ∀ a c, c ≠ w.next →
      Function.update w.view (.thr t) (Function.update (w.view (.thr t)) w.next 1) a c = w.view a c := by
    intro a c hcn
    by_cases ha : a = .thr t
    · subst ha; rw [Function.update_self, Function.update_of_ne hcn]
    · rw [Function.update_of_ne ha]
  have hno : ¬ w.NoWriter := fun h => by rw [h t] at ht; cases ht
  refine ⟨I.excl, ?_, ?_, ?_, ?_, ?_, ?_, fun hn => absurd hn hno, ?_, fun hn => absurd hn hno, ?_, ?_, ?_⟩
  · intro a c
    simp only [SWSys.saw, SWSys.setTable, SWSys.setMods]
    by_cases hcn : c = w.next
    · subst hcn
      rw [Function.update_self]
      by_cases ha : a = .thr t
      · subst ha; simp
      · rw [Function.update_of_ne ha]
        have h1 := I.bound a w.next
        rw [I.fresh w.next (Nat.le_refl _)] at h1
        exact Nat.le_trans h1 (Nat.zero_le _)
    · rw [hmods c hcn, hview a c hcn]; exact I.bound a c
  · intro c h
    have h : w.next + 1 ≤ c := h
    simp only [SWSys.saw, SWSys.setTable, SWSys.setMods]
    rw [hmods c (by omega)]
    exact I.fresh c (by omega)
  · intro k' c h
    simp only [SWSys.saw, SWSys.setTable, SWSys.setMods] at h ⊢
    rcases htab k' c h with ⟨_, rfl⟩ | ⟨_, hcn, h⟩
    · exact ⟨Nat.lt_succ_self _, by simp⟩
    · rw [hmods c hcn]
      exact ⟨Nat.lt_succ_of_lt (I.there k' c h).1, (I.there k' c h).2⟩
  · intro k1 k2 c h1 h2
    simp only [SWSys.saw, SWSys.setTable, SWSys.setMods] at h1 h2
    rcases htab k1 c h1 with ⟨e1, f1⟩ | ⟨_, n1, h1⟩ <;> rcases htab k2 c h2 with ⟨e2, f2⟩ | ⟨_, n2, h2⟩
    · rw [e1, e2]
    · exact absurd f1 n2
    · exact absurd f2 n1
    · exact I.inj k1 k2 c h1 h2
  · intro k'
    simp only [WGhost.after, SWSys.saw, SWSys.setTable, SWSys.setMods]
    by_cases hk : k' = k
    · subst hk; simp
    · rw [Function.update_of_ne hk, Function.update_of_ne hk, I.abs k']
      cases hk' : w.table k' with
      | none => rfl
      | some c =>
        have := (I.there k' c hk').1
        simp only [Option.map_some]
        rw [hmods c (by omega)]
  · intro c
    simp only [SWSys.saw, SWSys.setTable, SWSys.setMods]
    by_cases hcn : c = w.next
    · subst hcn; simp
    · rw [hmods c hcn]; exact I.pre c
  · intro u hu c
    have hu : (w.pc u).holdsWrite = true := hu
    have := (I.excl t ht u).2 hu
    subst this
    simp only [SWSys.saw, SWSys.setTable, SWSys.setMods]
    by_cases hcn : c = w.next
    · subst hcn; simp
    · rw [hmods c hcn, hview _ c hcn]; exact I.writer u hu c
  · intro u hu
    have hu : (w.pc u).holdsRead = true := hu
    rw [(I.excl t ht u).1] at hu; cases hu
  · intro u
    by_cases hut : u = t
    · subst hut
      have := I.place u
      show (w.pc u).Ok (Function.update w.table k (some w.next))
      cases hp : w.pc u with
      | inserted k' =>
        rw [hp] at this
        simp only [SWPc.Ok] at this ⊢
        by_cases hk : k' = k
        · subst hk; simp
        · rw [Function.update_of_ne hk]; exact this
      | guard k' c => rw [hp] at ht; cases ht
      | refind k' => rw [hp] at ht; cases ht
      | _ => trivial
    · have h := I.excl t ht u
      refine SWPc.Ok.free _ ?_ h.1
      have : ¬ (w.pc u).holdsWrite = true := fun h' => hut (h.2 h')
      show (w.pc u).holdsWrite = false
      simpa using this
  · intro a k' c j us h hv hj
    simp only [SWSys.saw, SWSys.setTable, SWSys.setMods, WGhost.after] at h hv hj ⊢
    rcases htab k' c h with ⟨rfl, _⟩ | ⟨hk, hcn, h⟩
    · rw [Function.update_self]; exact Nat.zero_le _
    · rw [Function.update_of_ne hk]
      rw [hview a c hcn] at hv
      rw [hmods c hcn] at hj
      exact I.low a k' c j us h hv hj

theorem getLastD_concat {α : Type} (l : List α) (x d : α) : (l ++ [x]).getLastD d = x := by simp

theorem SWInv.grow {g : WGhost K U} {w : SWSys K U} (I : SWInv g w) {t : Tid} (ht : (w.pc t).holdsWrite = true)
    (mods' : Nat → List (List U))
    (hm : ∀ c, mods' c = w.mods c ∨ ∃ j us, (∃ k', w.table k' = some c) ∧ w.MayRead t c j us ∧ mods' c = w.mods c ++ [us]) :
    SWInv g { w with
      mods := mods',
      view := Function.update w.view (.thr t) fun c =>
        if (mods' c).length = (w.mods c).length then w.view (.thr t) c else (mods' c).length } := by
  have hm : ∀ c, mods' c = w.mods c ∨
      (∃ k', w.table k' = some c) ∧ mods' c = w.mods c ++ [(w.mods c).getLastD []] := by
    intro c
    rcases hm c with h | ⟨j, us, hk, hr, h⟩
    · exact .inl h
    · exact .inr ⟨hk, by rw [h, (I.exact ht hr).2]⟩
  have hlast : ∀ c, (mods' c).getLastD [] = (w.mods c).getLastD [] := by
    intro c
    rcases hm c with h | ⟨_, h⟩
    · rw [h]
    · rw [h, getLastD_concat]
  have hlen : ∀ c, (w.mods c).length ≤ (mods' c).length := by
    intro c
    rcases hm c with h | ⟨_, h⟩ <;> rw [h] <;> simp
  have hno : ¬ w.NoWriter := fun h => by rw [h t] at ht; cases ht
  have hmono : ∀ a c, w.view a c ≤ Function.update w.view (.thr t) (fun c =>
        if (mods' c).length = (w.mods c).length then w.view (.thr t) c else (mods' c).length) a c := by
    intro a c
    by_cases ha : a = .thr t
    · subst ha
      rw [Function.update_self]
      split
      · exact Nat.le_refl _
      · exact Nat.le_trans (I.bound _ c) (hlen c)
    · rw [Function.update_of_ne ha]
  refine ⟨I.excl, ?_, ?_, ?_, I.inj, ?_, ?_, fun hn => absurd hn hno, ?_, fun hn => absurd hn hno, ?_, I.place, ?_⟩
  · intro a c
    show Function.update w.view (.thr t) _ a c ≤ (mods' c).length
    by_cases ha : a = .thr t
    · subst ha
      rw [Function.update_self]
      split
      · rename_i h; rw [h]; exact I.bound _ c
      · exact Nat.le_refl _
    · rw [Function.update_of_ne ha]; exact Nat.le_trans (I.bound a c) (hlen c)
  · intro c h
    show mods' c = []
    rcases hm c with h' | ⟨⟨k', hk'⟩, _⟩
    · rw [h']; exact I.fresh c h
    · have := (I.there k' c hk').1
      have h : w.next ≤ c := h
      omega
  · intro k c h
    refine ⟨(I.there k c h).1, ?_⟩
    have h1 := List.length_pos_of_ne_nil (I.there k c h).2
    have h2 := hlen c
    exact List.ne_nil_of_length_pos (by show 0 < (mods' c).length; omega)
  · intro k
    rw [I.abs k]
    show _ = (w.table k).map fun c => (mods' c).getLastD []
    simp only [hlast]
  · intro c
    show (mods' c).Pairwise _
    rcases hm c with h | ⟨_, h⟩
    · rw [h]; exact I.pre c
    · rw [h, List.pairwise_append]
      refine ⟨I.pre c, by simp, ?_⟩
      intro a ha b hb
      simp only [List.mem_singleton] at hb
      subst hb
      exact I.prefix_last ha
  · intro u hu c
    have hu : (w.pc u).holdsWrite = true := hu
    have := (I.excl t ht u).2 hu
    subst this
    show (mods' c).length ≤ Function.update w.view (.thr u) _ (.thr u) c
    rw [Function.update_self]
    split
    · rename_i h; rw [h]; exact I.writer u hu c
    · exact Nat.le_refl _
  · intro u hu k c h
    exact Nat.le_trans (I.initR u hu k c h) (hmono _ _)
  · intro a k c j us h hv hj
    have hv := Nat.le_trans (hmono a c) hv
    have hj : (mods' c)[j]? = some us := hj
    rcases hm c with h' | ⟨_, h'⟩
    · rw [h'] at hj; exact I.low a k c j us h hv hj
    · rw [h', List.getElem?_append] at hj
      split at hj
      · exact I.low a k c j us h hv hj
      · have : us = (w.mods c).getLastD [] := by
          have := List.mem_of_getElem? hj
          simpa using this
        subst this
        exact I.known_le h a

theorem SWInv.add {g : WGhost K U} {w : SWSys K U} (I : SWInv g w) (strong : Bool) {t : Tid} {k : K} {c : Nat}
    (h : w.pc t = .guard k c) (u : U) :
    SWInv (g.after strong (.add t k u))
      ((w.setMods c (w.mods c ++ [(w.mods c).getLastD [] ++ [u]])).saw t c ((w.mods c).length + 1)) := by
  have hk : w.table k = some c := by have := I.place t; rw [h] at this; exact this
  have hrd : (w.pc t).holdsRead = true := by rw [h]; rfl
  have hnw : ∀ x, ¬ (w.pc x).holdsWrite = true := by
    intro x hx
    have := (I.excl x hx t).1
    rw [hrd] at this; cases this
  have hmods : ∀ x, x ≠ c → Function.update w.mods c (w.mods c ++ [(w.mods c).getLastD [] ++ [u]]) x = w.mods x :=
    fun x hx => Function.update_of_ne hx _ _
  have hview : ∀ a x, (a ≠ .thr t ∨ x ≠ c) →
      Function.update w.view (.thr t) (Function.update (w.view (.thr t)) c ((w.mods c).length + 1)) a x = w.view a x := by
    intro a x hax
    by_cases ha : a = .thr t
    · subst ha
      rw [Function.update_self, Function.update_of_ne (by simpa using hax)]
    · rw [Function.update_of_ne ha]
  have hmono : ∀ a x, w.view a x ≤
      Function.update w.view (.thr t) (Function.update (w.view (.thr t)) c ((w.mods c).length + 1)) a x := by
    intro a x
    by_cases hax : a ≠ .thr t ∨ x ≠ c
    · rw [hview a x hax]
    · simp only [not_or, not_not] at hax
      obtain ⟨rfl, rfl⟩ := hax
      rw [Function.update_self, Function.update_self]
      exact Nat.le_succ_of_le (I.bound _ _)
  refine ⟨I.excl, ?_, ?_, ?_, I.inj, ?_, ?_, ?_, fun x hx => absurd hx (hnw x), ?_, ?_, I.place, ?_⟩
  · intro a x
    simp only [SWSys.saw, SWSys.setMods]
    by_cases hax : a ≠ .thr t ∨ x ≠ c
    · rw [hview a x hax]
      by_cases hx : x = c
      · subst hx; rw [Function.update_self]
        exact Nat.le_trans (I.bound a x) (by simp)
      · rw [hmods x hx]; exact I.bound a x
    · simp only [not_or, not_not] at hax
      obtain ⟨rfl, rfl⟩ := hax
      rw [Function.update_self, Function.update_self, Function.update_self]
      simp
  · intro x hx
    have hx : w.next ≤ x := hx
    have := (I.there k c hk).1
    simp only [SWSys.saw, SWSys.setMods]
    rw [hmods x (by omega)]
    exact I.fresh x hx
  · intro k' x hk'
    refine ⟨(I.there k' x hk').1, ?_⟩
    simp only [SWSys.saw, SWSys.setMods]
    by_cases hx : x = c
    · subst hx; simp
    · rw [hmods x hx]; exact (I.there k' x hk').2
  · intro k'
    simp only [WGhost.after, SWSys.saw, SWSys.setMods]
    by_cases hkk : k' = k
    · subst hkk
      rw [Function.update_self, I.abs k', hk]
      simp
    · rw [Function.update_of_ne hkk, I.abs k']
      cases hk' : w.table k' with
      | none => rfl
      | some x =>
        have hx : x ≠ c := by rintro rfl; exact hkk (I.inj _ _ _ hk' hk)
        simp only [Option.map_some]
        rw [hmods x hx]
  · intro x
    simp only [SWSys.saw, SWSys.setMods]
    by_cases hx : x = c
    · subst hx
      rw [Function.update_self, List.pairwise_append]
      refine ⟨I.pre x, by simp, ?_⟩
      intro a ha b hb
      simp only [List.mem_singleton] at hb
      subst hb
      exact (I.prefix_last ha).trans (List.prefix_append _ _)
    · rw [hmods x hx]; exact I.pre x
  · intro hn x
    simp only [SWSys.saw, SWSys.setMods]
    by_cases hx : x = c
    · subst hx
      refine .inr (.inr ⟨t, hrd, ?_⟩)
      simp
    · rw [hmods x hx]
      rcases I.known hn x with h' | h' | ⟨y, hy, h'⟩
      · exact .inl (Nat.le_trans h' (hmono _ _))
      · exact .inr (.inl (Nat.le_trans h' (hmono _ _)))
      · exact .inr (.inr ⟨y, hy, Nat.le_trans h' (hmono _ _)⟩)
  · intro hn k' x hk'
    exact Nat.le_trans (I.initW hn k' x hk') (hmono _ _)
  · intro y hy k' x hk'
    exact Nat.le_trans (I.initR y hy k' x hk') (hmono _ _)
  · intro a k' x j us hk' hv hj
    have hv' := Nat.le_trans (hmono a x) hv
    simp only [SWSys.saw, SWSys.setMods, WGhost.after] at hv hj ⊢
    have hk'' : w.table k' = some x := hk'
    by_cases hx : x = c
    · subst hx
      have hkk := I.inj _ _ _ hk'' hk
      subst hkk
      rw [Function.update_self, List.getElem?_append] at hj
      by_cases ha : a = .thr t
      · subst ha
        rw [Function.update_self, Function.update_self] at hv ⊢
        have hab := I.abs k'
        rw [hk] at hab
        rw [hab]
        rw [if_neg (by omega)] at hj
        have := List.mem_of_getElem? hj
        simp only [List.mem_singleton] at this
        subst this
        have := I.known_le hk (.thr t)
        simp only [Option.map_some, Option.getD_some, List.length_append, List.length_singleton]
        omega
      · rw [Function.update_of_ne ha]
        split at hj
        · exact I.low a k' x j us hk hv' hj
        · have := List.mem_of_getElem? hj
          simp only [List.mem_singleton] at this
          subst this
          have := I.known_le hk a
          simp only [List.length_append]
          omega
    · rw [hmods x hx] at hj
      have hold := I.low a k' x j us hk'' hv' hj
      by_cases ha : a = .thr t
      · subst ha
        rw [Function.update_self, Function.update_of_ne ?_]
        · exact hold
        · rintro rfl
          rw [hk] at hk''; cases hk''; exact hx rfl
      · rw [Function.update_of_ne ha]; exact hold

theorem sw_step {strong : Bool} {g : WGhost K U} {w w' : SWSys K U} {e : SWEvent K U} (I : SWInv g w)
    (h : SWStep strong w e w') : SWInv (g.after strong e) w' ∧ WOk g e := by
  have unlockRead : ∀ t p, (w.pc t).holdsRead = true → (w.pc t).holdsWrite = false → SWPc.holdsRead p = false →
      SWPc.holdsWrite p = false → SWPc.Ok w.table p →
      SWInv (g.join .readers (.thr t)) ((w.learn .readers (.thr t)).goto t p) := by
    intro t p h1 h2 h3 h4 h5
    refine (I.learn .readers (.thr t)).goto t p (fun _ => .inr fun c => ?_) (fun h => ?_) (fun h => ?_) (fun h => ?_)
      (fun _ => h3) h5
    · simp [SWSys.learn]; omega
    · rw [h4] at h; cases h
    · rw [h3] at h; cases h
    · have h : (w.pc t).holdsWrite = true := h
      rw [h2] at h; cases h
  have unlockWrite : ∀ t p, (w.pc t).holdsRead = false → (w.pc t).holdsWrite = true → SWPc.holdsWrite p = false →
      SWPc.Ok w.table p → SWInv (g.join .writers (.thr t)) ((w.learn .writers (.thr t)).goto t p) := by
    intro t p h1 h2 h4 h5
    refine (I.learn .writers (.thr t)).goto t p (fun h => ?_) (fun h => ?_) (fun _ => .inr (.inr h2))
      (fun _ => .inr fun c => ?_) (fun h => ?_) h5
    · have h : (w.pc t).holdsRead = true := h
      rw [h1] at h; cases h
    · rw [h4] at h; cases h
    · simp [SWSys.learn]; omega
    · rw [h4] at h; cases h
  have lockRead : ∀ t p, (w.pc t).holdsRead = false → (w.pc t).holdsWrite = false → w.NoWriter →
      SWPc.holdsWrite p = false → SWPc.Ok w.table p →
      SWInv (g.after strong (.lockR t)) ((w.learnRead strong t).goto t p) := by
    intro t p h1 h2 hn h4 h5
    refine (I.learnRead strong t).goto t p (fun h => ?_) (fun h => ?_)
      (fun _ => .inr (.inl ⟨?_, w.learnRead_writers strong t⟩)) (fun h => ?_) (fun h => ?_) ?_
    · rw [w.learnRead_pc, h1] at h; cases h
    · rw [h4] at h; cases h
    · intro u; rw [w.learnRead_pc]; exact hn u
    · rw [w.learnRead_pc, h2] at h; cases h
    · rw [h4] at h; cases h
    · cases strong <;> exact h5
  have lockWrite : ∀ t p, (w.pc t).holdsRead = false → (w.pc t).holdsWrite = false → w.Free →
      SWPc.holdsRead p = false → SWPc.Ok w.table p →
      SWInv (g.after strong (.lockW t)) ((w.learnWrite t).goto t p) := by
    intro t p h1 h2 hn h4 h5
    refine ((I.learn (.thr t) .writers).learn (.thr t) .readers).goto t p (fun h => ?_)
      (fun h => .inr ⟨hn, w.learnWrite_all t⟩) (fun h => ?_) (fun h => ?_) (fun _ => h4) h5
    · have h : (w.pc t).holdsRead = true := h
      rw [h1] at h; cases h
    · rw [h4] at h; cases h
    · have h : (w.pc t).holdsWrite = true := h
      rw [h2] at h; cases h
  have stay : ∀ t p, SWPc.holdsRead p = (w.pc t).holdsRead → SWPc.holdsWrite p = (w.pc t).holdsWrite →
      ¬ (SWPc.holdsRead p = true ∧ SWPc.holdsWrite p = true) → SWPc.Ok w.table p → SWInv g (w.goto t p) := by
    intro t p h1 h2 hx h5
    refine I.goto t p (fun h => .inl (h1 ▸ h)) (fun h => .inl (h2 ▸ h)) (fun h => .inl (h1 ▸ h)) (fun h => .inl (h2 ▸ h))
      (fun h => ?_) h5
    cases hp : SWPc.holdsRead p
    · rfl
    · exact absurd ⟨hp, h⟩ hx
  cases h with
  | startGet t k h => exact ⟨stay t _ (by rw [h]; rfl) (by rw [h]; rfl) (by simp [SWPc.holdsRead]) trivial, trivial⟩
  | lockRead t k h hl => exact ⟨lockRead t _ (by rw [h]; rfl) (by rw [h]; rfl) hl rfl trivial, trivial⟩
  | hit t k c h hc => exact ⟨stay t _ (by rw [h]; rfl) (by rw [h]; rfl) (by simp [SWPc.holdsWrite]) hc, trivial⟩
  | miss t k h hc => exact ⟨unlockRead t _ (by rw [h]; rfl) (by rw [h]; rfl) rfl rfl trivial, trivial⟩
  | lockWrite t k h hl => exact ⟨lockWrite t _ (by rw [h]; rfl) (by rw [h]; rfl) hl rfl trivial, trivial⟩
  | found t k c h hc =>
    exact ⟨stay t _ (by rw [h]; rfl) (by rw [h]; rfl) (by simp [SWPc.holdsRead]) (by simp [SWPc.Ok, hc]), trivial⟩
  | grow t k h hc mods' hm => exact ⟨I.grow (by rw [h]; rfl) mods' hm, trivial⟩
  | insert t k h hc =>
    refine ⟨(I.insert strong (t := t) (k := k) (by rw [h]; rfl) hc).goto t (.inserted k) (fun h' => ?_) (fun _ => .inl ?_)
      (fun h' => by cases h') (fun _ => .inl rfl) (fun _ => rfl) ?_, ?_⟩
    · have h' : (w.pc t).holdsRead = true := h'
      rw [h] at h'; cases h'
    · show (w.pc t).holdsWrite = true
      rw [h]; rfl
    · show Function.update w.table k (some w.next) k ≠ none
      simp
    · show g.map k = none
      rw [I.abs k, hc]; rfl
  | downgrade t k h =>
    refine ⟨unlockWrite t _ (by rw [h]; rfl) (by rw [h]; rfl) rfl ?_, trivial⟩
    have := I.place t
    rw [h] at this
    exact this
  | refind t k c h hc => exact ⟨stay t _ (by rw [h]; rfl) (by rw [h]; rfl) (by simp [SWPc.holdsWrite]) hc, trivial⟩
  | refindPanic t k h hc =>
    have := I.place t
    rw [h] at this
    exact absurd hc this
  | add t k c u h =>
    refine ⟨I.add strong h u, ?_⟩
    have := I.place t
    rw [h] at this
    have this : w.table k = some c := this
    show g.map k ≠ none
    rw [I.abs k, this]; simp
  | drop t k c h => exact ⟨unlockRead t _ (by rw [h]; rfl) (by rw [h]; rfl) rfl rfl trivial, trivial⟩
  | startRemove t k h => exact ⟨stay t _ (by rw [h]; rfl) (by rw [h]; rfl) (by simp [SWPc.holdsRead]) trivial, trivial⟩
  | lockRemove t k h hl => exact ⟨lockWrite t _ (by rw [h]; rfl) (by rw [h]; rfl) hl rfl trivial, trivial⟩
  | removeSome t k c j us h hc hr =>
    have ht : (w.pc t).holdsWrite = true := by rw [h]; rfl
    refine ⟨(I.remove strong ht (by rw [h]; exact fun _ => trivial) (some us)).goto t .removed (fun h' => ?_)
      (fun _ => .inl ht) (fun h' => by cases h') (fun _ => .inl rfl) (fun _ => rfl) trivial, ?_⟩
    · have h' : (w.pc t).holdsRead = true := h'
      rw [h] at h'; cases h'
    · show some us = g.map k
      rw [I.abs k, hc, (I.exact ht hr).2]; rfl
  | removeNone t k h hc =>
    have ht : (w.pc t).holdsWrite = true := by rw [h]; rfl
    have hsame : w.setTable k none = w := by
      have : Function.update w.table k none = w.table := by rw [← hc]; exact Function.update_eq_self _ _
      simp [SWSys.setTable, this]
    have J := I.remove strong ht (k := k) (by rw [h]; exact fun _ => trivial) none
    rw [hsame] at J
    refine ⟨J.goto t .removed (fun h' => ?_) (fun _ => .inl ht) (fun h' => by cases h') (fun _ => .inl rfl) (fun _ => rfl)
      trivial, ?_⟩
    · rw [h] at h'; cases h'
    · show none = g.map k
      rw [I.abs k, hc]; rfl
  | unlockWrite t h => exact ⟨unlockWrite t _ (by rw [h]; rfl) (by rw [h]; rfl) rfl trivial, trivial⟩
  | startScan t h => exact ⟨stay t _ (by rw [h]; rfl) (by rw [h]; rfl) (by simp [SWPc.holdsRead]) trivial, trivial⟩
  | lockScan t h hl => exact ⟨lockRead t _ (by rw [h]; rfl) (by rw [h]; rfl) hl rfl trivial, trivial⟩
  | see t k c j us h hc hr =>
    refine ⟨I.see strong hc hr, _, by rw [I.abs k, hc]; rfl, I.prefix_last (List.mem_of_getElem? hr.2), ?_⟩
    exact I.low _ k c j us hc hr.1 hr.2
  | endScan t h => exact ⟨unlockRead t _ (by rw [h]; rfl) (by rw [h]; rfl) rfl rfl trivial, trivial⟩
  | sync t s => exact ⟨I.learn _ _, trivial⟩

theorem sw_inv {strong : Bool} {tr : List (SWEvent K U)} {w : SWSys K U} (h : Exec (SWStep strong) SWSys.new tr w) :
    SWInv (wghost strong tr) w := by
  induction h with
  | nil => exact SWInv.new
  | snoc _ hs ih =>
    simp only [wghost, List.foldl_append, List.foldl_cons, List.foldl_nil]
    exact (sw_step ih hs).1

end Measured.Conc
