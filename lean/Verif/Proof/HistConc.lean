import Verif.Model.HistConc
import Verif.Proof.Atomic
import Verif.Proof.Histogram

/-! Invariants of a histogram used by many threads. -/

namespace Measured.Conc

/-- Bumps, additions and completions of a run. -/
def bumps : List HistEvent → List (Tid × F64)
  | [] => []
  | .bumped t x :: tr => (t, x) :: bumps tr
  | _ :: tr => bumps tr

def sums : List HistEvent → List (Tid × F64)
  | [] => []
  | .summed t x :: tr => (t, x) :: sums tr
  | _ :: tr => sums tr

def dones : List HistEvent → List (Tid × F64)
  | [] => []
  | .done t x :: tr => (t, x) :: dones tr
  | _ :: tr => dones tr

theorem bumps_append (a b : List HistEvent) : bumps (a ++ b) = bumps a ++ bumps b := by
  induction a with
  | nil => rfl
  | cons e a ih => cases e <;> simp [bumps, ih]

theorem sums_append (a b : List HistEvent) : sums (a ++ b) = sums a ++ sums b := by
  induction a with
  | nil => rfl
  | cons e a ih => cases e <;> simp [sums, ih]

theorem dones_append (a b : List HistEvent) : dones (a ++ b) = dones a ++ dones b := by
  induction a with
  | nil => rfl
  | cons e a ih => cases e <;> simp [dones, ih]

/-- The bucket `partition_point` finds. -/
def bktOf (le : List F64) (x : F64) : Nat :=
  match slicePartitionPoint le fun e => F64.flt e x with
  | .ok b => b
  | _ => 0

theorem bktOf_spec (le : List F64) (x : F64) :
    slicePartitionPoint le (fun e => F64.flt e x) = .ok (bktOf le x) ∧ bktOf le x ≤ le.length := by
  obtain ⟨b, hb, hle⟩ := slicePartitionPoint_le le fun e => F64.flt e x
  have : bktOf le x = b := by unfold bktOf; rw [hb]
  rw [this]
  exact ⟨hb, hle⟩

def bktHits (le xs : List F64) (j : Nat) : Nat := xs.countP fun x => bktOf le x = j

/-- The buckets after bumps for `xs`. -/
structure Counted (le xs : List F64) (h : HistInner) : Prop where
  buckets : h.buckets = (List.range le.length).map fun j => bktHits le xs j % W64
  inf : h.inf = bktHits le xs le.length % W64

theorem Counted.length {le xs : List F64} {h : HistInner} (hc : Counted le xs h) : h.buckets.length = le.length := by
  rw [hc.buckets]; simp

theorem bktHits_snoc (le xs : List F64) (x : F64) (j : Nat) :
    bktHits le (xs ++ [x]) j = bktHits le xs j + if bktOf le x = j then 1 else 0 := by
  simp [bktHits, List.countP_append, List.countP_cons]

theorem counted_default (le : List F64) : Counted le [] (HistInner.default le.length) := by
  refine ⟨?_, rfl⟩
  apply List.ext_getElem <;> simp [HistInner.default, bktHits]

theorem counted_bump {le xs : List F64} {h : HistInner} (hc : Counted le xs h) (x : F64) :
    Counted le (xs ++ [x]) (bumpBucket h (bktOf le x)) := by
  have hlen := hc.length
  have hb := (bktOf_spec le x).2
  unfold bumpBucket
  by_cases hlt : bktOf le x < h.buckets.length
  · rw [if_pos hlt]
    refine ⟨?_, ?_⟩
    · apply List.ext_getElem?
      intro j
      simp only [List.getElem?_modify, hc.buckets, List.getElem?_map]
      by_cases hj : j < le.length
      · simp only [List.getElem?_range hj, Option.map_some, bktHits_snoc]
        by_cases he : bktOf le x = j
        · simp [he, incU64, Nat.add_mod]
        · simp [he]
      · simp [List.getElem?_eq_none (l := List.range le.length) (i := j) (by simp; omega)]
    · rw [bktHits_snoc, if_neg (by omega)]
      exact hc.inf
  · rw [if_neg hlt]
    have he : bktOf le x = le.length := by omega
    refine ⟨?_, ?_⟩
    · rw [hc.buckets]
      apply List.map_congr_left
      intro j hj
      rw [bktHits_snoc, if_neg (by rw [List.mem_range] at hj; omega), Nat.add_zero]
    · simp [bktHits_snoc, he, hc.inf, incU64, Nat.add_mod]

theorem Counted.sum {le xs : List F64} {h : HistInner} (hc : Counted le xs h) (v : F64) :
    Counted le xs { h with sum := v } := ⟨hc.buckets, hc.inf⟩

theorem bumpBucket_sum (h : HistInner) (b : Nat) : (bumpBucket h b).sum = h.sum := by
  unfold bumpBucket; split <;> rfl

theorem bumpBucket_length (h : HistInner) (b : Nat) : (bumpBucket h b).buckets.length = h.buckets.length := by
  unfold bumpBucket; split <;> simp

/-- Sequential observation: the buckets and the sum. -/
theorem observeAll_counted (le : List F64) : ∀ (ys xs : List F64) (h : HistInner), Counted le xs h →
    ∃ h', histObserveAll le h ys = .ok h' ∧ Counted le (xs ++ ys) h' ∧ h'.sum = ys.foldl F64.add h.sum := by
  intro ys
  induction ys with
  | nil => intro xs h hc; exact ⟨h, rfl, by simpa using hc, rfl⟩
  | cons y ys ih =>
    intro xs h hc
    obtain ⟨hb1, hb2⟩ := bktOf_spec le y
    have ho : histObserve le h y = .ok { bumpBucket h (bktOf le y) with sum := F64.add h.sum y } := by
      unfold histObserve
      rw [hb1]
      simp only [Out.ok_bind, HistInner.observe, hc.length, hb2, if_true, bumpBucket]
      split <;> rfl
    obtain ⟨h', h1, h2, h3⟩ := ih (xs ++ [y]) _ ((counted_bump hc y).sum (F64.add h.sum y))
    refine ⟨h', ?_, by simpa using h2, by simpa using h3⟩
    rw [histObserveAll, ho]
    exact h1

theorem counted_perm {le xs ys : List F64} {h : HistInner} (hp : xs.Perm ys) (hc : Counted le xs h) :
    Counted le ys h := by
  have he : ∀ j, bktHits le ys j = bktHits le xs j := fun j => (hp.countP_eq _).symm
  refine ⟨?_, by rw [he]; exact hc.inf⟩
  rw [hc.buckets]
  exact List.map_congr_left fun j _ => by rw [he]

theorem counted_unique {le xs : List F64} {h h' : HistInner} (h1 : Counted le xs h) (h2 : Counted le xs h')
    (hs : h.sum = h'.sum) : h = h' := by
  have a := h1.buckets.trans h2.buckets.symm
  have b := h1.inf.trans h2.inf.symm
  cases h; cases h'
  simp_all

/-- What a thread has bumped but not completed. -/
def pendB (t : Tid) : HistPc → List (Tid × F64)
  | .adding x => [(t, x)]
  | .loaded x _ => [(t, x)]
  | .added x => [(t, x)]
  | _ => []

def pendS (t : Tid) : HistPc → List (Tid × F64)
  | .added x => [(t, x)]
  | _ => []

/-- What is known at a program point. -/
def PcOk (le : List F64) (h : HistInner) : HistPc → Prop
  | .wantRead b x => b = bktOf le x
  | .bump b x => b = bktOf le x
  | .sampling out => out = h.buckets.take out.length
  | .sampledInf out inf => out = h.buckets ∧ inf = h.inf
  | .sampled out inf sum => out = h.buckets ∧ inf = h.inf ∧ sum = h.sum
  | .panicked => False
  | _ => True

structure HistInv (le : List F64) (tr : List HistEvent) (s : HistSys) : Prop where
  counted : Counted le ((bumps tr).map Prod.snd) s.inner
  sum : s.inner.sum = ((sums tr).map Prod.snd).foldl F64.add F64.pzero
  pendB : ∀ t, (bumps tr).filter (fun a => a.1 = t) = (dones tr).filter (fun a => a.1 = t) ++ pendB t (s.pc t)
  pendS : ∀ t, (sums tr).filter (fun a => a.1 = t) = (dones tr).filter (fun a => a.1 = t) ++ pendS t (s.pc t)
  excl : ∀ t, (s.pc t).holdsWrite = true → ∀ u, u ≠ t → (s.pc u).holdsWrite = false ∧ (s.pc u).holdsRead = false
  ok : ∀ t, PcOk le s.inner (s.pc t)

theorem PcOk.of_not_write {le : List F64} {h h' : HistInner} {p : HistPc} (hp : PcOk le h p)
    (hw : p.holdsWrite = false) : PcOk le h' p := by
  cases p <;> simp_all [PcOk, HistPc.holdsWrite]

/-- A step that leaves the shared state alone. -/
theorem inv_goto {le : List F64} {tr : List HistEvent} {s : HistSys} {t : Tid} {p : HistPc} {e : HistEvent}
    (h : HistInv le tr s) (hb : bumps [e] = []) (hs : sums [e] = [])
    (hpb : ∀ u, Conc.pendB u (s.pc u) = (dones [e]).filter (fun a => a.1 = u) ++
      Conc.pendB u (Function.update s.pc t p u))
    (hps : ∀ u, Conc.pendS u (s.pc u) = (dones [e]).filter (fun a => a.1 = u) ++
      Conc.pendS u (Function.update s.pc t p u))
    (hex : p.holdsWrite = true → ∀ u, u ≠ t → (s.pc u).holdsWrite = false ∧ (s.pc u).holdsRead = false)
    (hrd : p.holdsRead = true → ∀ u, u ≠ t → (s.pc u).holdsWrite = false)
    (hok : PcOk le s.inner p) : HistInv le (tr ++ [e]) (s.goto t p) := by
  refine ⟨?_, ?_, ?_, ?_, ?_, ?_⟩
  · rw [bumps_append, hb, List.append_nil]; exact h.counted
  · rw [sums_append, hs, List.append_nil]; exact h.sum
  · intro u
    rw [bumps_append, hb, List.append_nil, dones_append, List.filter_append, List.append_assoc, h.pendB u, hpb u]
    rfl
  · intro u
    rw [sums_append, hs, List.append_nil, dones_append, List.filter_append, List.append_assoc, h.pendS u, hps u]
    rfl
  · intro u hu v hv
    change (Function.update s.pc t p u).holdsWrite = true at hu
    change (Function.update s.pc t p v).holdsWrite = false ∧ (Function.update s.pc t p v).holdsRead = false
    by_cases hut : u = t
    · subst hut
      rw [Function.update_self] at hu
      rw [Function.update_of_ne hv]
      exact hex hu v hv
    · rw [Function.update_of_ne hut] at hu
      by_cases hvt : v = t
      · subst hvt
        rw [Function.update_self]
        refine ⟨?_, ?_⟩
        · by_contra hc
          have := (hex (by simpa using hc) u hut).1
          rw [hu] at this; cases this
        · by_contra hc
          have := hrd (by simpa using hc) u hut
          rw [hu] at this; cases this
      · rw [Function.update_of_ne hvt]
        exact h.excl u hu v hv
  · intro u
    change PcOk le s.inner (Function.update s.pc t p u)
    by_cases hut : u = t
    · subst hut; rw [Function.update_self]; exact hok
    · rw [Function.update_of_ne hut]; exact h.ok u

theorem pend_same {f : Tid → HistPc → List (Tid × F64)} {pc : Tid → HistPc} {t : Tid} {p : HistPc} {e : HistEvent}
    (he : dones [e] = []) (hf : f t p = f t (pc t)) (u : Tid) :
    f u (pc u) = (dones [e]).filter (fun a => a.1 = u) ++ f u (Function.update pc t p u) := by
  rw [he, List.filter_nil, List.nil_append]
  by_cases hu : u = t
  · subst hu; rw [Function.update_self, hf]
  · rw [Function.update_of_ne hu]

theorem no_writer {le : List F64} {tr : List HistEvent} {s : HistSys} (h : HistInv le tr s) {t : Tid}
    (hr : (s.pc t).holdsRead = true) (u : Tid) : (s.pc u).holdsWrite = false := by
  by_contra hc
  have hc : (s.pc u).holdsWrite = true := by simpa using hc
  by_cases hu : t = u
  · subst hu
    cases hp : s.pc t <;> rw [hp] at hr hc <;> simp [HistPc.holdsRead, HistPc.holdsWrite] at hr hc
  · have := (h.excl u hc t hu).2
    rw [hr] at this; cases this

/-- A step that changes the shared state under the read lock. -/
theorem inv_write {le : List F64} {tr : List HistEvent} {s : HistSys} {t : Tid} {p : HistPc} {e : HistEvent}
    {h' : HistInner} (h : HistInv le tr s) (hr : (s.pc t).holdsRead = true) (hd : dones [e] = [])
    (hcount : Counted le ((bumps (tr ++ [e])).map Prod.snd) h')
    (hsum : h'.sum = ((sums (tr ++ [e])).map Prod.snd).foldl F64.add F64.pzero)
    (hb : ∀ u, Conc.pendB u (s.pc u) ++ (bumps [e]).filter (fun a => a.1 = u) =
      Conc.pendB u (Function.update s.pc t p u))
    (hs : ∀ u, Conc.pendS u (s.pc u) ++ (sums [e]).filter (fun a => a.1 = u) =
      Conc.pendS u (Function.update s.pc t p u))
    (hpw : p.holdsWrite = false) (hok : PcOk le h' p) :
    HistInv le (tr ++ [e]) ⟨h', Function.update s.pc t p⟩ := by
  refine ⟨hcount, hsum, ?_, ?_, ?_, ?_⟩
  · intro u
    rw [bumps_append, List.filter_append, h.pendB u, dones_append, hd, List.append_nil, List.append_assoc, hb u]
  · intro u
    rw [sums_append, List.filter_append, h.pendS u, dones_append, hd, List.append_nil, List.append_assoc, hs u]
  · intro u hu
    change (Function.update s.pc t p u).holdsWrite = true at hu
    by_cases hut : u = t
    · subst hut; rw [Function.update_self, hpw] at hu; cases hu
    · rw [Function.update_of_ne hut, no_writer h hr] at hu; cases hu
  · intro u
    change PcOk le h' (Function.update s.pc t p u)
    by_cases hut : u = t
    · subst hut; rw [Function.update_self]; exact hok
    · rw [Function.update_of_ne hut]
      exact (h.ok u).of_not_write (no_writer h hr u)

theorem histStep_inv {le : List F64} {tr : List HistEvent} {s s' : HistSys} {e : HistEvent} (h : HistInv le tr s)
    (hs : HistStep le s e s') : HistInv le (tr ++ [e]) s' ∧ ∀ t, e ≠ .panic t := by
  cases hs with
  | start t x b hp hb =>
    refine ⟨inv_goto h rfl rfl (pend_same rfl (by rw [hp]; rfl)) (pend_same rfl (by rw [hp]; rfl))
      (by simp [HistPc.holdsWrite]) (by simp [HistPc.holdsRead]) ?_, by simp⟩
    rw [(bktOf_spec le x).1] at hb
    cases hb; rfl
  | startPanic t x hp hb => exact absurd (bktOf_spec le x).1 (hb _)
  | lockRead t b x hp hl =>
    have hok := h.ok t
    rw [hp] at hok
    exact ⟨inv_goto h rfl rfl (pend_same rfl (by rw [hp]; rfl)) (pend_same rfl (by rw [hp]; rfl))
      (by simp [HistPc.holdsWrite]) (fun _ u _ => hl u) hok, by simp⟩
  | bump t b x hp hb =>
    have hok := h.ok t
    rw [hp] at hok
    have hok : b = bktOf le x := hok
    subst hok
    refine ⟨inv_write h (by rw [hp]; rfl) rfl ?_ ?_ ?_ ?_ rfl trivial, by simp⟩
    · rw [bumps_append, List.map_append]
      exact counted_bump h.counted x
    · rw [bumpBucket_sum, sums_append, h.sum]; simp [sums]
    · intro u
      by_cases hu : u = t
      · subst hu; rw [Function.update_self, hp]; simp [bumps, Conc.pendB]
      · rw [Function.update_of_ne hu]; simp [bumps, Ne.symm hu]
    · intro u
      by_cases hu : u = t
      · subst hu; rw [Function.update_self, hp]; simp [sums, Conc.pendS]
      · rw [Function.update_of_ne hu]; simp [sums]
  | bumpPanic t b x hp hb =>
    have hok := h.ok t
    rw [hp] at hok
    have hok : b = bktOf le x := hok
    rw [hok, h.counted.length] at hb
    exact absurd (bktOf_spec le x).2 hb
  | load t x cur hp =>
    exact ⟨inv_goto h rfl rfl (pend_same rfl (by rw [hp]; rfl)) (pend_same rfl (by rw [hp]; rfl))
      (by simp [HistPc.holdsWrite]) (fun _ u _ => no_writer h (t := t) (by rw [hp]; rfl) u) trivial, by simp⟩
  | casOk t x cur hp hc =>
    refine ⟨inv_write h (by rw [hp]; rfl) rfl ?_ ?_ ?_ ?_ rfl trivial, by simp⟩
    · rw [bumps_append, List.map_append]
      simpa [bumps] using h.counted.sum (F64.add cur x)
    · rw [sums_append, ← hc, h.sum]; simp [sums]
    · intro u
      by_cases hu : u = t
      · subst hu; rw [Function.update_self, hp]; simp [bumps, Conc.pendB]
      · rw [Function.update_of_ne hu]; simp [bumps]
    · intro u
      by_cases hu : u = t
      · subst hu; rw [Function.update_self, hp]; simp [sums, Conc.pendS]
      · rw [Function.update_of_ne hu]; simp [sums, Ne.symm hu]
  | casFail t x cur hp =>
    exact ⟨inv_goto h rfl rfl (pend_same rfl (by rw [hp]; rfl)) (pend_same rfl (by rw [hp]; rfl))
      (by simp [HistPc.holdsWrite]) (fun _ u _ => no_writer h (t := t) (by rw [hp]; rfl) u) trivial, by simp⟩
  | unlockRead t x hp =>
    refine ⟨inv_goto h rfl rfl ?_ ?_ (by simp [HistPc.holdsWrite]) (by simp [HistPc.holdsRead]) trivial, by simp⟩
    · intro u
      by_cases hu : u = t
      · subst hu; rw [Function.update_self, hp]; simp [dones, Conc.pendB]
      · rw [Function.update_of_ne hu]; simp [dones, Ne.symm hu]
    · intro u
      by_cases hu : u = t
      · subst hu; rw [Function.update_self, hp]; simp [dones, Conc.pendS]
      · rw [Function.update_of_ne hu]; simp [dones, Ne.symm hu]
  | startSample t hp =>
    exact ⟨inv_goto h rfl rfl (pend_same rfl (by rw [hp]; rfl)) (pend_same rfl (by rw [hp]; rfl))
      (by simp [HistPc.holdsWrite]) (by simp [HistPc.holdsRead]) trivial, by simp⟩
  | lockWrite t hp hl =>
    exact ⟨inv_goto h rfl rfl (pend_same rfl (by rw [hp]; rfl)) (pend_same rfl (by rw [hp]; rfl))
      (fun _ u _ => hl u) (by simp [HistPc.holdsRead]) rfl, by simp⟩
  | readBucket t out c hp hc =>
    have hok := h.ok t
    rw [hp] at hok
    have hok : out = s.inner.buckets.take out.length := hok
    refine ⟨inv_goto h rfl rfl (pend_same rfl (by rw [hp]; rfl)) (pend_same rfl (by rw [hp]; rfl))
      (fun _ => h.excl t (by rw [hp]; rfl)) (by simp [HistPc.holdsRead]) ?_, by simp⟩
    show out ++ [c] = s.inner.buckets.take (out ++ [c]).length
    rw [List.length_append, List.length_singleton, List.take_add_one, ← hok, hc]
    rfl
  | readInf t out hp hc =>
    have hok := h.ok t
    rw [hp] at hok
    have hok : out = s.inner.buckets.take out.length := hok
    refine ⟨inv_goto h rfl rfl (pend_same rfl (by rw [hp]; rfl)) (pend_same rfl (by rw [hp]; rfl))
      (fun _ => h.excl t (by rw [hp]; rfl)) (by simp [HistPc.holdsRead]) ?_, by simp⟩
    refine ⟨?_, rfl⟩
    rw [hok, hc, List.take_length]
  | readSum t out inf hp =>
    have hok := h.ok t
    rw [hp] at hok
    exact ⟨inv_goto h rfl rfl (pend_same rfl (by rw [hp]; rfl)) (pend_same rfl (by rw [hp]; rfl))
      (fun _ => h.excl t (by rw [hp]; rfl)) (by simp [HistPc.holdsRead]) ⟨hok.1, hok.2, rfl⟩, by simp⟩
  | unlockWrite t out inf sum hp =>
    exact ⟨inv_goto h rfl rfl (pend_same rfl (by rw [hp]; rfl)) (pend_same rfl (by rw [hp]; rfl))
      (by simp [HistPc.holdsWrite]) (by simp [HistPc.holdsRead]) trivial, by simp⟩

theorem hist_inv {le : List F64} {tr : List HistEvent} {s : HistSys}
    (h : Exec (HistStep le) (HistSys.new le.length) tr s) : HistInv le tr s ∧ ∀ t, .panic t ∉ tr := by
  induction h with
  | nil =>
    refine ⟨⟨counted_default le, rfl, fun _ => rfl, fun _ => rfl, ?_, fun _ => trivial⟩, by simp⟩
    intro t ht; cases ht
  | snoc _ hs ih =>
    obtain ⟨h1, h2⟩ := histStep_inv ih.1 hs
    refine ⟨h1, fun t ht => ?_⟩
    rcases List.mem_append.1 ht with ht | ht
    · exact ih.2 t ht
    · exact h2 t (List.mem_singleton.1 ht).symm

theorem perm_of_threads {a b : List (Tid × F64)}
    (h : ∀ t, a.filter (fun x => x.1 = t) = b.filter fun x => x.1 = t) : a.Perm b := by
  refine List.perm_iff_count.2 fun x => ?_
  have h1 := congrArg (List.count x) (h x.1)
  rwa [List.count_filter (by simp), List.count_filter (by simp)] at h1

/-- While the write lock is held nothing is half done. -/
theorem HistInv.noPending {le : List F64} {tr : List HistEvent} {s : HistSys} (h : HistInv le tr s) {t : Tid}
    (hw : (s.pc t).holdsWrite = true) : ∀ u, Conc.pendB u (s.pc u) = [] ∧ Conc.pendS u (s.pc u) = [] := by
  intro u
  have hr : (s.pc u).holdsRead = false := by
    by_cases hu : u = t
    · subst hu
      cases hp : s.pc u <;> rw [hp] at hw <;> simp [HistPc.holdsRead, HistPc.holdsWrite] at hw ⊢
    · exact (h.excl t hw u hu).2
  cases hp : s.pc u <;> rw [hp] at hr <;> simp [HistPc.holdsRead, Conc.pendB, Conc.pendS] at hr ⊢

theorem HistInv.quiet {le : List F64} {tr : List HistEvent} {s : HistSys} (h : HistInv le tr s) {t : Tid}
    (hw : (s.pc t).holdsWrite = true) : (bumps tr).Perm (dones tr) ∧ (sums tr).Perm (dones tr) := by
  have hq := h.noPending hw
  refine ⟨perm_of_threads fun u => ?_, perm_of_threads fun u => ?_⟩
  · rw [h.pendB u, (hq u).1, List.append_nil]
  · rw [h.pendS u, (hq u).2, List.append_nil]

end Measured.Conc
