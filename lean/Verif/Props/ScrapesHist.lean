import Verif.Props.Scrapes

/-!
# Groups with histogram vectors, step by step

Runs that meet the conditions of `C71_group`, `C72_group` and `C76_group` on vectors of histograms.
-/

namespace Measured
open Conc Spec Proto

namespace RegHist

abbrev parts : Fin 2 → Part
  | 0 => .sparseHist Nat inferInstance SparseExample.conf HistVecExample.le
  | 1 => .denseHist 2 HistDenseExample.le

def sparseTrace : List (HVEvent Nat) :=
  HistVecExample.tr₁ ++ .vec (.startPass 1) :: HistVecExample.tr₂ ++ .vec (.endPass 1 [(1, [])]) :: HistVecExample.tr₃

def denseTrace : List HDEvent :=
  HistDenseExample.tr₁ ++ .vec (.startPass 1) :: HistDenseExample.tr₂ ++ .vec (.endPass 1) :: []

def trace : List (Σ i, (parts i).E) :=
  sparseTrace.map (fun e => ⟨0, e⟩) ++ denseTrace.map fun e => ⟨1, e⟩

theorem run : ∃ s, Exec (RegStep parts) (fun i => (parts i).init) trace s := by
  obtain ⟨v, hv⟩ := HistVecExample.run
  obtain ⟨d, hd⟩ := HistDenseExample.run
  have e1 := RegExample.lift (parts := parts) (s := fun i => (parts i).init) 0 (x := v) hv
  have e2 := RegExample.lift (parts := parts) (s := Function.update (fun i => (parts i).init) 0 v) 1 (x := d) hd
  exact ⟨_, exec_append e1 e2⟩

def lagName : Name := .str b!"lag"
def waitName : Name := .str b!"wait"

theorem lag_ok : MetricNameRe lagName.text := (C38_from_str _).1.1 (by decide)
theorem wait_ok : MetricNameRe waitName.text := (C38_from_str _).1.1 (by decide)

open ConcExample in
def fields : Fin 2 → ScrapeField
  | 0 => ⟨lagName, [], fun enc n => hvEncode enc n idLabel HistVecExample.le (hvEmitted 1 HistVecExample.tr₂)⟩
  | 1 => ⟨waitName, [], fun enc n => hvEncode enc n idLabel HistDenseExample.le (hdEmitted 1 HistDenseExample.tr₂)⟩

open ConcExample in
def claims : Fin 2 → Claim
  | 0 => ⟨Nat, .histogram HistVecExample.le, lagName, [], idLabel, HVWas 1 HistVecExample.tr₁ HistVecExample.tr₂,
      HVThere 1 HistVecExample.tr₁ HistVecExample.tr₂⟩
  | 1 => ⟨Nat, .histogram HistDenseExample.le, waitName, [], idLabel, HDWas 1 HistDenseExample.tr₁ HistDenseExample.tr₂,
      HDThere 1 HistDenseExample.tr₁⟩

theorem le_mono : NonDecreasing [F64.one] := by
  intro i j x y hij hx hy
  have h1 := (List.getElem?_eq_some_iff.1 hx).1
  have h2 := (List.getElem?_eq_some_iff.1 hy).1
  simp only [List.length_singleton] at h1 h2
  omega

theorem le_nan : ∀ b ∈ [F64.one], b.isNaN = false := by decide +kernel

section
open HistVecExample

theorem sparse_ok (v : Tid) (k : Nat) (u : Tid) (x : F64) (hm : .observe v k (.done u x) ∈ tr₁ ++ tr₂) :
    x.isNaN = false := by
  simp only [tr₁, tr₂, List.mem_append, List.mem_cons, List.not_mem_nil, or_false, HVEvent.observe.injEq, reduceCtorEq,
    false_or, or_self, and_false, HistEvent.done.injEq] at hm
  rw [hm.2.2.2]
  decide +kernel

theorem finished_length {K : Type} [DecidableEq K] (p : List (HVEvent K)) (k : K) (xs : List F64)
    (h : finishedOf p k = some xs) : xs.length ≤ p.length := by
  induction p using List.reverseRecOn generalizing xs with
  | nil => cases h
  | append_singleton p e ih =>
    rw [finishedOf, List.foldl_append, ← finishedOf, List.foldl_cons, List.foldl_nil] at h
    have keep : ∀ ys, finishedOf p k = some ys → ys.length ≤ p.length + 1 := fun ys hy => Nat.le_succ_of_le (ih ys hy)
    rw [List.length_append, List.length_singleton]
    unfold finishedAfter at h
    split at h
    · split at h
      · cases h; exact Nat.zero_le _
      · exact keep _ h
    · split at h
      · obtain ⟨ys, hy, rfl⟩ := Option.map_eq_some_iff.1 h
        have := ih ys hy
        rw [List.length_append, List.length_singleton]
        omega
      · exact keep _ h
    · split at h
      · cases h
      · exact keep _ h
    · exact keep _ h

theorem sparse_length (p : List (HVEvent Nat)) (hp : p <+: tr₂) : (tr₁ ++ .vec (.startPass 1) :: p).length < 2 ^ 63 := by
  have := hp.length_le
  simp only [List.length_append, List.length_cons]
  have h1 : tr₁.length = 11 := rfl
  have h2 : tr₂.length = 13 := rfl
  omega

end

section
open HistDenseExample

theorem dense_ok (v : Tid) (k : Nat) (u : Tid) (x : F64) (hm : .observe v k (.done u x) ∈ tr₁ ++ tr₂) :
    x.isNaN = false := by
  simp only [tr₁, tr₂, List.mem_append, List.mem_cons, List.not_mem_nil, or_false, HDEvent.observe.injEq, reduceCtorEq,
    false_or, or_self, and_false, HistEvent.done.injEq] at hm
  rw [hm.2.2.2]
  decide +kernel

theorem dense_small (i : Nat) : (hdFinished i (tr₁ ++ tr₂)).length < 2 ^ 63 := by
  simp only [tr₁, tr₂, List.cons_append, List.nil_append, hdFinished]
  split <;> simp

end

open ConcExample in
theorem in_use : ∀ i, FieldInUse 1 (parts i) (onField i trace) (fields i) (claims i)
  | 0 => FieldInUse.sparseHist Nat inferInstance SparseExample.conf _ idLabel HistVecExample.tr₁ HistVecExample.tr₂
    HistVecExample.tr₃ [(1, [])] lagName [] (fun _ => Nat.mod_lt _ (by decide)) le_mono le_nan (by simp [HistVecExample.tr₂])
    sparse_ok
    fun p x xs hp h => ⟨idLabel_ok x, Nat.lt_of_le_of_lt (finished_length _ _ _ h) (sparse_length p hp)⟩
  | 1 => FieldInUse.denseHist 2 _ idLabel HistDenseExample.tr₁ HistDenseExample.tr₂ [] waitName [] le_mono le_nan
    (by simp [HistDenseExample.tr₂]) dense_ok idLabel_ok dense_small

/-- Both texts have the key 1: the sparse vector had it at all moments of the pass, and of the dense vector thread 1 knew
that the cell was filled. -/
example {ryu : F64 → Bytes} {rf : Bytes → Option F64} (F : FloatText ryu rf) (m : Mode) :
    ∃ st out a b, regCollect (textEncoder m ryu) (List.ofFn fields) (TextEnc.new []) = (.ok (), ⟨st, out⟩) ∧
      readFamilies rf out = some [a, b] ∧ (claims 0).text rf a ∧ (claims 1).text rf b ∧
      (claims 0).there (1 : Nat) ∧ (claims 1).there (1 : Nat) := by
  obtain ⟨s, h⟩ := run
  obtain ⟨st, out, gs, e1, e2, hl, e3⟩ := C71_group F m h 1 fields claims in_use
    (by
      intro i
      match i with
      | 0 => exact lag_ok
      | 1 => exact wait_ok)
    (by
      intro i x hx
      match i with
      | 0 => cases hx
      | 1 => cases hx)
  match gs, hl, e3 with
  | [a, b], _, e3 =>
    refine ⟨st, out, a, b, e1, e2, e3 0, e3 1, ?_, ?_⟩
    · intro p hp
      have h : ∀ p ∈ HistVecExample.tr₂.inits, finishedOf (HistVecExample.tr₁ ++ .vec (.startPass 1) :: p) 1 ≠ none := by
        decide +kernel
      exact h p ((List.mem_inits _ _).2 hp)
    · exact ⟨[.startGet 0 1, .silent 0, .silent 0, .init 0 1 0], [.sync 1 0], 0, 0, rfl, .sync (tr := []) .start⟩

end RegHist

namespace TwiceHist
open HistDenseExample RegHist

/-- One more observation by thread 0. -/
def mid : List HDEvent :=
  [.observe 0 1 (.start 0 F64.one), .observe 0 1 (.silent 0), .observe 0 1 (.bumped 0 F64.one), .observe 0 1 (.silent 0),
    .observe 0 1 (.summed 0 F64.one), .observe 0 1 (.done 0 F64.one)]

def again (y : F64) : List HDEvent :=
  [.vec (.skip 1 0), .sampling 1 1 (.silent 1), .sampling 1 1 (.silent 1), .sampling 1 1 (.silent 1),
    .sampling 1 1 (.silent 1), .sampling 1 1 (.silent 1),
    .emit 1 1 ([2], 0, F64.add y F64.one)]

def events : List HDEvent :=
  tr₁ ++ .vec (.startPass 1) :: tr₂ ++ .vec (.endPass 1) :: mid ++ .vec (.startPass 1) :: again (F64.add F64.pzero F64.one) ++
    .vec (.endPass 1) :: []

theorem run : ∃ s, Exec (HDStep 2 le) (HDSys.new 1) events s := by
  obtain ⟨s₁, v0, h0, e1, _, _, e2, ⟨p0, p1, hc, hk0, hk1, hr⟩, hin, hpc⟩ := run'
  have e3 : Exec (HDStep 2 le) (HDSys.new 1) (tr₁ ++ .vec (.startPass 1) :: tr₂ ++ .vec (.endPass 1) :: []) (st v0 h0) := by
    have := exec_trans e1 e2
    exact this
  let x := F64.one
  obtain ⟨y, hy⟩ : ∃ y, y = F64.add F64.pzero F64.one := ⟨_, rfl⟩
  rw [← hy] at hin
  let v1 := v0.goto 1 (.pass 0)
  let v2 := v1.goto 1 (.pass 1)
  let v3 := (v2.goto 1 (.pass 2)).learn 1 1 0
  let v4 := v3.goto 1 .idle
  let h1 := h0.goto 0 (.wantRead 0 x)
  let h2 := h1.goto 0 (.bump 0 x)
  let h3 : HistSys := ⟨bumpBucket h2.inner 0, Function.update h2.pc 0 (.adding x)⟩
  let h5 := h3.goto 0 (.loaded x y)
  let h6 : HistSys := ⟨{ h5.inner with sum := F64.add y x }, Function.update h5.pc 0 (.added x)⟩
  let h7 := h6.goto 0 .idle
  let h7' := h7.goto 1 .wantWrite
  let h8 := h7'.goto 1 (.sampling [])
  let h9 := h8.goto 1 (.sampling [2])
  let h10 := h9.goto 1 (.sampledInf [2] 0)
  let h11 := h10.goto 1 (.sampled [2] 0 (F64.add y x))
  let h12 := h11.goto 1 .idle
  have free1 : ∀ u, (h1.pc u).holdsWrite = false := by
    intro u
    by_cases hu : u = 0
    · subst hu; rfl
    · simp [h1, HistSys.goto, hpc, hu, HistPc.holdsWrite]
  have free7 : ∀ u, (h7'.pc u).holdsWrite = false ∧ (h7'.pc u).holdsRead = false := by
    intro u
    by_cases hu : u = 0
    · subst hu; exact ⟨rfl, rfl⟩
    by_cases hu1 : u = 1
    · subst hu1; exact ⟨rfl, rfl⟩
    · simp [h7', h7, h6, h5, h3, h2, h1, HistSys.goto, hpc, hu, hu1, HistPc.holdsWrite, HistPc.holdsRead]
  have idle7 : h7.pc 1 = .idle := hpc 1
  have in3 : h3.inner = ⟨[2], 0, y⟩ := by
    show bumpBucket h0.inner 0 = _
    rw [hin]; rfl
  have in8 : h7.inner = ⟨[2], 0, F64.add y x⟩ := by
    show { h3.inner with sum := F64.add y x } = _
    rw [in3]
  have k2 : v2.know 1 1 = some 0 := hk1
  have obs : ∀ {h h' : HistSys} {e : HistEvent}, e.tid = 0 → HistStep le h e h' → (h.pc 0).ofSampler = false →
      (h'.pc 0).ofSampler = false → HDStep 2 le (st v0 h) (.observe 0 1 e) (st v0 h') := by
    intro h h' e he hs a b
    have := observe (v := v0) hs (he ▸ p0) (he ▸ hr) (he ▸ a) (he ▸ b)
    rwa [he] at this
  refine ⟨st v4 h12, ?_⟩
  have e4 : Exec (HDStep 2 le) (st v0 h0) (mid ++ .vec (.startPass 1) :: again y ++ [.vec (.endPass 1)]) (st v4 h12) := by
    refine exec_cons (m := st v0 h1) (obs rfl (.start h0 0 x 0 (hpc 0) (by decide +kernel)) (by rw [hpc]; rfl) rfl) ?_
    refine exec_cons (m := st v0 h2) (obs rfl (.lockRead h1 0 0 x rfl free1) rfl rfl) ?_
    refine exec_cons (m := st v0 h3) (obs rfl (.bump h2 0 0 x rfl (Nat.zero_le _)) rfl rfl) ?_
    refine exec_cons (m := st v0 h5) (obs rfl (.load h3 0 x y rfl) rfl rfl) ?_
    refine exec_cons (m := st v0 h6) (obs rfl (.casOk h5 0 x y rfl (by show h3.inner.sum = y; rw [in3])) rfl rfl) ?_
    refine exec_cons (m := st v0 h7) (obs rfl (.unlockRead h6 0 x rfl) rfl rfl) ?_
    refine exec_cons (m := st v1 h7) (vec (.startPass v0 1 p1) (st_idle idle7)) ?_
    refine exec_cons (m := st v2 h7) (vec (.skip v1 1 0 rfl (by decide) hk0) (st_idle idle7)) ?_
    refine exec_cons (m := st v2 h7') (sampling (.startSample h7 1 idle7) rfl hc rfl) ?_
    refine exec_cons (m := st v2 h8) (sampling (.lockWrite h7' 1 rfl free7) rfl hc rfl) ?_
    refine exec_cons (m := st v2 h9) (sampling (.readBucket h8 1 [] 2 rfl
      (by show h7.inner.buckets[0]? = some 2; rw [in8]; rfl)) rfl hc rfl) ?_
    refine exec_cons (m := st v2 h10) (sampling (v := v2) (e := .silent 1) (by
      have := HistStep.readInf (le := le) h9 1 [2] rfl
      rw [show h9.inner = _ from in8] at this
      exact this rfl) rfl hc rfl) ?_
    refine exec_cons (m := st v2 h11) (sampling (v := v2) (e := .silent 1) (by
      have := HistStep.readSum (le := le) h10 1 [2] 0 rfl
      rw [show h10.inner = _ from in8] at this
      exact this) rfl hc rfl) ?_
    refine exec_cons (m := st v3 h12) ?_ ?_
    · rw [← st_update v2 v3 h11 h12]
      refine .emit (st v2 h11) 1 1 0 _ h12 v3 (.unlockWrite h11 1 [2] 0 _ rfl) hc
        (.emit v2 1 1 0 [] rfl (by decide) hc List.nil_prefix ?_)
      intro k hk
      rw [k2] at hk
      cases hk
      exact Nat.le_refl _
    exact Exec.snoc (tr := []) .nil (vec (.endPass v3 1 2 rfl (by decide)) (st_idle rfl))
  have e5 := exec_trans e3 e4
  unfold events
  rw [← hy]
  simpa only [List.append_assoc, List.cons_append, List.nil_append] using e5

open ConcExample in
def fst : ScrapeField := ⟨waitName, [], fun enc n => hvEncode enc n idLabel le (hdEmitted 1 tr₂)⟩

open ConcExample in
def snd : ScrapeField :=
  ⟨waitName, [], fun enc n => hvEncode enc n idLabel le (hdEmitted 1 (again (F64.add F64.pzero F64.one)))⟩

open ConcExample in
def claim : Claim := ⟨Nat, .histogram le, waitName, [], idLabel, HDWas 1 tr₁ tr₂, HDThere 1 tr₁⟩

def was : Nat → List F64 → Prop :=
  HDWas 1 (tr₁ ++ .vec (.startPass 1) :: tr₂ ++ .vec (.endPass 1) :: mid) (again (F64.add F64.pzero F64.one))

def there : Nat → Prop := HDThere 1 (tr₁ ++ .vec (.startPass 1) :: tr₂ ++ .vec (.endPass 1) :: mid)

open ConcExample in
theorem in_use : FieldTwice 1 1 (.denseHist 2 le) events fst snd claim was there fun _ => True :=
  FieldTwice.denseHist 2 le idLabel events tr₁ tr₂ mid (again (F64.add F64.pzero F64.one)) [] waitName [] rfl le_mono le_nan
    (by simp [tr₂]) (by simp [again]) .start
    (by
      intro v k u x hm
      simp only [events, tr₁, tr₂, mid, again, List.mem_append, List.mem_cons, List.not_mem_nil, or_false,
        HDEvent.observe.injEq, reduceCtorEq, false_or, or_self, and_false, HistEvent.done.injEq] at hm
      rw [hm.2.2.2]
      decide +kernel)
    idLabel_ok
    (by
      intro i
      simp only [events, tr₁, tr₂, mid, again, List.cons_append, List.nil_append, hdFinished]
      split <;> simp)

/-- The counts of the second text go on from those of the first; the key 1 is in both. -/
example {ryu : F64 → Bytes} {rf : Bytes → Option F64} (F : FloatText ryu rf) (m : Mode) :
    ∃ st st' out out' a b,
      regCollect (textEncoder m ryu) [fst] (TextEnc.new []) = (.ok (), ⟨st, out⟩) ∧
      regCollect (textEncoder m ryu) [snd] (TextEnc.new []) = (.ok (), ⟨st', out'⟩) ∧
      readFamilies rf out = some [a] ∧ readFamilies rf out' = some [b] ∧
      claim.GoesOn rf was (fun _ => True) a b ∧ claim.there (1 : Nat) ∧
      HDThere 1 (tr₁ ++ .vec (.startPass 1) :: tr₂ ++ .vec (.endPass 1) :: mid) 1 := by
  obtain ⟨s, h⟩ := run
  have hr := RegExample.lift (parts := fun _ : Fin 1 => .denseHist 2 le) (s := fun _ => HDSys.new 1) 0 h
  obtain ⟨st, st', out, out', gs, gs', e1, e2, e3, e4, hl, hl', e5⟩ := C76_group F m hr 1 1 (fun _ => fst) (fun _ => snd)
    (fun _ => claim) (fun _ => was) (fun _ => there) (fun _ _ => True)
    (fun i => by
      have : i = 0 := Subsingleton.elim _ _
      subst this
      exact in_use)
    (fun _ => wait_ok) (fun _ x hx => by cases hx)
  match gs, gs', hl, hl', e5 with
  | [a], [b], _, _, e5 =>
    refine ⟨st, st', out, out', a, b, e1, e2, e3, e4, (e5 0).2.2, ?_, ?_⟩
    · exact ⟨[.startGet 0 1, .silent 0, .silent 0, .init 0 1 0], [.sync 1 0], 0, 0, rfl, .sync (tr := []) .start⟩
    · exact ⟨[.startGet 0 1, .silent 0, .silent 0, .init 0 1 0], [.sync 1 0, .startPass 1, .skip 1 0, .emit 1 1 [], .endPass 1],
        0, 0, rfl, .keep (tr := [_, _, _, _]) (.keep (tr := [_, _, _]) (.keep (tr := [_, _]) (.keep (tr := [_])
          (.sync (tr := []) .start))))⟩

end TwiceHist

end Measured
