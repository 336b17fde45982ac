import Verif.Proof.SparsePass

/-! Progress and termination on a sparse vector. -/

namespace Measured.Conc
open Measured.Spec

variable {K U : Type} [DecidableEq K]

/-- Threads that wait for a lock. -/
def SPc.waits : SPc K U → Bool
  | .getRead _ | .getWrite _ | .rmWrite _ | .collect .. => true
  | _ => false

/-- With discipline only idle threads keep guards. -/
theorem exec_of_disciplined {c : ShardConf K} {P : SSys K U → SEvent K U → Prop} {s0 : SSys K U} {tr : List (SEvent K U)}
    {s : SSys K U} (h : Exec (fun s e s' => SStep c s e s' ∧ P s e) s0 tr s) : Exec (SStep c) s0 tr s := by
  induction h with
  | nil => exact .nil
  | snoc _ hs ih => exact ih.snoc hs.1

theorem disciplined_guards {c : ShardConf K} {tr : List (SEvent K U)} {s : SSys K U}
    (h : Exec (fun s e s' => SStep c s e s' ∧ Disciplined s e) SSys.new tr s) (t : Tid) :
    (s.thr t).pc = .idle ∨ (s.thr t).guards = [] := by
  induction h with
  | nil => exact .inl rfl
  | @snoc tr s e s' hex hs ih =>
    obtain ⟨hs, hd⟩ := hs
    by_cases ht : t = e.tid
    · have hself : ∀ (s : SSys K U) (p : SPc K U), (s.goto t p).thr t = ⟨p, (s.thr t).guards⟩ := fun s p =>
        Function.update_self _ _ _
      have hself' : ∀ (s : SSys K U) (p : SPc K U) gs, (s.setGuards t p gs).thr t = ⟨p, gs⟩ := fun s p gs =>
        Function.update_self _ _ _
      cases hs with
      | startGet t' k hp => change t = t' at ht; subst ht; rw [hself]; exact .inr (hd t rfl)
      | startRemove t' k hp => change t = t' at ht; subst ht; rw [hself]; exact .inr (hd t rfl)
      | startPass t' hp => change t = t' at ht; subst ht; rw [hself]; exact .inr (hd t rfl)
      | hit t' k us hp hf => change t = t' at ht; subst ht; rw [hself']; exact .inl rfl
      | refind t' k us hp hf => change t = t' at ht; subst ht; rw [hself']; exact .inl rfl
      | release t' k hp hg => change t = t' at ht; subst ht; rw [hself']; exact .inl rfl
      | update t' k u us hg hf => exact ih
      | abort t' i j acc snap hp => change t = t' at ht; subst ht; rw [hself]; exact .inl rfl
      | endPass t' i acc hp hi => change t = t' at ht; subst ht; rw [hself]; exact .inl rfl
      | rmRelease t' k hp => change t = t' at ht; subst ht; rw [hself]; exact .inl rfl
      | dangling t' k hp hg hf =>
        exact absurd hf (((s_inv (exec_of_disciplined hex)).ok t').guards k hg)
      | _ t' =>
        change t = t' at ht; subst ht; rw [hself]
        rcases ih with ih | ih
        · simp_all
        · exact .inr ih
    · rw [step_other hs ht]; exact ih

/-! ## Snapshots of a scan -/

def SnapOk (table snap : List (K × List U)) : Prop :=
  List.Forall₂ (fun a b => a.1 = b.1 ∧ a.2 <+: b.2) snap table

theorem snapOk_refl (l : List (K × List U)) : SnapOk l l := by
  induction l with
  | nil => exact .nil
  | cons a l ih => exact .cons ⟨rfl, List.prefix_refl _⟩ ih

theorem snapOk_update {l snap : List (K × List U)} (h : SnapOk l snap) (k : K) (u : U) :
    SnapOk (addUpdate k u l) snap := by
  induction h with
  | nil => exact .nil
  | cons h1 _ ih =>
    refine .cons ?_ ih
    simp only
    split
    · exact ⟨h1.1, h1.2.trans (List.prefix_append _ _)⟩
    · exact h1

theorem SnapOk.get {l snap : List (K × List U)} (h : SnapOk l snap) {j : Nat} {k : K} {cur : List U}
    (hc : l[j]? = some (k, cur)) : ∃ old, snap[j]? = some (k, old) ∧ old <+: cur := by
  induction h generalizing j with
  | nil => simp at hc
  | @cons a b snap l h1 _ ih =>
    cases j with
    | zero =>
      simp only [List.getElem?_cons_zero, Option.some.injEq] at hc
      subst hc
      exact ⟨a.2, by rw [List.getElem?_cons_zero]; exact congrArg some (Prod.ext h1.1 rfl), h1.2⟩
    | succ j => exact ih (by simpa using hc)

theorem snap_inv {c : ShardConf K} {tr : List (SEvent K U)} {s : SSys K U} (h : Exec (SStep c) SSys.new tr s)
    (t : Tid) (i j : Nat) (acc snap : List (K × List U)) (hp : (s.thr t).pc = .scan i j acc snap) :
    SnapOk (s.shards i) snap := by
  induction h generalizing t i j acc snap with
  | nil => simp [SSys.new] at hp
  | @snoc tr s e s' hex hs ih =>
    have hinv := s_inv hex
    by_cases ht : t = e.tid
    · have hself : ∀ (s : SSys K U) (p : SPc K U), ((s.goto t p).thr t).pc = p := fun s p => by
        show (Function.update s.thr t _ t).pc = p
        rw [Function.update_self]
      have hself' : ∀ (s : SSys K U) (p : SPc K U) gs, ((s.setGuards t p gs).thr t).pc = p := fun s p gs => by
        show (Function.update s.thr t _ t).pc = p
        rw [Function.update_self]
      cases hs with
      | passLock t' i' acc' hp' hi hl =>
        change t = t' at ht
        subst ht
        rw [hself] at hp
        cases hp
        exact snapOk_refl _
      | emit t' i' j' acc' snap' k old us cur hp' hc ho h1 h2 =>
        change t = t' at ht
        subst ht
        rw [hself] at hp
        cases hp
        exact ih t _ _ _ _ hp'
      | update t' k u us hg hf =>
        change t = t' at ht
        subst ht
        change (s.thr t).pc = _ at hp
        have hold := ih t i j acc snap hp
        by_cases he : i = c.shardOf k
        · subst he
          show SnapOk (Function.update s.shards _ _ _) snap
          rw [Function.update_self]
          exact snapOk_update hold k u
        · show SnapOk (Function.update s.shards _ _ _) snap
          rw [Function.update_of_ne he]; exact hold
      | hit t' k us hp' hf => change t = t' at ht; subst ht; rw [hself'] at hp; cases hp
      | refind t' k us hp' hf => change t = t' at ht; subst ht; rw [hself'] at hp; cases hp
      | release t' k hp' hg => change t = t' at ht; subst ht; rw [hself'] at hp; cases hp
      | _ t' => change t = t' at ht; subst ht; rw [hself] at hp; cases hp
    · have hth := step_other hs ht
      rw [hth] at hp
      have hold := ih t i j acc snap hp
      have hother : ∀ (a : Nat) l, i ≠ a → SnapOk (Function.update s.shards a l i) snap := by
        intro a l ha; rw [Function.update_of_ne ha]; exact hold
      cases hs with
      | insertNew t' k l hp' hf hl =>
        refine hother _ _ fun he => ?_
        refine (hinv.excl t' (c.shardOf k) (by show (s.thr t').pc.writeLock c = _; rw [hp']; rfl)).1 t (.inl ?_)
        rw [hp, ← he]; rfl
      | removeSome t' k us l hp' hf hl =>
        refine hother _ _ fun he => ?_
        refine (hinv.excl t' (c.shardOf k) (by show (s.thr t').pc.writeLock c = _; rw [hp']; rfl)).1 t (.inl ?_)
        rw [hp, ← he]; rfl
      | update t' k u us hg hf =>
        by_cases he : i = c.shardOf k
        · subst he
          show SnapOk (Function.update s.shards _ _ _) snap
          rw [Function.update_self]
          exact snapOk_update hold k u
        · exact hother _ _ he
      | _ => exact hold

/-! ## Progress -/

/-- Steps that finish what has been started: no new operation, no update, no failure. -/
def SEvent.finishes : SEvent K U → Prop
  | .startGet .. | .startRemove .. | .startPass _ | .update .. | .panic _ => False
  | _ => True

theorem sparse_progress {c : ShardConf K} {tr : List (SEvent K U)} {s : SSys K U} (hi : SInv c tr s)
    (hsnap : ∀ t i j acc snap, (s.thr t).pc = .scan i j acc snap → SnapOk (s.shards i) snap)
    (hd : ∀ t, (s.thr t).pc = .idle ∨ (s.thr t).guards = [])
    (hact : ∃ t, (s.thr t).pc ≠ .idle ∨ (s.thr t).guards ≠ []) :
    ∃ e s', SStep c s e s' ∧ Strict c s e ∧ e.finishes := by
  by_cases hrun : ∃ t, (s.thr t).pc.waits = false ∧ ((s.thr t).pc ≠ .idle ∨ (s.thr t).guards ≠ [])
  · obtain ⟨t, hw, ha⟩ := hrun
    cases hp : (s.thr t).pc with
    | idle =>
      rcases ha with ha | ha
      · exact absurd hp ha
      · obtain ⟨k, hk⟩ := List.exists_mem_of_ne_nil _ ha
        exact ⟨_, _, .release s t k hp hk, trivial, trivial⟩
    | getRead k => rw [hp] at hw; cases hw
    | getWrite k => rw [hp] at hw; cases hw
    | rmWrite k => rw [hp] at hw; cases hw
    | collect i acc => rw [hp] at hw; cases hw
    | probe k =>
      cases hf : findKey k (s.shards (c.shardOf k)) with
      | none => exact ⟨_, _, .miss s t k hp hf, trivial, trivial⟩
      | some us => exact ⟨_, _, .hit s t k us hp hf, trivial, trivial⟩
    | missed k => exact ⟨_, _, .missRelease s t k hp, trivial, trivial⟩
    | insert k =>
      cases hf : findKey k (s.shards (c.shardOf k)) with
      | none => exact ⟨_, _, .insertNew s t k _ hp hf (List.Perm.refl _), trivial, trivial⟩
      | some us => exact ⟨_, _, .insertFound s t k us hp hf, trivial, trivial⟩
    | inserted k => exact ⟨_, _, .downgrade s t k hp, trivial, trivial⟩
    | refind k =>
      cases hf : findKey k (s.shards (c.shardOf k)) with
      | none =>
        have := (hi.ok t).pc
        rw [hp] at this
        exact absurd hf this
      | some us => exact ⟨_, _, .refind s t k us hp hf, trivial, trivial⟩
    | removing k =>
      cases hf : findKey k (s.shards (c.shardOf k)) with
      | none => exact ⟨_, _, .removeNone s t k hp hf, trivial, trivial⟩
      | some us =>
        obtain ⟨l₁, l₂, hl⟩ := List.append_of_mem (findKey_some_mem hf)
        exact ⟨_, _, .removeSome s t k us (l₁ ++ l₂) hp hf (by rw [hl]; exact List.perm_middle.symm), trivial, trivial⟩
    | removed k => exact ⟨_, _, .rmRelease s t k hp, trivial, trivial⟩
    | scan i j acc snap =>
      cases hj : (s.shards i)[j]? with
      | none => exact ⟨_, _, .passNext s t i j acc snap hp (List.getElem?_eq_none_iff.1 hj), trivial, trivial⟩
      | some x =>
        obtain ⟨old, ho, hpre⟩ := (hsnap t i j acc snap hp).get (k := x.1) (cur := x.2) hj
        exact ⟨_, _, .emit s t i j acc snap x.1 old old x.2 hp hj ho (List.prefix_refl _) hpre, trivial, trivial⟩
    | panicked =>
      have := (hi.ok t).pc
      rw [hp] at this
      exact this.elim
  · have hno : ∀ u i, ¬ (s.thr u).HoldsW c i ∧ ¬ (s.thr u).HoldsR c i := by
      intro u i
      by_cases hwu : (s.thr u).pc.waits = true
      · have hg : (s.thr u).guards = [] := by
          rcases hd u with h | h
          · rw [h] at hwu; cases hwu
          · exact h
        refine ⟨?_, ?_⟩
        · intro h
          unfold SThread.HoldsW at h
          cases hp : (s.thr u).pc <;> rw [hp] at hwu h <;> simp [SPc.waits, SPc.writeLock] at hwu h
        · rintro (h | ⟨k, hk, _⟩)
          · cases hp : (s.thr u).pc <;> rw [hp] at hwu h <;> simp [SPc.waits, SPc.readLock] at hwu h
          · rw [hg] at hk; cases hk
      · have hwf : (s.thr u).pc.waits = false := by simpa using hwu
        have hidle : (s.thr u).pc = .idle := by
          by_contra hc
          exact hrun ⟨u, hwf, .inl hc⟩
        have hg : (s.thr u).guards = [] := by
          by_contra hc
          exact hrun ⟨u, hwf, .inr hc⟩
        refine ⟨?_, ?_⟩
        · intro h
          unfold SThread.HoldsW at h
          rw [hidle] at h; cases h
        · rintro (h | ⟨k, hk, _⟩)
          · rw [hidle] at h; cases h
          · rw [hg] at hk; cases hk
    by_cases hwr : ∃ u i, (s.thr u).WaitsW c i
    · obtain ⟨u, i, k, hk, hp | hp⟩ := hwr
      · exact ⟨_, _, .lockWrite s u k hp (fun v => hno v _), trivial, trivial⟩
      · exact ⟨_, _, .rmLock s u k hp (fun v => hno v _), trivial, trivial⟩
    · have hstrict : ∀ i u, ¬ (s.thr u).WaitsW c i := fun i u h => hwr ⟨u, i, h⟩
      obtain ⟨t, ha⟩ := hact
      have hw : (s.thr t).pc.waits = true := by
        by_contra hc
        exact hrun ⟨t, by simpa using hc, ha⟩
      cases hp : (s.thr t).pc with
      | getRead k => exact ⟨_, _, .lockRead s t k hp (fun v => (hno v _).1), hstrict _, trivial⟩
      | getWrite k => exact absurd ⟨k, rfl, .inl hp⟩ (hstrict (c.shardOf k) t)
      | rmWrite k => exact absurd ⟨k, rfl, .inr hp⟩ (hstrict (c.shardOf k) t)
      | collect i acc =>
        by_cases hin : i < c.n
        · exact ⟨_, _, .passLock s t i acc hp hin (fun v => (hno v _).1), hstrict _, trivial⟩
        · exact ⟨_, _, .endPass s t i acc hp (Nat.le_of_not_lt hin), trivial, trivial⟩
      | _ => rw [hp] at hw; cases hw

/-! ## Termination -/

/-- What is left to do for a pass in `m` shards from `i` on. -/
def passWork (sh : Nat → List (K × List U)) : Nat → Nat → Nat
  | 0, _ => 0
  | m + 1, i => (sh i).length + 2 + passWork sh m (i + 1)

theorem passWork_before (sh : Nat → List (K × List U)) (a : Nat) (l : List (K × List U)) (m i : Nat) (h : a < i) :
    passWork (Function.update sh a l) m i = passWork sh m i := by
  induction m generalizing i with
  | zero => rfl
  | succ m ih =>
    rw [passWork, passWork, ih (i + 1) (by omega), Function.update_of_ne (by omega)]

theorem passWork_update (sh : Nat → List (K × List U)) (a d : Nat) (l : List (K × List U)) (m i : Nat)
    (hl : l.length ≤ (sh a).length + d) : passWork (Function.update sh a l) m i ≤ passWork sh m i + d := by
  induction m generalizing i with
  | zero => exact Nat.zero_le _
  | succ m ih =>
    rw [passWork, passWork]
    by_cases ha : i = a
    · subst ha
      rw [Function.update_self, passWork_before _ _ _ _ _ (by omega)]
      omega
    · rw [Function.update_of_ne ha]
      have := ih (i + 1)
      omega

/-- The steps a thread still has to do, where an insertion counts for `N + 1`. -/
def pcWork (c : ShardConf K) (N : Nat) (sh : Nat → List (K × List U)) : SPc K U → Nat
  | .idle => 0
  | .getRead _ => 8 + N
  | .probe _ => 7 + N
  | .missed _ => 6 + N
  | .getWrite _ => 5 + N
  | .insert _ => 4 + N
  | .inserted _ => 3
  | .refind _ => 2
  | .rmWrite _ => 3
  | .removing _ => 2
  | .removed _ => 1
  | .collect i _ => passWork sh (c.n - i) i + 1
  | .scan i j _ _ => ((sh i).length - j) + 1 + passWork sh (c.n - (i + 1)) (i + 1) + 1
  | .panicked => 0

def threadWork (c : ShardConf K) (N : Nat) (sh : Nat → List (K × List U)) (th : SThread K U) : Nat :=
  pcWork c N sh th.pc + th.guards.length

theorem threadWork_update (c : ShardConf K) (N : Nat) (sh : Nat → List (K × List U)) (th : SThread K U) (a d : Nat)
    (l : List (K × List U)) (hl : l.length ≤ (sh a).length + d) :
    threadWork c N (Function.update sh a l) th ≤ threadWork c N sh th + d := by
  unfold threadWork
  cases th.pc with
  | collect i acc =>
    simp only [pcWork]
    have := passWork_update sh a d l (c.n - i) i hl
    omega
  | scan i j acc snap =>
    simp only [pcWork]
    by_cases ha : i = a
    · subst ha
      rw [Function.update_self, passWork_before _ _ _ _ _ (by omega)]
      omega
    · rw [Function.update_of_ne ha]
      have := passWork_update sh a d l (c.n - (i + 1)) (i + 1) hl
      omega
  | _ => simp only [pcWork]; omega

theorem sum_decrease {T : List Tid} (hn : T.Nodup) {f g : Tid → Nat} {t : Tid} (ht : t ∈ T) (d : Nat)
    (ho : ∀ u, u ≠ t → g u ≤ f u + d) (hs : g t + 1 + d * T.length ≤ f t) : (T.map g).sum + 1 ≤ (T.map f).sum := by
  have hothers : ∀ (L : List Tid), t ∉ L → (L.map g).sum ≤ (L.map f).sum + d * L.length := by
    intro L
    induction L with
    | nil => simp
    | cons x L ih =>
      intro hx
      rw [List.mem_cons, not_or] at hx
      have h1 := ih hx.2
      have h2 := ho x (Ne.symm hx.1)
      simp only [List.map_cons, List.sum_cons, List.length_cons, Nat.mul_add, Nat.mul_one]
      omega
  obtain ⟨l₁, l₂, rfl⟩ := List.append_of_mem ht
  rw [List.nodup_append] at hn
  have h1 : t ∉ l₁ := fun hm => hn.2.2 t hm t List.mem_cons_self rfl
  have h2 : t ∉ l₂ := (List.nodup_cons.1 hn.2.1).1
  have a1 := hothers l₁ h1
  have a2 := hothers l₂ h2
  simp only [List.map_append, List.map_cons, List.sum_append, List.sum_cons, List.length_append, List.length_cons]
    at hs ⊢
  have : d * (l₁.length + (l₂.length + 1)) = d * l₁.length + d * l₂.length + d := by ring
  omega

def sysWork (c : ShardConf K) (T : List Tid) (s : SSys K U) : Nat :=
  (T.map fun t => threadWork c T.length s.shards (s.thr t)).sum

/-- A finishing step of thread `t` that changes no table. -/
theorem work_thread {c : ShardConf K} {T : List Tid} (hn : T.Nodup) {s : SSys K U} {t : Tid} (ht : t ∈ T)
    {th : SThread K U} (h : threadWork c T.length s.shards th + 1 ≤ threadWork c T.length s.shards (s.thr t)) :
    sysWork c T ⟨s.shards, Function.update s.thr t th⟩ + 1 ≤ sysWork c T s := by
  refine sum_decrease hn ht 0 ?_ ?_
  · intro u hu
    show threadWork c T.length s.shards (Function.update s.thr t th u) ≤ _
    rw [Function.update_of_ne hu]; omega
  · show threadWork c T.length s.shards (Function.update s.thr t th t) + 1 + _ ≤ _
    rw [Function.update_self]; omega

theorem work_table {c : ShardConf K} {T : List Tid} (hn : T.Nodup) {s : SSys K U} {t : Tid} (ht : t ∈ T)
    {p p' : SPc K U} {a d : Nat} {l : List (K × List U)} (hl : l.length ≤ (s.shards a).length + d)
    (hp : (s.thr t).pc = p) (hp' : pcWork c T.length (Function.update s.shards a l) p' + 1 + d * T.length ≤
      pcWork c T.length s.shards p) :
    sysWork c T ((s.setShard a l).goto t p') + 1 ≤ sysWork c T s := by
  refine sum_decrease hn ht d ?_ ?_
  · intro u hu
    show threadWork c T.length (Function.update s.shards a l) (Function.update s.thr t _ u) ≤ _
    rw [Function.update_of_ne hu]
    exact threadWork_update c _ _ _ a d l hl
  · show threadWork c T.length (Function.update s.shards a l) (Function.update s.thr t _ t) + 1 + _ ≤ _
    rw [Function.update_self]
    unfold threadWork
    rw [hp]
    show pcWork c _ _ p' + (s.thr t).guards.length + 1 + _ ≤ _
    omega

theorem goto_work {c : ShardConf K} {T : List Tid} (hn : T.Nodup) {s : SSys K U} {t : Tid} (ht : t ∈ T)
    {p p' : SPc K U} (hp : (s.thr t).pc = p)
    (h : pcWork c T.length s.shards p' + 1 ≤ pcWork c T.length s.shards p) :
    sysWork c T (s.goto t p') + 1 ≤ sysWork c T s := by
  refine work_thread hn ht ?_
  unfold threadWork
  rw [hp]
  show pcWork c _ _ p' + (s.thr t).guards.length + 1 ≤ _
  omega

theorem work_decreases {c : ShardConf K} {T : List Tid} (hn : T.Nodup) {tr : List (SEvent K U)} {s s' : SSys K U}
    {e : SEvent K U} (hi : SInv c tr s) (hT : ∀ t, t ∉ T → s.thr t = ⟨.idle, []⟩) (hs : SStep c s e s')
    (hf : e.finishes) :
    sysWork c T s' + 1 ≤ sysWork c T s ∧ ∀ t, t ∉ T → s'.thr t = ⟨.idle, []⟩ := by
  have hmem : e.tid ∈ T := by
    by_contra hc
    have := hT _ hc
    cases hs with
    | release t k hp hg => rw [show s.thr t = ⟨.idle, []⟩ from this] at hg; cases hg
    | startGet => exact hf
    | startRemove => exact hf
    | startPass => exact hf
    | update => exact hf
    | dangling => exact hf
    | refindPanic => exact hf
    | _ t =>
      have hidle : (s.thr t).pc = .idle := by rw [show s.thr t = ⟨.idle, []⟩ from this]
      simp_all
  refine ⟨?_, ?_⟩
  · cases hs with
    | startGet => exact hf.elim
    | startRemove => exact hf.elim
    | startPass => exact hf.elim
    | update => exact hf.elim
    | dangling => exact hf.elim
    | refindPanic => exact hf.elim
    | lockRead t k hp hl => exact goto_work hn hmem hp (by simp only [pcWork]; omega)
    | hit t k us hp hf' =>
      refine work_thread hn hmem ?_
      unfold threadWork
      change _ ≤ pcWork c _ _ (s.thr t).pc + (s.thr t).guards.length
      rw [hp]
      simp only [pcWork, List.length_cons]; omega
    | miss t k hp hf' => exact goto_work hn hmem hp (by simp only [pcWork]; omega)
    | missRelease t k hp => exact goto_work hn hmem hp (by simp only [pcWork]; omega)
    | lockWrite t k hp hl => exact goto_work hn hmem hp (by simp only [pcWork]; omega)
    | insertFound t k us hp hf' => exact goto_work hn hmem hp (by simp only [pcWork]; omega)
    | insertNew t k l hp hf' hl =>
      exact work_table (d := 1) hn hmem (by rw [hl.length_eq]; simp) hp (by simp only [pcWork]; omega)
    | downgrade t k hp => exact goto_work hn hmem hp (by simp only [pcWork]; omega)
    | refind t k us hp hf' =>
      refine work_thread hn hmem ?_
      unfold threadWork
      change _ ≤ pcWork c _ _ (s.thr t).pc + (s.thr t).guards.length
      rw [hp]
      simp only [pcWork, List.length_cons]; omega
    | release t k hp hg =>
      refine work_thread hn hmem ?_
      unfold threadWork
      change _ ≤ pcWork c _ _ (s.thr t).pc + (s.thr t).guards.length
      rw [hp, List.length_erase_of_mem hg]
      have := List.length_pos_of_mem hg
      simp only [pcWork]; omega
    | rmLock t k hp hl => exact goto_work hn hmem hp (by simp only [pcWork]; omega)
    | removeSome t k us l hp hf' hl =>
      have := hl.length_eq
      rw [List.length_cons] at this
      exact work_table (d := 0) hn hmem (by omega) hp (by simp only [pcWork]; omega)
    | removeNone t k hp hf' => exact goto_work hn hmem hp (by simp only [pcWork]; omega)
    | rmRelease t k hp => exact goto_work hn hmem hp (by simp only [pcWork]; omega)
    | passLock t i acc hp hlt hl =>
      refine goto_work hn hmem hp ?_
      simp only [pcWork]
      have : c.n - i = (c.n - (i + 1)) + 1 := by omega
      rw [this, passWork]
      omega
    | emit t i j acc snap k old us cur hp hc ho h1 h2 =>
      refine goto_work hn hmem hp ?_
      have := (List.getElem?_eq_some_iff.1 hc).1
      simp only [pcWork]; omega
    | abort t i j acc snap hp => exact goto_work hn hmem hp (by simp only [pcWork]; omega)
    | passNext t i j acc snap hp hj => exact goto_work hn hmem hp (by simp only [pcWork]; omega)
    | endPass t i acc hp hi' => exact goto_work hn hmem hp (by simp only [pcWork]; omega)
  · intro t ht
    rw [step_other hs (t := t) (fun he => ht (he ▸ hmem))]
    exact hT t ht

theorem finite_support {c : ShardConf K} {tr : List (SEvent K U)} {s : SSys K U}
    (h : Exec (SStep c) SSys.new tr s) : ∃ T : List Tid, T.Nodup ∧ ∀ t, t ∉ T → s.thr t = ⟨.idle, []⟩ := by
  induction h with
  | nil => exact ⟨[], List.nodup_nil, fun _ _ => rfl⟩
  | @snoc tr s e s' _ hs ih =>
    obtain ⟨T, hn, hT⟩ := ih
    by_cases he : e.tid ∈ T
    · refine ⟨T, hn, fun t ht => ?_⟩
      rw [step_other hs (t := t) (fun h => ht (h ▸ he))]
      exact hT t ht
    · refine ⟨e.tid :: T, List.nodup_cons.2 ⟨he, hn⟩, fun t ht => ?_⟩
      rw [List.mem_cons, not_or] at ht
      rw [step_other hs ht.1]
      exact hT t ht.2

theorem exec_append {S E : Type} {step : S → E → S → Prop} {s0 s1 s2 : S} {tr tr' : List E}
    (h : Exec step s0 tr s1) (h' : Exec step s1 tr' s2) : Exec step s0 (tr ++ tr') s2 := by
  induction h' with
  | nil => simpa using h
  | snoc _ hs ih => rw [← List.append_assoc]; exact ih.snoc hs

/-- Runs that only finish what has been started are bounded. -/
theorem finishing_bounded {c : ShardConf K} {T : List Tid} (hn : T.Nodup) {tr : List (SEvent K U)} {s : SSys K U}
    (h : Exec (SStep c) SSys.new tr s) (hT : ∀ t, t ∉ T → s.thr t = ⟨.idle, []⟩) {tr' : List (SEvent K U)}
    {s' : SSys K U} (h' : Exec (fun s e s' => SStep c s e s' ∧ e.finishes) s tr' s') :
    tr'.length + sysWork c T s' ≤ sysWork c T s ∧ ∀ t, t ∉ T → s'.thr t = ⟨.idle, []⟩ := by
  induction h' with
  | nil => exact ⟨by simp, hT⟩
  | @snoc tr' s1 e s2 hex hs ih =>
    have hinv := s_inv (exec_append h (exec_of_disciplined (P := fun _ e => e.finishes) hex))
    obtain ⟨h1, h2⟩ := work_decreases hn hinv ih.2 hs.1 hs.2
    refine ⟨?_, h2⟩
    have := ih.1
    simp only [List.length_append, List.length_singleton]
    omega

end Measured.Conc
