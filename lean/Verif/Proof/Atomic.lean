import Verif.Spec.Concurrent
import Mathlib.Tactic.Ring
import Mathlib.Tactic.Push
import Mathlib.Data.List.Perm.Basic
import Mathlib.Data.List.Induction

/-! Invariants of a location and its users. -/

namespace Measured.Conc
open Measured.Spec

variable {Op V : Type}

theorem exec_snoc_inv {S E : Type} {step : S → E → S → Prop} {s0 : S} {tr : List E} {e : E} {s : S}
    (h : Exec step s0 (tr ++ [e]) s) : ∃ m, Exec step s0 tr m ∧ step m e s := by
  generalize ht : tr ++ [e] = l at h
  cases h with
  | nil => simp at ht
  | snoc h hs =>
    obtain ⟨rfl, h2⟩ := List.append_inj' ht rfl
    simp only [List.cons.injEq, and_true] at h2
    subst h2
    exact ⟨_, h, hs⟩

theorem exec_split {S E : Type} {step : S → E → S → Prop} {s0 : S} (tr₁ tr₂ : List E) {s : S}
    (h : Exec step s0 (tr₁ ++ tr₂) s) : ∃ m, Exec step s0 tr₁ m ∧ Exec step m tr₂ s := by
  induction tr₂ using List.reverseRecOn generalizing s with
  | nil => exact ⟨s, by simpa using h, .nil⟩
  | append_singleton tr₂ e ih =>
    rw [← List.append_assoc] at h
    obtain ⟨m, hm, hs⟩ := exec_snoc_inv h
    obtain ⟨m', h1, h2⟩ := ih hm
    exact ⟨m', h1, h2.snoc hs⟩

theorem exec_cons_inv {S E : Type} {step : S → E → S → Prop} {s0 : S} {tr : List E} {e : E} {s : S}
    (h : Exec step s0 (e :: tr) s) : ∃ m, step s0 e m ∧ Exec step m tr s := by
  obtain ⟨m, h1, h2⟩ := exec_split [e] tr h
  obtain ⟨m', h3, h4⟩ := exec_snoc_inv (tr := []) h1
  have h5 : ∀ l x, Exec step s0 l x → l = [] → x = s0 := by
    intro l x hx hl
    cases hx with
    | nil => rfl
    | snoc _ _ => simp at hl
  rw [h5 _ _ h3 rfl] at h4
  exact ⟨m, h4, h2⟩

theorem exec_cons {S E : Type} {step : S → E → S → Prop} {s0 m : S} {tr : List E} {e : E} {s : S}
    (hs : step s0 e m) (h : Exec step m tr s) : Exec step s0 (e :: tr) s := by
  induction h with
  | nil => exact Exec.snoc (tr := []) .nil hs
  | snoc _ hs' ih => exact Exec.snoc (tr := e :: _) ih hs'

/-- Every modification applied its operation to the value before it. -/
def Chain (eff : Op → Eff V) : V → List (Mod Op V) → Prop
  | _, [] => True
  | v, m :: ms => m.val = (eff m.op).apply v ∧ Chain eff m.val ms

def actOf (m : Mod Op V) : Tid × Op := (m.tid, m.op)

theorem chain_take {eff : Op → Eff V} {v : V} {ms : List (Mod Op V)} (h : Chain eff v ms) (i : Nat) :
    Chain eff v (ms.take i) := by
  induction ms generalizing v i with
  | nil => simp [Chain]
  | cons m ms ih =>
    cases i with
    | zero => simp [Chain]
    | succ i => exact ⟨h.1, ih h.2 i⟩

theorem chain_fold {eff : Op → Eff V} {v : V} {ms : List (Mod Op V)} (h : Chain eff v ms) :
    lastVal v ms = (ms.map actOf).foldl (fun v a => (eff a.2).apply v) v := by
  induction ms generalizing v with
  | nil => rfl
  | cons m ms ih =>
    simp only [lastVal, List.map_cons, List.foldl_cons, actOf]
    rw [ih h.2, h.1]

theorem isStore_apply {e : Eff V} (h : e.isStore = true) (v w : V) : e.apply v = e.apply w := by
  cases e with
  | rmw f => simp [Eff.isStore] at h
  | store x => rfl

theorem chain_insert {eff : Op → Eff V} {v : V} {ms : List (Mod Op V)} {i : Nat} {t : Tid} {op : Op}
    (h : Chain eff v ms) (hs : ∀ x, ms[i]? = some x → (eff x.op).isStore = true) {val : V}
    (hv : val = (eff op).apply (lastVal v (ms.take i))) :
    Chain eff v (ms.take i ++ ⟨t, op, val⟩ :: ms.drop i) := by
  induction ms generalizing v i with
  | nil => simpa [Chain, lastVal] using hv
  | cons m ms ih =>
    cases i with
    | zero =>
      refine ⟨hv, ?_, h.2⟩
      rw [h.1]
      exact isStore_apply (hs m (by simp)) _ _
    | succ i => exact ⟨h.1, ih h.2 (fun x hx => hs x (by simpa using hx)) hv⟩

/-- The invariant of a location. -/
structure Good (eff : Op → Eff V) (m : Mem Op V) : Prop where
  chain : Chain eff m.init m.mods
  view : ∀ t, m.view t ≤ m.mods.length
  own : ∀ i x, m.mods[i]? = some x → i < m.view x.tid

theorem good_new {eff : Op → Eff V} (v : V) : Good eff (Mem.new v) :=
  ⟨trivial, fun _ => Nat.le_refl _, by simp [Mem.new]⟩

theorem Good.load {eff : Op → Eff V} {m : Mem Op V} (h : Good eff m) {t : Tid} {i : Nat} (hl : m.CanLoad t i) :
    Good eff (m.load t i) := by
  refine ⟨h.chain, ?_, ?_⟩
  · intro s
    show Function.update m.view t i s ≤ m.mods.length
    by_cases hs : s = t
    · subst hs; simpa using hl.2
    · rw [Function.update_of_ne hs]; exact h.view s
  · intro j x hx
    have := h.own j x hx
    show j < Function.update m.view t i x.tid
    by_cases hs : x.tid = t
    · rw [hs] at this
      rw [hs, Function.update_self]
      have := hl.1
      omega
    · rw [Function.update_of_ne hs]; exact this

theorem Good.sync {eff : Op → Eff V} {m : Mem Op V} (h : Good eff m) (t s : Tid) : Good eff (m.sync t s) := by
  refine ⟨h.chain, ?_, ?_⟩
  · intro u
    show Function.update m.view t _ u ≤ _
    by_cases hu : u = t
    · subst hu; rw [Function.update_self]; have := h.view u; have := h.view s; simp only [Mem.sync]; omega
    · rw [Function.update_of_ne hu]; exact h.view u
  · intro j x hx
    have := h.own j x hx
    show j < Function.update m.view t _ x.tid
    by_cases hu : x.tid = t
    · rw [hu] at this
      rw [hu, Function.update_self]; omega
    · rw [Function.update_of_ne hu]; exact this

theorem insert_getElem {α : Type} (l : List α) (i : Nat) (hi : i ≤ l.length) (a : α) (j : Nat) :
    (l.take i ++ a :: l.drop i)[j]? = if j < i then l[j]? else if j = i then some a else l[j - 1]? := by
  have hlen : (l.take i).length = i := by simp [hi]
  split
  · rename_i h
    rw [List.getElem?_append_left (by omega), List.getElem?_take_of_lt h]
  · rename_i h
    rw [List.getElem?_append_right (by omega), hlen]
    split
    · rename_i h'
      subst h'; simp
    · have : j - i = (j - i - 1) + 1 := by omega
      rw [this, List.getElem?_cons_succ, List.getElem?_drop]
      congr 1
      omega

theorem Good.modify {eff : Op → Eff V} {m : Mem Op V} (h : Good eff m) {t : Tid} {i : Nat} {op : Op}
    (hm : m.CanModify eff t i) {val : V} (hv : val = (eff op).apply (m.valAt i)) : Good eff (m.modify t op i val) := by
  obtain ⟨h1, h2, h3⟩ := hm
  refine ⟨chain_insert h.chain h3 hv, ?_, ?_⟩
  · intro s
    have hl : (m.modify t op i val).mods.length = m.mods.length + 1 := by
      simp only [Mem.modify, List.length_append, List.length_take, List.length_cons, List.length_drop]; omega
    rw [hl]
    show Function.update (fun s => if i < m.view s then m.view s + 1 else m.view s) t (i + 1) s ≤ _
    by_cases hs : s = t
    · subst hs; rw [Function.update_self]; omega
    · rw [Function.update_of_ne hs]
      have := h.view s
      split <;> omega
  · intro j x hx
    have hx' : (m.mods.take i ++ ⟨t, op, val⟩ :: m.mods.drop i)[j]? = some x := hx
    rw [insert_getElem _ _ h2] at hx'
    show j < Function.update (fun s => if i < m.view s then m.view s + 1 else m.view s) t (i + 1) x.tid
    split at hx'
    · rename_i hji
      have := h.own j x hx'
      by_cases hs : x.tid = t
      · rw [hs, Function.update_self]; omega
      · rw [Function.update_of_ne hs]
        split <;> omega
    · split at hx'
      · rename_i hji
        simp only [Option.some.injEq] at hx'
        subst hx'
        simp only [Function.update_self]; omega
      · have := h.own (j - 1) x hx'
        by_cases hs : x.tid = t
        · rw [hs] at this
          omega
        · rw [Function.update_of_ne hs]
          split <;> omega

/-- The modifications so far, in modification order. -/
def Mem.order (m : Mem Op V) : List (Tid × Op) := m.mods.map actOf

theorem order_modify (m : Mem Op V) (t : Tid) (op : Op) (i : Nat) (val : V) :
    (m.modify t op i val).order = m.order.take i ++ (t, op) :: m.order.drop i := by
  simp [Mem.order, Mem.modify, actOf, List.map_take, List.map_drop]

theorem own_drop {eff : Op → Eff V} {m : Mem Op V} (h : Good eff m) {t : Tid} {i : Nat} (hi : m.view t ≤ i) :
    (m.order.drop i).filter (fun a => a.1 = t) = [] := by
  rw [List.filter_eq_nil_iff]
  intro a ha
  obtain ⟨j, hj⟩ := List.mem_iff_getElem?.1 ha
  rw [List.getElem?_drop, Mem.order, List.getElem?_map] at hj
  cases hx : m.mods[i + j]? with
  | none => rw [hx] at hj; simp at hj
  | some x =>
    rw [hx] at hj
    simp only [Option.map_some, Option.some.injEq] at hj
    subst hj
    have := h.own _ _ hx
    intro ht
    have ht : x.tid = t := of_decide_eq_true ht
    rw [ht] at this
    omega

theorem Spec.Linearises.modify {eff : Op → Eff V} {m : Mem Op V} (h : Good eff m) {acts : List (Tid × Op)}
    (hl : Linearises acts m.order) {t : Tid} {i : Nat} (op : Op) (hi : m.view t ≤ i) (val : V) :
    Linearises (acts ++ [(t, op)]) (m.modify t op i val).order := by
  rw [order_modify]
  refine ⟨?_, ?_⟩
  · have h1 : (m.order.take i ++ (t, op) :: m.order.drop i).Perm ((t, op) :: (m.order.take i ++ m.order.drop i)) :=
      List.perm_middle
    rw [List.take_append_drop] at h1
    exact h1.trans ((hl.perm.cons _).trans (List.perm_append_singleton _ _).symm)
  · intro s
    have h1 := hl.threads s
    rw [← List.take_append_drop i m.order, List.filter_append] at h1
    rw [List.filter_append, List.filter_append, ← h1]
    by_cases hs : t = s
    · subst hs
      rw [own_drop h hi, List.append_nil]
      simp [own_drop h hi]
    · simp [hs]

/-! ## Counters and gauges -/

theorem intUpdates_append (a b : List IntEvent) : intUpdates (a ++ b) = intUpdates a ++ intUpdates b := by
  induction a with
  | nil => rfl
  | cons e a ih => cases e <;> simp [intUpdates, ih]

theorem isStore_set {op : IntOp} (h : op.eff.isStore = true) : ∃ x, op = .set x := by
  cases op with
  | set x => exact ⟨x, rfl⟩
  | _ => simp [IntOp.eff, Eff.isStore] at h

structure IntInv (v0 : Nat) (tr : List IntEvent) (m : Mem IntOp Nat) : Prop where
  init : m.init = v0
  good : Good IntOp.eff m
  lin : Linearises (intUpdates tr) m.order
  exact : NoSet (intUpdates tr) → m.order = intUpdates tr

theorem intStep_inv {v0 : Nat} {tr : List IntEvent} {m m' : Mem IntOp Nat} {e : IntEvent} (h : IntInv v0 tr m)
    (hs : IntStep m e m') : IntInv v0 (tr ++ [e]) m' := by
  cases hs with
  | update t op i hm =>
    have hu : intUpdates (tr ++ [.update t op]) = intUpdates tr ++ [(t, op)] := by rw [intUpdates_append]; rfl
    refine ⟨h.init, h.good.modify hm rfl, by rw [hu]; exact Spec.Linearises.modify h.good h.lin op hm.1 _, ?_⟩
    intro hn
    rw [hu] at hn ⊢
    have hn' : NoSet (intUpdates tr) := fun u hu' => hn u (by simp [hu'])
    have ho := h.exact hn'
    rw [order_modify]
    have hi : i = m.order.length := by
      have h2 := hm.2.1
      by_contra hne
      have hlt : i < m.mods.length := by
        have : m.order.length = m.mods.length := by simp [Mem.order]
        omega
      obtain ⟨x, hx⟩ : ∃ x, m.mods[i]? = some x := ⟨m.mods[i], by simp [hlt]⟩
      obtain ⟨y, hy⟩ := isStore_set (hm.2.2 x hx)
      have hmem : actOf x ∈ m.order := List.mem_map_of_mem (List.mem_of_getElem? hx)
      rw [ho] at hmem
      exact hn' _ hmem y hy
    rw [hi]
    simp [ho]
  | read t i hl =>
    have hu : intUpdates (tr ++ [.read t (m.valAt i)]) = intUpdates tr := by
      rw [intUpdates_append]; simp [intUpdates]
    exact ⟨h.init, h.good.load hl, by rw [hu]; exact h.lin, by rw [hu]; exact h.exact⟩
  | sync t s =>
    have hu : intUpdates (tr ++ [.sync t s]) = intUpdates tr := by rw [intUpdates_append]; simp [intUpdates]
    exact ⟨h.init, h.good.sync t s, by rw [hu]; exact h.lin, by rw [hu]; exact h.exact⟩

theorem int_inv {v0 : Nat} {tr : List IntEvent} {m : Mem IntOp Nat} (h : Exec IntStep (Mem.new v0) tr m) :
    IntInv v0 tr m := by
  induction h with
  | nil => exact ⟨rfl, good_new v0, ⟨List.Perm.refl _, fun _ => rfl⟩, fun _ => rfl⟩
  | snoc _ hs ih => exact intStep_inv ih hs

theorem int_apply (op : IntOp) (v : Nat) : ((op.eff.apply v : Nat) : Int) = IntOp.on v op := by
  cases op with
  | add x => simp [IntOp.eff, Eff.apply, IntOp.on, W64]
  | sub x =>
    simp only [IntOp.eff, Eff.apply, IntOp.on, W64]
    have h1 : x % 2 ^ 64 < 2 ^ 64 := Nat.mod_lt _ (by decide)
    omega
  | set x => simp [IntOp.eff, Eff.apply, IntOp.on, W64]

theorem int_fold (us : List (Tid × IntOp)) (v : Nat) :
    ((us.foldl (fun v a => a.2.eff.apply v) v : Nat) : Int) = us.foldl (fun v u => IntOp.on v u.2) (v : Int) := by
  induction us generalizing v with
  | nil => rfl
  | cons u us ih =>
    simp only [List.foldl_cons]
    rw [ih, int_apply]

theorem net_fold {us : List (Tid × IntOp)} (hn : NoSet us) (v : Int) (hv : 0 ≤ v ∧ v < 2 ^ 64) :
    us.foldl (fun v u => IntOp.on v u.2) v = (v + netChange us) % 2 ^ 64 := by
  induction us generalizing v with
  | nil => simp only [List.foldl_nil, netChange, List.map_nil, List.sum_nil]; omega
  | cons u us ih =>
    obtain ⟨t, op⟩ := u
    have h' : netChange ((t, op) :: us) = IntOp.delta op + netChange us := by simp [netChange]
    simp only [List.foldl_cons]
    have hb : 0 ≤ IntOp.on v op ∧ IntOp.on v op < 2 ^ 64 := by
      cases op <;> simp only [IntOp.on] <;> omega
    rw [ih (fun u hu => hn u (by simp [hu])) _ hb, h']
    cases op with
    | add x => simp only [IntOp.on, IntOp.delta]; omega
    | sub x => simp only [IntOp.on, IntOp.delta]; omega
    | set x => exact absurd rfl (hn (t, .set x) (by simp) x)

theorem IntInv.valAt {v0 : Nat} {tr : List IntEvent} {m : Mem IntOp Nat} (h : IntInv v0 tr m) (k : Nat) :
    ((m.valAt k : Nat) : Int) = (m.order.take k).foldl (fun v u => IntOp.on v u.2) (v0 : Int) := by
  rw [Mem.valAt, chain_fold (chain_take h.good.chain k), int_fold, h.init, Mem.order, List.map_take]

/-- The last modification is known to whoever knows what all threads know. -/
theorem Good.knows_all {eff : Op → Eff V} {m : Mem Op V} (h : Good eff m) {t : Tid}
    (hk : ∀ (i : Nat) (x : Mod Op V), m.mods[i]? = some x → m.view x.tid ≤ m.view t) : m.view t = m.mods.length := by
  have h1 := h.view t
  by_cases hz : m.mods.length = 0
  · omega
  · obtain ⟨x, hx⟩ : ∃ x, m.mods[m.mods.length - 1]? = some x := ⟨m.mods[m.mods.length - 1], by simp⟩
    have h2 := h.own _ x hx
    have h3 := hk _ x hx
    omega

/-- Without updates the modifications stay, views grow, and synchronisation hands over views. -/
theorem int_quiet {m m' : Mem IntOp Nat} {tr : List IntEvent} (h : Exec IntStep m tr m') (hq : intUpdates tr = []) :
    m'.mods = m.mods ∧ (∀ t, m.view t ≤ m'.view t) ∧
      ∀ t s, IntEvent.sync t s ∈ tr → m.view s ≤ m'.view t := by
  induction h with
  | nil => exact ⟨rfl, fun _ => Nat.le_refl _, by simp⟩
  | @snoc tr m₁ e m₂ _ hs ih =>
    rw [intUpdates_append, List.append_eq_nil_iff] at hq
    obtain ⟨h1, h2, h3⟩ := ih hq.1
    have hmono : m₂.mods = m₁.mods ∧ ∀ t, m₁.view t ≤ m₂.view t := by
      cases hs with
      | update t op i hm => simp [intUpdates] at hq
      | read t i hl =>
        refine ⟨rfl, fun u => ?_⟩
        show _ ≤ Function.update m₁.view t i u
        by_cases hu : u = t
        · subst hu; rw [Function.update_self]; exact hl.1
        · rw [Function.update_of_ne hu]
      | sync t s =>
        refine ⟨rfl, fun u => ?_⟩
        show _ ≤ Function.update m₁.view t _ u
        by_cases hu : u = t
        · subst hu; rw [Function.update_self]; omega
        · rw [Function.update_of_ne hu]
    refine ⟨by rw [hmono.1, h1], fun t => (h2 t).trans (hmono.2 t), ?_⟩
    intro t s hts
    rcases List.mem_append.1 hts with hts | hts
    · exact (h3 t s hts).trans (hmono.2 t)
    · simp only [List.mem_singleton] at hts
      subst hts
      cases hs
      show _ ≤ Function.update m₁.view t _ t
      rw [Function.update_self]
      have := h2 s
      omega

/-- A thread only loses nothing it knew: later views of the same thread cover the same modifications when there are no
stores. -/
theorem int_view_mono {m m' : Mem IntOp Nat} {tr : List IntEvent} (h : Exec IntStep m tr m') (t : Tid) :
    m.view t ≤ m'.view t := by
  induction h with
  | nil => exact Nat.le_refl _
  | @snoc tr m₁ e m₂ _ hs ih =>
    refine ih.trans ?_
    cases hs with
    | update u op i hm =>
      show _ ≤ Function.update (fun s => if i < m₁.view s then m₁.view s + 1 else m₁.view s) u (i + 1) t
      by_cases hu : t = u
      · subst hu; rw [Function.update_self]; have := hm.1; omega
      · rw [Function.update_of_ne hu]; split <;> omega
    | read u i hl =>
      show _ ≤ Function.update m₁.view u i t
      by_cases hu : t = u
      · subst hu; rw [Function.update_self]; exact hl.1
      · rw [Function.update_of_ne hu]
    | sync u s =>
      show _ ≤ Function.update m₁.view u _ t
      by_cases hu : t = u
      · subst hu; rw [Function.update_self]; omega
      · rw [Function.update_of_ne hu]

/-! ## Float gauges -/

theorem floatEffects_append (a b : List FloatEvent) : floatEffects (a ++ b) = floatEffects a ++ floatEffects b := by
  induction a with
  | nil => rfl
  | cons e a ih => cases e <;> simp [floatEffects, ih]

theorem floatReturns_append (a b : List FloatEvent) : floatReturns (a ++ b) = floatReturns a ++ floatReturns b := by
  induction a with
  | nil => rfl
  | cons e a ih => cases e <;> simp [floatReturns, ih]

theorem floatThread_append (t : Tid) (a b : List FloatEvent) :
    floatThread t (a ++ b) = floatThread t a ++ floatThread t b := by
  induction a with
  | nil => rfl
  | cons e a ih =>
    cases e <;> simp only [List.cons_append, floatThread, ih] <;> split <;> simp

/-- The events of the call in progress. -/
def openCall (t : Tid) : FloatPc → List FloatEvent
  | .idle => []
  | .loop x => [.start t (.incBy x)]
  | .loaded x _ => [.start t (.incBy x)]
  | .storing x => [.start t (.set x)]
  | .ret op => [.start t op, .effect t op]

structure FloatInv (v0 : F64) (tr : List FloatEvent) (s : FloatSys) : Prop where
  init : s.mem.init = v0
  good : Good FloatOp.eff s.mem
  lin : Linearises (floatEffects tr) s.mem.order
  calls : ∀ t, ∃ ops : List FloatOp, floatThread t tr = ops.flatMap (floatCall t) ++ openCall t (s.pc t)

theorem calls_other {tr : List FloatEvent} {s : FloatSys} {t u : Tid} {p : FloatPc} (hu : u ≠ t) {es : List FloatEvent}
    (he : floatThread u es = [])
    (h : ∃ ops : List FloatOp, floatThread u tr = ops.flatMap (floatCall u) ++ openCall u (s.pc u)) :
    ∃ ops : List FloatOp, floatThread u (tr ++ es) = ops.flatMap (floatCall u) ++ openCall u (Function.update s.pc t p u) := by
  obtain ⟨ops, h⟩ := h
  refine ⟨ops, ?_⟩
  rw [floatThread_append, he, List.append_nil, h, Function.update_of_ne hu]

theorem calls_grow {tr : List FloatEvent} {s : FloatSys} {t : Tid} {p p' : FloatPc} (hp : s.pc t = p)
    {es : List FloatEvent} (he : openCall t p ++ floatThread t es = openCall t p')
    (h : ∃ ops : List FloatOp, floatThread t tr = ops.flatMap (floatCall t) ++ openCall t (s.pc t)) :
    ∃ ops : List FloatOp, floatThread t (tr ++ es) = ops.flatMap (floatCall t) ++ openCall t (Function.update s.pc t p' t) := by
  obtain ⟨ops, h⟩ := h
  refine ⟨ops, ?_⟩
  rw [floatThread_append, h, hp, List.append_assoc, he, Function.update_self]

theorem floatThread_one (u t : Tid) (hu : u ≠ t) (e : FloatEvent)
    (he : (∃ op, e = .start t op) ∨ (∃ op, e = .effect t op) ∨ (∃ op, e = .ret t op) ∨ e = .silent t) :
    floatThread u [e] = [] := by
  rcases he with ⟨op, rfl⟩ | ⟨op, rfl⟩ | ⟨op, rfl⟩ | rfl <;> simp [floatThread, Ne.symm hu]

theorem calls_step {tr : List FloatEvent} {s : FloatSys} {t : Tid} {p p' : FloatPc} (hp : s.pc t = p) {e : FloatEvent}
    (he : (∃ op, e = .start t op) ∨ (∃ op, e = .effect t op) ∨ (∃ op, e = .ret t op) ∨ e = .silent t)
    (hc : openCall t p ++ floatThread t [e] = openCall t p')
    (h : ∀ t, ∃ ops : List FloatOp, floatThread t tr = ops.flatMap (floatCall t) ++ openCall t (s.pc t)) (u : Tid) :
    ∃ ops : List FloatOp, floatThread u (tr ++ [e]) = ops.flatMap (floatCall u) ++ openCall u (Function.update s.pc t p' u) := by
  by_cases hu : u = t
  · subst hu; exact calls_grow hp hc (h u)
  · exact calls_other hu (floatThread_one u t hu e he) (h u)

theorem floatStep_inv {v0 : F64} {tr : List FloatEvent} {s s' : FloatSys} {e : FloatEvent} (h : FloatInv v0 tr s)
    (hs : FloatStep s e s') : FloatInv v0 (tr ++ [e]) s' := by
  have hquiet : floatEffects [e] = [] → floatEffects (tr ++ [e]) = floatEffects tr := by
    intro he; rw [floatEffects_append, he, List.append_nil]
  cases hs with
  | startInc t x hp =>
    refine ⟨h.init, h.good, by rw [hquiet rfl]; exact h.lin, ?_⟩
    exact calls_step hp (.inl ⟨_, rfl⟩) (by simp [openCall, floatThread]) h.calls
  | load t x i hp hl =>
    refine ⟨h.init, h.good.load hl, by rw [hquiet rfl]; exact h.lin, ?_⟩
    exact calls_step hp (.inr (.inr (.inr rfl))) (by simp [openCall, floatThread]) h.calls
  | casOk t x cur i hp hm hc =>
    refine ⟨h.init, h.good.modify hm (by rw [hc]; rfl), ?_, ?_⟩
    · rw [floatEffects_append]
      exact Spec.Linearises.modify h.good h.lin _ hm.1 _
    · exact calls_step hp (.inr (.inl ⟨_, rfl⟩)) (by simp [openCall, floatThread]) h.calls
  | casFail t x cur i hp hl =>
    refine ⟨h.init, h.good.load hl, by rw [hquiet rfl]; exact h.lin, ?_⟩
    exact calls_step hp (.inr (.inr (.inr rfl))) (by simp [openCall, floatThread]) h.calls
  | startSet t x hp =>
    refine ⟨h.init, h.good, by rw [hquiet rfl]; exact h.lin, ?_⟩
    exact calls_step hp (.inl ⟨_, rfl⟩) (by simp [openCall, floatThread]) h.calls
  | store t x i hp hm =>
    refine ⟨h.init, h.good.modify hm rfl, ?_, ?_⟩
    · rw [floatEffects_append]
      exact Spec.Linearises.modify h.good h.lin _ hm.1 _
    · exact calls_step hp (.inr (.inl ⟨_, rfl⟩)) (by simp [openCall, floatThread]) h.calls
  | ret t op hp =>
    refine ⟨h.init, h.good, by rw [hquiet rfl]; exact h.lin, ?_⟩
    intro u
    by_cases hu : u = t
    · subst hu
      obtain ⟨ops, hc⟩ := h.calls u
      refine ⟨ops ++ [op], ?_⟩
      rw [floatThread_append, hc, hp]
      simp [FloatSys.goto, openCall, floatCall, floatThread]
    · exact calls_other hu (floatThread_one u t hu _ (.inr (.inr (.inl ⟨_, rfl⟩)))) (h.calls u)
  | read t i hp hl =>
    refine ⟨h.init, h.good.load hl, by rw [hquiet rfl]; exact h.lin, ?_⟩
    intro u
    rw [floatThread_append]
    simpa [floatThread] using h.calls u
  | sync t u =>
    refine ⟨h.init, h.good.sync t u, by rw [hquiet rfl]; exact h.lin, ?_⟩
    intro v
    rw [floatThread_append]
    simpa [floatThread] using h.calls v

theorem float_inv {v0 : F64} {tr : List FloatEvent} {s : FloatSys} (h : Exec FloatStep (FloatSys.new v0) tr s) :
    FloatInv v0 tr s := by
  induction h with
  | nil => exact ⟨rfl, good_new v0, ⟨List.Perm.refl _, fun _ => rfl⟩, fun t => ⟨[], rfl⟩⟩
  | snoc _ hs ih => exact floatStep_inv ih hs

theorem float_apply (op : FloatOp) (v : F64) : op.eff.apply v = FloatOp.on v op := by cases op <;> rfl

theorem FloatInv.valAt {v0 : F64} {tr : List FloatEvent} {s : FloatSys} (h : FloatInv v0 tr s) (k : Nat) :
    s.mem.valAt k = (s.mem.order.take k).foldl (fun v u => FloatOp.on v u.2) v0 := by
  rw [Mem.valAt, chain_fold (chain_take h.good.chain k), h.init, Mem.order, List.map_take]
  congr 1
  funext v a
  exact float_apply a.2 v

end Measured.Conc
