import Verif.Proof.ServerRun
import Verif.Props.EncodeConc
import Verif.Props.LabelledVec

/-!
# Proofs about the example server: requests that are served one after the other
-/

namespace Measured.Conc

/-! ## A map that nobody else uses -/

section
variable {K U : Type} [DecidableEq K] {c : ShardConf K} {v : SSys K U}

/-- Nobody does anything. -/
def Calm (v : SSys K U) : Prop := ∀ t, v.thr t = ⟨.idle, []⟩

theorem goto_calm (h : Calm v) (t : Tid) (p : SPc K U) : v.goto t p = v.setGuards t p [] := by
  simp only [SSys.goto, SSys.setGuards, h t]

theorem goto_set (t : Tid) (p q : SPc K U) (gs : List K) : (v.setGuards t p gs).goto t q = v.setGuards t q gs := by
  simp [SSys.goto, SSys.setGuards]

theorem set_set (t : Tid) (p q : SPc K U) (gs gs' : List K) : (v.setGuards t p gs).setGuards t q gs' = v.setGuards t q gs' := by
  simp [SSys.setGuards]

theorem set_thr (t : Tid) (p : SPc K U) (gs : List K) : (v.setGuards t p gs).thr t = ⟨p, gs⟩ := by
  simp [SSys.setGuards]

theorem set_calm (h : Calm v) (t : Tid) : v.setGuards t .idle [] = v := by
  obtain ⟨s, th⟩ := v
  simp only [SSys.setGuards, SSys.mk.injEq, true_and]
  rw [← h t]
  exact Function.update_eq_self t th

theorem can_read (h : Calm v) (t : Tid) (p : SPc K U) (gs : List K) (i : Nat) (hp : p.writeLock c ≠ some i) :
    (v.setGuards t p gs).CanRead c i := by
  intro u
  by_cases hu : u = t
  · subst hu; rw [set_thr]; exact hp
  · simp only [SSys.setGuards, Function.update_of_ne hu, h u]
    simp [SThread.HoldsW, SPc.writeLock]

theorem can_write (h : Calm v) (t : Tid) (p : SPc K U) (i : Nat) (hp : p.writeLock c ≠ some i) (hr : p.readLock c ≠ some i) :
    (v.setGuards t p []).CanWrite c i := by
  intro u
  refine ⟨can_read h t p [] i hp u, ?_⟩
  by_cases hu : u = t
  · subst hu; rw [set_thr]; simpa [SThread.HoldsR] using hr
  · simp only [SSys.setGuards, Function.update_of_ne hu, h u]
    simp [SThread.HoldsR, SPc.readLock]

/-- What `get_metric` does before it returns. -/
inductive GetStep (t : Tid) (k : K) : SEvent K U → Prop where
  | start : GetStep t k (.startGet t k)
  | lockR (i : Nat) : GetStep t k (.lockR t i)
  | lockW (i : Nat) : GetStep t k (.lockW t i)
  | insert : GetStep t k (.insert t k)
  | silent : GetStep t k (.silent t)

/-- `get_metric` alone. -/
theorem get_alone (h : Calm v) (t : Tid) (k : K) :
    ∃ (tr : List (SEvent K U)) (v₁ v' : SSys K U) (us : List U), Exec (SStep c) v tr v₁ ∧ (∀ e ∈ tr, GetStep t k e) ∧
      v'.thr = v.thr ∧ findKey k (v'.shards (c.shardOf k)) = some us ∧ SStep c v₁ (.acquired t k) (v'.setGuards t .idle [k]) := by
  have e1 : Exec (SStep c) v [.startGet t k] (v.setGuards t (.getRead k) []) := by
    rw [← goto_calm h]
    exact .snoc (tr := []) .nil (.startGet v t k (by rw [h t]))
  have e2 : Exec (SStep c) v [.startGet t k, .lockR t (c.shardOf k)] (v.setGuards t (.probe k) []) := by
    have := SStep.lockRead (v.setGuards t (.getRead k) []) t k (by rw [set_thr]) (can_read (c := c) h t _ _ _ (by simp [SPc.writeLock]))
    rw [goto_set] at this
    exact .snoc (tr := [_]) e1 this
  cases hf : findKey k (v.shards (c.shardOf k)) with
  | some us =>
    refine ⟨_, _, v, us, e2, ?_, rfl, hf, ?_⟩
    · intro e he
      simp only [List.mem_cons, List.not_mem_nil, or_false] at he
      rcases he with rfl | rfl <;> constructor
    · have := SStep.hit (c := c) (v.setGuards t (.probe k) []) t k us (by rw [set_thr]) hf
      rwa [set_set, set_thr] at this
  | none =>
    have e3 : Exec (SStep c) v ([.startGet t k, .lockR t (c.shardOf k)] ++ [.silent t]) (v.setGuards t (.missed k) []) := by
      have := SStep.miss (c := c) (v.setGuards t (.probe k) []) t k (by rw [set_thr]) hf
      rw [goto_set] at this
      exact .snoc e2 this
    have e4 := e3.snoc (SStep.missRelease (c := c) _ t k (by rw [set_thr]))
    rw [goto_set] at e4
    have e5 := e4.snoc (SStep.lockWrite (c := c) _ t k (by rw [set_thr])
      (can_write h t _ _ (by simp [SPc.writeLock]) (by simp [SPc.readLock])))
    rw [goto_set] at e5
    have e6 := e5.snoc (SStep.insertNew (c := c) _ t k ((k, []) :: v.shards (c.shardOf k)) (by rw [set_thr]) hf (.refl _))
    let w := v.setShard (c.shardOf k) ((k, []) :: v.shards (c.shardOf k))
    have hw : ((v.setGuards t (.insert k) []).setShard (c.shardOf k) ((k, []) :: v.shards (c.shardOf k))).goto t (.inserted k) =
        w.setGuards t (.inserted k) [] := by
      simp [w, SSys.setShard, SSys.setGuards, SSys.goto]
    rw [hw] at e6
    have e7 := e6.snoc (SStep.downgrade (c := c) _ t k (by rw [set_thr]))
    rw [goto_set] at e7
    have hk : findKey k (w.shards (c.shardOf k)) = some [] := by
      simp [w, SSys.setShard, findKey]
    refine ⟨_, _, w, [], e7, ?_, rfl, hk, ?_⟩
    · intro e he
      simp only [List.mem_append, List.mem_cons, List.not_mem_nil, or_false] at he
      rcases he with (((((rfl | rfl) | rfl) | rfl) | rfl) | rfl) | rfl <;> constructor
    · have := SStep.refind (c := c) (w.setGuards t (.refind k) []) t k [] (by rw [set_thr]) hk
      rwa [set_set, set_thr] at this

/-- `get_metric`, an update and the drop of the guard, alone. -/
theorem use_alone (h : Calm v) (t : Tid) (k : K) (u : U) :
    ∃ (tr : List (SEvent K U)) (v₁ v₂ v₃ v₄ : SSys K U), Exec (SStep c) v tr v₁ ∧ (∀ e ∈ tr, GetStep t k e) ∧ SStep c v₁ (.acquired t k) v₂ ∧
      SStep c v₂ (.update t k u) v₃ ∧ SStep c v₃ (.release t k) v₄ ∧ v₄.thr = v.thr := by
  have key : ∀ (v' : SSys K U) us, v'.thr = v.thr → findKey k (v'.shards (c.shardOf k)) = some us →
      ∃ v₃ v₄, SStep c (v'.setGuards t .idle [k]) (.update t k u) v₃ ∧ SStep c v₃ (.release t k) v₄ ∧ v₄.thr = v.thr := by
    intro v' us ht hf
    refine ⟨_, _, .update _ t k u us (by rw [set_thr]; exact List.mem_singleton.2 rfl) hf,
      .release _ t k ?_ ?_, ?_⟩
    · simp [SSys.setShard, SSys.setGuards]
    · simp [SSys.setShard, SSys.setGuards]
    · have := set_calm (v := v') (fun t' => by rw [ht]; exact h t') t
      have h2 := congrArg SSys.thr this
      simp only [SSys.setShard, SSys.setGuards, Function.update_self, Function.update_idem, List.erase_cons_head] at h2 ⊢
      rw [h2, ht]
  obtain ⟨tr, v₁, v', us, h1, h2, h3, h4, h5⟩ := get_alone (c := c) h t k
  obtain ⟨v₃, v₄, g1, g2, g3⟩ := key v' us h3 h4
  exact ⟨tr, v₁, _, v₃, v₄, h1, h2, h5, g1, g2, g3⟩

end

/-! ## A vector that nobody else uses -/

section
variable {S V U : Type} {m : Mode} {D : DynSet S V} {d : GroupDef V} {c : ShardConf (Nat × List Nat)} {x : LVSys S V U d.n}

theorem lift_lab {tr : List (LabelEvent V d.n)} {l : LabelSys S V d.n} (h : Exec (LabelStep m D d) x.lab tr l)
    (hn : ∀ t u g, .decoded t u g ∉ tr) : Exec (LVStep m D d c) x (tr.map .lab) { x with lab := l } := by
  induction h with
  | nil => exact .nil
  | @snoc tr l e l' he hs ih =>
    rw [List.map_append]
    refine (ih fun t u g hm => hn t u g (List.mem_append_left _ hm)).snoc ?_
    have := LVStep.lab (c := c) (s := { x with lab := l }) hs
    have hd : noteDecode x.seen e = x.seen := by
      cases e with
      | decoded t u g => exact absurd (List.mem_append_right _ (List.mem_singleton.2 rfl)) (hn t u g)
      | _ => rfl
    dsimp only at this
    rw [hd] at this
    exact this

theorem lift_vec {tr : List (SEvent (Nat × List Nat) U)} {v : SSys (Nat × List Nat) U} (h : Exec (SStep c) x.vec tr v)
    (ha : ∀ e ∈ tr, Allowed x.lab.ids e) : Exec (LVStep m D d c) x (tr.map .vec) { x with vec := v } := by
  induction h with
  | nil => exact .nil
  | @snoc tr l e l' he hs ih =>
    rw [List.map_append]
    refine (ih fun e hm => ha e (List.mem_append_left _ hm)).snoc ?_
    exact LVStep.vec (s := { x with vec := l }) hs (ha e (List.mem_append_right _ (List.mem_singleton.2 rfl)))

theorem ids_grow {tr : List (LabelEvent V d.n)} {l l' : LabelSys S V d.n} (h : Exec (LabelStep m D d) l tr l') :
    ∀ u ∈ l.ids, u ∈ l'.ids := by
  induction h with
  | nil => exact fun _ h => h
  | snoc _ hs ih =>
    intro u hu
    have := ih u hu
    cases hs <;> first | exact this | exact List.mem_cons_of_mem _ this

/-- `encode` alone. -/
theorem encode_alone (g : d.Group) (t : Tid) (hpc : x.lab.pc t = .idle) {k : Nat × List Nat} {h' : Heap S}
    (hr : (derived m D d).encode g x.lab.heap = (.ok (some k), h')) :
    ∃ (tr : List (LabelEvent V d.n)) (l₁ l₂ : LabelSys S V d.n), Exec (LVStep m D d c) x (tr.map .lab) { x with lab := l₁ } ∧ (∀ e ∈ tr, e = .tau t) ∧
      LVStep m D d c { x with lab := l₁ } (.lab (.encoded t g (some k))) { x with lab := l₂ } ∧
      l₂.heap = h' ∧ l₂.pc = x.lab.pc ∧ k ∈ l₂.ids ∧ (∀ u ∈ x.lab.ids, u ∈ l₂.ids) ∧ l₁.heap = h' := by
  obtain ⟨tr, l₂, h1, h2, h3, h4⟩ := C66_alone m D d g x.lab t hpc (some k) h' hr
  obtain ⟨l₁, h5, h6⟩ := exec_snoc_inv h1
  refine ⟨tr, l₁, l₂, lift_lab h5 ?_, h4, LVStep.lab (s := { x with lab := l₁ }) h6, h2, h3, ?_, ids_grow h1, ?_⟩
  · intro t' u g' hm
    have := h4 _ hm
    cases this
  · cases h6
    exact List.mem_cons_self
  · cases h6
    exact h2

/-- `decode` alone. -/
theorem decode_alone (t : Tid) (hpc : x.lab.pc t = .idle) {k : Nat × List Nat} (hk : k ∈ x.lab.ids) {g : d.Group}
    (hd : (derived m D d).decode x.lab.heap k = .ok g) :
    ∃ tr, Exec (LVStep m D d c) x (tr ++ [.lab (.decoded t k g)]) { x with seen := Function.update x.seen t (some (k, g)) } ∧
      ∀ e ∈ tr, e = .lab (.tau t) := by
  obtain ⟨tr, e, l, h1, h2, h3, h4⟩ := C66_alone_decode m D d k x.lab t hpc hk
  rw [hd] at h4
  dsimp only at h4
  subst h3 h4
  obtain ⟨l₁, h5, h6⟩ := exec_snoc_inv h1
  refine ⟨tr.map .lab, (lift_lab h5 ?_).snoc (LVStep.lab (s := { x with lab := l₁ }) h6), ?_⟩
  · intro t' u g' hm
    have := h2 _ hm
    cases this
  · intro e he
    obtain ⟨e', he', rfl⟩ := List.mem_map.1 he
    rw [h2 e' he']

/-- What a collecting thread does, after the beginning and before the end. -/
inductive PassStep (t : Tid) : LVEvent V U d.n → Prop where
  | lockR (i : Nat) : PassStep t (.vec (.lockR t i))
  | tau : PassStep t (.lab (.tau t))
  | decoded (k : Nat × List Nat) (g : d.Group) : PassStep t (.lab (.decoded t k g))
  | shown (k : Nat × List Nat) (g : d.Group) (us : List U) : PassStep t (.shown t k g us)
  | silent : PassStep t (.vec (.silent t))

/-- The rest of a shard. -/
theorem scan_alone {v : SSys (Nat × List Nat) U} (t : Tid) (i : Nat) {l : LabelSys S V d.n} (hpc : l.pc t = .idle)
    (hk : ∀ q ∈ v.shards i, q.1 ∈ l.ids ∧ ∃ g, (derived m D d).decode l.heap q.1 = .ok g) (n : Nat) :
    ∀ j acc seen, (v.shards i).length = j + n →
    ∃ tr seen' acc', Exec (LVStep m D d c) ⟨l, v.setGuards t (.scan i j acc (v.shards i)) [], seen⟩ tr
      ⟨l, v.setGuards t (.collect (i + 1) acc') [], seen'⟩ ∧ ∀ e ∈ tr, PassStep t e := by
  induction n with
  | zero =>
    intro j acc seen hj
    have := SStep.passNext (c := c) (v.setGuards t (.scan i j acc (v.shards i)) []) t i j acc (v.shards i) (by rw [set_thr])
      (Nat.le_of_eq hj)
    rw [goto_set] at this
    refine ⟨[.vec (.silent t)], seen, acc, .snoc (tr := []) .nil
      (LVStep.vec (s := ⟨l, v.setGuards t (.scan i j acc (v.shards i)) [], seen⟩) this trivial), ?_⟩
    intro e he
    rw [List.mem_singleton.1 he]; constructor
  | succ n ih =>
    intro j acc seen hj
    have hlt : j < (v.shards i).length := by omega
    obtain ⟨⟨k, us⟩, hq⟩ : ∃ q, (v.shards i)[j]? = some q := ⟨_, List.getElem?_eq_getElem hlt⟩
    obtain ⟨hid, g, hg⟩ := hk (k, us) (List.mem_of_getElem? hq)
    obtain ⟨tr1, e1, e2⟩ := decode_alone (c := c) (x := ⟨l, v.setGuards t (.scan i j acc (v.shards i)) [], seen⟩) t hpc hid hg
    have st := SStep.emit (c := c) (v.setGuards t (.scan i j acc (v.shards i)) []) t i j acc (v.shards i) k us us us
      (by rw [set_thr]) hq hq List.prefix_rfl List.prefix_rfl
    rw [goto_set] at st
    have e3 := e1.snoc (LVStep.shown (m := m) (D := D) (d := d) (c := c) (g := g) st (by simp))
    obtain ⟨tr2, seen', acc', e4, e5⟩ := ih (j + 1) (acc ++ [(k, us)]) _ (by omega)
    refine ⟨_, seen', acc', exec_append e3 e4, ?_⟩
    intro e he
    simp only [List.mem_append, List.mem_cons, List.not_mem_nil, or_false] at he
    rcases he with ((he | rfl) | rfl) | he
    · rw [e2 e he]; constructor
    · constructor
    · constructor
    · exact e5 e he

/-- The rest of the shards. -/
theorem shards_alone {v : SSys (Nat × List Nat) U} (hv : Calm v) (t : Tid) {l : LabelSys S V d.n} (hpc : l.pc t = .idle)
    (hk : ∀ i, ∀ q ∈ v.shards i, q.1 ∈ l.ids ∧ ∃ g, (derived m D d).decode l.heap q.1 = .ok g) (n : Nat) :
    ∀ i acc seen, c.n = i + n →
    ∃ tr seen' acc', Exec (LVStep m D d c) ⟨l, v.setGuards t (.collect i acc) [], seen⟩ tr
      ⟨l, v.setGuards t (.collect c.n acc') [], seen'⟩ ∧ ∀ e ∈ tr, PassStep t e := by
  induction n with
  | zero =>
    intro i acc seen hi
    obtain rfl : c.n = i := hi
    exact ⟨[], seen, acc, .nil, nofun⟩
  | succ n ih =>
    intro i acc seen hi
    have st := SStep.passLock (c := c) (v.setGuards t (.collect i acc) []) t i acc (by rw [set_thr]) (by omega)
      (can_read hv t _ _ _ (by simp [SPc.writeLock]))
    rw [goto_set] at st
    obtain ⟨tr1, seen1, acc1, e1, e2⟩ := scan_alone (m := m) (D := D) (c := c) t i hpc (hk i) (v.shards i).length 0 acc seen (by omega)
    obtain ⟨tr2, seen2, acc2, e3, e4⟩ := ih (i + 1) acc1 seen1 (by omega)
    refine ⟨_, seen2, acc2, exec_cons (LVStep.vec (s := ⟨l, v.setGuards t (.collect i acc) [], seen⟩) st trivial)
      (exec_append e1 e3), ?_⟩
    intro e he
    simp only [List.mem_append, List.mem_cons] at he
    rcases he with rfl | he | he
    · constructor
    · exact e2 e he
    · exact e4 e he

/-- A collection alone. -/
theorem pass_alone (hv : Calm x.vec) (t : Tid) (hpc : x.lab.pc t = .idle)
    (hk : ∀ i, ∀ q ∈ x.vec.shards i, q.1 ∈ x.lab.ids ∧ ∃ g, (derived m D d).decode x.lab.heap q.1 = .ok g) :
    ∃ tr seen acc, Exec (LVStep m D d c) x (.vec (.startPass t) :: tr ++ [.vec (.endPass t acc)]) { x with seen := seen } ∧
      ∀ e ∈ tr, PassStep t e := by
  obtain ⟨l, v, seen⟩ := x
  have st := SStep.startPass (c := c) v t (by rw [hv t])
  rw [goto_calm hv] at st
  obtain ⟨tr, seen', acc, e1, e2⟩ := shards_alone (m := m) (D := D) (c := c) hv t hpc hk c.n 0 [] seen (by omega)
  have en := SStep.endPass (c := c) (v.setGuards t (.collect c.n acc) []) t c.n acc (by rw [set_thr]) (Nat.le_refl _)
  rw [goto_set, set_calm hv] at en
  exact ⟨tr, seen', acc, (exec_cons (LVStep.vec (s := ⟨l, v, seen⟩) st trivial) e1).snoc
    (LVStep.vec (s := ⟨l, v.setGuards t (.collect c.n acc) [], seen'⟩) en trivial), e2⟩

end

end Measured.Conc

namespace Measured.Server
open Measured.Conc Measured.Spec

section
variable {m : Mode} {c : Vec → ShardConf Key} {cap : Nat} {s : Sys} {t : Tid}

/-- Nobody is inside of a vector. -/
structure Quiet (s : Sys) : Prop where
  lab : ∀ i t, (s.vecs.own i).pc t = .idle
  thr : ∀ i, Calm (s.vecs.own i).vec

theorem at_put (v : SharedSys (Rodeo Lab) Lab Vec.Call Vec.groups) (i : Vec) (x : LVSys (Rodeo Lab) Lab i.Call i.groups.n) :
    (v.put i x).at i = x := by
  simp [SharedSys.at, SharedSys.put]

theorem put_put (v : SharedSys (Rodeo Lab) Lab Vec.Call Vec.groups) (i : Vec) (x y : LVSys (Rodeo Lab) Lab i.Call i.groups.n) :
    (v.put i x).put i y = v.put i y := by
  simp [SharedSys.put]

theorem put_at (v : SharedSys (Rodeo Lab) Lab Vec.Call Vec.groups) (i : Vec) : v.put i (v.at i) = v := by
  simp [SharedSys.at, SharedSys.put]

/-- Steps on one vector during which a request stays where it is. -/
theorem lift {i : Vec} {p : Pc} (hp : s.pc t = p) {tr : List (LVEvent Lab i.Call i.groups.n)}
    {x : LVSys (Rodeo Lab) Lab i.Call i.groups.n} (h : Exec (LVStep m threadedRodeo i.groups (c i)) (s.vecs.at i) tr x)
    (hm : ∀ e ∈ tr, Moves t p (.on i e) p) (hi : InternsOwn p (s.vecs.heap 0) (x.lab.heap 0)) :
    Exec (Step m c) s (tr.map (.on i)) ⟨s.vecs.put i x, s.pc⟩ ∧ (s.vecs.heap 0).items ⊆ (x.lab.heap 0).items := by
  induction h with
  | nil => rw [put_at]; exact ⟨.nil, fun _ h => h⟩
  | @snoc tr x e y he hs ih =>
    rw [List.map_append]
    have hxy := (lv_items hs 0).1
    obtain ⟨ih1, ih2⟩ := ih (fun e h => hm e (List.mem_append_left _ h)) fun v hv => hi v (hxy hv)
    refine ⟨ih1.snoc ?_, fun _ h => hxy (ih2 h)⟩
    have := Step.on (c := c) (s := ⟨s.vecs.put i x, s.pc⟩) (t := t) (i := i) (e := e) (x := y) (p := p) (by rw [at_put]; exact hs)
      (by rw [hp]; exact hm e (List.mem_append_right _ (List.mem_singleton.2 rfl)))
      (fun v hv => (hi v hv).imp (fun h => ih2 h) fun ⟨r, h⟩ => ⟨r, by rw [hp]; exact h⟩)
    dsimp only at this
    rw [put_put, ← hp, Function.update_eq_self] at this
    exact this

/-- A step on one vector with which a request goes on. -/
theorem lift_step {i : Vec} {x y : LVSys (Rodeo Lab) Lab i.Call i.groups.n} {f : Tid → Pc} {p : Pc}
    {e : LVEvent Lab i.Call i.groups.n} (hs : LVStep m threadedRodeo i.groups (c i) x e y) (hm : Moves t (f t) (.on i e) p)
    (hh : y.lab.heap 0 = x.lab.heap 0) :
    Step m c ⟨s.vecs.put i x, f⟩ (.on i e) ⟨s.vecs.put i y, Function.update f t p⟩ := by
  have := Step.on (c := c) (s := ⟨s.vecs.put i x, f⟩) (t := t) (i := i) (e := e) (x := y) (p := p) (by rw [at_put]; exact hs) hm
    (fun v hv => .inl (by rw [hh] at hv; exact hv))
  rwa [put_put] at this

theorem quiet_put (h : Quiet s) {i : Vec} {x : LVSys (Rodeo Lab) Lab i.Call i.groups.n} (h1 : ∀ t, x.lab.pc t = .idle)
    (h2 : Calm x.vec) (f : Tid → Pc) : Quiet ⟨s.vecs.put i x, f⟩ := by
  constructor
  · intro j
    by_cases hj : j = i
    · subst hj; simpa [SharedSys.put] using h1
    · simpa [SharedSys.put, Function.update_of_ne hj] using h.lab j
  · intro j
    by_cases hj : j = i
    · subst hj; simpa [SharedSys.put] using h2
    · simpa [SharedSys.put, Function.update_of_ne hj] using h.thr j

/-- The path in a label group. -/
def pathOf : (i : Vec) → i.groups.Group → Lab
  | .requests, g => g (0 : Fin 2)
  | .responses, g => g (0 : Fin 3)
  | .duration, g => g (0 : Fin 2)

/-- The interner has the string, or takes one more. -/
def Room (r : Rodeo Lab) (v : Lab) : Prop := v ∈ r.items ∨ r.items.length < r.cap

theorem intern_room {r : Rodeo Lab} {v : Lab} (h : Room r v) :
    ∃ k x, r.intern v = (some k, x) ∧ v ∈ x.items ∧ x.items.length ≤ r.items.length + 1 := by
  unfold Rodeo.intern
  cases hg : getIndexOf r.items v with
  | some k => exact ⟨k, r, rfl, List.mem_of_getElem? (getIndexOf_some hg), by omega⟩
  | none =>
    have : r.items.length < r.cap := h.resolve_left (getIndexOf_none.1 hg)
    simp only [this, if_true]
    exact ⟨_, _, rfl, by simp, by simp⟩

theorem intern_there {r : Rodeo Lab} {v : Lab} (h : v ∈ r.items) : ∃ k, r.intern v = (some k, r) := by
  unfold Rodeo.intern
  cases hg : getIndexOf r.items v with
  | some k => exact ⟨k, rfl⟩
  | none => exact absurd h (getIndexOf_none.1 hg)

theorem intern_only {r x : Rodeo Lab} {v : Lab} {k : Option Nat} (h : r.intern v = (k, x)) : ∀ w ∈ x.items, w ∈ r.items ∨ w = v := by
  unfold Rodeo.intern at h
  split at h
  · cases h; exact fun w hw => .inl hw
  · split at h
    · cases h
      intro w hw
      simpa using hw
    · cases h; exact fun w hw => .inl hw

theorem encode_ok {i : Vec} {g : i.groups.Group} (hg : IsGroup i g) {h : Heap (Rodeo Lab)} {k : Nat} {x : Rodeo Lab}
    (hx : (h 0).intern (pathOf i g) = (some k, x)) :
    ∃ u, (derived m threadedRodeo i.groups).encode g h = (.ok (some u), h.set 0 x) := by
  obtain ⟨idx, hi⟩ := fixed_ok m hg
  refine ⟨(idx, [k]), ?_⟩
  have hd : ∃ j, i.groups.dynamics = [(0, j)] ∧ pathOf i g = g j := by cases i <;> exact ⟨_, rfl, rfl⟩
  obtain ⟨j, hj, hp⟩ := hd
  rw [hp] at hx
  have hx' : threadedRodeo.encode (h 0) (g j) = (some k, x) := hx
  simp only [derived, derivedEncode, hi, hj, encodeDyn, hx']

/-- What a stage of a request leaves. -/
structure Stage (t : Tid) (s s' : Sys) (p : Pc) (tr : List Event) : Prop where
  quiet : Quiet s'
  pc : s'.pc = Function.update s.pc t p
  ids : ∀ i, ∀ u ∈ (s.vecs.own i).ids, u ∈ (s'.vecs.own i).ids
  pass : ∀ i x, .on i (.vec (.startPass x)) ∉ tr

/-- `with_labels` alone. -/
theorem label_stage (hq : Quiet s) {i : Vec} {g : i.groups.Group} (hg : IsGroup i g) {k : Nat} {x : Rodeo Lab}
    (hx : (s.vecs.heap 0).intern (pathOf i g) = (some k, x)) {p : Pc} (hp : s.pc t = p)
    (ht : Moves t p (.on i (.lab (.tau t))) p) (p' : Key → Pc)
    (hl : ∀ u, Moves t p (.on i (.lab (.encoded t g (some u)))) (p' u)) {r : Req} (hr : p.req = some r)
    (hpr : pathOf i g = .path r.path) :
    ∃ tr u s', Exec (Step m c) s tr s' ∧ Stage t s s' (p' u) tr ∧ u ∈ (s'.vecs.own i).ids ∧
      s'.vecs.heap = s.vecs.heap.set 0 x := by
  obtain ⟨u, hu⟩ := encode_ok (m := m) hg hx
  obtain ⟨tr, l₁, l₂, h1, h2, h3, h4, h5, h6, h7, h8⟩ := encode_alone (c := c i) (x := s.vecs.at i) g t (hq.lab i t) hu
  have e1 := lift (c := c) hp h1 (by
    intro e he
    obtain ⟨e', he', rfl⟩ := List.mem_map.1 he
    rw [h2 e' he']; exact ht) (by
    intro v hv
    simp only [h8, Heap.set, if_true] at hv
    exact (intern_only hx v hv).imp id fun h => ⟨r, hr, h.trans hpr⟩)
  have e2 := e1.1.snoc (lift_step (s := s) (t := t) (f := s.pc) (p := p' u) h3 (by rw [hp]; exact hl u) (by
    simp only [h8, h4]))
  refine ⟨_, u, _, e2, ⟨quiet_put hq (fun t' => by simp only [h5]; exact hq.lab i t') (hq.thr i) _, rfl, ?_, ?_⟩, ?_, ?_⟩
  · intro j w hw
    by_cases hj : j = i
    · subst hj
      simpa [SharedSys.put] using h7 w hw
    · simpa [SharedSys.put, Function.update_of_ne hj] using hw
  · intro j y hm
    rcases List.mem_append.1 hm with hm | hm
    · obtain ⟨e, he, hm⟩ := List.mem_map.1 hm
      obtain ⟨e', _, rfl⟩ := List.mem_map.1 he
      cases hm
    · cases List.mem_singleton.1 hm
  · simpa [SharedSys.put] using h6
  · exact h4

/-- `get_metric`, an update and the drop of the guard, alone. -/
theorem use_stage (hq : Quiet s) {i : Vec} {k : Key} (hk : k ∈ (s.vecs.own i).ids) (u : i.Call) {p p₁ p₂ p₃ : Pc} (hp : s.pc t = p)
    (h0 : ∀ e, InGet t k e → Moves t p (.on i e) p) (h1 : Moves t p (.on i (.vec (.acquired t k))) p₁)
    (h2 : Moves t p₁ (.on i (.vec (.update t k u))) p₂) (h3 : Moves t p₂ (.on i (.vec (.release t k))) p₃) :
    ∃ tr s', Exec (Step m c) s tr s' ∧ Stage t s s' p₃ tr ∧ s'.vecs.heap = s.vecs.heap := by
  obtain ⟨tr, v₁, v₂, v₃, v₄, e1, e2, e3, e4, e5, e6⟩ := use_alone (c := c i) (hq.thr i) t k u
  have f1 := lift (m := m) (c := c) hp (lift_vec (m := m) (D := threadedRodeo) (d := i.groups) (x := s.vecs.at i) e1 (by
    intro e he
    cases e2 e he <;> first | exact hk | trivial)) (by
    intro e he
    obtain ⟨e', he', rfl⟩ := List.mem_map.1 he
    apply h0
    cases e2 e' he' <;> constructor) (fun v hv => .inl hv)
  have f2 := f1.1.snoc (lift_step (s := s) (t := t) (f := s.pc) (p := p₁)
    (LVStep.vec (s := { s.vecs.at i with vec := v₁ }) e3 trivial) (by rw [hp]; exact h1) rfl)
  have f3 := f2.snoc (lift_step (s := s) (t := t) (p := p₂) (LVStep.vec (s := { s.vecs.at i with vec := v₂ }) e4 trivial) (by
    rw [Function.update_self]; exact h2) rfl)
  have f4 := f3.snoc (lift_step (s := s) (t := t) (p := p₃) (LVStep.vec (s := { s.vecs.at i with vec := v₃ }) e5 trivial) (by
    rw [Function.update_self]; exact h3) rfl)
  refine ⟨_, _, f4, ⟨quiet_put hq (hq.lab i) (fun t' => by simp only [e6]; exact hq.thr i t') _, ?_, ?_, ?_⟩, rfl⟩
  · simp
  · intro j w hw
    by_cases hj : j = i
    · subst hj
      simpa [SharedSys.put, SharedSys.at] using hw
    · simpa [SharedSys.put, Function.update_of_ne hj] using hw
  · intro j y hm
    simp only [List.mem_append, List.mem_map, List.mem_singleton] at hm
    rcases hm with ((⟨e, ⟨e', he', rfl⟩, hm⟩ | hm) | hm) | hm
    · cases hm
      cases e2 _ he'
    all_goals cases hm

/-- A step of the request's own. -/
theorem own_stage (hq : Quiet s) {e : Event} {p : Pc} (he : ∀ i f, e ≠ .on i f) (hm : Moves t (s.pc t) e p) :
    ∃ s', Exec (Step m c) s [e] s' ∧ Stage t s s' p [e] ∧ s'.vecs.heap = s.vecs.heap :=
  ⟨_, .snoc (tr := []) .nil (.own he hm), ⟨⟨hq.lab, hq.thr⟩, rfl, fun _ _ h => h, fun _ _ h =>
    he _ _ (List.mem_singleton.1 h).symm⟩, rfl⟩

/-- A collection of one vector, alone. -/
theorem collect_stage {tr₀ : List Event} (h : Exec (Step m c) (.new cap) tr₀ s) (hq : Quiet s) {r : Req} {k : Key}
    (hp : s.pc t = .inside r k) (i : Vec) :
    ∃ B acc s', Exec (Step m c) s (.on i (.vec (.startPass t)) :: B ++ [.on i (.vec (.endPass t acc))]) s' ∧
      Quiet s' ∧ s'.pc = s.pc ∧ (∀ i, (s'.vecs.own i).ids = (s.vecs.own i).ids) ∧ s'.vecs.heap = s.vecs.heap ∧
      (∀ j x, .on j (.vec (.startPass x)) ∉ B) ∧ ∀ e ∈ B, ∃ f, e = .on i f := by
  obtain ⟨tr', h1, _⟩ := C75_shared (to_shared h) i
  obtain ⟨tr, seen, acc, e1, e2⟩ := pass_alone (m := m) (D := threadedRodeo) (d := i.groups) (c := c i) (x := s.vecs.at i) (hq.thr i) t
    (hq.lab i t) (by
      intro j q hm
      obtain ⟨a, g, _, b⟩ := C75_keys m m threadedRodeo_laws i.groups (groups_lawful i) (groups_fit i) (c i) _ (heap_new cap) h1
        (i := j) (k := q.1) (us := q.2) hm
      exact ⟨a, g, b⟩)
  have f1 := lift (m := m) (c := c) hp e1 (by
    intro e he
    simp only [List.cons_append, List.mem_append, List.mem_cons, List.not_mem_nil, or_false] at he
    refine .collect r k i ?_
    rcases he with rfl | he | rfl
    · constructor
    · cases e2 e he <;> constructor
    · constructor) (fun v hv => .inl hv)
  replace f1 := f1.1
  rw [List.cons_append, List.map_cons, List.map_append] at f1
  refine ⟨_, acc, _, f1, quiet_put hq (hq.lab i) (hq.thr i) _, rfl, ?_, rfl, ?_, fun e he => ?_⟩
  · intro j
    by_cases hj : j = i
    · subst hj; simp [SharedSys.put, SharedSys.at]
    · simp [SharedSys.put, Function.update_of_ne hj]
  · intro j x hm
    obtain ⟨e, he, hm⟩ := List.mem_map.1 hm
    cases hm
    cases e2 _ he
  · obtain ⟨f, _, rfl⟩ := List.mem_map.1 he
    exact ⟨f, rfl⟩

theorem Stage.trans {s₁ s₂ : Sys} {p p' : Pc} {tr tr' : List Event} (h : Stage t s s₁ p tr) (h' : Stage t s₁ s₂ p' tr') :
    Stage t s s₂ p' (tr ++ tr') where
  quiet := h'.quiet
  pc := by rw [h'.pc, h.pc, Function.update_idem]
  ids i u hu := h'.ids i u (h.ids i u hu)
  pass i x hm := (List.mem_append.1 hm).elim (h.pass i x) (h'.pass i x)

theorem Stage.now {s' : Sys} {p : Pc} {tr : List Event} (h : Stage t s s' p tr) : s'.pc t = p := by
  rw [h.pc, Function.update_self]

theorem heap_set_zero (h : Heap (Rodeo Lab)) : h.set 0 (h 0) = h := by
  funext k
  simp only [Heap.set]
  split
  · rename_i e; rw [e]
  · rfl

/-- A request that comes in, alone. -/
theorem come_in (hq : Quiet s) (hnew : s.pc t = .new) (r : Req) (hroom : Room (s.vecs.heap 0) (.path r.path)) :
    ∃ tr k s', Exec (Step m c) s tr s' ∧ Stage t s s' (.inside r k) tr ∧ k ∈ (s'.vecs.own .duration).ids ∧
      .path r.path ∈ (s'.vecs.heap 0).items ∧ (s'.vecs.heap 0).items.length ≤ (s.vecs.heap 0).items.length + 1 := by
  obtain ⟨s₁, e1, g1, w1⟩ := own_stage (m := m) (c := c) hq (e := .begin t r) (by simp) (by rw [hnew]; exact .begin r)
  obtain ⟨n, x, hx, hmem, hlen⟩ := intern_room hroom
  obtain ⟨tr2, k2, s₂, e2, g2, hk2, w2⟩ := label_stage (m := m) (c := c) g1.quiet (i := .requests) (g := r.group) ⟨r, rfl⟩
    (by rw [w1]; exact hx) g1.now (.reqEncode r .tau) (fun k => .reqGet r k) (fun k => .reqLabelled r k) rfl rfl
  obtain ⟨tr3, s₃, e3, g3, w3⟩ := use_stage (m := m) (c := c) g2.quiet hk2 .inc g2.now (fun e he => .reqGet r k2 he) (.reqGot r k2)
    (.reqInc r k2) (.reqDrop r k2)
  have h0 : s₃.vecs.heap 0 = x := by rw [w3, w2]; simp [Heap.set]
  obtain ⟨n', hn'⟩ := intern_there hmem
  obtain ⟨tr4, k4, s₄, e4, g4, hk4, w4⟩ := label_stage (m := m) (c := c) g3.quiet (i := .duration) (g := r.group) ⟨r, rfl⟩
    (by rw [h0]; exact hn') g3.now (.timerEncode r .tau) (fun k => .timed r k) (fun k => .timerLabelled r k) rfl rfl
  obtain ⟨s₅, e5, g5, w5⟩ := own_stage (m := m) (c := c) g4.quiet (e := .enter t) (by simp) (by rw [g4.now]; exact .enter r k4)
  have hh : s₅.vecs.heap 0 = x := by rw [w5, w4]; simp [Heap.set]
  refine ⟨_, k4, s₅, exec_append (exec_append (exec_append (exec_append e1 e2) e3) e4) e5,
    (((g1.trans g2).trans g3).trans g4).trans g5, g5.ids _ _ hk4, ?_, ?_⟩
  · rw [hh]; exact hmem
  · rw [hh]; exact hlen

/-- A request that is answered, alone. -/
theorem go_out (hq : Quiet s) {r : Req} {k : Key} (hp : s.pc t = .inside r k) (hk : k ∈ (s.vecs.own .duration).ids)
    (hmem : .path r.path ∈ (s.vecs.heap 0).items) {st : Nat} (hst : 100 ≤ st ∧ st < 1000) :
    ∃ tr s', Exec (Step m c) s (tr ++ [.finish t]) s' ∧ Stage t s s' (.done r (some st)) (tr ++ [.finish t]) ∧
      s'.vecs.heap = s.vecs.heap := by
  obtain ⟨s₁, e1, g1, w1⟩ := own_stage (m := m) (c := c) hq (e := .answer t st) (by simp) (by rw [hp]; exact .answer r k st hst)
  obtain ⟨tr2, s₂, e2, g2, w2⟩ := use_stage (m := m) (c := c) g1.quiet (g1.ids _ _ hk) (.observeDuration 1000000) g1.now
    (fun e he => .durGet r k _ he) (.durGot r k _) (.durObserve r k _ _ (by decide)) (.durDrop r k st)
  obtain ⟨n, hn⟩ := intern_there hmem
  have h0 : s₂.vecs.heap = s.vecs.heap := by rw [w2, w1]
  obtain ⟨tr3, k3, s₃, e3, g3, hk3, w3⟩ := label_stage (m := m) (c := c) g2.quiet (i := .responses) (g := r.response st)
    ⟨r, st, hst, rfl⟩ (by rw [h0]; exact hn) g2.now (.resEncode r st .tau) (fun k => .resGet r st k) (fun k => .resLabelled r st k) rfl rfl
  obtain ⟨tr4, s₄, e4, g4, w4⟩ := use_stage (m := m) (c := c) g3.quiet hk3 .inc g3.now (fun e he => .resGet r st k3 he)
    (.resGot r st k3) (.resInc r st k3) (.resDrop r st k3)
  obtain ⟨s₅, e5, g5, w5⟩ := own_stage (m := m) (c := c) g4.quiet (e := .finish t) (by simp) (by rw [g4.now]; exact .finish r _)
  refine ⟨_, s₅, exec_append (exec_append (exec_append (exec_append e1 e2) e3) e4) e5,
    (((g1.trans g2).trans g3).trans g4).trans g5, ?_⟩
  rw [w5, w4, w3, h0, heap_set_zero]

/-- There is room for the path of one more request, if the interner takes all paths that there are. -/
theorem served_room {tr : List Event} (h : Exec (Step m c) (.new cap) tr s) {rs : List (Req × Nat)}
    (hn : ∀ x, rs.length ≤ x → s.pc x = .new)
    (hd : ∀ j q, rs[j]? = some q → s.pc j = .done q.1 (some q.2) ∧ .finish j ∈ tr)
    {ps : List Bytes} (hps : ∀ q ∈ rs, q.1.path ∈ ps) (hcap : ps.length ≤ cap) {p : Bytes} (hp : p ∈ ps) :
    Room (s.vecs.heap 0) (.path p) := by
  by_cases hm : Lab.path p ∈ (s.vecs.heap 0).items
  · exact .inl hm
  · refine .inr ?_
    rw [heap_cap h]
    refine Nat.lt_of_lt_of_le ?_ hcap
    have : (s.vecs.heap 0).items.length ≤ ((ps.erase p).map Lab.path).length := by
      refine ((heap_nodup h 0).subperm fun v hv => ?_).length_le
      obtain ⟨x, r, hb, rfl⟩ := heap_paths h hv
      rw [(taskInv h x).began r] at hb
      have hx : x < rs.length := by
        by_contra hx
        rw [hn x (Nat.le_of_not_lt hx)] at hb
        cases hb
      rw [(hd x rs[x] (List.getElem?_eq_getElem hx)).1] at hb
      have hr : rs[x].1 = r := by simpa [Pc.req] using hb
      refine List.mem_map.2 ⟨r.path, ?_, rfl⟩
      have hne : r.path ≠ p := by rintro rfl; exact hm hv
      rw [List.mem_erase_of_ne hne, ← hr]
      exact hps _ (List.getElem_mem hx)
    rw [List.length_map, List.length_erase_of_mem hp] at this
    have := List.length_pos_of_mem hp
    omega

/-- Requests one after the other; the thread is the number of the request. -/
theorem serve_all (m : Mode) (c : Vec → ShardConf Key) {cap : Nat} (rs : List (Req × Nat)) (hst : ∀ q ∈ rs, 100 ≤ q.2 ∧ q.2 < 1000)
    {ps : List Bytes} (hps : ∀ q ∈ rs, q.1.path ∈ ps) (hcap : ps.length ≤ cap) :
    ∃ tr s, Exec (Step m c) (.new cap) tr s ∧ Quiet s ∧
      (∀ x, rs.length ≤ x → s.pc x = .new) ∧
      ∀ j q, rs[j]? = some q → s.pc j = .done q.1 (some q.2) ∧ .finish j ∈ tr := by
  induction rs using List.reverseRecOn with
  | nil => exact ⟨[], _, .nil, ⟨fun _ _ => rfl, fun _ _ => rfl⟩, fun _ _ => rfl, by simp⟩
  | append_singleton rs q ih =>
    obtain ⟨tr, s, h1, h2, h4, h5⟩ := ih (fun q hq => hst q (List.mem_append_left _ hq)) fun q hq => hps q (List.mem_append_left _ hq)
    obtain ⟨tr1, k, s₁, e1, g1, hk, hmem, hlen⟩ := come_in (m := m) (c := c) h2 (h4 rs.length (Nat.le_refl _)) q.1
      (served_room h1 h4 h5 (fun q hq => hps q (List.mem_append_left _ hq)) hcap
        (hps q (List.mem_append_right _ (List.mem_singleton.2 rfl))))
    obtain ⟨tr2, s₂, e2, g2, w2⟩ := go_out (m := m) (c := c) g1.quiet g1.now hk hmem
      (hst q (List.mem_append_right _ (List.mem_singleton.2 rfl)))
    have g := g1.trans g2
    refine ⟨_, s₂, exec_append h1 (exec_append e1 e2), g.quiet, ?_, ?_⟩
    · intro x hx
      rw [List.length_append, List.length_singleton] at hx
      rw [g.pc, Function.update_of_ne (Nat.ne_of_gt (by omega))]
      exact h4 x (by omega)
    · intro j q' hj
      rcases Nat.lt_trichotomy j rs.length with hlt | rfl | hgt
      · rw [List.getElem?_append_left hlt] at hj
        obtain ⟨a, b⟩ := h5 j q' hj
        refine ⟨?_, List.mem_append_left _ b⟩
        rw [g.pc, Function.update_of_ne (Nat.ne_of_lt hlt)]
        exact a
      · rw [List.getElem?_append_right (Nat.le_refl _)] at hj
        simp only [Nat.sub_self, List.getElem?_cons_zero, Option.some.injEq] at hj
        subst hj
        exact ⟨g.now, List.mem_append_right _ (List.mem_append_right _ (List.mem_append_right _ (List.mem_singleton.2 rfl)))⟩
      · rw [List.getElem?_eq_none (by simp; omega)] at hj
        cases hj

end

end Measured.Server
