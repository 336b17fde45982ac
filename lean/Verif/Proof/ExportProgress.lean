import Verif.Proof.ExportLive

/-! # Proofs about the example server: somebody can go on -/

namespace Measured.Server
open Measured.Conc Measured.Spec

/-! ## What a request may do -/

theorem enc_moves {t : Tid} {i : Vec} {p : Pc} {g : i.groups.Group} (h : p.role i = .encode g) :
    (∀ e, InEncode t e → Moves t p (.on i e) p) ∧ (∀ k, ∃ p', Moves t p (.on i (.lab (.encoded t g k))) p') ∧
      p.labels i = some g ∧ ∃ r, p.req = some r ∧ ∀ j, (0, j) ∈ i.groups.dynamics → g j = .path r.path := by
  cases i with
  | requests =>
    cases p with
    | reqLabel r =>
      cases h
      refine ⟨fun e h => .reqEncode r h, fun k => ?_, rfl, r, rfl, fun j hj => ?_⟩
      · cases k with
        | none => exact ⟨_, .reqRefused r⟩
        | some k => exact ⟨_, .reqLabelled r k⟩
      · have hj : (0, j) ∈ [((0 : Nat), (⟨0, by decide⟩ : Fin 2))] := hj
        cases List.mem_singleton.1 hj; rfl
    | _ => cases h
  | duration =>
    cases p with
    | timerLabel r =>
      cases h
      refine ⟨fun e h => .timerEncode r h, fun k => ?_, rfl, r, rfl, fun j hj => ?_⟩
      · cases k with
        | none => exact ⟨_, .timerRefused r⟩
        | some k => exact ⟨_, .timerLabelled r k⟩
      · have hj : (0, j) ∈ [((0 : Nat), (⟨0, by decide⟩ : Fin 2))] := hj
        cases List.mem_singleton.1 hj; rfl
    | _ => cases h
  | responses =>
    cases p with
    | resLabel r st =>
      cases h
      refine ⟨fun e h => .resEncode r st h, fun k => ?_, rfl, r, rfl, fun j hj => ?_⟩
      · cases k with
        | none => exact ⟨_, .resRefused r st⟩
        | some k => exact ⟨_, .resLabelled r st k⟩
      · have hj : (0, j) ∈ [((0 : Nat), (⟨0, by decide⟩ : Fin 3))] := hj
        cases List.mem_singleton.1 hj; rfl
    | _ => cases h

theorem get_moves {t : Tid} {i : Vec} {p : Pc} {k : Key} (h : p.role i = .get k) :
    (∀ e, InGet t k e → Moves t p (.on i e) p) ∧ (∃ p', Moves t p (.on i (.vec (.acquired t k))) p') ∧ p.key i = some k := by
  cases i with
  | requests =>
    cases p with
    | reqGet r k => cases h; exact ⟨fun e h => .reqGet r k h, ⟨_, .reqGot r k⟩, rfl⟩
    | _ => cases h
  | duration =>
    cases p with
    | durGet r k st => cases h; exact ⟨fun e h => .durGet r k st h, ⟨_, .durGot r k st⟩, rfl⟩
    | _ => cases h
  | responses =>
    cases p with
    | resGet r st k => cases h; exact ⟨fun e h => .resGet r st k h, ⟨_, .resGot r st k⟩, rfl⟩
    | _ => cases h

theorem use_moves {t : Tid} {i : Vec} {p : Pc} {k : Key} (h : p.role i = .use k) :
    (∃ u p', Moves t p (.on i (.vec (.update t k u))) p') ∨ ∃ p', Moves t p (.on i (.vec (.release t k))) p' := by
  cases i with
  | requests =>
    cases p with
    | reqInc r k => cases h; exact .inl ⟨_, _, .reqInc r k⟩
    | reqDrop r k => cases h; exact .inr ⟨_, .reqDrop r k⟩
    | _ => cases h
  | duration =>
    cases p with
    | durObserve r k st => cases h; exact .inl ⟨_, _, .durObserve r k st 0 (by decide)⟩
    | durDrop r k st =>
      cases h
      cases st with
      | none => exact .inr ⟨_, .durDropped r k⟩
      | some st => exact .inr ⟨_, .durDrop r k st⟩
    | _ => cases h
  | responses =>
    cases p with
    | resInc r st k => cases h; exact .inl ⟨_, _, .resInc r st k⟩
    | resDrop r st k => cases h; exact .inr ⟨_, .resDrop r st k⟩
    | _ => cases h

/-- Where a request does nothing with a vector. -/
theorem no_role {p : Pc} (h : ∀ i, p.role i = .none) : p = .new ∨ (∃ r k, p = .timed r k) ∨ (∃ r k, p = .inside r k) ∨
    (∃ r st, p = .last r st) ∨ (∃ r st, p = .done r st) ∨ ∃ q, p = .dead q := by
  cases p with
  | new => exact .inl rfl
  | timed r k => exact .inr (.inl ⟨_, _, rfl⟩)
  | inside r k => exact .inr (.inr (.inl ⟨_, _, rfl⟩))
  | last r st => exact .inr (.inr (.inr (.inl ⟨_, _, rfl⟩)))
  | done r st => exact .inr (.inr (.inr (.inr (.inl ⟨_, _, rfl⟩))))
  | dead q => exact .inr (.inr (.inr (.inr (.inr ⟨_, rfl⟩))))
  | reqLabel | reqGet | reqInc | reqDrop => cases h .requests
  | timerLabel | durGet | durObserve | durDrop => cases h .duration
  | resLabel | resGet | resInc | resDrop => cases h .responses

section
variable {m : Mode} {c : Vec → ShardConf Key} {cap : Nat} {tr : List Event} {s : Sys}

/-- The ids that were handed out. -/
theorem ids_of (h : Exec (Step m c) (.new cap) tr s) {i : Vec} {t : Tid} {g : i.groups.Group} {k : Key}
    (hm : .on i (.lab (.encoded t g (some k))) ∈ tr) : k ∈ (s.vecs.own i).ids := by
  induction h with
  | nil => cases hm
  | @snoc tr s e s' he hs ih =>
    cases hs with
    | own hn _ =>
      rcases List.mem_append.1 hm with hm | hm
      · exact ih hm
      · exact absurd (List.mem_singleton.1 hm).symm (hn _ _)
    | @on t' j f x p hl _ _ =>
      have grow : ∀ k, k ∈ (s.vecs.at j).lab.ids → k ∈ x.lab.ids := by
        intro k hk
        cases hl with
        | lab hl => cases hl <;> first | exact hk | exact List.mem_cons_of_mem _ hk
        | vec => exact hk
        | shown => exact hk
      by_cases hj : i = j
      · subst hj
        show k ∈ ((s.vecs.put i x).own i).ids
        have e1 : (s.vecs.put i x).own i = ⟨x.lab.ids, x.lab.pc, x.vec, x.seen⟩ := Function.update_self _ _ _
        rw [e1]
        rcases List.mem_append.1 hm with hm | hm
        · exact grow k (ih hm)
        · cases List.mem_singleton.1 hm
          cases hl with
          | lab hl =>
            cases hl with
            | encodeEnd => exact List.mem_cons_self
      · show k ∈ ((s.vecs.put j x).own i).ids
        have e1 : (s.vecs.put j x).own i = s.vecs.own i := Function.update_of_ne hj _ _
        rw [e1]
        rcases List.mem_append.1 hm with hm | hm
        · exact ih hm
        · cases List.mem_singleton.1 hm
          exact absurd rfl hj

/-- The keys of a table were handed out. -/
theorem key_ids (h : Exec (Step m c) (.new cap) tr s) {i : Vec} {sh : Nat} {k : Key} {us : List i.Call}
    (hk : (k, us) ∈ (s.vecs.own i).vec.shards sh) : k ∈ (s.vecs.own i).ids := by
  obtain ⟨v, hv⟩ := insert_of_mem (((C23_contents (to_map h i)).2 sh k us).1 hk).2
  obtain ⟨g, h1, _⟩ := insert_may h ((mem_mapEvents (by simp)).1 hv)
  exact ids_of h h1

end

section
variable {m : Mode} {c : Vec → ShardConf Key} {ryu : F64 → Bytes} {le : List F64} {cap : Nat} {tr : List EEvent} {s : ESys} {t : Tid}

/-- Somebody can take a step that the environment has no part in. -/
def CanGo (m : Mode) (c : Vec → ShardConf Key) (ryu : F64 → Bytes) (le : List F64) (s : ESys) : Prop :=
  ∃ e s', EStep m c ryu le s e s' ∧ Goes s e ∧ Polite c s e

/-- A step on a vector, in the middleware. -/
theorem run_can {i : Vec} {e : LVEvent Lab i.Call i.groups.n} {x : LVSys (Rodeo Lab) Lab i.Call i.groups.n} {p : Pc}
    (hout : s.at' t = .out) (hl : LVStep m threadedRodeo i.groups (c i) (s.base.vecs.at i) e x)
    (hm : Moves t (s.base.pc t) (.on i e) p) (hi : InternsOwn (s.base.pc t) (s.base.vecs.heap 0) (x.lab.heap 0))
    (hf : Follows t s.base (.on i e) ⟨s.base.vecs.put i x, Function.update s.base.pc t p⟩)
    (hs : ∀ f, e = .vec f → Strict (c i) (s.base.vecs.own i).vec f) : CanGo m c ryu le s := by
  refine ⟨_, _, .run hout (.on hl hm hi) (moves_of hm) hf, ?_, ?_⟩
  · cases e <;> trivial
  · cases e with
    | vec f => exact hs f rfl
    | _ => trivial

/-- A step on a vector, in the handler. -/
theorem pass_can {i : Vec} {e : LVEvent Lab i.Call i.groups.n} {x : LVSys (Rodeo Lab) Lab i.Call i.groups.n} {r : Req} {k : Key}
    (hat : s.at' t = .pass i) (hp : s.base.pc t = .inside r k)
    (hl : LVStep m threadedRodeo i.groups (c i) (s.base.vecs.at i) e x)
    (hm : InCollect t e) (hi : x.lab.heap 0 = s.base.vecs.heap 0)
    (hf : Collects t i s.base e ⟨s.base.vecs.put i x, Function.update s.base.pc t (.inside r k)⟩)
    (hs : ∀ f, e = .vec f → Strict (c i) (s.base.vecs.own i).vec f) : CanGo m c ryu le s := by
  have hmv : Moves t (s.base.pc t) (.on i e) (.inside r k) := by rw [hp]; exact .collect r k i hm
  refine ⟨_, _, .pass hat (.on hl hmv (by rw [hi]; exact fun v hv => .inl hv)) (moves_of hmv) hf, ?_, ?_⟩
  · cases e <;> trivial
  · cases e with
    | vec f => exact hs f rfl
    | _ => trivial

theorem put_own (v : SharedSys (Rodeo Lab) Lab Vec.Call Vec.groups) (i : Vec) (x : LVSys (Rodeo Lab) Lab i.Call i.groups.n) :
    (v.put i x).own i = ⟨x.lab.ids, x.lab.pc, x.vec, x.seen⟩ := Function.update_self _ _ _

/-- Who encodes a label group can go on. -/
theorem encode_can (hb : Exec (Step m c) (.new cap) (baseEvents tr) s.base) (hout : s.at' t = .out) {i : Vec} {g : i.groups.Group}
    (hr : (s.base.pc t).role i = .encode g)
    (hok : PlaceOk s.base t i (.encode g)) : CanGo m c ryu le s := by
  obtain ⟨m1, m2, m3, r, m4, m5⟩ := enc_moves (t := t) hr
  have hni : ∀ r k, s.base.pc t ≠ .inside r k := fun r k hp => by rw [hp, inside_role] at hr; cases hr
  rcases hok.1 with hp | ⟨index, ks, rest, hp⟩
  · have hp : (s.base.vecs.at i).lab.pc t = .idle := hp
    cases hf : encodeFixed m g i.groups.fixed 1 0 with
    | ok o =>
      cases o with
      | none =>
        obtain ⟨p', hm⟩ := m2 none
        exact run_can hout (.lab (.encodeRefused hp hf)) hm (fun v hv => .inl hv) hni (by rintro f ⟨⟩)
      | some index =>
        refine run_can hout (.lab (.encodeStart hp hf)) (m1 _ .tau) (fun v hv => .inl hv) ?_ (by rintro f ⟨⟩)
        refine ⟨g, index, [], i.groups.dynamics, m3, ?_, ?_⟩
        · show ((s.base.vecs.put i _).own i).pc t = _
          rw [put_own]
          exact label_goto_self _ _ _
        · show ((s.base.vecs.put i _).own i).pc t ≠ _
          rw [put_own]
          have : (s.base.vecs.own i).pc t = .idle := hp
          rw [this]
          show (LabelSys.goto _ t _).pc t ≠ _
          rw [label_goto_self]
          simp
    | err =>
      have := hb.snoc (.on (.lab (.encodePanic hp (.inr hf))) (m1 _ .panic) (fun v hv => .inl hv))
      exact absurd (by simp) (C80_no_panic this i t).1
    | panic =>
      have := hb.snoc (.on (.lab (.encodePanic hp (.inl hf))) (m1 _ .panic) (fun v hv => .inl hv))
      exact absurd (by simp) (C80_no_panic this i t).1
  · have hp' : (s.base.vecs.at i).lab.pc t = .encoding g index ks rest := hp
    cases rest with
    | nil =>
      obtain ⟨p', hm⟩ := m2 (some (index, ks))
      exact run_can hout (.lab (.encodeEnd hp')) hm (fun v hv => .inl hv) hni (by rintro f ⟨⟩)
    | cons q rest =>
      obtain ⟨rr, j⟩ := q
      obtain ⟨_, I⟩ := labels_inv hb i
      have := I.pc t
      rw [hp'] at this
      obtain ⟨_, pre, hd, _⟩ := this
      obtain ⟨j', hj⟩ := dynamics_eq i
      have hmem : (rr, j) ∈ i.groups.dynamics := by rw [hd]; simp
      have hr0 : rr = 0 := by
        have := hmem
        rw [hj, List.mem_singleton] at this
        cases this; rfl
      subst hr0
      rcases he : threadedRodeo.encode ((s.base.vecs.at i).lab.heap 0) (g j) with ⟨o, y⟩
      have hint : InternsOwn (s.base.pc t) (s.base.vecs.heap 0) (Heap.set (s.base.vecs.at i).lab.heap 0 y 0) := by
        intro v hv
        have e0 : Heap.set (s.base.vecs.at i).lab.heap 0 y 0 = y := by simp [Heap.set]
        rw [e0] at hv
        rcases intern_only he v hv with h | h
        · exact .inl h
        · exact .inr ⟨r, m4, by rw [h, m5 j hmem]⟩
      cases o with
      | none =>
        obtain ⟨p', hm⟩ := m2 none
        exact run_can hout (.lab (.internRefused hp' he)) hm hint hni (by rintro f ⟨⟩)
      | some k =>
        refine run_can hout (.lab (.intern hp' he)) (m1 _ .tau) hint ?_ (by rintro f ⟨⟩)
        refine ⟨g, index, ks ++ [k], rest, m3, ?_, ?_⟩
        · show ((s.base.vecs.put i _).own i).pc t = _
          rw [put_own]
          exact label_goto_self _ _ _
        · show ((s.base.vecs.put i _).own i).pc t ≠ _
          rw [put_own, hp]
          show (LabelSys.goto _ t _).pc t ≠ _
          rw [label_goto_self]
          simp

/-- A step of `get_metric`. -/
theorem get_can (hout : s.at' t = .out) {i : Vec} {k : Key} (hr : (s.base.pc t).role i = .get k) {f : SEvent Key i.Call}
    {v : SSys Key i.Call} (hs : SStep (c i) (s.base.vecs.own i).vec f v) (hf : InGet t k (.vec f : LVEvent Lab i.Call i.groups.n))
    (ha : Allowed (s.base.vecs.own i).ids f) (hst : Strict (c i) (s.base.vecs.own i).vec f) : CanGo m c ryu le s := by
  have hni : ∀ r k, s.base.pc t ≠ .inside r k := fun r k hp => by rw [hp, inside_role] at hr; cases hr
  exact run_can hout (.vec hs ha) ((get_moves hr).1 _ hf) (fun v hv => .inl hv) hni (by rintro f ⟨⟩; exact hst)

theorem got_can (hout : s.at' t = .out) {i : Vec} {k : Key} (hr : (s.base.pc t).role i = .get k)
    {v : SSys Key i.Call} (hs : SStep (c i) (s.base.vecs.own i).vec (.acquired t k) v) : CanGo m c ryu le s := by
  have hni : ∀ r k, s.base.pc t ≠ .inside r k := fun r k hp => by rw [hp, inside_role] at hr; cases hr
  obtain ⟨p', hm⟩ := (get_moves (t := t) hr).2.1
  exact run_can hout (.vec hs trivial) hm (fun v hv => .inl hv) hni (by rintro f ⟨⟩; trivial)

/-- Who looks up a metric can go on, unless it waits for a lock. -/
theorem lookup_can (hb : Exec (Step m c) (.new cap) (baseEvents tr) s.base) (hout : s.at' t = .out) {i : Vec} {k : Key}
    (hr : (s.base.pc t).role i = .get k) (hok : PlaceOk s.base t i (.get k))
    (hw : ((s.base.vecs.own i).vec.thr t).pc.waits = false) : CanGo m c ryu le s := by
  have hinv := s_inv (to_map hb i)
  rcases hok.2.1.1 with hp | hp | hp | hp | hp | hp | hp | hp
  · obtain ⟨g, _, h2⟩ := (taskInv hb t).key i k (get_moves (t := t) hr).2.2
    exact get_can hout hr (.startGet _ t k hp) .start (ids_of hb h2) trivial
  · rw [hp] at hw; cases hw
  · cases hf : findKey k ((s.base.vecs.own i).vec.shards ((c i).shardOf k)) with
    | none => exact get_can hout hr (.miss _ t k hp hf) .silent trivial trivial
    | some us => exact got_can hout hr (.hit _ t k us hp hf)
  · exact get_can hout hr (.missRelease _ t k hp) .silent trivial trivial
  · rw [hp] at hw; cases hw
  · cases hf : findKey k ((s.base.vecs.own i).vec.shards ((c i).shardOf k)) with
    | none => exact get_can hout hr (.insertNew _ t k _ hp hf (List.Perm.refl _)) .insert trivial trivial
    | some us => exact get_can hout hr (.insertFound _ t k us hp hf) .silent trivial trivial
  · exact get_can hout hr (.downgrade _ t k hp) .silent trivial trivial
  · cases hf : findKey k ((s.base.vecs.own i).vec.shards ((c i).shardOf k)) with
    | none =>
      have := (hinv.ok t).pc
      rw [hp] at this
      exact absurd hf this
    | some us => exact got_can hout hr (.refind _ t k us hp hf)

/-- Who has a guard can go on. -/
theorem use_can (hb : Exec (Step m c) (.new cap) (baseEvents tr) s.base) (hout : s.at' t = .out) {i : Vec} {k : Key}
    (hr : (s.base.pc t).role i = .use k) (hok : PlaceOk s.base t i (.use k)) : CanGo m c ryu le s := by
  have hni : ∀ r k, s.base.pc t ≠ .inside r k := fun r k hp => by rw [hp, inside_role] at hr; cases hr
  have hinv := s_inv (to_map hb i)
  have h2 := hok.2.1
  have hg : k ∈ ((s.base.vecs.own i).vec.thr t).guards := by rw [h2]; simp
  rcases use_moves (t := t) hr with ⟨u, p', hm⟩ | ⟨p', hm⟩
  · cases hf : findKey k ((s.base.vecs.own i).vec.shards ((c i).shardOf k)) with
    | none => exact absurd hf ((hinv.ok t).guards k hg)
    | some us =>
      exact run_can hout (.vec (.update (s.base.vecs.own i).vec t k u us hg hf) trivial) hm (fun v hv => .inl hv) hni
        (by rintro f ⟨⟩; trivial)
  · exact run_can hout (.vec (.release (s.base.vecs.own i).vec t k (by rw [h2]) hg) trivial) hm (fun v hv => .inl hv) hni
      (by rintro f ⟨⟩; trivial)

end

end Measured.Server
