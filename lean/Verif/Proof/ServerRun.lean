import Verif.Proof.Server

/-!
# Proofs about the example server: refusals, and requests that are served alone
-/

namespace Measured.Server
open Measured.Conc Measured.Spec

/-- The group of a request, for an answer that there is. -/
def IsGroup : (i : Vec) → i.groups.Group → Prop
  | .requests, g => ∃ r : Req, r.group = g
  | .responses, g => ∃ (r : Req) (st : Nat), (100 ≤ st ∧ st < 1000) ∧ r.response st = g
  | .duration, g => ∃ r : Req, r.group = g

theorem methods_some (q : Method) : methods.encode (.method q) ≠ none := by cases q <;> decide

theorem req_some (r : Req) (p : FixedSet Lab × Fin 2) (hp : p ∈ requestsDef.fixed) : p.1.encode (r.group p.2) ≠ none := by
  obtain ⟨f, j⟩ := p
  have := (requestsDef.mem_fixed f j).1 hp
  match j, this with
  | 0, h => cases h
  | 1, h => cases h; exact methods_some _

theorem res_some (r : Req) {st : Nat} (h : 100 ≤ st ∧ st < 1000) (p : FixedSet Lab × Fin 3) (hp : p ∈ responsesDef.fixed) :
    p.1.encode (r.response st p.2) ≠ none := by
  obtain ⟨f, j⟩ := p
  have := (responsesDef.mem_fixed f j).1 hp
  match j, this with
  | 0, h => cases h
  | 1, h => cases h; exact methods_some _
  | 2, h' =>
    cases h'
    show (if 100 ≤ st ∧ st < 1000 then some (st - 100) else none) ≠ none
    rw [if_pos h]
    simp

/-- The method and the status can be encoded. -/
theorem fixed_ok (m : Mode) {i : Vec} {g : i.groups.Group} (hg : IsGroup i g) :
    ∃ idx, encodeFixed m g i.groups.fixed 1 0 = .ok (some idx) := by
  rcases encodeFixed_spec m g i.groups.fixed (allLawful_of_fields (groups_lawful i)) 1 0 _ (fits_checked (groups_fit i))
    (by decide) (by decide) with ⟨N, _, h⟩ | ⟨⟨p, hp, h⟩, _⟩
  · exact ⟨_, h⟩
  · cases i with
    | requests => obtain ⟨r, rfl⟩ := hg; exact absurd h (req_some r p hp)
    | responses => obtain ⟨r, st, hs, rfl⟩ := hg; exact absurd h (res_some r hs p hp)
    | duration => obtain ⟨r, rfl⟩ := hg; exact absurd h (req_some r p hp)

theorem dynamics_eq (i : Vec) : ∃ j, i.groups.dynamics = [(0, j)] := by
  cases i <;> exact ⟨_, rfl⟩

section
variable {m : Mode} {c : Vec → ShardConf Key} {cap : Nat} {tr : List Event} {s : Sys}

/-- Answers are status codes. -/
theorem status_ok (h : Exec (Step m c) (.new cap) tr s) (x : Tid) {st : Nat} (hs : (s.pc x).status = some st) :
    100 ≤ st ∧ st < 1000 := by
  induction h with
  | nil => cases hs
  | @snoc tr s e s' he hst ih =>
    have key : ∀ t p, Moves t (s.pc t) e p → (Function.update s.pc t p x).status = some st → 100 ≤ st ∧ st < 1000 := by
      intro t p hm hs
      by_cases hx : x = t
      · subst hx
        rw [Function.update_self] at hs
        generalize s.pc x = q at hm ih
        cases hm <;> first | exact ih hs | (cases hs; assumption) | cases hs
      · rw [Function.update_of_ne hx] at hs
        exact ih hs
    cases hst with
    | on _ hm => exact key _ _ hm hs
    | own _ hm => exact key _ _ hm hs

/-- Requests only ever ask for their groups. -/
theorem encoded_group (h : Exec (Step m c) (.new cap) tr s) {i : Vec} {x : Tid} {g : i.groups.Group} {k : Option Key}
    {t : Tid} {p : Pc} (hm : Moves t (s.pc t) (.on i (.lab (.encoded x g k))) p) : IsGroup i g := by
  have hs := @status_ok _ _ _ _ _ h t
  generalize s.pc t = q at hm hs
  cases hm with
  | reqLabelled r => exact ⟨r, rfl⟩
  | reqRefused r => exact ⟨r, rfl⟩
  | timerLabelled r => exact ⟨r, rfl⟩
  | timerRefused r => exact ⟨r, rfl⟩
  | resLabelled r st => exact ⟨r, st, hs rfl, rfl⟩
  | resRefused r st => exact ⟨r, st, hs rfl, rfl⟩
  | reqEncode _ hq => cases hq
  | timerEncode _ hq => cases hq
  | resEncode _ _ hq => cases hq
  | reqGet _ _ hq => cases hq
  | durGet _ _ _ hq => cases hq
  | resGet _ _ _ hq => cases hq
  | collect _ _ _ hq => cases hq

theorem intern_full {r x : Rodeo Lab} {v : Lab} {k : Option Nat} (h : r.intern v = (k, x)) :
    x.cap = r.cap ∧ r.items.length ≤ x.items.length ∧ (k = none → r.cap ≤ x.items.length) := by
  unfold Rodeo.intern at h
  split at h
  · cases h; exact ⟨rfl, Nat.le_refl _, nofun⟩
  · split at h
    · cases h; refine ⟨rfl, by simp, nofun⟩
    · cases h; exact ⟨rfl, Nat.le_refl _, fun _ => by omega⟩

/-- A step on the label set: what it does to the interners. -/
theorem label_heap {d : GroupDef Lab} {l l' : LabelSys (Rodeo Lab) Lab d.n} {e : LabelEvent Lab d.n}
    (h : LabelStep m threadedRodeo d l e l') (r : Nat) :
    (l'.heap r).cap = (l.heap r).cap ∧ (l.heap r).items.length ≤ (l'.heap r).items.length := by
  have key : ∀ (h : Heap (Rodeo Lab)) r' v k x, threadedRodeo.encode (h r') v = (k, x) →
      (h.set r' x r).cap = (h r).cap ∧ (h r).items.length ≤ (h.set r' x r).items.length := by
    intro h r' v k x he
    obtain ⟨h1, h2, _⟩ := intern_full he
    unfold Heap.set
    split
    · rename_i hr; subst hr; exact ⟨h1, h2⟩
    · exact ⟨rfl, Nat.le_refl _⟩
  cases h with
  | intern _ he => exact key _ _ _ _ _ he
  | internRefused _ he => exact key _ _ _ _ _ he
  | foreign he => exact key _ _ _ _ _ he
  | _ => exact ⟨rfl, Nat.le_refl _⟩

theorem lv_heap {i : Vec} {l l' : LVSys (Rodeo Lab) Lab i.Call i.groups.n} {e : LVEvent Lab i.Call i.groups.n}
    (h : LVStep m threadedRodeo i.groups (c i) l e l') (r : Nat) :
    (l'.lab.heap r).cap = (l.lab.heap r).cap ∧ (l.lab.heap r).items.length ≤ (l'.lab.heap r).items.length := by
  cases h with
  | lab h => exact label_heap h r
  | vec _ _ => exact ⟨rfl, Nat.le_refl _⟩
  | shown _ _ => exact ⟨rfl, Nat.le_refl _⟩

theorem intern_items {r x : Rodeo Lab} {v : Lab} {k : Option Nat} (h : r.intern v = (k, x)) :
    r.items ⊆ x.items ∧ (r.items.Nodup → x.items.Nodup) := by
  unfold Rodeo.intern at h
  split at h
  · cases h; exact ⟨fun _ h => h, fun h => h⟩
  · rename_i hg
    split at h
    · cases h
      refine ⟨fun _ h => List.mem_append_left _ h, fun hn => ?_⟩
      rw [List.nodup_append]
      refine ⟨hn, by simp, fun a ha b hb e => ?_⟩
      rw [List.mem_singleton.1 hb] at e
      exact getIndexOf_none.1 hg (e ▸ ha)
    · cases h; exact ⟨fun _ h => h, fun h => h⟩

theorem intern_refused {r x : Rodeo Lab} {v : Lab} (h : r.intern v = (none, x)) : r.cap ≤ r.items.length ∧ v ∉ r.items := by
  unfold Rodeo.intern at h
  split at h
  · cases h
  · rename_i hg
    split at h
    · cases h
    · exact ⟨by omega, getIndexOf_none.1 hg⟩

/-- A step on a vector: the strings of the interners. -/
theorem lv_items {i : Vec} {l l' : LVSys (Rodeo Lab) Lab i.Call i.groups.n} {e : LVEvent Lab i.Call i.groups.n}
    (h : LVStep m threadedRodeo i.groups (c i) l e l') (r : Nat) :
    (l.lab.heap r).items ⊆ (l'.lab.heap r).items ∧ ((l.lab.heap r).items.Nodup → (l'.lab.heap r).items.Nodup) := by
  have key : ∀ (h : Heap (Rodeo Lab)) r' v k x, threadedRodeo.encode (h r') v = (k, x) →
      (h r).items ⊆ (h.set r' x r).items ∧ ((h r).items.Nodup → (h.set r' x r).items.Nodup) := by
    intro h r' v k x he
    have := intern_items he
    unfold Heap.set
    split
    · rename_i hr; subst hr; exact this
    · exact ⟨fun _ h => h, fun h => h⟩
  cases h with
  | lab h =>
    cases h with
    | intern _ he => exact key _ _ _ _ _ he
    | internRefused _ he => exact key _ _ _ _ _ he
    | foreign he => exact key _ _ _ _ _ he
    | _ => exact ⟨fun _ h => h, fun h => h⟩
  | vec _ _ => exact ⟨fun _ h => h, fun h => h⟩
  | shown _ _ => exact ⟨fun _ h => h, fun h => h⟩

theorem heap_nodup (h : Exec (Step m c) (.new cap) tr s) (r : Nat) : (s.vecs.heap r).items.Nodup := by
  induction h with
  | nil => exact List.nodup_nil
  | snoc he hs ih =>
    cases hs with
    | on hl _ _ => exact (lv_items hl r).2 ih
    | own _ _ => exact ih

/-- Only paths of requests are interned. -/
theorem heap_paths (h : Exec (Step m c) (.new cap) tr s) {v : Lab} (hv : v ∈ (s.vecs.heap 0).items) :
    ∃ x r, .begin x r ∈ tr ∧ v = .path r.path := by
  induction h with
  | nil => cases hv
  | @snoc tr s e s' he hs ih =>
    have lift : (∃ x r, .begin x r ∈ tr ∧ v = .path r.path) → ∃ x r, .begin x r ∈ tr ++ [e] ∧ v = .path r.path :=
      fun ⟨x, r, a, b⟩ => ⟨x, r, List.mem_append_left _ a, b⟩
    cases hs with
    | @on t _ _ _ _ hl _ hi =>
      rcases hi v hv with h1 | ⟨r, h1, h2⟩
      · exact lift (ih h1)
      · exact lift ⟨_, r, ((taskInv he t).began r).2 h1, h2⟩
    | own _ _ => exact lift (ih hv)

theorem heap_cap (h : Exec (Step m c) (.new cap) tr s) (r : Nat) : (s.vecs.heap r).cap = cap := by
  induction h with
  | nil => rfl
  | snoc he hs ih =>
    cases hs with
    | on hl _ => exact (lv_heap hl r).1.trans ih
    | own _ _ => exact ih

theorem refused_req {i : Vec} {x t : Tid} {g : i.groups.Group} {p p' : Pc} (h : Moves t p (.on i (.lab (.encoded x g none))) p') :
    t = x ∧ ∃ r, p.req = some r ∧ ∀ j, (0, j) ∈ i.groups.dynamics → g j = .path r.path := by
  cases h with
  | reqRefused r =>
    refine ⟨rfl, r, rfl, fun j hj => ?_⟩
    have hj : (0, j) ∈ [((0 : Nat), (⟨0, by decide⟩ : Fin 2))] := hj
    cases List.mem_singleton.1 hj; rfl
  | timerRefused r =>
    refine ⟨rfl, r, rfl, fun j hj => ?_⟩
    have hj : (0, j) ∈ [((0 : Nat), (⟨0, by decide⟩ : Fin 2))] := hj
    cases List.mem_singleton.1 hj; rfl
  | resRefused r st =>
    refine ⟨rfl, r, rfl, fun j hj => ?_⟩
    have hj : (0, j) ∈ [((0 : Nat), (⟨0, by decide⟩ : Fin 3))] := hj
    cases List.mem_singleton.1 hj; rfl
  | reqEncode _ hq => cases hq
  | timerEncode _ hq => cases hq
  | resEncode _ _ hq => cases hq
  | reqGet _ _ hq => cases hq
  | durGet _ _ _ hq => cases hq
  | resGet _ _ _ hq => cases hq
  | collect _ _ _ hq => cases hq

/-- Who is refused finds the interner full of other strings. -/
theorem refused_full (h : Exec (Step m c) (.new cap) tr s) {i : Vec} {x : Tid} {g : i.groups.Group}
    (hm : .on i (.lab (.encoded x g none)) ∈ tr) : ∃ (items : List Lab) (r : Req), items.Nodup ∧ cap ≤ items.length ∧
      (∀ v ∈ items, ∃ y r', .begin y r' ∈ tr ∧ v = .path r'.path) ∧ .begin x r ∈ tr ∧ .path r.path ∉ items := by
  induction h with
  | nil => cases hm
  | @snoc tr s e s' he hs ih =>
    rcases List.mem_append.1 hm with hm1 | hm1
    · obtain ⟨items, r, h1, h2, h3, h4, h5⟩ := ih hm1
      exact ⟨items, r, h1, h2, fun v hv => by
        obtain ⟨y, r', a, b⟩ := h3 v hv
        exact ⟨y, r', List.mem_append_left _ a, b⟩, List.mem_append_left _ h4, h5⟩
    · rw [List.mem_singleton] at hm1
      subst hm1
      cases hs with
      | own hn _ => exact absurd rfl (hn _ _)
      | @on t _ _ _ _ hl hmv =>
        have hg := encoded_group he hmv
        obtain ⟨rfl, r', hr', hpath⟩ := refused_req hmv
        cases hl with
        | lab hl =>
          cases hl with
          | encodeRefused _ hf =>
            obtain ⟨idx, hi⟩ := fixed_ok m hg
            rw [hi] at hf
            cases hf
          | @internRefused _ _ index ks r j rest y hp hx =>
            obtain ⟨tr', h1, _⟩ := C75_shared (to_shared he) i
            have I := label_inv m threadedRodeo_laws i.groups (allLawful_of_fields (groups_lawful i)) _
              (fits_checked (groups_fit i)) _ (heap_new cap) (lv_project h1).1
            have := I.pc t
            rw [hp] at this
            obtain ⟨_, pre, hd, _⟩ := this
            obtain ⟨j', hj⟩ := dynamics_eq i
            have hmem : (r, j) ∈ i.groups.dynamics := by rw [hd]; simp
            have hr : r = 0 := by
              have := hmem
              rw [hj, List.mem_singleton] at this
              cases this; rfl
            subst hr
            have hc := heap_cap he 0
            refine ⟨(s.vecs.heap 0).items, r', heap_nodup he 0, ?_, ?_, ?_, ?_⟩
            · obtain ⟨hfull, _⟩ := intern_refused hx
              rw [← hc]; exact hfull
            · intro v hv
              obtain ⟨y, r', a, b⟩ := heap_paths he hv
              exact ⟨y, r', List.mem_append_left _ a, b⟩
            · exact List.mem_append_left _ (((taskInv he t).began r').2 hr')
            · obtain ⟨_, hni⟩ := intern_refused hx
              rw [hpath j hmem] at hni
              exact hni

end

end Measured.Server
