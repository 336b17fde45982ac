import Verif.Proof.Export

/-!
# Proofs about the example server: what a request does on a vector

From where a request is in the middleware and in the handler follows where it is in the calls on each vector.
-/

namespace Measured.Server
open Measured.Conc Measured.Spec

/-- What a request is doing with a vector. -/
inductive Role (i : Vec) where
  | none
  /-- `with_labels` -/
  | encode (g : i.groups.Group)
  /-- `get_metric` -/
  | get (k : Key)
  /-- it has a guard -/
  | use (k : Key)
  /-- `collect_family_into` -/
  | pass

/-- What the middleware is doing. -/
def Pc.role : (i : Vec) → Pc → Role i
  | .requests, .reqLabel r => .encode r.group
  | .requests, .reqGet _ k => .get k
  | .requests, .reqInc _ k | .requests, .reqDrop _ k => .use k
  | .duration, .timerLabel r => .encode r.group
  | .duration, .durGet _ k _ => .get k
  | .duration, .durObserve _ k _ | .duration, .durDrop _ k _ => .use k
  | .responses, .resLabel r st => .encode (r.response st)
  | .responses, .resGet _ _ k => .get k
  | .responses, .resInc _ _ k | .responses, .resDrop _ _ k => .use k
  | _, _ => .none

/-- What the request is doing, in the handler or outside. -/
def roleOf (i : Vec) (p : Pc) : Hpc → Role i
  | .pass j => if i = j then .pass else p.role i
  | _ => p.role i

/-- In `get_metric(k)`. -/
def SPc.Getting {U : Type} (k : Key) (p : SPc Key U) : Prop :=
  p = .idle ∨ p = .getRead k ∨ p = .probe k ∨ p = .missed k ∨ p = .getWrite k ∨ p = .insert k ∨ p = .inserted k ∨
    p = .refind k

/-- Where a thread is that collects. -/
inductive Passing {V U : Type} {n : Nat} : LabelPc V n → SPc Key U → Option (Key × (Fin n → V)) → Prop where
  | collect (sh : Nat) (acc : List (Key × List U)) : Passing .idle (.collect sh acc) none
  | scan (sh j : Nat) (acc snap : List (Key × List U)) : Passing .idle (.scan sh j acc snap) none
  | decode (sh j : Nat) (acc snap : List (Key × List U)) (k : Key) (old : List U) (h : snap[j]? = some (k, old))
      (env : Env V n) (rest : List (Nat × Fin n)) (ks : List Nat) : Passing (.decoding k env rest ks) (.scan sh j acc snap) none
  | write (sh j : Nat) (acc snap : List (Key × List U)) (k : Key) (old : List U) (h : snap[j]? = some (k, old))
      (g : Fin n → V) : Passing .idle (.scan sh j acc snap) (some (k, g))

/-- Where the request is on the vector. -/
def RoleOk {i : Vec} (lab : LabelPc Lab i.groups.n) (th : SThread Key i.Call) (seen : Option (Key × (Fin i.groups.n → Lab))) :
    Role i → Prop
  | .none => lab = .idle ∧ th = ⟨.idle, []⟩ ∧ seen = none
  | .encode g => (lab = .idle ∨ ∃ index ks rest, lab = .encoding g index ks rest) ∧ th = ⟨.idle, []⟩ ∧ seen = none
  | .get k => lab = .idle ∧ (SPc.Getting k th.pc ∧ th.guards = []) ∧ seen = none
  | .use k => lab = .idle ∧ th = ⟨.idle, [k]⟩ ∧ seen = none
  | .pass => Passing lab th.pc seen ∧ th.guards = []

/-- What a step does to what the request is doing. -/
inductive RoleStep (i : Vec) (t : Tid) : Role i → LVEvent Lab i.Call i.groups.n → Role i → Prop where
  | encode {g e} (h : InEncode t e) : RoleStep i t (.encode g) e (.encode g)
  | labelled {g k r} (h : r = .get k ∨ r = .none) : RoleStep i t (.encode g) (.lab (.encoded t g (some k))) r
  | refused {g} : RoleStep i t (.encode g) (.lab (.encoded t g none)) .none
  | get {k e} (h : InGet t k e) : RoleStep i t (.get k) e (.get k)
  | got {k} : RoleStep i t (.get k) (.vec (.acquired t k)) (.use k)
  | update {k u} : RoleStep i t (.use k) (.vec (.update t k u)) (.use k)
  | release {k} : RoleStep i t (.use k) (.vec (.release t k)) .none

theorem moves_role {t : Tid} {p p' : Pc} {i : Vec} {e : LVEvent Lab i.Call i.groups.n} (h : Moves t p (.on i e) p')
    (hp : ∀ r k, p ≠ .inside r k) :
    RoleStep i t (p.role i) e (p'.role i) ∧ ∀ j, j ≠ i → p.role j = p'.role j ∨ p.role j = .none ∧ ∃ g, p'.role j = .encode g := by
  cases h with
  | collect r k => exact absurd rfl (hp r k)
  | reqEncode r h => exact ⟨.encode h, fun j hj => .inl rfl⟩
  | timerEncode r h => exact ⟨.encode h, fun j hj => .inl rfl⟩
  | resEncode r st h => exact ⟨.encode h, fun j hj => .inl rfl⟩
  | reqGet r k h => exact ⟨.get h, fun j hj => .inl rfl⟩
  | durGet r k st h => exact ⟨.get h, fun j hj => .inl rfl⟩
  | resGet r st k h => exact ⟨.get h, fun j hj => .inl rfl⟩
  | reqLabelled r k => exact ⟨.labelled (.inl rfl), fun j hj => by cases j <;> first | exact absurd rfl hj | exact .inl rfl⟩
  | timerLabelled r k => exact ⟨.labelled (.inr rfl), fun j hj => by cases j <;> first | exact absurd rfl hj | exact .inl rfl⟩
  | resLabelled r st k => exact ⟨.labelled (.inl rfl), fun j hj => by cases j <;> first | exact absurd rfl hj | exact .inl rfl⟩
  | reqRefused r => exact ⟨.refused, fun j hj => by cases j <;> first | exact absurd rfl hj | exact .inl rfl⟩
  | timerRefused r => exact ⟨.refused, fun j hj => by cases j <;> first | exact absurd rfl hj | exact .inl rfl⟩
  | resRefused r st => exact ⟨.refused, fun j hj => by cases j <;> first | exact absurd rfl hj | exact .inl rfl⟩
  | reqGot r k => exact ⟨.got, fun j hj => by cases j <;> first | exact absurd rfl hj | exact .inl rfl⟩
  | durGot r k st => exact ⟨.got, fun j hj => by cases j <;> first | exact absurd rfl hj | exact .inl rfl⟩
  | resGot r st k => exact ⟨.got, fun j hj => by cases j <;> first | exact absurd rfl hj | exact .inl rfl⟩
  | reqInc r k => exact ⟨.update, fun j hj => by cases j <;> first | exact absurd rfl hj | exact .inl rfl⟩
  | durObserve r k st d h => exact ⟨.update, fun j hj => by cases j <;> first | exact absurd rfl hj | exact .inl rfl⟩
  | resInc r st k => exact ⟨.update, fun j hj => by cases j <;> first | exact absurd rfl hj | exact .inl rfl⟩
  | reqDrop r k => exact ⟨.release, fun j hj => by cases j <;> first | exact absurd rfl hj | exact .inl rfl | exact .inr ⟨rfl, _, rfl⟩⟩
  | durDrop r k st => exact ⟨.release, fun j hj => by cases j <;> first | exact absurd rfl hj | exact .inl rfl | exact .inr ⟨rfl, _, rfl⟩⟩
  | durDropped r k => exact ⟨.release, fun j hj => by cases j <;> first | exact absurd rfl hj | exact .inl rfl⟩
  | resDrop r st k => exact ⟨.release, fun j hj => by cases j <;> first | exact absurd rfl hj | exact .inl rfl⟩

/-- Outside of the vectors: what the request is doing with them. -/
theorem own_role {t : Tid} {p p' : Pc} {e : Event} (h : Moves t p e p') (he : ∀ i f, e ≠ .on i f) (j : Vec) :
    p.role j = .none ∧ (p'.role j = .none ∨ (∃ g, p'.role j = .encode g) ∨ ∃ k, p'.role j = .get k) := by
  cases h <;> first
    | exact absurd rfl (he _ _)
    | (cases j <;> first | exact ⟨rfl, .inl rfl⟩ | exact ⟨rfl, .inr (.inl ⟨_, rfl⟩)⟩ | exact ⟨rfl, .inr (.inr ⟨_, rfl⟩)⟩)

section
variable {i : Vec} {lab : LabelPc Lab i.groups.n} {th : SThread Key i.Call} {seen : Option (Key × (Fin i.groups.n → Lab))}

theorem RoleOk.start {r : Role i} (h : RoleOk lab th seen .none) (hr : r = .none ∨ (∃ g, r = .encode g) ∨ ∃ k, r = .get k) :
    RoleOk lab th seen r := by
  obtain ⟨h1, h2, h3⟩ := h
  rcases hr with rfl | ⟨g, rfl⟩ | ⟨k, rfl⟩
  · exact ⟨h1, h2, h3⟩
  · exact ⟨.inl h1, h2, h3⟩
  · exact ⟨h1, ⟨by rw [h2]; exact .inl rfl, by rw [h2]⟩, h3⟩

end

section
variable {m : Mode} {c : ShardConf Key} {i : Vec} {t : Tid} {x y : LVSys (Rodeo Lab) Lab i.Call i.groups.n}
  {e : LVEvent Lab i.Call i.groups.n}

theorem goto_thr {U : Type} (v : SSys Key U) (t : Tid) (p : SPc Key U) : (v.goto t p).thr t = ⟨p, (v.thr t).guards⟩ :=
  Function.update_self ..

theorem label_goto_self {S V : Type} {n : Nat} (s : LabelSys S V n) (t : Tid) (p : LabelPc V n) : (s.goto t p).pc t = p :=
  if_pos rfl

/-- A step of a request in the middleware. -/
theorem role_step {r r' : Role i} (hs : LVStep m threadedRodeo i.groups c x e y) (hr : RoleStep i t r e r')
    (hf : e = .lab (.tau t) → ∀ g, r = .encode g → ∃ index ks rest, y.lab.pc t = .encoding g index ks rest)
    (hn : e ≠ .lab (.panic t) ∧ e ≠ .vec (.panic t))
    (h : RoleOk (x.lab.pc t) (x.vec.thr t) (x.seen t) r) : RoleOk (y.lab.pc t) (y.vec.thr t) (y.seen t) r' := by
  cases hr with
  | @encode g _ he =>
    obtain ⟨h1, h2, h3⟩ := h
    cases he with
    | panic => exact absurd rfl hn.1
    | tau =>
      have hf := hf rfl g rfl
      cases hs with
      | lab hl => exact ⟨.inr hf, h2, h3⟩
  | @labelled g k _ hr =>
    obtain ⟨h1, h2, h3⟩ := h
    cases hs with
    | lab hl =>
      cases hl with
      | encodeEnd hp =>
        refine RoleOk.start ⟨label_goto_self _ _ _, h2, h3⟩ ?_
        rcases hr with rfl | rfl
        · exact .inr (.inr ⟨_, rfl⟩)
        · exact .inl rfl
  | @refused g =>
    obtain ⟨h1, h2, h3⟩ := h
    cases hs with
    | lab hl =>
      cases hl with
      | encodeRefused hp => exact ⟨hp, h2, h3⟩
      | internRefused hp => exact ⟨label_goto_self _ _ _, h2, h3⟩
  | @get k _ he =>
    obtain ⟨h1, ⟨h2, h2'⟩, h3⟩ := h
    have key : ∀ {q : SPc Key i.Call} {v : SSys Key i.Call}, v.thr t = ⟨q, (x.vec.thr t).guards⟩ → SPc.Getting k q →
        SPc.Getting k (v.thr t).pc ∧ (v.thr t).guards = [] := fun e h => by rw [e]; exact ⟨h, h2'⟩
    have no : ∀ {q : SPc Key i.Call}, (x.vec.thr t).pc = q → (¬ SPc.Getting k q) → False := fun e h => h (e ▸ h2)
    have same : ∀ {k' : Key}, SPc.Getting k (SPc.getRead k' : SPc Key i.Call) ∨ SPc.Getting k (SPc.getWrite k' : SPc Key i.Call) ∨
        SPc.Getting k (SPc.probe k' : SPc Key i.Call) ∨ SPc.Getting k (SPc.missed k' : SPc Key i.Call) ∨
        SPc.Getting k (SPc.insert k' : SPc Key i.Call) ∨ SPc.Getting k (SPc.inserted k' : SPc Key i.Call) ∨
        SPc.Getting k (SPc.refind k' : SPc Key i.Call) → k' = k := by
      intro k' h
      simpa [SPc.Getting] using h
    cases he with
    | start =>
      cases hs with
      | vec hv _ =>
        cases hv with
        | startGet _ _ hp => exact ⟨h1, key (goto_thr _ _ _) (.inr (.inl rfl)), h3⟩
    | lockR j =>
      cases hs with
      | vec hv _ =>
        cases hv with
        | lockRead _ k' hp hl =>
          rw [hp] at h2
          obtain rfl := same (.inl h2)
          exact ⟨h1, key (goto_thr _ _ _) (.inr (.inr (.inl rfl))), h3⟩
        | passLock _ _ acc hp => exact (no hp (by simp [SPc.Getting])).elim
    | lockW j =>
      cases hs with
      | vec hv _ =>
        cases hv with
        | lockWrite _ k' hp hl =>
          rw [hp] at h2
          obtain rfl := same (.inr (.inl h2))
          exact ⟨h1, key (goto_thr _ _ _) (by simp [SPc.Getting]), h3⟩
        | rmLock _ _ hp => exact (no hp (by simp [SPc.Getting])).elim
    | insert =>
      cases hs with
      | vec hv _ =>
        cases hv with
        | insertNew _ _ l hp hf hl => exact ⟨h1, key (goto_thr _ _ _) (by simp [SPc.Getting]), h3⟩
    | silent =>
      cases hs with
      | vec hv _ =>
        cases hv with
        | miss _ k' hp =>
          rw [hp] at h2
          obtain rfl := same (.inr (.inr (.inl h2)))
          exact ⟨h1, key (goto_thr _ _ _) (by simp [SPc.Getting]), h3⟩
        | missRelease _ k' hp =>
          rw [hp] at h2
          obtain rfl := same (.inr (.inr (.inr (.inl h2))))
          exact ⟨h1, key (goto_thr _ _ _) (by simp [SPc.Getting]), h3⟩
        | insertFound _ k' us hp =>
          rw [hp] at h2
          obtain rfl := same (.inr (.inr (.inr (.inr (.inl h2)))))
          exact ⟨h1, key (goto_thr _ _ _) (by simp [SPc.Getting]), h3⟩
        | downgrade _ k' hp =>
          rw [hp] at h2
          obtain rfl := same (.inr (.inr (.inr (.inr (.inr (.inl h2))))))
          exact ⟨h1, key (goto_thr _ _ _) (by simp [SPc.Getting]), h3⟩
        | rmRelease _ _ hp => exact (no hp (by simp [SPc.Getting])).elim
        | abort _ _ _ _ _ hp => exact (no hp (by simp [SPc.Getting])).elim
        | passNext _ _ _ _ _ hp => exact (no hp (by simp [SPc.Getting])).elim
    | panic => exact absurd rfl hn.2
  | @got k =>
    obtain ⟨h1, ⟨h2, h2'⟩, h3⟩ := h
    cases hs with
    | vec hv _ =>
      cases hv with
      | hit _ _ us hp hf => exact ⟨h1, by rw [set_thr, h2'], h3⟩
      | refind _ _ us hp hf => exact ⟨h1, by rw [set_thr, h2'], h3⟩
  | @update k u =>
    obtain ⟨h1, h2, h3⟩ := h
    cases hs with
    | vec hv _ =>
      cases hv with
      | update _ _ _ us hp hf => exact ⟨h1, h2, h3⟩
  | @release k =>
    obtain ⟨h1, h2, h3⟩ := h
    cases hs with
    | vec hv _ =>
      cases hv with
      | release _ _ hp hg => exact ⟨h1, by rw [set_thr, h2]; simp, h3⟩

/-- A step of a request that collects. -/
theorem pass_role {s s' : Sys} (hx : x = s.vecs.at i) (hy : y = s'.vecs.at i)
    (hs : LVStep m threadedRodeo i.groups c x e y) (he : Collects t i s e s') (ht : (Event.on i e).Of t)
    (hn : e ≠ .lab (.panic t) ∧ e ≠ .vec (.panic t))
    (hsn : ∀ sh j acc snap, (x.vec.thr t).pc = .scan sh j acc snap → SnapOk (x.vec.shards sh) snap)
    (h : RoleOk (x.lab.pc t) (x.vec.thr t) (x.seen t) .pass) : RoleOk (y.lab.pc t) (y.vec.thr t) (y.seen t) .pass := by
  obtain ⟨h1, h2⟩ := h
  have no : ∀ {q : SPc Key i.Call}, (x.vec.thr t).pc = q → (∀ l sn, ¬ Passing (V := Lab) (n := i.groups.n) l q sn) → False :=
    fun e h => h _ _ (e ▸ h1)
  cases e with
  | shown => exact he.elim
  | lab f =>
    cases f with
    | tau u =>
      obtain ⟨sh, j, acc, snap, k, us, env, rest, ks, a1, a2, a3, a4, a5⟩ := he
      obtain ⟨old, ho, _⟩ := (hsn sh j acc snap (by rw [hx]; exact a1)).get (by rw [hx]; exact a2)
      have e1 : y.lab.pc t = .decoding k env rest ks := by rw [hy]; exact a4
      have e2 : (x.vec.thr t).pc = .scan sh j acc snap := by rw [hx]; exact a1
      have e3 : x.seen t = none := by rw [hx]; exact a3
      cases hs with
      | lab hl =>
        refine ⟨?_, h2⟩
        show Passing _ (x.vec.thr t).pc (x.seen t)
        rw [e1, e2, e3]
        exact .decode sh j acc snap k old ho env rest ks
    | encoded => exact he.elim
    | panic u => have : u = t := ht; subst this; exact absurd rfl hn.1
    | decoded u k g =>
      have : u = t := ht
      subst this
      cases hs with
      | lab hl =>
        cases hl with
        | decodeEnd hp hb =>
          refine ⟨?_, h2⟩
          show Passing (LabelSys.pc (LabelSys.goto _ _ _) u) (x.vec.thr u).pc (Function.update x.seen u _ u)
          rw [label_goto_self, Function.update_self]
          rw [hp] at h1
          generalize (x.vec.thr u).pc = q at h1
          generalize x.seen u = sn at h1
          cases h1 with
          | decode sh j acc snap _ old ho => exact .write sh j acc snap k old ho g
  | vec f =>
    cases hs with
    | vec hv _ =>
      cases f with
      | lockR u j =>
        have : u = t := ht
        subst this
        cases hv with
        | lockRead _ k hp => exact (no hp (by rintro _ _ ⟨⟩)).elim
        | passLock _ _ acc hp =>
          rw [hp] at h1
          refine ⟨?_, by rw [goto_thr]; exact h2⟩
          rw [goto_thr]
          show Passing (x.lab.pc u) _ (x.seen u)
          generalize x.lab.pc u = q at h1
          generalize x.seen u = sn at h1
          cases h1
          exact .scan ..
      | silent u =>
        have : u = t := ht
        subst this
        have he' : ((s'.vecs.own i).vec.thr u).pc ≠ .idle := he
        have he' : ((s'.vecs.at i).vec.thr u).pc ≠ .idle := he'
        rw [← hy] at he'
        cases hv with
        | passNext _ sh j acc snap hp hj =>
          rw [hp] at h1
          refine ⟨?_, by rw [goto_thr]; exact h2⟩
          rw [goto_thr]
          show Passing (x.lab.pc u) _ (x.seen u)
          have hno : ∀ k old, snap[j]? ≠ some (k, old) := by
            intro k old hk
            have := (hsn sh j acc snap hp).length_eq
            have := (List.getElem?_eq_some_iff.1 hk).1
            omega
          generalize x.lab.pc u = q at h1
          generalize x.seen u = sn at h1
          cases h1 with
          | scan => exact .collect ..
          | decode _ _ _ _ k old ho => exact absurd ho (hno k old)
          | write _ _ _ _ k old ho => exact absurd ho (hno k old)
        | abort _ _ _ _ _ hp => exact absurd (by show ((x.vec.goto u .idle).thr u).pc = _; rw [goto_thr]) he'
        | miss _ k hp => exact (no hp (by rintro _ _ ⟨⟩)).elim
        | missRelease _ k hp => exact (no hp (by rintro _ _ ⟨⟩)).elim
        | insertFound _ k us hp => exact (no hp (by rintro _ _ ⟨⟩)).elim
        | downgrade _ k hp => exact (no hp (by rintro _ _ ⟨⟩)).elim
        | rmRelease _ k hp => exact (no hp (by rintro _ _ ⟨⟩)).elim
      | panic u => have : u = t := ht; subst this; exact absurd rfl hn.2
      | _ => exact he.elim

theorem shown_role {k : Key} {g : i.groups.Group} {us : List i.Call}
    (hs : LVStep m threadedRodeo i.groups c x (.shown t k g us) y)
    (h : RoleOk (x.lab.pc t) (x.vec.thr t) (x.seen t) .pass) : RoleOk (y.lab.pc t) (y.vec.thr t) (y.seen t) .pass := by
  obtain ⟨h1, h2⟩ := h
  cases hs with
  | shown hv hseen =>
    cases hv with
    | emit _ sh j acc snap _ old _ cur hp hc ho h3 h4 =>
      refine ⟨?_, by rw [goto_thr]; exact h2⟩
      rw [goto_thr]
      show Passing (x.lab.pc t) _ (Function.update x.seen t none t)
      rw [Function.update_self]
      rw [hp, hseen] at h1
      generalize x.lab.pc t = q at h1
      cases h1
      exact .scan ..

theorem end_role {acc : List (Key × List i.Call)}
    (hs : LVStep m threadedRodeo i.groups c x (.vec (.endPass t acc)) y)
    (h : RoleOk (x.lab.pc t) (x.vec.thr t) (x.seen t) .pass) : RoleOk (y.lab.pc t) (y.vec.thr t) (y.seen t) .none := by
  obtain ⟨h1, h2⟩ := h
  cases hs with
  | vec hv _ =>
    cases hv with
    | endPass _ sh _ hp hi =>
      rw [RoleOk, goto_thr, h2]
      show x.lab.pc t = _ ∧ _ ∧ x.seen t = none
      rw [hp] at h1
      generalize x.lab.pc t = q at h1
      generalize x.seen t = sn at h1
      cases h1
      exact ⟨rfl, rfl, rfl⟩

theorem start_role (hs : LVStep m threadedRodeo i.groups c x (.vec (.startPass t)) y)
    (h : RoleOk (x.lab.pc t) (x.vec.thr t) (x.seen t) .none) : RoleOk (y.lab.pc t) (y.vec.thr t) (y.seen t) .pass := by
  obtain ⟨h1, h2, h3⟩ := h
  cases hs with
  | vec hv _ =>
    cases hv with
    | startPass _ hp =>
      rw [RoleOk, goto_thr, h2]
      refine ⟨?_, rfl⟩
      show Passing (x.lab.pc t) _ (x.seen t)
      rw [h1, h3]
      exact .collect ..

/-- A step of one request leaves the others where they are. -/
theorem lv_others (hs : LVStep m threadedRodeo i.groups c x e y) (ht : (Event.on i e).Of t) {u : Tid} (hu : u ≠ t) :
    y.lab.pc u = x.lab.pc u ∧ y.vec.thr u = x.vec.thr u ∧ y.seen u = x.seen u := by
  have lg : ∀ (l : LabelSys (Rodeo Lab) Lab i.groups.n) (p : LabelPc Lab i.groups.n), (l.goto t p).pc u = l.pc u :=
    fun l p => if_neg hu
  cases hs with
  | lab hl =>
    cases hl with
    | decodeEnd =>
      have := ht
      cases this
      exact ⟨lg _ _, rfl, Function.update_of_ne hu _ _⟩
    | encodeRefused => exact ⟨rfl, rfl, rfl⟩
    | encodePanic => exact ⟨rfl, rfl, rfl⟩
    | decodePanic => exact ⟨rfl, rfl, rfl⟩
    | foreign => exact ⟨rfl, rfl, rfl⟩
    | _ => cases ht; exact ⟨lg _ _, rfl, rfl⟩
  | vec hv _ => exact ⟨rfl, step_other hv (by cases ht; exact hu), rfl⟩
  | shown hv _ =>
    cases ht
    exact ⟨rfl, step_other hv hu, Function.update_of_ne hu _ _⟩

end

end Measured.Server
