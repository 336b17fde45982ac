import Verif.Spec.Export
import Verif.Props.ServerOrder

/-! # Proofs about the shared encoder of the example server -/

namespace Measured.Server
open Measured.Conc Measured.Spec

theorem baseEvents_append (a b : List EEvent) : baseEvents (a ++ b) = baseEvents a ++ baseEvents b := by
  induction a with
  | nil => rfl
  | cons e a ih => cases e <;> simp [baseEvents, ih]

/-! ## Runs -/

/-- The last time that something became true. -/
theorem last_entry {S E : Type} {step : S → E → S → Prop} (P : S → Prop) {s0 s : S} {tr : List E}
    (h : Exec step s0 tr s) (h0 : ¬ P s0) (h1 : P s) :
    ∃ tr₁ e tr₂ a b, tr = tr₁ ++ e :: tr₂ ∧ Exec step s0 tr₁ a ∧ ¬ P a ∧ step a e b ∧ P b ∧
      Exec (fun s e s' => step s e s' ∧ P s ∧ P s') b tr₂ s := by
  induction h with
  | nil => exact absurd h1 h0
  | @snoc tr x e y hx hs ih =>
    by_cases hp : P x
    · obtain ⟨tr₁, f, tr₂, a, b, rfl, h2, h3, h4, h5, h6⟩ := ih hp
      exact ⟨tr₁, f, tr₂ ++ [e], a, b, by simp, h2, h3, h4, h5, h6.snoc ⟨hs, hp, h1⟩⟩
    · exact ⟨tr, e, [], x, y, rfl, hx, hp, hs, h1, .nil⟩

theorem of_unique {e : Event} {t u : Tid} (h : e.Of t) (h' : e.Of u) : t = u := by
  cases e with
  | on i f =>
    cases f with
    | lab f => cases f <;> exact h.symm.trans h'
    | vec f => exact h.symm.trans h'
    | shown => exact h.symm.trans h'
  | _ => exact h.symm.trans h'

/-- The request has the mutex. -/
def Hpc.has : Hpc → Bool
  | .head _ | .pass _ | .fin | .crashed => true
  | _ => false

section
variable {m : Mode} {c : Vec → ShardConf Key} {ryu : F64 → Bytes} {le : List F64} {cap : Nat} {tr : List EEvent} {s s' : ESys}

/-- What happens on the vectors and in the middleware. -/
theorem exec_base {s0 : ESys} (h : Exec (EStep m c ryu le) s0 tr s) : Exec (Step m c) s0.base (baseEvents tr) s.base := by
  induction h with
  | nil => exact .nil
  | @snoc tr s e s' he hs ih =>
    rw [baseEvents_append]
    cases hs with
    | run _ hs => exact ih.snoc hs
    | giveUp _ hs => exact ih.snoc hs
    | head _ hs => exact ih.snoc hs
    | pass _ hs => exact ih.snoc hs
    | entry _ hs => exact ih.snoc hs
    | next _ hs => exact ih.snoc hs
    | answer _ hs => exact ih.snoc hs
    | _ => simpa [baseEvents] using ih

/-- One request at most has the mutex, and the encoder is as new if none has it. -/
structure LockInv (s : ESys) : Prop where
  has : ∀ t, (s.at' t).has = true ↔ s.lock = some t
  new : s.lock = none → s.enc = .new []

theorem lockInv_keep {at' : Tid → Hpc} {l : Option Tid} (h : ∀ t, (at' t).has = true ↔ l = some t) {t : Tid} {q : Hpc}
    (hq : q.has = (at' t).has) (u : Tid) : (Function.update at' t q u).has = true ↔ l = some u := by
  by_cases hu : u = t
  · subst hu; rw [Function.update_self, hq]; exact h u
  · rw [Function.update_of_ne hu]; exact h u

theorem lockInv_step (h : LockInv s) {e : EEvent} (hs : EStep m c ryu le s e s') : LockInv s' := by
  have busy : ∀ {t q}, s.at' t = q → q.has = true → s.lock ≠ none := fun {t q} h1 h2 h3 => by
    have := (h.has t).1 (by rw [h1]; exact h2)
    rw [h3] at this; cases this
  have next : ∀ i : Vec, (i.next).has = true := fun i => by cases i <;> rfl
  cases hs with
  | run => exact ⟨h.has, h.new⟩
  | call h1 => exact ⟨fun u => lockInv_keep h.has (by rw [h1]; rfl) u, h.new⟩
  | @lock t h1 h2 =>
    refine ⟨fun u => ?_, nofun⟩
    by_cases hu : u = t
    · subst hu; simp [Hpc.has]
    · show Hpc.has (Function.update s.at' t _ u) = true ↔ _
      rw [Function.update_of_ne hu, h.has u, h2]
      constructor
      · exact nofun
      · intro h; cases h; exact absurd rfl hu
  | giveUp h1 => exact ⟨fun u => lockInv_keep h.has (by rw [h1]; rfl) u, h.new⟩
  | head h1 => exact ⟨fun u => lockInv_keep h.has (by rw [h1]; rfl) u, fun hn => absurd hn (busy h1 rfl)⟩
  | headCrash h1 => exact ⟨fun u => lockInv_keep h.has (by rw [h1]; rfl) u, fun hn => absurd hn (busy h1 rfl)⟩
  | pass => exact ⟨h.has, h.new⟩
  | entry h1 => exact ⟨h.has, fun hn => absurd hn (busy h1 rfl)⟩
  | entryCrash h1 => exact ⟨fun u => lockInv_keep h.has (by rw [h1]; rfl) u, fun hn => absurd hn (busy h1 rfl)⟩
  | @next t i acc x h1 => exact ⟨fun u => lockInv_keep h.has (by rw [h1, next]; rfl) u, fun hn => absurd hn (busy h1 rfl)⟩
  | @finish t out enc h1 h2 =>
    refine ⟨fun u => ?_, fun _ => ?_⟩
    · by_cases hu : u = t
      · subst hu; simp [Hpc.has]
      · show Hpc.has (Function.update s.at' t _ u) = true ↔ _
        rw [Function.update_of_ne hu, h.has u, (h.has t).1 (by rw [h1]; rfl)]
        constructor
        · intro h; cases h; exact absurd rfl hu
        · exact nofun
    · cases h2; rfl
  | answer h1 => exact ⟨fun u => lockInv_keep h.has (by rw [h1]; rfl) u, h.new⟩

theorem lockInv (h : Exec (EStep m c ryu le) (.new cap) tr s) : LockInv s := by
  induction h with
  | nil => exact ⟨fun t => by simp [ESys.new, Hpc.has], fun _ => rfl⟩
  | snoc _ hs ih => exact lockInv_step ih hs

/-! ## Where a request comes from -/

/-- What a step does to the position of a request. -/
theorem step_at {e : EEvent} (hs : EStep m c ryu le s e s') (t : Tid) : s'.at' t = s.at' t ∨
    (s.at' t = .out ∧ s'.at' t = .wait ∧ e = .call t) ∨
    (s.at' t = .wait ∧ s'.at' t = .head .requests ∧ e = .locked t ∧ s.lock = none ∧ s'.enc = s.enc) ∨
    (s.at' t = .wait ∧ s'.at' t = .out ∧ e = .base (.abandon t)) ∨
    (∃ i, s.at' t = .head i ∧ s'.at' t = .pass i ∧ e = .base (.on i (.vec (.startPass t))) ∧
      i.head m ryu s.enc = (.ok (), s'.enc)) ∨
    (∃ i acc, s.at' t = .pass i ∧ s'.at' t = i.next ∧ e = .base (.on i (.vec (.endPass t acc))) ∧ s'.enc = s.enc) ∨
    (∃ out, s.at' t = .fin ∧ s'.at' t = .made out ∧ e = .text t out ∧ s.enc.writer = out) ∨
    (∃ out, s.at' t = .made out ∧ s'.at' t = .out ∧ e = .base (.answer t 200)) ∨
    (s'.at' t = .crashed ∧ e = .crash t) := by
  cases hs with
  | run => exact .inl rfl
  | pass => exact .inl rfl
  | entry => exact .inl rfl
  | @call u _ _ h1 =>
    by_cases hu : t = u
    · subst hu; exact .inr (.inl ⟨h1, Function.update_self .., rfl⟩)
    · exact .inl (Function.update_of_ne hu ..)
  | @lock u h1 h2 =>
    by_cases hu : t = u
    · subst hu; exact .inr (.inr (.inl ⟨h1, Function.update_self .., rfl, h2, rfl⟩))
    · exact .inl (Function.update_of_ne hu ..)
  | @giveUp u _ h1 =>
    by_cases hu : t = u
    · subst hu; exact .inr (.inr (.inr (.inl ⟨h1, Function.update_self .., rfl⟩)))
    · exact .inl (Function.update_of_ne hu ..)
  | @head u i x enc h1 _ h3 =>
    by_cases hu : t = u
    · subst hu; exact .inr (.inr (.inr (.inr (.inl ⟨i, h1, Function.update_self .., rfl, h3⟩))))
    · exact .inl (Function.update_of_ne hu ..)
  | @headCrash u =>
    by_cases hu : t = u
    · subst hu; exact .inr (.inr (.inr (.inr (.inr (.inr (.inr (.inr ⟨Function.update_self .., rfl⟩)))))))
    · exact .inl (Function.update_of_ne hu ..)
  | @entryCrash u =>
    by_cases hu : t = u
    · subst hu; exact .inr (.inr (.inr (.inr (.inr (.inr (.inr (.inr ⟨Function.update_self .., rfl⟩)))))))
    · exact .inl (Function.update_of_ne hu ..)
  | @next u i acc x h1 =>
    by_cases hu : t = u
    · subst hu; exact .inr (.inr (.inr (.inr (.inr (.inl ⟨i, acc, h1, Function.update_self .., rfl, rfl⟩)))))
    · exact .inl (Function.update_of_ne hu ..)
  | @finish u out enc h1 h2 =>
    by_cases hu : t = u
    · subst hu
      exact .inr (.inr (.inr (.inr (.inr (.inr (.inl ⟨out, h1, Function.update_self .., rfl, by cases h2; rfl⟩))))))
    · exact .inl (Function.update_of_ne hu ..)
  | @answer u out x h1 =>
    by_cases hu : t = u
    · subst hu; exact .inr (.inr (.inr (.inr (.inr (.inr (.inr (.inl ⟨out, h1, Function.update_self .., rfl⟩)))))))
    · exact .inl (Function.update_of_ne hu ..)

/-- A request came to its place by one step, and has been there since. -/
theorem came {t : Tid} {q : Hpc} (h : Exec (EStep m c ryu le) (.new cap) tr s) (hq : s.at' t = q) (h0 : q ≠ .out) :
    ∃ tr₁ e tr₂ a b, tr = tr₁ ++ e :: tr₂ ∧ Exec (EStep m c ryu le) (.new cap) tr₁ a ∧ a.at' t ≠ q ∧ EStep m c ryu le a e b ∧
      b.at' t = q ∧ Exec (fun s e s' => EStep m c ryu le s e s' ∧ s.at' t = q ∧ s'.at' t = q) b tr₂ s :=
  last_entry (fun s => s.at' t = q) h (Ne.symm h0) hq

theorem from_wait {t : Tid} (h : Exec (EStep m c ryu le) (.new cap) tr s) (hq : s.at' t = .wait) :
    ∃ tr₁ tr₂ a b, tr = tr₁ ++ .call t :: tr₂ ∧ Exec (EStep m c ryu le) (.new cap) tr₁ a ∧ a.at' t = .out ∧
      EStep m c ryu le a (.call t) b ∧ Exec (fun s e s' => EStep m c ryu le s e s' ∧ s.at' t = .wait ∧ s'.at' t = .wait) b tr₂ s := by
  obtain ⟨tr₁, e, tr₂, a, b, rfl, h1, h2, h3, h4, h5⟩ := came h hq (by simp)
  have := step_at h3 t
  rw [h4] at this
  rcases this with h | h | h | h | ⟨i, h⟩ | ⟨i, acc, h⟩ | ⟨out, h⟩ | ⟨out, h⟩ | h
  · exact absurd h.symm h2
  · obtain ⟨h6, _, rfl⟩ := h; exact ⟨tr₁, tr₂, a, b, rfl, h1, h6, h3, h5⟩
  · exact absurd h.2.1 (by simp)
  · exact absurd h.2.1 (by simp)
  · exact absurd h.2.1 (by simp)
  · exact absurd h.2.1 (by cases i <;> simp [Vec.next])
  · exact absurd h.2.1 (by simp)
  · exact absurd h.2.1 (by simp)
  · exact absurd h.1 (by simp)

theorem from_locked {t : Tid} (h : Exec (EStep m c ryu le) (.new cap) tr s) (hq : s.at' t = .head .requests) :
    ∃ tr₁ tr₂ a b, tr = tr₁ ++ .locked t :: tr₂ ∧ Exec (EStep m c ryu le) (.new cap) tr₁ a ∧ a.at' t = .wait ∧
      EStep m c ryu le a (.locked t) b ∧ b.enc = .new [] ∧
      Exec (fun s e s' => EStep m c ryu le s e s' ∧ s.at' t = .head .requests ∧ s'.at' t = .head .requests) b tr₂ s := by
  obtain ⟨tr₁, e, tr₂, a, b, rfl, h1, h2, h3, h4, h5⟩ := came h hq (by simp)
  have := step_at h3 t
  rw [h4] at this
  rcases this with h | h | h | h | ⟨i, h⟩ | ⟨i, acc, h⟩ | ⟨out, h⟩ | ⟨out, h⟩ | h
  · exact absurd h.symm h2
  · exact absurd h.2.1 (by simp)
  · obtain ⟨h6, _, rfl, h7, h8⟩ := h
    exact ⟨tr₁, tr₂, a, b, rfl, h1, h6, h3, by rw [h8, (lockInv h1).new h7], h5⟩
  · exact absurd h.2.1 (by simp)
  · exact absurd h.2.1 (by simp)
  · exact absurd h.2.1 (by cases i <;> simp [Vec.next])
  · exact absurd h.2.1 (by simp)
  · exact absurd h.2.1 (by simp)
  · exact absurd h.1 (by simp)

theorem from_head {t : Tid} {i : Vec} (h : Exec (EStep m c ryu le) (.new cap) tr s) (hq : s.at' t = .pass i) :
    ∃ tr₁ tr₂ a b, tr = tr₁ ++ .base (.on i (.vec (.startPass t))) :: tr₂ ∧ Exec (EStep m c ryu le) (.new cap) tr₁ a ∧
      a.at' t = .head i ∧ EStep m c ryu le a (.base (.on i (.vec (.startPass t)))) b ∧ i.head m ryu a.enc = (.ok (), b.enc) ∧
      Exec (fun s e s' => EStep m c ryu le s e s' ∧ s.at' t = .pass i ∧ s'.at' t = .pass i) b tr₂ s := by
  obtain ⟨tr₁, e, tr₂, a, b, rfl, h1, h2, h3, h4, h5⟩ := came h hq (by simp)
  have := step_at h3 t
  rw [h4] at this
  rcases this with h | h | h | h | ⟨j, h⟩ | ⟨j, acc, h⟩ | ⟨out, h⟩ | ⟨out, h⟩ | h
  · exact absurd h.symm h2
  · exact absurd h.2.1 (by simp)
  · exact absurd h.2.1 (by simp)
  · exact absurd h.2.1 (by simp)
  · obtain ⟨h6, h7, rfl, h8⟩ := h
    cases h7
    exact ⟨tr₁, tr₂, a, b, rfl, h1, h6, h3, h8, h5⟩
  · exact absurd h.2.1 (by cases j <;> simp [Vec.next])
  · exact absurd h.2.1 (by simp)
  · exact absurd h.2.1 (by simp)
  · exact absurd h.1 (by simp)

theorem from_pass {t : Tid} {i : Vec} {q : Hpc} (h : Exec (EStep m c ryu le) (.new cap) tr s) (hq : s.at' t = q)
    (hi : q = i.next) :
    ∃ acc tr₁ tr₂ a b, tr = tr₁ ++ .base (.on i (.vec (.endPass t acc))) :: tr₂ ∧ Exec (EStep m c ryu le) (.new cap) tr₁ a ∧
      a.at' t = .pass i ∧ EStep m c ryu le a (.base (.on i (.vec (.endPass t acc)))) b ∧ b.enc = a.enc ∧
      Exec (fun s e s' => EStep m c ryu le s e s' ∧ s.at' t = q ∧ s'.at' t = q) b tr₂ s := by
  subst hi
  obtain ⟨tr₁, e, tr₂, a, b, rfl, h1, h2, h3, h4, h5⟩ := came h hq (by cases i <;> simp [Vec.next])
  have := step_at h3 t
  rw [h4] at this
  rcases this with h | h | h | h | ⟨j, h⟩ | ⟨j, acc, h⟩ | ⟨out, h⟩ | ⟨out, h⟩ | h
  · exact absurd h.symm h2
  · exact absurd h.2.1 (by cases i <;> simp [Vec.next])
  · exact absurd h.2.1 (by cases i <;> simp [Vec.next])
  · exact absurd h.2.1 (by cases i <;> simp [Vec.next])
  · exact absurd h.2.1 (by cases i <;> simp [Vec.next])
  · obtain ⟨h6, h7, rfl, h8⟩ := h
    have : i = j := by cases i <;> cases j <;> first | rfl | cases h7
    subst this
    exact ⟨acc, tr₁, tr₂, a, b, rfl, h1, h6, h3, h8, h5⟩
  · exact absurd h.2.1 (by cases i <;> simp [Vec.next])
  · exact absurd h.2.1 (by cases i <;> simp [Vec.next])
  · exact absurd h.1 (by cases i <;> simp [Vec.next])

/-! ## What is written -/

/-- The samples of entries, one after the other. -/
def Vec.entries (m : Mode) (ryu : F64 → Bytes) (le : List F64) (i : Vec) :
    List (i.groups.Group × List i.Call) → RS (TextEnc Bytes) Unit
  | [] => pure ()
  | q :: es => do
    i.entry m ryu le q
    Vec.entries m ryu le i es

theorem entries_append (i : Vec) (a : List (i.groups.Group × List i.Call)) (q : i.groups.Group × List i.Call)
    {e e' e'' : TextEnc Bytes} (h : i.entries m ryu le a e = (.ok (), e')) (h' : i.entry m ryu le q e' = (.ok (), e'')) :
    i.entries m ryu le (a ++ [q]) e = (.ok (), e'') := by
  induction a generalizing e with
  | nil =>
    cases h
    show (i.entry m ryu le q >>= fun _ => pure ()) e' = _
    rw [RS.bind_run, h']
    rfl
  | cons p a ih =>
    have h : (i.entry m ryu le p >>= fun _ => i.entries m ryu le a) e = (.ok (), e') := h
    show (i.entry m ryu le p >>= fun _ => i.entries m ryu le (a ++ [q])) e = _
    rw [RS.bind_run] at h ⊢
    cases hp : i.entry m ryu le p e with
    | mk o x =>
      rw [hp] at h
      cases o with
      | ok u => exact ih h
      | err => cases h
      | panic => cases h

/-- `collect_family_into` of a vector. -/
theorem field_run (i : Vec) (es : List (i.groups.Group × List i.Call)) :
    (do writeDocHelp (textEncoder m ryu) (i.field m le es).name (i.field m le es).docs
        (i.field m le es).run (textEncoder m ryu) (i.field m le es).name) =
      (do i.head m ryu; i.entries m ryu le es : RS (TextEnc Bytes) Unit) := by
  have key : ∀ es, (match (motive := (i : Vec) → List (i.groups.Group × List i.Call) → RS (TextEnc Bytes) Unit) i, es with
      | .requests, es => passSamples (textEncoder m ryu) Vec.requests.name (derivedLabels requestsDef Lab.shown) .counter (counterOps m) es
      | .responses, es => passSamples (textEncoder m ryu) Vec.responses.name (derivedLabels responsesDef Lab.shown) .counter (counterOps m) es
      | .duration, es => passSamples (textEncoder m ryu) Vec.duration.name (derivedLabels requestsDef Lab.shown) (.histogram le) (histOps le) es) =
      i.entries m ryu le es := by
    intro es
    cases i
    all_goals
      induction es with
      | nil => rfl
      | cons q es ih =>
        obtain ⟨g, us⟩ := q
        simp only [passSamples, Vec.entries, Vec.entry, ih, RS.bind_assoc']
  cases i
  all_goals
    simp only [Vec.head, RS.bind_assoc', ← key]
    rfl

/-- While a request has the mutex and stays where it is, nobody else touches the encoder. -/
theorem stay_step {t : Tid} {q : Hpc} (hI : LockInv s) (hq : q.has = true) {e : EEvent} (hs : EStep m c ryu le s e s')
    (h1 : s.at' t = q) (h2 : s'.at' t = q) :
    (s'.enc = s.enc ∧ ∀ i k g us, e ≠ .base (.on i (.shown t k g us))) ∨
      ∃ i k g us, q = .pass i ∧ e = .base (.on i (.shown t k g us)) ∧ i.entry m ryu le (g, us) s.enc = (.ok (), s'.enc) := by
  have ht := (hI.has t).1 (by rw [h1]; exact hq)
  have me : ∀ {u q'}, s.at' u = q' → q'.has = true → u = t := fun {u q'} a b => by
    have := (hI.has u).1 (by rw [a]; exact b)
    rw [ht] at this; cases this; rfl
  cases hs with
  | @run u f x h hs hu he =>
    refine .inl ⟨rfl, fun i k g us hf => ?_⟩
    cases hf
    have : t = u := hu
    subst this
    rw [h] at h1; subst h1; cases hq
  | call => exact .inl ⟨rfl, by simp⟩
  | lock => exact .inl ⟨rfl, by simp⟩
  | giveUp => exact .inl ⟨rfl, by simp⟩
  | @head u i x enc h =>
    obtain rfl := me h rfl
    rw [h] at h1; subst h1
    have : Hpc.pass i = .head i := (Function.update_self ..).symm.trans h2
    cases this
  | @headCrash u i o enc h =>
    obtain rfl := me h rfl
    rw [h] at h1; subst h1
    have : Hpc.crashed = .head i := (Function.update_self ..).symm.trans h2
    cases this
  | @pass u i f x h hs hu he =>
    refine .inl ⟨rfl, fun j k g us hf => ?_⟩
    cases hf
    exact he
  | @entry u i k g us x enc h hs he =>
    obtain rfl := me h rfl
    exact .inr ⟨i, k, g, us, by rw [← h1, h], rfl, he⟩
  | @entryCrash u i _ _ _ _ _ _ h =>
    obtain rfl := me h rfl
    rw [h] at h1; subst h1
    have : Hpc.crashed = .pass i := (Function.update_self ..).symm.trans h2
    cases this
  | next => exact .inl ⟨rfl, fun j k g us hf => by cases hf⟩
  | @finish u out enc h =>
    obtain rfl := me h rfl
    rw [h] at h1; subst h1
    have : Hpc.made out = .fin := (Function.update_self ..).symm.trans h2
    cases this
  | answer => exact .inl ⟨rfl, by simp⟩

theorem stay_inv {P : ESys → EEvent → ESys → Prop} (hI : LockInv s) (h : Exec (fun s e s' => EStep m c ryu le s e s' ∧ P s e s') s tr s') :
    LockInv s' := by
  induction h with
  | nil => exact hI
  | snoc _ hs ih => exact lockInv_step ih hs.1

theorem stay_enc {t : Tid} {q : Hpc} (hI : LockInv s) (hq : q.has = true) (hp : ∀ i, q ≠ .pass i)
    (h : Exec (fun s e s' => EStep m c ryu le s e s' ∧ s.at' t = q ∧ s'.at' t = q) s tr s') : s'.enc = s.enc := by
  induction h with
  | nil => rfl
  | snoc he hs ih =>
    rcases stay_step (stay_inv hI he) hq hs.1 hs.2.1 hs.2.2 with h | ⟨i, _, _, _, h, _⟩
    · exact h.1.trans ih
    · exact absurd h (hp i)

theorem shownBy_append {V U : Type} {n : Nat} (t : Tid) (a b : List (LVEvent V U n)) :
    shownBy t (a ++ b) = shownBy t a ++ shownBy t b := by
  induction a with
  | nil => rfl
  | cons e a ih =>
    cases e with
    | shown u _ _ _ =>
      simp only [List.cons_append, shownBy, ih]
      split <;> simp
    | _ => exact ih

/-- What request `t` has read of a vector. -/
def took (t : Tid) (i : Vec) (tr : List EEvent) : List (i.groups.Group × List i.Call) := shownBy t (onVector i (onVecs (baseEvents tr)))

theorem took_append (t : Tid) (i : Vec) (a b : List EEvent) : took t i (a ++ b) = took t i a ++ took t i b := by
  simp only [took, baseEvents_append, onVecs_append, onVector_append, shownBy_append]

theorem took_other {t : Tid} {i : Vec} {e : EEvent} (h : ∀ k g us, e ≠ .base (.on i (.shown t k g us))) : took t i [e] = [] := by
  cases e with
  | base e =>
    cases e with
    | on j f =>
      simp only [took, baseEvents, onVecs, onVector]
      split
      · rename_i hj
        subst hj
        cases f with
        | shown u k g us =>
          simp only [shownBy]
          split
          · rename_i hu; subst hu; exact absurd rfl (h k g us)
          · rfl
        | _ => rfl
      · rfl
    | _ => rfl
  | _ => rfl

theorem stay_pass {t : Tid} {i : Vec} (hI : LockInv s)
    (h : Exec (fun s e s' => EStep m c ryu le s e s' ∧ s.at' t = .pass i ∧ s'.at' t = .pass i) s tr s') :
    i.entries m ryu le (took t i tr) s.enc = (.ok (), s'.enc) ∧ .on i (.vec (.startPass t)) ∉ baseEvents tr := by
  induction h with
  | nil => exact ⟨rfl, by simp [baseEvents]⟩
  | @snoc tr x e y he hs ih =>
    refine ⟨?_, ?_⟩
    · rw [took_append]
      rcases stay_step (stay_inv hI he) rfl hs.1 hs.2.1 hs.2.2 with ⟨h1, h2⟩ | ⟨j, k, g, us, h1, rfl, h2⟩
      · rw [took_other fun k g us => h2 i k g us, List.append_nil, h1]
        exact ih.1
      · cases h1
        have : took t i [.base (.on i (.shown t k g us))] = [(g, us)] := by
          simp [took, baseEvents, onVecs, onVector, shownBy]
        rw [this]
        exact entries_append i _ _ ih.1 h2
    · rw [baseEvents_append, List.mem_append, not_or]
      refine ⟨ih.2, fun hm => ?_⟩
      cases e with
      | base f =>
        rw [baseEvents, baseEvents, List.mem_singleton] at hm
        subst hm
        have h1 := hs.2.1
        have h2 := hs.2.2
        cases hs.1 with
        | run h _ hu =>
          have : t = _ := hu
          subst this
          rw [h] at h1; cases h1
        | head h =>
          rw [h] at h1; cases h1
        | pass _ _ _ he => exact he
      | _ => cases hm

/-- While a request has the mutex: nobody gets it, and nobody else has made a text. -/
theorem held_step {t : Tid} (hI : LockInv s) (hl : s.lock = some t) {e : EEvent} (hs : EStep m c ryu le s e s') :
    (∃ out, e = .text t out) ∨ (s'.lock = some t ∧ ∀ u out, e ≠ .locked u ∧ e ≠ .text u out) := by
  cases hs with
  | run => exact .inr ⟨hl, by simp⟩
  | call => exact .inr ⟨hl, by simp⟩
  | lock h h' => rw [hl] at h'; cases h'
  | giveUp => exact .inr ⟨hl, by simp⟩
  | head => exact .inr ⟨hl, by simp⟩
  | headCrash => exact .inr ⟨hl, by simp⟩
  | pass => exact .inr ⟨hl, by simp⟩
  | entry => exact .inr ⟨hl, by simp⟩
  | entryCrash => exact .inr ⟨hl, by simp⟩
  | next => exact .inr ⟨hl, by simp⟩
  | @finish u out enc h =>
    have := (hI.has u).1 (by rw [h]; rfl)
    rw [hl] at this
    cases this
    exact .inl ⟨out, rfl⟩
  | answer => exact .inr ⟨hl, by simp⟩

/-- The mutex is neither given nor released. -/
def EEvent.Quiet (e : EEvent) : Prop := ∀ u out, e ≠ .locked u ∧ e ≠ .text u out

theorem stay_quiet {t : Tid} {q : Hpc} (hI : LockInv s) (hq : q.has = true)
    (h : Exec (fun s e s' => EStep m c ryu le s e s' ∧ s.at' t = q ∧ s'.at' t = q) s tr s') : ∀ e ∈ tr, e.Quiet := by
  induction h with
  | nil => simp
  | snoc he hs ih =>
    intro e hm
    rcases List.mem_append.1 hm with hm | hm
    · exact ih e hm
    · obtain rfl := List.mem_singleton.1 hm
      have hI' := stay_inv hI he
      rcases held_step hI' ((hI'.has t).1 (by rw [hs.2.1]; exact hq)) hs.1 with ⟨out, rfl⟩ | ⟨_, h⟩
      · have := hs.1
        cases this with
        | finish h' =>
          rw [hs.2.1] at h'
          subst h'
          have : Hpc.made _ = .fin := (Function.update_self ..).symm.trans hs.2.2
          cases this
      · exact h

theorem regCollect_step (i : Vec) (es : List (i.groups.Group × List i.Call)) (fs : List ScrapeField) {e e' e'' : TextEnc Bytes}
    (h1 : i.head m ryu e = (.ok (), e')) (h2 : i.entries m ryu le es e' = (.ok (), e'')) :
    regCollect (textEncoder m ryu) (i.field m le es :: fs) e = regCollect (textEncoder m ryu) fs e'' := by
  have h : regCollect (textEncoder m ryu) (i.field m le es :: fs) = (do
      i.head m ryu; i.entries m ryu le es : RS (TextEnc Bytes) Unit) >>= fun _ => regCollect (textEncoder m ryu) fs := by
    rw [← field_run, RS.bind_assoc']
    rfl
  rw [h, RS.bind_run, RS.bind_run, h1]
  dsimp only
  rw [h2]

/-- How a request came to the end of its collection. -/
structure ExportRun (m : Mode) (ryu : F64 → Bytes) (le : List F64) (t : Tid) (tr : List EEvent) (out : Bytes) (T₀ T₁ : List EEvent)
    (A B C : Vec → List EEvent) (acc : (i : Vec) → List (Key × List i.Call)) : Prop where
  split : ∀ i, tr = A i ++ .base (.on i (.vec (.startPass t))) :: B i ++ .base (.on i (.vec (.endPass t (acc i)))) :: C i
  first : T₀ ++ .call t :: T₁ ++ [.locked t] <+: A .requests
  second : A .requests ++ .base (.on .requests (.vec (.startPass t))) :: B .requests ++
    [.base (.on .requests (.vec (.endPass t (acc .requests))))] <+: A .responses
  third : A .responses ++ .base (.on .responses (.vec (.startPass t))) :: B .responses ++
    [.base (.on .responses (.vec (.endPass t (acc .responses))))] <+: A .duration
  once : ∀ i, .on i (.vec (.startPass t)) ∉ baseEvents (B i)
  alone : ∃ W, tr = T₀ ++ .call t :: T₁ ++ .locked t :: W ∧ ∀ e ∈ W, e.Quiet
  text : handler m ryu le (fun i => took t i (B i)) (.new []) = (.ok out, .new [])

theorem export_run {t : Tid} (h : Exec (EStep m c ryu le) (.new cap) tr s) (hf : s.at' t = .fin) :
    ∃ T₀ T₁ A B C acc, ExportRun m ryu le t tr s.enc.writer T₀ T₁ A B C acc := by
  obtain ⟨k3, U3, V3, a3, b3, rfl, e3, p3, st3, q3, w3⟩ := from_pass h hf (i := .duration) rfl
  obtain ⟨X3, B3, c3, d3, rfl, f3, r3, hst3, y3, v3⟩ := from_head e3 p3
  obtain ⟨k2, U2, V2, a2, b2, rfl, e2, p2, st2, q2, w2⟩ := from_pass f3 r3 (i := .responses) rfl
  obtain ⟨X2, B2, c2, d2, rfl, f2, r2, hst2, y2, v2⟩ := from_head e2 p2
  obtain ⟨k1, U1, V1, a1, b1, rfl, e1, p1, st1, q1, w1⟩ := from_pass f2 r2 (i := .requests) rfl
  obtain ⟨X1, B1, c1, d1, rfl, f1, r1, hst1, y1, v1⟩ := from_head e1 p1
  obtain ⟨L, V0, a0, b0, rfl, e0, p0, st0, q0, w0⟩ := from_locked f1 r1
  obtain ⟨T₀, T₁, _, _, rfl, _⟩ := from_wait e0 p0
  have n0 := stay_enc (lockInv_step (lockInv e0) st0) rfl (by simp) w0
  obtain ⟨x1, o1⟩ := stay_pass (lockInv_step (lockInv f1) hst1) v1
  have n1 := stay_enc (lockInv_step (lockInv e1) st1) rfl (by simp) w1
  obtain ⟨x2, o2⟩ := stay_pass (lockInv_step (lockInv f2) hst2) v2
  have n2 := stay_enc (lockInv_step (lockInv e2) st2) rfl (by simp) w2
  obtain ⟨x3, o3⟩ := stay_pass (lockInv_step (lockInv f3) hst3) v3
  have n3 := stay_enc (lockInv_step (lockInv e3) st3) rfl (by simp) w3
  let A : Vec → List EEvent := fun
    | .requests => T₀ ++ .call t :: T₁ ++ .locked t :: V0
    | .responses => T₀ ++ .call t :: T₁ ++ .locked t :: V0 ++ .base (.on .requests (.vec (.startPass t))) :: B1 ++
        .base (.on .requests (.vec (.endPass t k1))) :: V1
    | .duration => T₀ ++ .call t :: T₁ ++ .locked t :: V0 ++ .base (.on .requests (.vec (.startPass t))) :: B1 ++
        .base (.on .requests (.vec (.endPass t k1))) :: V1 ++ .base (.on .responses (.vec (.startPass t))) :: B2 ++
        .base (.on .responses (.vec (.endPass t k2))) :: V2
  let B : Vec → List EEvent := fun | .requests => B1 | .responses => B2 | .duration => B3
  let C : Vec → List EEvent := fun
    | .requests => V1 ++ .base (.on .responses (.vec (.startPass t))) :: B2 ++
        .base (.on .responses (.vec (.endPass t k2))) :: V2 ++ .base (.on .duration (.vec (.startPass t))) :: B3 ++
        .base (.on .duration (.vec (.endPass t k3))) :: V3
    | .responses => V2 ++ .base (.on .duration (.vec (.startPass t))) :: B3 ++
        .base (.on .duration (.vec (.endPass t k3))) :: V3
    | .duration => V3
  refine ⟨T₀, T₁, A, B, C, fun | .requests => k1 | .responses => k2 | .duration => k3, ⟨fun i => ?_, ?_, ?_, ?_, fun i => ?_, ?_, ?_⟩⟩
  · cases i <;> simp [A, B, C]
  · exact ⟨V0, by simp [A]⟩
  · exact ⟨V1, by simp [A, B]⟩
  · exact ⟨V2, by simp [A, B]⟩
  · cases i
    · exact o1
    · exact o2
    · exact o3
  · refine ⟨V0 ++ .base (.on .requests (.vec (.startPass t))) :: B1 ++
        .base (.on .requests (.vec (.endPass t k1))) :: V1 ++ .base (.on .responses (.vec (.startPass t))) :: B2 ++
        .base (.on .responses (.vec (.endPass t k2))) :: V2 ++ .base (.on .duration (.vec (.startPass t))) :: B3 ++
        .base (.on .duration (.vec (.endPass t k3))) :: V3, by simp, fun e he => ?_⟩
    have z : ∀ f, (EEvent.base f).Quiet := fun f u out => by simp
    simp only [List.mem_append, List.mem_cons, List.append_assoc, List.cons_append] at he
    rcases he with he | rfl | he | rfl | he | rfl | he | rfl | he | rfl | he | rfl | he
    · exact stay_quiet (lockInv_step (lockInv e0) st0) rfl w0 e he
    · exact z _
    · exact stay_quiet (lockInv_step (lockInv f1) hst1) rfl v1 e he
    · exact z _
    · exact stay_quiet (lockInv_step (lockInv e1) st1) rfl w1 e he
    · exact z _
    · exact stay_quiet (lockInv_step (lockInv f2) hst2) rfl v2 e he
    · exact z _
    · exact stay_quiet (lockInv_step (lockInv e2) st2) rfl w2 e he
    · exact z _
    · exact stay_quiet (lockInv_step (lockInv f3) hst3) rfl v3 e he
    · exact z _
    · exact stay_quiet (lockInv_step (lockInv e3) st3) rfl w3 e he
  · simp only [handler]
    rw [RS.bind_run, regCollect_step .requests _ _ (by rw [← q0, ← n0]; exact y1) x1,
      regCollect_step .responses _ _ (by rw [← q1, ← n1]; exact y2) x2,
      regCollect_step .duration _ _ (by rw [← q2, ← n2]; exact y3) x3, ← q3, ← n3]
    rfl

end

end Measured.Server
